import Verif.Klm.PhraseRead
import Verif.Props.C95
/-!
# C97: the phrase filter of the language model filter

`Verif/Klm/PhraseFilterSpec.lean` says what the sentences and phrases of a text are and when a line is
kept.  The theorems hold for every hash function and every priority queue.
-/
namespace Cdec.Klm.Phrase
open Filter (Txt Flt Call wrap NoEmpty GoodLine runArpa runRaw Adds doCalls ArpaOut wordsOf)
open FilterSpec (arpaText linesText looked ngramWords Tag readArpa)
open PhraseSpec

variable {H : Type} [DecidableEq H]

theorem makeHashes_eq (hw : Txt → H) (ws : List Txt) (hne : NoEmpty ws) : makeHashes hw ws = (core ws).map hw := by
  unfold makeHashes core
  have hp : (fun w : Txt => w != "</s>".toList) = fun w => decide (w ≠ "</s>".toList) := by
    funext w; rw [Bool.eq_iff_iff, bne_iff_ne, decide_eq_true_eq]
  rw [hp]
  cases ws with
  | nil => rfl
  | cons w t =>
    simp only []
    have ht := Filter.isTag_iff w (hne w (by simp))
    unfold Filter.isTag at ht
    by_cases h : Tag w
    · rw [if_pos h, if_pos (ht.mpr h)]
    · rw [if_neg h, if_neg (fun h' => h (ht.mp h'))]

section
variable (hw : Txt → H) (mix : H → H → H) (h0 : H)

/-- The filter lets the words through to the files with the numbers `x`. -/
def Lets (t : Table H) (x : Nat) (g : List Txt) : Prop :=
  g = [] ∨ Reach (buildGraph t mix h0 (g.map hw)) x (g.length - 1)

variable {hw mix h0} {t : Table H} {id : Nat} {S : List (List (List Txt))}

theorem lets_of_covers (h : TabInv hw mix h0 t id (PhraseIn S)) {x : Nat} {ps : List (List Txt)} (hx : S[x]? = some ps)
    {g : List Txt} (hc : Covers ps g) : Lets hw mix h0 t x g := by
  by_cases hg : g = []
  · exact Or.inl hg
  · obtain ⟨qs, h1, h2⟩ := hc
    exact Or.inr (reach_of_covers h g hg x qs (fun p hp => ⟨ps, hx, h1 p hp⟩) h2)

theorem covers_of_lets (h : TabInv hw mix h0 t id (PhraseIn S)) (hd : Distinct hw mix h0) {x : Nat} {ps : List (List Txt)}
    (hx : S[x]? = some ps) {g : List Txt} (hl : Lets hw mix h0 t x g) : Covers ps g := by
  rcases hl with rfl | hr
  · exact ⟨[], by simp, by simp⟩
  · obtain ⟨qs, h1, h2⟩ := reach_covers h hd g x hr
    refine ⟨qs, fun q hq => ?_, h2⟩
    obtain ⟨ps', h3, h4⟩ := h1 q hq
    rw [hx] at h3; cases h3; exact h4

theorem sents_lt (h : TabInv hw mix h0 t id (PhraseIn S)) (g : List Txt) :
    ∀ a ∈ buildGraph t mix h0 (g.map hw), ∀ x ∈ a.sents, x < S.length := by
  intro a ha x hx
  obtain ⟨p, ps, h1, _⟩ := graph_sents h g a ha x hx
  exact (List.getElem?_eq_some_iff.mp h1).1

open Classical in
theorem multiple_adds {pq : PQ} {ok : (Nat → Nat) → List Nat → Prop} (hpq : pq.Valid ok) (raw context : Bool)
    (h : TabInv hw mix h0 t id (PhraseIn S)) :
    Adds raw (wrap context (multipleFilter hw mix h0 pq (S.length + 1) t)) S.length (GoodLine raw context)
      (fun k line => decide (Lets hw mix h0 t k (core (looked context (ngramWords raw line))))) := by
  refine Filter.adds_of (fun ws line => if makeHashes hw ws = [] then some [.all line] else
      (multipleLoop pq (buildGraph t mix h0 (makeHashes hw ws)) ((makeHashes hw ws).length - 1) (S.length + 1)
        (makeGraph pq (buildGraph t mix h0 (makeHashes hw ws))) 0).map fun ks => ks.map fun k => .one k line)
    (fun k ws => decide (Lets hw mix h0 t k (core ws))) (fun g line => ?_) (fun ws line hne => ?_)
  · simp only [multipleFilter, Filter.wordsOf_spec]
  · rw [makeHashes_eq hw ws hne]
    by_cases hc : core ws = []
    · rw [hc]
      refine ⟨[.all line], rfl, fun files hn => ⟨_, rfl, by simpa using hn, fun k o ho => ⟨fun _ => ?_, fun h' => ?_⟩⟩⟩
      · rw [List.getElem?_map, ho]; rfl
      · exact absurd (by simp [Lets]) h'
    · rw [if_neg (by simpa using hc)]
      have hl := makeGraph_local hpq (buildGraph t mix h0 ((core ws).map hw))
      obtain ⟨ks, h1, h2, h3⟩ := multipleLoop_spec hpq (graph_ok h (core ws)) (sents_lt h (core ws))
        (((core ws).map hw).length - 1) (S.length + 1) _ 0 (by omega) (by omega) (fun w _ => hl w)
      refine ⟨ks.map fun k => .one k line, by rw [h1]; rfl, fun files hn => ?_⟩
      rw [List.length_map] at h3
      have hlt : ∀ k ∈ ks, k < files.length := fun k hk => by
        rw [hn]; exact reach_lt (sents_lt h (core ws)) ((h3 k).mp hk).2
      obtain ⟨fs, f1, f2, f3⟩ := Filter.doCalls_ones files line ks h2 hlt
      refine ⟨fs, f1, by omega, fun k o ho => ?_⟩
      have hiff : k ∈ ks ↔ Lets hw mix h0 t k (core ws) := by
        rw [h3]; simp [Lets, hc]
      have := f3 k o ho
      constructor
      · intro h'
        rw [this, if_pos (hiff.mpr (by simpa using h'))]
      · intro h'
        rw [this, if_neg (fun h'' => h' (by simpa using hiff.mp h''))]

open Classical in
theorem union_adds {pq : PQ} {ok : (Nat → Nat) → List Nat → Prop} (hpq : pq.Valid ok) (raw context : Bool)
    (h : TabInv hw mix h0 t id (PhraseIn S)) :
    Adds raw (wrap context (unionFilter hw mix h0 pq (S.length + 1) t)) 1 (GoodLine raw context)
      (fun _ line => decide (Bare raw context line ∨ ∃ k < S.length,
        Lets hw mix h0 t k (core (looked context (ngramWords raw line))))) := by
  refine Filter.adds_of (fun ws line => (passUnion hw mix h0 pq (S.length + 1) t ws).map fun b => if b then [.all line] else [])
    (fun _ ws => decide (core ws = [] ∨ ∃ k < S.length, Lets hw mix h0 t k (core ws))) (fun g line => ?_)
    (fun ws line hne => ?_)
  · simp only [unionFilter, Filter.wordsOf_spec]
  · have hpass : ∃ b, passUnion hw mix h0 pq (S.length + 1) t ws = some b ∧
        (b = true ↔ (core ws = [] ∨ ∃ k < S.length, Lets hw mix h0 t k (core ws))) := by
      unfold passUnion
      simp only [makeHashes_eq hw ws hne]
      by_cases hc : core ws = []
      · rw [hc]; exact ⟨true, rfl, by simp⟩
      · rw [if_neg (by simpa using hc)]
        have hl := makeGraph_local hpq (buildGraph t mix h0 ((core ws).map hw))
        obtain ⟨b, h1, h2⟩ := unionLoop_spec hpq (graph_ok h (core ws)) (sents_lt h (core ws))
          (((core ws).map hw).length - 1) (S.length + 1) _ 0 (by omega) (by omega) (fun w _ => hl w)
        refine ⟨b, h1, h2.trans ?_⟩
        rw [List.length_map]
        constructor
        · rintro ⟨x, _, hx⟩
          exact Or.inr ⟨x, reach_lt (sents_lt h (core ws)) hx, Or.inr hx⟩
        · rintro (h' | ⟨x, _, h' | h'⟩)
          · exact absurd h' hc
          · exact absurd h' hc
          · exact ⟨x, Nat.zero_le _, h'⟩
    obtain ⟨b, h1, h2⟩ := hpass
    refine ⟨if b then [.all line] else [], by rw [h1]; rfl, fun files hn => ?_⟩
    by_cases hb : b = true
    · rw [if_pos hb]
      refine ⟨_, rfl, by simpa using hn, fun k o ho => ⟨fun _ => ?_, fun h' => absurd (by simpa using h2.mp hb) h'⟩⟩
      rw [List.getElem?_map, ho]; rfl
    · rw [if_neg hb]
      exact ⟨files, rfl, hn, fun k o ho => ⟨fun h' => absurd (h2.mpr (by simpa using h')) hb, fun _ => ho⟩⟩

end

/-- What a filter may let through for the sentence `ps`: all the lines that are kept for it, and when
no two lists of words have the same hash, only these. -/
structure Fits (distinct : Prop) (raw context : Bool) (ps : List (List Txt)) (keep : Txt → Bool) : Prop where
  all : ∀ l, Kept raw context ps l → keep l = true
  only : distinct → ∀ l, keep l = true → Kept raw context ps l

/-- The same for the sentences `S` together. -/
structure FitsUnion (distinct : Prop) (raw context : Bool) (S : List (List (List Txt))) (keep : Txt → Bool) : Prop where
  all : ∀ l, Bare raw context l ∨ (∃ ps ∈ S, Kept raw context ps l) → keep l = true
  only : distinct → ∀ l, keep l = true → Bare raw context l ∨ ∃ ps ∈ S, Kept raw context ps l

section
variable {hw : Txt → H} {mix : H → H → H} {h0 : H} {t : Table H} {id : Nat} {S : List (List (List Txt))}

open Classical in
theorem fits (h : TabInv hw mix h0 t id (PhraseIn S)) (raw context : Bool) {k : Nat} {ps : List (List Txt)}
    (hk : S[k]? = some ps) : Fits (Distinct hw mix h0) raw context ps
      (fun line => decide (Lets hw mix h0 t k (core (looked context (ngramWords raw line))))) :=
  ⟨fun _ hl => decide_eq_true (lets_of_covers h hk hl), fun hd _ hl => covers_of_lets h hd hk (of_decide_eq_true hl)⟩

open Classical in
theorem fitsUnion (h : TabInv hw mix h0 t id (PhraseIn S)) (raw context : Bool) :
    FitsUnion (Distinct hw mix h0) raw context S (fun line => decide (Bare raw context line ∨ ∃ k < S.length,
        Lets hw mix h0 t k (core (looked context (ngramWords raw line))))) := by
  refine ⟨fun l hl => decide_eq_true ?_, fun hd l hl => ?_⟩
  · rcases hl with hl | ⟨ps, hps, hl⟩
    · exact Or.inl hl
    · obtain ⟨k, hk⟩ := List.mem_iff_getElem?.mp hps
      exact Or.inr ⟨k, (List.getElem?_eq_some_iff.mp hk).1, lets_of_covers h hk hl⟩
  · rcases of_decide_eq_true hl with hl | ⟨k, hk, hl⟩
    · exact Or.inl hl
    · have hk' : S[k]? = some S[k] := List.getElem?_eq_getElem hk
      exact Or.inr ⟨S[k], List.getElem_mem hk, covers_of_lets h hd hk' hl⟩

end

section Main
variable (hw : Txt → H) (mix : H → H → H) (h0 : H) (pq : PQ) (ok : (Nat → Nat) → List Nat → Prop) (hpq : pq.Valid ok)
  (context : Bool) (vocab : Txt)
include hpq

/-- **C97 (multiple).**  For every text of phrases and every ARPA file: there is one output file for each
sentence, with the lines that stand in some string of the phrases of that sentence (whatever the
hash function), and with no other lines if no two lists of words have the same hash. -/
theorem C97_multiple (sections : List (List Txt)) (h : ∀ sec ∈ sections, ∀ l ∈ sec, GoodLine false context l) :
    ∃ out, runArpa (multipleMode hw mix h0 pq context vocab) sections = some out ∧
      out.length = (sentences vocab).length ∧
      ∀ (k : Nat) (ps : List (List Txt)), (sentences vocab)[k]? = some ps → ∃ blank keep,
        Fits (Distinct hw mix h0) false context ps keep ∧
        out[k]? = some (arpaText blank (sections.map fun sec => sec.filter keep)) := by
  obtain ⟨e, id, ht⟩ := readMultiple_spec hw mix h0 vocab
  unfold runArpa multipleMode
  simp only [e, Option.bind_some]
  obtain ⟨out, h1, h2, h3⟩ := Filter.filterArpa_spec (multiple_adds hpq false context ht) sections h
  refine ⟨out, h1, h2, fun k ps hk => ?_⟩
  obtain ⟨blank, hb⟩ := h3 k (List.getElem?_eq_some_iff.mp hk).1
  exact ⟨blank, _, fits ht false context hk, hb⟩

/-- **C97 (union).**  The output has the lines that are kept for some sentence and those with nothing
to look at. -/
theorem C97_union (sections : List (List Txt)) (h : ∀ sec ∈ sections, ∀ l ∈ sec, GoodLine false context l) :
    ∃ blank keep, FitsUnion (Distinct hw mix h0) false context (sentences vocab) keep ∧
      runArpa (unionMode hw mix h0 pq context vocab) sections =
        some [arpaText blank (sections.map fun sec => sec.filter keep)] := by
  obtain ⟨e, id, ht⟩ := readMultiple_spec hw mix h0 vocab
  unfold runArpa unionMode
  simp only [e, Option.bind_some]
  obtain ⟨out, h1, h2, h3⟩ := Filter.filterArpa_spec (union_adds hpq false context ht) sections h
  obtain ⟨blank, hb⟩ := h3 0 Nat.one_pos
  refine ⟨blank, _, fitsUnion ht false context, ?_⟩
  rw [h1]
  match out, h2, hb with
  | [x], _, hb => simpa using hb

/-- **C97 (counts).**  The same for files of counts. -/
theorem C97_raw (ls : List Txt) (h : ∀ l ∈ ls, GoodLine true context l) :
    (∃ keep, FitsUnion (Distinct hw mix h0) true context (sentences vocab) keep ∧
      runRaw (unionMode hw mix h0 pq context vocab) ls = some [linesText (ls.filter keep)]) ∧
    ∃ out, runRaw (multipleMode hw mix h0 pq context vocab) ls = some out ∧
      out.length = (sentences vocab).length ∧
      ∀ (k : Nat) (ps : List (List Txt)), (sentences vocab)[k]? = some ps → ∃ keep,
        Fits (Distinct hw mix h0) true context ps keep ∧ out[k]? = some (linesText (ls.filter keep)) := by
  obtain ⟨e, id, ht⟩ := readMultiple_spec hw mix h0 vocab
  constructor
  · unfold runRaw unionMode
    simp only [e, Option.bind_some]
    obtain ⟨out, h1, h2, h3⟩ := Filter.filterRaw_spec (union_adds hpq true context ht) ls h
    have hb := h3 0 Nat.one_pos
    refine ⟨_, fitsUnion ht true context, ?_⟩
    rw [h1]
    match out, h2, hb with
    | [x], _, hb => simpa using hb
  · unfold runRaw multipleMode
    simp only [e, Option.bind_some]
    obtain ⟨out, h1, h2, h3⟩ := Filter.filterRaw_spec (multiple_adds hpq true context ht) ls h
    exact ⟨out, h1, h2, fun k ps hk => ⟨_, fits ht true context hk, h3 k (List.getElem?_eq_some_iff.mp hk).1⟩⟩

omit [DecidableEq H] hpq in
/-- **C97 (room).**  The graph has no more arcs than `MakeGraph` makes room for. -/
theorem C97_room (t : Table H) [DecidableEq H] (hashes : List H) :
    (buildGraph t mix h0 hashes).length ≤ ((hashes.length + 1) * hashes.length) / 2 := by
  have h1 := length_fromArcs (t := t) (mix := mix) (h0 := h0) hashes.tail 0
  have h2 := length_gen (t := t) (mix := mix) none Rel.substring Rel.right hashes h0 0
  rw [← rightArcs_eq] at h2
  rw [Nat.le_div_iff_mul_le (by omega)]
  unfold buildGraph
  rw [List.length_append]
  cases hashes with
  | nil => simp [rightArcs, fromArcs]
  | cons w ws =>
    simp only [List.tail_cons, List.length_cons] at h1 h2 ⊢
    have h3 : (ws.length + 1 + 1) * (ws.length + 1) = (ws.length + 1) * ws.length + 2 * (ws.length + 1) := by
      rw [Nat.add_mul, Nat.mul_add (ws.length + 1), Nat.add_mul (ws.length) 1 1]; omega
    omega

end Main

/-! ## Scores -/

section Scores
omit [DecidableEq H]
variable {K : Type}

theorem infix_of_snoc {ws p : List Txt} {e : Txt} (h : p <:+: ws ++ [e]) (he : e ∉ p) : p <:+: ws := by
  obtain ⟨a, b, hab⟩ := h
  rcases List.eq_nil_or_concat b with rfl | ⟨b', z, hb⟩
  · rcases List.eq_nil_or_concat p with rfl | ⟨p', z, rfl⟩
    · exact List.nil_infix
    · exfalso
      apply he
      have := congrArg List.getLast? hab
      simp at this
      simp [this]
  · subst hb
    refine ⟨a, b', ?_⟩
    have hab' : (a ++ p ++ b') ++ [z] = ws ++ [e] := by rw [← hab]; simp
    exact (List.append_inj' hab' rfl).1

theorem core_infix {bos : Txt} (hb : Tag bos) {ws g : List Txt} (h : g <:+: bos :: (ws ++ ["</s>".toList])) :
    core g <:+: ws := by
  have key : ∀ t : List Txt, t <:+: ws ++ ["</s>".toList] → t.takeWhile (fun w => decide (w ≠ "</s>".toList)) <:+: ws := by
    intro t ht
    refine infix_of_snoc ((List.takeWhile_prefix _).isInfix.trans ht) fun hm => ?_
    have := List.all_eq_true.mp (List.all_takeWhile (p := fun w : Txt => decide (w ≠ "</s>".toList)) (l := t)) _ hm
    simp at this
  unfold core
  apply key
  cases g with
  | nil => exact List.nil_infix
  | cons w t =>
    obtain ⟨a, b, hab⟩ := h
    simp only []
    cases a with
    | nil =>
      simp only [List.nil_append, List.cons_append, List.cons.injEq] at hab
      rw [if_pos (hab.1 ▸ hb)]
      exact ⟨[], b, by simpa using hab.2⟩
    | cons v a =>
      simp only [List.cons_append, List.cons.injEq] at hab
      have hi : w :: t <:+: ws ++ ["</s>".toList] := ⟨a, b, by simpa using hab.2⟩
      split
      · exact (List.suffix_cons w t).isInfix.trans hi
      · exact hi

theorem kept_infix (context : Bool) {bos : Txt} (hb : Tag bos) {ps qs : List (List Txt)} (hq : ∀ q ∈ qs, q ∈ ps) {l : Txt}
    (h : ngramWords false l <:+: bos :: (qs.flatten ++ ["</s>".toList])) : Kept false context ps l := by
  refine ⟨qs, hq, core_infix hb (List.IsInfix.trans ?_ h)⟩
  unfold looked
  split
  · exact (List.dropLast_prefix _).isInfix
  · exact List.infix_refl _

/-- **C97 (queries).**  The program loads the full ARPA file and one that has at least the lines that are
kept for the phrases `ps`: on every sentence that is a string of these phrases, from `<s>` to
`</s>`, both tables give the same answer. -/
theorem C97_query [DecidableEq K] [AddCommGroup K] (ident : Txt → Nat) (hi : Function.Injective ident)
    (val : Txt → K × K) (unk : K × K) (context : Bool) (ps : List (List Txt)) (keep : Txt → Bool)
    (hk : ∀ l, Kept false context ps l → keep l = true)
    (sections : List (List Txt)) (hr : (readArpa ident val unk sections).Regular)
    (sign sign' : Nat → Bool) (full small : LM.Search K)
    (hfull : LM.buildHashed (readArpa ident val unk sections) sign = some full)
    (hsmall : LM.buildHashed (readArpa ident val unk (sections.map (·.filter keep))) sign' = some small)
    (bos : Txt) (hb : Tag bos) (qs : List (List Txt)) (hq : ∀ q ∈ qs, q ∈ ps) :
    LM.queryAll small (LM.beginSentence small (ident bos)) ((qs.flatten ++ ["</s>".toList]).map ident) =
      LM.queryAll full (LM.beginSentence full (ident bos)) ((qs.flatten ++ ["</s>".toList]).map ident) := by
  rw [LM.C67_sentence _ hr sign full hfull, LM.C67_sentence _ (Filter.regular_filter hr) sign' small hsmall]
  unfold LM.Spec.Arpa.sentence LM.Spec.sentenceScore
  rw [← List.map_reverse]
  -- n-grams of the text are not dropped
  have safe : ∀ g : List Txt, g.reverse <:+: bos :: (qs.flatten ++ ["</s>".toList]) →
      Filter.Safe ident keep (g.map ident) := by
    intro g hg l hl
    apply hk
    apply kept_infix context hb hq
    have : ((ngramWords false l).reverse).map ident = g.map ident := by rw [List.map_reverse, hl]
    have := (List.map_injective_iff.mpr hi) this
    rw [← List.reverse_reverse (ngramWords false l), this]
    exact hg
  have hsuf : (qs.flatten ++ ["</s>".toList]).reverse <:+ (qs.flatten ++ ["</s>".toList]).reverse := List.suffix_refl _
  revert hsuf
  generalize hvs : (qs.flatten ++ ["</s>".toList]).reverse = vs
  rw [show vs <:+ vs ↔ vs <:+ (qs.flatten ++ ["</s>".toList]).reverse by rw [hvs]]
  clear hvs
  intro hsuf
  induction vs with
  | nil => rfl
  | cons v vs ih =>
    have ih := ih ((List.suffix_cons v vs).trans hsuf)
    have hall : ∀ g, g <:+: (v :: vs) ++ [bos] → g.reverse <:+: bos :: (qs.flatten ++ ["</s>".toList]) := by
      intro g hg
      have h1 : ((v :: vs) ++ [bos]).reverse <+: bos :: (qs.flatten ++ ["</s>".toList]) := by
        rw [List.reverse_append]
        simp only [List.reverse_singleton, List.singleton_append]
        have := List.reverse_prefix.mpr hsuf
        rw [List.reverse_reverse] at this
        exact List.cons_prefix_cons.mpr ⟨rfl, this⟩
      exact (List.reverse_infix.mpr hg).trans h1.isInfix
    have hord : (readArpa ident val unk (sections.map (·.filter keep))).order =
        (readArpa ident val unk sections).order := by simp [readArpa]
    have hscore : (readArpa ident val unk (sections.map (·.filter keep))).score (ident v) ((vs ++ [bos]).map ident) =
        (readArpa ident val unk sections).score (ident v) ((vs ++ [bos]).map ident) := by
      unfold LM.Spec.Arpa.score
      apply Filter.score_congr
      · intro h' hp
        obtain ⟨u, hu, rfl⟩ := Filter.map_prefix hp
        unfold LM.Spec.Arpa.prob
        rw [Filter.look_filter]
        exact safe (v :: u) (hall _ (List.cons_prefix_cons.mpr ⟨rfl, hu⟩).isInfix)
      · intro h' hp
        obtain ⟨u, hu, rfl⟩ := Filter.map_prefix hp
        unfold LM.Spec.Arpa.backoff
        rw [hord, Filter.look_filter]
        exact safe u (hall _ (hu.isInfix.trans (List.suffix_cons v (vs ++ [bos])).isInfix))
    simp only [LM.Spec.Arpa.score, List.map_append, List.map_cons, List.map_nil] at hscore
    simp only [List.map_cons, LM.Spec.stringScore, hscore, ih]

end Scores

/-! ## Non-vacuity and a disagreement -/

/-- A hash without collisions. -/
theorem distinct_id : Distinct (H := List Txt) (fun w => [w]) (· ++ ·) [] := by
  have : ∀ (q a : List Txt), (q.map fun w => [w]).foldl (· ++ ·) a = a ++ q := by
    intro q
    induction q with
    | nil => intro a; simp
    | cons w q ih => intro a; simp only [List.map_cons, List.foldl_cons, ih]; simp
  intro p q _ _ h
  unfold keyOf at h
  rw [this, this] at h
  exact h

/-- A queue that is kept sorted. -/
def sortedPush (k : Nat → Nat) (a : Nat) : List Nat → List Nat
  | [] => [a]
  | b :: l => if k a ≤ k b then a :: b :: l else b :: sortedPush k a l

def sortedPQ : PQ := ⟨sortedPush, fun _ l => l.tail⟩

theorem sortedPush_perm (k : Nat → Nat) (a : Nat) (l : List Nat) : (sortedPush k a l).Perm (a :: l) := by
  induction l with
  | nil => exact List.Perm.refl _
  | cons b l ih =>
    unfold sortedPush
    split
    · exact List.Perm.refl _
    · exact (ih.cons b).trans (List.Perm.swap a b l)

theorem sortedPQ_valid : sortedPQ.Valid (fun k l => l.Pairwise fun a b => k a ≤ k b) where
  nil _ := .nil
  congr k k' l h hl := hl.imp_of_mem fun ha hb hab => by rw [← h _ ha, ← h _ hb]; exact hab
  front k a l h b hb := List.rel_of_pairwise_cons h hb
  pop_perm k a l _ := List.Perm.refl _
  pop_ok k a l h := h.of_cons
  push_perm k a l _ := sortedPush_perm k a l
  push_ok k a l h := by
    simp only [sortedPQ]
    induction l with
    | nil => exact List.pairwise_singleton _ _
    | cons b l ih =>
      unfold sortedPush
      split
      · rename_i hab
        refine List.pairwise_cons.mpr ⟨fun c hc => ?_, h⟩
        rcases List.mem_cons.mp hc with rfl | hc
        · exact hab
        · exact Nat.le_trans hab (List.rel_of_pairwise_cons h hc)
      · rename_i hab
        refine List.pairwise_cons.mpr ⟨fun c hc => ?_, ih h.of_cons⟩
        rcases List.mem_cons.mp ((sortedPush_perm k a l).mem_iff.mp hc) with rfl | hc
        · omega
        · exact List.rel_of_pairwise_cons h hc

/-- Two sentences with phrases `a b`, `c` and `b`, `c c`; a blank line between them. -/
def sampleVocab : Txt := "a b\tc\n \nb\tc c\n".toList

def sampleLines : List Txt := ["b c".toList, "<s> b a </s>".toList, "c c b".toList, "c b".toList, "a a".toList]

/-- The program run on it. -/
example : runRaw (multipleMode (H := List Txt) (fun w => [w]) (· ++ ·) [] sortedPQ false sampleVocab) sampleLines =
    some ["b c\n<s> b a </s>\n".toList, "b c\nc c b\nc b\n".toList] := by decide +kernel

example : runRaw (unionMode (H := List Txt) (fun w => [w]) (· ++ ·) [] sortedPQ false sampleVocab) sampleLines =
    some ["b c\n<s> b a </s>\nc c b\nc b\n".toList] := by decide +kernel

/-- The hypotheses of the theorems are met. -/
example : ∃ out, runRaw (multipleMode (H := List Txt) (fun w => [w]) (· ++ ·) [] sortedPQ false sampleVocab) sampleLines =
      some out ∧ out.length = 2 ∧
    ∃ keep, (∀ l, Kept true false [["a".toList, "b".toList], ["c".toList]] l ↔ keep l = true) ∧
      out[0]? = some (linesText (sampleLines.filter keep)) := by
  obtain ⟨out, h1, h2, h3⟩ := (C97_raw (H := List Txt) (fun w => [w]) (· ++ ·) [] sortedPQ _ sortedPQ_valid false sampleVocab
    sampleLines (by decide)).2
  obtain ⟨keep, h4, h5⟩ := h3 0 [["a".toList, "b".toList], ["c".toList]] (by decide +kernel)
  exact ⟨out, h1, h2.trans (by decide +kernel), keep, fun l => ⟨h4.all l, h4.only distinct_id l⟩, h5⟩

/-- A bigram file with the end of sentence. -/
def querySample : List (List Txt) :=
  [["-1\t<s>\t-3".toList, "-1\ta\t-3".toList, "-1\tb\t-3".toList, "-1\t</s>".toList],
   ["-2\t<s> a".toList, "-1\ta b".toList, "-2\ta a".toList]]

/-- The numbers of a line. -/
def unkVal (l : Txt) : Int × Int :=
  (if l.take 2 = "-2".toList then -2 else -1, if 3 ≤ (FilterSpec.fields l).length then -3 else 0)

open Classical in
/-- The sentence `a a </s>` after `<s>`, of the phrase `a`: -8 in both models; a line is dropped. -/
example : ¬ Kept false false [["a".toList]] "-1\ta b".toList ∧ ∃ full small : LM.Search Int,
    LM.buildHashed (readArpa Filter.code unkVal (-9, 0) querySample) (fun _ => true) = some full ∧
    LM.buildHashed (readArpa Filter.code unkVal (-9, 0) (querySample.map (·.filter fun l =>
      decide (Kept false false [["a".toList]] l)))) (fun _ => true) = some small ∧
    LM.queryAll small (LM.beginSentence small (Filter.code "<s>".toList))
      (([["a".toList], ["a".toList]].flatten ++ ["</s>".toList]).map Filter.code) = -8 := by
  refine ⟨?_, ?_⟩
  · rintro ⟨qs, h1, h2⟩
    rw [show core (looked false (ngramWords false "-1\ta b".toList)) = ["a".toList, "b".toList] by decide +kernel] at h2
    have : "b".toList ∈ qs.flatten := h2.subset (by simp)
    obtain ⟨q, hq, hm⟩ := List.mem_flatten.mp this
    rw [List.mem_singleton.mp (h1 q hq)] at hm
    exact absurd hm (by decide)
  have hr : (readArpa Filter.code unkVal (-9, 0) querySample).Regular := by
    refine ⟨by decide, fun n h1 h2 => ?_, fun n h1 h2 => ?_⟩ <;>
    · obtain rfl : n = 2 := by have : n ≤ 2 := h2; omega
      decide +kernel
  obtain ⟨full, hf⟩ := LM.C69_accepts _ hr (fun _ => true) (by decide +kernel)
    (fun n h1 h2 => by have : n ≤ 2 := h2; omega)
  have h0 : ∀ l ∈ querySample.getD 1 [], (unkVal l).2 = 0 := by decide +kernel
  obtain ⟨small, hs⟩ := LM.C69_accepts _
    (Filter.regular_filter (keep := fun l => decide (Kept false false [["a".toList]] l)) hr) (fun _ => true)
    (fun g hg => by
      obtain ⟨l, hl, rfl⟩ := List.mem_map.mp hg
      have hl : l ∈ (querySample.getD 1 []).filter fun l => decide (Kept false false [["a".toList]] l) := hl
      exact h0 l (List.mem_of_mem_filter hl))
    (fun n h1 h2 => by have : n ≤ 2 := h2; omega)
  refine ⟨full, small, hf, hs, ?_⟩
  rw [C97_query Filter.code Filter.code_injective unkVal (-9, 0) false [["a".toList]] _ (by simp) querySample hr _ _ full small
    hf hs "<s>".toList (by decide) _ (by simp), LM.C67_sentence _ hr _ full hf]
  decide +kernel

/-- A bigram file in which `b` is unknown. -/
def unkSample : List (List Txt) := [["-1\t<unk>".toList, "-1\ta\t-3".toList], ["-2\ta <unk>".toList]]

/-- **C97, unknown words.**  A word that the model does not know is scored as `<unk>`.  The filter looks
at `<unk>` as at a word unless it is the first of the n-gram, so it drops n-grams with `<unk>` that
the model uses: here the phrase `a b` with `b` unknown, and the bigram `a <unk>`. -/
theorem C97_unk_fails :
    ¬ ∀ (ident : Txt → Nat) (val : Txt → Int × Int) (unk : Int × Int) (ps : List (List Txt)) (keep : Txt → Bool)
        (sections : List (List Txt)) (p : List Txt) (w : Txt) (h : List Txt),
      (∀ l, keep l = true ↔ Kept false false ps l) → (∀ v, ident v = ident "<unk>".toList ∨
        ∀ u, ident u = ident v → u = v) → p ∈ ps → p = h.reverse ++ [w] →
      (readArpa ident val unk (sections.map (·.filter keep))).score (ident w) (h.map ident) =
        (readArpa ident val unk sections).score (ident w) (h.map ident) := by
  classical
  intro hall
  have h := hall (fun v => if v = "a".toList then 1 else 0) unkVal (-9, 0) [["a".toList, "b".toList]]
    (fun l => decide (Kept false false [["a".toList, "b".toList]] l)) unkSample ["a".toList, "b".toList] "b".toList
    ["a".toList] (fun l => decide_eq_true_iff) (fun v => ?_) (by simp) rfl
  · have k1 : Kept false false [["a".toList, "b".toList]] "-1\t<unk>".toList :=
      ⟨[], by simp, by rw [show core (looked false (ngramWords false "-1\t<unk>".toList)) = [] by decide +kernel]; simp⟩
    have k2 : Kept false false [["a".toList, "b".toList]] "-1\ta\t-3".toList := by
      refine ⟨[["a".toList, "b".toList]], by simp, ?_⟩
      rw [show core (looked false (ngramWords false "-1\ta\t-3".toList)) = ["a".toList] by decide +kernel]
      exact ⟨[], ["b".toList], rfl⟩
    have k3 : ¬ Kept false false [["a".toList, "b".toList]] "-2\ta <unk>".toList := by
      rintro ⟨qs, h1, h2⟩
      rw [show core (looked false (ngramWords false "-2\ta <unk>".toList)) = ["a".toList, "<unk>".toList] by decide +kernel] at h2
      have : "<unk>".toList ∈ qs.flatten := h2.subset (by simp)
      obtain ⟨q, hq, hm⟩ := List.mem_flatten.mp this
      rw [List.mem_singleton.mp (h1 q hq)] at hm
      exact absurd hm (by decide)
    have e : (unkSample.map (·.filter fun l => decide (Kept false false [["a".toList, "b".toList]] l))) =
        [["-1\t<unk>".toList, "-1\ta\t-3".toList], []] := by
      simp only [unkSample, List.map_cons, List.map_nil, List.filter_cons, List.filter_nil, decide_eq_true k1,
        decide_eq_true k2, decide_eq_false k3, if_true, Bool.false_eq_true, if_false]
    rw [e] at h
    exact absurd h (by decide +kernel)
  · by_cases hv : v = "a".toList
    · right
      intro u hu
      subst hv
      by_contra hc
      simp only [if_true, if_neg hc] at hu
      omega
    · left
      simp only [if_neg hv]
      decide

end Cdec.Klm.Phrase
