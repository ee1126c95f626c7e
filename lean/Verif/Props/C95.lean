import Verif.Klm.FilterRun
import Verif.Props.C67
import Verif.Props.C69
/-!
# C95: the vocabulary filters of the language model filter

`Verif/Klm/FilterSpec.lean` says what a vocabulary, an n-gram line and an ARPA file are.
-/
namespace Cdec.Klm.Filter
open FilterSpec

/-- The line has an n-gram; when only the context is looked at the n-gram is not empty and does not
end in a space. -/
def GoodLine (raw context : Bool) (line : Txt) : Prop :=
  (raw = false → 2 ≤ (fields line).length) ∧
  (context = true → ngramField raw line ≠ [] ∧ (ngramField raw line).getLast? ≠ some ' ')

instance (raw context : Bool) (line : Txt) : Decidable (GoodLine raw context line) :=
  inferInstanceAs (Decidable (_ ∧ _))

theorem adds_of {raw context : Bool} {f : Flt} {n : Nat} (F : List Txt → Txt → Option (List Call))
    (cond : Nat → List Txt → Bool)
    (hf : ∀ g line, f g line = F ((g.splitOnP (· == ' ')).filter (· ≠ [])) line)
    (hF : ∀ ws line, NoEmpty ws → ∃ cs, F ws line = some cs ∧
      ∀ files : List ArpaOut, files.length = n → ∃ fs, doCalls files cs = some fs ∧ fs.length = n ∧
        ∀ (k : Nat) (o : ArpaOut), files[k]? = some o → (cond k ws = true → fs[k]? = some (o.addNGram line)) ∧
          (¬ cond k ws = true → fs[k]? = some o)) :
    Adds raw (wrap context f) n (GoodLine raw context)
      (fun k line => cond k (looked context (ngramWords raw line))) := by
  intro line hl
  have hne : NoEmpty (looked context (ngramWords raw line)) := by
    have h0 : NoEmpty (ngramWords raw line) := noEmpty_filter _
    intro w hw
    cases context with
    | false => exact h0 w hw
    | true => exact h0 w (List.dropLast_subset _ hw)
  obtain ⟨cs, h1, h2⟩ := hF (looked context (ngramWords raw line)) line hne
  refine ⟨_, cs, ngramOf_spec raw line hl.1, ?_, h2⟩
  rw [← h1]
  cases context with
  | false => simp only [wrap, Bool.false_eq_true, if_false, hf]; rfl
  | true =>
    obtain ⟨g1, g2⟩ := hl.2 rfl
    simp only [wrap, if_true, contextFilter, if_neg g1, hf, context_words _ g1 g2]
    rfl

theorem single_adds (raw context : Bool) (V : List Txt) :
    Adds raw (wrap context (singleFilter V)) 1 (GoodLine raw context)
      (fun _ line => decide (Kept raw context V line)) := by
  refine adds_of (fun ws line => some (if passSingle V ws then [.all line] else []))
    (fun _ ws => decide (Within V ws)) (fun g line => ?_) (fun ws line hne => ⟨_, rfl, fun files hn => ?_⟩)
  · simp only [singleFilter, wordsOf_spec, Option.map_some]
  · by_cases h : Within V ws
    · rw [if_pos ((passSingle_iff V ws hne).mpr h)]
      refine ⟨_, rfl, by simpa using hn, fun k o ho => ⟨fun _ => ?_, fun h' => absurd (by simpa using h) h'⟩⟩
      rw [List.getElem?_map, ho]; rfl
    · rw [if_neg (fun h' => h ((passSingle_iff V ws hne).mp h'))]
      exact ⟨files, rfl, hn, fun k o ho => ⟨fun h' => absurd (by simpa using h') h, fun _ => ho⟩⟩

theorem union_adds {srt : List (List Nat) → List (List Nat)} (hs : ∀ x, (srt x).Perm x) (raw context : Bool)
    (S : List (List Txt)) :
    Adds raw (wrap context (unionFilter srt (idx S))) 1 (GoodLine raw context)
      (fun _ line => decide ((∀ w ∈ looked context (ngramWords raw line), Tag w) ∨
        ∃ s ∈ S, Kept raw context s line)) := by
  refine adds_of (fun ws line => (passUnion srt (idx S) ws).map fun b => if b then [.all line] else [])
    (fun _ ws => decide ((∀ w ∈ ws, Tag w) ∨ ∃ s ∈ S, Within s ws)) (fun g line => ?_) (fun ws line hne => ?_)
  · simp only [unionFilter, wordsOf_spec]
  · obtain ⟨b, h1, h2⟩ := passUnion_spec hs S ws hne
    refine ⟨if b then [.all line] else [], by rw [h1]; rfl, fun files hn => ?_⟩
    by_cases h : b = true
    · rw [if_pos h]
      refine ⟨_, rfl, by simpa using hn, fun k o ho => ⟨fun _ => ?_, fun h' => absurd (by simpa using h2.mp h) h'⟩⟩
      rw [List.getElem?_map, ho]; rfl
    · rw [if_neg h]
      exact ⟨files, rfl, hn, fun k o ho => ⟨fun h' => absurd (h2.mpr (by simpa using h')) h, fun _ => ho⟩⟩

theorem multiple_adds {srt : List (List Nat) → List (List Nat)} (hs : ∀ x, (srt x).Perm x) (raw context : Bool)
    (S : List (List Txt)) :
    Adds raw (wrap context (multipleFilter srt (idx S))) S.length (GoodLine raw context)
      (fun k line => decide (Kept raw context (S.getD k []) line)) := by
  refine adds_of (fun ws line => match collect (idx S) ws with
      | none => some []
      | some [] => some [.all line]
      | some (x :: xs) => (allIntersection (srt (x :: xs))).map fun ks => ks.map fun k => .one k line)
    (fun k ws => decide (Within (S.getD k []) ws)) (fun g line => ?_) (fun ws line hne => ?_)
  · simp only [multipleFilter, wordsOf_spec]
    rfl
  · have hget : ∀ (files : List ArpaOut), files.length = S.length → ∀ (k : Nat) (o : ArpaOut), files[k]? = some o →
        S[k]? = some (S.getD k []) := by
      intro files hn k o ho
      have hk := (List.getElem?_eq_some_iff.mp ho).1
      rw [List.getD_eq_getElem?_getD, List.getElem?_eq_getElem (by omega)]; rfl
    rcases collect_spec (idx S) ws with ⟨e, w, hw, hp⟩ | ⟨e, hp⟩
    · refine ⟨[], by simp only [e], fun files hn => ⟨files, rfl, hn, fun k o ho => ⟨fun h' => ?_, fun _ => ho⟩⟩⟩
      have h' : Within (S.getD k []) ws := by simpa using h'
      have := (within_iff _ ws hne).mp h' w hw
      have : k ∈ idx S w := mem_idx.mpr ⟨_, hget files hn k o ho, this⟩
      rw [hp] at this; cases this
    · rcases hq : plain ws with _ | ⟨v, vs⟩
      · rw [hq] at e
        refine ⟨[.all line], by simp only [e, List.map_nil], fun files hn =>
          ⟨_, rfl, by simpa using hn, fun k o ho => ⟨fun _ => ?_, fun h' => absurd ?_ h'⟩⟩⟩
        · rw [List.getElem?_map, ho]; rfl
        · rw [decide_eq_true_eq, within_iff _ ws hne, hq]; simp
      · rw [hq] at e
        obtain ⟨ks, h1, h2, h3⟩ := C52_all_intersection (idx S v :: vs.map (idx S))
          (srt (idx S v :: vs.map (idx S))) (hs _) (by simp) (by
            intro s hs'
            rw [← List.map_cons (f := idx S)] at hs'
            obtain ⟨u, _, rfl⟩ := List.mem_map.mp hs'
            exact idx_sorted S u)
        refine ⟨ks.map fun k => .one k line, by simp only [e, List.map_cons, h1, Option.map_some], fun files hn => ?_⟩
        have hlt : ∀ k ∈ ks, k < files.length := by
          intro k hk
          have := (h2 k).mp hk (idx S v) (by simp)
          rw [hn]; exact idx_lt this
        obtain ⟨fs, f1, f2, f3⟩ := doCalls_ones files line ks h3 hlt
        refine ⟨fs, f1, by omega, fun k o ho => ?_⟩
        have hiff : k ∈ ks ↔ Within (S.getD k []) ws := by
          rw [h2, within_iff _ ws hne, hq]
          constructor
          · intro h u hu
            have hu' : idx S u ∈ idx S v :: vs.map (idx S) := by
              rw [← List.map_cons (f := idx S)]; exact List.mem_map.mpr ⟨u, hu, rfl⟩
            obtain ⟨s, s1, s2⟩ := mem_idx.mp (h _ hu')
            rw [hget files hn k o ho] at s1
            cases s1; exact s2
          · intro h s hs'
            rw [← List.map_cons (f := idx S)] at hs'
            obtain ⟨u, hu, rfl⟩ := List.mem_map.mp hs'
            exact mem_idx.mpr ⟨_, hget files hn k o ho, h u hu⟩
        have := f3 k o ho
        constructor
        · intro h'
          rw [this, if_pos (hiff.mpr (by simpa using h'))]
        · intro h'
          rw [this, if_neg (fun h'' => h' (by simpa using hiff.mp h''))]

/-- **C95 (single).**  For every vocabulary and every ARPA file: the output is the ARPA file of the
lines whose words (all but the last, with `context`) are tags or words of the vocabulary, in the
same sections and order, with the numbers of these lines in the header. -/
theorem C95_single (context : Bool) (vocab : Txt) (sections : List (List Txt))
    (h : ∀ sec ∈ sections, ∀ l ∈ sec, GoodLine false context l) :
    ∃ blank, runArpa (singleMode context vocab) sections =
      some [arpaText blank (sections.map fun sec => sec.filter fun l =>
        decide (Kept false context (words vocab) l))] := by
  unfold runArpa singleMode
  rw [readSingle_spec _ vocab (Nat.lt_succ_self _)]
  obtain ⟨out, h1, h2, h3⟩ := filterArpa_spec (single_adds false context (words vocab)) sections h
  obtain ⟨blank, hb⟩ := h3 0 Nat.one_pos
  refine ⟨blank, ?_⟩
  simp only [Option.map_some, Option.bind_some, h1]
  match out, h2, hb with
  | [x], _, hb => simpa using hb

/-- **C95 (union).**  The output has the lines that are kept for some sentence of the vocabulary, and
those with nothing but tags to look at. -/
theorem C95_union (srt : List (List Nat) → List (List Nat)) (hs : ∀ x, (srt x).Perm x)
    (context : Bool) (vocab : Txt) (sections : List (List Txt))
    (h : ∀ sec ∈ sections, ∀ l ∈ sec, GoodLine false context l) :
    ∃ blank, runArpa (unionMode srt context vocab) sections =
      some [arpaText blank (sections.map fun sec => sec.filter fun l =>
        decide ((∀ w ∈ looked context (ngramWords false l), Tag w) ∨
          ∃ s ∈ sentences vocab, Kept false context s l))] := by
  unfold runArpa unionMode
  rw [readMultiple_spec vocab]
  obtain ⟨out, h1, h2, h3⟩ := filterArpa_spec (union_adds hs false context (sentences vocab)) sections h
  obtain ⟨blank, hb⟩ := h3 0 Nat.one_pos
  refine ⟨blank, ?_⟩
  simp only [Option.map_some, Option.bind_some, h1]
  match out, h2, hb with
  | [x], _, hb => simpa using hb

/-- **C95 (multiple).**  There is one output file for each sentence of the vocabulary (each line that
is not blank), and it has exactly the lines that are kept for that sentence: what `single` mode
writes when the sentence is the vocabulary. -/
theorem C95_multiple (srt : List (List Nat) → List (List Nat)) (hs : ∀ x, (srt x).Perm x)
    (context : Bool) (vocab : Txt) (sections : List (List Txt))
    (h : ∀ sec ∈ sections, ∀ l ∈ sec, GoodLine false context l) :
    ∃ out, runArpa (multipleMode srt context vocab) sections = some out ∧
      out.length = (sentences vocab).length ∧
      ∀ (k : Nat) (s : List Txt), (sentences vocab)[k]? = some s → ∃ blank, out[k]? = some (arpaText blank
        (sections.map fun sec => sec.filter fun l => decide (Kept false context s l))) := by
  unfold runArpa multipleMode
  rw [readMultiple_spec vocab]
  obtain ⟨out, h1, h2, h3⟩ := filterArpa_spec (multiple_adds hs false context (sentences vocab)) sections h
  refine ⟨out, h1, h2, fun k s hk => ?_⟩
  have hkl := (List.getElem?_eq_some_iff.mp hk).1
  obtain ⟨blank, hb⟩ := h3 k hkl
  have : (sentences vocab).getD k [] = s := by rw [List.getD_eq_getElem?_getD, hk]; rfl
  rw [this] at hb
  exact ⟨blank, hb⟩

/-- **C95 (counts).**  The same for files of counts, in the three modes. -/
theorem C95_raw (srt : List (List Nat) → List (List Nat)) (hs : ∀ x, (srt x).Perm x)
    (context : Bool) (vocab : Txt) (ls : List Txt) (h : ∀ l ∈ ls, GoodLine true context l) :
    runRaw (singleMode context vocab) ls =
        some [linesText (ls.filter fun l => decide (Kept true context (words vocab) l))] ∧
      runRaw (unionMode srt context vocab) ls =
        some [linesText (ls.filter fun l => decide ((∀ w ∈ looked context (ngramWords true l), Tag w) ∨
          ∃ s ∈ sentences vocab, Kept true context s l))] ∧
      runRaw (multipleMode srt context vocab) ls =
        some ((sentences vocab).map fun s => linesText (ls.filter fun l => decide (Kept true context s l))) := by
  refine ⟨?_, ?_, ?_⟩
  · unfold runRaw singleMode
    rw [readSingle_spec _ vocab (Nat.lt_succ_self _)]
    obtain ⟨out, h1, h2, h3⟩ := filterRaw_spec (single_adds true context (words vocab)) ls h
    have hb := h3 0 Nat.one_pos
    simp only [Option.map_some, Option.bind_some, h1]
    match out, h2, hb with
    | [x], _, hb => simpa using hb
  · unfold runRaw unionMode
    rw [readMultiple_spec vocab]
    obtain ⟨out, h1, h2, h3⟩ := filterRaw_spec (union_adds hs true context (sentences vocab)) ls h
    have hb := h3 0 Nat.one_pos
    simp only [Option.map_some, Option.bind_some, h1]
    match out, h2, hb with
    | [x], _, hb => simpa using hb
  · unfold runRaw multipleMode
    rw [readMultiple_spec vocab]
    obtain ⟨out, h1, h2, h3⟩ := filterRaw_spec (multiple_adds hs true context (sentences vocab)) ls h
    simp only [Option.map_some, Option.bind_some, h1, Option.some.injEq]
    apply List.ext_getElem?
    intro k
    by_cases hk : k < (sentences vocab).length
    · rw [h3 k hk, List.getElem?_map, List.getElem?_eq_getElem hk]
      simp [List.getD_eq_getElem?_getD, List.getElem?_eq_getElem hk]
    · rw [List.getElem?_eq_none (by omega), List.getElem?_eq_none (by simpa using hk)]

/-! ## Scores -/

section Scores
variable {K : Type}

theorem lookup_filter {ident : Txt → Nat} {val : Txt → K × K} {keep : Txt → Bool} {g : List Nat}
    (sec : List Txt) (h : ∀ l ∈ sec, ((ngramWords false l).map ident).reverse = g → keep l = true) :
    (readSection ident val (sec.filter keep)).lookup g = (readSection ident val sec).lookup g := by
  induction sec with
  | nil => rfl
  | cons l sec ih =>
    have ih := ih fun x hx => h x (by simp [hx])
    by_cases hg : g = ((ngramWords false l).map ident).reverse
    · have hk := h l (by simp) hg.symm
      rw [List.filter_cons_of_pos hk]
      simp [readSection, hg]
    · have hne : (g == ((ngramWords false l).map ident).reverse) = false := by simpa using hg
      by_cases hk : keep l = true
      · rw [List.filter_cons_of_pos hk]
        simp only [readSection, List.map_cons, List.lookup_cons, hne] at ih ⊢
        exact ih
      · rw [List.filter_cons_of_neg hk, ih]
        simp only [readSection, List.map_cons, List.lookup_cons, hne]

/-- n-grams that the filter cannot drop -/
def Safe (ident : Txt → Nat) (keep : Txt → Bool) (g : List Nat) : Prop :=
  ∀ l, ((ngramWords false l).map ident).reverse = g → keep l = true

theorem look_filter {ident : Txt → Nat} {val : Txt → K × K} {unk : K × K} {keep : Txt → Bool}
    (sections : List (List Txt)) {g : List Nat} (hg : Safe ident keep g) :
    (readArpa ident val unk (sections.map (·.filter keep))).look g =
      (readArpa ident val unk sections).look g := by
  have hget : ∀ i, (sections.map (·.filter keep)).getD i [] = (sections.getD i []).filter keep := by
    intro i
    simp only [List.getD_eq_getElem?_getD, List.getElem?_map]
    cases sections[i]? <;> rfl
  match g with
  | [] => rfl
  | [w] =>
    simp only [LM.Spec.Arpa.look, readArpa, hget]
    rw [lookup_filter _ fun l _ => hg l]
  | a :: b :: t =>
    simp only [LM.Spec.Arpa.look, readArpa, hget, List.length_map]
    rw [lookup_filter _ fun l _ => hg l]
    rfl

theorem score_congr [AddCommGroup K] {p p' : List Nat → Option K} {b b' : List Nat → K} (w : Nat) (h : List Nat)
    (hp : ∀ h', h' <+: h → p (w :: h') = p' (w :: h')) (hb : ∀ h', h' <+: h → b h' = b' h') :
    LM.Spec.score p b w h = LM.Spec.score p' b' w h := by
  generalize hn : h.length = n
  induction n generalizing h with
  | zero =>
    rw [List.length_eq_zero_iff] at hn
    subst hn
    rw [LM.Spec.score.eq_def, LM.Spec.score.eq_def, hp [] (List.prefix_refl _)]
  | succ n ih =>
    cases h with
    | nil => simp at hn
    | cons a t =>
      rw [LM.Spec.score.eq_def, LM.Spec.score.eq_def p', hp _ (List.prefix_refl _)]
      have hd : (a :: t).dropLast <+: a :: t := List.dropLast_prefix _
      have hl : (a :: t).dropLast.length = n := by simp at hn ⊢; omega
      have := ih (a :: t).dropLast (fun h' hh => hp h' (hh.trans hd)) (fun h' hh => hb h' (hh.trans hd)) hl
      cases p' (w :: a :: t) with
      | some q => rfl
      | none => simp only [hb _ (List.prefix_refl _), this]

theorem within_sub {S a b : List Txt} (h : ∀ w ∈ a, w ∈ b) (hb : Within S b) : Within S a :=
  fun w hw => hb w (h w hw)

theorem safe_of {ident : Txt → Nat} (hi : Function.Injective ident) {keep : Txt → Bool} {context : Bool}
    {S : List Txt} (hk : ∀ l, Kept false context S l → keep l = true) (w : Txt) (h : List Txt)
    (hh : Within S h) (hw : context = false → Tag w ∨ w ∈ S) : Safe ident keep (ident w :: h.map ident) := by
  intro l hl
  apply hk
  have h1 : (ngramWords false l).reverse = w :: h := by
    have : ((ngramWords false l).reverse).map ident = (w :: h).map ident := by
      rw [List.map_reverse, hl]; rfl
    exact (List.map_injective_iff.mpr hi) this
  have h2 : ngramWords false l = h.reverse ++ [w] := by
    rw [← List.reverse_reverse (ngramWords false l), h1]; simp
  unfold Kept
  rw [h2]
  cases context with
  | true => simp only [looked, if_true, List.dropLast_concat]; exact within_sub (by simp) hh
  | false =>
    intro x hx
    simp only [looked, Bool.false_eq_true, if_false, List.mem_append, List.mem_reverse, List.mem_singleton] at hx
    rcases hx with hx | rfl
    · exact hh x hx
    · exact hw rfl

theorem map_prefix {f : Txt → Nat} {h : List Txt} {g : List Nat} (hg : g <+: h.map f) :
    ∃ h', h' <+: h ∧ g = h'.map f := by
  refine ⟨h.take g.length, List.take_prefix _ _, ?_⟩
  rw [List.map_take]
  exact List.prefix_iff_eq_take.mp hg

/-- **C95 (scores).**  Whatever filter keeps at least the lines that are kept for the words `S`: the
filtered model gives every word of `S` (with `context`, every word at all) the score of the full
model after every history of words of `S`. -/
theorem C95_scores [AddCommGroup K] (ident : Txt → Nat) (hi : Function.Injective ident) (val : Txt → K × K) (unk : K × K)
    (context : Bool) (S : List Txt) (keep : Txt → Bool) (hk : ∀ l, Kept false context S l → keep l = true)
    (sections : List (List Txt)) (w : Txt) (h : List Txt) (hh : Within S h)
    (hw : context = false → Tag w ∨ w ∈ S) :
    (readArpa ident val unk (sections.map (·.filter keep))).score (ident w) (h.map ident) =
      (readArpa ident val unk sections).score (ident w) (h.map ident) := by
  unfold LM.Spec.Arpa.score
  apply score_congr
  · intro h' hp
    obtain ⟨u, hu, rfl⟩ := map_prefix hp
    unfold LM.Spec.Arpa.prob
    rw [look_filter]
    exact safe_of hi hk w u (within_sub (fun x hx => hu.subset hx) hh) hw
  · intro h' hp
    obtain ⟨u, hu, rfl⟩ := map_prefix hp
    have hord : (readArpa ident val unk (sections.map (·.filter keep))).order =
        (readArpa ident val unk sections).order := by simp [readArpa]
    unfold LM.Spec.Arpa.backoff
    rw [hord, look_filter]
    cases u with
    | nil =>
      intro l hl
      apply hk
      have : ngramWords false l = [] := by simpa using hl
      unfold Kept looked
      rw [this]
      cases context <;> intro x hx <;> cases hx
    | cons a u =>
      have hall : Within S (a :: u) := within_sub (fun x hx => hu.subset hx) hh
      exact safe_of hi hk a u (fun x hx => hall x (by simp [hx])) (fun _ => hall a (by simp))

theorem regular_filter {ident : Txt → Nat} {val : Txt → K × K} {unk : K × K} {keep : Txt → Bool}
    {sections : List (List Txt)} (h : (readArpa ident val unk sections).Regular) :
    (readArpa ident val unk (sections.map (·.filter keep))).Regular := by
  have hord : (readArpa ident val unk (sections.map (·.filter keep))).order =
      (readArpa ident val unk sections).order := by simp [readArpa]
  have hsub : ∀ n, ((readArpa ident val unk (sections.map (·.filter keep))).sect n).Sublist
      ((readArpa ident val unk sections).sect n) := by
    intro n
    simp only [readArpa, readSection]
    apply List.Sublist.map
    simp only [List.getD_eq_getElem?_getD, List.getElem?_map]
    cases sections[n - 1]? with
    | none => exact List.Sublist.refl _
    | some s => exact List.filter_sublist
  refine ⟨by rw [hord]; exact h.two, fun n h1 h2 g hg => ?_, fun n h1 h2 => ?_⟩
  · rw [hord] at h2; exact h.length n h1 h2 g ((hsub n).subset hg)
  · rw [hord] at h2; exact (h.once n h1 h2).sublist ((hsub n).map _)

/-- **C95 (queries).**  The program loads the full ARPA file and the filtered one: on a sentence of
words of `S` both tables give the same answer. -/
theorem C95_query [DecidableEq K] [AddCommGroup K] (ident : Txt → Nat) (hi : Function.Injective ident) (val : Txt → K × K) (unk : K × K)
    (context : Bool) (S : List Txt) (keep : Txt → Bool) (hk : ∀ l, Kept false context S l → keep l = true)
    (sections : List (List Txt)) (hr : (readArpa ident val unk sections).Regular)
    (sign sign' : Nat → Bool) (full small : LM.Search K)
    (hfull : LM.buildHashed (readArpa ident val unk sections) sign = some full)
    (hsmall : LM.buildHashed (readArpa ident val unk (sections.map (·.filter keep))) sign' = some small)
    (bos : Txt) (hb : Tag bos ∨ bos ∈ S) (ws : List Txt) (hws : Within S ws) :
    LM.queryAll small (LM.beginSentence small (ident bos)) (ws.map ident) =
      LM.queryAll full (LM.beginSentence full (ident bos)) (ws.map ident) := by
  rw [LM.C67_sentence _ hr sign full hfull, LM.C67_sentence _ (regular_filter hr) sign' small hsmall]
  unfold LM.Spec.Arpa.sentence LM.Spec.sentenceScore
  rw [← List.map_reverse]
  have hws' : Within S ws.reverse := within_sub (by simp) hws
  revert hws'
  generalize ws.reverse = vs
  intro hvs
  induction vs with
  | nil => rfl
  | cons v vs ih =>
    have hvs' : Within S vs := fun x hx => hvs x (by simp [hx])
    have hcat : Within S (vs ++ [bos]) := by
      intro x hx
      rcases List.mem_append.mp hx with hx | hx
      · exact hvs' x hx
      · rw [List.mem_singleton.mp hx]; exact hb
    have := C95_scores ident hi val unk context S keep hk sections v (vs ++ [bos]) hcat
      (fun _ => hvs v (by simp))
    simp only [LM.Spec.Arpa.score, List.map_append, List.map_cons, List.map_nil] at this
    simp only [List.map_cons, LM.Spec.stringScore, this, ih hvs']

end Scores

/-- **C95, the line number in the file name.**  The documentation says that the output file of a line
has its number; blank lines are not counted, so the file of a later line has another number. -/
theorem C95_line_number_fails :
    ¬ ∀ (vocab : Txt) (ls : List Txt) (k : Nat) (s : Txt), (lines vocab)[k]? = some s → words s ≠ [] →
      ∃ out, runRaw (multipleMode id false vocab) ls = some out ∧
        out[k]? = some (linesText (ls.filter fun l => decide (Kept true false (words s) l))) := by
  intro h
  obtain ⟨out, h1, h2⟩ := h "\na".toList [] 1 "a".toList (by decide) (by decide)
  have h3 := (C95_raw id (fun _ => List.Perm.refl _) false "\na".toList [] (by simp)).2.2
  rw [h1] at h3
  have : (sentences "\na".toList).length = 1 := by decide
  have hl : out.length = 1 := by
    have := congrArg (Option.map List.length) h3
    simp at this
    rw [this]; decide
  rw [List.getElem?_eq_none (by omega)] at h2
  cases h2

/-! ## Non-vacuity -/

/-- A bigram file. -/
def sample : List (List Txt) :=
  [["-1\t<s>\t-3".toList, "-1\ta\t-3".toList, "-1\tb\t-3".toList],
   ["-2\t<s> a".toList, "-1\ta b".toList, "-2\ta a".toList]]

def sampleKept : List (List Txt) :=
  [["-1\t<s>\t-3".toList, "-1\ta\t-3".toList], ["-2\t<s> a".toList, "-2\ta a".toList]]

example : ∃ blank, runArpa (singleMode false "a c".toList) sample = some [arpaText blank sampleKept] := by
  obtain ⟨b, h⟩ := C95_single false "a c".toList sample (by decide)
  refine ⟨b, h.trans ?_⟩
  have : (sample.map fun sec => sec.filter fun l => decide (Kept false false (words "a c".toList) l)) =
    sampleKept := by decide
  rw [this]

/-- With `context`, all unigrams and the bigrams after `<s>` and `b`. -/
example : ∃ blank, runArpa (unionMode id true "b\n\nc\n".toList) sample =
    some [arpaText blank [["-1\t<s>\t-3".toList, "-1\ta\t-3".toList, "-1\tb\t-3".toList],
      ["-2\t<s> a".toList]]] := by
  obtain ⟨b, h⟩ := C95_union id (fun _ => List.Perm.refl _) true "b\n\nc\n".toList sample (by decide)
  refine ⟨b, h.trans ?_⟩
  congr 4

/-- Two sentences; no file for a bigram with words of both. -/
example : ∃ out, runArpa (multipleMode id false "a\nb <s>\n".toList) sample = some out ∧ out.length = 2 ∧
    (∃ b, out[0]? = some (arpaText b sampleKept)) ∧
    ∃ b, out[1]? = some (arpaText b [["-1\t<s>\t-3".toList, "-1\tb\t-3".toList], []]) := by
  obtain ⟨out, h1, h2, h3⟩ := C95_multiple id (fun _ => List.Perm.refl _) false "a\nb <s>\n".toList sample
    (by decide)
  refine ⟨out, h1, h2, ?_, ?_⟩
  · obtain ⟨b, hb⟩ := h3 0 ["a".toList] (by decide)
    refine ⟨b, hb.trans ?_⟩
    congr 2
  · obtain ⟨b, hb⟩ := h3 1 ["b".toList, "<s>".toList] (by decide)
    refine ⟨b, hb.trans ?_⟩
    congr 2

example : runRaw (multipleMode id false "a b\n\na".toList) ["a b\t7".toList, "a".toList, "c\ta".toList] =
    some ["a b\t7\na\n".toList, "a\n".toList] := by
  rw [(C95_raw id (fun _ => List.Perm.refl _) false "a b\n\na".toList
    ["a b\t7".toList, "a".toList, "c\ta".toList] (by decide)).2.2]
  decide

/-- A numbering of the words. -/
def code (w : Txt) : Nat := w.foldr (fun c n => n * 4294967296 + (c.toNat + 1)) 0

theorem code_injective : Function.Injective code := by
  intro v
  induction v with
  | nil =>
    intro w h
    cases w with
    | nil => rfl
    | cons c w => simp only [code, List.foldr_nil, List.foldr_cons] at h; omega
  | cons c v ih =>
    intro w h
    cases w with
    | nil => simp only [code, List.foldr_nil, List.foldr_cons] at h; omega
    | cons d w =>
      have h' : code v * 4294967296 + (c.toNat + 1) = code w * 4294967296 + (d.toNat + 1) := h
      have hc : c.toNat < 4294967295 := by
        have := c.valid; rw [UInt32.isValidChar, Nat.isValidChar] at this
        have : c.toNat = c.val.toNat := rfl
        omega
      have hd : d.toNat < 4294967295 := by
        have := d.valid; rw [UInt32.isValidChar, Nat.isValidChar] at this
        have : d.toNat = d.val.toNat := rfl
        omega
      have h1 : c.toNat = d.toNat := by omega
      have h2 : code v = code w := by omega
      rw [ih h2, Char.ext (UInt32.toNat_inj.mp h1)]

/-- The numbers of a line of `sample`. -/
def sampleVal (l : Txt) : Int × Int :=
  (if l.take 2 = "-2".toList then -2 else -1, if 3 ≤ (fields l).length then -3 else 0)

/-- The sentence `a a` after `<s>` has the same log probability in both models, and in both it is -4;
the filtered model is smaller. -/
example : ∃ full small : LM.Search Int,
    LM.buildHashed (readArpa code sampleVal (-9, 0) sample) (fun _ => true) = some full ∧
    LM.buildHashed (readArpa code sampleVal (-9, 0) (sample.map (·.filter fun l =>
      decide (Kept false false ["a".toList] l)))) (fun _ => true) = some small ∧
    LM.queryAll small (LM.beginSentence small (code "<s>".toList)) (["a".toList, "a".toList].map code) = -4 := by
  have hr : (readArpa code sampleVal (-9, 0) sample).Regular := by
    refine ⟨by decide, fun n h1 h2 => ?_, fun n h1 h2 => ?_⟩ <;>
    · obtain rfl : n = 2 := by have : n ≤ 2 := h2; omega
      decide +kernel
  obtain ⟨full, hf⟩ := LM.C69_accepts _ hr (fun _ => true) (by decide +kernel)
    (fun n h1 h2 => by have : n ≤ 2 := h2; omega)
  obtain ⟨small, hs⟩ := LM.C69_accepts _ (regular_filter (keep := fun l => decide (Kept false false ["a".toList] l)) hr)
    (fun _ => true) (by decide +kernel) (fun n h1 h2 => by have : n ≤ 2 := h2; omega)
  refine ⟨full, small, hf, hs, ?_⟩
  rw [C95_query code code_injective sampleVal (-9, 0) false ["a".toList] _ (by simp) sample hr _ _ full small hf hs
    "<s>".toList (by decide) _ (by decide), LM.C67_sentence _ hr _ full hf]
  decide +kernel

end Cdec.Klm.Filter
