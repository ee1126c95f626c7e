import Verif.Decoder.Tree2StringSem
import Verif.Decoder.Tree2StringText
/-! Grammars read from text, and the whole of the tree-to-string translator. -/
namespace Cdec.Dec.T2S
open Cdec.HG Spec
open Cdec.Dec.Parser.Spec (LTree Shows)
variable {R : Type}

/-- The trie of some rules. -/
structure TrieOf (rules : List (Frag × R)) (T : Trie R) : Prop where
  has : ∀ p, T.has p = true ↔ ∃ r ∈ rules, p <+: r.1.lin
  data : ∀ p, T.data p = (rules.filter fun r => r.1.lin = p).map (·.2)

theorem trieOf_empty : TrieOf ([] : List (Frag × R)) .empty := ⟨by simp [Trie.empty], by simp [Trie.empty]⟩

theorem TrieOf.add {rules : List (Frag × R)} {T : Trie R} (h : TrieOf rules T) (f : Frag) (r : R) : TrieOf (rules ++ [(f, r)]) (T.add f.lin r) := by
  constructor
  · intro p
    simp only [Trie.add, Bool.or_eq_true, List.isPrefixOf_iff_prefix, h.has, List.mem_append, List.mem_singleton]
    constructor
    · rintro (⟨x, hx, hp⟩ | hp)
      · exact ⟨x, .inl hx, hp⟩
      · exact ⟨(f, r), .inr rfl, hp⟩
    · rintro ⟨x, hx | rfl, hp⟩
      · exact .inl ⟨x, hx, hp⟩
      · exact .inr hp
  · intro p
    simp only [Trie.add, List.filter_append, List.map_append, ← h.data]
    by_cases e : p = f.lin
    · subst e
      simp
    · have : ¬ f.lin = p := fun h => e h.symm
      simp [e, this]

theorem TrieOf.mem {rules : List (Frag × R)} {T : Trie R} (h : TrieOf rules T) {p : List Sym} {r : R} : r ∈ T.data p ↔ ∃ f, (f, r) ∈ rules ∧ f.lin = p := by
  rw [h.data]
  simp

theorem TrieOf.ok {rules : List (Frag × R)} {T : Trie R} (h : TrieOf rules T) : T.Ok := by
  constructor
  · intro p y hp
    obtain ⟨r, hr, hp⟩ := (h.has _).1 hp
    exact (h.has _).2 ⟨r, hr, (List.prefix_append p [y]).trans hp⟩
  · intro p hp
    obtain ⟨r, hr⟩ := List.exists_mem_of_ne_nil _ hp
    obtain ⟨f, h1, h2⟩ := h.mem.1 hr
    exact (h.has _).2 ⟨_, h1, by rw [← h2]; exact List.prefix_rfl⟩

/-- The lines of a file and the rules they stand for. -/
def Lines (ls : List (List Char × R)) (rules : List (Frag × R)) : Prop := List.Forall₂ (fun l r => Text r.1 l.1 ∧ r.1.isNode ∧ l.2 = r.2) ls rules

theorem load_spec {fuel : Nat} {ls : List (List Char × R)} {rules : List (Frag × R)} (h : Lines ls rules) (hf : ∀ r ∈ rules, r.1.lin.length < fuel) :
    ∀ {old : List (Frag × R)} {T : Trie R}, TrieOf old T → ∃ T', load fuel ls T = some T' ∧ TrieOf (old ++ rules) T' := by
  induction h with
  | nil => intro old T hT; exact ⟨T, rfl, by simpa using hT⟩
  | @cons l r ls rules hlr _ ih =>
    intro old T hT
    obtain ⟨x, r'⟩ := l
    obtain ⟨h1, h2, h3⟩ := hlr
    simp only at h1 h3
    subst h3
    obtain ⟨tf, p1, p2, p3⟩ := parse_node (afs := true) h1 (.inl rfl) h2
    obtain ⟨T', q1, q2⟩ := ih (fun a ha => hf a (by simp [ha])) (hT.add r.1 r.2)
    refine ⟨T', ?_, by simpa using q2⟩
    rw [load, p1, Option.bind_some, symbols, symbols_blk p3 (hf r (by simp)), Option.bind_some, q1]

/-- Long enough for the paths of the rules. -/
theorem fuel_bound (rules : List (Frag × R)) : ∃ N, ∀ fuel, N ≤ fuel → ∀ r ∈ rules, r.1.lin.length < fuel := by
  induction rules with
  | nil => exact ⟨0, by simp⟩
  | cons r rules ih =>
    obtain ⟨N, hN⟩ := ih
    refine ⟨N + r.1.lin.length + 1, ?_⟩
    intro fuel hf a ha
    rcases List.mem_cons.1 ha with rfl | ha
    · omega
    · exact hN fuel (by omega) a ha

theorem loads_spec {files : List (List (List Char × R))} {sets : List (List (Frag × R))} (h : List.Forall₂ Lines files sets) :
    ∃ N Ts, (∀ fuel, N ≤ fuel → (files.mapM fun ls => load fuel ls .empty) = some Ts) ∧ List.Forall₂ TrieOf sets Ts := by
  induction h with
  | nil => exact ⟨0, [], by simp, .nil⟩
  | @cons ls rules files sets hl _ ih =>
    obtain ⟨N, Ts, h1, h2⟩ := ih
    obtain ⟨N', hN'⟩ := fuel_bound rules
    obtain ⟨T, hT, hT'⟩ := load_spec hl (hN' N' (Nat.le_refl _)) trieOf_empty
    have huniq : ∀ fuel, N' ≤ fuel → load fuel ls .empty = some T := by
      intro fuel hf
      obtain ⟨T2, hT2, hT2'⟩ := load_spec hl (hN' fuel hf) trieOf_empty
      rw [hT2]
      congr 1
      obtain ⟨a, b⟩ := T
      obtain ⟨a', b'⟩ := T2
      congr 1
      · funext p
        rw [Bool.eq_iff_iff]
        exact ((hT2'.has p).trans (hT'.has p).symm)
      · funext p
        exact (hT2'.data p).trans (hT'.data p).symm
    refine ⟨N + N', T :: Ts, ?_, .cons (by simpa using hT') h2⟩
    intro fuel hf
    rw [List.mapM_cons, huniq fuel (by omega), h1 fuel (by omega)]
    rfl

theorem gram_of {sets : List (List (Frag × R))} {Ts : List (Trie R)} (h : List.Forall₂ TrieOf sets Ts) (g : Nat) : TrieOf (sets.getD g []) (Ts.getD g .empty) := by
  rw [List.forall₂_iff_get] at h
  rcases Nat.lt_or_ge g sets.length with hg | hg
  · rw [List.getD_eq_getElem?_getD, List.getD_eq_getElem?_getD, List.getElem?_eq_getElem hg, List.getElem?_eq_getElem (by omega)]
    exact h.2 g hg (by omega)
  · rw [List.getD_eq_getElem?_getD, List.getD_eq_getElem?_getD, List.getElem?_eq_none hg, List.getElem?_eq_none (by omega)]
    exact trieOf_empty

theorem mem_sets {α : Type} {sets : List (List α)} {x : α} : (∃ g, x ∈ sets.getD g []) ↔ x ∈ sets.flatten := by
  rw [List.mem_flatten]
  constructor
  · rintro ⟨g, hg⟩
    rw [List.getD_eq_getElem?_getD] at hg
    cases hs : sets[g]? with
    | none => rw [hs] at hg; simp at hg
    | some l =>
      rw [hs] at hg
      exact ⟨l, List.mem_of_getElem? hs, hg⟩
  · rintro ⟨l, hl, hx⟩
    obtain ⟨g, hg, rfl⟩ := List.getElem_of_mem hl
    exact ⟨g, by rw [List.getD_eq_getElem?_getD, List.getElem?_eq_getElem hg]; exact hx⟩

theorem use_takes {E : Env R} {sets : List (List (Frag × R))} (h : List.Forall₂ TrieOf sets E.grams) (hn : ∀ r ∈ sets.flatten, r.1.isNode) (f : Frag) (r : R) :
    Use E f r ↔ Takes sets.flatten f r := by
  unfold Use Takes Env.gram
  constructor
  · rintro ⟨g, hr⟩
    obtain ⟨f', h1, h2⟩ := (gram_of h g).mem.1 hr
    have := mem_sets.1 ⟨g, h1⟩
    exact ⟨f', this, hn _ this, h2⟩
  · rintro ⟨f', h1, _, h2⟩
    obtain ⟨g, hg⟩ := mem_sets.2 h1
    exact ⟨g, (gram_of h g).mem.2 ⟨f', hg, h2⟩⟩

/-- Rules that may be used for the trees at hand. -/
theorem deriv_transfer {U V : Frag → R → Prop} (Good : Frag → Prop) (hg : ∀ i f t ss, Good t → Cut i f t ss → ∀ s ∈ ss, Good s.2)
    (h : ∀ i f t ss r, Good t → f.isNode → Cut i f t ss → U f r → V f r) {i : Nat} {t : Frag} {d : LTree (Val R)} (hd : Deriv U i t d) : Good t → Deriv V i t d := by
  refine Deriv.rec (motive_1 := fun i t d _ => Good t → Deriv V i t d)
    (motive_2 := fun ss ch _ => (∀ s ∈ ss, Good s.2) → List.Forall₂ (fun s d => Deriv V s.1 s.2 d) ss ch) ?_ ?_ ?_ hd
  · intro i t f r ss ch h1 h2 h3 _ ih ht
    exact .mk h1 (h i f t ss r ht h1 h3 h2) h3 (ih (hg i f t ss ht h3))
  · intro _
    exact .nil
  · intro s d ss ch _ _ ih1 ih2 hs
    exact .cons (ih1 (hs s (by simp))) (ih2 fun s h => hs s (by simp [h]))

theorem cut_ranked {a : String → Nat} {i : Nat} {f t : Frag} {ss : List (Nat × Frag)} (h : Cut i f t ss) : Frag.Ranked a t → Frag.Ranked a f ∧ ∀ s ∈ ss, Frag.Ranked a s.2 := by
  refine Cut.rec (motive_1 := fun i f t ss _ => Frag.Ranked a t → Frag.Ranked a f ∧ ∀ s ∈ ss, Frag.Ranked a s.2)
    (motive_2 := fun i fs ts ss _ => (∀ t ∈ ts, Frag.Ranked a t) → fs.length = ts.length ∧ (∀ f ∈ fs, Frag.Ranked a f) ∧ ∀ s ∈ ss, Frag.Ranked a s.2) ?_ ?_ ?_ ?_ ?_ h
  · intro i w _
    exact ⟨.leaf, by simp⟩
  · intro i c ts ht
    exact ⟨.site, by simpa using ht⟩
  · intro i c fs ts ss _ ih ht
    cases ht with
    | node h1 h2 =>
      obtain ⟨a1, a2, a3⟩ := ih h2
      exact ⟨.node (by omega) a2, a3⟩
  · simp
  · intro i f t fs ts ss ss' _ _ ih1 ih2 ht
    obtain ⟨a1, a2⟩ := ih1 (ht t (by simp))
    obtain ⟨b1, b2, b3⟩ := ih2 fun t h => ht t (by simp [h])
    refine ⟨by simp [b1], ?_, ?_⟩
    · intro x hx
      rcases List.mem_cons.1 hx with rfl | hx
      · exact a1
      · exact b2 x hx
    · intro x hx
      rcases List.mem_append.1 hx with hx | hx
      · exact a2 x hx
      · exact b3 x hx

theorem ranked_syms {a : String → Nat} (f : Frag) : ∀ (f' : Frag) (p p' : List Sym), Frag.Ranked a f → Frag.Ranked a f' → f.syms ++ p = f'.syms ++ p' → f = f' ∧ p = p' := by
  refine Frag.rec (motive_1 := fun f => ∀ (f' : Frag) (p p' : List Sym), Frag.Ranked a f → Frag.Ranked a f' → f.syms ++ p = f'.syms ++ p' → f = f' ∧ p = p')
    (motive_2 := fun fs => ∀ (fs' : List Frag) (p p' : List Sym), fs.length = fs'.length → (∀ f ∈ fs, Frag.Ranked a f) → (∀ f ∈ fs', Frag.Ranked a f) →
      fs.flatMap Frag.syms ++ p = fs'.flatMap Frag.syms ++ p' → fs = fs' ∧ p = p') ?_ ?_ ?_ ?_ ?_ f
  · intro w f' p p' _ _ h
    rw [syms_leaf] at h
    cases f' with
    | leaf w' => rw [syms_leaf] at h; simpa using h
    | site c => rw [syms_site] at h; simp at h
    | node c cs => rw [syms_node] at h; simp at h
  · intro w f' p p' _ _ h
    rw [syms_site] at h
    cases f' with
    | leaf w' => rw [syms_leaf] at h; simp at h
    | site c => rw [syms_site] at h; simpa using h
    | node c cs => rw [syms_node] at h; simp at h
  · intro c cs ih f' p p' h1 h2 h
    rw [syms_node] at h
    cases f' with
    | leaf w' => rw [syms_leaf] at h; simp at h
    | site c => rw [syms_site] at h; simp at h
    | node c' cs' =>
      rw [syms_node] at h
      simp only [List.cons_append, List.cons.injEq, Sym.rhs.injEq] at h
      obtain ⟨rfl, _, h⟩ := h
      cases h1 with
      | node a1 a2 =>
        cases h2 with
        | node b1 b2 =>
          obtain ⟨rfl, rfl⟩ := ih cs' p p' (by omega) a2 b2 h
          exact ⟨rfl, rfl⟩
  · intro fs' p p' hl _ _ h
    cases fs' with
    | nil => exact ⟨rfl, by simpa using h⟩
    | cons => simp at hl
  · intro f fs ih1 ih2 fs' p p' hl h1 h2 h
    cases fs' with
    | nil => simp at hl
    | cons f' fs' =>
      rw [List.flatMap_cons, List.flatMap_cons, List.append_assoc, List.append_assoc] at h
      obtain ⟨rfl, h'⟩ := ih1 f' _ _ (h1 f (by simp)) (h2 f' (by simp)) h
      obtain ⟨rfl, rfl⟩ := ih2 fs' p p' (by simpa using hl) (fun x hx => h1 x (by simp [hx])) (fun x hx => h2 x (by simp [hx])) h'
      exact ⟨rfl, rfl⟩

theorem lin_syms {f : Frag} (h : f.isNode) : ∃ c cs, f = .node c cs ∧ f.syms = .rhs c :: f.lin ∧ f.lin = .lhs c :: cs.flatMap Frag.syms := by
  cases f with
  | leaf => exact h.elim
  | site => exact h.elim
  | node c cs => exact ⟨c, cs, rfl, by unfold Frag.lin; rw [syms_node]; rfl, by unfold Frag.lin; rw [syms_node]; rfl⟩

theorem ranked_lin {a : String → Nat} {f f' : Frag} (hn : f.isNode) (hn' : f'.isNode) (h : Frag.Ranked a f) (h' : Frag.Ranked a f') (e : f.lin = f'.lin) : f = f' := by
  obtain ⟨c, cs, _, h2, h3⟩ := lin_syms hn
  obtain ⟨c', cs', _, h2', h3'⟩ := lin_syms hn'
  refine (ranked_syms f f' [] [] h h' ?_).1
  have hc : c = c' := by
    rw [h3, h3'] at e
    simpa using (List.cons.inj e).1
  rw [h2, h2', e, hc]

theorem flat_kids (cs : List Frag) : ∀ cs' : List Frag, (∀ f ∈ cs, ¬ f.isNode) → cs.flatMap Frag.syms = cs'.flatMap Frag.syms → cs = cs' := by
  induction cs with
  | nil =>
    intro cs' _ h
    cases cs' with
    | nil => rfl
    | cons f cs' =>
      rw [List.flatMap_cons] at h
      cases f <;> rw [Frag.syms] at h <;> simp at h
  | cons f cs ih =>
    intro cs' hf h
    have h1 := hf f (by simp)
    have h2 : ∀ f ∈ cs, ¬ f.isNode := fun x hx => hf x (by simp [hx])
    rw [List.flatMap_cons] at h
    cases cs' with
    | nil => cases f <;> rw [Frag.syms] at h <;> simp at h
    | cons f' cs' =>
      rw [List.flatMap_cons] at h
      cases f with
      | node => exact absurd trivial h1
      | leaf w =>
        rw [syms_leaf] at h
        cases f' with
        | leaf w' =>
          rw [syms_leaf] at h
          simp only [List.cons_append, List.nil_append, List.cons.injEq, Sym.term.injEq] at h
          rw [h.1, ih cs' h2 h.2]
        | site => rw [syms_site] at h; simp at h
        | node => rw [syms_node] at h; simp at h
      | site w =>
        rw [syms_site] at h
        cases f' with
        | site w' =>
          rw [syms_site] at h
          simp only [List.cons_append, List.nil_append, List.cons.injEq, Sym.site.injEq] at h
          rw [h.1, ih cs' h2 h.2]
        | leaf => rw [syms_leaf] at h; simp at h
        | node => rw [syms_node] at h; simp at h

theorem flat_lin {f f' : Frag} (hn : f.isNode) (hn' : f'.isNode) (h : f.flat) (e : f.lin = f'.lin) : f = f' := by
  obtain ⟨c, cs, rfl, _, h3⟩ := lin_syms hn
  obtain ⟨c', cs', rfl, _, h3'⟩ := lin_syms hn'
  rw [h3, h3'] at e
  obtain ⟨e1, e2⟩ := List.cons.inj e
  cases e1
  rw [flat_kids cs cs' h e2]

/-- Rules whose source sides are flat mean what they say. -/
theorem deriv_flat {rules : List (Frag × R)} (hn : ∀ r ∈ rules, r.1.isNode) (hf : ∀ r ∈ rules, r.1.flat) {i : Nat} {t : Frag} {d : LTree (Val R)} :
    Deriv (Takes rules) i t d ↔ Deriv (Means rules) i t d := by
  constructor
  · intro h
    refine deriv_transfer (fun _ => True) (fun _ _ _ _ _ _ _ _ => trivial) ?_ h trivial
    rintro _ f _ _ r _ h1 _ ⟨f', h2, h3, h4⟩
    rw [Means, ← flat_lin h3 h1 (hf _ h2) h4]
    exact h2
  · intro h
    refine deriv_transfer (fun _ => True) (fun _ _ _ _ _ _ _ _ => trivial) ?_ h trivial
    intro _ f _ _ r _ h1 _ h2
    exact ⟨f, h2, h1, rfl⟩

/-- So do rules for trees whose labels fix the number of children. -/
theorem deriv_ranked {a : String → Nat} {rules : List (Frag × R)} (hf : ∀ r ∈ rules, Frag.Ranked a r.1) {i : Nat} {t : Frag} (ht : Frag.Ranked a t) {d : LTree (Val R)} :
    Deriv (Takes rules) i t d ↔ Deriv (Means rules) i t d := by
  constructor
  · intro h
    refine deriv_transfer (Frag.Ranked a) (fun i f t ss h1 h2 => (cut_ranked h2 h1).2) ?_ h ht
    rintro i f t ss r h0 h1 hc ⟨f', h2, h3, h4⟩
    rw [Means, ← ranked_lin h3 h1 (hf _ h2) (cut_ranked hc h0).1 h4]
    exact h2
  · intro h
    refine deriv_transfer (fun _ => True) (fun _ _ _ _ _ _ _ _ => trivial) ?_ h trivial
    intro _ f _ _ r _ h1 _ h2
    exact ⟨f, h2, h1, rfl⟩

theorem deriv_congr {U V : Frag → R → Prop} (h : ∀ f r, U f r ↔ V f r) : Deriv U = Deriv V := by
  have : U = V := by
    funext f r
    exact propext (h f r)
  rw [this]

theorem sets_distinct {E : Env R} {sets : List (List (Frag × R))} (h : List.Forall₂ TrieOf sets E.grams) (hd : (sets.flatten.map (·.2)).Nodup) : Distinct E := by
  rw [List.map_flatten, List.nodup_flatten] at hd
  obtain ⟨h1, h2⟩ := hd
  have hset : ∀ g, ((sets.getD g []).map (·.2)).Nodup := by
    intro g
    rw [List.getD_eq_getElem?_getD]
    cases hs : sets[g]? with
    | none => simp
    | some l => exact h1 _ (List.mem_map.2 ⟨l, List.mem_of_getElem? hs, rfl⟩)
  constructor
  · intro g p
    unfold Env.gram
    rw [(gram_of h g).data]
    exact (hset g).sublist (List.filter_sublist.map _)
  · intro g p g' p' r hr hr'
    unfold Env.gram at hr hr'
    obtain ⟨f, a1, a2⟩ := (gram_of h g).mem.1 hr
    obtain ⟨f', b1, b2⟩ := (gram_of h g').mem.1 hr'
    have hg : g = g' := by
      rw [List.pairwise_map] at h2
      have hlt : ∀ k, (∃ x, x ∈ sets.getD k []) → k < sets.length := by
        rintro k ⟨x, hx⟩
        rcases Nat.lt_or_ge k sets.length with hk | hk
        · exact hk
        · rw [List.getD_eq_getElem?_getD, List.getElem?_eq_none hk] at hx
          simp at hx
      have hg := hlt g ⟨_, a1⟩
      have hg' := hlt g' ⟨_, b1⟩
      rw [List.getD_eq_getElem?_getD, List.getElem?_eq_getElem hg] at a1
      rw [List.getD_eq_getElem?_getD, List.getElem?_eq_getElem hg'] at b1
      rw [List.pairwise_iff_getElem] at h2
      rcases Nat.lt_trichotomy g g' with hlt | he | hlt
      · exact absurd (List.mem_map.2 ⟨_, b1, rfl⟩) (h2 g g' hg hg' hlt (List.mem_map.2 ⟨_, a1, rfl⟩))
      · exact he
      · exact absurd (List.mem_map.2 ⟨_, a1, rfl⟩) (h2 g' g hg' hg hlt (List.mem_map.2 ⟨_, b1, rfl⟩))
    subst hg
    have := List.inj_on_of_nodup_map (hset g) a1 b1 rfl
    simp only [Prod.mk.injEq, and_true] at this
    rw [← a2, ← b2, this]
    exact ⟨rfl, rfl⟩

theorem sets_within {E : Env R} {sets : List (List (Frag × R))} (h : List.Forall₂ TrieOf sets E.grams) : ∃ U, E.Within U := by
  refine ⟨sets.flatten.flatMap fun r => (List.range (r.1.lin.length + 1)).map r.1.lin.take, ?_⟩
  intro g p hp
  unfold Env.gram at hp
  obtain ⟨r, hr, hp⟩ := ((gram_of h g).has p).1 hp
  exact List.mem_flatMap.2 ⟨r, mem_sets.1 ⟨g, hr⟩, List.mem_map.2 ⟨p.length, List.mem_range.2 (by have := hp.length_le; omega), (List.prefix_iff_eq_take.1 hp).symm⟩⟩

theorem lines_isNode {files : List (List (List Char × R))} {sets : List (List (Frag × R))} (h : List.Forall₂ Lines files sets) : ∀ r ∈ sets.flatten, r.1.isNode := by
  intro r hr
  obtain ⟨rs, h1, h2⟩ := List.mem_flatten.1 hr
  obtain ⟨k, hk, rfl⟩ := List.getElem_of_mem h1
  obtain ⟨hl, hg⟩ := List.forall₂_iff_get.1 h
  have := hg k (by omega) hk
  obtain ⟨j, hj, rfl⟩ := List.getElem_of_mem h2
  simp only [List.get_eq_getElem] at this
  obtain ⟨hl', hg'⟩ := List.forall₂_iff_get.1 this
  exact (hg' j (by omega) hj).2.1

/-- The whole of the translator, from text. -/
theorem run_core (cat : String → Int) (catGoal : Int) {files : List (List (List Char × R))} {sets : List (List (Frag × R))} (h : List.Forall₂ Lines files sets)
    {t : Frag} {x : List Char} (hx : Text t x) (hn : t.isNode) (hp : t.Plain) :
    ∃ N res, (∀ fuel, N ≤ fuel → run cat catGoal fuel files x = some res) ∧
      (res.isSome ↔ ∃ d, Deriv (Takes sets.flatten) 0 t d) ∧
      ∀ g, res = some g → Stands g (Deriv (Takes sets.flatten) 0 t) ∧
        ((sets.flatten.map (·.2)).Nodup → ∀ T T' d, IsDeriv g g.goal T → IsDeriv g g.goal T' → Shows g T d → Shows g T' d → T = T') := by
  obtain ⟨N, Ts, h1, h2⟩ := loads_spec h
  obtain ⟨tf, p1, p2, p3⟩ := parse_node (afs := false) hx (.inr hp) hn
  have hE : List.Forall₂ TrieOf sets (⟨tf, Ts, cat, catGoal⟩ : Env R).grams := h2
  obtain ⟨U, hU⟩ := sets_within hE
  have huse := deriv_congr (use_takes hE (lines_isNode h))
  obtain ⟨N', res, r1, r2, r3⟩ := translate_core (E := ⟨tf, Ts, cat, catGoal⟩) (blk_noSites p3 hp) hU (fun g => (gram_of h2 g).ok) p3.tab
  rw [huse] at r2 r3
  refine ⟨N + N', res, ?_, r2, fun g hg => ⟨(r3 g hg).1, fun hd => (r3 g hg).2 (sets_distinct hE hd)⟩⟩
  intro fuel hf
  rw [run, h1 fuel (by omega), Option.bind_some, p1, Option.bind_some, r1 fuel (by omega)]

end Cdec.Dec.T2S
