import Verif.Extract.RuleFactoryTrie
/-!
# Lemmas for the rule factory: one iteration
-/
namespace Cdec.Extract
open Spec

/-- What is assumed of the corpus, the sentence and the parts of the factory. -/
structure Setting (lines : List (List String)) (F : Factory) (words : List Int) (rnd : Nat → Nat) : Prop where
  noNull : ∀ l ∈ lines, "__NULL__" ∉ l
  data : F.I.d = createDataArray lines
  built : buildSuffixArray F.I.d.data F.I.d.id2word.length rnd = some F.I.sa
  wordsPos : ∀ w ∈ words, 0 ≤ w
  plain : ∀ w ∈ words, F.I.terminal w ≠ "__NULL__" ∧ F.I.terminal w ≠ "__END_OF_LINE__"
  pre : ∀ s m, F.I.pre s = some m → F.I.Exact lines s (.ofMatchings m ((buildPhrase s).arity + 1))

variable {lines : List (List String)} {F : Factory} {words : List Int} {rnd : Nat → Nat} {t : Trie}
  {pat : Nat → List Int}

/-- All words of a pattern are words of the sentence. -/
theorem Gen.mem {x : Bool} {s e : Nat} {φ : List Int} (h : Gen F words x s e φ) : ∀ y ∈ φ, 0 ≤ y → y ∈ words := by
  induction h with
  | word i h => intro y hy; cases hy
  | xword i hg h => intro y hy h0; rw [List.mem_singleton.1 hy] at h0; omega
  | next h hw h1 h2 h3 ih =>
    intro y hy h0
    rcases List.mem_append.1 hy with h' | h'
    · exact ih y h' h0
    · rw [List.mem_singleton.1 h']; exact List.mem_of_getElem? hw
  | gap h hw h1 h2 h3 h4 h5 h6 h7 ih =>
    intro y hy h0
    rcases List.mem_append.1 hy with h' | h'
    · rcases List.mem_append.1 h' with h' | h'
      · exact ih y h' h0
      · rw [List.mem_singleton.1 h']; exact List.mem_of_getElem? hw
    · rw [List.mem_singleton.1 h'] at h0; omega

theorem occ_of_nodeLoc {s : List Int} {l : PhraseLocation} (h : NodeLoc lines F.I s l) :
    F.I.matchesOf l ≠ [] ↔ Occ lines F.I s := by
  constructor
  · intro hne
    obtain ⟨ps, hps⟩ := List.exists_mem_of_ne_nil _ hne
    exact ⟨ps, (h.mem ps).1 hps⟩
  · rintro ⟨ps, hps⟩ e
    have := (h.mem ps).2 hps
    rw [e] at this; cases this

/-- The location of a pattern not starting with a nonterminal. -/
theorem locate_spec (S : Setting lines F words rnd) (h : TInv lines F t pat) {id : Nat} (hid : id < t.size)
    {s e : Nat} {φ : List Int} {w : Int} (g : Gen F words false s e φ) (hw : words[e]? = some w) (hp : pat id = φ)
    {j : Nat} (hj : j < t.size) (hpj : pat j = suf (φ ++ [w])) :
    ∃ l, F.locate t id (some j) φ w = some l ∧ NodeLoc lines F.I (φ ++ [w]) l ∧
      (l.getSize = 0 ↔ F.I.matchesOf l = []) ∧ (ar (φ ++ [w]) = 0 → l = rangeOf F (φ ++ [w])) := by
  have hw0 := word_nonneg S.wordsPos hw
  unfold Factory.locate
  rw [arity_ar]
  by_cases ha : 0 < ar (φ ++ [w])
  · rw [if_pos ha]
    simp only [Option.bind_eq_bind, Option.bind_some]
    have ha' : 0 < ar φ := by rwa [ar_snoc_word hw0] at ha
    obtain ⟨a, u, rfl, ha0⟩ : ∃ a ψ, φ = a :: ψ ∧ 0 ≤ a := by
      rcases (g.shape S.wordsPos).2 rfl with ⟨rfl, _⟩ | h
      · simp [ar] at ha'
      · exact h
    have e1 : suf (a :: u ++ [w]) = u ++ [w] := by
      rw [List.cons_append, suf, if_neg (by omega)]
    rw [e1] at hpj
    have hc1 : cores (a :: u) ≠ [] := by
      intro hc
      rcases cores_nil_pat S.wordsPos g hc with h | h
      · cases h
      · cases h; omega
    have hl1 := h.loc id hid (by rw [hp]; exact hc1)
    rw [hp] at hl1
    have hl2 := h.loc j hj (by rw [hpj]; exact cores_snoc_ne hw0 _)
    rw [hpj] at hl2
    refine ⟨_, rfl, nodeLoc_intersect S.data S.pre ha0 hw0 ha' (g.chunks_ne' S.wordsPos hw0) hl1 hl2,
      getSize_intersect _ _ _ _, fun h0 => absurd h0 (by omega)⟩
  · rw [if_neg ha]
    have ha0 : ar (φ ++ [w]) = 0 := by omega
    have hterm := ar_zero ha0
    have hr := h.range id hid (by rw [hp]; rwa [ar_snoc_word hw0] at ha0)
    rw [hp] at hr
    have hloc : F.find (t.node id).loc w φ.length = rangeOf F (φ ++ [w]) := by
      rw [hr, rangeOf, rangeOf, List.map_append, List.map_singleton, findPhrase_snoc, List.length_map]
      rfl
    refine ⟨_, rfl, ?_, ?_, fun _ => hloc⟩
    · rw [hloc, rangeOf]
      refine nodeLoc_range S.noNull S.data S.built (by simp) hterm ?_
      intro y hy
      apply S.plain
      rcases List.mem_append.1 hy with h' | h'
      · exact g.mem y h' (hterm y hy)
      · rw [List.mem_singleton.1 h']; exact List.mem_of_getElem? hw
    · rw [hloc, rangeOf]; exact getSize_range _ _ _

/-- What a call of the extractor gets. -/
def CallsOk (lines : List (List String)) (F : Factory) (x : Bool) (s : List Int) (calls : List Call) : Prop :=
  (x = true ∧ calls = []) ∨ (x = false ∧ ∃ l, calls = [(s, l)] ∧ NodeLoc lines F.I s l)

theorem newNode_spec (S : Setting lines F words rnd) (h : TInv lines F t pat) (ht : Trail F t pat fun _ => True)
    {id : Nat} (hid : id < t.size) {x : Bool} {s e : Nat} {φ : List Int} {w : Int} (g : Gen F words x s e φ)
    (hw : words[e]? = some w) (hp : pat id = φ) (hk : (t.node id).children w = none)
    (hs : ∀ j, (t.node id).suffixLink = some j → ∃ c, (t.node j).children w = some (some c)) :
    (∃ c t' pat' calls, F.newNode t ⟨s, e, φ, some id, x⟩ id w = some (some (c, t', calls)) ∧ TInv lines F t' pat' ∧
      Trail F t' pat' (fun _ => True) ∧ TExt t pat t' pat' ∧ (t'.node id).children w = some (some c) ∧
      Occ lines F.I (φ ++ [w]) ∧ CallsOk lines F x (φ ++ [w]) calls ∧ (∀ i < t.size, pat i ≠ φ ++ [w]) ∧
      ∀ i, t.size ≤ i → i < t'.size → pat' i = φ ++ [w] ∨ ∃ u y, pat' i = u ++ [y] ∧ y < 0) ∨
    (F.newNode t ⟨s, e, φ, some id, x⟩ id w = some none ∧ ¬ Occ lines F.I (φ ++ [w])) := by
  have hw0 := word_nonneg S.wordsPos hw
  have hk' : ∀ c, (t.node id).children w ≠ some (some c) := by intro c e'; rw [hk] at e'; cases e'
  have hsz := h.size
  -- the suffix link of the new node
  obtain ⟨j, hj, hpj, hlink⟩ : ∃ j < t.size, pat j = suf (φ ++ [w]) ∧
      nextLink t id w = (some j, t) := by
    unfold nextLink
    by_cases h0 : id = 0
    · subst h0
      rw [h.root]
      refine ⟨0, hid, ?_, rfl⟩
      rw [h.pat0] at hp
      rw [← hp, h.pat0]; simp [suf]; omega
    · obtain ⟨j, hj, hl, hpj⟩ := h.link id hid h0
      obtain ⟨c, hc⟩ := hs j hl
      obtain ⟨h1, h2⟩ := h.child j hj w c hc
      rw [hl]
      have hφ : φ ≠ [] := by
        intro e'; apply h0; apply h.inj id hid 0 (by omega); rw [hp, e', h.pat0]
      exact ⟨c, h1, by rw [h2, hpj, hp, suf_snoc_word hw0 hφ], by simp only [Trie.getChild, hc]⟩
  have hlen : suf (φ ++ [w]) ≠ φ ++ [w] := by
    intro e'
    have := congrArg List.length e'
    cases φ with
    | nil => simp [suf, shift] at this
    | cons a ψ => simp only [List.cons_append, suf] at this; split at this <;> simp [shift] at this
  unfold Factory.newNode
  simp only [hlink]
  cases x with
  | true =>
    left
    obtain ⟨ψ, rfl, hlow⟩ := (g.shape S.wordsPos).1 rfl
    have hlw : Low (ψ ++ [w]) := by
      intro y hy h0
      rcases List.mem_append.1 hy with h' | h'
      · exact hlow y h' h0
      · rw [List.mem_singleton.1 h'] at h0; omega
    have hcores : cores (-1 :: ψ ++ [w]) = cores (pat j) := by
      rw [hpj, List.cons_append, suf, if_pos (by omega), cores_shift _ hlw, cores_cons_nt (by omega)]
    have hcj : cores (pat j) ≠ [] := by rw [← hcores]; exact cores_snoc_ne hw0 _
    have hocc : Occ lines F.I (-1 :: ψ ++ [w]) := by
      obtain ⟨ps, ho⟩ := h.occ j hj hcj
      exact ⟨ps, by rw [wcores, hcores]; exact ho⟩
    have hloc := (h.loc j hj hcj).congr hcores
    have hT := h.addNode (l := (t.node j).loc) hid hk' hj (by rw [hp]; exact hpj)
      (by rw [hp]; exact fun _ => ⟨hloc, hocc⟩)
      (by rw [hp, ar_snoc_word hw0, ar_cons_nt (by omega)]; intro h; omega)
    have hx := ext_addNode (pat := pat) (j := j) (l := (t.node j).loc) (s := pat id ++ [w]) hk'
    obtain ⟨t', pat', e1, a1, a2, a3, a4, a5⟩ := addTrailing_spec S.wordsPos hT (c := t.size) (by rw [size_addNode]; omega)
      (by
        intro i hi hic φ' w' e' hw' ha
        exact trail_addNode hk' ht i hi ⟨trivial, hic⟩ φ' w' e' hw' ha) g hw0
      (by rw [upd, if_pos rfl, hp]) (children_addNode_new hid)
    refine ⟨t.size, t', pat', [], ?_, a1, a2, hx.trans a3, ?_, hocc, Or.inl ⟨rfl, rfl⟩, ?_, ?_⟩
    · simp only [if_true, Option.bind_eq_bind, Option.bind_some]
      have : (t.alloc (some j) (t.node j).loc).2.addChild id w (some (t.alloc (some j) (t.node j).loc).1) =
        addNode t id w j (t.node j).loc := rfl
      rw [this, fst_alloc, e1]; rfl
    · exact a3.child id (by rw [size_addNode]; omega) w t.size (by rw [children_addNode hid]; simp)
    · rw [← hp]; exact h.fresh hid hk'
    · intro i h1 h2
      by_cases hit : i = t.size
      · left
        rw [hit, a3.pat t.size (by rw [size_addNode]; omega), upd, if_pos rfl, hp]
      · exact Or.inr (a5 i (by rw [size_addNode]; omega) h2)
  | false =>
    obtain ⟨l, hl, hloc, hsize, hrange⟩ := locate_spec S h hid g hw hp hj hpj
    simp only [Bool.false_eq_true, if_false, hl, Option.bind_eq_bind, Option.bind_some]
    by_cases hz : l.getSize = 0
    · right
      rw [if_pos hz]
      refine ⟨rfl, ?_⟩
      rw [← occ_of_nodeLoc hloc]
      exact fun hne => hne (hsize.1 hz)
    · left
      rw [if_neg hz]
      have hocc : Occ lines F.I (φ ++ [w]) := (occ_of_nodeLoc hloc).1 (fun e' => hz (hsize.2 e'))
      have hT := h.addNode (l := l) hid hk' hj (by rw [hp]; exact hpj)
        (by rw [hp]; exact fun _ => ⟨hloc, hocc⟩) (by rw [hp]; exact hrange)
      have hx := ext_addNode (pat := pat) (j := j) (l := l) (s := pat id ++ [w]) hk'
      obtain ⟨t', pat', e1, a1, a2, a3, a4, a5⟩ := addTrailing_spec S.wordsPos hT (c := t.size)
        (by rw [size_addNode]; omega)
        (by
          intro i hi hic φ' w' e' hw' ha
          exact trail_addNode hk' ht i hi ⟨trivial, hic⟩ φ' w' e' hw' ha) g hw0
        (by rw [upd, if_pos rfl, hp]) (children_addNode_new hid)
      refine ⟨t.size, t', pat', [(φ ++ [w], l)], ?_, a1, a2, hx.trans a3, ?_, hocc, Or.inr ⟨rfl, l, rfl, hloc⟩, ?_, ?_⟩
      · have : (t.alloc (some j) l).2.addChild id w (some (t.alloc (some j) l).1) = addNode t id w j l := rfl
        rw [this, fst_alloc, e1]
        simp only [Option.bind_some]
        rw [a4, loc_addNode_new]
      · exact a3.child id (by rw [size_addNode]; omega) w t.size (by rw [children_addNode hid]; simp)
      · rw [← hp]; exact h.fresh hid hk'
      · intro i h1 h2
        by_cases hit : i = t.size
        · left
          rw [hit, a3.pat t.size (by rw [size_addNode]; omega), upd, if_pos rfl, hp]
        · exact Or.inr (a5 i (by rw [size_addNode]; omega) h2)

/-! ## Extending a state -/

/-- A state of the queue. -/
structure StOk (F : Factory) (words : List Int) (t : Trie) (pat : Nat → List Int) (st : FState) : Prop where
  gen : Gen F words st.startsX st.start st.stop st.phrase
  node : ∃ id < t.size, st.node = some id ∧ pat id = st.phrase

theorem StOk.ext {t' : Trie} {pat' : Nat → List Int} (hx : TExt t pat t' pat') {st : FState} (h : StOk F words t pat st) :
    StOk F words t' pat' st := by
  refine ⟨h.gen, ?_⟩
  obtain ⟨id, h1, h2, h3⟩ := h.node
  exact ⟨id, Nat.lt_of_lt_of_le h1 hx.size, h2, by rw [hx.pat id h1]; exact h3⟩

/-- A state without its node. -/
abbrev Abs := Bool × Nat × Nat × List Int
def FState.abs (st : FState) : Abs := (st.startsX, st.start, st.stop, st.phrase)

/-- The states that follow a state. -/
inductive Next (F : Factory) (words : List Int) : Abs → Abs → Prop
  | next {x : Bool} {s e : Nat} {φ : List Int} {w : Int} (hw : words[e]? = some w)
    (h1 : (φ ++ [w]).length < F.maxSym) (h2 : e + 1 < words.length) (h3 : e - s < F.I.span) :
    Next F words (x, s, e, φ) (x, s, e + 1, φ ++ [w])
  | gap {x : Bool} {s e : Nat} {φ : List Int} {w : Int} {i : Nat} (hw : words[e]? = some w)
    (h1 : (φ ++ [w]).length + 1 < F.maxSym) (h2 : ar φ < F.maxNt) (h3 : ar φ + (if x then 0 else 1) < F.maxChunks)
    (h4 : e - s < F.I.span) (h5 : e + 1 + F.I.gap ≤ i) (h6 : i < words.length) (h7 : i - s ≤ F.I.span) :
    Next F words (x, s, e, φ) (x, s, i, φ ++ [w] ++ [-((ar φ + 1 : Nat) : Int)])

/-- Upper bound of the number of states that a state leads to. -/
def weight (n : Nat) (st : FState) : Nat := 3 ^ (n - st.stop)

theorem sum_range' (n : Nat) : ∀ (k a : Nat), a + k = n → 2 * ((List.range' a k).map fun i => 3 ^ (n - i)).sum + 3 ≤ 3 ^ (k + 1)
  | 0, a, h => by simp
  | k + 1, a, h => by
    have ih := sum_range' n k (a + 1) (by omega)
    rw [List.range'_succ, List.map_cons, List.sum_cons]
    have : n - a = k + 1 := by omega
    rw [this, Nat.pow_succ 3 (k + 1)]
    omega

theorem sum_takeWhile (p : Nat → Bool) (f : Nat → Nat) : ∀ l : List Nat, ((l.takeWhile p).map f).sum ≤ (l.map f).sum
  | [] => by simp
  | a :: l => by
    have ih := sum_takeWhile p f l
    rw [List.takeWhile_cons]
    split
    · simp only [List.map_cons, List.sum_cons]; omega
    · simp

theorem mem_gapStops (st : FState) (n i : Nat) :
    i ∈ F.gapStops n st ↔ st.stop + 1 + F.I.gap ≤ i ∧ i < n ∧ i - st.start ≤ F.I.span := by
  have key : ∀ (k a : Nat), i ∈ (List.range' a k).takeWhile (fun i => decide (i - st.start ≤ F.I.span)) ↔
      a ≤ i ∧ i < a + k ∧ i - st.start ≤ F.I.span := by
    intro k
    induction k with
    | zero => intro a; simp; omega
    | succ k ih =>
      intro a
      rw [List.range'_succ, List.takeWhile_cons]
      split
      · rename_i h
        have h : a - st.start ≤ F.I.span := by simpa using h
        rw [List.mem_cons, ih]
        constructor
        · rintro (rfl | h') <;> omega
        · intro h'
          by_cases hia : i = a
          · exact Or.inl hia
          · right; omega
      · rename_i h
        have h : F.I.span < a - st.start := by simp only [decide_eq_true_eq] at h; omega
        constructor
        · intro h'; cases h'
        · intro h'; omega
  rw [Factory.gapStops, key]
  constructor <;> intro h <;> omega

theorem extend_spec (hwords : ∀ w ∈ words, 0 ≤ w) (h : TInv lines F t pat) (ht : Trail F t pat fun _ => True)
    {c : Nat} (hc : c < t.size) {st : FState} {w : Int}
    (g : Gen F words st.startsX st.start st.stop st.phrase) (hw : words[st.stop]? = some w)
    (hp : pat c = st.phrase ++ [w]) :
    ∃ L, F.extendState words.length t st (st.phrase ++ [w]) c = (L, t) ∧
      (∀ τ ∈ L, StOk F words t pat τ ∧ key τ.startsX τ.phrase = key st.startsX st.phrase + 2) ∧
      (∀ b, Next F words st.abs b → ∃ τ ∈ L, τ.abs = b) ∧
      (L.map (weight words.length)).sum < weight words.length st := by
  have hw0 := word_nonneg hwords hw
  have hb := g.bounds
  obtain ⟨m, hm⟩ : ∃ m, words.length - st.stop = m + 1 := ⟨words.length - st.stop - 1, by omega⟩
  have hpow : 0 < 3 ^ m := Nat.pow_pos (by omega)
  unfold Factory.extendState
  simp only [arity_ar, ar_snoc_word hw0]
  by_cases h1 : F.maxSym ≤ (st.phrase ++ [w]).length ∨ words.length ≤ st.stop + 1 ∨ F.I.span ≤ st.stop - st.start
  · rw [if_pos h1]
    refine ⟨[], rfl, fun τ h => absurd h (by simp), ?_, ?_⟩
    · intro b hb
      cases hb with
      | next hw' h1' h2' h3' =>
        rw [hw] at hw'; cases hw'
        omega
      | gap hw' h1' =>
        rw [hw] at hw'; cases hw'
        omega
    · simp only [weight, List.map_nil, List.sum_nil]; exact Nat.pow_pos (by omega)
  · rw [if_neg h1]
    have G1 : Gen F words st.startsX st.start (st.stop + 1) (st.phrase ++ [w]) :=
      .next g hw (by omega) (by omega) (by omega)
    have hnext : StOk F words t pat ⟨st.start, st.stop + 1, st.phrase ++ [w], some c, st.startsX⟩ :=
      ⟨G1, c, hc, rfl, hp⟩
    by_cases h2 : F.maxSym ≤ (st.phrase ++ [w]).length + 1 ∨ F.maxNt ≤ ar st.phrase ∨
        F.maxChunks ≤ ar st.phrase + (if st.startsX then 0 else 1)
    · rw [if_pos h2]
      refine ⟨_, rfl, ?_, ?_, ?_⟩
      · intro τ hτ
        rw [List.mem_singleton.1 hτ]
        exact ⟨hnext, key_next _ _ hw0⟩
      · intro b hb
        cases hb with
        | next hw' h1' h2' h3' =>
          rw [hw] at hw'; cases hw'
          exact ⟨_, List.mem_singleton.2 rfl, rfl⟩
        | gap hw' h1' =>
          rw [hw] at hw'; cases hw'
          omega
      · simp only [weight, List.map_cons, List.map_nil, List.sum_cons, List.sum_nil, hm]
        rw [show words.length - (st.stop + 1) = m from by omega, Nat.pow_succ]; omega
    · rw [if_neg h2]
      obtain ⟨d, hd⟩ := ht c hc trivial st.phrase w hp hw0 (by omega)
      obtain ⟨hd1, hd2⟩ := h.child c hc _ _ hd
      have hgc : t.getChild c (-((ar st.phrase + 1 : Nat) : Int)) = (some d, t) := by rw [Trie.getChild, hd]
      refine ⟨_, by rw [hgc, ite_self], ?_, ?_, ?_⟩
      · intro τ hτ
        rcases List.mem_cons.1 hτ with rfl | hτ
        · exact ⟨hnext, key_next _ _ hw0⟩
        · obtain ⟨i, hi, rfl⟩ := List.mem_map.1 hτ
          rw [mem_gapStops] at hi
          have G2 : Gen F words st.startsX st.start i (st.phrase ++ [w] ++ [-((ar st.phrase + 1 : Nat) : Int)]) :=
            .gap g hw (by omega) (by omega) (by omega) (by omega) (by omega) (by omega) (by omega)
          refine ⟨⟨G2, d, hd1, rfl, by rw [hd2, hp]⟩, ?_⟩
          simp only []
          rw [key_nt _ _ (by omega), key_next _ _ hw0]
      · intro b hb
        cases hb with
        | next hw' h1' h2' h3' =>
          rw [hw] at hw'; cases hw'
          exact ⟨_, List.mem_cons_self, rfl⟩
        | @gap _ _ _ _ _ i hw' h1' h2' h3' h4' h5' h6' h7' =>
          rw [hw] at hw'; cases hw'
          exact ⟨_, List.mem_cons_of_mem _ (List.mem_map.2 ⟨i, (mem_gapStops _ _ _).2 ⟨h5', h6', h7'⟩, rfl⟩), rfl⟩
      · rw [List.map_cons, List.sum_cons, List.map_map]
        change _ + ((F.gapStops words.length st).map fun i => 3 ^ (words.length - i)).sum < _
        have e2 := sum_takeWhile (fun i => decide (i - st.start ≤ F.I.span)) (fun i => 3 ^ (words.length - i))
          (List.range' (st.stop + 1 + F.I.gap) (words.length - (st.stop + 1 + F.I.gap)))
        change ((F.gapStops words.length st).map _).sum ≤ _ at e2
        simp only [weight, hm]
        rw [show words.length - (st.stop + 1) = m from by omega, Nat.pow_succ]
        by_cases hle : st.stop + 1 + F.I.gap ≤ words.length
        · have e3 := sum_range' words.length (words.length - (st.stop + 1 + F.I.gap)) (st.stop + 1 + F.I.gap) (by omega)
          have e4 : 3 ^ (words.length - (st.stop + 1 + F.I.gap) + 1) ≤ 3 ^ (m + 1) :=
            Nat.pow_le_pow_right (by omega) (by omega)
          rw [Nat.pow_succ 3 m] at e4
          omega
        · have : words.length - (st.stop + 1 + F.I.gap) = 0 := by omega
          rw [this] at e2
          simp only [List.range'_zero, List.map_nil, List.sum_nil] at e2
          omega

end Cdec.Extract
