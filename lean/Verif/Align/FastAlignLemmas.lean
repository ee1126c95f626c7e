import Verif.Align.FastAlign
import Verif.Props.C58
import Verif.Props.C59
import Mathlib.Analysis.SpecialFunctions.Log.Basic
import Mathlib.Tactic.Positivity
import Mathlib.Tactic.ByContra
/-! # Lemmas for EM training of the word aligner -/
namespace Cdec.Align
open Cdec.Sparse FaSpec

/-- The options under which the priors are positive numbers. -/
structure FaOpts.Ok (o : FaOpts) : Prop where
  diag : o.favorDiagonal = true → o.tension ≠ 0 ∧ 0 < o.pNull ∧ o.pNull < 1
  eps : 0 < o.eps

theorem cells_eq (o : FaOpts) (src : List Nat) : o.cells src = places o src := by
  unfold FaOpts.cells places
  congr 1
  apply List.ext_getElem
  · simp
  · intro i h1 h2
    simp at h1
    simp [h1]

theorem places_mem {o : FaOpts} {src : List Nat} {c : Nat × Nat} (h : c ∈ places o src) :
    c.1 ≤ src.length ∧ (c.2 ∈ src ∨ (o.useNull = true ∧ c.2 = o.null)) := by
  unfold places at h
  rcases List.mem_append.1 h with h | h
  · split at h
    · rename_i hn
      simp only [List.mem_singleton] at h
      subst h
      exact ⟨Nat.zero_le _, Or.inr ⟨hn, rfl⟩⟩
    · simp at h
  · obtain ⟨i, hi, rfl⟩ := List.mem_map.1 h
    have := List.mem_range.1 hi
    refine ⟨by simp only []; omega, Or.inl ?_⟩
    simp [this]

theorem mem_places {o : FaOpts} {src : List Nat} {e : Nat} (h : e ∈ src ∨ (o.useNull = true ∧ e = o.null)) :
    ∃ c ∈ places o src, c.2 = e := by
  unfold places
  rcases h with h | ⟨h, rfl⟩
  · obtain ⟨i, hi, rfl⟩ := List.mem_iff_getElem.1 h
    exact ⟨(i + 1, src.getD i 0), List.mem_append_right _ (List.mem_map.2 ⟨i, List.mem_range.2 hi, rfl⟩), by simp [hi]⟩
  · exact ⟨(0, o.null), List.mem_append_left _ (by simp [h]), rfl⟩

theorem range_sum (n : Nat) (f : Nat → ℝ) : ∑ k ∈ Finset.range n, f k = ((List.range n).map f).sum := by
  change (Multiset.map f ↑(List.range n)).sum = _
  rw [Multiset.map_coe, Multiset.sum_coe]

theorem prior_eq {o : FaOpts} (ok : o.Ok) {j m n i : Nat} (hj : j < m) (hn : 0 < n) :
    o.prior j m n i = some (align o j m n i) ∧ 0 < align o j m n i := by
  unfold FaOpts.prior align
  cases hd : o.favorDiagonal with
  | false =>
    simp only [Bool.false_eq_true, if_false]
    refine ⟨trivial, ?_⟩
    have : (0 : ℝ) < n := by exact_mod_cast hn
    split <;> positivity
  | true =>
    obtain ⟨ht, h0, h1⟩ := ok.diag hd
    simp only [if_true]
    by_cases hi : i = 0
    · simp only [hi, if_true]; exact ⟨trivial, h0⟩
    · simp only [hi, if_false]
      rw [z_eq ht (by omega : j + 1 ≤ m) (by omega) hn]
      have e : specZ (j + 1) m n o.tension =
          ((List.range n).map fun i' : Nat => Real.exp (-o.tension * |((i' : ℝ) + 1) / n - ((j : ℝ) + 1) / m|)).sum := by
        rw [specZ]
        have e1 : ∑ j' ∈ Finset.Icc 1 n, unnormProb (j + 1) j' m n o.tension =
            ∑ k ∈ Finset.range n, unnormProb (j + 1) (k + 1) m n o.tension := by
          rw [Finset.range_eq_Ico, Finset.sum_Ico_add' (fun k => unnormProb (j + 1) k m n o.tension) 0 n 1]
          rfl
        rw [e1, range_sum]
        congr 1
        apply List.map_congr_left
        intro k _
        rw [unnormProb, feature]
        congr 1
        push_cast
        ring
      have zpos : 0 < specZ (j + 1) m n o.tension := by
        rw [specZ]
        exact Finset.sum_pos (fun k _ => Real.exp_pos _) ⟨1, Finset.mem_Icc.2 ⟨le_refl _, hn⟩⟩
      rw [← e]
      have e2 : unnormProb (j + 1) i m n o.tension = Real.exp (-o.tension * |(i : ℝ) / n - ((j : ℝ) + 1) / m|) := by
        rw [unnormProb, feature]
        congr 1
        push_cast
        ring
      refine ⟨?_, mul_pos (by linarith) (div_pos (Real.exp_pos _) zpos)⟩
      rw [Option.map_some, e2]
      congr 1
      have : 1 - o.pNull ≠ 0 := by linarith
      field_simp

theorem mapM_some {α β : Type} (f : α → Option β) (g : α → β) : ∀ (l : List α), (∀ a ∈ l, f a = some (g a)) →
    l.mapM f = some (l.map g)
  | [], _ => rfl
  | a :: l, h => by
    rw [List.mapM_cons, h a List.mem_cons_self, mapM_some f g l fun b hb => h b (List.mem_cons_of_mem _ hb)]
    rfl

/-- Translation probabilities of a table. -/
noncomputable def FaOpts.theta (o : FaOpts) (t : TTable ℝ) (e f : Nat) : ℝ := t.prob o.eps e f

/-- The entry of `probs` for a place. -/
noncomputable def cellProb (o : FaOpts) (θ : Nat → Nat → ℝ) (s : Pair) (j : Nat) (c : Nat × Nat) : ℝ :=
  align o j s.2.length s.1.length c.1 * θ c.2 (s.2.getD j 0)

theorem probs_eq {o : FaOpts} (ok : o.Ok) (t : TTable ℝ) {s : Pair} (h1 : s.1 ≠ []) {j : Nat} (hj : j < s.2.length) :
    o.probs t s j (s.2.getD j 0) =
      some ((places o s.1).map fun c => (c.1, c.2, cellProb o (o.theta t) s j c)) := by
  unfold FaOpts.probs
  rw [cells_eq]
  apply mapM_some
  intro c hc
  rw [(prior_eq ok hj (List.length_pos_iff.2 h1)).1, Option.map_some, cellProb, mul_comm]
  rfl

theorem total_eq (ps : List (Nat × Nat × ℝ)) : total ps = (ps.map fun c => c.2.2).sum := by
  have := foldl_add_map ps (fun c => c.2.2) (0 : ℝ)
  rw [total, this, zero_add]

theorem total_probs (o : FaOpts) (θ : Nat → Nat → ℝ) (s : Pair) (j : Nat) :
    total ((places o s.1).map fun c => (c.1, c.2, cellProb o θ s j c)) = wordProb o θ s j := by
  rw [total_eq, List.map_map]; rfl

theorem wordProb_pos {o : FaOpts} (ok : o.Ok) {θ : Nat → Nat → ℝ} {s : Pair} (h1 : s.1 ≠ []) {j : Nat}
    (hj : j < s.2.length) (hθ : ∀ c ∈ places o s.1, 0 < θ c.2 (s.2.getD j 0)) :
    0 < wordProb o θ s j := by
  have hp : ∀ c ∈ places o s.1, 0 < cellProb o θ s j c := fun c hc =>
    mul_pos (prior_eq ok hj (List.length_pos_iff.2 h1)).2 (hθ c hc)
  obtain ⟨w, hw⟩ := List.exists_mem_of_ne_nil _ h1
  obtain ⟨c, hc, _⟩ := mem_places (o := o) (Or.inl hw)
  change 0 < ((places o s.1).map (cellProb o θ s j)).sum
  have : ∀ (l : List (Nat × Nat)), (∀ c ∈ l, 0 < cellProb o θ s j c) → l ≠ [] → 0 < (l.map (cellProb o θ s j)).sum := by
    intro l
    induction l with
    | nil => intro _ h; exact absurd rfl h
    | cons a l ih =>
      intro h _
      rw [List.map_cons, List.sum_cons]
      have ha := h a List.mem_cons_self
      by_cases hl : l = []
      · subst hl; simpa using ha
      · have := ih (fun c hc => h c (List.mem_cons_of_mem _ hc)) hl
        linarith
  exact this _ hp (List.ne_nil_of_mem hc)

theorem zipIdx_eq (l : List Nat) : l.zipIdx = (List.range l.length).map fun j => (l.getD j 0, j) := by
  apply List.ext_getElem
  · simp
  · intro i h1 h2
    simp at h1
    simp [h1]

/-! ## Counts -/

/-- Words stored in the row of `e`. -/
def keys (t : TTable ℝ) (e : Nat) : List Nat := (t.counts.getD e []).map Prod.fst

theorem mem_keys_modifyKey (m : Row ℝ) (k : Nat) (g : ℝ → ℝ) : (modifyKey m k g).map Prod.fst = m.map Prod.fst := by
  induction m with
  | nil => rfl
  | cons p m ih =>
    unfold modifyKey
    split <;> simp_all

theorem mem_keys_mapUpdate (m : Row ℝ) (k : Nat) (g : ℝ → ℝ) (k' : Nat) :
    k' ∈ (mapUpdate m k g).map Prod.fst ↔ k' ∈ m.map Prod.fst ∨ k' = k := by
  unfold mapUpdate
  cases h : lookup m k with
  | none => simp
  | some x =>
    simp only [mem_keys_modifyKey]
    constructor
    · exact Or.inl
    · rintro (h' | rfl)
      · exact h'
      · exact by_contra fun hn => by rw [lookup_eq_none.2 hn] at h; cases h

theorem increment_keys (t t' : TTable ℝ) (e f : Nat) (x : ℝ) (h : t.increment e f x = some t') (e' f' : Nat) :
    f' ∈ keys t' e' ↔ f' ∈ keys t e' ∨ (e' = e ∧ f' = f) := by
  unfold TTable.increment at h
  obtain ⟨v, hv, hlen, hget⟩ : ∃ v, (if t.counts.length ≤ e then resize t.counts (e + 1) else t.counts) = v ∧ e < v.length ∧
      ∀ e', v.getD e' [] = t.counts.getD e' [] := by
    refine ⟨_, rfl, ?_, ?_⟩
    · split
      · rw [resize_length]; omega
      · omega
    · intro e'
      split
      · exact resize_getD _ _ _ (by omega)
      · rfl
  rw [hv, bump, if_pos hlen, Option.map_some] at h
  cases h
  unfold keys
  simp only []
  rw [List.getD_eq_getElem?_getD, List.getElem?_modify, ← hget e', List.getD_eq_getElem?_getD]
  by_cases he : e = e'
  · subst he
    rw [List.getElem?_eq_getElem hlen]
    simp only [if_true, Option.map_eq_map, Option.map_some, Option.getD_some, mem_keys_mapUpdate, true_and]
  · simp only [if_neg he]
    cases v[e']? <;> simp [Ne.symm he]

/-- The counts are maps, positive where there is an entry. -/
structure Counts (t : TTable ℝ) : Prop where
  rows : RowsOk t.counts
  pos : ∀ e f, f ∈ keys t e → 0 < count t e f

theorem Counts.mem {t : TTable ℝ} (h : Counts t) (e f : Nat) : f ∈ keys t e ↔ 0 < count t e f := by
  refine ⟨h.pos e f, fun hp => ?_⟩
  by_contra hn
  rw [count, lookup_eq_none.2 hn] at hp
  simp at hp

theorem Counts.nonneg {t : TTable ℝ} (h : Counts t) (e f : Nat) : 0 ≤ count t e f := by
  by_cases hm : f ∈ keys t e
  · exact (h.pos e f hm).le
  · rw [count, lookup_eq_none.2 hm]; simp

/-- `t'` has the counts of `t` and the amounts `l`, each added to the pair it names. -/
structure Added (t t' : TTable ℝ) (l : List ((Nat × Nat) × ℝ)) : Prop where
  table : t'.ttable = t.ttable
  ok : Counts t'
  count : ∀ e f, count t' e f = count t e f + (l.map fun p => if p.1 = (e, f) then p.2 else 0).sum

theorem Added.refl {t : TTable ℝ} (h : Counts t) : Added t t [] := ⟨rfl, h, by simp⟩

theorem Added.trans {t t' t'' : TTable ℝ} {l l' : List ((Nat × Nat) × ℝ)} (h : Added t t' l) (h' : Added t' t'' l') :
    Added t t'' (l ++ l') :=
  ⟨h'.table.trans h.table, h'.ok, fun e f => by rw [h'.count, h.count, List.map_append, List.sum_append, add_assoc]⟩

theorem increment_added {t : TTable ℝ} (h : Counts t) (e f : Nat) {x : ℝ} (hx : 0 < x) :
    ∃ t', t.increment e f x = some t' ∧ Added t t' [((e, f), x)] := by
  obtain ⟨t', h1, h2, h3, h4⟩ := increment_spec t h.rows e f x
  refine ⟨t', h1, h3, ⟨h2, ?_⟩, ?_⟩
  · intro e' f' hm
    rw [h4]
    split
    · have := h.nonneg e' f'; linarith
    · rename_i hne
      rcases (increment_keys t t' e f x h1 e' f').1 hm with hm | hm
      · exact h.pos _ _ hm
      · exact absurd hm hne
  · intro e' f'
    rw [h4]
    by_cases he : e' = e ∧ f' = f
    · obtain ⟨rfl, rfl⟩ := he; simp
    · rw [if_neg he]
      simp only [List.map_cons, List.map_nil, List.sum_cons, List.sum_nil, Prod.mk.injEq]
      rw [if_neg (fun hh => he ⟨hh.1.symm, hh.2.symm⟩)]
      simp

theorem increments_added (f : Nat) (sum : ℝ) : ∀ (ps : List (Nat × Nat × ℝ)) (t : TTable ℝ), Counts t →
    (∀ c ∈ ps, 0 < c.2.2 / sum) →
    ∃ t', ps.foldlM (fun t c => t.increment c.2.1 f (c.2.2 / sum)) t = some t' ∧
      Added t t' (ps.map fun c => ((c.2.1, f), c.2.2 / sum))
  | [], t, h, _ => ⟨t, rfl, Added.refl h⟩
  | c :: ps, t, h, hp => by
    obtain ⟨t1, h1, h2⟩ := increment_added h c.2.1 f (hp c List.mem_cons_self)
    obtain ⟨t', h3, h4⟩ := increments_added f sum ps t1 h2.ok fun c hc => hp c (List.mem_cons_of_mem _ hc)
    exact ⟨t', by rw [List.foldlM_cons, h1]; exact h3, h2.trans h4⟩

/-- The amounts added for target word `j` of a pair. -/
noncomputable def tokenAdds (o : FaOpts) (θ : Nat → Nat → ℝ) (s : Pair) (j : Nat) : List ((Nat × Nat) × ℝ) :=
  (places o s.1).map fun c => ((c.2, s.2.getD j 0), cellProb o θ s j c / wordProb o θ s j)

/-- What is needed of the translation probabilities for a pair. -/
def PosOn (o : FaOpts) (θ : Nat → Nat → ℝ) (s : Pair) : Prop :=
  s.1 ≠ [] ∧ s.2 ≠ [] ∧ ∀ f ∈ s.2, ∀ c ∈ places o s.1, 0 < θ c.2 f

theorem PosOn.at {o : FaOpts} {θ : Nat → Nat → ℝ} {s : Pair} (h : PosOn o θ s) {j : Nat} (hj : j < s.2.length) :
    ∀ c ∈ places o s.1, 0 < θ c.2 (s.2.getD j 0) := by
  apply h.2.2
  simp [hj]

theorem theta_congr {o : FaOpts} {t t' : TTable ℝ} (h : t'.ttable = t.ttable) : o.theta t' = o.theta t := by
  funext e f; simp [FaOpts.theta, TTable.prob, h]

theorem token_spec {o : FaOpts} (ok : o.Ok) {s : Pair} {t : TTable ℝ} (hc : Counts t) (hp : PosOn o (o.theta t) s) {j : Nat}
    (hj : j < s.2.length) (x : ℝ) :
    ∃ t', o.token s (t, x) (s.2.getD j 0, j) = some (t', x + Real.log (wordProb o (o.theta t) s j)) ∧
      Added t t' (tokenAdds o (o.theta t) s j) := by
  unfold FaOpts.token
  simp only [probs_eq ok t hp.1 hj]
  have wp := wordProb_pos ok hp.1 hj (hp.at hj)
  obtain ⟨t', h1, h2⟩ := increments_added (s.2.getD j 0) (wordProb o (o.theta t) s j)
    ((places o s.1).map fun c => (c.1, c.2, cellProb o (o.theta t) s j c)) t hc (by
      intro c' hc'
      obtain ⟨c, hcm, rfl⟩ := List.mem_map.1 hc'
      exact div_pos (mul_pos (prior_eq ok hj (List.length_pos_iff.2 hp.1)).2 (hp.at hj c hcm)) wp)
  refine ⟨t', ?_, ?_⟩
  · change ((_ : Option (TTable ℝ)).bind _) = _
    rw [total_probs, h1]; rfl
  · rw [List.map_map] at h2
    exact h2

theorem tokens_spec {o : FaOpts} (ok : o.Ok) {s : Pair} (θ : Nat → Nat → ℝ) (hp : PosOn o θ s) : ∀ (js : List Nat),
    (∀ j ∈ js, j < s.2.length) → ∀ (t : TTable ℝ) (x : ℝ), Counts t → o.theta t = θ →
    ∃ t', (js.map fun j => (s.2.getD j 0, j)).foldlM (o.token s) (t, x) =
        some (t', x + (js.map fun j => Real.log (wordProb o θ s j)).sum) ∧
      Added t t' (js.flatMap fun j => tokenAdds o θ s j)
  | [], _, t, x, hc, _ => ⟨t, by simp, by simpa using Added.refl hc⟩
  | j :: js, hj, t, x, hc, ht => by
    obtain ⟨t1, h1, h2⟩ := token_spec ok hc (ht ▸ hp) (hj j List.mem_cons_self) x
    rw [ht] at h1 h2
    obtain ⟨t', h3, h4⟩ := tokens_spec ok θ hp js (fun j h => hj j (List.mem_cons_of_mem _ h)) t1
      (x + Real.log (wordProb o θ s j)) h2.ok ((theta_congr h2.table).trans ht)
    refine ⟨t', ?_, by rw [List.flatMap_cons]; exact h2.trans h4⟩
    rw [List.map_cons, List.foldlM_cons, h1]
    simp only [Option.bind_eq_bind, Option.bind_some, h3, List.map_cons, List.sum_cons, add_assoc]

/-- The amounts added for a pair. -/
noncomputable def pairAdds (o : FaOpts) (θ : Nat → Nat → ℝ) (s : Pair) : List ((Nat × Nat) × ℝ) :=
  (List.range s.2.length).flatMap fun j => tokenAdds o θ s j

theorem pair_spec {o : FaOpts} (ok : o.Ok) {s : Pair} (θ : Nat → Nat → ℝ) (hp : PosOn o θ s) (t : TTable ℝ) (x : ℝ)
    (hc : Counts t) (ht : o.theta t = θ) :
    ∃ t', o.pair (t, x) s = some (t', x + ((List.range s.2.length).map fun j => Real.log (wordProb o θ s j)).sum) ∧
      Added t t' (pairAdds o θ s) := by
  obtain ⟨t', h1, h2⟩ := tokens_spec ok θ hp (List.range s.2.length) (fun j h => List.mem_range.1 h) t x hc ht
  refine ⟨t', ?_, h2⟩
  rw [FaOpts.pair, if_neg (by rintro (h | h); exacts [hp.1 h, hp.2.1 h]), zipIdx_eq]
  exact h1

theorem corpus_spec {o : FaOpts} (ok : o.Ok) (θ : Nat → Nat → ℝ) : ∀ (corpus : List Pair), (∀ s ∈ corpus, PosOn o θ s) →
    ∀ (t : TTable ℝ) (x : ℝ), Counts t → o.theta t = θ →
    ∃ t', corpus.foldlM o.pair (t, x) = some (t', x + logLik o θ corpus) ∧
      Added t t' (corpus.flatMap fun s => pairAdds o θ s)
  | [], _, t, x, hc, _ => ⟨t, by simp [logLik], by simpa using Added.refl hc⟩
  | s :: corpus, hp, t, x, hc, ht => by
    obtain ⟨t1, h1, h2⟩ := pair_spec ok θ (hp s List.mem_cons_self) t x hc ht
    obtain ⟨t', h3, h4⟩ := corpus_spec ok θ corpus (fun s h => hp s (List.mem_cons_of_mem _ h)) t1
      (x + ((List.range s.2.length).map fun j => Real.log (wordProb o θ s j)).sum) h2.ok
      ((theta_congr h2.table).trans ht)
    refine ⟨t', ?_, by rw [List.flatMap_cons]; exact h2.trans h4⟩
    rw [List.foldlM_cons, h1]
    simp only [Option.bind_eq_bind, Option.bind_some, h3, logLik, List.map_cons, List.sum_cons, add_assoc]

/-! ## The new table -/

theorem sum_flatMap {α β : Type} (f : β → ℝ) (g : α → List β) (l : List α) :
    ((l.flatMap g).map f).sum = (l.map fun a => ((g a).map f).sum).sum := by
  induction l with
  | nil => rfl
  | cons a l ih => rw [List.flatMap_cons, List.map_append, List.sum_append, ih, List.map_cons, List.sum_cons]

/-- All amounts added in an iteration. -/
noncomputable def adds (o : FaOpts) (θ : Nat → Nat → ℝ) (corpus : List Pair) : List ((Nat × Nat) × ℝ) :=
  corpus.flatMap fun s => pairAdds o θ s

theorem adds_sum (o : FaOpts) (θ : Nat → Nat → ℝ) (corpus : List Pair) (e f : Nat) :
    ((adds o θ corpus).map fun p => if p.1 = (e, f) then p.2 else 0).sum = expCount o θ corpus e f := by
  rw [adds, sum_flatMap, expCount]
  congr 1
  apply List.map_congr_left
  intro s _
  rw [pairAdds, sum_flatMap]
  congr 1
  apply List.map_congr_left
  intro j _
  rw [tokenAdds, List.map_map]
  congr 1
  apply List.map_congr_left
  intro c _
  simp only [Function.comp, Prod.mk.injEq, cellProb]
  by_cases h : c.2 = e ∧ s.2.getD j 0 = f
  · rw [if_pos h, if_pos h, h.1, h.2]
  · rw [if_neg h, if_neg h]

/-- Every amount is positive and belongs to a pair of words that occur together. -/
theorem adds_mem {o : FaOpts} (ok : o.Ok) {θ : Nat → Nat → ℝ} {corpus : List Pair} (hp : ∀ s ∈ corpus, PosOn o θ s)
    {p : (Nat × Nat) × ℝ} (h : p ∈ adds o θ corpus) : Cooccur o corpus p.1.1 p.1.2 ∧ 0 < p.2 := by
  obtain ⟨s, hs, h⟩ := List.mem_flatMap.1 h
  obtain ⟨j, hj, h⟩ := List.mem_flatMap.1 h
  obtain ⟨c, hc, rfl⟩ := List.mem_map.1 h
  have hj := List.mem_range.1 hj
  refine ⟨⟨s, hs, by simp [hj], (places_mem hc).2⟩, ?_⟩
  exact div_pos (mul_pos (prior_eq ok hj (List.length_pos_iff.2 (hp s hs).1)).2 ((hp s hs).at hj c hc))
    (wordProb_pos ok (hp s hs).1 hj ((hp s hs).at hj))

theorem mem_adds {o : FaOpts} {θ : Nat → Nat → ℝ} {corpus : List Pair} {e f : Nat} (h : Cooccur o corpus e f) :
    ∃ x, ((e, f), x) ∈ adds o θ corpus := by
  obtain ⟨s, hs, hf, he⟩ := h
  obtain ⟨j, hj, rfl⟩ := List.mem_iff_getElem.1 hf
  obtain ⟨c, hc, rfl⟩ := mem_places he
  refine ⟨cellProb o θ s j c / wordProb o θ s j, List.mem_flatMap.2 ⟨s, hs, List.mem_flatMap.2
    ⟨j, List.mem_range.2 hj, List.mem_map.2 ⟨c, hc, ?_⟩⟩⟩⟩
  simp [hj]

theorem sum_nonneg_of {α : Type} (f : α → ℝ) : ∀ (l : List α), (∀ a ∈ l, 0 ≤ f a) → 0 ≤ (l.map f).sum
  | [], _ => le_refl _
  | a :: l, h => by
    rw [List.map_cons, List.sum_cons]
    exact add_nonneg (h a List.mem_cons_self) (sum_nonneg_of f l fun b hb => h b (List.mem_cons_of_mem _ hb))

theorem sum_pos_of {α : Type} (f : α → ℝ) : ∀ (l : List α), (∀ a ∈ l, 0 ≤ f a) → (∃ a ∈ l, 0 < f a) → 0 < (l.map f).sum
  | [], _, h => by obtain ⟨a, ha, _⟩ := h; cases ha
  | a :: l, h, h' => by
    rw [List.map_cons, List.sum_cons]
    obtain ⟨b, hb, hp⟩ := h'
    rcases List.mem_cons.1 hb with rfl | hb
    · exact add_pos_of_pos_of_nonneg hp (sum_nonneg_of f l fun c hc => h c (List.mem_cons_of_mem _ hc))
    · exact add_pos_of_nonneg_of_pos (h a List.mem_cons_self)
        (sum_pos_of f l (fun c hc => h c (List.mem_cons_of_mem _ hc)) ⟨b, hb, hp⟩)

theorem expCount_pos {o : FaOpts} (ok : o.Ok) {θ : Nat → Nat → ℝ} {corpus : List Pair} (hp : ∀ s ∈ corpus, PosOn o θ s)
    (e f : Nat) : (0 < expCount o θ corpus e f ↔ Cooccur o corpus e f) ∧ 0 ≤ expCount o θ corpus e f := by
  have nn : ∀ p ∈ adds o θ corpus, (0 : ℝ) ≤ if p.1 = (e, f) then p.2 else 0 := by
    intro p h
    split
    · exact (adds_mem ok hp h).2.le
    · exact le_refl _
  refine ⟨⟨fun h => ?_, fun h => ?_⟩, by rw [← adds_sum]; exact sum_nonneg_of _ _ nn⟩
  · rw [← adds_sum] at h
    by_contra hn
    have : ((adds o θ corpus).map fun p => if p.1 = (e, f) then p.2 else 0) = (adds o θ corpus).map fun _ => (0 : ℝ) := by
      apply List.map_congr_left
      intro p hm
      rw [if_neg]
      intro he
      have := (adds_mem ok hp hm).1
      rw [he] at this
      exact hn this
    rw [this] at h
    simp at h
  · rw [← adds_sum]
    obtain ⟨x, hx⟩ := mem_adds (θ := θ) h
    exact sum_pos_of _ _ nn ⟨_, hx, by simpa using (adds_mem ok hp hx).2⟩

/-- The sum of a row as a sum over the words of the corpus. -/
theorem row_sum {t : TTable ℝ} (h : Counts t) (e : Nat) (F : Finset Nat) (hF : ∀ f ∈ keys t e, f ∈ F) :
    ((t.counts.getD e []).map Prod.snd).sum = ∑ f ∈ F, count t e f := by
  have hnd := h.rows.getD e
  unfold keys at hF
  unfold count
  generalize t.counts.getD e [] = r at hnd hF
  induction r generalizing F with
  | nil => simp [lookup]
  | cons p r ih =>
    obtain ⟨k, x⟩ := p
    rw [List.map_cons] at hnd
    obtain ⟨hk, hnd⟩ := List.nodup_cons.1 hnd
    have hkF : k ∈ F := hF k (by simp)
    rw [List.map_cons, List.sum_cons, ih (F.erase k) hnd, ← Finset.add_sum_erase F _ hkF]
    · congr 1
      · simp [lookup]
      · apply Finset.sum_congr rfl
        intro f hf
        have := (Finset.mem_erase.1 hf).1
        rw [lookup, if_neg (Ne.symm this)]
    · intro f hf
      refine Finset.mem_erase.2 ⟨?_, hF f (by simp only [List.map_cons, List.mem_cons]; exact Or.inr hf)⟩
      rintro rfl
      exact hk hf

/-- What one iteration does to the table. -/
structure EmResult (o : FaOpts) (corpus : List Pair) (θ θ' : Nat → Nat → ℝ) : Prop where
  /-- expected counts, normalised per source word -/
  mstep : ∀ e f, Cooccur o corpus e f →
    θ' e f = expCount o θ corpus e f / ∑ f' ∈ targets corpus, expCount o θ corpus e f'

theorem cooccur_target {o : FaOpts} {corpus : List Pair} {e f : Nat} (h : Cooccur o corpus e f) : f ∈ targets corpus := by
  obtain ⟨s, hs, hf, _⟩ := h
  exact List.mem_toFinset.2 (List.mem_flatMap.2 ⟨s, hs, hf⟩)

theorem emStep_spec {o : FaOpts} (ok : o.Ok) {corpus : List Pair} {t : TTable ℝ} (ht : t.counts = [])
    (hp : ∀ s ∈ corpus, PosOn o (o.theta t) s) :
    ∃ t', o.emStep corpus t = some (t', logLik o (o.theta t) corpus) ∧ t'.counts = [] ∧
      EmResult o corpus (o.theta t) (o.theta t') := by
  have hc0 : ∀ e f, count t e f = 0 := by intro e f; simp [count, ht, lookup]
  have hC : Counts t := ⟨by simp [RowsOk, ht], by intro e f h; simp [keys, ht] at h⟩
  obtain ⟨t1, h1, h2⟩ := corpus_spec ok (o.theta t) corpus hp t 0 hC rfl
  classical
  refine ⟨t1.normalize, ?_, rfl, ⟨?_⟩⟩
  · rw [FaOpts.emStep, h1, zero_add]
    simp only [Option.map_some]
  · intro e f hco
    have hcount : ∀ e f, count t1 e f = expCount o (o.theta t) corpus e f := by
      intro e f
      rw [h2.count, hc0, zero_add]
      exact adds_sum o (o.theta t) corpus e f
    have hk : f ∈ keys t1 e := by
      rw [h2.ok.mem, hcount]
      exact (expCount_pos ok hp e f).1.2 hco
    have he : e < t1.counts.length := by
      by_contra hn
      rw [keys, List.getD_eq_getElem?_getD, List.getElem?_eq_none (by omega)] at hk
      simp at hk
    have hrs := row_sum h2.ok e (targets corpus) (by
      intro f' hf'
      rw [h2.ok.mem, hcount] at hf'
      exact cooccur_target ((expCount_pos ok hp e f').1.1 hf'))
    have := (C58_normalize o.eps t1 e he).1 f hk
    rw [FaOpts.theta, this, hrs]
    simp only [hcount]
    have hpos : 0 < ∑ f' ∈ targets corpus, expCount o (o.theta t) corpus e f' :=
      Finset.sum_pos' (fun f' _ => (expCount_pos ok hp e f').2) ⟨f, cooccur_target hco, (expCount_pos ok hp e f).1.2 hco⟩
    rw [if_neg hpos.ne']

end Cdec.Align
