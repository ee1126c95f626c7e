import Verif.Klm.LmJoint
import Verif.Klm.LmInitLemmas
import Mathlib.Data.List.Nodup
/-!
From adjusted counts to a model whose probabilities sum to one.
-/
namespace Cdec.Klm.Builder

/-- Adjusted counts that belong together. -/
structure AdjCons (N : Nat) (prune : Nat → Nat) (A : Nat → List AdjRec) : Prop where
  len : ∀ i < N, ∀ r ∈ A i, r.words.length = i + 1
  nodup : ∀ i < N, ((A i).map (·.words)).Nodup
  sorted0 : (A 0).Pairwise fun a b => a.words.reverse < b.words.reverse
  uni : ∀ r ∈ A 0, r.marked = false
  pos : ∀ i, 1 ≤ i → i < N → ∀ r ∈ A i, 0 < r.count
  noBos : ∀ i, 1 ≤ i → i < N → ∀ r ∈ A i, r.words.getLast? ≠ some kBOS
  bos : ⟨[kBOS], 0, false⟩ ∈ A 0
  unk : ∃ rs, A 0 = ⟨[kUNK], 0, false⟩ :: rs
  total : 0 < ((A 0).map (·.count)).sum
  suffix : ∀ i, i + 1 < N → ∀ r ∈ A (i + 1), r.marked = false → ∃ q ∈ A i, q.marked = false ∧ q.words = r.words.tail
  prefix' : ∀ i, i + 1 < N → ∀ r ∈ A (i + 1), r.marked = false → ∃ q ∈ A i, q.marked = false ∧ q.words = r.words.dropLast
  ctx : ∀ i, i + 1 < N → ∀ r ∈ A i, r.marked = false → isContext N i r.words = true → ∃ q ∈ A (i + 1), q.context = r.words
  ctxOnly : ∀ i, i + 1 < N → ∀ q ∈ A (i + 1), isContext N i q.context = true
  unpruned : ∀ i, i < N → prune i = 0 → ∀ r ∈ A i, r.marked = false

/-- The streams of a run of the estimator. -/
structure EstRun (N : Nat) (interp : Bool) (d : Nat → Discount) (A ctx : Nat → List AdjRec) (suf : Nat → List UnRec) : Prop where
  ctx0 : ctx 0 = A 0
  suf0 : suf 0 = mergeRight interp (d 0) 0 (ctx 0)
  ctxS : ∀ i, 1 ≤ i → i < N → BlockSorted (fun r : AdjRec => contextKey r.words) (A i) (ctx i)
  sufS : ∀ i, 1 ≤ i → i < N → BlockSorted (fun r : UnRec => suffixKey r.words) (mergeRight interp (d i) i (ctx i)) (suf i)

/-- The back-offs. -/
def csOf (d : Nat → Discount) (ctx : Nat → List AdjRec) (i : Nat) : List (Gram × Rat) :=
  (addRight (d (i + 1)) (ctx (i + 1))).map fun s => (s.ctx, s.gamma)

section
variable {N : Nat} {interp : Bool} {prune : Nat → Nat} {d : Nat → Discount} {A ctx : Nat → List AdjRec} {suf : Nat → List UnRec}

theorem EstRun.mem (hE : EstRun N interp d A ctx suf) {i : Nat} (hi : i < N) (r : AdjRec) : r ∈ ctx i ↔ r ∈ A i := by
  rcases Nat.eq_zero_or_pos i with rfl | hp
  · rw [hE.ctx0]
  · exact (hE.ctxS i hp hi).1.mem_iff

theorem EstRun.ctxSorted (hA : AdjCons N prune A) (hE : EstRun N interp d A ctx suf) {i : Nat} (hi : i < N) :
    (ctx i).Pairwise fun a b => a.context.reverse ≤ b.context.reverse := by
  have hl : ∀ r ∈ ctx i, r.words.length = i + 1 := fun r hr => hA.len i hi r ((hE.mem hi r).1 hr)
  have key : ∀ r ∈ ctx i, (contextKey r.words).take i = r.context.reverse := by
    intro r hr
    unfold contextKey AdjRec.context
    rw [List.take_left']
    simp [hl r hr]
  rcases Nat.eq_zero_or_pos i with rfl | hp
  · refine List.Pairwise.imp_of_mem ?_ (hE.ctx0 ▸ hA.sorted0)
    intro a b ha hb _
    have h1 := key a ha
    have h2 := key b hb
    simp at h1 h2
    simp [h1, h2]
  · refine List.Pairwise.imp_of_mem ?_ (hE.ctxS i hp hi).2
    intro a b ha hb h
    rw [← key a ha, ← key b hb]
    exact take_le_take _ _ _ h

theorem AdjCons.keep_iff (hA : AdjCons N prune A) {i : Nat} (hi : i < N) {r : AdjRec} (hr : r ∈ A i) :
    r.keep = true ↔ r.marked = false := by
  unfold AdjRec.keep AdjRec.cutoff
  rcases Nat.eq_zero_or_pos i with rfl | hp
  · simp [hA.len 0 hi r hr, hA.uni r hr]
  · have := hA.pos i hp hi r hr
    have := hA.len i hi r hr
    cases hm : r.marked
    · simp; omega
    · simp; omega

theorem merge_words (hA : AdjCons N prune A) (hE : EstRun N interp d A ctx suf) {i : Nat} (hi : i < N) :
    (mergeRight interp (d i) i (ctx i)).map (·.words) = ((ctx i).filter (·.keep)).map (·.words) := by
  by_cases h : i = 0 ∧ (!interp) = true
  · obtain ⟨rfl, hn⟩ := h
    obtain ⟨rs, hrs⟩ := hA.unk
    rw [hE.ctx0, List.filter_eq_self.2 fun r hr => (hA.keep_iff hi hr).2 (hA.uni r hr)]
    have hs := ctxGroups_spec (A 0) (hE.ctx0 ▸ hE.ctxSorted hA hi)
    unfold mergeRight
    rw [if_pos ⟨rfl, hn⟩]
    unfold addRight
    cases hg : ctxGroups (A 0) with
    | nil => rw [hg] at hs; rw [hrs] at hs; simp at hs
    | cons G gs => rw [hrs]; simp
  · rw [mergeRight_eq (hE.ctxSorted hA hi) interp (d i) i h, List.map_map]
    rfl

theorem EstRun.perm (hE : EstRun N interp d A ctx suf) {i : Nat} (hi : i < N) :
    (suf i).Perm (mergeRight interp (d i) i (ctx i)) := by
  rcases Nat.eq_zero_or_pos i with rfl | hp
  · rw [hE.suf0]
  · exact (hE.sufS i hp hi).1

/-- The n-grams of a model are those that are not pruned. -/
theorem mem_suf (hA : AdjCons N prune A) (hE : EstRun N interp d A ctx suf) {i : Nat} (hi : i < N) (g : Gram) :
    g ∈ (suf i).map (·.words) ↔ ∃ r ∈ A i, r.marked = false ∧ r.words = g := by
  rw [((hE.perm hi).map _).mem_iff, merge_words hA hE hi, List.mem_map]
  constructor
  · rintro ⟨r, hr, rfl⟩
    obtain ⟨h1, h2⟩ := List.mem_filter.1 hr
    have h1 := (hE.mem hi r).1 h1
    exact ⟨r, h1, (hA.keep_iff hi h1).1 h2, rfl⟩
  · rintro ⟨r, hr, hm, rfl⟩
    exact ⟨r, List.mem_filter.2 ⟨(hE.mem hi r).2 hr, (hA.keep_iff hi hr).2 hm⟩, rfl⟩

theorem ctx_nodup (hA : AdjCons N prune A) (hE : EstRun N interp d A ctx suf) {i : Nat} (hi : i < N) :
    ((ctx i).map (·.words)).Nodup := by
  rcases Nat.eq_zero_or_pos i with rfl | hp
  · rw [hE.ctx0]; exact hA.nodup 0 hi
  · exact ((hE.ctxS i hp hi).1.map _).nodup_iff.2 (hA.nodup i hi)

theorem suf_sorted (hA : AdjCons N prune A) (hE : EstRun N interp d A ctx suf) {i : Nat} (hi : i < N) :
    (suf i).Pairwise fun a b => a.words.reverse < b.words.reverse := by
  rcases Nat.eq_zero_or_pos i with rfl | hp
  · have h := hA.sorted0
    have : (suf 0).map (·.words) = (A 0).map (·.words) := by
      rw [hE.suf0, merge_words hA hE hi, hE.ctx0, List.filter_eq_self.2 fun r hr => (hA.keep_iff hi hr).2 (hA.uni r hr)]
    have h' : ((A 0).map (·.words)).Pairwise fun a b => a.reverse < b.reverse := List.pairwise_map.2 h
    rw [← this] at h'
    rw [List.pairwise_map] at h'
    exact h'
  · have hn : ((suf i).map (·.words)).Nodup := by
      rw [((hE.perm hi).map _).nodup_iff, merge_words hA hE hi]
      exact (ctx_nodup hA hE hi).sublist (List.filter_sublist.map _)
    have hn' := List.pairwise_map.1 hn
    refine List.Pairwise.imp ?_ (hn'.and (hE.sufS i hp hi).2)
    rintro a b ⟨h1, h2⟩
    exact lt_of_le_of_ne h2 fun e => h1 (List.reverse_injective e)

theorem csOf_eq (hA : AdjCons N prune A) (hE : EstRun N interp d A ctx suf) {i : Nat} (hi : i + 1 < N) :
    csOf d ctx i = ((ctxGroups (ctx (i + 1))).map headCtx).map fun h => (h, gammaOf (d (i + 1)) (ctx (i + 1)) h) :=
  addRight_eq (hE.ctxSorted hA hi) _

theorem csOf_fst (hA : AdjCons N prune A) (hE : EstRun N interp d A ctx suf) {i : Nat} (hi : i + 1 < N) :
    (csOf d ctx i).map (·.1) = (ctxGroups (ctx (i + 1))).map headCtx := by
  rw [csOf_eq hA hE hi, List.map_map, List.map_map]; rfl

theorem mem_csOf (hA : AdjCons N prune A) (hE : EstRun N interp d A ctx suf) {i : Nat} (hi : i + 1 < N) (g : Gram) :
    g ∈ (csOf d ctx i).map (·.1) ↔ ∃ q ∈ A (i + 1), q.context = g := by
  rw [csOf_fst hA hE hi, mem_contexts (hE.ctxSorted hA hi)]
  simp only [hE.mem hi]

theorem csOf_sorted (hA : AdjCons N prune A) (hE : EstRun N interp d A ctx suf) {i : Nat} (hi : i + 1 < N) :
    (csOf d ctx i).Pairwise fun a b => a.1.reverse < b.1.reverse := by
  have : ((csOf d ctx i).map (·.1)).Pairwise fun a b => a.reverse < b.reverse := by
    rw [csOf_fst hA hE hi]
    exact List.pairwise_map.2 (ctxGroups_spec _ (hE.ctxSorted hA hi)).2.2
  rw [List.pairwise_map] at this
  exact this

theorem findBackoff_csOf (hA : AdjCons N prune A) (hE : EstRun N interp d A ctx suf) {i : Nat} (hi : i + 1 < N) {g : Gram}
    (h : ∃ q ∈ A (i + 1), q.context = g) : (findBackoff g (csOf d ctx i)).1 = gammaOf (d (i + 1)) (ctx (i + 1)) g := by
  obtain ⟨pre, b, rest, h1, h2, _⟩ := findBackoff_split ((mem_csOf hA hE hi g).2 h)
  rw [h2]
  have : (g, b) ∈ csOf d ctx i := by rw [h1]; simp
  rw [csOf_eq hA hE hi] at this
  obtain ⟨h', _, e⟩ := List.mem_map.1 this
  simp only [Prod.mk.injEq] at e
  rw [← e.2, e.1]

theorem ext_of_sorted {a b : List Gram} (ha : a.Pairwise fun x y => x.reverse < y.reverse)
    (hb : b.Pairwise fun x y => x.reverse < y.reverse) (h : ∀ g, g ∈ a ↔ g ∈ b) : a = b := by
  have hp : a.Perm b := by
    refine (List.perm_ext_iff_of_nodup ?_ ?_).2 h
    · exact ha.imp fun {x y} h e => by simp [e] at h
    · exact hb.imp fun {x y} h e => by simp [e] at h
  exact List.Perm.eq_of_pairwise (fun x y _ _ h1 h2 => absurd h1 (lt_asymm h2)) ha hb hp

theorem jointInput (hA : AdjCons N prune A) (hE : EstRun N interp d A ctx suf) :
    JointInput N (fun i => decide (0 < prune i)) suf (csOf d ctx) := by
  have hmem : ∀ i, i < N → ∀ u ∈ suf i, ∃ r ∈ A i, r.marked = false ∧ r.words = u.words :=
    fun i hi u hu => (mem_suf hA hE hi _).1 (List.mem_map.2 ⟨u, hu, rfl⟩)
  refine ⟨?_, fun i hi => suf_sorted hA hE hi, ?_, fun i hi => csOf_sorted hA hE hi, ?_, ?_⟩
  · intro i hi u hu
    obtain ⟨r, hr, _, h⟩ := hmem i hi u hu
    rw [← h]; exact hA.len i hi r hr
  · intro i hi u hu
    obtain ⟨r, hr, hm, h⟩ := hmem (i + 1) hi u hu
    obtain ⟨q, hq, hqm, hqw⟩ := hA.suffix i hi r hr hm
    obtain ⟨v, hv, hvw⟩ := List.mem_map.1 ((mem_suf hA hE (by omega) q.words).2 ⟨q, hq, hqm, rfl⟩)
    exact ⟨v, hv, by rw [hvw, hqw, h]⟩
  · intro i hi u hu hc
    obtain ⟨r, hr, hm, h⟩ := hmem i (by omega) u hu
    rw [mem_csOf hA hE hi, ← h]
    exact hA.ctx i hi r hr hm (by rw [h]; exact hc)
  · intro i hi hh
    have hp : prune (i + 1) = 0 := by simpa using hh
    refine ext_of_sorted (List.pairwise_map.2 (csOf_sorted hA hE hi))
      (List.pairwise_map.2 ((suf_sorted hA hE (by omega)).filter _)) ?_
    intro g
    rw [mem_csOf hA hE hi]
    constructor
    · rintro ⟨q, hq, rfl⟩
      obtain ⟨r, hr, hm, hw⟩ := hA.prefix' i hi q hq (hA.unpruned _ hi hp q hq)
      obtain ⟨v, hv, hvw⟩ := List.mem_map.1 ((mem_suf hA hE (by omega) r.words).2 ⟨r, hr, hm, rfl⟩)
      refine List.mem_map.2 ⟨v, List.mem_filter.2 ⟨hv, ?_⟩, by rw [hvw, hw]; rfl⟩
      rw [hvw, hw]
      exact hA.ctxOnly i hi q hq
    · intro hg
      obtain ⟨v, hv, rfl⟩ := List.mem_map.1 hg
      obtain ⟨hv, hc⟩ := List.mem_filter.1 hv
      obtain ⟨r, hr, hm, h⟩ := hmem i (by omega) v hv
      rw [← h]
      exact hA.ctx i hi r hr hm (by rw [h]; exact hc)

theorem suf0_ne (hN : 1 ≤ N) (hA : AdjCons N prune A) (hE : EstRun N interp d A ctx suf) : suf 0 ≠ [] := by
  intro h
  have := (mem_suf hA hE (i := 0) hN [kBOS]).2 ⟨_, hA.bos, rfl, rfl⟩
  rw [h] at this
  simp at this

/-- What the estimator writes. -/
theorem estimates_out (hN : 1 ≤ N) (hA : AdjCons N prune A) {out : Nat → List OutRec}
    (h : EstimatesTo N interp prune d A out) :
    ∃ ctx suf, EstRun N interp d A ctx suf ∧
      ∀ i < N, out i = (suf i).map (outOf N suf (csOf d ctx) (1 / (((A 0).length - 1 : Nat) : Rat)) i) := by
  obtain ⟨ctx, suf, fuel, h1, h2, h3, h4, h5⟩ := h
  have hE : EstRun N interp d A ctx suf := ⟨h1, h2, h3, h4⟩
  refine ⟨ctx, suf, hE, ?_⟩
  obtain ⟨n, out', ho1, ho2⟩ := interpolate_spec hN (u := 1 / (((A 0).length - 1 : Nat) : Rat)) (jointInput hA hE) (suf0_ne hN hA hE)
  have := interpolate_det h5 (ho1 n (le_refl _))
  rw [this]
  exact ho2

theorem estimates_exists (hN : 1 ≤ N) (hA : AdjCons N prune A) (interp : Bool) (d : Nat → Discount) :
    ∃ out, EstimatesTo N interp prune d A out := by
  have hsort : ∀ {α : Type} (key : α → List Nat) (l : List α), ∃ l', BlockSorted key l l' := by
    intro α key l
    refine ⟨l.mergeSort fun a b => decide (key a ≤ key b), List.mergeSort_perm _ _, ?_⟩
    have := List.pairwise_mergeSort (le := fun a b : α => decide (key a ≤ key b))
      (fun a b c h1 h2 => by simp only [decide_eq_true_eq] at *; exact le_trans h1 h2)
      (fun a b => by simp only [Bool.or_eq_true, decide_eq_true_eq]; exact le_total _ _) l
    exact this.imp fun h => by simpa using h
  choose cs hcs using fun i => hsort (fun r : AdjRec => contextKey r.words) (A i)
  let ctx : Nat → List AdjRec := fun i => if i = 0 then A 0 else cs i
  choose ss hss using fun i => hsort (fun r : UnRec => suffixKey r.words) (mergeRight interp (d i) i (ctx i))
  let suf : Nat → List UnRec := fun i => if i = 0 then mergeRight interp (d 0) 0 (ctx 0) else ss i
  have hE : EstRun N interp d A ctx suf := by
    refine ⟨rfl, rfl, ?_, ?_⟩
    · intro i hi _
      show BlockSorted _ (A i) (if i = 0 then A 0 else cs i)
      rw [if_neg (by omega)]; exact hcs i
    · intro i hi _
      show BlockSorted _ _ (if i = 0 then _ else ss i)
      rw [if_neg (by omega)]; exact hss i
  obtain ⟨n, out, ho1, _⟩ := interpolate_spec hN (u := 1 / (((A 0).length - 1 : Nat) : Rat)) (jointInput hA hE) (suf0_ne hN hA hE)
  exact ⟨out, ctx, suf, n, hE.ctx0, hE.suf0, hE.ctxS, hE.sufS, ho1 n (le_refl _)⟩

end

end Cdec.Klm.Builder
