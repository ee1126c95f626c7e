import Verif.Align.TTable
import Verif.Sparse.Lemmas
import Mathlib.Tactic.FieldSimp
import Mathlib.Tactic.NormNum
import Mathlib.Data.Rat.Defs
/-! # C58: translation tables -/
namespace Cdec.Align
open Cdec.Sparse
variable {K : Type} [Field K]

/-- The count of (e, f). -/
def count (t : TTable K) (e f : Nat) : K := (lookup (t.counts.getD e []) f).getD 0

/-- Each row is a map: no key twice. -/
def RowsOk (v : List (Row K)) : Prop := ∀ r ∈ v, (r.map Prod.fst).Nodup

/-- Histories of the operations that work. -/
inductive TOp (K : Type) where
  | inc (e f : Nat) (x : K)
  | norm

/-- Run one operation. -/
def TOp.run [DecidableEq K] (t : TTable K) : TOp K → Option (TTable K)
  | .inc e f x => t.increment e f x
  | .norm => some t.normalize

/-- The sum of the amounts added to (e, f) since the last normalization. -/
def added : List (TOp K) → Nat → Nat → K → K
  | [], _, _, s => s
  | .inc e' f' x :: ops, e, f, s => added ops e f (if e = e' ∧ f = f' then s + x else s)
  | .norm :: ops, e, f, _ => added ops e f 0

theorem mapUpdate_eq (m : Row K) (k : Nat) (f : K → K) : (FSV.rem m).update 0 k f = .rem (mapUpdate m k f) := rfl

theorem lookup_mapUpdate (m : Row K) (k : Nat) (f : K → K) (k' : Nat) :
    (lookup (mapUpdate m k f) k').getD 0 = if k' = k then f ((lookup m k).getD 0) else (lookup m k').getD 0 := by
  have := value_update 0 (FSV.rem m) k f k'
  exact this

theorem nodup_mapUpdate {m : Row K} (h : (m.map Prod.fst).Nodup) (k : Nat) (f : K → K) :
    ((mapUpdate m k f).map Prod.fst).Nodup :=
  update_inv 0 (v := FSV.rem m) h k f

theorem resize_length (v : List (Row K)) (n : Nat) : (resize v n).length = n := by
  simp [resize]; omega

theorem resize_getD (v : List (Row K)) (n e : Nat) (h : v.length ≤ n) : (resize v n).getD e [] = v.getD e [] := by
  simp only [resize, List.getD_eq_getElem?_getD]
  rw [List.take_of_length_le h]
  by_cases he : e < v.length
  · rw [List.getElem?_append_left he]
  · rw [List.getElem?_append_right (by omega), List.getElem?_eq_none (l := v) (by omega)]
    rw [List.getElem?_replicate]; split <;> rfl

theorem RowsOk.resize {v : List (Row K)} (h : RowsOk v) (n : Nat) : RowsOk (resize v n) := by
  intro r hr
  simp only [Align.resize, List.mem_append, List.mem_replicate] at hr
  rcases hr with hr | ⟨_, rfl⟩
  · exact h r (List.mem_of_mem_take hr)
  · simp

theorem RowsOk.getD {v : List (Row K)} (h : RowsOk v) (e : Nat) : ((v.getD e []).map Prod.fst).Nodup := by
  rw [List.getD_eq_getElem?_getD]
  by_cases he : e < v.length
  · rw [List.getElem?_eq_getElem he]; exact h _ (List.getElem_mem _)
  · rw [List.getElem?_eq_none (by omega)]; simp

theorem bump_spec {v : List (Row K)} (hv : RowsOk v) (e f : Nat) (x : K) (he : e < v.length) :
    ∃ c, bump v e f x = some c ∧ RowsOk c ∧ ∀ e' f', (lookup (c.getD e' []) f').getD 0 =
      if e' = e ∧ f' = f then (lookup (v.getD e []) f).getD 0 + x else (lookup (v.getD e' []) f').getD 0 := by
  refine ⟨_, if_pos he, ?_, ?_⟩
  · intro r hr
    obtain ⟨i, hi, rfl⟩ := List.mem_iff_getElem.1 hr
    rw [List.getElem_modify]
    rw [List.length_modify] at hi
    split
    · exact nodup_mapUpdate (hv _ (List.getElem_mem _)) _ _
    · exact hv _ (List.getElem_mem _)
  · intro e' f'
    rw [List.getD_eq_getElem?_getD, List.getElem?_modify]
    by_cases h : e = e'
    · subst h
      rw [List.getElem?_eq_getElem he]
      simp only [if_true, Option.map_eq_map, Option.map_some, Option.getD_some, lookup_mapUpdate, true_and]
      rw [List.getD_eq_getElem?_getD, List.getElem?_eq_getElem he]
      rfl
    · simp only [if_neg h]
      rw [if_neg (by rintro ⟨rfl, _⟩; exact h rfl), List.getD_eq_getElem?_getD]
      cases v[e']? <;> rfl

theorem increment_spec (t : TTable K) (ht : RowsOk t.counts) (e f : Nat) (x : K) :
    ∃ t', t.increment e f x = some t' ∧ RowsOk t'.counts ∧ t'.ttable = t.ttable ∧
      ∀ e' f', count t' e' f' = if e' = e ∧ f' = f then count t e' f' + x else count t e' f' := by
  unfold TTable.increment
  have hc : ∃ v, (if t.counts.length ≤ e then resize t.counts (e + 1) else t.counts) = v ∧ RowsOk v ∧ e < v.length ∧
      ∀ e', v.getD e' [] = t.counts.getD e' [] := by
    refine ⟨_, rfl, ?_, ?_, ?_⟩
    · split
      · exact ht.resize _
      · exact ht
    · split
      · rw [resize_length]; omega
      · omega
    · intro e'
      split
      · exact resize_getD _ _ _ (by omega)
      · rfl
  obtain ⟨v, hv, h1, h2, h3⟩ := hc
  obtain ⟨c, hc1, hc2, hc3⟩ := bump_spec h1 e f x h2
  rw [hv, hc1]
  refine ⟨_, rfl, hc2, rfl, fun e' f' => ?_⟩
  simp only [count, hc3, h3]
  by_cases h : e' = e ∧ f' = f
  · obtain ⟨rfl, rfl⟩ := h; simp
  · simp [h]

theorem run_ok [DecidableEq K] (ops : List (TOp K)) : ∀ (t : TTable K), RowsOk t.counts →
    ∃ t', ops.foldlM TOp.run t = some t' ∧ RowsOk t'.counts ∧ ∀ e f, count t' e f = added ops e f (count t e f) := by
  induction ops with
  | nil => intro t ht; exact ⟨t, rfl, ht, fun _ _ => rfl⟩
  | cons op ops ih =>
    intro t ht
    cases op with
    | inc e f x =>
      obtain ⟨t1, h1, h2, _, h4⟩ := increment_spec t ht e f x
      obtain ⟨t', r1, r2, r3⟩ := ih t1 h2
      refine ⟨t', ?_, r2, fun e' f' => ?_⟩
      · rw [List.foldlM_cons]
        change (t.increment e f x).bind _ = _
        rw [h1]; exact r1
      · rw [r3, h4]; rfl
    | norm =>
      obtain ⟨t', r1, r2, r3⟩ := ih t.normalize (by simp [TTable.normalize, RowsOk])
      refine ⟨t', ?_, r2, fun e' f' => ?_⟩
      · rw [List.foldlM_cons]; exact r1
      · rw [r3]; simp [count, TTable.normalize, lookup, added]

/-- C58 (partial), counts.  After any history of `Increment(e, f, x)` and `Normalize` on a new table, the count
of every (e, f) is the sum of the amounts added to that pair since the last `Normalize`; no call is undefined.
Missing: the overload `Increment(e, f)`, for which the claim is false (`C58_increment_loses_counts_fails`,
`C58_increment_after_normalize_fails`). -/
theorem C58_counts_partial [DecidableEq K] (ops : List (TOp K)) :
    ∃ t, ops.foldlM TOp.run ({} : TTable K) = some t ∧ ∀ e f, count t e f = added ops e f 0 := by
  obtain ⟨t, h1, _, h3⟩ := run_ok ops {} (by simp [RowsOk])
  exact ⟨t, h1, fun e f => by rw [h3]; simp [count, lookup]⟩

/-- C58, one call of `Increment(e, f, x)` on any table: it changes this count only and no probability. -/
theorem C58_increment_partial (t : TTable K) (ht : RowsOk t.counts) (e f : Nat) (x : K) :
    ∃ t', t.increment e f x = some t' ∧ t'.ttable = t.ttable ∧
      ∀ e' f', count t' e' f' = if e' = e ∧ f' = f then count t e' f' + x else count t e' f' := by
  obtain ⟨t', h1, _, h3, h4⟩ := increment_spec t ht e f x
  exact ⟨t', h1, h3, h4⟩

theorem foldl_snd (r : Row K) : r.foldl (fun s p => s + p.2) 0 = (r.map Prod.snd).sum := by
  have := foldl_add_map r (fun p => p.2) (0 : K)
  rw [this, zero_add]

theorem normRow_sum [DecidableEq K] (r : Row K) (h : (r.map Prod.snd).sum ≠ 0) :
    ((normRow r).map Prod.snd).sum = 1 := by
  unfold normRow
  simp only [foldl_snd, if_neg h, List.map_map]
  have : (Prod.snd ∘ fun p : Nat × K => (p.1, p.2 / (r.map Prod.snd).sum)) = fun p => p.2 / (r.map Prod.snd).sum := rfl
  rw [this]
  have : (r.map fun p => p.2 / (r.map Prod.snd).sum) = (r.map Prod.snd).map fun y => y / (r.map Prod.snd).sum := by
    rw [List.map_map]; rfl
  rw [this]
  have hd : ∀ (l : List K) (s : K), (l.map fun y => y / s).sum = l.sum / s := by
    intro l s
    induction l with
    | nil => simp
    | cons a l ih => simp [ih, add_div]
  rw [hd, div_self h]

/-- C58, normalization.  After `Normalize`, for every row `e` of the counts: the probability of every stored word is its count divided by the sum of the
counts of the row, and if that sum is not zero the probabilities of the row sum to one. -/
theorem C58_normalize [DecidableEq K] (eps : K) (t : TTable K) (e : Nat) (he : e < t.counts.length) :
    (∀ f, f ∈ (t.counts.getD e []).map Prod.fst →
      t.normalize.prob eps e f =
        count t e f / (if ((t.counts.getD e []).map Prod.snd).sum = 0 then 1 else ((t.counts.getD e []).map Prod.snd).sum)) ∧
    (((t.counts.getD e []).map Prod.snd).sum ≠ 0 → (((t.normalize.ttable).getD e []).map Prod.snd).sum = 1) ∧
    t.normalize.counts = [] := by
  have hrow : t.normalize.ttable.getD e [] = normRow (t.counts.getD e []) := by
    simp [TTable.normalize, List.getD_eq_getElem?_getD, List.getElem?_eq_getElem he]
  refine ⟨fun f hf => ?_, fun h => ?_, rfl⟩
  · have hl : e < t.normalize.ttable.length := by simpa [TTable.normalize] using he
    rw [TTable.prob, if_pos hl, hrow, count]
    unfold normRow
    simp only [foldl_snd]
    rw [lookup_map_vals _ (fun y => y / _)]
    cases hlk : lookup (t.counts.getD e []) f with
    | none => exact absurd hf (lookup_eq_none.1 hlk)
    | some x => simp
  · rw [hrow]; exact normRow_sum _ h

/-- `+=` adds the counts of the other table and leaves the probabilities alone. -/
theorem C58_plus (t rhs : TTable K) (hr : RowsOk rhs.counts) :
    (t.plus rhs).ttable = t.ttable ∧ ∀ e f, count (t.plus rhs) e f = count t e f + count rhs e f := by
  refine ⟨rfl, fun e f => ?_⟩
  have hfold : ∀ (es r : Row K), (es.map Prod.fst).Nodup →
      (lookup (es.foldl (fun r p => mapUpdate r p.1 fun y => y + p.2) r) f).getD 0 =
        (lookup r f).getD 0 + (lookup es f).getD 0 := by
    intro es
    induction es with
    | nil => intro r _; simp [lookup]
    | cons p es ih =>
      intro r hnd
      obtain ⟨k, x⟩ := p
      simp only [List.map_cons, List.nodup_cons] at hnd
      rw [List.foldl_cons, ih _ hnd.2, lookup_mapUpdate]
      simp only [lookup]
      by_cases hk : f = k
      · subst hk; rw [lookup_eq_none.2 hnd.1]; simp
      · simp [hk, Ne.symm hk]
  have hc : ∃ v, (if t.counts.length < rhs.counts.length then resize t.counts rhs.counts.length else t.counts) = v ∧
      rhs.counts.length ≤ v.length ∧ ∀ e', v.getD e' [] = t.counts.getD e' [] := by
    refine ⟨_, rfl, ?_, ?_⟩
    · split
      · rw [resize_length]
      · omega
    · intro e'
      split
      · exact resize_getD _ _ _ (by omega)
      · rfl
  obtain ⟨v, hv, hl, hg⟩ := hc
  unfold count TTable.plus
  simp only [hv]
  rw [List.getD_eq_getElem?_getD, List.getElem?_map, List.getElem?_zipIdx]
  rw [← hg e, List.getD_eq_getElem?_getD (l := v)]
  by_cases he : e < v.length
  · rw [List.getElem?_eq_getElem he]
    simp only [Option.map_some, Option.getD_some, Nat.zero_add]
    split
    · exact hfold _ _ (hr.getD e)
    · rename_i hn
      rw [List.getD_eq_getElem?_getD (l := rhs.counts), List.getElem?_eq_none (by omega)]
      simp [lookup]
  · rw [List.getElem?_eq_none (l := v) (by omega), List.getD_eq_getElem?_getD (l := rhs.counts),
      List.getElem?_eq_none (l := rhs.counts) (by omega)]
    simp [lookup]

/-- C58 fails for `Increment(e, f)`: counting (1, 0) and then (0, 0) loses the first count. -/
theorem C58_increment_loses_counts_fails :
    ∃ t1 t2 : TTable ℚ, ({} : TTable ℚ).increment1 1 0 = some t1 ∧ count t1 1 0 = 1 ∧
      t1.increment1 0 0 = some t2 ∧ count t2 1 0 = 0 :=
  ⟨⟨[], [[], [(0, 1)]]⟩, ⟨[], [[(0, 1)]]⟩, by decide +kernel, by decide +kernel, by decide +kernel, by decide +kernel⟩

/-- … and after `Normalize` it writes outside the vector. -/
theorem C58_increment_after_normalize_fails :
    ∃ t : TTable ℚ, ({} : TTable ℚ).increment1 0 0 = some t ∧ t.normalize.increment1 0 0 = none :=
  ⟨⟨[], [[(0, 1)]]⟩, by decide +kernel, by decide +kernel⟩

/-- Non-vacuity. -/
example : ∃ t : TTable ℚ, ([.inc 2 0 (1/2), .inc 0 1 3, .norm, .inc 0 1 3, .inc 0 4 1, .inc 0 1 2] : List (TOp ℚ)).foldlM
    TOp.run {} = some t ∧ count t 0 1 = 5 ∧ t.normalize.prob 0 0 1 = 5 / 6 :=
  ⟨⟨[[(1, 1)], [], [(0, 1)]], [[(1, 5), (4, 1)]]⟩, by decide +kernel, by decide +kernel, by decide +kernel⟩

end Cdec.Align
