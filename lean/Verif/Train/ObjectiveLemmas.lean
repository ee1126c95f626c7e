import Verif.Train.ObjectiveSpec
import Mathlib.Analysis.SpecialFunctions.ExpDeriv
import Mathlib.Analysis.SpecialFunctions.Log.Deriv
import Mathlib.Algebra.BigOperators.Ring.List
import Mathlib.Tactic.Ring
import Mathlib.Tactic.FieldSimp
import Mathlib.Tactic.Linarith
/-!
# Lemmas for the objectives
-/
namespace Cdec.Train
open Spec

/-! ## Sums over lists -/

theorem sum_add {ι : Type} (L : List ι) (f g : ι → ℝ) : (L.map fun i => f i + g i).sum = (L.map f).sum + (L.map g).sum := by
  induction L with
  | nil => simp
  | cons a L ih => simp [ih]; ring

theorem sum_mul_right {ι : Type} (L : List ι) (f : ι → ℝ) (c : ℝ) : (L.map fun i => f i * c).sum = (L.map f).sum * c := by
  induction L with
  | nil => simp
  | cons a L ih => simp [ih]; ring

theorem sum_mul_left {ι : Type} (L : List ι) (f : ι → ℝ) (c : ℝ) : (L.map fun i => c * f i).sum = c * (L.map f).sum := by
  induction L with
  | nil => simp
  | cons a L ih => simp [ih]; ring

theorem sum_neg {ι : Type} (L : List ι) (f : ι → ℝ) : (L.map fun i => -f i).sum = -(L.map f).sum := by
  induction L with
  | nil => simp
  | cons a L ih => simp [ih]; ring

theorem sum_comm {ι κ : Type} (L : List ι) (M : List κ) (f : ι → κ → ℝ) :
    (L.map fun i => (M.map fun k => f i k).sum).sum = (M.map fun k => (L.map fun i => f i k).sum).sum := by
  induction L with
  | nil => simp
  | cons a L ih => simp only [List.map_cons, List.sum_cons, ih, sum_add]

theorem hasDerivAt_sum {ι : Type} (L : List ι) (f : ι → ℝ → ℝ) (f' : ι → ℝ) (a : ℝ)
    (h : ∀ i ∈ L, HasDerivAt (f i) (f' i) a) :
    HasDerivAt (fun t => (L.map fun i => f i t).sum) (L.map f').sum a := by
  induction L with
  | nil => simpa using hasDerivAt_const a (0 : ℝ)
  | cons i L ih =>
    simp only [List.map_cons, List.sum_cons]
    exact (h i List.mem_cons_self).add (ih fun j hj => h j (List.mem_cons_of_mem _ hj))

theorem foldl_sum {ι : Type} (f : ι → ℝ) : ∀ (L : List ι) (a : ℝ), L.foldl (fun z c => z + f c) a = a + (L.map f).sum
  | [], a => by simp
  | c :: L, a => by simp [foldl_sum f L]; ring

/-! ## Feature vectors -/

theorem dot_eq {f : Feats} {n : Nat} (h : ∀ e ∈ f, e.1 < n) (x : Vec) : f.dot n x = inner f x := by
  have : ∀ (f : Feats) (a : ℝ), (∀ e ∈ f, e.1 < n) →
      f.foldl (fun r e => if e.1 < n then r + e.2 * x e.1 else r) a = a + inner f x := by
    intro f
    induction f with
    | nil => simp [inner]
    | cons e f ih =>
      intro a h
      rw [List.foldl_cons, if_pos (h e List.mem_cons_self), ih _ fun e he => h e (List.mem_cons_of_mem _ he)]
      simp [inner]; ring
  rw [Feats.dot, this f 0 h, zero_add]

/-- Value of coordinate `k`. -/
noncomputable def Feats.at (f : Feats) (k : Nat) : ℝ := (f.map fun e => if k = e.1 then e.2 else 0).sum

theorem addScaled_eq (g : Vec) (f : Feats) (c : ℝ) (k : Nat) : Vec.addScaled g f c k = g k + f.at k * c := by
  unfold Vec.addScaled Feats.at
  induction f generalizing g with
  | nil => simp
  | cons e f ih =>
    rw [List.foldl_cons, ih, List.map_cons, List.sum_cons]
    by_cases h : k = e.1
    · simp [h]; ring
    · simp [h]

theorem vec_eq (f : Feats) (k : Nat) : f.vec k = f.at k := by
  rw [Feats.vec, addScaled_eq]; simp

theorem at_dot {f : Feats} {n : Nat} (h : ∀ e ∈ f, e.1 < n) (d : Vec) :
    ((List.range n).map fun k => f.at k * d k).sum = inner f d := by
  unfold Feats.at inner
  induction f with
  | nil => simp
  | cons e f ih =>
    simp only [List.map_cons, List.sum_cons, add_mul, sum_add]
    rw [ih fun e he => h e (List.mem_cons_of_mem _ he)]
    congr 1
    have he := h e List.mem_cons_self
    clear ih h
    induction n with
    | zero => omega
    | succ n ih =>
      rw [List.range_succ, List.map_append, List.sum_append]
      by_cases hn : e.1 = n
      · have : ((List.range n).map fun k => (if k = e.1 then e.2 else 0) * d k).sum = 0 := by
          apply List.sum_eq_zero
          intro z hz
          obtain ⟨k, hk, rfl⟩ := List.mem_map.1 hz
          have := List.mem_range.1 hk
          rw [if_neg (by omega), zero_mul]
        rw [this]; simp [hn]
      · rw [ih (by omega)]; simp [Ne.symm hn]

theorem inner_add (f : Feats) (x d : Vec) (t : ℝ) : inner f (fun k => x k + t * d k) = inner f x + t * inner f d := by
  unfold inner
  induction f with
  | nil => simp
  | cons e f ih => simp [ih]; ring

theorem hasDerivAt_inner (f : Feats) (x d : Vec) : HasDerivAt (fun t : ℝ => inner f fun k => x k + t * d k) (inner f d) 0 := by
  simp only [inner_add]
  have := ((hasDerivAt_id (0 : ℝ)).mul_const (inner f d)).const_add (inner f x)
  simpa using this

/-! ## Log-linear models -/

section LogLinear
variable {ι : Type} (L : List ι) (S : ι → ℝ → ℝ) (δ : ι → ℝ)

/-- The normaliser. -/
noncomputable def Zf (t : ℝ) : ℝ := (L.map fun i => Real.exp (S i t)).sum

theorem Zf_nonneg (t : ℝ) : 0 ≤ Zf L S t := by
  unfold Zf
  apply List.sum_nonneg
  intro z hz
  obtain ⟨i, _, rfl⟩ := List.mem_map.1 hz
  exact (Real.exp_pos _).le

theorem Zf_pos {L : List ι} (h : L ≠ []) (t : ℝ) : 0 < Zf L S t := by
  cases L with
  | nil => exact absurd rfl h
  | cons i L =>
    have := Zf_nonneg L S t
    have := Real.exp_pos (S i t)
    simp only [Zf, List.map_cons, List.sum_cons] at *
    linarith

/-- Probability. -/
noncomputable def Pf (i : ι) (t : ℝ) : ℝ := Real.exp (S i t) / Zf L S t

theorem Pf_pos {L : List ι} (h : L ≠ []) (i : ι) (t : ℝ) : 0 < Pf L S i t := div_pos (Real.exp_pos _) (Zf_pos S h t)

theorem Pf_sum {L : List ι} (h : L ≠ []) (t : ℝ) : (L.map fun i => Pf L S i t).sum = 1 := by
  unfold Pf
  simp only [div_eq_mul_inv, sum_mul_right]
  exact mul_inv_cancel₀ (Zf_pos S h t).ne'

/-- Expectation of `δ`. -/
noncomputable def Ef (t : ℝ) : ℝ := (L.map fun i => Pf L S i t * δ i).sum

variable {L S δ}

theorem hasDerivAt_Zf (h : ∀ i ∈ L, HasDerivAt (S i) (δ i) 0) :
    HasDerivAt (Zf L S) (L.map fun i => Real.exp (S i 0) * δ i).sum 0 :=
  hasDerivAt_sum L (fun i t => Real.exp (S i t)) _ 0 fun i hi => (h i hi).exp

theorem hasDerivAt_logZ (hL : L ≠ []) (h : ∀ i ∈ L, HasDerivAt (S i) (δ i) 0) :
    HasDerivAt (fun t => Real.log (Zf L S t)) (Ef L S δ 0) 0 := by
  have := (hasDerivAt_Zf h).log (Zf_pos S hL 0).ne'
  convert this using 1
  unfold Ef Pf
  rw [div_eq_mul_inv, ← sum_mul_right]
  congr 1
  apply List.map_congr_left
  intro i _
  rw [div_eq_mul_inv]; ring

theorem hasDerivAt_Pf (hL : L ≠ []) (h : ∀ i ∈ L, HasDerivAt (S i) (δ i) 0) {i : ι} (hi : i ∈ L) :
    HasDerivAt (Pf L S i) (Pf L S i 0 * (δ i - Ef L S δ 0)) 0 := by
  have hz := (Zf_pos S hL 0).ne'
  have := ((h i hi).exp).fun_div (hasDerivAt_Zf h) hz
  have e : (L.map fun i => Real.exp (S i 0) * δ i).sum = Zf L S 0 * Ef L S δ 0 := by
    unfold Ef Pf
    rw [← sum_mul_left]
    congr 1
    apply List.map_congr_left
    intro j _
    field_simp
  rw [e] at this
  refine HasDerivAt.congr_deriv this ?_
  unfold Pf
  field_simp

theorem hasDerivAt_risk (hL : L ≠ []) (h : ∀ i ∈ L, HasDerivAt (S i) (δ i) 0) (c : ι → ℝ) :
    HasDerivAt (fun t => (L.map fun i => Pf L S i t * c i).sum)
      (L.map fun i => Pf L S i 0 * (δ i - Ef L S δ 0) * c i).sum 0 :=
  hasDerivAt_sum L (fun i t => Pf L S i t * c i) _ 0 fun _ hi => (hasDerivAt_Pf hL h hi).mul_const _

theorem hasDerivAt_entropy (hL : L ≠ []) (h : ∀ i ∈ L, HasDerivAt (S i) (δ i) 0) :
    HasDerivAt (fun t => -(L.map fun i => Pf L S i t * Real.log (Pf L S i t)).sum)
      (-((L.map fun i => Pf L S i 0 * Real.log (Pf L S i 0) * δ i).sum +
        Ef L S δ 0 * -(L.map fun i => Pf L S i 0 * Real.log (Pf L S i 0)).sum)) 0 := by
  have := (hasDerivAt_sum L (fun i t => Pf L S i t * Real.log (Pf L S i t)) (fun i =>
    Pf L S i 0 * (δ i - Ef L S δ 0) * Real.log (Pf L S i 0) +
      Pf L S i 0 * (Pf L S i 0 * (δ i - Ef L S δ 0) / Pf L S i 0)) 0 fun i hi =>
      (hasDerivAt_Pf hL h hi).fun_mul ((hasDerivAt_Pf hL h hi).log (Pf_pos S hL i 0).ne')).fun_neg
  refine HasDerivAt.congr_deriv this ?_
  congr 1
  have e : ∀ i ∈ L, Pf L S i 0 * (δ i - Ef L S δ 0) * Real.log (Pf L S i 0) +
      Pf L S i 0 * (Pf L S i 0 * (δ i - Ef L S δ 0) / Pf L S i 0) =
      (Pf L S i 0 * Real.log (Pf L S i 0) * δ i + Pf L S i 0 * δ i) +
        (Pf L S i 0 * Real.log (Pf L S i 0) + Pf L S i 0) * -(Ef L S δ 0) := by
    intro i _
    have := (Pf_pos S hL i 0).ne'
    field_simp
    ring
  rw [List.map_congr_left e, sum_add, sum_add, sum_mul_right, sum_add, Pf_sum S hL]
  have : (L.map fun i => Pf L S i 0 * δ i).sum = Ef L S δ 0 := rfl
  rw [this]
  ring_nf

end LogLinear

end Cdec.Train
