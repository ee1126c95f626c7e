import Verif.Util.PRPair
import Verif.Props.C02
/-! # C56: the expectation semiring -/
namespace Cdec
open Cdec.HG
variable {P R : Type} [CommSemiring P] [AddCommMonoid R] [Module P R]

/-- C56, laws: with the code's `0`, `1`, `+` and `*`, pairs form a commutative semiring. -/
theorem C56_semiring_laws (a b c : PRPair P R) :
    (a + b) + c = a + (b + c) ∧ a + b = b + a ∧ 0 + a = a ∧
    (a * b) * c = a * (b * c) ∧ a * b = b * a ∧ 1 * a = a ∧ 0 * a = 0 ∧
    a * (b + c) = a * b + a * c :=
  ⟨add_assoc a b c, add_comm a b, zero_add a, mul_assoc a b c, mul_comm a b, one_mul a, zero_mul a, mul_add a b c⟩

theorem weight_pair (p : Nat → P) (r : Nat → R) (t : Tree) :
    t.weight (fun e => (⟨p e, p e • r e⟩ : PRPair P R)) = ⟨t.weight p, t.weight p • t.total r⟩ := by
  induction t using Tree.rec (motive_2 := fun ch =>
    (ch.map fun t => t.weight (fun e => (⟨p e, p e • r e⟩ : PRPair P R))).prod =
      ⟨(ch.map fun t => t.weight p).prod, (ch.map fun t => t.weight p).prod • (ch.map fun t => t.total r).sum⟩) with
  | node e ch ih =>
    rw [Tree.weight, Tree.weight, Tree.total, ih]
    ext
    · simp
    · simp only [PRPair.mul_r, smul_add, smul_smul]
      rw [mul_comm (List.prod _) (p e), add_comm]
  | nil => ext <;> simp
  | cons t ch ih1 ih2 =>
    rw [List.map_cons, List.prod_cons, ih1, ih2]
    ext
    · simp
    · simp only [PRPair.mul_r, List.map_cons, List.prod_cons, List.sum_cons, smul_add, smul_smul]
      rw [mul_comm (List.prod _) (t.weight p), add_comm]

/-- C56, expectations.  If every edge carries the pair `(p_e, p_e r_e)`, the pair that `Inside` computes at a
node is `(Σ_d p(d), Σ_d p(d) r(d))`, where `d` ranges over the node's derivations, `p(d)` is the product
of the edge weights and `r(d)` the sum of the edge values. -/
theorem C56_inside_computes_expectations {α : Type} (g : Hypergraph α) (wf : WF g) (p : Nat → P) (r : Nat → R)
    (v : Nat) (hv : v < g.nodes.length) (ds : List Tree) (hds : ListsDerivs g v ds) :
    (insideScores g fun e => (⟨p e, p e • r e⟩ : PRPair P R)).getD v 0 =
      ⟨(ds.map fun t => t.weight p).sum, (ds.map fun t => t.weight p • t.total r).sum⟩ := by
  rw [C02_inside_is_sum_over_derivations g wf _ v hv ds hds]
  clear hds
  induction ds with
  | nil => rfl
  | cons t ds ih =>
    rw [List.map_cons, List.sum_cons, ih, weight_pair]
    rfl

/-- C56, closure: if `p*` solves `p* = 1 + p p*` then the code's `star` solves `x* = 1 + x x*`. -/
theorem C56_star (x : PRPair P R) (pstar : P) (h : pstar = 1 + x.p * pstar) :
    x.star pstar = 1 + x * x.star pstar := by
  ext
  · simpa [PRPair.star] using h
  · simp only [PRPair.star, PRPair.add_r, PRPair.one_r, PRPair.mul_r, zero_add, smul_smul]
    have : pstar * pstar = x.p * (pstar * pstar) + pstar := by
      calc pstar * pstar = (1 + x.p * pstar) * pstar := by rw [← h]
        _ = x.p * (pstar * pstar) + pstar := by rw [add_mul, one_mul, mul_assoc, add_comm]
    rw [← add_smul, ← this]

/-- Non-vacuity: `exG` with weights 2,3,5,7,11 and values 1,…,5. -/
example : (insideScores exG fun e => (⟨[2, 3, 5, 7, 11].getD e 0, ([2, 3, 5, 7, 11].getD e 0 : Int) • ((e : Int) + 1)⟩ : PRPair Int Int)).getD 2 0
    = ⟨1150, 11565⟩ := by decide

end Cdec
