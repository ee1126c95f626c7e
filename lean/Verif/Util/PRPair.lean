import Mathlib.Algebra.Module.Basic
import Mathlib.Algebra.Module.BigOperators
import Mathlib.Tactic.Abel
/-!
# The expectation semiring

Models utils/exp_semiring.h:19-64.  `PType` is a commutative semiring `P`, `RType` a `P`-module `R`
(`R * P` and `P * R` are the scalar action).  Exact arithmetic.
-/
namespace Cdec

/-- exp_semiring.h:20-38. -/
@[ext] structure PRPair (P R : Type) where
  p : P
  r : R
deriving DecidableEq

namespace PRPair
variable {P R : Type} [CommSemiring P] [AddCommMonoid R] [Module P R]

/-- `PRPair()` and `PRPair(0)`, exp_semiring.h:21-24. -/
instance : Zero (PRPair P R) := ⟨⟨0, 0⟩⟩
/-- `PRPair(1)`, exp_semiring.h:24. -/
instance : One (PRPair P R) := ⟨⟨1, 0⟩⟩
/-- `operator+=`, `operator+`, exp_semiring.h:26-30, 45-50. -/
instance : Add (PRPair P R) := ⟨fun a o => ⟨a.p + o.p, a.r + o.r⟩⟩
/-- `operator*=`, `operator*`, exp_semiring.h:31-35, 52-57: `r = (o.r * p) + (o.p * r); p *= o.p`. -/
instance : Mul (PRPair P R) := ⟨fun a o => ⟨a.p * o.p, (a.p • o.r) + (o.p • a.r)⟩⟩

/-- `star`, exp_semiring.h:59-63, given `star(x.p)`. -/
def star (pstar : P) (x : PRPair P R) : PRPair P R := ⟨pstar, pstar • pstar • x.r⟩

@[simp] theorem zero_p : (0 : PRPair P R).p = 0 := rfl
@[simp] theorem zero_r : (0 : PRPair P R).r = 0 := rfl
@[simp] theorem one_p : (1 : PRPair P R).p = 1 := rfl
@[simp] theorem one_r : (1 : PRPair P R).r = 0 := rfl
@[simp] theorem add_p (a b : PRPair P R) : (a + b).p = a.p + b.p := rfl
@[simp] theorem add_r (a b : PRPair P R) : (a + b).r = a.r + b.r := rfl
@[simp] theorem mul_p (a b : PRPair P R) : (a * b).p = a.p * b.p := rfl
@[simp] theorem mul_r (a b : PRPair P R) : (a * b).r = (a.p • b.r) + (b.p • a.r) := rfl

/-- The commutative semiring laws. -/
instance : CommSemiring (PRPair P R) where
  add_assoc a b c := by ext <;> simp [add_assoc]
  zero_add a := by ext <;> simp
  add_zero a := by ext <;> simp
  add_comm a b := by ext <;> simp [add_comm]
  nsmul := nsmulRec
  left_distrib a b c := by
    ext
    · simp [mul_add]
    · simp [smul_add, add_smul]; abel
  right_distrib a b c := by
    ext
    · simp [add_mul]
    · simp [smul_add, add_smul]; abel
  zero_mul a := by ext <;> simp
  mul_zero a := by ext <;> simp
  mul_assoc a b c := by
    ext
    · simp [mul_assoc]
    · simp only [mul_r, mul_p, smul_add, smul_smul]
      rw [mul_comm c.p a.p, mul_comm c.p b.p]; abel
  one_mul a := by ext <;> simp
  mul_one a := by ext <;> simp
  mul_comm a b := by
    ext
    · simp [mul_comm]
    · simp [add_comm]

end PRPair
end Cdec
