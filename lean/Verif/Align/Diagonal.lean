import Mathlib.Analysis.SpecialFunctions.Exp
/-!
# DiagonalAlignment

Models word-aligner/da.h over the real numbers.  `exp`, `pow` and `fabs` are the mathematical functions.
The conversion `const unsigned floor = split` is the exact quotient rounded down.  A division by
`1 - ratio = 0` (`alpha = 0`) is NaN in the code, modelled by `none`.
-/
namespace Cdec.Align

/-- `Feature`, da.h:64-66. -/
noncomputable def feature (i j m n : Nat) : ℝ := -|(j : ℝ) / n - (i : ℝ) / m|

/-- `UnnormalizedProb`, da.h:13-21. -/
noncomputable def unnormProb (i j m n : Nat) (alpha : ℝ) : ℝ := Real.exp (feature i j m n * alpha)

/-- `n - floor` on 32-bit unsigned numbers, da.h:33 and 50. -/
def usub (a b : Nat) : Nat := if b ≤ a then a - b else 2 ^ 32 - (b - a)

/-- `const unsigned floor = double(i) * n / m`, da.h:29-30 and 45-46. -/
def splitFloor (i m n : Nat) : Nat := i * n / m

/-- `ComputeZ`, da.h:23-41. -/
noncomputable def computeZ (i m n : Nat) (alpha : ℝ) : Option ℝ :=
  let fl := splitFloor i m n
  let ceil := fl + 1
  let ratio := Real.exp (-alpha / n)
  let numTop := usub n fl
  if 1 - ratio = 0 then none else
  let ezt := if numTop ≠ 0 then unnormProb i ceil m n alpha * (1 - ratio ^ numTop) / (1 - ratio) else 0
  let ezb := if fl ≠ 0 then unnormProb i fl m n alpha * (1 - ratio ^ fl) / (1 - ratio) else 0
  some (ezb + ezt)

/-- `arithmetico_geometric_series`, da.h:69-76. -/
noncomputable def agSeries (a1 g1 r d : ℝ) (n : Nat) : ℝ :=
  let gnp1 := g1 * r ^ n
  let an := d * ((n : ℝ) - 1) + a1
  let x1 := a1 * g1
  let g2 := g1 * r
  let rm1 := r - 1
  (an * gnp1 - x1) / rm1 - d * (gnp1 - g2) / (rm1 * rm1)

/-- `ComputeDLogZ`, da.h:43-62. -/
noncomputable def computeDLogZ (i m n : Nat) (alpha : ℝ) : Option ℝ :=
  (computeZ i n m alpha).bind fun z =>
  let fl := splitFloor i m n
  let ceil := fl + 1
  let ratio := Real.exp (-alpha / n)
  let d : ℝ := -1 / n
  let numTop := usub n fl
  if ratio - 1 = 0 then none else
  let pct := if numTop ≠ 0 then agSeries (feature i ceil m n) (unnormProb i ceil m n alpha) ratio d numTop else 0
  let pcb := if fl ≠ 0 then agSeries (feature i fl m n) (unnormProb i fl m n alpha) ratio d fl else 0
  some ((pct + pcb) / z)

end Cdec.Align
