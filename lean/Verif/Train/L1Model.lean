import Verif.Sparse.Model
import Mathlib.Algebra.Order.Field.Basic
/-!
# CumulativeL1OnlineOptimizer

Models training/utils/online_optimizer.h:66-72 (`ResetEpoch`, `UpdateWeights`) and 84-129
(`CumulativeL1OnlineOptimizer`), on top of the sparse vectors of utils/fast_sparse_vector.h.  Arithmetic is
exact (any ordered field instead of `double`); the learning-rate schedule is represented by the values
`eta` it returns.
-/
namespace Cdec.Sparse
variable {K : Type} [Field K] [LinearOrder K]

/-- online_optimizer.h:126-128 (`u_`, `q_`), together with the caller's weights. -/
structure L1St (K : Type) where
  u : K
  q : FSV K
  w : FSV K
deriving DecidableEq

/-- online_optimizer.h:109-113: the new value of a weight `z` whose accumulated penalty is `q`. -/
def penalised (u q z : K) : K :=
  if 0 < z then max 0 (z - (u + q)) else if z < 0 then min 0 (z + (u - q)) else z

/-- `ApplyPenalty`, online_optimizer.h:105-123.  `er` is the vector's `erase`; `none` is undefined
behaviour. -/
def applyPenalty (er : FSV K → Nat → Option (FSV K)) (L : Nat) (st : L1St K) (i : Nat) : Option (L1St K) :=
  let z := st.w.value i
  let wi := penalised st.u (st.q.value i) z
  let qi := st.q.value i + (wi - z)
  (if qi = 0 then er st.q i else some (st.q.setValue L i qi)).bind fun q' =>
  (if wi = 0 then er st.w i else some (st.w.setValue L i wi)).bind fun w' =>
  some ⟨st.u, q', w'⟩

/-- online_optimizer.h:95-99: the gradient step on the features that are not frozen. -/
def gradStep (L : Nat) (frozen : Nat → Bool) (eta : K) (w g : FSV K) : FSV K :=
  g.entries.foldl (fun w p => if frozen p.1 then w else w.addValue L p.1 (eta * p.2)) w

/-- online_optimizer.h:100-101: the penalties, for features `is`. -/
def penalties (er : FSV K → Nat → Option (FSV K)) (L : Nat) (frozen : Nat → Bool) :
    List Nat → L1St K → Option (L1St K)
  | [], st => some st
  | i :: is, st =>
    (if frozen i then some st else applyPenalty er L st i).bind fun st => penalties er L frozen is st

/-- `UpdateWeightsImpl`, online_optimizer.h:93-102. -/
def l1Update (er : FSV K → Nat → Option (FSV K)) (L : Nat) (C N : K) (frozen : Nat → Bool) (st : L1St K)
    (eta : K) (g : FSV K) (maxFeat : Nat) : Option (L1St K) :=
  penalties er L frozen (List.range' 1 (maxFeat - 1)) ⟨st.u + eta * C / N, st.q, gradStep L frozen eta st.w g⟩

/-- `ResetEpochImpl`, online_optimizer.h:92. -/
def resetEpoch (st : L1St K) : L1St K := { st with u := 0 }

/-- A sequence of calls `UpdateWeights(g, max_feat, w)`; each element is the learning rate and the
arguments of one call. -/
def l1Run (er : FSV K → Nat → Option (FSV K)) (L : Nat) (C N : K) (frozen : Nat → Bool) :
    List (K × FSV K × Nat) → L1St K → Option (L1St K)
  | [], st => some st
  | (eta, g, mf) :: steps, st => (l1Update er L C N frozen st eta g mf).bind fun st => l1Run er L C N frozen steps st

/-- `erase` restricted to the calls on which it works (C25): `none` for a key that is absent from a vector
in local representation. -/
def FSV.eraseChecked (v : FSV K) (k : Nat) : Option (FSV K) :=
  match v with
  | .rem _ => v.erase k
  | .loc l => if (lookup l k).isSome then v.erase k else none

end Cdec.Sparse
