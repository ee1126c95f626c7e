import Verif.Sparse.Model
import Verif.Util.Dict
/-! # Saving and loading sparse vectors (utils/fast_sparse_vector.h:473-500)

The archive is the number of pairs and the pairs of feature name and value.  The feature dictionary is `Verif/Util/Dict.lean`;
perfect hashing (`HAVE_CMPH`) is not modelled. -/
namespace Cdec.Sparse
variable {W T : Type} [DecidableEq W]

/-- fast_sparse_vector.h:478-483: where the iteration starts. -/
def FSV.saved (v : FSV T) : List (Nat × T) :=
  match v.entries with
  | [] => []
  | p :: l => if p.1 = 0 then l else p :: l

/-- fast_sparse_vector.h:485-489: `FD::Convert` of every key; `none` is the failing assertion. -/
def wire (bad0 : W) (d : Dict W) : List (Nat × T) → Option (List (W × T))
  | [] => some []
  | p :: l =>
    match d.toWord bad0 p.1, wire bad0 d l with
    | some w, some r => some ((w, p.2) :: r)
    | _, _ => none

/-- `save`, fast_sparse_vector.h:475-490. -/
def FSV.save (bad0 : W) (d : Dict W) (v : FSV T) : Option (Nat × List (W × T)) :=
  (wire bad0 d v.saved).map fun l => ((if v.entries.length > 0 then (if (v.entries.head?.map Prod.fst) = some 0 then v.entries.length - 1 else v.entries.length) else 0), l)

/-- fast_sparse_vector.h:496-498: one round of the loop. -/
def loadStep [Zero T] (L : Nat) (frozen : Bool) (s : Dict W × FSV T) (p : W × T) : Dict W × FSV T :=
  ((s.1.convert p.1 frozen).1, s.2.setValue L (s.1.convert p.1 frozen).2 p.2)

/-- `load`, fast_sparse_vector.h:491-500, which first clears the vector; `none` is an archive that ends too early.
`frozen` says whether `FD::Freeze` has been called. -/
def FSV.load [Zero T] (L : Nat) (frozen : Bool) (d : Dict W) (ar : Nat × List (W × T)) : Option (Dict W × FSV T) :=
  if ar.1 ≤ ar.2.length then some ((ar.2.take ar.1).foldl (loadStep L frozen) (d, .empty)) else none

end Cdec.Sparse
