import Verif.HG.PruneModel
import Verif.Util.Sort
import Mathlib.Analysis.SpecialFunctions.Pow.NNReal
/-!
# Margin pruning

Models `MarginPrune` and the Viterbi branch of `PruneInsideOutside`, decoder/hg.cc:291-375.
Probabilities (`prob_t`, stored as logarithms) are non-negative reals.
-/
namespace Cdec.HG
open scoped NNReal
variable {α : Type}

/-- `struct TropicalValue`, hg.cc:120-140: `+` is maximum, `*` is product. -/
@[ext] structure Trop where
  v : ℝ≥0

noncomputable instance : Zero Trop := ⟨⟨0⟩⟩
noncomputable instance : One Trop := ⟨⟨1⟩⟩
/-- hg.cc:130-133: `if (v_ < o.v_) v_ = o.v_`. -/
noncomputable instance : Add Trop := ⟨fun a b => ⟨if a.v < b.v then b.v else a.v⟩⟩
/-- hg.cc:134-137. -/
noncomputable instance : Mul Trop := ⟨fun a b => ⟨a.v * b.v⟩⟩

/-- `abslog`, utils/logval.h:103-106: negates a negative logarithm, i.e. inverts a value below one. -/
noncomputable def abslog (c : ℝ≥0) : ℝ≥0 := if c < 1 then c⁻¹ else c

/-- hg.cc:298: `creep=abslog(cutoff).pow(1e-6)`. -/
noncomputable def creep (c : ℝ≥0) : ℝ≥0 := abslog c ^ (1e-6 : ℝ)

/-- hg.cc:306-313: the loop that fills `prune`; the cutoff is multiplied by `creep` before each test.
`preserve i` is `preserve_mask && (*preserve_mask)[i]`. -/
noncomputable def marginMask (cr : ℝ≥0) (preserve : Nat → Bool) : Nat → ℝ≥0 → List ℝ≥0 → List Bool
  | _, _, [] => []
  | i, cutoff, x :: xs =>
    (if x < cutoff * cr then !preserve i else false) :: marginMask cr preserve (i + 1) (cutoff * cr) xs

/-- `Hypergraph::MarginPrune`, hg.cc:292-317. -/
noncomputable def marginPrune (g : Hypergraph α) (io : List ℝ≥0) (cutoff : ℝ≥0) (preserve : Nat → Bool)
    (safeInside : Bool) (fuel : Nat) : Option (Hypergraph α) :=
  pruneEdges g (fun e => (marginMask (creep cutoff) preserve 0 cutoff io).getD e false) safeInside fuel

/-- hg.cc:346-353, Viterbi branch: normalised best-path-through-edge scores.  The inside and outside
passes run in the tropical semiring; the marginals only multiply, so the same carrier is used. -/
noncomputable def maxMarginals (g : Hypergraph α) (w : Nat → ℝ≥0) : List ℝ≥0 :=
  let w' : Nat → Trop := fun e => ⟨w e⟩
  let ins := insideScores g w'
  (edgeMarginals g w' ins (outsideScores g w' ins ⟨1 / (ins.getLastD 0).v⟩)).map Trop.v

/-- `nth_greatest`, hg.cc:319-323 (`none` when `vs[n]` is out of range). -/
noncomputable def nthGreatest (n : Nat) (vs : List ℝ≥0) : Option ℝ≥0 :=
  (isort (fun a b => decide (b ≤ a)) vs)[n]?

/-- hg.cc:355-360: the cutoff before the beam is considered. -/
noncomputable def densityCutoff (mm : List ℝ≥0) : Option Nat → Option ℝ≥0
  | some r => nthGreatest r mm
  | none => some 1

/-- hg.cc:361-372, Viterbi branch (`best` is one): the beam cutoff replaces the density cutoff unless
the latter is used and larger. -/
noncomputable def beamCutoff (useDensity : Bool) (c : ℝ≥0) : Option ℝ → ℝ≥0
  | none => c
  | some alpha =>
    let beamCut : ℝ≥0 := 1 * (Real.exp (-alpha)).toNNReal
    if useDensity && decide (c > beamCut) then c else beamCut

/-- hg.cc:355-372: `density = some rnum` when `use_density` survives the test of hg.cc:338,
`beam = some alpha` when `use_beam`. -/
noncomputable def pruneCutoff (mm : List ℝ≥0) (density : Option Nat) (beam : Option ℝ) : Option ℝ≥0 :=
  (densityCutoff mm density).map fun c => beamCutoff density.isSome c beam

/-- hg.cc:346-373 with `use_sum_prod_semiring = false`. -/
noncomputable def pruneInsideOutside (g : Hypergraph α) (w : Nat → ℝ≥0) (density : Option Nat)
    (beam : Option ℝ) (preserve : Nat → Bool) (safeInside : Bool) (fuel : Nat) : Option (Hypergraph α) :=
  (pruneCutoff (maxMarginals g w) density beam).bind fun c =>
    marginPrune g (maxMarginals g w) c preserve safeInside fuel

end Cdec.HG
