/-!
# Distances in lattices

Models decoder/lattice.cc:8-42 (`Lattice::ComputeDistances`), with `Array2D::resize` of utils/array2d.h:24-28.  A lattice
is, for every position, the list of the `dist2next` of the arcs that leave it (labels and features do not matter here).
Distances are natural numbers; the sums in the code stay below 2^31.
-/
namespace Cdec.Dec

/-- `kUNREACHABLE`, decoder/lattice.cc:8. -/
def kUnreachable : Nat := 99999999

/-- A matrix of distances. -/
abbrev Matrix := Nat → Nat → Nat

/-- `dist_(i, j) = v`. -/
def Matrix.set (D : Matrix) (i j v : Nat) : Matrix := fun a b => if a = i ∧ b = j then v else D a b

/-- `dist_.resize(n, n, kUNREACHABLE)`, lattice.cc:12, array2d.h:24-28: the flat vector keeps what it held, new cells get
the value. -/
def resizeDist (old : List Nat) (n : Nat) : Matrix := fun i j => old.getD (i + j * n) kUnreachable

/-- The inner loop at lattice.cc:15-16. -/
def setArcs (i : Nat) (D : Matrix) (alts : List Nat) : Matrix := alts.foldl (fun D d => D.set i (i + d) 1) D

/-- The loop at lattice.cc:13-17. -/
def initArcs (lat : List (List Nat)) (D : Matrix) : Matrix :=
  (List.range lat.length).foldl (fun D i => setArcs i D (lat.getD i [])) D

/-- The body of the innermost loop at lattice.cc:21-23. -/
def fwCell (k i : Nat) (D : Matrix) (j : Nat) : Matrix :=
  let dp := D i k + D k j
  if D i j > dp then D.set i j dp else D

/-- The loop over `j`, lattice.cc:20-24. -/
def fwRow (n k : Nat) (D : Matrix) (i : Nat) : Matrix := (List.range n).foldl (fwCell k i) D

/-- The loop over `i`, lattice.cc:19-25. -/
def fwStage (n : Nat) (D : Matrix) (k : Nat) : Matrix := (List.range n).foldl (fwRow n k) D

/-- The loop over `k`, lattice.cc:18-26. -/
def floyd (n : Nat) (D : Matrix) : Matrix := (List.range n).foldl (fwStage n) D

/-- The body of the inner loop at lattice.cc:30-36; the state is the matrix and `latest`. -/
def fillCell (i : Nat) (s : Matrix × Nat) (j : Nat) : Matrix × Nat :=
  let c := s.1 i j
  if c < kUnreachable then (s.1, c) else (s.1.set i j s.2, s.2)

/-- The body of the outer loop at lattice.cc:28-37: `j` runs from `n-1` down to 0. -/
def fillRow (n : Nat) (D : Matrix) (i : Nat) : Matrix := ((List.range n).reverse.foldl (fillCell i) (D, kUnreachable)).1

/-- `ComputeDistances`, lattice.cc:10-39, on a lattice whose distance table held `old`. -/
def computeDistances (old : List Nat) (lat : List (List Nat)) : Matrix :=
  let n := lat.length + 1
  (List.range n).foldl (fillRow n) (floyd n (initArcs lat (resizeDist old n)))

end Cdec.Dec
