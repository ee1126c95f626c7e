import Mathlib.Algebra.Ring.Defs
import Mathlib.Analysis.Real.Sqrt
/-!
# The string subsequence kernel

Models utils/kernel_string_subseq.h and mteval/ns_ssk.cc.  Numbers are elements of a semiring, or real numbers where there is a square root, instead of `float`.
-/
namespace Cdec.Mteval.Ssk
variable {K α : Type} [CommSemiring K] [DecidableEq α]

/-- The array `kp`. -/
abbrev Table (K : Type) := Nat → Nat → Nat → K

/-- An assignment to an element. -/
def put (kp : Table K) (i j k : Nat) (x : K) : Table K := fun i' j' k' => if i' = i ∧ j' = j ∧ k' = k then x else kp i' j' k'

/-- The comparison `s[j]==t[k]` as a number. -/
def same (s t : List α) (j k : Nat) : K := if s[j]? = t[k]? then 1 else 0

/-- kernel_string_subseq.h:13-15.  The elements of a `boost::multi_array` are zero at first. -/
def init (m n : Nat) : Table K :=
  (List.range m).foldl (fun kp j => (List.range n).foldl (fun kp k => put kp 0 j k 1) kp) fun _ _ _ => 0

/-- The body of the inner loop, kernel_string_subseq.h:20-21; the state is `kp` and `kpp`. -/
def cell (lam : K) (s t : List α) (i j : Nat) (st : Table K × K) (k : Nat) : Table K × K :=
  let kpp := lam * (st.2 + lam * same s t j k * st.1 i j k)
  (put st.1 (i + 1) (j + 1) (k + 1) (lam * st.1 (i + 1) j (k + 1) + kpp), kpp)

/-- kernel_string_subseq.h:18-22. -/
def row (lam : K) (s t : List α) (i : Nat) (kp : Table K) (j : Nat) : Table K :=
  ((List.range t.length).foldl (cell lam s t i j) (kp, 0)).1

/-- kernel_string_subseq.h:16-24. -/
def fill (N : Nat) (lam : K) (s t : List α) : Table K :=
  (List.range N).foldl (fun kp i => (List.range s.length).foldl (row lam s t i) kp) (init s.length t.length)

/-- `ssk` on arrays, kernel_string_subseq.h:9-31. -/
def kernel (N : Nat) (lam : K) (s t : List α) : K :=
  let kp := fill N lam s t
  (List.range N).foldl (fun kn i => (List.range s.length).foldl (fun kn j => (List.range t.length).foldl (fun kn k => kn + lam * lam * same s t j k * kp i j k) kn) kn) 0

/-- `ssk` on vectors and strings, kernel_string_subseq.h:33-49. -/
noncomputable def similarity (N : Nat) (lam : ℝ) (s t : List α) : ℝ :=
  let kst := kernel N lam s t
  if kst = 0 then 0
  else kst / Real.sqrt (kernel N lam s s * kernel N lam t t)

/-- `SSKMetric::ComputeSufficientStatistics`, ns_ssk.cc:16-28: similarity and count. -/
noncomputable def stats (hyp : List α) (refs : List (List α)) : ℝ × ℝ :=
  (refs.foldl (fun best r => if similarity 4 0.8 hyp r > best then similarity 4 0.8 hyp r else best) 0, 1)

/-- `SufficientStats::operator+=`, mteval/ns.h. -/
def plus (a b : ℝ × ℝ) : ℝ × ℝ := (a.1 + b.1, a.2 + b.2)

/-- `SSKMetric::ComputeScore`, ns_ssk.cc:30-32. -/
noncomputable def score (s : ℝ × ℝ) : ℝ := s.1 / s.2

end Cdec.Mteval.Ssk
