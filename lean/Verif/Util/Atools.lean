import Verif.Util.Grid
/-!
# Alignment combination

Models utils/atools.cc:15-265: the commands `invert`, `intersect`, `union`, `grow-diag`,
`grow-diag-final`, `grow-diag-final-and` and the counts of `fmeasure`.  The output grid is
default-constructed for every line (atools.cc:351), so `resize` yields cells that are `false`.  A failing
assertion of `Array2D` is `none`.
-/
namespace Cdec

/-- `Command::Safe`, atools.cc:29-34; indices are `int`. -/
def safe (a : Grid Bool) (i j : Int) : Option Bool :=
  if 0 ≤ i ∧ 0 ≤ j ∧ i < a.w ∧ j < a.h then a.get i.toNat j.toNat else some false

/-- The double loop `for i < w, for j < h`. -/
def cells (w h : Nat) : List (Nat × Nat) :=
  (List.range w).flatMap fun i => (List.range h).map fun j => (i, j)

/-- Assign `f i j` to the cells `ps` of `x`, in order. -/
def fillCells (f : Nat → Nat → Option Bool) (x : Grid Bool) (ps : List (Nat × Nat)) : Option (Grid Bool) :=
  ps.foldlM (fun x p => (f p.1 p.2).bind fun v => x.set p.1 p.2 v) x

/-- `InvertCommand::Apply`, atools.cc:97-103. -/
def invertCmd (a : Grid Bool) : Option (Grid Bool) :=
  fillCells (fun i j => a.get j i) (.new a.h a.w false) (cells a.h a.w)

/-- `Command::EnsureSize`, atools.cc:26-28, on a cleared grid. -/
def ensureSize (a b : Grid Bool) : Grid Bool := .new (max a.w b.w) (max a.h b.h) false

/-- `IntersectCommand::Apply`, atools.cc:109-115. -/
def intersectCmd (a b : Grid Bool) : Option (Grid Bool) :=
  fillCells (fun i j => (safe a i j).bind fun x => (safe b i j).map fun y => x && y) (ensureSize a b)
    (cells a.w a.h)

/-- `UnionCommand::Apply`, atools.cc:121-127. -/
def unionCmd (a b : Grid Bool) : Option (Grid Bool) :=
  fillCells (fun i j => (safe a i j).bind fun x => (safe b i j).map fun y => x || y) (ensureSize a b)
    (cells (max a.w b.w) (max a.h b.h))

/-- `RefineCommand`'s mutable fields `res_`, `is_i_aligned_`, `is_j_aligned_`, atools.cc:218-223. -/
structure Refine where
  res : Grid Bool
  ia : List Bool
  ja : List Bool

/-- `Align`, atools.cc:139-143. -/
def Refine.align (s : Refine) (p : Nat × Nat) : Option Refine :=
  (s.res.set p.1 p.2 true).bind fun r =>
    if p.1 < s.ia.length ∧ p.2 < s.ja.length then some ⟨r, s.ia.set p.1 true, s.ja.set p.2 true⟩ else none

/-- `neighbors_`, atools.cc:131-136 and 227-232. -/
def neighbors : List (Int × Int) :=
  [(1, 0), (-1, 0), (0, 1), (0, -1), (1, 1), (-1, 1), (1, -1), (-1, -1)]

/-- `IsNeighborAligned`, atools.cc:145-153, with early exit. -/
def Refine.neighborAligned (s : Refine) (p : Nat × Nat) : List (Int × Int) → Option Bool
  | [] => some false
  | d :: ds => (safe s.res (p.1 + d.1) (p.2 + d.2)).bind fun b =>
    if b then some true else s.neighborAligned p ds

/-- `IsNeitherAligned`, atools.cc:155-157. -/
def Refine.neither (s : Refine) (p : Nat × Nat) : Option Bool := do
  let x ← s.ia[p.1]?
  let y ← s.ja[p.2]?
  return !(x || y)

/-- `IsOneOrBothUnaligned`, atools.cc:159-161. -/
def Refine.oneOrBoth (s : Refine) (p : Nat × Nat) : Option Bool := do
  let x ← s.ia[p.1]?
  let y ← s.ja[p.2]?
  return !(x && y)

/-- `KoehnAligned`, atools.cc:163-165. -/
def Refine.koehn (s : Refine) (p : Nat × Nat) : Option Bool :=
  (s.oneOrBoth p).bind fun b => if b then s.neighborAligned p neighbors else some false

/-- One cell of `InitRefine`, atools.cc:180-185; the state is `(un_, in_, *this)`. -/
def initCell (a b : Grid Bool) (st : Grid Bool × Grid Bool × Refine) (p : Nat × Nat) :
    Option (Grid Bool × Grid Bool × Refine) := do
  let x ← safe a p.1 p.2
  let y ← safe b p.1 p.2
  let un ← st.1.set p.1 p.2 (x || y)
  let inn ← st.2.1.set p.1 p.2 (x && y)
  if x && y then
    let s ← st.2.2.align p
    return (un, inn, s)
  else return (un, inn, st.2.2)

/-- `InitRefine`, atools.cc:170-186. -/
def initRefine (a b : Grid Bool) : Option (Grid Bool × Grid Bool × Refine) :=
  let e := ensureSize a b
  (cells e.w e.h).foldlM (initCell a b) (e, e, ⟨e, List.replicate e.w false, List.replicate e.h false⟩)

/-- `Grow` with `idempotent = true`, atools.cc:189-197. -/
def growOnce (pred : Refine → Nat × Nat → Option Bool) (adds : Grid Bool) (s : Refine) : Option Refine :=
  (cells adds.w adds.h).foldlM (fun s p => do
    let x ← adds.get p.1 p.2
    let y ← s.res.get p.1 p.2
    if x && !y then
      let c ← pred s p
      if c then s.align p else return s
    else return s) s

/-- atools.cc:206-213: one sweep over the pending points `p`; returns the state and `added`. -/
def growSweep (pred : Refine → Nat × Nat → Option Bool) :
    Refine × List (Nat × Nat) → List (Nat × Nat) → Option (Refine × List (Nat × Nat))
  | sa, [] => some sa
  | (s, added), p :: ps =>
    (pred s p).bind fun c =>
      if c then (s.align p).bind fun s' => growSweep pred (s', added ++ [p]) ps
      else growSweep pred (s, added) ps

theorem growSweep_sub {pred : Refine → Nat × Nat → Option Bool} :
    ∀ (ps : List (Nat × Nat)) (sa r : Refine × List (Nat × Nat)), growSweep pred sa ps = some r →
      ∀ q ∈ r.2, q ∈ sa.2 ∨ q ∈ ps := by
  intro ps
  induction ps with
  | nil => intro sa r h q hq; simp only [growSweep, Option.some.injEq] at h; subst h; exact .inl hq
  | cons p ps ih =>
    intro sa r h q hq
    obtain ⟨s, added⟩ := sa
    rw [growSweep] at h
    cases hc : pred s p with
    | none => rw [hc] at h; simp at h
    | some c =>
      rw [hc, Option.bind_some] at h
      cases c with
      | true =>
        simp only [if_true] at h
        cases ha : s.align p with
        | none => rw [ha] at h; simp at h
        | some s' =>
          rw [ha, Option.bind_some] at h
          rcases ih _ _ h q hq with h1 | h1
          · simp only [List.mem_append, List.mem_singleton] at h1
            rcases h1 with h1 | rfl
            · exact .inl h1
            · exact .inr (by simp)
          · exact .inr (by simp [h1])
      | false =>
        simp only [Bool.false_eq_true, if_false] at h
        rcases ih _ _ h q hq with h1 | h1
        · exact .inl h1
        · exact .inr (by simp [h1])

/-- atools.cc:214-215: `p.erase(*ai)` for every added point. -/
def erasePts (p added : List (Nat × Nat)) : List (Nat × Nat) := p.filter fun q => !added.contains q

/-- atools.cc:203-216: the loop `while (keep_going)`.  The definition is by recursion on the number of
pending points, so its acceptance is the termination proof. -/
def growLoop (pred : Refine → Nat × Nat → Option Bool) (s : Refine) (p : List (Nat × Nat)) : Option Refine :=
  match h : growSweep pred (s, []) p with
  | none => none
  | some (s', added) =>
    if hadd : added = [] then some s'
    else growLoop pred s' (erasePts p added)
termination_by p.length
decreasing_by
  obtain ⟨q, hq⟩ := List.exists_mem_of_ne_nil added hadd
  have hqp : q ∈ p := by
    rcases growSweep_sub p _ _ h q hq with h1 | h1
    · simp at h1
    · exact h1
  exact List.length_filter_lt_length_iff_exists.2 ⟨q, hqp, by simp [hq]⟩

/-- `Grow` with `idempotent = false`, atools.cc:198-217.  The set of pending points is kept as a list in
iteration (lexicographic) order. -/
def growAll (pred : Refine → Nat × Nat → Option Bool) (adds : Grid Bool) (s : Refine) : Option Refine := do
  let p ← (cells adds.w adds.h).filterMapM fun p => do
    let x ← adds.get p.1 p.2
    let y ← s.res.get p.1 p.2
    return if x && !y then some p else none
  growLoop pred s p

/-- `GDCommand::Apply`, atools.cc:237-241. -/
def growDiag (a b : Grid Bool) : Option (Grid Bool) := do
  let (un, _, s) ← initRefine a b
  let s ← growAll Refine.koehn un s
  return s.res

/-- `GDFCommand::Apply`, atools.cc:246-252. -/
def growDiagFinal (a b : Grid Bool) : Option (Grid Bool) := do
  let (un, _, s) ← initRefine a b
  let s ← growAll Refine.koehn un s
  let s ← growOnce Refine.oneOrBoth a s
  let s ← growOnce Refine.oneOrBoth b s
  return s.res

/-- `GDFACommand::Apply`, atools.cc:257-263. -/
def growDiagFinalAnd (a b : Grid Bool) : Option (Grid Bool) := do
  let (un, _, s) ← initRefine a b
  let s ← growAll Refine.koehn un s
  let s ← growOnce Refine.neither a s
  let s ← growOnce Refine.neither b s
  return s.res

/-- `FMeasureCommand::Apply`, atools.cc:44-60: increments of `(matches, num_predicted, num_in_ref)`. -/
def fmeasureCounts (hyp ref : Grid Bool) (c : Nat × Nat × Nat) : Option (Nat × Nat × Nat) := do
  let c ← (cells ref.w ref.h).foldlM (fun c p => do
    let x ← ref.get p.1 p.2
    if x then
      let m ← safe hyp p.1 p.2
      return if m then (c.1 + 1, c.2.1, c.2.2 + 1) else (c.1, c.2.1, c.2.2 + 1)
    else return c) c
  (cells hyp.w hyp.h).foldlM (fun (c : Nat × Nat × Nat) p => do
    let x ← hyp.get p.1 p.2
    return if x then (c.1, c.2.1 + 1, c.2.2) else c) c

end Cdec
