import Verif.Util.Atools
import Verif.Util.Decimal
/-!
# Pharaoh alignment text

Models utils/alignment_io.cc:7-79.  Text is a list of characters; a failing assertion or `abort()` is
`none`.
-/
namespace Cdec

/-- `" ||| "`. -/
def barSep : List Char := [' ', '|', '|', '|', ' ']

/-- alignment_io.cc:11-12: what follows the last `" ||| "` (`rfind`), if there is one. -/
def afterBar : List Char → Option (List Char)
  | [] => none
  | c :: cs =>
    match afterBar cs with
    | some r => some r
    | none => if barSep.isPrefixOf (c :: cs) then some ((c :: cs).drop 5) else none

/-- alignment_io.cc:36: skip spaces. -/
def skipSpaces : List Char → List Char
  | ' ' :: cs => skipSpaces cs
  | cs => cs

/-- One pass of the loop body, alignment_io.cc:15-35 and 42-58: a link `x-y` and the rest. -/
def readLink (s : List Char) : Option ((Nat × Nat) × List Char) :=
  match readNat 0 s with
  | (x, c :: s1) =>
    if c = '-' then
      match readNat 0 s1 with
      | (y, s2) => some ((x, y), skipSpaces s2)
    else none
  | (_, []) => none

theorem skipSpaces_length (s : List Char) : (skipSpaces s).length ≤ s.length := by
  fun_induction skipSpaces s with
  | case1 cs ih => simp only [List.length_cons]; omega
  | case2 => omega

theorem readLink_length {s r : List Char} {p : Nat × Nat} (h : readLink s = some (p, r)) :
    r.length < s.length := by
  unfold readLink at h
  have h1 := readNat_length 0 s
  split at h
  · rename_i x c s1 he
    rw [he] at h1
    have h2 := readNat_length 0 s1
    have h3 := skipSpaces_length (readNat 0 s1).2
    split at h
    · simp only [Option.some.injEq, Prod.mk.injEq] at h
      rw [← h.2]; simp only [List.length_cons] at h1; omega
    · simp at h
  · simp at h

/-- The loop over links, alignment_io.cc:13-37 and 40-59 (both passes read the same links). -/
def readLinks (s : List Char) : Option (List (Nat × Nat)) :=
  match s with
  | [] => some []
  | c :: cs =>
    if c = '\n' ∨ c = '\r' then some []
    else match h : readLink (c :: cs) with
      | none => none
      | some (p, r) => (readLinks r).map (p :: ·)
termination_by s.length
decreasing_by exact readLink_length h

/-- alignment_io.cc:20, 34: `if (x > max_x) max_x = x;`. -/
def maxOf (f : Nat × Nat → Nat) (ps : List (Nat × Nat)) : Nat :=
  ps.foldl (fun m p => if f p > m then f p else m) 0

/-- `AlignmentIO::ReadPharaohAlignmentGrid`, alignment_io.cc:7-62. -/
def readPharaoh (s : List Char) : Option (Grid Bool) :=
  (readLinks ((afterBar s).getD s)).bind fun ps =>
    ps.foldlM (fun g p => g.set p.1 p.2 true) (Grid.new (maxOf Prod.fst ps + 1) (maxOf Prod.snd ps + 1) false)

/-- `out << i << '-' << j`. -/
def showLink (p : Nat × Nat) : List Char := showNat p.1 ++ '-' :: showNat p.2

/-- The loop of alignment_io.cc:66-73 over the cells; the state is `need_space` and the text. -/
def writeCells (g : Grid Bool) : Option (Bool × List Char) :=
  (cells g.w g.h).foldlM (fun st p => (g.get p.1 p.2).map fun b =>
    if b then (true, st.2 ++ (if st.1 then [' '] else []) ++ showLink p) else st) (false, [])

/-- `AlignmentIO::SerializePharaohFormat`, alignment_io.cc:64-74. -/
def writePharaoh (g : Grid Bool) : Option (List Char) :=
  (writeCells g).map fun st => st.2 ++ ['\n']

end Cdec
