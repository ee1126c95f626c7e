import Verif.Util.Dict
/-!
# Weight files

Models the text format of utils/weights.cc:12-119 (the binary format for perfect hash functions is not modelled: a file
with its header is taken as an error).  Strings are lists of bytes.  How a number is printed with 17 digits and how
`strtod` reads it are parameters.  The feature dictionary is the `Dict` of C27, not frozen.
-/
namespace Cdec.Weights
open Cdec

abbrev Str := List UInt8

/-- Numbers: printing, `strtod`, zero and `isnan`. -/
structure Num (V : Type) where
  render : V → Str
  strtod : Str → V
  zero : V
  isNan : V → Bool

variable {V : Type}

/-- The dictionary `FD` and the weight vector. -/
structure State (V : Type) where
  dict : Dict Str
  weights : List V

/-- `weights.resize(fid + 1)` if it is shorter, then `weights[fid] = val`, weights.cc:61-63. -/
def setWeight (N : Num V) (w : List V) (fid : Nat) (val : V) : List V :=
  (if w.length ≤ fid then w ++ List.replicate (fid + 1 - w.length) N.zero else w).set fid val

/-- The loop `for (int i = buf.size() - 1; i > 0; --i)`, weights.cc:47-48, on the bytes from position 1 on: the last
`=` or tab becomes a space; none if there is no such byte. -/
def replTail : Str → Option Str
  | [] => none
  | c :: l =>
    match replTail l with
    | some l' => some (c :: l')
    | none => if c = 61 ∨ c = 9 then some (32 :: l) else none

/-- The same, for the whole line. -/
def replaceLast : Str → Str
  | [] => []
  | c :: l => c :: (replTail l).getD l

/-- The body of the loop, weights.cc:41-63: the new state and the buffer as the body leaves it; none is `abort`.  `start`
is 0, as the first byte is not a space. -/
def processLine (N : Num V) (s : State V) (buf : Str) : Option (State V × Str) :=
  match buf with
  | [] => some (s, buf)
  | c :: _ =>
    if c = 35 then some (s, buf)
    else if c = 32 then none
    else
      let buf := replaceLast buf
      let name := buf.takeWhile (fun x => x ≠ 32)
      let conv := s.dict.convert name false
      let val := N.strtod ((buf.drop name.length).dropWhile (fun x => x = 32))
      if N.isNan val then none
      else some ({ dict := conv.1, weights := setWeight N s.weights conv.2 val }, buf)

/-- The lines of the input that end in a newline, and what is behind the last newline. -/
def splitLines : Str → List Str × Str
  | [] => ([], [])
  | c :: l =>
    let r := splitLines l
    if c = 10 then ([] :: r.1, r.2)
    else match r.1 with
      | [] => ([], c :: r.2)
      | x :: xs => ((c :: x) :: xs, r.2)

/-- All complete lines. -/
def processLines (N : Num V) : State V → List Str → Option (State V)
  | s, [] => some s
  | s, l :: ls =>
    match processLine N s l with
    | some (s', _) => processLines N s' ls
    | none => none

/-- The loop `while (in) { getline(in, buf); ... }`, weights.cc:39-69.  Behind the last newline, if there is nothing,
`getline` leaves an empty buffer and the loop ends.  If there is something, it is processed, the stream is at its end but
has not failed, and the next `getline` fails without touching the buffer, which is then processed again. -/
def readText (N : Num V) (s : State V) (input : Str) : Option (State V) :=
  let r := splitLines input
  match processLines N s r.1 with
  | none => none
  | some s' =>
    if r.2 = [] then some s'
    else match processLine N s' r.2 with
      | none => none
      | some (s'', buf) =>
        match processLine N s'' buf with
        | none => none
        | some (s''', _) => some s'''

/-- `_PHWf`. -/
def binaryHeader : Str := [95, 80, 72, 87, 102]

/-- `InitFromFile`, weights.cc:12-92: `hi.read(buf, 5)` has to succeed. -/
def initFromFile (N : Num V) (s : State V) (input : Str) : Option (State V) :=
  if input.length < 5 then none
  else if input.take 5 = binaryHeader then none
  else readText N s input

/-- The loop of `WriteToFile`, weights.cc:107-111, from feature `i` on. -/
def writeLoop [DecidableEq V] (N : Num V) (weights : List V) (hide : Bool) : Nat → List Str → Str
  | _, [] => []
  | i, name :: l =>
    let val := weights.getD i N.zero
    if hide ∧ val = N.zero then writeLoop N weights hide (i + 1) l
    else name ++ [32] ++ N.render val ++ [10] ++ writeLoop N weights hide (i + 1) l

/-- `WriteToFile`, weights.cc:94-119, as text. -/
def writeToFile [DecidableEq V] (N : Num V) (s : State V) (hide : Bool) (extra : Option Str) : Str :=
  (match extra with | some e => [35, 32] ++ e ++ [10] | none => []) ++ writeLoop N s.weights hide 1 s.dict.words

/-- The weight of a feature: what the decoder uses for a name. -/
def State.value (N : Num V) (s : State V) (name : Str) : V :=
  match s.dict.find name with
  | some i => s.weights.getD i N.zero
  | none => N.zero

end Cdec.Weights
