import Verif.Util.Decimal
/-!
# Lattices as text (PLF)

Models decoder/hg_io.cc:33-57 (`Escape`), 90-114 (`AsPLF` of a lattice) and 116-325 (the reader).  Strings are lists of
characters, labels are the strings of the words (their ids are the matter of C27).  Floating point numbers are an abstract type
with the printing, reading and truncating functions of the library.  `none` stands for `abort()` or a failing assertion.  The
hypergraph built by the reader is represented by its number of nodes and its edges in order of creation; the `out_edges_` of a
node are the edges with that tail in that order (this is C01).
-/
namespace Cdec.Dec

/-- `ostream << double`, `atof` with the conversion to `float`, `static_cast<size_t>` and the constant 0. -/
structure Num (V : Type) where
  pr : V → List Char
  rd : List Char → V
  trunc : V → Nat
  zero : V

/-- `LatticeArc`, decoder/lattice.h:17-23; the features are pairs of a name and a value. -/
structure Arc (V : Type) where
  label : List Char
  features : List (List Char × V)
  dist : Nat
deriving DecidableEq

variable {V : Type}

/-- hg_io.cc:33-38: `needs_escape`. -/
def needsEscape (c : Char) : Bool := c = '\'' || c = '\\'

/-- `HypergraphIO::Escape`, hg_io.cc:40-57. -/
def escape (s : List Char) : List Char := s.flatMap fun c => if needsEscape c then ['\\', c] else [c]

/-- `f.get(FD::Convert("LatticeCost"))`, hg_io.cc:92-94. -/
def latticeCost (N : Num V) (f : List (List Char × V)) : V := (f.lookup "LatticeCost".toList).getD N.zero

/-- hg_io.cc:107-108. -/
def showArc (N : Num V) (a : Arc V) : List Char :=
  ['(', '\''] ++ escape a.label ++ ['\'', ','] ++ N.pr (latticeCost N a.features) ++ [','] ++ showNat a.dist ++ [')', ',']

/-- hg_io.cc:104-110. -/
def showNode (N : Num V) (arcs : List (Arc V)) : List Char := ['('] ++ arcs.flatMap (showArc N) ++ [')', ',']

/-- `AsPLF(lat, true)`, hg_io.cc:96-114. -/
def asPLF (N : Num V) (lat : List (List (Arc V))) : List Char :=
  if lat = [] then ['(', ')'] else ['('] ++ lat.flatMap (showNode N) ++ [')']

/-- `PLF::get`, hg_io.cc:123-126. -/
def plfGet (s : List Char) (c : Nat) : Char := s.getD c '\x00'

theorem plfGet_lt {s : List Char} {c : Nat} {x : Char} (h : plfGet s c = x) (hx : x ≠ '\x00') : c < s.length := by
  apply Classical.byContradiction
  intro hc
  apply hx
  rw [← h, plfGet, List.getD_eq_getElem?_getD, List.getElem?_eq_none (by omega)]
  rfl

/-- `PLF::eatws`, hg_io.cc:129-131. -/
def eatws (s : List Char) (c : Nat) : Nat := if h : plfGet s c = ' ' then eatws s (c + 1) else c
termination_by s.length - c
decreasing_by have := plfGet_lt h (by decide); omega

/-- The body of the loop at hg_io.cc:143-147. -/
def escBody (s : List Char) (c : Nat) (res : List Char) : Nat × List Char :=
  let cur := plfGet s c
  if cur = '\\' then (c + 2, res ++ [plfGet s (c + 1)])
  else if cur ≠ '\'' then (c + 1, res ++ [cur])
  else (c + 1, res)

theorem escBody_lt (s : List Char) (c : Nat) (res : List Char) : c < (escBody s c res).1 := by
  unfold escBody
  simp only []
  split
  · simp
  · split <;> simp

/-- The loop at hg_io.cc:143-147. -/
def escLoop (s : List Char) (c : Nat) (res : List Char) : Nat × List Char :=
  if _h : plfGet s (escBody s c res).1 ≠ '\'' ∧ (escBody s c res).1 < s.length then escLoop s (escBody s c res).1 (escBody s c res).2
  else escBody s c res
termination_by s.length - c
decreasing_by have := escBody_lt s c res; omega

/-- `getEscapedString`, hg_io.cc:134-151. -/
def getEscaped (s : List Char) (c : Nat) : Option (List Char × Nat) :=
  let c := eatws s c
  if plfGet s c ≠ '\'' then none
  else
    let r := escLoop s (c + 1) []
    some (r.2, eatws s (r.1 + 1))

/-- The loop at hg_io.cc:158-160. -/
def tokLoop (s : List Char) (c : Nat) (tmp : List Char) : List Char × Nat :=
  if _h : c < s.length ∧ plfGet s c ≠ ' ' ∧ plfGet s c ≠ ')' ∧ plfGet s c ≠ ',' ∧ plfGet s c ≠ '}' then tokLoop s (c + 1) (tmp ++ [plfGet s c])
  else (tmp, c)
termination_by s.length - c

/-- `getFloat`, hg_io.cc:154-167. -/
def getFloat (N : Num V) (s : List Char) (c : Nat) : Option (V × Nat) :=
  let r := tokLoop s (eatws s c) []
  if r.1 = [] then none else some (N.rd r.1, eatws s r.2)

/-- `features[name] = value`; the order of the `map` is not modelled. -/
def setFeature (f : List (List Char × V)) (name : List Char) (v : V) : List (List Char × V) :=
  match f with
  | [] => [(name, v)]
  | p :: f => if p.1 = name then (name, v) :: f else p :: setFeature f name v

/-- `ReadPLFFeature`, hg_io.cc:184-192. -/
def readFeature (N : Num V) (s : List Char) (c : Nat) (f : List (List Char × V)) : Option (List (List Char × V) × Nat) :=
  match getEscaped s (eatws s c) with
  | none => none
  | some (name, c) =>
    let c := eatws s c
    if plfGet s c ≠ ':' then none
    else
      match getFloat N s (c + 1) with
      | none => none
      | some (v, c) => some (setFeature f name v, eatws s c)

/-- The loop at hg_io.cc:214-218; the fuel bounds the number of iterations. -/
def sparseLoop (N : Num V) (s : List Char) : Nat → Nat → List (List Char × V) → Option (List (List Char × V) × Nat)
  | 0, _, _ => none
  | fuel + 1, c, f =>
    if plfGet s c = ',' then
      if plfGet s (c + 1) = '}' then some (f, c + 1)
      else
        match readFeature N s (c + 1) f with
        | none => none
        | some (f, c) => sparseLoop N s fuel c f
    else some (f, c)

/-- The loop at hg_io.cc:228-233. -/
def denseLoop (N : Num V) (s : List Char) : Nat → Nat → List V → Option (List V × Nat)
  | 0, _, _ => none
  | fuel + 1, c, probs =>
    if plfGet s c = ',' then
      match getFloat N s (c + 1) with
      | none => none
      | some (v, c) => denseLoop N s fuel c (probs ++ [v])
    else some (probs, c)

/-- hg_io.cc:206-243: the features, the increment and the position after them. -/
def readFeatures (N : Num V) (s : List Char) (c : Nat) : Option (List (List Char × V) × Nat × Nat) :=
  if plfGet s c = '{' then
    let c := eatws s (c + 1)
    match (if plfGet s c ≠ '}' then readFeature N s c [] else some ([], c)) with
    | none => none
    | some (f, c) =>
      match sparseLoop N s (s.length + 1) c f with
      | none => none
      | some (f, c) =>
        if plfGet s c ≠ '}' then none
        else
          let c := eatws s (c + 1)
          if plfGet s c ≠ ',' then none
          else
            match getFloat N s (c + 1) with
            | none => none
            | some (v, c) => some (f, N.trunc v, c)
  else
    match getFloat N s c with
    | none => none
    | some (v, c) =>
      match denseLoop N s (s.length + 1) c [v] with
      | none => none
      | some (probs, c) =>
        let costs := probs.dropLast
        some ((List.range costs.length).foldl (fun f i => setFeature f ("LatticeCost_".toList ++ showNat i) (costs.getD i N.zero)) [],
          N.trunc (probs.getLastD N.zero), c)

/-- An edge made by the reader. -/
structure PlfEdge (V : Type) where
  tail : Nat
  head : Nat
  label : List Char
  features : List (List Char × V)
deriving DecidableEq

/-- The hypergraph made by the reader: the number of nodes and the edges. -/
structure PlfGraph (V : Type) where
  nodes : Nat
  edges : List (PlfEdge V)
deriving DecidableEq

/-- `ReadPLFEdge`, hg_io.cc:195-257. -/
def readEdge (N : Num V) (s : List Char) (c cur : Nat) (g : PlfGraph V) : Option (PlfGraph V × Nat) :=
  if plfGet s c ≠ '(' then none
  else
    match getEscaped s (c + 1) with
    | none => none
    | some (label, c) =>
      if plfGet s c ≠ ',' then none
      else
        match readFeatures N s (eatws s (c + 1)) with
        | none => none
        | some (f, next, c) =>
          if plfGet s c ≠ ')' then none
          else if next < 1 then none
          else if ¬ cur + next < 100000000 then none
          else some (⟨max g.nodes (cur + next + 1), g.edges ++ [⟨cur, cur + next, label, f⟩]⟩, eatws s (c + 1))

/-- The loop of `ReadPLFNode`, hg_io.cc:264-278. -/
def nodeLoop (N : Num V) (s : List Char) (cur : Nat) : Nat → Nat → PlfGraph V → Option (PlfGraph V × Nat)
  | 0, _, _ => none
  | fuel + 1, c, g =>
    if c > s.length then some (g, c)
    else if plfGet s c = ')' then some (g, eatws s (c + 1))
    else if plfGet s c = ',' ∧ plfGet s (c + 1) = ')' then some (g, eatws s (c + 2))
    else
      match readEdge N s (if plfGet s c = ',' then eatws s (c + 1) else c) cur g with
      | none => none
      | some (g, c) => nodeLoop N s cur fuel c g

/-- `ReadPLFNode`, hg_io.cc:260-279. -/
def readNode (N : Num V) (s : List Char) (c cur : Nat) (g : PlfGraph V) : Option (PlfGraph V × Nat) :=
  let g := { g with nodes := max g.nodes (cur + 1) }
  if plfGet s c ≠ '(' then none
  else nodeLoop N s cur (s.length + 2) (eatws s (c + 1)) g

/-- The loop of `ReadFromPLF`, hg_io.cc:288-303. -/
def plfLoop (N : Num V) (s : List Char) : Nat → Nat → Nat → PlfGraph V → Option (Nat × PlfGraph V)
  | 0, _, _, _ => none
  | fuel + 1, c, cur, g =>
    if c > s.length then some (cur, g)
    else if plfGet s c = ')' then some (cur, g)
    else if plfGet s c = ',' ∧ plfGet s (c + 1) = ')' then some (cur, g)
    else
      match readNode N s (if plfGet s c = ',' then eatws s (c + 1) else c) cur g with
      | none => none
      | some (g, c) => plfLoop N s fuel c (cur + 1) g

/-- `ReadFromPLF`, hg_io.cc:283-305. -/
def readPLF (N : Num V) (s : List Char) : Option (PlfGraph V) :=
  if plfGet s 0 ≠ '(' then none
  else
    match plfLoop N s (s.length + 2) 1 0 ⟨0, []⟩ with
    | none => none
    | some (cur, g) => if cur + 1 = g.nodes then some g else none

/-- `PLFtoLattice`, hg_io.cc:307-325. -/
def plfToLattice (N : Num V) (s : List Char) : Option (List (List (Arc V))) :=
  match readPLF N s with
  | none => none
  | some g => some ((List.range (g.nodes - 1)).map fun i =>
      (g.edges.filter fun e => e.tail = i).map fun e => ⟨e.label, e.features, e.head - i⟩)

end Cdec.Dec
