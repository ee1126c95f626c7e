/-!
# Tree fragments

Models `decoder/tree_fragment.{h,cc}`: the table of productions, its construction from text, spans and the depth-first iterator.
The bits that tell symbols apart are constructors here, and the number of a word is the word itself (`TD::Convert` is one-to-one).
Node numbers and positions are unbounded; in the code they are `unsigned short` and `short`.
-/
namespace Cdec.Dec.T2S

/-- A symbol of a production, tree_fragment.h:44-50: a word, the number of a node (`RHS_BIT`) or a frontier site
(`FRONTIER_BIT`). -/
inductive RSym where
  | term (w : String)
  | node (n : Nat)
  | site (c : String)
deriving DecidableEq, Repr

/-- `TreeFragmentProduction`, tree_fragment.h:44-50.  The span of a node that has none is (-1,-1) in the code. -/
structure Prd where
  lhs : String
  rhs : List RSym
  span : Nat × Nat
deriving DecidableEq, Repr

instance : Inhabited Prd := ⟨⟨"", [], (0, 0)⟩⟩

/-- `TreeFragment::nodes`, tree_fragment.h:91. -/
abbrev Table := List Prd

/-- `nodes[n]` -/
def Table.at (tf : Table) (n : Nat) : Prd := tf.getD n default

/-! ### Reading the text -/

/-- The tests of tree_fragment.cc:87 and 100. -/
def plainChar (c : Char) : Bool := !(c == ' ' || c == '(' || c == ')')

/-- `while(tree[cp] == ' ') { ++cp; }` -/
def skip (cs : List Char) : List Char := cs.dropWhile (· == ' ')

/-- tree_fragment.cc:104: `[` at the start, `]` at the end and something between. -/
def isSite (t : List Char) : Bool := t.head? == some '[' && !(decide (t.length < 3) || t.getLast? != some ']')

mutual
/-- `ParseRec`, tree_fragment.cc:77-139, from the text that is left and the nodes that have been built (`nodes[np]` is assigned
in order).  `none`: the program stops with a message or reads past the end of the text. -/
def parseNode (afs : Bool) : Nat → List Char → Table → Option (List Char × Table)
  | 0, _, _ => none
  | fuel + 1, cs, nodes =>
    match cs with
    | '(' :: cs =>
      let cs := skip cs
      match parseKids afs fuel (skip (cs.dropWhile plainChar)) nodes [] with
      | none => none
      | some (rest, nodes, rhs) => some (skip rest, nodes ++ [⟨String.ofList (cs.takeWhile plainChar), rhs, (0, 0)⟩])
    | _ => none
/-- The loop at tree_fragment.cc:90-121. -/
def parseKids (afs : Bool) : Nat → List Char → Table → List RSym → Option (List Char × Table × List RSym)
  | 0, _, _, _ => none
  | fuel + 1, cs, nodes, rhs =>
    match cs with
    | [] => none
    | c :: cs' =>
      if c = ')' then some (cs', nodes, rhs)
      else if c = '(' then
        match parseNode afs fuel cs nodes with
        | none => none
        | some (rest, nodes') => parseKids afs fuel rest nodes' (rhs ++ [.node (nodes'.length - 1)])
      else
        let t := cs.takeWhile plainChar
        let rest := skip (cs.dropWhile plainChar)
        if isSite t then
          if afs then parseKids afs fuel rest nodes (rhs ++ [.site (String.ofList (t.tail.dropLast))]) else none
        else parseKids afs fuel rest nodes (rhs ++ [.term (String.ofList t)])
end

/-- The check at tree_fragment.cc:16-26, from the balance so far: no bracket closes the tree before the last character. -/
def balanced : Int → List Char → Bool
  | _, [] => true
  | bal, c :: cs =>
    if c = '(' then balanced (bal + 1) cs
    else if c = ')' then !(decide (bal - 1 < 1) && !cs.isEmpty) && balanced (bal - 1) cs
    else balanced bal cs

mutual
/-- `SetupSpansRec`, tree_fragment.cc:53-65: the new table and the right end. -/
def setupNode : Nat → Table → Nat → Nat → Table × Nat
  | 0, tf, _, left => (tf, left)
  | fuel + 1, tf, cur, left =>
    let r := setupKids fuel (tf.at cur).rhs tf left
    (r.1.modify cur fun p => ⟨p.lhs, p.rhs, (left, r.2)⟩, r.2)
/-- The loop at tree_fragment.cc:55-61. -/
def setupKids : Nat → List RSym → Table → Nat → Table × Nat
  | 0, _, tf, right => (tf, right)
  | _ + 1, [], tf, right => (tf, right)
  | fuel + 1, .node m :: xs, tf, right =>
    let r := setupNode fuel tf m right
    setupKids fuel xs r.1 r.2
  | fuel + 1, _ :: xs, tf, right => setupKids fuel xs tf (right + 1)
end

/-- The constructor, tree_fragment.cc:11-34.  (The loops are bounded by the length of the text, which is enough.) -/
def parse (afs : Bool) (text : List Char) : Option Table :=
  if !balanced 0 text then none else
    match parseNode afs (2 * text.length + 2) text [] with
    | none => none
    | some (_, nodes) => if afs then some nodes else some (setupNode (2 * text.length + 2) nodes (nodes.length - 1) 0).1

/-! ### The depth-first iterator -/

/-- What the iterator points at: the left-hand side of a node (`LHS_BIT`), a node below another one (`RHS_BIT`), a frontier site
(`FRONTIER_BIT`) or a word. -/
inductive Sym where
  | lhs (c : String)
  | rhs (c : String)
  | site (c : String)
  | term (w : String)
deriving DecidableEq, Repr

/-- `TFIState`, tree_fragment.h:94-102; `pos` is `rhspos + 1`. -/
structure TFI where
  node : Nat
  pos : Nat
  state : Nat
deriving DecidableEq, Repr

/-- `DepthFirstIterator`, tree_fragment.h:104-107; the back of `q_` comes first. -/
structure Iter where
  q : List TFI
  sym : Sym
deriving DecidableEq, Repr

/-- `Stage`, tree_fragment.h:175-187. -/
def stage (tf : Table) (it : Iter) : Iter :=
  match it.q with
  | [] => it
  | s :: q =>
    if s.state = 0 then ⟨s :: q, .lhs (tf.at s.node).lhs⟩
    else match (tf.at s.node).rhs[s.pos - 1]? with
      | some (.node m) => ⟨⟨m, 0, 0⟩ :: s :: q, .rhs (tf.at m).lhs⟩
      | some (.term w) => ⟨s :: q, .term w⟩
      | some (.site c) => ⟨s :: q, .site c⟩
      | none => it

/-- tree_fragment.h:133-144: to the next position, leaving nodes that are finished. -/
def climb (tf : Table) : List TFI → List TFI
  | [] => []
  | s :: q => if s.pos < (tf.at s.node).rhs.length then ⟨s.node, s.pos + 1, s.state⟩ :: q else climb tf q

/-- `operator++`, tree_fragment.h:127-148. -/
def incr (tf : Table) (it : Iter) : Iter :=
  match it.q with
  | [] => it
  | s :: q =>
    if s.state = 0 then ⟨⟨s.node, s.pos, 1⟩ :: q, (stage tf it).sym⟩
    else stage tf ⟨climb tf (s :: q), it.sym⟩

/-- `begin(node_idx)`, tree_fragment.h:111-115 and 283. -/
def Iter.begin (tf : Table) (n : Nat) : Iter := ⟨[⟨n, 0, 1⟩], (stage tf ⟨[⟨n, 0, 0⟩], .lhs ""⟩).sym⟩

/-- `truncate`, tree_fragment.h:156-162. -/
def Iter.truncate (it : Iter) : Iter :=
  ⟨it.q.tail, match it.sym with | .rhs c => .site c | s => s⟩

/-- `child_node`, tree_fragment.h:163-166. -/
def Iter.child (it : Iter) : Nat :=
  match it.q with
  | [] => 0
  | s :: _ => s.node

/-- `for (auto sym : tf)`: the symbols from `it` to the end. -/
def collect (tf : Table) : Nat → Iter → Option (List Sym)
  | 0, _ => none
  | fuel + 1, it => if it.q.isEmpty then some [] else (collect tf fuel (incr tf it)).map (it.sym :: ·)

end Cdec.Dec.T2S
