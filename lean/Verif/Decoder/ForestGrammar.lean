import Verif.Decoder.Subst
/-!
# Forests rewritten as grammars

Models decoder/hg_intersect.cc:116-156 (the rules made by `HG::Intersect`) and decoder/hg_io.cc:339-376 (those written by
`HypergraphIO::WriteAsCFG`).  `cats` gives the category of a node; the conversion of node numbers to category names is not
modelled.
-/
namespace Cdec.Dec

/-- hg_intersect.cc:131-140 and hg_io.cc:353-361, the source side of the new rule. -/
def newSource (cats : Nat → Int) (tails : List Nat) (tgt : List Int) : List Int :=
  tgt.map fun cur => if cur > 0 then cur else cats (tails.getD (-cur).toNat 0)

/-- The body of the loop at hg_intersect.cc:131-140, the part that fills `tn`. -/
def tnStep (s : Nat × List Int) (cur : Int) : Nat × List Int :=
  if cur > 0 then s else (s.1 + 1, s.2.set (-cur).toNat (-(s.1 : Int)))

/-- `tn` after the loop at hg_intersect.cc:129-140. -/
def tnIntersect (arity : Nat) (tgt : List Int) : List Int := (tgt.foldl tnStep (0, List.replicate arity 0)).2

/-- The body of the loop at hg_io.cc:353-361, the part that fills `tn`. -/
def tnStepCFG (s : Nat × List Int) (cur : Int) : Nat × List Int :=
  if cur > 0 then s else (s.1 + 1, s.2.set s.1 cur)

/-- `tn` after the loop at hg_io.cc:351-361. -/
def tnCFG (arity : Nat) (tgt : List Int) : List Int := (tgt.foldl tnStepCFG (0, List.replicate arity 0)).2

/-- The body of the loop at hg_intersect.cc:142-149 and hg_io.cc:363-370. -/
def newTargetStep (tn : List Int) (s : Nat × List Int) (cur : Int) : Nat × List Int :=
  if cur > 0 then (s.1, s.2 ++ [cur]) else (s.1 + 1, s.2 ++ [tn.getD s.1 0])

/-- The target side of the new rule, hg_intersect.cc:141-149 and hg_io.cc:362-370. -/
def newTarget (tn : List Int) (src : List Int) : List Int := (src.foldl (newTargetStep tn) (0, [])).2

/-- `ComputeArity`, decoder/trule.cc:68-73. -/
def computeArity (e : List Int) : Int := 1 - e.foldl (fun m i => if i < m then i else m) 1

/-- The rule of `HG::Intersect` for an edge, hg_intersect.cc:118-155. -/
def intersectRule (cats : Nat → Int) (head : Nat) (tails : List Nat) (r : Rule) : Rule :=
  let e := newTarget (tnIntersect tails.length r.e) r.f
  ⟨cats head, newSource cats tails r.e, e, computeArity e⟩

/-- The rule written by `WriteAsCFG` for an edge, hg_io.cc:340-374. -/
def writtenRule (cats : Nat → Int) (head : Nat) (tails : List Nat) (r : Rule) : Rule :=
  let e := newTarget (tnCFG tails.length r.e) r.f
  ⟨cats head, newSource cats tails r.e, e, computeArity e⟩

end Cdec.Dec
