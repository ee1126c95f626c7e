import Mathlib.Algebra.Order.Field.Basic
import Mathlib.Algebra.BigOperators.Fin
import Mathlib.Algebra.Order.BigOperators.Group.Finset
import Mathlib.Algebra.Order.Floor.Ring
/-!
# The alias sampler

Models utils/alias_sampler.h:17-50 over an ordered field (exact arithmetic).  `cutoffs_` and `aliases_`
are functions on indices; `UINT_MAX` in `aliases_` is `none`.
-/
namespace Cdec
variable {K : Type} [Field K] [LinearOrder K]

/-- Local variables of `Init`: `cutoffs_`, `aliases_` and the stacks `s`, `g` (top first). -/
structure AliasSt (K : Type) where
  cut : Nat → K
  al : Nat → Option Nat
  s : List Nat
  g : List Nat

/-- alias_sampler.h:25-28: one iteration of the first loop. -/
def aliasPut (p : List K) (st : AliasSt K) (i : Nat) : AliasSt K :=
  let c := (p.length : K) * p.getD i 0
  let st := { st with cut := fun j => if j = i then c else st.cut j }
  if 1 ≤ c then { st with g := i :: st.g } else { st with s := i :: st.s }

/-- alias_sampler.h:20-28: state before the `while` loop. -/
def aliasInit (p : List K) : AliasSt K :=
  (List.range p.length).foldl (aliasPut p) ⟨fun _ => 0, fun _ => none, [], []⟩

/-- alias_sampler.h:29-39: one iteration of the `while` loop, for `g = k :: g'` and `s = j :: s'`. -/
def aliasStep (st : AliasSt K) (k j : Nat) (g' s' : List Nat) : AliasSt K :=
  let al := fun i => if i = j then some k else st.al i
  let ck := st.cut k - (1 - st.cut j)
  let cut := fun i => if i = k then ck else st.cut i
  if ck < 1 then ⟨cut, al, k :: s', g'⟩ else ⟨cut, al, s', k :: g'⟩

/-- alias_sampler.h:29-39: the loop.  It is defined by recursion on `2|g| + |s|`, so its acceptance is the
termination proof. -/
def aliasLoop (st : AliasSt K) : AliasSt K :=
  match hs : st.s, hg : st.g with
  | j :: s', k :: g' => aliasLoop (aliasStep st k j g' s')
  | _, _ => st
termination_by 2 * st.g.length + st.s.length
decreasing_by
  rw [hs, hg]
  unfold aliasStep
  simp only
  split <;> simp <;> omega

/-- `AliasSampler::Init`, alias_sampler.h:20-40. -/
def aliasBuild (p : List K) : AliasSt K := aliasLoop (aliasInit p)

/-- `Draw`, alias_sampler.h:41-45, for the two uniform numbers `u1` and `u2`; `none` is the value
`UINT_MAX` of an alias that was never assigned. -/
def aliasDraw [FloorRing K] (n : Nat) (st : AliasSt K) (u1 u2 : K) : Option Nat :=
  let k := ⌊u1 * n⌋.toNat
  if st.cut k < u2 then st.al k else some k

end Cdec
