/-!
# Specification: longest common prefix of two word sequences
-/
namespace Cdec.Extract.Spec

/-- Length of the longest common prefix. -/
def lcpLen : List Nat → List Nat → Nat
  | x :: xs, y :: ys => if x = y then lcpLen xs ys + 1 else 0
  | _, _ => 0

end Cdec.Extract.Spec
