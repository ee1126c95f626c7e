import Mathlib.Data.List.Basic
/-!
# What a chain of workers computes
-/
namespace Cdec.Klm.Chain

/-- A worker alone: its state after a list of blocks, and the blocks it passes on. -/
def alone {σ γ : Type} (f : σ → γ → σ × γ) (s : σ) : List γ → σ × List γ
  | [] => (s, [])
  | x :: xs => ((alone f (f s x).1 xs).1, (f s x).2 :: (alone f (f s x).1 xs).2)

/-- What worker `i + 1` is given when the workers run one after the other, each on the whole output of the one
before it. -/
def given {σ γ : Type} (f : Nat → σ → γ → σ × γ) (st : Nat → σ) (src : List γ) : Nat → List γ
  | 0 => src
  | i + 1 => (alone (f (i + 1)) (st (i + 1)) (given f st src i)).2

end Cdec.Klm.Chain
