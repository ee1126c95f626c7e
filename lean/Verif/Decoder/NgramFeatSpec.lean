import Verif.Decoder.NgramFeat
import Mathlib.Data.List.Perm.Basic
/-!
# What the n-gram features should be

Independent of how they are computed.
-/
namespace Cdec.NgramFeat

/-- The name under which a word is counted: without a cluster file the word itself, otherwise its cluster, and the unknown word for words that the file does not list. -/
def clusterOf (c : Cfg) (w : Nat) : Nat :=
  match c.clusters with
  | [] => w
  | cs => (cs[w]?).getD c.unk

theorem cluster_eq (c : Cfg) (w : Nat) : c.cluster w = clusterOf c w := by
  unfold Cfg.cluster clusterOf
  cases h : c.clusters with
  | nil => rfl
  | cons x xs =>
    have e : (x :: xs).length ≠ 0 := by simp
    rw [if_neg e, List.getD_eq_getElem?_getD]
    show _ = ((x :: xs)[w]?).getD c.unk
    by_cases hw : w ≥ (x :: xs).length
    · rw [if_pos hw, List.getElem?_eq_none hw]; rfl
    · rw [if_neg hw]

/-- The words a target side produces, given those of its antecedents; words are replaced by their clusters. -/
def expand (c : Cfg) (ys : List (List Nat)) : List Sym → List Nat
  | [] => []
  | .word w :: t => clusterOf c w :: expand c ys t
  | .nt i :: t => (ys[i]?).getD [] ++ expand c ys t

mutual
/-- The string a derivation produces. -/
def Deriv.yield (c : Cfg) : Deriv → List Nat
  | .node e kids => expand c (Deriv.yields c kids) e
def Deriv.yields (c : Cfg) : List Deriv → List (List Nat)
  | [] => []
  | d :: t => d.yield c :: Deriv.yields c t
end

/-- The numbers of the antecedents in a target side. -/
def idxs : List Sym → List Nat
  | [] => []
  | .nt i :: t => i :: idxs t
  | .word _ :: t => idxs t

mutual
/-- Every rule uses each of its antecedents exactly once. -/
def Deriv.Proper : Deriv → Prop
  | .node e kids => (idxs e).Perm (List.range kids.length) ∧ Deriv.Propers kids
def Deriv.Propers : List Deriv → Prop
  | [] => True
  | d :: t => d.Proper ∧ Deriv.Propers t
end

/-- Some n-gram of at most `order` words that ends with the word at position `i` of the string has the
feature id `f`. -/
def EndsAt (c : Cfg) (s : List Nat) (i f : Nat) : Prop :=
  ∃ n, 1 ≤ n ∧ n ≤ c.order ∧ n ≤ i + 1 ∧ c.fd (c.name ((s.drop (i + 1 - n)).take n)) = f

/-- The value of feature `f` for the string `s` when the first `skip` words are only context: the number of
positions at which one of its n-grams ends. -/
def IsCount (c : Cfg) (s : List Nat) (skip f : Nat) (v : Int) : Prop :=
  ∃ is : List Nat, is.Nodup ∧ (∀ i, i ∈ is ↔ skip ≤ i ∧ i < s.length ∧ EndsAt c s i f) ∧ v = is.length

end Cdec.NgramFeat
