import Verif.Extract.RuleExtract
import Verif.Props.C43
/-!
# What an extracted rule should be

Independent of the way rules are computed: a rule is a pair of spans with gaps, none of which is crossed by an alignment link.
-/
namespace Cdec.Extract.RuleSpec
open Cdec.Extract Cdec.Extract.Spec

/-- One side of a rule: the span `[lo, hi)` with nonterminal `k` for the `k`-th gap (from 1) in place of its words. -/
def side (lo hi : Nat) (gaps : List (Nat × Nat)) : List Slot :=
  (List.range' lo (hi - lo)).filterMap fun p =>
    match (gaps.zipIdx 1).find? fun g => decide (g.1.1 ≤ p ∧ p < g.1.2) with
    | none => some (.word p)
    | some g => if g.1.1 = p then some (.nt g.2) else none

/-- Two spans share no word. -/
def Apart (a b : Nat × Nat) : Prop := a.2 ≤ b.1 ∨ b.2 ≤ a.1

/-- The gaps are non-empty, lie inside `[lo, hi)` and share no word. -/
def GapsIn (lo hi : Nat) (gaps : List (Nat × Nat)) : Prop :=
  lo ≤ hi ∧ (∀ g ∈ gaps, lo ≤ g.1 ∧ g.1 < g.2 ∧ g.2 ≤ hi) ∧ gaps.Pairwise Apart

/-- The target words in `[a, b)` may be added to or left out of a phrase: there are none, or loose phrases are allowed and the words
are unaligned. -/
def Free (E : XEnv) (a b : Nat) : Prop := ∀ p, a ≤ p → p < b → E.tight = false ∧ ∀ l ∈ E.links, l.2 ≠ p

/-- A target phrase: its span and its gaps, listed by number. -/
structure Choice where
  lo : Nat
  hi : Nat
  gaps : List (Nat × Nat)
deriving DecidableEq, Repr

/-- `ch` arises from the target span `[low, high)` with gaps `gaps` by adding free words to the span and to the gaps. -/
structure IsChoice (E : XEnv) (gaps : List (Nat × Nat)) (low high : Nat) (ch : Choice) : Prop where
  span : ch.lo ≤ low ∧ high ≤ ch.hi ∧ ch.hi ≤ E.tgt.length ∧ (ch.hi : Int) - ch.lo ≤ E.maxSpan
  free : Free E ch.lo low ∧ Free E high ch.hi
  length : ch.gaps.length = gaps.length
  gaps : ∀ (k : Nat) g g', gaps[k]? = some g → ch.gaps[k]? = some g' → g'.1 ≤ g.1 ∧ g.2 ≤ g'.2 ∧ Free E g'.1 g.1 ∧ Free E g.2 g'.2
  inside : GapsIn ch.lo ch.hi ch.gaps

/-- The phrase (words and nonterminals) occurs in the sentence with its chunks of words at the positions `ms`, given with their lengths, and at
least `minGap` words, but at least one, between chunks. -/
inductive Occurs (src : List Int) (minGap : Int) : List Int → List (Nat × Nat) → Prop
  | last (m : Nat) (w : List Int) : w ≠ [] → (∀ s ∈ w, 0 ≤ s) → (src.drop m).take w.length = w → Occurs src minGap w [(m, w.length)]
  | cons (m : Nat) (w : List Int) (x : Int) (rest : List Int) (m' c' : Nat) (ms : List (Nat × Nat)) :
      w ≠ [] → (∀ s ∈ w, 0 ≤ s) → (src.drop m).take w.length = w → x < 0 → m + w.length < m' → minGap ≤ (m' : Int) - (m + w.length : Nat) →
      Occurs src minGap rest ((m', c') :: ms) → Occurs src minGap (w ++ x :: rest) ((m, w.length) :: (m', c') :: ms)

/-- The word at source position `p` is aligned. -/
def SrcAligned (E : XEnv) (p : Nat) : Prop := ∃ l ∈ E.links, l.1 = p

/-- The word at target position `q` is aligned. -/
def TgtAligned (E : XEnv) (q : Nat) : Prop := ∃ l ∈ E.links, l.2 = q

/-- A source span and a target span that translate each other: no link leaves the pair, some link is inside; if tight phrases are required, the words
at the four edges are aligned. -/
structure Pair (E : XEnv) (s t : Nat × Nat) : Prop where
  consistent : Consistent E.links s.1 s.2 t.1 t.2
  linked : ∃ l ∈ E.links, s.1 ≤ l.1 ∧ l.1 < s.2
  tight : E.tight = true → SrcAligned E s.1 ∧ SrcAligned E (s.2 - 1) ∧ TgtAligned E t.1 ∧ TgtAligned E (t.2 - 1)

/-- `source → target` with alignment `al` is a rule for source span `s` with gaps `sg` and target span `t` with gaps `tg`. -/
structure IsRule (E : XEnv) (source target : List Int) (al : List (Nat × Nat)) (s t : Nat × Nat) (sg tg : List (Nat × Nat)) : Prop where
  source_gaps : GapsIn s.1 s.2 sg ∧ s.2 ≤ E.src.length ∧ sg.Pairwise fun a b => a.2 ≤ b.1
  target_gaps : GapsIn t.1 t.2 tg ∧ t.2 ≤ E.tgt.length
  length : sg.length = tg.length
  pair : Pair E s t
  gap_pairs : ∀ (k : Nat) g h, sg[k]? = some g → tg[k]? = some h → Pair E g h
  source_eq : source = (side s.1 s.2 sg).map (Slot.sym E.src)
  target_eq : target = (side t.1 t.2 tg).map (Slot.sym E.tgt)
  links : ∀ i j, (i, j) ∈ al ↔ ∃ l ∈ E.links, (side s.1 s.2 sg)[i]? = some (.word l.1) ∧ (side t.1 t.2 tg)[j]? = some (.word l.2)
  span : (s.2 : Int) - s.1 ≤ E.maxSpan ∧ (t.2 : Int) - t.1 ≤ E.maxSpan
  nonterminals : sg.length ≤ E.maxNT
  symbols : source.length ≤ E.maxSymbols
  min_gap : ∀ g ∈ sg, E.minGap ≤ (g.2 : Int) - g.1

/-- `a` is the nearest start of a leading nonterminal before position `m`: at the minimum distance; if tight phrases are required, the last aligned
word at that distance or more. -/
def NearestLow (E : XEnv) (m a : Nat) : Prop :=
  (a : Int) + E.minGap ≤ m ∧ if E.tight then SrcAligned E a ∧ ∀ p : Nat, a < p → (p : Int) + E.minGap ≤ m → ¬ SrcAligned E p else (a : Int) + E.minGap = m

/-- The same for the end of a trailing nonterminal after a phrase that ends at `e`. -/
def NearestHigh (E : XEnv) (e b : Nat) : Prop :=
  (e : Int) + E.minGap ≤ b ∧ b ≤ E.src.length ∧
    if E.tight then SrcAligned E (b - 1) ∧ ∀ q : Nat, q < b → (e : Int) + E.minGap ≤ q → ¬ SrcAligned E (q - 1) else (e : Int) + E.minGap = b

/-- The aligned-word options hold for the chunks `ms`: if required, some chunk has an aligned word and, if required, every chunk has. -/
def AlignedOK (E : XEnv) (ms : List (Nat × Nat)) : Prop :=
  E.alignedTerminal = true → (∃ m ∈ ms, ∃ p, m.1 ≤ p ∧ p < m.1 + m.2 ∧ SrcAligned E p) ∧
    (E.alignedChunks = true → ∀ m ∈ ms, ∃ p, m.1 ≤ p ∧ p < m.1 + m.2 ∧ SrcAligned E p)

/-- Where the first chunk starts and the last one ends. -/
def occStart (ms : List (Nat × Nat)) : Nat := (ms.headD (0, 0)).1

def occEnd (ms : List (Nat × Nat)) : Nat := (ms.getLastD (0, 0)).1 + (ms.getLastD (0, 0)).2

/-- The gaps between neighbouring chunks. -/
def occGaps (ms : List (Nat × Nat)) : List (Nat × Nat) := (ms.zip ms.tail).map fun x => (x.1.1 + x.1.2, x.2.1)

/-- The occurrence is no longer than a rule may be, and the phrase has no more nonterminals and symbols than a rule may have. -/
def Within (E : XEnv) (phrase : List Int) (ms : List (Nat × Nat)) : Prop :=
  (occEnd ms : Int) - occStart ms ≤ E.maxSpan ∧ ms.length ≤ E.maxNT + 1 ∧ phrase.length ≤ E.maxSymbols

/-- A phrase without the numbers of its nonterminals. -/
def shape (symbols : List Int) : List (Option Int) := symbols.map fun s => if s < 0 then none else some s

end Cdec.Extract.RuleSpec
