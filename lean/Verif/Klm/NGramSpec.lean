import Mathlib.Algebra.Group.Defs
import Mathlib.Algebra.BigOperators.Group.List.Basic
/-!
# What a back-off n-gram language model means

Independent of the data structures.  An n-gram is written with its NEWEST word
first: `[w, h₁, h₂]` is the trigram whose last word is `w`, preceded by `h₁`,
preceded by `h₂`.  A history is written the same way, most recent word first.
-/

namespace Cdec.Klm.LM

/-- Word identifiers of the language model. -/
abbrev Word := Nat

namespace Spec

/-- The back-off recursion of the ARPA format: the probability of `w` after the
history `h` is the listed log probability of the n-gram `w :: h` if there is one,
and otherwise the back-off weight of `h` plus the probability of `w` after `h`
without its oldest word.  `prob` lists log probabilities, `backoff` gives the
back-off weight (`0` for an unlisted history).  A word that is not even listed as a
unigram scores `0`; the theorems only speak of models where all words are listed. -/
def score {K : Type} [AddCommGroup K] (prob : List Word → Option K)
    (backoff : List Word → K) (w : Word) (h : List Word) : K :=
  match prob (w :: h) with
  | some p => p
  | none =>
    match h with
    | [] => 0
    | a :: t => backoff (a :: t) + score prob backoff w (a :: t).dropLast
termination_by h.length

/-- The log probability of a string (newest word first) after the history `v`: the sum
over its words of the probability of the word after everything before it. -/
def stringScore {K : Type} [AddCommGroup K] (prob : List Word → Option K)
    (backoff : List Word → K) : List Word → List Word → K
  | [], _ => 0
  | w :: f, v => score prob backoff w (f ++ v) + stringScore prob backoff f v

/-- The log probability of the sentence `ws` (in reading order) after `<s>`. -/
def sentenceScore {K : Type} [AddCommGroup K] (prob : List Word → Option K)
    (backoff : List Word → K) (bos : Word) (ws : List Word) : K :=
  stringScore prob backoff ws.reverse [bos]

/-- An ARPA file: the listed n-grams (newest word first) with log probability and
back-off weight. -/
structure Arpa (K : Type) where
  order : Nat
  /-- the unigram section -/
  uni : Word → K × K
  /-- section `n` for `n ≥ 2`: the n-grams of order `n`, in file order -/
  sect : Nat → List (List Word × K × K)

/-- What an ARPA file lists for an n-gram. -/
def Arpa.look {K : Type} (a : Arpa K) : List Word → Option (K × K)
  | [] => none
  | [w] => some (a.uni w)
  | ng => if ng.length ≤ a.order then (a.sect ng.length).lookup ng else none

/-- The file has at least bigrams, section `n` lists n-grams of `n` words, and none twice. -/
structure Arpa.Regular {K : Type} (a : Arpa K) : Prop where
  two : 2 ≤ a.order
  length : ∀ n, 2 ≤ n → n ≤ a.order → ∀ g ∈ a.sect n, g.1.length = n
  once : ∀ n, 2 ≤ n → n ≤ a.order → ((a.sect n).map (·.1)).Nodup

/-- Listed log probability. -/
def Arpa.prob {K : Type} (a : Arpa K) (ng : List Word) : Option K := (a.look ng).map (·.1)

/-- Listed back-off weight, `0` when the n-gram is not listed or has the highest order
(no weight is listed there). -/
def Arpa.backoff {K : Type} [AddCommGroup K] (a : Arpa K) (ng : List Word) : K :=
  if ng.length < a.order then ((a.look ng).map (·.2)).getD 0 else 0

/-- The probability an ARPA file gives to `w` after the history `h`. -/
def Arpa.score {K : Type} [AddCommGroup K] (a : Arpa K) (w : Word) (h : List Word) : K :=
  Spec.score a.prob a.backoff w h

/-- The probability an ARPA file gives to a whole sentence after `<s>`. -/
def Arpa.sentence {K : Type} [AddCommGroup K] (a : Arpa K) (bos : Word) (ws : List Word) : K :=
  Spec.sentenceScore a.prob a.backoff bos ws

end Spec
end Cdec.Klm.LM
