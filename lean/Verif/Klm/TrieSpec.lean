import Verif.Klm.Trie
/-!
# What the trie of a language model is for

Independent of the program, apart from the type of a record.
-/
namespace Cdec.Klm.LM

variable {K : Type} [AddCommGroup K] [DecidableEq K]

/-- A line of an ARPA file as a record; a zero back-off is read as "no extension" (read_arpa.cc:111-143). -/
def Spec.record (x : List Word × K × K) : Rec K := ⟨x.1, x.2.1, x.2.2, decide (x.2.2 ≠ 0)⟩

/-- A unigram as read. -/
def Spec.unigram (a : Spec.Arpa K) (w : Word) : Wt K := ⟨(a.uni w).1, (a.uni w).2, decide ((a.uni w).2 ≠ 0)⟩

/-- `f` holds the sections of the file `a`, in increasing order of n-grams (newest word first), and the contexts of the n-grams, in increasing order and each once. -/
structure Spec.SortedFiles (a : Spec.Arpa K) (f : Files K) : Prop where
  full : ∀ n, 2 ≤ n → n ≤ a.order → (f.full n).Perm ((a.sect n).map Spec.record)
  order : ∀ n, 2 ≤ n → n ≤ a.order → (f.full n).Pairwise fun r r' => r.g < r'.g
  ctxOrder : ∀ n, 1 ≤ n → n < a.order → (f.ctx n).Pairwise (· < ·)
  ctx : ∀ n, 1 ≤ n → n < a.order → ∀ c, c ∈ f.ctx n ↔ ∃ g ∈ a.sect (n + 1), g.1.tail = c

/-- The words of the file are among the first `vocab`. -/
def Spec.Arpa.Below (a : Spec.Arpa K) (vocab : Nat) : Prop := ∀ n, 2 ≤ n → n ≤ a.order → ∀ g ∈ a.sect n, ∀ w ∈ g.1, w < vocab

/-- A sorting of messages. -/
def Spec.Sorts (srt : List Message → List Message) : Prop := ∀ l, (srt l).Perm l ∧ (srt l).Pairwise fun m m' => m.1 ≤ m'.1

end Cdec.Klm.LM
