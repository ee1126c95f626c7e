import Verif.Util.CorpusToolsLemmas
/-!
# C122: reading parallel corpora, whole and in shares
-/
namespace Cdec.Corpus

/-- With both sides, every reader gets exactly every `size`th sentence pair from its rank on, in order and side by side, and the vocabularies of the whole corpus. -/
theorem C122_pairs (div rank size : Nat) (hr : rank < size) (c : List (List Nat × List Nat)) (hc : ∀ p ∈ c, div ∉ p.1 ∧ div ∉ p.2) :
    ∃ st, readFromFile div true rank size (c.map fun p => p.1 ++ div :: p.2) = some st ∧
      (∀ q, st.src[q]? = (c[q * size + rank]?).map Prod.fst) ∧ (∀ q, st.trg[q]? = (c[q * size + rank]?).map Prod.snd) ∧
      (∀ w, w ∈ st.srcVocab ↔ ∃ p ∈ c, w ∈ p.1) ∧ ∀ w, w ∈ st.trgVocab ↔ ∃ p ∈ c, w ∈ p.2 := by
  obtain ⟨st, e, a, b, x, y⟩ := lines_pairs div rank size c 0 rank ⟨[], [], [], []⟩ hr (by simp [Nat.mod_eq_of_lt hr]) hc
  refine ⟨st, ?_, ?_, ?_, ?_, ?_⟩
  · rw [readFromFile, if_neg (by omega), if_neg (by omega)]; exact e
  · intro q; rw [a]; simp [every_getElem? (show 0 < size by omega)]
  · intro q; rw [b]; simp [every_getElem? (show 0 < size by omega)]
  · intro w; rw [x]; simp
  · intro w; rw [y]; simp

example : ∃ st, readFromFile 0 true 1 2 [[1, 0, 2], [3, 3, 0], [4, 0, 5], [6, 0, 7]] = some st ∧ st.src = [[3, 3], [6]] ∧ st.trg = [[], [7]] :=
  ⟨_, rfl, rfl, rfl⟩
example : ∃ st, readFromFile 0 true 1 2 [[1, 0, 2], [3, 3, 0], [4, 0, 5]] = some st ∧ (∀ q, st.src[q]? = ([([1], [2]), ([3, 3], []), ([4], [5])][q * 2 + 1]?).map Prod.fst) :=
  let ⟨st, h, a, _⟩ := C122_pairs 0 1 2 (by omega) [([1], [2]), ([3, 3], []), ([4], [5])] (by decide)
  ⟨st, h, a⟩

/-- With the source side only, the same. -/
theorem C122_source (div rank size : Nat) (hr : rank < size) (c : List (List Nat)) (hc : ∀ s ∈ c, div ∉ s) :
    ∃ st, readFromFile div false rank size c = some st ∧ (∀ q, st.src[q]? = c[q * size + rank]?) ∧ st.trg = [] ∧
      (∀ w, w ∈ st.srcVocab ↔ ∃ s ∈ c, w ∈ s) ∧ st.trgVocab = [] := by
  obtain ⟨st, e, a, b, x, y⟩ := lines_mono div rank size c 0 rank ⟨[], [], [], []⟩ hr (by simp [Nat.mod_eq_of_lt hr]) hc
  refine ⟨st, ?_, ?_, b, ?_, y⟩
  · rw [readFromFile, if_neg (by omega), if_neg (by omega)]; exact e
  · intro q; rw [a]; simp [every_getElem? (show 0 < size by omega)]
  · intro w; rw [x]; simp

example : ∃ st, readFromFile 0 false 0 2 [[1, 2], [3], [4]] = some st ∧ st.src = [[1, 2], [4]] := ⟨_, rfl, rfl⟩
example : ∃ st, readFromFile 0 false 0 2 [[1, 2], [3], [4]] = some st ∧ ∀ q, st.src[q]? = [[1, 2], [3], [4]][q * 2 + 0]? :=
  let ⟨st, h, a, _⟩ := C122_source 0 0 2 (by omega) [[1, 2], [3], [4]] (by decide)
  ⟨st, h, a⟩

/-- The shares are a partition: the `k`th pair is at one place of one reader, and at no other place of any reader. -/
theorem C122_partition (div size : Nat) (c : List (List Nat × List Nat)) (hc : ∀ p ∈ c, div ∉ p.1 ∧ div ∉ p.2) (k : Nat) (hs : 0 < size) :
    ∃ rank q, rank < size ∧ q * size + rank = k ∧
      (∃ st, readFromFile div true rank size (c.map fun p => p.1 ++ div :: p.2) = some st ∧ st.src[q]? = (c[k]?).map Prod.fst ∧ st.trg[q]? = (c[k]?).map Prod.snd) ∧
      ∀ rank' q', rank' < size → q' * size + rank' = k → rank' = rank ∧ q' = q := by
  have hlt := Nat.mod_lt k hs
  have hk : k / size * size + k % size = k := by rw [Nat.mul_comm]; exact Nat.div_add_mod k size
  obtain ⟨st, h, a, b, _⟩ := C122_pairs div (k % size) size hlt c hc
  refine ⟨k % size, k / size, hlt, hk, ⟨st, h, by rw [a, hk], by rw [b, hk]⟩, ?_⟩
  intro r q hr e
  have h1 : r = k % size := by rw [← e, Nat.mul_comm, Nat.mul_add_mod, Nat.mod_eq_of_lt hr]
  refine ⟨h1, ?_⟩
  rw [← e, Nat.mul_comm, Nat.mul_add_div hs, Nat.div_eq_of_lt hr]; omega

example : ∃ rank q, rank < 3 ∧ q * 3 + rank = 4 ∧ ∃ st, readFromFile 0 true rank 3 [[1, 0, 2], [3, 0], [4, 0, 5], [0], [6, 0, 7]] = some st ∧ st.src[q]? = some [6] :=
  let ⟨r, q, a, b, ⟨st, h, x, _⟩, _⟩ := C122_partition 0 3 [([1], [2]), ([3], []), ([4], [5]), ([], []), ([6], [7])] (by decide) 4 (by omega)
  ⟨r, q, a, b, st, h, x⟩

/-- A file is refused exactly if some line, skipped or not, has the wrong number of bars. -/
theorem C122_refuses (div : Nat) (both : Bool) (rank size : Nat) (hr : rank < size) (file : List (List Nat)) :
    readFromFile div both rank size file = none ↔ ∃ l ∈ file, l.count div ≠ if both then 1 else 0 := by
  rw [readFromFile, if_neg (by omega), if_neg (by omega)]
  have h := lines_some div both rank size file 0 ⟨[], [], [], []⟩
  rw [← not_iff_not]
  constructor
  · intro hn hex
    obtain ⟨l, hl, hne⟩ := hex
    exact hne (h.1 (Option.ne_none_iff_exists'.1 hn) l hl)
  · intro hn
    refine Option.ne_none_iff_exists'.2 (h.2 fun l hl => ?_)
    by_contra hne
    exact hn ⟨l, hl, hne⟩

example : readFromFile 0 true 0 2 [[1, 0, 2], [3, 0, 4, 0]] = none := (C122_refuses 0 true 0 2 (by omega) _).2 ⟨[3, 0, 4, 0], by decide, by decide⟩

/-- `ReadLine` splits a line at its first bar, and takes all of it for the source if there is none. -/
theorem C122_line (div : Nat) (s t : List Nat) (h : div ∉ s) : readLine div (s ++ div :: t) = (s, t) ∧ readLine div s = (s, []) :=
  ⟨readLine_pair div t s h, readLine_mono div s h⟩

example : readLine 0 [1, 2, 0, 3] = ([1, 2], [3]) := (C122_line 0 [1, 2] [3] (by decide)).1

/-- The two readers do not accept the same lines: one takes a second bar for a word of the target, and a line without a bar for a pair with an empty target; the other aborts. -/
theorem C122_agree_fails : ∃ (l m : List Nat) (div : Nat), readLine div l = ([1], [2, div, 3]) ∧ readFromFile div true 0 1 [l] = none ∧
    readLine div m = ([1], []) ∧ readFromFile div true 0 1 [m] = none :=
  ⟨[1, 0, 2, 0, 3], [1], 0, rfl, rfl, rfl, rfl⟩

end Cdec.Corpus
