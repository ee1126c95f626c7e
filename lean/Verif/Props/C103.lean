import Verif.Klm.TrieSortLemmas
import Verif.Props.C102
/-!
# C103: the size of the sort buffer does not matter

`sortFiles` makes the sorted files from the sections of an ARPA file, `b n` being the number of records of order `n` that fit into the buffer, and `buildTrie` makes the trie of them.
-/
namespace Cdec.Klm.LM

variable {K : Type} [AddCommGroup K] [DecidableEq K]

theorem section_nodup {a : Spec.Arpa K} (hr : a.Regular) {n : Nat} (h1 : 2 ≤ n) (h2 : n ≤ a.order) : (((a.sect n).map Spec.record).map (·.g)).Nodup := by
  rw [List.map_map]
  exact hr.once n h1 h2

theorem sorted_unique {a : Spec.Arpa K} {f f' : Files K} (h : Spec.SortedFiles a f) (h' : Spec.SortedFiles a f') {n : Nat} (h1 : 2 ≤ n) (h2 : n ≤ a.order) : f.full n = f'.full n :=
  ((h.full n h1 h2).trans (h'.full n h1 h2).symm).eq_of_pairwise (fun _ _ _ _ hxy hyx => absurd hxy (lt_asymm hyx)) (h.order n h1 h2) (h'.order n h1 h2)

theorem sorted_ctx_unique {a : Spec.Arpa K} {f f' : Files K} (h : Spec.SortedFiles a f) (h' : Spec.SortedFiles a f') {n : Nat} (h1 : 1 ≤ n) (h2 : n < a.order) : f.ctx n = f'.ctx n := by
  have hp : (f.ctx n).Perm (f'.ctx n) := (List.perm_ext_iff_of_nodup ((h.ctxOrder n h1 h2).imp fun h => ne_of_lt h) ((h'.ctxOrder n h1 h2).imp fun h => ne_of_lt h)).2 fun c => by rw [h.ctx n h1 h2, h'.ctx n h1 h2]
  exact hp.eq_of_pairwise (fun x y _ _ hxy hyx => absurd hxy (lt_asymm hyx)) (h.ctxOrder n h1 h2) (h'.ctxOrder n h1 h2)

/-- A file that lists no n-gram twice gives sorted files, with any buffer that holds a record of each order. -/
theorem C103_sorted_files (a : Spec.Arpa K) (hr : a.Regular) (st : Sorters K) (hs : Spec.SortersOk st) (b : Nat → Nat) (hb : ∀ n, 0 < b n) :
    ∃ f, sortFiles st a.order b (fun n => (a.sect n).map Spec.record) = some f ∧ Spec.SortedFiles a f := by
  have hex : ∀ n, ∃ o, 2 ≤ n → n ≤ a.order → convertToSorted st (b n) ((a.sect n).map Spec.record) = some o ∧ SortedTo ((a.sect n).map Spec.record) o := by
    intro n
    by_cases h : 2 ≤ n ∧ n ≤ a.order
    · obtain ⟨o, ho⟩ := convertToSorted_spec hs (hb n) (section_nodup hr h.1 h.2)
      exact ⟨o, fun _ _ => ho⟩
    · exact ⟨([], []), fun h1 h2 => absurd ⟨h1, h2⟩ h⟩
  choose g hg using hex
  obtain ⟨f, h1, h2⟩ := sortFiles_step st b (fun n => (a.sect n).map Spec.record) (a.order - 1) g (fun n h3 h4 => (hg n h3 (by omega)).1)
  have two := hr.two
  refine ⟨f, h1, fun n h3 h4 => ?_, fun n h3 h4 => ?_, fun n h3 h4 => ?_, fun n h3 h4 c => ?_⟩
  · rw [(h2 n h3 (by omega)).1]
    exact (hg n h3 h4).2.perm
  · rw [(h2 n h3 (by omega)).1]
    exact (hg n h3 h4).2.order
  · have := (h2 (n + 1) (by omega) (by omega)).2
    rw [Nat.add_sub_cancel] at this
    rw [this]
    exact (hg (n + 1) (by omega) (by omega)).2.ctxOrder
  · have := (h2 (n + 1) (by omega) (by omega)).2
    rw [Nat.add_sub_cancel] at this
    rw [this, (hg (n + 1) (by omega) (by omega)).2.ctx]
    constructor
    · rintro ⟨r, hr', e⟩
      obtain ⟨x, hx, rfl⟩ := List.mem_map.1 hr'
      exact ⟨x, hx, e⟩
    · rintro ⟨x, hx, e⟩
      exact ⟨Spec.record x, List.mem_map.2 ⟨x, hx, rfl⟩, e⟩

/-- The files do not depend on the size of the buffer, nor on the sorting algorithm. -/
theorem C103_buffer_independent (a : Spec.Arpa K) (hr : a.Regular) (st st' : Sorters K) (hs : Spec.SortersOk st) (hs' : Spec.SortersOk st') (b b' : Nat → Nat) (hb : ∀ n, 0 < b n) (hb' : ∀ n, 0 < b' n)
    (f f' : Files K) (hf : sortFiles st a.order b (fun n => (a.sect n).map Spec.record) = some f) (hf' : sortFiles st' a.order b' (fun n => (a.sect n).map Spec.record) = some f') :
    (∀ n, 2 ≤ n → n ≤ a.order → f.full n = f'.full n) ∧ ∀ n, 1 ≤ n → n < a.order → f.ctx n = f'.ctx n := by
  obtain ⟨g, e, h⟩ := C103_sorted_files a hr st hs b hb
  rw [hf] at e; cases e
  obtain ⟨g', e, h'⟩ := C103_sorted_files a hr st' hs' b' hb'
  rw [hf'] at e; cases e
  exact ⟨fun n h1 h2 => sorted_unique h h' h1 h2, fun n h1 h2 => sorted_ctx_unique h h' h1 h2⟩

/-- From the ARPA file to the answer: sorting with any buffer and building the trie gives the probabilities of the file. -/
theorem C103_from_arpa (a : Spec.Arpa K) (hr : a.Regular) (vocab : Nat) (hbelow : a.Below vocab) (st : Sorters K) (hst : Spec.SortersOk st) (b : Nat → Nat) (hb : ∀ n, 0 < b n)
    (srt : List Message → List Message) (hs : Spec.Sorts srt) :
    ((∃ t, (sortFiles st a.order b (fun n => (a.sect n).map Spec.record)).bind (buildTrie srt a.order vocab (Spec.unigram a)) = some t) ↔
      ∀ n, 3 ≤ n → n ≤ a.order → ∀ g ∈ a.sect n, ∃ v, (g.1.tail, v) ∈ a.sect (n - 1)) ∧
    ∀ t, (sortFiles st a.order b (fun n => (a.sect n).map Spec.record)).bind (buildTrie srt a.order vocab (Spec.unigram a)) = some t → Sizes t → ∀ bos ws w,
      (fullScore t.search (stateAfter t.search (beginSentence t.search bos) ws) w).1.prob = a.score w (ws.reverse ++ [bos]) := by
  obtain ⟨f, e, h⟩ := C103_sorted_files a hr st hst b hb
  rw [e]
  exact ⟨C102_accepts a hr vocab hbelow f h srt hs, fun t ht hz bos ws w => C102_full_score_sentence a hr vocab hbelow f h srt hs t ht hz bos ws w⟩

/-- A file that lists an n-gram twice is rejected when the two lines are in different batches: for every order `n`, lines `i` and `j` with the same words.  Missing: the rejection of two lines in the same
batch (see `C103_duplicate_fails`). -/
theorem C103_duplicate_partial (order : Nat) (sect : Nat → List (Rec K)) (st : Sorters K) (hs : Spec.SortersOk st) (b : Nat → Nat) (hb : ∀ n, 0 < b n) (n : Nat) (h1 : 2 ≤ n) (h2 : n ≤ order)
    (i j : Nat) (r r' : Rec K) (hi : (sect n)[i]? = some r) (hj : (sect n)[j]? = some r') (he : r.g = r'.g) (hij : i / b n ≠ j / b n) : sortFiles st order b sect = none :=
  sortFiles_none st order b sect h1 h2 (convertToSorted_dup hs (hb n) hi hj he hij)

/-! ## A model that meets the hypotheses -/

/-- Sorting records and contexts. -/
def sampleSorters : Sorters Int where
  recs := fun l => l.insertionSort fun r r' => r.g ≤ r'.g
  ctxs := fun l => l.insertionSort (· ≤ ·)

theorem sampleSorters_ok : Spec.SortersOk sampleSorters := by
  haveI : Std.Total fun r r' : Rec Int => r.g ≤ r'.g := ⟨fun _ _ => le_total _ _⟩
  haveI : IsTrans (Rec Int) fun r r' => r.g ≤ r'.g := ⟨fun _ _ _ => le_trans⟩
  exact ⟨fun l => ⟨List.perm_insertionSort _ l, List.pairwise_insertionSort _ l⟩, fun l => ⟨List.perm_insertionSort _ l, List.pairwise_insertionSort _ l⟩⟩

/-- Two records to a batch: two files of bigrams are merged. -/
example : (sortFiles sampleSorters 3 (fun _ => 2) (fun n => (sampleArpa.sect n).map Spec.record)).map (fun f => (f.full 2, f.full 3, f.ctx 1, f.ctx 2)) =
    some (sampleFiles.full 2, sampleFiles.full 3, sampleFiles.ctx 1, sampleFiles.ctx 2) := by
  obtain ⟨f, e, h⟩ := C103_sorted_files sampleArpa sampleArpa_regular sampleSorters sampleSorters_ok (fun _ => 2) (fun _ => by decide)
  have e' : sortFiles sampleSorters 3 (fun _ => 2) (fun n => (sampleArpa.sect n).map Spec.record) = some f := e
  rw [e', Option.map_some, sorted_unique h sampleFiles_sorted (n := 2) (by decide) (by decide), sorted_unique h sampleFiles_sorted (n := 3) (by decide) (by decide),
    sorted_ctx_unique h sampleFiles_sorted (n := 1) (by decide) (by decide), sorted_ctx_unique h sampleFiles_sorted (n := 2) (by decide) (by decide)]

/-- The bigram `1 2` twice, with different probabilities. -/
def twiceSect (n : Nat) : List (Rec Int) := if n = 2 then [⟨[2, 1], -1, 0, false⟩, ⟨[2, 1], -9, 0, false⟩] else []

/-- A file that lists an n-gram twice is not always rejected: with one record to a batch it is, but not when both fit into the buffer; then the trie is built, with two entries for the bigram. -/
theorem C103_duplicate_fails : sortFiles sampleSorters 2 (fun _ => 1) twiceSect = none ∧
    ((sortFiles sampleSorters 2 (fun _ => 2) twiceSect).bind (buildTrie sampleSort 2 3 (fun _ => ⟨-5, 0, false⟩))).map (fun t => (t.tab 2).map fun s => (s.word, s.prob)) = some [(1, -1), (1, -9)] := by
  constructor
  · exact C103_duplicate_partial 2 twiceSect sampleSorters sampleSorters_ok (fun _ => 1) (fun _ => by decide) 2 (le_refl _) (le_refl _) 0 1 ⟨[2, 1], -1, 0, false⟩ ⟨[2, 1], -9, 0, false⟩ rfl rfl rfl (by decide)
  · have e1 : batches 2 (twiceSect 2) = [twiceSect 2] := by
      rw [batches.eq_def, dif_neg (by decide), batches.eq_def, dif_pos (by decide)]
      rfl
    have e2 : convertToSorted sampleSorters 2 (twiceSect 2) = some (flush sampleSorters (twiceSect 2)) := by
      unfold convertToSorted
      rw [e1, List.map_singleton, mergeQueue]
    have e3 : sortFiles sampleSorters 2 (fun _ => 2) twiceSect = some ⟨fun i => if i = 2 then (flush sampleSorters (twiceSect 2)).1 else [], fun i => if i + 1 = 2 then (flush sampleSorters (twiceSect 2)).2 else []⟩ := by
      unfold sortFiles
      rw [show List.range' 2 (2 - 1) = [2] from rfl, List.foldl_cons, List.foldl_nil, e2]
    rw [e3, Option.bind_some]
    decide +kernel

/-- A trie from the ARPA file with the smallest buffer. -/
example : ∃ t, (sortFiles sampleSorters 3 (fun _ => 1) (fun n => (sampleArpa.sect n).map Spec.record)).bind (buildTrie sampleSort 3 5 (Spec.unigram sampleArpa)) = some t :=
  (C103_from_arpa sampleArpa sampleArpa_regular 5 sampleArpa_below sampleSorters sampleSorters_ok (fun _ => 1) (fun _ => by decide) sampleSort sampleSort_sorts).1.2 (by
    intro n h1 h2
    have : n = 3 := by simp only [sampleArpa] at h2; omega
    subst this
    intro g hg
    rcases List.mem_cons.1 hg with rfl | hg
    · exact ⟨(-1, -5), by decide⟩
    · rw [List.mem_singleton.1 hg]
      exact ⟨(-3, -7), by decide⟩)

end Cdec.Klm.LM
