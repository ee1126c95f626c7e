import Verif.Mteval.MbrLemmas
import Verif.Mteval.Edit
/-!
# C120: minimum Bayes risk decoding of k-best lists

`IsMbr error l c` of `Mteval/MbrSpec.lean`: no translation of the list has a smaller expected error than `c`;
`score ref hyp` is the score of a hypothesis given a reference.
-/
namespace Cdec.Mbr

/-- For every list, every metric that is at most 1, and 1 for equal strings, and every length of the list, the printed
translation has the least expected error, in spite of the loops that are left early, if errors are those of the others
with the translation as their reference. -/
theorem C120_choice {metric : String} (hm : metric.toUpper ≠ "TER") {score : List Nat → List Nat → ℝ} (h1 : ∀ r h, score r h ≤ 1) (hs : ∀ x, score x x = 1)
    {l : List Item} (hl : l ≠ []) (hw : ∀ x ∈ l, 0 < x.weight) :
    ∃ c, best metric score l = some c ∧ IsMbr (fun c x => 1 - score c x) l c := by
  have hi : isLoss metric = false := by simp [isLoss, hm]
  have e : loss metric score = fun c x => 1 - score c x := by funext c x; simp [loss, hi]
  have := best_mbr (metric := metric) (score := score) hl hw (fun a b => by rw [e]; linarith [h1 a b]) (fun a => by rw [e]; simp [hs])
  rwa [e] at this

/-- The decision of minimum Bayes risk: the least expected error with the translation as hypothesis and the others
as references.  What is missing: the metric has to be symmetric, and BLEU, TER and WER are not. -/
theorem C120_mbr_partial {metric : String} (hm : metric.toUpper ≠ "TER") {score : List Nat → List Nat → ℝ} (h1 : ∀ r h, score r h ≤ 1) (hs : ∀ x, score x x = 1)
    (hsym : ∀ r h, score r h = score h r) {l : List Item} (hl : l ≠ []) (hw : ∀ x ∈ l, 0 < x.weight) :
    ∃ c, best metric score l = some c ∧ IsMbr (fun hyp ref => 1 - score ref hyp) l c := by
  have e : (fun hyp ref => 1 - score ref hyp) = fun c x => 1 - score c x := by funext c x; rw [hsym]
  rw [e]
  exact C120_choice hm h1 hs hl hw

/-- The same for TER. -/
theorem C120_ter_partial {metric : String} (hm : metric.toUpper = "TER") {score : List Nat → List Nat → ℝ} (h1 : ∀ r h, 0 ≤ score r h) (hs : ∀ x, score x x = 0)
    (hsym : ∀ r h, score r h = score h r) {l : List Item} (hl : l ≠ []) (hw : ∀ x ∈ l, 0 < x.weight) :
    ∃ c, best metric score l = some c ∧ IsMbr (fun hyp ref => score ref hyp) l c := by
  have hi : isLoss metric = true := by simp [isLoss, hm]
  have e : loss metric score = fun hyp ref => score ref hyp := by funext c x; simp [loss, hi, hsym]
  have := best_mbr (metric := metric) (score := score) hl hw (fun a b => by rw [e]; exact h1 b a) (fun a => by rw [e]; exact hs a)
  rwa [e] at this

/-- With `--output_list` every translation is printed with its expected error. -/
theorem C120_list {metric : String} (hm : metric.toUpper ≠ "TER") {score : List Nat → List Nat → ℝ} (hs : ∀ x, score x x = 1)
    {l : List Item} (hw : ∀ x ∈ l, 0 < x.weight) :
    scored metric score l = l.map fun x => (x.words, expectedError (fun c x => 1 - score c x) l x.words) := by
  have hi : isLoss metric = false := by simp [isLoss, hm]
  have e : loss metric score = fun c x => 1 - score c x := by funext c x; simp [loss, hi]
  have := scored_eq (metric := metric) (score := score) hw (fun a => by rw [e]; simp [hs])
  rwa [e] at this

/-- The hypotheses hold for the metric that says whether two strings are equal. -/
example : ("ibm_bleu" : String).toUpper ≠ "TER" ∧ (∀ r h : List Nat, (if r = h then (1 : ℝ) else 0) ≤ 1) ∧ (∀ x : List Nat, (if x = x then (1 : ℝ) else 0) = 1) ∧
    (∀ r h : List Nat, (if r = h then (1 : ℝ) else 0) = if h = r then 1 else 0) := by
  refine ⟨by decide +kernel, fun r h => by split <;> norm_num, fun x => by simp, fun r h => by simp [eq_comm]⟩

/-- The number of edits for each word of the reference. -/
noncomputable def edits (ref hyp : List Nat) : ℝ := (Edit.levenshtein hyp ref : ℝ) / ref.length

theorem edits_a : edits [1] [1, 2] = 1 := by
  have : Edit.levenshtein [1, 2] [1] = 1 := by decide +kernel
  simp [edits, this]

theorem edits_b : edits [1, 2] [1] = 1 / 2 := by
  have : Edit.levenshtein [1] [1, 2] = 1 := by decide +kernel
  simp [edits, this]

/-- The candidate should be the hypothesis and the others the references.  For a metric such as TER the program prints
another translation than that with the least expected error. -/
theorem C120_roles_fails : ∃ (l : List Item) (c : List Nat), (∀ x ∈ l, 0 < x.weight) ∧ best "TER" edits l = some c ∧
    ¬ IsMbr (fun hyp ref => edits ref hyp) l c := by
  have hi : isLoss "TER" = true := by decide +kernel
  have hself1 : edits [1] [1] = 0 := by
    have : Edit.levenshtein [1] [1] = 0 := by decide +kernel
    simp [edits, this]
  have hself2 : edits [1, 2] [1, 2] = 0 := by
    have : Edit.levenshtein [1, 2] [1, 2] = 0 := by decide +kernel
    simp [edits, this]
  refine ⟨[{ words := [1], weight := 3 }, { words := [1, 2], weight := 2 }], [1, 2], by simp, ?_, ?_⟩
  · unfold best
    simp [List.range_succ, mbrLoop, accumulate, weighted, loss, hi, edits_a, edits_b, joints]
    norm_num
  · rintro ⟨_, h⟩
    have := h { words := [1], weight := 3 } (by simp)
    simp [expectedError, posterior, edits_a, edits_b, hself1, hself2] at this
    norm_num at this

/-- The least expected error should be chosen for every error metric; `-m WER` chooses the largest. -/
theorem C120_error_metric_fails : ∃ (l : List Item) (c : List Nat), (∀ x ∈ l, 0 < x.weight) ∧ best "WER" edits l = some c ∧
    (∃ x ∈ l, x.words = c) ∧ ∀ x ∈ l, x.words ≠ c → expectedError (fun hyp ref => edits ref hyp) l x.words < expectedError (fun hyp ref => edits ref hyp) l c := by
  have hi : isLoss "WER" = false := by decide +kernel
  have lev : ∀ a b n, Edit.levenshtein a b = n → a.length = 2 → b.length = 2 → edits b a = (n : ℝ) / 2 := by
    intro a b n h _ h2
    unfold edits; rw [h, h2]; norm_num
  have h11 := lev [1, 2] [1, 2] 0 (by decide +kernel) rfl rfl
  have h22 := lev [1, 3] [1, 3] 0 (by decide +kernel) rfl rfl
  have h33 := lev [4, 5] [4, 5] 0 (by decide +kernel) rfl rfl
  have h12 := lev [1, 2] [1, 3] 1 (by decide +kernel) rfl rfl
  have h21 := lev [1, 3] [1, 2] 1 (by decide +kernel) rfl rfl
  have h13 := lev [1, 2] [4, 5] 2 (by decide +kernel) rfl rfl
  have h31 := lev [4, 5] [1, 2] 2 (by decide +kernel) rfl rfl
  have h23 := lev [1, 3] [4, 5] 2 (by decide +kernel) rfl rfl
  have h32 := lev [4, 5] [1, 3] 2 (by decide +kernel) rfl rfl
  refine ⟨[{ words := [1, 2], weight := 1 }, { words := [1, 3], weight := 1 }, { words := [4, 5], weight := 1 }], [4, 5], by simp, ?_, by simp, ?_⟩
  · unfold best
    simp [List.range_succ, mbrLoop, accumulate, weighted, loss, hi, joints, h12, h21, h13, h31, h23, h32]
    norm_num
  · intro x hx hne
    simp only [List.mem_cons, List.not_mem_nil, or_false] at hx
    rcases hx with rfl | rfl | rfl
    · simp [expectedError, posterior, h11, h12, h13, h21, h22, h23, h31, h32, h33]; norm_num
    · simp [expectedError, posterior, h11, h12, h13, h21, h22, h23, h31, h32, h33]; norm_num
    · exact absurd rfl hne

/-! ## The lists -/

/-- From a file with the k-best lists of any number of sentences, one after the other, the program gets exactly these
lists, if no list but the first begins with an empty translation. -/
theorem C120_lists_partial (scale offset : ℝ) {gs : List (Nat × List (List Nat × ℝ))} (hg : Grouped gs) (hf : ∀ g ∈ gs.tail, ∀ h ∈ g.2.head?, h.1 ≠ [])
    {fuel : Nat} (hn : gs.length < fuel) :
    (readLists [(scale, offset)] fuel (start [fileOf gs]) 0).map Prod.snd = gs.map (itemsOf scale offset) := by
  rw [readLists_start scale offset hg hf hn]
  cases gs with
  | nil => rfl
  | cons g gs =>
    simp only
    rw [List.map_snd_zip]
    simp [printed_length]

/-- If all lists but the first have at least two translations then they have their ids, too. -/
theorem C120_ids_partial (scale offset : ℝ) {gs : List (Nat × List (List Nat × ℝ))} (hg : Grouped gs) (hf : ∀ g ∈ gs.tail, ∀ h ∈ g.2.head?, h.1 ≠ [])
    (h2 : ∀ g ∈ gs.tail, 2 ≤ g.2.length) {fuel : Nat} (hn : gs.length < fuel) :
    (readLists [(scale, offset)] fuel (start [fileOf gs]) 0).map Prod.fst = gs.map Prod.fst := by
  rw [readLists_start scale offset hg hf hn]
  cases gs with
  | nil => rfl
  | cons g gs =>
    simp only
    rw [printed_eq gs g.1 h2, List.map_fst_zip]
    · rfl
    · simp

example : ∃ gs : List (Nat × List (List Nat × ℝ)), gs.length = 2 ∧ Grouped gs ∧ (∀ g ∈ gs.tail, ∀ h ∈ g.2.head?, h.1 ≠ []) ∧ ∀ g ∈ gs.tail, 2 ≤ g.2.length := by
  refine ⟨[(1, [([5], 0)]), (2, [([7], 0), ([], -1)])], rfl, ?_, ?_, ?_⟩ <;> simp [Grouped]

/-- An empty translation at the beginning of a list is lost. -/
theorem C120_empty_fails : ∃ gs : List (Nat × List (List Nat × ℝ)), Grouped gs ∧
    (readLists [(1, 0)] 3 (start [fileOf gs]) 0).map Prod.snd = [[{ words := [5], weight := 1 }], [{ words := [7], weight := 1 }]] ∧
    gs.map (itemsOf 1 0) = [[{ words := [5], weight := 1 }], [{ words := [], weight := 1 }, { words := [7], weight := 1 }]] := by
  refine ⟨[(1, [([5], 0)]), (2, [([], 0), ([7], 0)])], by simp [Grouped], ?_, ?_⟩
  · simp [readLists, readList, start, readFiles, readFile, itemOf, emptyItem, fileOf]
  · simp [itemsOf]

/-- A list with one translation is printed with the id of the sentence before it. -/
theorem C120_id_fails : ∃ gs : List (Nat × List (List Nat × ℝ)), Grouped gs ∧ gs.map Prod.fst = [1, 2] ∧
    (readLists [(1, 0)] 3 (start [fileOf gs]) 0).map Prod.fst = [1, 1] := by
  refine ⟨[(1, [([5], 0)]), (2, [([7], 0)])], by simp [Grouped], rfl, ?_⟩
  simp [readLists, readList, start, readFiles, readFile, itemOf, emptyItem, fileOf]

/-- With two files, a sentence that the second does not have gets an empty translation that is in neither. -/
theorem C120_missing_fails : ∃ gs hs : List (Nat × List (List Nat × ℝ)), Grouped gs ∧ Grouped hs ∧
    (∀ g ∈ gs ++ hs, ∀ h ∈ g.2, h.1 ≠ []) ∧
    ∃ g ∈ readLists [(1, 0), (1, 0)] 3 (start [fileOf gs, fileOf hs]) 0, ∃ x ∈ g.2, x.words = [] := by
  refine ⟨[(1, [([5], 0)]), (2, [([7], 0)])], [(1, [([6], 0)])], by simp [Grouped], by simp [Grouped], by simp, ?_⟩
  simp [readLists, readList, start, readFiles, readFile, itemOf, emptyItem, fileOf]

end Cdec.Mbr
