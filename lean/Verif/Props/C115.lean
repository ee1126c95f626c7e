import Verif.Mteval.SentenceScoresLemmas
import Verif.Props.C37
import Verif.Props.C38
/-!
# C115: alignment, sentence, word and translation error rates of a sentence are those of their definitions
-/
namespace Cdec.Scores

open Cdec.Edit

/-- AER, counts: for all alignments, given as text with links in any order and with repetitions, the score counts the
common links, the predicted links and the links of the reference. -/
theorem C115_aer_counts (ps qs : List (ℕ × ℕ)) :
    scoreAer [linksText ps] (linksText qs) =
      some (.aer (ps.toFinset ∩ qs.toFinset).card qs.toFinset.card ps.toFinset.card) := by
  obtain ⟨g, g1, g2, g3⟩ := read_grid ps
  obtain ⟨q, q1, q2, q3⟩ := read_grid qs
  simp only [scoreAer, g1, q1, Option.bind_eq_bind, Option.bind_some]
  rw [refLoop_eq g q g2 q2, hypLoop_eq q q2]
  simp only [Option.bind_some]
  rw [hits_card g q ps qs g3 q3, linkList_card g ps g3, linkList_card q qs q3]

/-- AER, value: for counts of a sentence or of a corpus, one minus the F-measure, which is 1 - 2m/(p + r). Missing: no
predicted links and none in the reference, see `C115_empty_fails`. -/
theorem C115_aer_partial (m p r : ℤ) (h0 : 0 ≤ m) (hp : m ≤ p) (hr : m ≤ r) (hpos : 0 < p + r) :
    computeAer m p r = 1 - 2 * m / (p + r) ∧ 0 ≤ computeAer m p r ∧ computeAer m p r ≤ 1 ∧
      (computeAer m p r = 0 ↔ m = p ∧ m = r) := by
  have hs : (0 : ℚ) < p + r := by exact_mod_cast hpos
  have key : computeAer m p r = 1 - 2 * m / (p + r) := by
    unfold computeAer
    rcases eq_or_lt_of_le h0 with hm | hm
    · subst hm
      have : ∀ x y : ℤ, ((fdiv ((0 : ℤ) : ℚ) x).bind fun prec => (fdiv ((0 : ℤ) : ℚ) y).bind fun rec =>
          fdiv (2 * prec * rec) (rec + prec)) = none := by
        intro x y
        unfold fdiv
        by_cases hx : (x : ℚ) = 0 <;> by_cases hy : (y : ℚ) = 0 <;> simp [hx, hy]
      simp only [this]
      simp
    · have h1 : (0 : ℚ) < m := by exact_mod_cast hm
      have h2 : (0 : ℚ) < p := by exact_mod_cast lt_of_lt_of_le hm hp
      have h3 : (0 : ℚ) < r := by exact_mod_cast lt_of_lt_of_le hm hr
      have h4 : (m : ℚ) / r + m / p ≠ 0 := by positivity
      simp only [fdiv, if_neg h2.ne', if_neg h3.ne', Option.bind_some, if_neg h4]
      congr 1
      field_simp
      try ring
  have q0 : (0 : ℚ) ≤ m := by exact_mod_cast h0
  have qp : (m : ℚ) ≤ p := by exact_mod_cast hp
  have qr : (m : ℚ) ≤ r := by exact_mod_cast hr
  have e : (1 : ℚ) - 2 * m / (p + r) = ((p - m) + (r - m)) / (p + r) := by
    field_simp; ring
  refine ⟨key, ?_, ?_, ?_⟩
  · rw [key, e]; exact div_nonneg (by linarith) hs.le
  · rw [key]
    have : (0 : ℚ) ≤ 2 * m / (p + r) := by positivity
    linarith
  · rw [key, e, div_eq_zero_iff]
    constructor
    · rintro (h | h)
      · have h1 : (m : ℚ) = p := by linarith
        have h2 : (m : ℚ) = r := by linarith
        exact ⟨by exact_mod_cast h1, by exact_mod_cast h2⟩
      · exact absurd h hs.ne'
    · rintro ⟨rfl, rfl⟩; left; ring

/-- AER of a sentence: zero exactly for the links of the reference. -/
theorem C115_aer_zero_partial (ps qs : List (ℕ × ℕ)) (h : ps ≠ [] ∨ qs ≠ []) :
    ∃ m p r, scoreAer [linksText ps] (linksText qs) = some (.aer m p r) ∧
      computeAer m p r = 1 - 2 * ((ps.toFinset ∩ qs.toFinset).card : ℚ) / (qs.toFinset.card + ps.toFinset.card) ∧
      (computeAer m p r = 0 ↔ ∀ l, l ∈ ps ↔ l ∈ qs) := by
  have h1 : (ps.toFinset ∩ qs.toFinset).card ≤ qs.toFinset.card := Finset.card_le_card Finset.inter_subset_right
  have h2 : (ps.toFinset ∩ qs.toFinset).card ≤ ps.toFinset.card := Finset.card_le_card Finset.inter_subset_left
  have h3 : 0 < qs.toFinset.card + ps.toFinset.card := by
    rcases h with h | h
    · have : 0 < ps.toFinset.card := by
        rw [Finset.card_pos, List.toFinset_nonempty_iff]; exact h
      omega
    · have : 0 < qs.toFinset.card := by
        rw [Finset.card_pos, List.toFinset_nonempty_iff]; exact h
      omega
  obtain ⟨k1, _, _, k4⟩ := C115_aer_partial (ps.toFinset ∩ qs.toFinset).card qs.toFinset.card ps.toFinset.card
    (by omega) (by omega) (by omega) (by omega)
  refine ⟨_, _, _, C115_aer_counts ps qs, by rw [k1]; push_cast; rfl, ?_⟩
  rw [k4]
  constructor
  · rintro ⟨e1, e2⟩ l
    have e1 : (ps.toFinset ∩ qs.toFinset).card = qs.toFinset.card := by exact_mod_cast e1
    have e2 : (ps.toFinset ∩ qs.toFinset).card = ps.toFinset.card := by exact_mod_cast e2
    have f1 := Finset.eq_of_subset_of_card_le (Finset.inter_subset_right (s₁ := ps.toFinset)) e1.ge
    have f2 := Finset.eq_of_subset_of_card_le (Finset.inter_subset_left (s₂ := qs.toFinset)) e2.ge
    rw [← List.mem_toFinset, ← List.mem_toFinset, ← f2, f1]
  · intro h
    have : ps.toFinset = qs.toFinset := by ext l; simp [h l]
    rw [this, Finset.inter_self]
    exact ⟨rfl, rfl⟩

/-- A hypothesis without links for a reference without links is perfect, but has the worst score. -/
theorem C115_empty_fails : scoreAer [linksText []] (linksText []) = some (.aer 0 0 0) ∧ computeAer 0 0 0 = 1 :=
  ⟨by rw [C115_aer_counts]; rfl, by decide +kernel⟩

section
variable {α : Type} [DecidableEq α]

/-- SER: over a corpus of sentences with their references, the sums of the scores are the number of sentences that equal
one of their references and the number of sentences, and the value is their quotient. -/
theorem C115_ser_counts (corpus : List (List (List α) × List α)) (h : corpus ≠ []) :
    ∃ c t, (corpus.map fun x => scoreSer x.1 x.2).foldlM plus (.ser 0 0) = some (.ser c t) ∧
      c = ((corpus.filter fun x => decide (x.2 ∈ x.1)).length : ℤ) ∧ t = corpus.length ∧
      computeSer c t = some (((corpus.filter fun x => decide (x.2 ∈ x.1)).length : ℚ) / (corpus.length : ℚ)) := by
  have one : ∀ (refs : List (List α)) (hyp : List α) (a : ℤ),
      refs.foldl (fun c r => if r = hyp then 1 else c) a = if hyp ∈ refs then 1 else a := by
    intro refs hyp
    induction refs with
    | nil => intro a; simp
    | cons r refs ih =>
      intro a
      rw [List.foldl_cons, ih]
      by_cases hr : r = hyp
      · subst hr; simp
      · have : ¬ hyp = r := fun e => hr e.symm
        simp [hr, this]
  have aux : ∀ (corpus : List (List (List α) × List α)) (a b : ℤ),
      (corpus.map fun x => scoreSer x.1 x.2).foldlM plus (.ser a b) =
        some (.ser (a + ((corpus.filter fun x => decide (x.2 ∈ x.1)).length : ℤ)) (b + corpus.length)) := by
    intro corpus
    induction corpus with
    | nil => intro a b; simp
    | cons x corpus ih =>
      intro a b
      rw [List.map_cons, List.foldlM_cons, scoreSer, one]
      show List.foldlM plus (.ser (a + _) (b + 1)) _ = _
      rw [ih, List.filter_cons]
      by_cases hx : x.2 ∈ x.1
      · simp [hx]; constructor <;> ring
      · simp [hx]; ring
  refine ⟨_, _, aux corpus 0 0, by simp, by simp, ?_⟩
  have hl : (corpus.length : ℚ) ≠ 0 := by
    rw [Ne, Nat.cast_eq_zero, List.length_eq_zero_iff]; exact h
  simp only [computeSer, fdiv]
  rw [if_neg (by simpa using hl)]
  simp

/-- So "SER" is the rate of correct sentences, not of errors: a perfect corpus has the value 1. -/
theorem C115_ser_fails : ∃ c t, scoreSer [["a"]] ["a"] = .ser c t ∧ computeSer c t = some 1 :=
  ⟨1, 1, rfl, by decide +kernel⟩

/-- WER: the statistics are those of the first of the references with the smallest rate (edit distance by length), for
references that are not empty.  Missing: empty references, see `C115_wer_fails`. -/
theorem C115_wer_partial (refs : List (List α)) (hyp : List α) (hne : refs ≠ []) (hr : ∀ r ∈ refs, r ≠ []) :
    ∃ pre r post d, refs = pre ++ r :: post ∧ IsEditDistance hyp r d ∧ scoreWer refs hyp = .wer d r.length ∧
      computeWer d r.length = (d : ℚ) / r.length ∧
      (∀ x ∈ pre, ∀ e, IsEditDistance hyp x e → (d : ℚ) / r.length < (e : ℚ) / x.length) ∧
      (∀ x ∈ post, ∀ e, IsEditDistance hyp x e → (d : ℚ) / r.length ≤ (e : ℚ) / x.length) := by
  obtain ⟨r, h1, pre, post, e, h2, h3⟩ := bestLoop_ok (werRate hyp) refs hne
  have rate : ∀ x ∈ refs, ∀ d, IsEditDistance hyp x d → werRate hyp x = (d : ℚ) / x.length := by
    intro x hx d hd
    have hl : x.length ≠ 0 := by rw [Ne, List.length_eq_zero_iff]; exact hr x hx
    rw [werRate, if_neg hl, C37_distance_unique hyp x d _ hd (C37_levenshtein hyp x)]
  have hm : r ∈ refs := by rw [e]; simp
  have hd := C37_levenshtein hyp r
  refine ⟨pre, r, post, levenshtein hyp r, e, hd, by rw [scoreWer, h1], ?_, ?_, ?_⟩
  · have hl : 1 ≤ r.length := by
      have : r.length ≠ 0 := by rw [Ne, List.length_eq_zero_iff]; exact hr r hm
      omega
    have : (1 : ℚ) ≤ r.length := by exact_mod_cast hl
    unfold computeWer
    push_cast
    rw [if_neg (by linarith)]
  · intro x hx d hxd
    have := h2 x hx
    rwa [rate r hm _ hd, rate x (by rw [e]; simp [hx]) d hxd] at this
  · intro x hx d hxd
    have := h3 x hx
    rwa [rate r hm _ hd, rate x (by rw [e]; simp [hx]) d hxd] at this

/-- An empty reference is taken for a perfect one: its edits are counted although another reference is matched exactly. -/
theorem C115_wer_fails : scoreWer [["a"], []] ["a"] = .wer 0 1 ∧ scoreWer [[], ["a"]] ["a"] = .wer 1 0 ∧
    scoreWer [["b"], []] ["a"] = .wer 1 0 := by
  refine ⟨by decide +kernel, by decide +kernel, by decide +kernel⟩

/-- TER: the counts are those of the first of the references with the fewest edits, as found by the shift search of C38,
the length is the average length of the references, rounded down, and the score is the quotient unless this is zero.  Sentences of up to 1024 words. -/
theorem C115_ter (refs : List (List α)) (hyp : List α) (hne : refs ≠ []) (hn : hyp.length ≤ 1024)
    (hr : ∀ r ∈ refs, r.length ≤ 1025) :
    ∃ run : List α → Cdec.Ter.Result,
      (∀ r ∈ refs, ∀ rounds, levenshtein hyp r < rounds → Cdec.Ter.calculate r hyp rounds = .done (run r)) ∧
      ∃ pre r post t, refs = pre ++ r :: post ∧ scoreTer run refs = some (.ter t) ∧
        t.ins + t.del + t.sub + t.shift = (run r).score ∧ t.words = (refs.map List.length).sum / refs.length ∧
        t.ins + t.del + t.sub + t.shift ≤ levenshtein hyp r ∧
        (0 < (refs.map List.length).sum / refs.length → computeTer t = some (((run r).score : ℚ) / (((refs.map List.length).sum / refs.length : ℕ) : ℚ))) ∧
        (∀ x ∈ pre, (run r).score < (run x).score) ∧ (∀ x ∈ post, (run r).score ≤ (run x).score) := by
  have hex : ∀ r, ∃ res : Cdec.Ter.Result, r ∈ refs →
      (∀ rounds, levenshtein hyp r < rounds → Cdec.Ter.calculate r hyp rounds = .done res) ∧
      res.score = res.subs + res.ins + res.dels + res.shifts ∧ res.score ≤ levenshtein hyp r := by
    intro r
    by_cases h : r ∈ refs
    · obtain ⟨res, h1, h2, h3, _⟩ := Cdec.Ter.C38_search r hyp hn (hr r h)
      exact ⟨res, fun _ => ⟨h1, h2, h3⟩⟩
    · exact ⟨⟨0, 0, 0, 0, 0⟩, fun h' => absurd h' h⟩
  choose run hrun using hex
  refine ⟨run, fun r h => (hrun r h).1, ?_⟩
  obtain ⟨r, h1, pre, post, e, h2, h3⟩ := bestLoop_ok (fun r => ((run r).score : ℚ)) refs hne
  have hm : r ∈ refs := by rw [e]; simp
  obtain ⟨_, g2, g3⟩ := hrun r hm
  refine ⟨pre, r, post, ⟨(run r).ins, (run r).dels, (run r).subs, (run r).shifts, ((refs.map List.length).sum / refs.length : ℕ)⟩,
    e, ?_, by simp only; omega, by simp, by simp only; omega, ?_, ?_, ?_⟩
  · unfold scoreTer
    rw [if_neg (by rw [List.length_eq_zero_iff]; exact hne)]
    simp only [h1]
  · intro hpos
    have hq : (((refs.map List.length).sum / refs.length : ℕ) : ℚ) ≠ 0 := by exact_mod_cast (by omega)
    unfold computeTer fdiv
    rw [g2]
    simp only
    rw [if_neg (by exact_mod_cast hq)]
    congr 2
    push_cast
    ring
  · intro x hx; have := h2 x hx; simp only at this; exact_mod_cast this
  · intro x hx; have := h3 x hx; simp only at this; exact_mod_cast this

end

/-- Non-vacuity: an alignment with two of three links right. -/
example : scoreAer ["0-0 1-1 2-3".toList] "1-1 0-0 5-2".toList = some (.aer 2 3 3) ∧ computeAer 2 3 3 = 1 / 3 := by
  refine ⟨?_, by decide +kernel⟩
  have h1 : "0-0 1-1 2-3".toList = linksText [(0, 0), (1, 1), (2, 3)] := by decide +kernel
  have h2 : "1-1 0-0 5-2".toList = linksText [(1, 1), (0, 0), (5, 2)] := by decide +kernel
  rw [h1, h2, C115_aer_counts]
  decide +kernel

/-- Non-vacuity: the second reference is closer in proportion to its length. -/
example : scoreWer [["a", "b"], ["a", "c", "d", "e"]] ["a", "c", "d", "f"] = .wer 1 4 := by decide +kernel

end Cdec.Scores
