import Verif.Klm.LmSum
import Verif.Klm.LmCorpus
/-!
# C88: the probabilities of an estimated model sum to one

Specification: `LmSpec.query` (how an ARPA file is read), `LmSpec.vocabulary`, and `AdjSpec.occurrences`.
-/
namespace Cdec.Klm.Builder
open AdjSpec LmSpec

/-- The words a model gives probability to: `<unk>`, `</s>` and the words of the corpus. -/
def LmSpec.vocabulary (corpus : List (List Nat)) : Set Nat := {w | w = kUNK ∨ w = kEOS ∨ 2 < w ∧ ∃ l ∈ corpus, w ∈ l}

/-- Discounts given on the command line. -/
def LmSpec.FallbackOk (fallback : Option Discount) : Prop := ∀ f, fallback = some f → ∃ param, parseFallback param = some f

theorem ite_none {α : Type} {c : Prop} [Decidable c] {x : Option α} {y : α} (h : (if c then none else x) = some y) :
    ¬ c ∧ x = some y := by
  by_cases hc : c
  · rw [if_pos hc] at h; simp at h
  · rw [if_neg hc] at h; exact ⟨hc, h⟩

theorem ok_of {a : Nat → Rat} (h0 : a 0 = 0) (h : ¬ (a 1 < 0 ∨ 1 < a 1 ∨ a 2 < 0 ∨ 2 < a 2 ∨ a 3 < 0 ∨ 3 < a 3)) : DiscountOk ⟨a⟩ := by
  obtain ⟨h1, h⟩ := not_or.1 h
  obtain ⟨h2, h⟩ := not_or.1 h
  obtain ⟨h3, h⟩ := not_or.1 h
  obtain ⟨h4, h⟩ := not_or.1 h
  obtain ⟨h5, h6⟩ := not_or.1 h
  rw [not_lt] at h1 h2 h3 h4 h5 h6
  refine ⟨h0, ?_, ?_⟩
  · intro j hj
    rcases j with _ | _ | _ | _ | j
    · exact le_of_eq h0.symm
    · exact h1
    · exact h3
    · exact h5
    · omega
  · intro j hj
    rcases j with _ | _ | _ | _ | j
    · exact le_of_eq (h0.trans rfl)
    · exact_mod_cast h2
    · exact_mod_cast h4
    · exact_mod_cast h6
    · omega

theorem parse_ok {param : List Rat} {f : Discount} (h : parseFallback param = some f) : DiscountOk f := by
  unfold parseFallback at h
  obtain ⟨_, h⟩ := ite_none h
  obtain ⟨h1, h⟩ := ite_none h
  rw [← Option.some.inj h]
  exact ok_of rfl h1

theorem closed_ok {recs : List AdjRec} {f : Discount} (h : closedForm recs = some f) : DiscountOk f := by
  unfold closedForm at h
  obtain ⟨_, h⟩ := ite_none h
  obtain ⟨h1, h⟩ := ite_none h
  rw [← Option.some.inj h]
  exact ok_of rfl h1

/-- The discounts lmplz works with take nothing from a count of 0 and at most the whole of any other count. -/
theorem C88_discounts (fallback : Option Discount) (hf : FallbackOk fallback) (recs : List AdjRec) (d : Discount)
    (h : calcDiscount fallback recs = some d) : d.amount 0 = 0 ∧ ∀ c, 0 ≤ d.get c ∧ 0 ≤ d.apply c := by
  have : DiscountOk d := by
    unfold calcDiscount at h
    split at h
    · rename_i d' hd
      cases h
      exact closed_ok hd
    · obtain ⟨param, hp⟩ := hf d h
      exact parse_ok hp
  exact ⟨this.zero, fun c => ⟨this.get_nonneg c, this.apply_nonneg c⟩⟩

/-- The discount of modified Kneser-Ney smoothing for n-grams of count `j` when `n j` n-grams have count `j` (Chen and
Goodman). -/
def chenGoodman (n : Nat → Nat) (j : Nat) : Rat := j - (j + 1) * ((n 1 : Rat) / (n 1 + 2 * n 2)) * n (j + 1) / n j

/-- The discounts are those of modified Kneser-Ney smoothing when these can be computed and are sensible: counts above
three have the discount of three.  Otherwise they are the fallback discounts, or estimation fails without those. -/
theorem C88_kneser_ney (fallback : Option Discount) (recs : List AdjRec) (n : Nat → Nat)
    (hn : ∀ j, n j = (recs.filter fun r => r.count = j).length) :
    ((∀ j, 1 ≤ j → j ≤ 3 → 0 < n j ∧ 0 ≤ chenGoodman n j ∧ chenGoodman n j ≤ j) →
      ∃ d, calcDiscount fallback recs = some d ∧ d.get 0 = 0 ∧ ∀ c, 0 < c → d.get c = chenGoodman n (min c 3)) ∧
    ((∃ j, 1 ≤ j ∧ j ≤ 3 ∧ (n j = 0 ∨ chenGoodman n j < 0 ∨ (j : Rat) < chenGoodman n j)) →
      calcDiscount fallback recs = fallback) := by
  have ho : ∀ j, orderStat recs j = n j := by
    intro j; rw [hn, orderStat, List.countP_eq_length_filter]
  have hcf : closedForm recs =
      if n 1 = 0 ∨ n 2 = 0 ∨ n 3 = 0 then none
      else if chenGoodman n 1 < 0 ∨ 1 < chenGoodman n 1 ∨ chenGoodman n 2 < 0 ∨ 2 < chenGoodman n 2 ∨
        chenGoodman n 3 < 0 ∨ 3 < chenGoodman n 3 then none
      else some ⟨fun j => if j = 0 then 0 else chenGoodman n j⟩ := by
    simp only [closedForm, ho, chenGoodman]
    norm_num
  constructor
  · intro h
    have h1 := h 1 (by omega) (by omega)
    have h2 := h 2 (by omega) (by omega)
    have h3 := h 3 (by omega) (by omega)
    refine ⟨⟨fun j => if j = 0 then 0 else chenGoodman n j⟩, ?_, ?_, ?_⟩
    · rw [calcDiscount, hcf, if_neg (by omega), if_neg]
      have a1 := h1.2.1; have a2 := h1.2.2; have b1 := h2.2.1; have b2 := h2.2.2; have c1 := h3.2.1; have c2 := h3.2.2
      push_cast at a2 b2 c2
      rintro (g | g | g | g | g | g)
      · exact absurd a1 (not_le.2 g)
      · exact absurd a2 (not_le.2 g)
      · exact absurd b1 (not_le.2 g)
      · exact absurd b2 (not_le.2 g)
      · exact absurd c1 (not_le.2 g)
      · exact absurd c2 (not_le.2 g)
    · rfl
    · intro c hc
      simp only [Discount.get]
      rw [if_neg (by omega)]
  · rintro ⟨j, g1, g2, g3⟩
    have hnone : closedForm recs = none := by
      rw [hcf]
      by_cases hz : n 1 = 0 ∨ n 2 = 0 ∨ n 3 = 0
      · rw [if_pos hz]
      · rw [if_neg hz, if_pos]
        obtain rfl | rfl | rfl : j = 1 ∨ j = 2 ∨ j = 3 := by omega
        all_goals push_cast at g3
        all_goals tauto
    rw [calcDiscount, hnone]

/-- `--discount_fallback a b c` gives the n-grams of count 1, 2 and above the discounts `a`, `b` and `c`; the last of
fewer numbers is repeated. -/
theorem C88_parse (a b c : Rat) (ha : 0 ≤ a ∧ a ≤ 1) (hb : 0 ≤ b ∧ b ≤ 2) (hc : 0 ≤ c ∧ c ≤ 3) :
    (∃ d, parseFallback [a, b, c] = some d ∧ d.get 1 = a ∧ d.get 2 = b ∧ d.get 3 = c) ∧
    (∃ d, parseFallback [a, b] = some d ∧ d.get 1 = a ∧ d.get 2 = b ∧ d.get 3 = b) ∧
    (∃ d, parseFallback [a] = some d ∧ d.get 1 = a ∧ d.get 2 = a ∧ d.get 3 = a) := by
  have h : ∀ {x y z : Rat}, 0 ≤ x ∧ x ≤ 1 → 0 ≤ y ∧ y ≤ 2 → 0 ≤ z ∧ z ≤ 3 →
      ¬ (x < 0 ∨ 1 < x ∨ y < 0 ∨ 2 < y ∨ z < 0 ∨ 3 < z) := by
    intro x y z hx hy hz
    simp only [not_or, not_lt]
    exact ⟨hx.1, hx.2, hy.1, hy.2, hz.1, hz.2⟩
  refine ⟨⟨⟨fun j => if j = 0 then 0 else [a, b, c].getD (if j - 1 < 3 then j - 1 else 2) 0⟩, ?_, rfl, rfl, rfl⟩,
    ⟨⟨fun j => if j = 0 then 0 else [a, b].getD (if j - 1 < 2 then j - 1 else 1) 0⟩, ?_, rfl, rfl, rfl⟩,
    ⟨⟨fun j => if j = 0 then 0 else [a].getD (if j - 1 < 1 then j - 1 else 0) 0⟩, ?_, rfl, rfl, rfl⟩⟩
  · simp only [parseFallback]
    rw [if_neg (by simp)]
    exact if_neg (h ha hb hc)
  · simp only [parseFallback]
    rw [if_neg (by simp)]
    exact if_neg (h ha hb ⟨hb.1, le_trans hb.2 (by norm_num)⟩)
  · simp only [parseFallback]
    rw [if_neg (by simp)]
    exact if_neg (h ha ⟨ha.1, le_trans ha.2 (by norm_num)⟩ ⟨ha.1, le_trans ha.2 (by norm_num)⟩)

theorem discounts_ok {fallback : Option Discount} (hf : FallbackOk fallback) {recs : List AdjRec} {d : Discount}
    (h : calcDiscount fallback recs = some d) : DiscountOk d := by
  obtain ⟨h0, h1⟩ := C88_discounts fallback hf recs d h
  refine ⟨h0, ?_, ?_⟩
  · intro j hj
    have := (h1 j).1
    unfold Discount.get at this
    rwa [min_eq_left hj] at this
  · intro j hj
    have := (h1 j).2
    unfold Discount.apply Discount.get at this
    rw [min_eq_left hj] at this
    linarith

theorem vocab_iff {order cap : Nat} {prune : Nat → Nat} {corpus : List (List Nat)} {counts : List (Gram × Nat)} (ho : 2 ≤ order)
    (hc : corpus ≠ []) (h : CountsTo order cap corpus counts) (w : Nat) :
    w ∈ vocabulary corpus ↔ w ≠ kBOS ∧ ∃ r ∈ adjustCounts order prune counts 0, r.words = [w] := by
  rw [mem_adj ho hc h (by omega)]
  unfold vocabulary
  rw [Set.mem_setOf_eq]
  have hocc : 0 < occurrences order corpus [w] ↔ (w = kEOS ∧ corpus ≠ []) ∨ 2 < w ∧ ∃ l ∈ corpus, w ∈ l := by
    rw [occ_iff (by simp; omega)]
    constructor
    · rintro ⟨l, hl, a, b, he, hle⟩
      have hle : order - 1 ≤ a.length := by simp at hle; omega
      have hm : w ∈ (l.filter fun x => ¬ x ≤ 2) ++ [kEOS] := by
        unfold CountSpec.padded at he
        rw [List.append_assoc, List.append_assoc] at he
        have := congrArg (List.drop (order - 1)) he
        rw [List.drop_left' (by simp), List.drop_append_of_le_length hle] at this
        rw [this]; simp
      rcases List.mem_append.1 hm with hm | hm
      · obtain ⟨h1, h2⟩ := List.mem_filter.1 hm
        simp only [decide_eq_true_eq] at h2
        exact Or.inr ⟨by omega, l, hl, h1⟩
      · exact Or.inl ⟨by simpa using hm, hc⟩
    · have key : ∀ l ∈ corpus, w ∈ (l.filter fun x => ¬ x ≤ 2) ++ [kEOS] →
          ∃ l ∈ corpus, ∃ a b, CountSpec.padded order l = a ++ [w] ++ b ∧ order ≤ a.length + [w].length := by
        intro l hl hm
        obtain ⟨s, t, hst⟩ := List.append_of_mem hm
        refine ⟨l, hl, List.replicate (order - 1) kBOS ++ s, t, ?_, by simp; omega⟩
        unfold CountSpec.padded
        rw [List.append_assoc, hst]; simp
      rintro (⟨rfl, _⟩ | ⟨h2, l, hl, hw⟩)
      · obtain ⟨l, hl⟩ := List.exists_mem_of_ne_nil _ hc
        exact key l hl (by simp)
      · exact key l hl (List.mem_append_left _ (List.mem_filter.2 ⟨hw, by simpa using h2⟩))
  rw [hocc]
  constructor
  · rintro (rfl | rfl | ⟨h2, hw⟩)
    · exact ⟨by decide, Or.inl ⟨rfl, Or.inl rfl⟩⟩
    · exact ⟨by decide, Or.inr ⟨rfl, Or.inl ⟨rfl, hc⟩, by simp⟩⟩
    · exact ⟨by unfold kBOS; omega, Or.inr ⟨rfl, Or.inr ⟨h2, hw⟩, by simp⟩⟩
  · rintro ⟨hb, ⟨_, h1 | h1⟩ | ⟨_, ⟨h1, _⟩ | h1, _⟩⟩
    · left; simpa using h1
    · exact absurd (by simpa using h1) hb
    · exact Or.inr (Or.inl h1)
    · exact Or.inr (Or.inr h1)

theorem marksRight_zero {order cap : Nat} {corpus : List (List Nat)} {counts : List (Gram × Nat)} (ho : 2 ≤ order)
    (hc : corpus ≠ []) (h : CountsTo order cap corpus counts) : MarksRight order (fun _ => 0) corpus counts := by
  intro i _ hi r hr
  rw [adj_unmarked ho hc h (by omega) rfl hr]
  simp

/-- Missing: with thresholds, the marks of the suffixes of the last n-gram are not always right (C87), and then the program
fails (`C88_pruned_fails`).  Where they are, pruned models sum to one as well: after every context of fewer than `order` words,
whether it is in the model or not, the probabilities of the vocabulary sum to one. -/
theorem C88_pruned_partial (order cap : Nat) (ho : 2 ≤ order) (interp : Bool) (prune : Nat → Nat) (hp0 : prune 0 = 0)
    (hmono : ∀ i, i + 1 < order → prune i ≤ prune (i + 1)) (fallback : Option Discount) (hf : FallbackOk fallback)
    (corpus : List (List Nat)) (hc : corpus ≠ [])
    (hmark : ∀ counts, CountsTo order cap corpus counts → MarksRight order prune corpus counts)
    (out : Nat → List OutRec) (h : LmplzTo order cap interp prune fallback corpus out)
    (V : List Nat) (hV : V.Nodup) (hm : ∀ w, w ∈ V ↔ w ∈ vocabulary corpus) (ctx : List Nat) (hl : ctx.length < order) :
    (V.map (query out ctx)).sum = 1 := by
  obtain ⟨counts, hcount, d, hd, he⟩ := h
  have hA := adjCons ho hc hcount hp0 hmono (hmark counts hcount)
  obtain ⟨cx, suf, hE, hout⟩ := estimates_out (by omega) hA he
  exact query_sum (by omega) hA hE (fun i hi => discounts_ok hf (hd i hi)) hout hV
    (fun w => (hm w).trans (vocab_iff ho hc hcount w)) ctx hl

/-- Without pruning: for every corpus, every block size, every way the sorting goes, with and without interpolated unigrams,
after every context of fewer than `order` words the probabilities of the vocabulary sum to one. -/
theorem C88_sums (order cap : Nat) (ho : 2 ≤ order) (interp : Bool) (fallback : Option Discount) (hf : FallbackOk fallback)
    (corpus : List (List Nat)) (hc : corpus ≠ []) (out : Nat → List OutRec)
    (h : LmplzTo order cap interp (fun _ => 0) fallback corpus out)
    (V : List Nat) (hV : V.Nodup) (hm : ∀ w, w ∈ V ↔ w ∈ vocabulary corpus) (ctx : List Nat) (hl : ctx.length < order) :
    (V.map (query out ctx)).sum = 1 :=
  C88_pruned_partial order cap ho interp (fun _ => 0) rfl (fun _ _ => le_refl _) fallback hf corpus hc
    (fun _ hcount => marksRight_zero ho hc hcount) out h V hV hm ctx hl

/-- Every probability in an unpruned model is between 0 and 1, but for that of `<s>`, which no context is followed by. -/
theorem C88_range (order cap : Nat) (ho : 2 ≤ order) (interp : Bool) (fallback : Option Discount) (hf : FallbackOk fallback)
    (corpus : List (List Nat)) (hc : corpus ≠ []) (out : Nat → List OutRec)
    (h : LmplzTo order cap interp (fun _ => 0) fallback corpus out) (i : Nat) (hi : i < order) (r : OutRec) (hr : r ∈ out i)
    (hb : r.words ≠ [kBOS]) : 0 ≤ r.prob ∧ r.prob ≤ 1 := by
  obtain ⟨counts, hcount, d, hd, he⟩ := h
  have hA := adjCons ho hc hcount rfl (fun _ _ => le_refl _) (marksRight_zero ho hc hcount)
  obtain ⟨cx, suf, hE, hout⟩ := estimates_out (by omega) hA he
  rw [hout i hi] at hr
  obtain ⟨v, hv, rfl⟩ := List.mem_map.1 hr
  obtain ⟨q, hq, hqm, hqw⟩ := (mem_suf hA hE hi v.words).1 (List.mem_map.2 ⟨v, hv, rfl⟩)
  have := prob_range (by omega) hA hE (fun i hi => discounts_ok hf (hd i hi)) i hi q hq hqm (by rw [hqw]; exact hb)
  rw [hqw] at this
  refine ⟨?_, min_le_left _ _⟩
  exact le_min zero_le_one this.1

/-- Which n-grams an unpruned model has: those that occur, with `<s>` at most in the first place, and `<unk>` and `<s>`; in
suffix order, none twice. -/
theorem C88_ngrams (order cap : Nat) (ho : 2 ≤ order) (interp : Bool) (fallback : Option Discount)
    (corpus : List (List Nat)) (hc : corpus ≠ []) (out : Nat → List OutRec)
    (h : LmplzTo order cap interp (fun _ => 0) fallback corpus out) (i : Nat) (hi : i < order) :
    ((out i).Pairwise fun a b => a.words.reverse < b.words.reverse) ∧
    ∀ w, (∃ r ∈ out i, r.words = w) ↔
      i = 0 ∧ (w = [kUNK] ∨ w = [kBOS]) ∨ w.length = i + 1 ∧ 0 < occurrences order corpus w ∧ kBOS ∉ w.tail := by
  obtain ⟨counts, hcount, d, hd, he⟩ := h
  have hA := adjCons ho hc hcount rfl (fun _ _ => le_refl _) (marksRight_zero ho hc hcount)
  obtain ⟨cx, suf, hE, hout⟩ := estimates_out (by omega) hA he
  rw [hout i hi]
  refine ⟨List.pairwise_map.2 ((suf_sorted hA hE hi).imp fun h => h), ?_⟩
  intro w
  rw [← mem_adj (prune := fun _ => 0) ho hc hcount hi w]
  have := mem_suf hA hE hi w
  rw [List.mem_map] at this
  constructor
  · rintro ⟨r, hr, rfl⟩
    obtain ⟨v, hv, rfl⟩ := List.mem_map.1 hr
    obtain ⟨q, hq, _, hqw⟩ := this.1 ⟨v, hv, rfl⟩
    exact ⟨q, hq, hqw⟩
  · rintro ⟨q, hq, hqw⟩
    obtain ⟨v, hv, hvw⟩ := this.2 ⟨q, hq, adj_unmarked ho hc hcount hi rfl hq, hqw⟩
    exact ⟨_, List.mem_map.2 ⟨v, hv, rfl⟩, hvw⟩

/-- The probability of an n-gram of two or more words: its adjusted count without the discount, over the sum of the adjusted
counts of the n-grams with its context, plus the back-off of the context times the probability after the context without its
first word. -/
theorem C88_formula (order cap : Nat) (ho : 2 ≤ order) (interp : Bool) (corpus : List (List Nat)) (hc : corpus ≠ [])
    (counts : List (Gram × Nat)) (hcount : CountsTo order cap corpus counts) (d : Nat → Discount)
    (hd : ∀ i < order, DiscountOk (d i)) (out : Nat → List OutRec)
    (h : EstimatesTo order interp (fun _ => 0) d (adjustCounts order (fun _ => 0) counts) out) (i : Nat) (hi : i < order)
    (x : Nat) (ctx : List Nat) (w c : Nat) (hr : ⟨x :: ctx ++ [w], c, false⟩ ∈ adjustCounts order (fun _ => 0) counts i) :
    query out (x :: ctx) w =
      (c - (d i).get c) / ((((adjustCounts order (fun _ => 0) counts i).filter fun r => r.words.dropLast = x :: ctx).map (·.count)).sum : Nat)
      + ((lookup out (x :: ctx)).map (·.backoff)).getD 1 * query out ctx w := by
  have hA := adjCons ho hc hcount rfl (fun _ _ => le_refl _) (marksRight_zero ho hc hcount)
  obtain ⟨cx, suf, hE, hout⟩ := estimates_out (by omega) hA h
  have hlen := hA.len i hi _ hr
  obtain ⟨k, rfl⟩ : ∃ k, i = k + 1 := ⟨ctx.length, by simpa using hlen.symm⟩
  have hk : ctx.length = k := by simpa using hlen
  have hw : w ≠ kBOS := by
    rintro rfl
    exact hA.noBos _ (by omega) hi _ hr (by simp only; rw [List.getLast?_concat])
  obtain ⟨q', hq', hqk', hqw'⟩ := hA.suffix k hi _ hr rfl
  obtain ⟨p, hp, hpk, hpw⟩ := hA.prefix' k hi _ hr rfl
  simp only [List.dropLast_concat] at hpw
  have e1 := query_eq (by omega) hA hE hd hout (h := x :: ctx) (w := w) (by simp [hk]; omega) (r := ⟨x :: ctx ++ [w], c, false⟩)
    (by simpa [hk] using hr) rfl rfl hw
  have e2 := query_eq (by omega) hA hE hd hout (h := ctx) (w := w) (by omega) (r := q') (by rw [hk]; exact hq') hqk'
    (by rw [hqw']; simp) hw
  have hctx : (⟨x :: ctx ++ [w], c, false⟩ : AdjRec).context = x :: ctx := by unfold AdjRec.context; exact List.dropLast_concat
  rw [e1, e2, prob_step hA hE _ hi (by omega) hr rfl, hctx, hqw']
  have hback : ((lookup out (x :: ctx)).map (·.backoff)).getD 1 = gammaOf (d (k + 1)) (cx (k + 1)) (x :: ctx) := by
    rw [← hpw, lookup_some hA hE hout (by omega) hp hpk]
    simp only [Option.map_some, Option.getD_some]
    unfold backoffOf
    have hic := hA.ctxOnly k hi _ hr
    rw [hctx] at hic
    rw [hpw, if_pos hic, findBackoff_csOf hA hE hi ⟨_, hr, hctx⟩]
  rw [hback]
  congr 1
  unfold Discount.apply denOf withCtx
  congr 2
  refine List.Perm.sum_nat (List.Perm.map _ ?_)
  exact ((hE.ctxS (k + 1) (by omega) hi).1).filter _

/-- Nothing but the discounts can stop an unpruned estimation: `JointOrder` finds the suffix of every n-gram, and the back-offs
are neither too few nor too many. -/
theorem C88_exists (order cap : Nat) (ho : 2 ≤ order) (interp : Bool) (fallback : Option Discount)
    (corpus : List (List Nat)) (hc : corpus ≠ [])
    (hd : ∀ counts, CountsTo order cap corpus counts → ∀ i < order,
      (calcDiscount fallback (adjustCounts order (fun _ => 0) counts i)).isSome) :
    ∃ out, LmplzTo order cap interp (fun _ => 0) fallback corpus out := by
  obtain ⟨counts, hcount⟩ := C85_exists order cap corpus
  have hA := adjCons ho hc hcount rfl (fun _ _ => le_refl _) (marksRight_zero ho hc hcount)
  have hd := hd counts hcount
  let d : Nat → Discount := fun i => (calcDiscount fallback (adjustCounts order (fun _ => 0) counts i)).getD ⟨fun _ => 0⟩
  obtain ⟨out, hout⟩ := estimates_exists (by omega) hA interp d
  refine ⟨out, counts, hcount, d, ?_, hout⟩
  intro i hi
  obtain ⟨d', hd'⟩ := Option.isSome_iff_exists.1 (hd i hi)
  simp [d, hd']

/-- The estimation always has a result if fallback discounts are given. -/
theorem C88_fallback (order cap : Nat) (ho : 2 ≤ order) (interp : Bool) (f : Discount) (corpus : List (List Nat)) (hc : corpus ≠ []) :
    ∃ out, LmplzTo order cap interp (fun _ => 0) (some f) corpus out := by
  refine C88_exists order cap ho interp (some f) corpus hc ?_
  intro counts _ i _
  unfold calcDiscount
  cases closedForm (adjustCounts order (fun _ => 0) counts i) <;> rfl

/-! ## With thresholds the program can fail -/

/-- Whether the loop fails within some turns. -/
def failsIn (N : Nat) (hashed : Nat → Bool) : Nat → JState → Bool
  | 0, _ => false
  | n + 1, s =>
    match jointStep N hashed s with
    | .next s' => failsIn N hashed n s'
    | .done _ => false
    | .fail => true

theorem failsIn_spec {N : Nat} {hashed : Nat → Bool} : ∀ (n : Nat) (s : JState), failsIn N hashed n s = true →
    ∀ m, jointRun N hashed m s = none := by
  intro n
  induction n with
  | zero => intro s h; simp [failsIn] at h
  | succ n ih =>
    intro s h m
    cases m with
    | zero => rfl
    | succ m =>
      rw [failsIn] at h
      rw [jointRun]
      cases hs : jointStep N hashed s with
      | next s' => rw [hs] at h; exact ih s' h m
      | done c => rw [hs] at h; simp at h
      | fail => rfl

theorem blockSorted_unique {α : Type} {key : α → List Nat} {l a b : List α} (ha : BlockSorted key l a) (hb : BlockSorted key l b)
    (hinj : ∀ x ∈ l, ∀ y ∈ l, key x = key y → x = y) : a = b := by
  refine List.Perm.eq_of_pairwise ?_ ha.2 hb.2 (ha.1.trans hb.1.symm)
  intro x y hx hy h1 h2
  exact hinj x (ha.1.mem_iff.1 hx) y (hb.1.mem_iff.1 hy) (le_antisymm h1 h2)

/-- Thresholds 1 for bigrams and trigrams. -/
def failPrune : Nat → Nat := fun i => if i = 0 then 0 else 1

/-- The discounts of `--discount_fallback 0.5 1 1.5`. -/
def failFallback : Option Discount := parseFallback [1 / 2, 1, 3 / 2]

def failDiscount : Discount := failFallback.getD ⟨fun _ => 0⟩

/-- The adjusted counts in context order. -/
def failCtx : Nat → List AdjRec
  | 0 => [⟨[0], 0, false⟩, ⟨[1], 0, false⟩, ⟨[2], 1, false⟩, ⟨[3], 1, false⟩, ⟨[4], 1, false⟩, ⟨[5], 1, false⟩]
  | 1 => [⟨[1, 3], 2, false⟩, ⟨[3, 4], 1, false⟩, ⟨[4, 5], 1, true⟩, ⟨[5, 2], 1, false⟩]
  | _ => [⟨[1, 3, 4], 2, false⟩, ⟨[3, 4, 5], 2, false⟩, ⟨[4, 5, 2], 2, false⟩]

/-- The n-grams in suffix order: `4 5` is missing. -/
def failSuf (interp : Bool) (g : Nat → List UnRec) : Nat → List UnRec
  | 0 => mergeRight interp failDiscount 0 (failCtx 0)
  | 1 => [⟨[5, 2], 1 / 2, 1 / 2⟩, ⟨[1, 3], 1 / 2, 1 / 2⟩, ⟨[3, 4], 1 / 2, 1 / 2⟩]
  | 2 => [⟨[4, 5, 2], 1 / 2, 1 / 2⟩, ⟨[1, 3, 4], 1 / 2, 1 / 2⟩, ⟨[3, 4, 5], 1 / 2, 1 / 2⟩]
  | n + 3 => g n

def failStart (interp : Bool) (g : Nat → List UnRec) (b : Nat → List (Gram × Rat)) : JState :=
  ⟨failSuf interp g, 3, 0, ⟨fun _ => 1 / 5, b, fun _ => []⟩⟩

theorem fail_run (interp : Bool) (g : Nat → List UnRec) (b : Nat → List (Gram × Rat)) :
    failsIn 3 (fun i => 0 < failPrune i) 20 (failStart interp g b) = true := by
  cases interp <;> rfl

theorem fail_adj : ∀ i < 3, (adjustCounts 3 failPrune pruneCounts i).Perm (failCtx i) ∧
    closedForm (adjustCounts 3 failPrune pruneCounts i) = none := by
  intro i hi
  have h : ∀ i : Fin 3, (adjustCounts 3 failPrune pruneCounts i).Perm (failCtx i) ∧
      (closedForm (adjustCounts 3 failPrune pruneCounts i)).isNone = true := by decide +kernel
  obtain ⟨h1, h2⟩ := h ⟨i, hi⟩
  exact ⟨h1, Option.isNone_iff_eq_none.1 h2⟩

theorem sorted_of {α : Type} {key : α → List Nat} {l : List α} (h : (l.map key).Pairwise (fun x y => x.length = y.length ∧ compareWords x y = true)) :
    l.Pairwise fun x y => key x ≤ key y := by
  rw [List.pairwise_map] at h
  exact h.imp fun h => le_of_lt ((compareWords_eq _ _ h.1).1 h.2)

theorem key_inj {α : Type} {key : α → List Nat} {l : List α} (h : (l.map key).Nodup) :
    ∀ x ∈ l, ∀ y ∈ l, key x = key y → x = y := by
  intro x hx y hy he
  exact List.inj_on_of_nodup_map h hx hy he

/-- The code disagrees with the claim: with thresholds 1 for bigrams and trigrams there is no model of the corpus of two sentences
`3 4 5`, for `JointOrder` finds the trigram `3 4 5` without the bigram `4 5`. -/
theorem C88_pruned_fails : ¬ ∃ (interp : Bool) (out : Nat → List OutRec),
    LmplzTo 3 10 interp failPrune failFallback [[3, 4, 5], [3, 4, 5]] out := by
  rintro ⟨interp, out, counts, hcount, d, hd, ctx, suf, fuel, h0, hs0, hc, hs, hrun⟩
  have := C85_independent 3 10 10 (by omega) _ _ _ hcount pruneCounts_ok
  subst this
  have hdi : ∀ i < 3, d i = failDiscount := by
    intro i hi
    have := hd i hi
    unfold calcDiscount at this
    rw [(fail_adj i hi).2] at this
    unfold failDiscount
    simp only at this
    rw [this]; rfl
  have hctx : ∀ i, 1 ≤ i → i < 3 → ctx i = failCtx i := by
    intro i h1 hi
    have hi' : i = 1 ∨ i = 2 := by omega
    refine blockSorted_unique (hc i h1 hi) ⟨(fail_adj i hi).1.symm, sorted_of ?_⟩ (key_inj ?_)
    · rcases hi' with rfl | rfl <;> decide
    · rcases hi' with rfl | rfl <;> decide
  have hctx0 : ctx 0 = failCtx 0 := by rw [h0]; decide
  have hsuf : suf = failSuf interp fun n => suf (n + 3) := by
    funext i
    match i with
    | 0 => rw [hs0, hctx0, hdi 0 (by omega)]; rfl
    | 1 =>
      have h := hs 1 (by omega) (by omega)
      rw [hctx 1 (by omega) (by omega), hdi 1 (by omega)] at h
      refine blockSorted_unique h ⟨?_, sorted_of ?_⟩ (key_inj ?_)
      · show (failSuf interp (fun _ => []) 1).Perm _
        cases interp <;> decide +kernel
      · show ((failSuf true (fun _ => []) 1).map _).Pairwise _
        decide +kernel
      · cases interp <;> decide +kernel
    | 2 =>
      have h := hs 2 (by omega) (by omega)
      rw [hctx 2 (by omega) (by omega), hdi 2 (by omega)] at h
      refine blockSorted_unique h ⟨?_, sorted_of ?_⟩ (key_inj ?_)
      · show (failSuf interp (fun _ => []) 2).Perm _
        cases interp <;> decide +kernel
      · show ((failSuf true (fun _ => []) 2).map _).Pairwise _
        decide +kernel
      · cases interp <;> decide +kernel
    | n + 3 => rfl
  have hu : (1 / (((adjustCounts 3 failPrune pruneCounts 0).length - 1 : Nat) : Rat)) = 1 / 5 := by decide +kernel
  rw [hsuf, hu] at hrun
  unfold interpolate at hrun
  have hlen : ((List.range 3).takeWhile fun i => decide (failSuf interp (fun n => suf (n + 3)) i ≠ [])).length = 3 := by
    cases interp <;> rfl
  rw [hlen] at hrun
  have := failsIn_spec _ _ (fail_run interp (fun n => suf (n + 3))
    (fun i => (addRight (d (i + 1)) (ctx (i + 1))).map fun s => (s.ctx, s.gamma))) fuel
  unfold failStart at this
  rw [this] at hrun
  simp at hrun

/-! ## The hypotheses are met -/

/-- A corpus with a model: two sentences, `3 4 5` and `4 3 6`, trigrams, blocks of ten records. -/
example : ∃ out, LmplzTo 3 10 true (fun _ => 0) failFallback [[3, 4, 5], [4, 3, 6]] out ∧
    ∀ ctx : List Nat, ctx.length < 3 → query out ctx kUNK + (query out ctx kEOS + (query out ctx 3 + (query out ctx 4
      + (query out ctx 5 + (query out ctx 6 + 0))))) = 1 := by
  have hs : failFallback = some failDiscount := by
    unfold failDiscount
    have : failFallback.isSome = true := by decide +kernel
    obtain ⟨f, hf⟩ := Option.isSome_iff_exists.1 this
    rw [hf]; rfl
  have hf : FallbackOk failFallback := fun f h => ⟨_, h⟩
  obtain ⟨out, h⟩ := C88_fallback 3 10 (by omega) true failDiscount [[3, 4, 5], [4, 3, 6]] (by simp)
  rw [← hs] at h
  refine ⟨out, h, fun ctx hl => ?_⟩
  have := C88_sums 3 10 (by omega) true failFallback hf [[3, 4, 5], [4, 3, 6]] (by simp) out h [kUNK, kEOS, 3, 4, 5, 6]
    (by decide) ?_ ctx hl
  · simpa using this
  · intro w
    unfold vocabulary
    simp only [List.mem_cons, List.not_mem_nil, or_false, Set.mem_setOf_eq, exists_eq_or_imp, exists_eq_left]
    omega

/-- The counts of the sentences `3 4`, `3 4` and `5 6`. -/
def markCounts : List (Gram × Nat) :=
  [([3, 4, 2], 2), ([5, 6, 2], 1), ([1, 1, 3], 2), ([1, 3, 4], 2), ([1, 1, 5], 1), ([1, 5, 6], 1)]

/-- Thresholds that drop some bigrams and not others, where the marks are right. -/
example : MarksRight 3 failPrune [[3, 4], [3, 4], [5, 6]] markCounts ∧
    ⟨[1, 5], 1, true⟩ ∈ adjustCounts 3 failPrune markCounts 1 ∧ ⟨[1, 3], 2, false⟩ ∈ adjustCounts 3 failPrune markCounts 1 := by
  refine ⟨?_, by decide, by decide⟩
  intro i h1 hi
  have : i = 1 := by omega
  subst this
  decide +kernel

/-- Discounts in closed form: n-grams with counts 1, 1, 1, 1, 2, 2, 3, 4. -/
example : (closedForm [⟨[3], 1, false⟩, ⟨[4], 1, false⟩, ⟨[5], 1, false⟩, ⟨[6], 1, false⟩, ⟨[7], 2, false⟩, ⟨[8], 2, false⟩,
    ⟨[9], 3, false⟩, ⟨[10], 4, false⟩]).map (fun d => (d.amount 1, d.amount 2, d.amount 3)) = some (1 / 2, 5 / 4, 1) := by
  decide +kernel

end Cdec.Klm.Builder
