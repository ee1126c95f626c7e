import Verif.Train.MiraSpec
import Mathlib.Tactic.Linarith
import Mathlib.Algebra.Order.BigOperators.Group.Finset
import Mathlib.Tactic.Ring
import Mathlib.Tactic.FieldSimp
/-!
# Lemmas about the passive-aggressive trainer
-/
namespace Cdec.Train.Mira
open Finset

/-! ## Inner products -/

theorem inner_eq {f w : Vec} {S : Finset Nat} (h : f.support ⊆ S) : inner f w = ∑ k ∈ S, f k * w k := by
  unfold inner
  apply Finset.sum_subset h
  intro k _ hk
  rw [Finsupp.notMem_support_iff.1 hk, zero_mul]

theorem dot_eq (f w : Vec) : dot f w = inner f w := rfl

theorem normSq_eq (f : Vec) : normSq f = inner f f := rfl

theorem inner_comm (f g : Vec) : inner f g = inner g f := by
  rw [inner_eq (S := f.support ∪ g.support) subset_union_left, inner_eq (f := g) (S := f.support ∪ g.support) subset_union_right]
  exact Finset.sum_congr rfl fun k _ => mul_comm _ _

theorem inner_add_right (f g h : Vec) : inner f (g + h) = inner f g + inner f h := by
  unfold inner
  rw [← Finset.sum_add_distrib]
  exact Finset.sum_congr rfl fun k _ => by rw [Finsupp.add_apply, mul_add]

theorem inner_sub_right (f g h : Vec) : inner f (g - h) = inner f g - inner f h := by
  unfold inner
  rw [← Finset.sum_sub_distrib]
  exact Finset.sum_congr rfl fun k _ => by rw [Finsupp.sub_apply, mul_sub]

theorem inner_smul_right (f g : Vec) (a : ℚ) : inner f (a • g) = a * inner f g := by
  unfold inner
  rw [Finset.mul_sum]
  exact Finset.sum_congr rfl fun k _ => by rw [Finsupp.smul_apply, smul_eq_mul]; ring

theorem inner_sub_left (f g h : Vec) : inner (f - g) h = inner f h - inner g h := by
  rw [inner_comm, inner_sub_right, inner_comm h f, inner_comm h g]

theorem inner_smul_left (f g : Vec) (a : ℚ) : inner (a • f) g = a * inner f g := by
  rw [inner_comm, inner_smul_right, inner_comm]

theorem inner_self_nonneg (f : Vec) : 0 ≤ inner f f := Finset.sum_nonneg fun k _ => mul_self_nonneg _

theorem eq_zero_of_inner_self {f : Vec} (h : inner f f = 0) : f = 0 := by
  have h1 := (Finset.sum_eq_zero_iff_of_nonneg (fun k _ => mul_self_nonneg (f k))).1 h
  ext k
  by_cases hk : k ∈ f.support
  · exact mul_self_eq_zero.1 (h1 k hk)
  · exact Finsupp.notMem_support_iff.1 hk

/-! ## The update -/

theorem approxEqual_iff {a b : ℚ} : approxEqual a b = true ↔ AsGood a b := by
  unfold approxEqual AsGood
  by_cases h : a = b
  · simp [h]
  · rw [if_neg h]
    by_cases hb : b = 0
    · subst hb
      have := abs_nonneg a
      simp only [if_true, h, sub_zero, abs_zero, false_or, Bool.false_eq_true, false_iff, not_lt]
      linarith
    · have hp : 0 < |b| := abs_pos.2 hb
      rw [if_neg hb, decide_eq_true_iff, div_lt_iff₀ hp]
      constructor
      · intro hh; right; linarith
      · rintro (hh | hh)
        · exact absurd hh h
        · linarith


/-- The step is optimal. -/
theorem step_optimal {C scale : ℚ} (hC : 0 ≤ C) (u : Vec) (good bad : Hyp) (hl : 0 < loss scale u good bad) (v : Vec) :
    objective C scale u good bad (u + stepSize C (loss scale u good bad) (good.features - bad.features) • (good.features - bad.features)) ≤
      objective C scale u good bad v := by
  generalize hd : good.features - bad.features = d
  have hloss : loss scale u good bad = scale * (good.metric - bad.metric) - inner d u := by
    rw [← hd, inner_sub_left]; unfold loss; rw [dot_eq, dot_eq]; ring
  have hviol : ∀ w, violation scale good bad w = max 0 (scale * (good.metric - bad.metric) - inner d w) := fun w => by
    unfold violation; rw [← hd, inner_sub_left]
  generalize scale * (good.metric - bad.metric) = m at *
  generalize hL : loss scale u good bad = l at *
  generalize hτ : stepSize C l d = τ
  have hv : v = u + (v - u) := by rw [add_sub_cancel]
  generalize hp : v - u = p at hv
  subst hv
  unfold objective
  rw [hviol, hviol, hp]
  have e1 : u + τ • d - u = τ • d := by rw [add_sub_cancel_left]
  rw [e1, inner_smul_left, inner_smul_right, inner_add_right, inner_smul_right, inner_add_right]
  have hτ : (if inner d d = 0 then C else if l / inner d d > C then C else l / inner d d) = τ := hτ
  have hD := inner_self_nonneg d
  have hq : 0 ≤ inner (p - τ • d) (p - τ • d) := inner_self_nonneg _
  rw [inner_sub_left, inner_sub_right, inner_sub_right, inner_smul_left, inner_smul_left, inner_smul_right, inner_smul_right, inner_comm p d] at hq
  generalize inner d d = D at *
  generalize inner d p = x at *
  generalize inner d u = y at *
  generalize inner p p = P at *
  have hm : m - y = l := hloss.symm
  have hvp : τ ≤ C → 0 ≤ τ → τ * (l - x) ≤ C * max 0 (m - (y + x)) := fun h1 h2 => by
    have e : m - (y + x) = l - x := by linarith
    rw [e]
    have a1 := le_max_left (0 : ℚ) (l - x)
    have a2 := le_max_right (0 : ℚ) (l - x)
    calc τ * (l - x) ≤ τ * max 0 (l - x) := mul_le_mul_of_nonneg_left a2 h2
      _ ≤ C * max 0 (l - x) := mul_le_mul_of_nonneg_right h1 a1
  have e2 : m - (y + τ * D) = l - τ * D := by linarith
  rw [e2]
  -- the two cases of the step
  by_cases hD0 : D = 0
  · have hτC : τ = C := by rw [← hτ, if_pos hD0]
    subst hτC
    have := hvp (le_refl _) hC
    subst hD0
    rw [mul_zero, sub_zero, max_eq_right (le_of_lt hl)]
    nlinarith
  · have hDpos : 0 < D := lt_of_le_of_ne hD (Ne.symm hD0)
    by_cases hc : l / D > C
    · have hτC : τ = C := by rw [← hτ, if_neg hD0, if_pos hc]
      subst hτC
      have := hvp (le_refl _) hC
      have h3 : τ * D < l := by rwa [gt_iff_lt, lt_div_iff₀ hDpos] at hc
      rw [max_eq_right (by linarith)]
      nlinarith
    · have hτC : τ = l / D := by rw [← hτ, if_neg hD0, if_neg hc]
      have hτD : τ * D = l := by rw [hτC]; field_simp
      have h0 : 0 ≤ τ := by rw [hτC]; exact le_of_lt (div_pos hl hDpos)
      have := hvp (by rw [hτC]; exact le_of_not_gt hc) h0
      rw [hτD, sub_self, max_self]
      nlinarith

end Cdec.Train.Mira

namespace Cdec.Train.Mira
open Finset

/-! ## Oracles -/

/-- `o` is a best element of a set. -/
def IsMax (S : Hyp → Prop) : Option Hyp → Prop
  | none => ∀ h, ¬ S h
  | some g => S g ∧ ∀ h, S h → h.metric ≤ g.metric

/-- `o` is a worst element of a set. -/
def IsMin (S : Hyp → Prop) : Option Hyp → Prop
  | none => ∀ h, ¬ S h
  | some g => S g ∧ ∀ h, S h → g.metric ≤ h.metric

theorem IsMax.congr {S T : Hyp → Prop} {o : Option Hyp} (h : IsMax S o) (e : ∀ x, S x ↔ T x) : IsMax T o := by
  have : S = T := funext fun x => propext (e x)
  rw [← this]; exact h

theorem IsMin.congr {S T : Hyp → Prop} {o : Option Hyp} (h : IsMin S o) (e : ∀ x, S x ↔ T x) : IsMin T o := by
  have : S = T := funext fun x => propext (e x)
  rw [← this]; exact h

theorem keepGood_max {S : Hyp → Prop} {o : Option Hyp} (h : IsMax S o) (x : Hyp) : IsMax (fun y => S y ∨ y = x) (keepGood o x) := by
  cases o with
  | none => exact ⟨Or.inr rfl, fun y hy => by rcases hy with hy | rfl
                                              · exact absurd hy (h y)
                                              · exact le_refl _⟩
  | some g =>
    unfold keepGood
    simp only
    split
    · rename_i hlt
      exact ⟨Or.inr rfl, fun y hy => by rcases hy with hy | rfl
                                        · exact le_trans (h.2 y hy) (le_of_lt hlt)
                                        · exact le_refl _⟩
    · rename_i hlt
      exact ⟨Or.inl h.1, fun y hy => by rcases hy with hy | rfl
                                        · exact h.2 y hy
                                        · exact le_of_not_gt hlt⟩

theorem keepBad_min {S : Hyp → Prop} {o : Option Hyp} (h : IsMin S o) (x : Hyp) : IsMin (fun y => S y ∨ y = x) (keepBad o x) := by
  cases o with
  | none => exact ⟨Or.inr rfl, fun y hy => by rcases hy with hy | rfl
                                              · exact absurd hy (h y)
                                              · exact le_refl _⟩
  | some g =>
    unfold keepBad
    simp only
    split
    · rename_i hlt
      exact ⟨Or.inr rfl, fun y hy => by rcases hy with hy | rfl
                                        · exact le_trans (le_of_lt hlt) (h.2 y hy)
                                        · exact le_refl _⟩
    · rename_i hlt
      exact ⟨Or.inl h.1, fun y hy => by rcases hy with hy | rfl
                                        · exact h.2 y hy
                                        · exact le_of_not_gt hlt⟩

theorem updateLoop_spec : ∀ (l : List Hyp) (i : Nat) (o : Oracles) (S B : Hyp → Prop), IsMax S o.good → IsMin B o.bad →
    IsMax (fun x => S x ∨ x ∈ l) (updateLoop i l o).good ∧ IsMin (fun x => B x ∨ x ∈ l) (updateLoop i l o).bad ∧
    (0 < i → (updateLoop i l o).best = o.best)
  | [], i, o, S, B, h1, h2 => ⟨h1.congr fun x => by simp, h2.congr fun x => by simp, fun _ => rfl⟩
  | x :: l, i, o, S, B, h1, h2 => by
    obtain ⟨a, b, d⟩ := updateLoop_spec l (i + 1) { good := keepGood o.good x, bad := keepBad o.bad x, best := if i = 0 then some x else o.best }
      _ _ (keepGood_max h1 x) (keepBad_min h2 x)
    refine ⟨a.congr fun y => by simp [or_assoc], b.congr fun y => by simp [or_assoc], fun hi => ?_⟩
    have := d (by omega)
    rw [show updateLoop i (x :: l) o = updateLoop (i + 1) l { good := keepGood o.good x, bad := keepBad o.bad x, best := if i = 0 then some x else o.best } from rfl, this]
    have h0 : i ≠ 0 := by omega
    simp only [h0, if_false]

theorem updateOracles_spec {S : Hyp → Prop} {good : Option Hyp} (h : IsMax S good) (best : Option Hyp) (first : Hyp) (rest : List Hyp) :
    ∃ g b, updateOracles good best (first :: rest) = { good := some g, bad := some b, best := some first } ∧
      IsMax (fun x => S x ∨ x ∈ first :: rest) (some g) ∧ b ∈ first :: rest ∧ ∀ x ∈ first :: rest, b.metric ≤ x.metric := by
  have hb : IsMin (fun _ => False) none := fun _ h => h
  obtain ⟨a, b, _⟩ := updateLoop_spec (first :: rest) 0 { good := good, bad := none, best := best } S (fun _ => False) h hb
  have hbest : (updateOracles good best (first :: rest)).best = some first := by
    have hn := (updateLoop_spec rest 1 { good := keepGood good first, bad := keepBad none first, best := some first }
      (fun x => S x ∨ x = first) (fun x => False ∨ x = first) (keepGood_max h first) (keepBad_min hb first)).2.2 (by omega)
    exact hn
  have ha : IsMax (fun x => S x ∨ x ∈ first :: rest) (updateOracles good best (first :: rest)).good := a
  have hb' : IsMin (fun x => False ∨ x ∈ first :: rest) (updateOracles good best (first :: rest)).bad := b
  generalize updateOracles good best (first :: rest) = o at *
  obtain ⟨g, bd, bs⟩ := o
  simp only at hbest ha hb'
  cases g with
  | none => exact absurd (Or.inr (by simp)) (ha first)
  | some g =>
    cases bd with
    | none => exact absurd (Or.inr (by simp)) (hb' first)
    | some bd =>
      exact ⟨g, bd, by rw [hbest], ha, by simpa using hb'.1, fun x hx => hb'.2 x (Or.inr hx)⟩

/-! ## The loop -/

/-- What holds before iteration `t`. -/
structure Inv (c : Config) (w : Nat → Vec) (t : Nat) (s : State) : Prop where
  lam : s.lambdas = w t
  tot : s.tot = ∑ i ∈ range (t + 1), w i
  norm : s.normalizer = t + 1
  lc : s.lcount = t
  pos : s.curPass * c.n + s.curSent = t
  le : s.curSent ≤ c.n
  zero : s.curSent = 0 → t = 0
  good : ∀ i, IsMax (fun h => ∃ t', t' < t ∧ sentenceAt c t' = i ∧ h ∈ c.decode (decodingWeights c.n w t') i) (s.good i)
  files : s.files = (List.range s.curPass).map fun p => meanOf w ((p + 1) * c.n)

theorem average_eq {w : Nat → Vec} {tot : Vec} {t : Nat} (h : tot = ∑ i ∈ range (t + 1), w i) : average tot (t + 1) = meanOf w t := by
  unfold average meanOf; rw [h]; push_cast; rfl

/-- The state in which the sentence is processed. -/
theorem endPass_spec {c : Config} (hn : 1 ≤ c.n) {w : Nat → Vec} {t : Nat} {s : State} (h : Inv c w t s) :
    ∃ s0, endPass c { s with dense := s.lambdas } = s0 ∧ s0.lambdas = w t ∧ s0.tot = s.tot ∧ s0.normalizer = t + 1 ∧ s0.lcount = t ∧
      s0.dense = decodingWeights c.n w t ∧ s0.curPass = t / c.n ∧ s0.curSent = t % c.n ∧ s0.good = s.good ∧ s0.best = s.best ∧
      s0.files = (List.range s0.curPass).map fun p => meanOf w ((p + 1) * c.n) := by
  have hpos := h.pos
  by_cases he : c.n = s.curSent
  · have ht : (s.curPass + 1) * c.n = t := by rw [Nat.add_mul, Nat.one_mul]; omega
    have hd : t / c.n = s.curPass + 1 := by rw [← ht]; exact Nat.mul_div_cancel _ (by omega)
    have hm : t % c.n = 0 := by rw [← ht]; exact Nat.mul_mod_left _ _
    have ht0 : t ≠ 0 := by intro h0; have := Nat.mul_eq_zero.1 (ht.trans h0); omega
    have hav : average s.tot s.normalizer = meanOf w t := by rw [h.norm]; exact average_eq h.tot
    refine ⟨_, rfl, ?_⟩
    have e : endPass c { s with dense := s.lambdas } = { s with dense := average s.tot s.normalizer, curSent := 0, curPass := s.curPass + 1, files := s.files ++ [average s.tot s.normalizer] } := by
      unfold endPass; rw [if_pos he]
    rw [e]
    refine ⟨h.lam, rfl, h.norm, h.lc, ?_, hd.symm, hm.symm, rfl, rfl, ?_⟩
    · show average s.tot s.normalizer = _
      rw [hav]; unfold decodingWeights; rw [if_pos ⟨hm, ht0⟩]
    · show s.files ++ [average s.tot s.normalizer] = (List.range (s.curPass + 1)).map _
      rw [List.range_succ, List.map_append, h.files, hav]
      simp [ht]
  · have hlt : s.curSent < c.n := by have := h.le; omega
    have hd : t / c.n = s.curPass := by
      rw [← hpos, Nat.mul_comm, Nat.mul_add_div (by omega), Nat.div_eq_of_lt hlt, Nat.add_zero]
    have hm : t % c.n = s.curSent := by
      rw [← hpos, Nat.mul_comm, Nat.mul_add_mod, Nat.mod_eq_of_lt hlt]
    have e : endPass c { s with dense := s.lambdas } = { s with dense := s.lambdas } := by unfold endPass; rw [if_neg he]
    refine ⟨_, rfl, ?_⟩
    rw [e]
    refine ⟨h.lam, rfl, h.norm, h.lc, ?_, hd.symm, hm.symm, rfl, rfl, h.files⟩
    show s.lambdas = _
    unfold decodingWeights
    rw [if_neg, h.lam]
    rintro ⟨h1, h2⟩
    exact h2 (h.zero (by omega))

/-- One iteration. -/
theorem iter_spec {c : Config} (hC : 0 ≤ c.C) (hn : 1 ≤ c.n) (hdec : ∀ u i, c.decode u i ≠ []) {w : Nat → Vec} {t : Nat} {s : State} (h : Inv c w t s)
    (hw : ∀ s', iter c s = some s' → w (t + 1) = s'.lambdas) :
    ∃ s', iter c s = some s' ∧ Inv c w (t + 1) s' ∧ Updates c w t ∧ s'.dense = decodingWeights c.n w t := by
  obtain ⟨s0, e0, hlam, htot, hnorm, hlc, hdense, hpass, hsent, hgood, hbest, hfiles⟩ := endPass_spec hn h
  have hs : c.order s0.curPass s0.curSent = sentenceAt c t := by rw [hpass, hsent]; rfl
  obtain ⟨first, rest, hk⟩ := List.exists_cons_of_ne_nil (hdec (decodingWeights c.n w t) (sentenceAt c t))
  obtain ⟨g, b, ho, hg, hb1, hb2⟩ := updateOracles_spec (h.good (sentenceAt c t)) s0.best first rest
  have hit : iter c s = some { s0 with
      lambdas := update c s0.lambdas s0.dense first g b, tot := s0.tot + update c s0.lambdas s0.dense first g b,
      normalizer := s0.normalizer + 1, lcount := s0.lcount + 1, curSent := s0.curSent + 1,
      good := fun i => if i = sentenceAt c t then some g else s0.good i, best := some first } := by
    unfold iter
    rw [e0]
    unfold process
    simp only [hs, hgood, hdense, hk, ho]
  have hwn := hw _ hit
  simp only at hwn
  have hseen : ∀ x, ((∃ t', t' < t ∧ sentenceAt c t' = sentenceAt c t ∧ x ∈ c.decode (decodingWeights c.n w t') (sentenceAt c t)) ∨ x ∈ first :: rest) ↔
      Seen c w t x := by
    intro x
    unfold Seen
    constructor
    · rintro (⟨t', h1, h2, h3⟩ | h1)
      · exact ⟨t', by omega, h2, by rw [h2]; exact h3⟩
      · exact ⟨t, le_refl _, rfl, by rw [hk]; exact h1⟩
    · rintro ⟨t', h1, h2, h3⟩
      rcases Nat.eq_or_lt_of_le h1 with rfl | hlt
      · right; rwa [hk] at h3
      · left; exact ⟨t', hlt, h2, by rwa [h2] at h3⟩
  have hgs := hg.congr hseen
  refine ⟨_, hit, ?_, ⟨first, rest, g, b, hk, hgs, ⟨hb1, hb2⟩, ?_, ?_⟩, hdense⟩
  · have hml : t % c.n < c.n := Nat.mod_lt _ (by omega)
    refine ⟨hwn.symm, ?_, by simp only; omega, by simp only; omega, ?_, by simp only; omega, by simp only; intro hc; omega, ?_, hfiles⟩
    · simp only
      rw [Finset.sum_range_succ, htot, h.tot, hwn]
    · simp only
      rw [hpass, hsent]
      have := Nat.div_add_mod t c.n
      rw [Nat.mul_comm] at this
      omega
    · intro i
      simp only
      by_cases hi : i = sentenceAt c t
      · subst hi
        rw [if_pos rfl]
        refine hgs.congr fun x => ?_
        unfold Seen
        constructor
        · rintro ⟨t', h1, h2, h3⟩; exact ⟨t', by omega, h2, by rw [← h2]; exact h3⟩
        · rintro ⟨t', h1, h2, h3⟩; exact ⟨t', by omega, h2, by rw [h2]; exact h3⟩
      · rw [if_neg hi, hgood]
        refine (h.good i).congr fun x => ?_
        constructor
        · rintro ⟨t', h1, h2, h3⟩; exact ⟨t', by omega, h2, h3⟩
        · rintro ⟨t', h1, h2, h3⟩
          rcases Nat.eq_or_lt_of_le (show t' ≤ t by omega) with rfl | hlt
          · exact absurd h2.symm hi
          · exact ⟨t', hlt, h2, h3⟩
  · intro ha
    rw [hwn]
    unfold update
    rw [if_pos (approxEqual_iff.2 ha), hlam]
  · intro ha v
    rw [hwn]
    unfold update
    rw [if_neg (fun hh => ha (approxEqual_iff.1 hh)), hdense, hlam]
    simp only
    split
    · rename_i hl
      have := step_optimal (C := c.C) (scale := c.scale) hC (decodingWeights c.n w t) g b hl v
      generalize stepSize c.C (loss c.scale (decodingWeights c.n w t) g b) (g.features - b.features) = τ at *
      have e : w t + τ • g.features - τ • b.features - w t = τ • (g.features - b.features) := by
        rw [smul_sub]; ext k; simp only [Finsupp.sub_apply, Finsupp.add_apply]; ring
      rw [e]; exact this
    · rename_i hl
      rw [sub_self, add_zero]
      have hviol : violation c.scale g b (decodingWeights c.n w t) = 0 := by
        unfold violation
        apply max_eq_left
        have : loss c.scale (decodingWeights c.n w t) g b ≤ 0 := le_of_not_gt hl
        unfold loss at this; rw [dot_eq, dot_eq] at this; linarith
      unfold objective
      rw [hviol, sub_self]
      have h0 : inner (0 : Vec) 0 = 0 := by simp [inner]
      rw [h0]
      have h1 := inner_self_nonneg (v - decodingWeights c.n w t)
      have h2 : 0 ≤ violation c.scale g b v := le_max_left _ _
      have h3 := mul_nonneg hC h2
      linarith

/-- The states. -/
noncomputable def states (c : Config) : Nat → State
  | 0 => start c
  | t + 1 => (iter c (states c t)).getD (states c t)

theorem states_inv {c : Config} (hC : 0 ≤ c.C) (hn : 1 ≤ c.n) (hdec : ∀ u i, c.decode u i ≠ []) : ∀ t, Inv c (fun t => (states c t).lambdas) t (states c t)
  | 0 => ⟨rfl, by simp [states, start], rfl, rfl, by simp [states, start], by simp [states, start], fun _ => rfl,
      fun i => (fun h hh => by obtain ⟨t', ht, _⟩ := hh; omega), rfl⟩
  | t + 1 => by
    obtain ⟨s', h1, h2, _, _⟩ := iter_spec hC hn hdec (states_inv hC hn hdec t) (fun s' hs => by
      show (states c (t + 1)).lambdas = _
      show ((iter c (states c t)).getD (states c t)).lambdas = _
      rw [hs]; rfl)
    have e : states c (t + 1) = s' := by
      show (iter c (states c t)).getD (states c t) = s'
      rw [h1]; rfl
    rw [e]; exact h2

theorem states_step {c : Config} (hC : 0 ≤ c.C) (hn : 1 ≤ c.n) (hdec : ∀ u i, c.decode u i ≠ []) (t : Nat) :
    iter c (states c t) = some (states c (t + 1)) ∧ Updates c (fun t => (states c t).lambdas) t ∧
      (states c (t + 1)).dense = decodingWeights c.n (fun t => (states c t).lambdas) t := by
  obtain ⟨s', h1, h2, h3, h4⟩ := iter_spec hC hn hdec (states_inv hC hn hdec t) (fun s' hs => by
    show (states c (t + 1)).lambdas = _
    show ((iter c (states c t)).getD (states c t)).lambdas = _
    rw [hs]; rfl)
  have e : states c (t + 1) = s' := by
    show (iter c (states c t)).getD (states c t) = s'
    rw [h1]; rfl
  rw [e]; exact ⟨h1, h3, h4⟩

theorem loop_states {c : Config} (hC : 0 ≤ c.C) (hn : 1 ≤ c.n) (hdec : ∀ u i, c.decode u i ≠ []) : ∀ fuel t, t + fuel = c.passes * c.n + 1 →
    loop c fuel (states c t) = some (states c (c.passes * c.n + 1))
  | 0, t, h => by rw [show t = c.passes * c.n + 1 by omega]; rfl
  | fuel + 1, t, h => by
    have hl : (states c t).lcount ≤ c.passes * c.n := by rw [(states_inv hC hn hdec t).lc]; omega
    have e : loop c (fuel + 1) (states c t) = loop c fuel (states c (t + 1)) := by
      show (if (states c t).lcount ≤ c.passes * c.n then (match iter c (states c t) with | some s' => loop c fuel s' | none => none) else some (states c t)) = _
      rw [if_pos hl, (states_step hC hn hdec t).1]
    rw [e]
    exact loop_states hC hn hdec fuel (t + 1) (by omega)

end Cdec.Train.Mira
