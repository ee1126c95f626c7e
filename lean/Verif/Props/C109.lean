import Verif.Train.MiraLemmas
/-!
# C109: online training with MIRA

`Updates` of `Train/MiraSpec.lean` says what the update for a sentence has to be; `meanOf` is the average.
-/
namespace Cdec.Train.Mira
open Finset

/-- For every training set, every sequence of permutations and every decoder that always finds a translation, there is
a sequence of weights, from the initial ones on, in which every step is the update of the sentence that is due, for
every pass and one sentence more; the file of the averaged weights is the average of all of them.  What is missing:
the first sentence of every pass but the first is decoded with averaged weights and not with the current ones
(`decodingWeights`), and the other file does not hold the last weights. -/
theorem C109_run_partial {c : Config} (hC : 0 ≤ c.C) (hn : 1 ≤ c.n) (hdec : ∀ u i, c.decode u i ≠ []) :
    ∃ final avg s, train c = some (final, avg, s) ∧ ∃ w : Nat → Vec, w 0 = c.init ∧ (∀ t ≤ c.passes * c.n, Updates c w t) ∧
      s.lambdas = w (c.passes * c.n + 1) ∧
      avg = meanOf w (c.passes * c.n + 1) ∧
      final = (if c.passes = 0 then c.init else meanOf w (c.passes * c.n)) ∧
      s.files = (List.range c.passes).map fun p => meanOf w ((p + 1) * c.n) := by
  have hl := loop_states hC hn hdec (c.passes * c.n + 1) 0 (by omega)
  have hinv := states_inv hC hn hdec (c.passes * c.n + 1)
  refine ⟨_, _, _, by unfold train; rw [show start c = states c 0 from rfl, hl], fun t => (states c t).lambdas, rfl,
    fun t _ => (states_step hC hn hdec t).2.1, rfl, ?_, ?_, ?_⟩
  · rw [hinv.norm]; exact average_eq hinv.tot
  · rw [(states_step hC hn hdec (c.passes * c.n)).2.2]
    unfold decodingWeights
    by_cases hp : c.passes = 0
    · rw [if_pos hp, if_neg (by simp [hp])]; simp [hp, states, start]
    · rw [if_neg hp, if_pos ⟨Nat.mul_mod_left _ _, by
        intro h0; rcases Nat.mul_eq_zero.1 h0 with h | h <;> omega⟩]
  · have hp := hinv.pos
    have hle := hinv.le
    have hz := hinv.zero
    have : (states c (c.passes * c.n + 1)).curPass = c.passes := by
      rcases Nat.lt_trichotomy (states c (c.passes * c.n + 1)).curPass c.passes with h | h | h
      · have := Nat.mul_le_mul_right c.n (show (states c (c.passes * c.n + 1)).curPass + 1 ≤ c.passes from h)
        rw [Nat.add_mul, Nat.one_mul] at this; omega
      · exact h
      · have := Nat.mul_le_mul_right c.n (show c.passes + 1 ≤ (states c (c.passes * c.n + 1)).curPass from h)
        rw [Nat.add_mul, Nat.one_mul] at this
        have h0 : (states c (c.passes * c.n + 1)).curSent ≠ 0 := fun h0 => by have := hz h0; omega
        omega
    rw [hinv.files, this]

/-- The passive-aggressive step itself: from the weights of decoding, no other weights give a smaller sum of half the
squared distance and `C` times the violation of the margin; this holds for all pairs of hypotheses. -/
theorem C109_step {c : Config} (hC : 0 ≤ c.C) (u : Vec) (best good bad : Hyp) (ha : ¬ AsGood best.metric good.metric) (v : Vec) :
    objective c.C c.scale u good bad (update c u u best good bad) ≤ objective c.C c.scale u good bad v := by
  unfold update
  rw [if_neg (fun h => ha (approxEqual_iff.1 h))]
  simp only
  split
  · rename_i hl
    have := step_optimal (C := c.C) (scale := c.scale) hC u good bad hl v
    generalize stepSize c.C (loss c.scale u good bad) (good.features - bad.features) = τ at *
    have e : u + τ • good.features - τ • bad.features = u + τ • (good.features - bad.features) := by
      rw [smul_sub]; ext k; simp only [Finsupp.sub_apply, Finsupp.add_apply]; ring
    rw [e]; exact this
  · rename_i hl
    have hviol : violation c.scale good bad u = 0 := by
      unfold violation
      apply max_eq_left
      have : loss c.scale u good bad ≤ 0 := le_of_not_gt hl
      unfold loss at this; rw [dot_eq, dot_eq] at this; linarith
    unfold objective
    rw [hviol, sub_self]
    have h0 : inner (0 : Vec) 0 = 0 := by simp [inner]
    rw [h0]
    have h1 := inner_self_nonneg (v - u)
    have h2 : 0 ≤ violation c.scale good bad v := le_max_left _ _
    have h3 := mul_nonneg hC h2
    linarith

/-- No step is taken from a translation that is as good as the good one, in particular none from the good one. -/
theorem C109_stay (c : Config) (w u : Vec) (best good bad : Hyp) (ha : AsGood best.metric good.metric) :
    update c w u best good bad = w := by
  unfold update
  rw [if_pos (approxEqual_iff.2 ha)]

example : AsGood 1 1 ∧ AsGood 10000001 10000000 ∧ ¬ AsGood 0 1 ∧ ¬ AsGood 1 0 := by
  refine ⟨Or.inl rfl, Or.inr ?_, ?_, ?_⟩ <;> norm_num [AsGood]

/-! ## A training run -/

/-- One sentence; its first translation is bad and the second is good and has a feature. -/
noncomputable def sampleGood : Hyp := { features := Finsupp.single 0 1, metric := 1 }
noncomputable def sampleBad : Hyp := { features := 0, metric := 0 }
noncomputable def sample (passes : Nat) : Config :=
  { C := 1 / 10, scale := 1, passes := passes, n := 1, order := fun _ _ => 0, decode := fun _ _ => [sampleBad, sampleGood], init := 0 }

theorem sample_update (passes : Nat) (lam u : Vec) (hu : u 0 ≤ 1 / 2) :
    update (sample passes) lam u sampleBad sampleGood sampleBad = lam + (1 / 10 : ℚ) • Finsupp.single 0 1 := by
  have h1 : approxEqual sampleBad.metric sampleGood.metric = false := by
    simp [sampleBad, sampleGood, approxEqual]; norm_num
  have h2 : loss (sample passes).scale u sampleGood sampleBad = 1 - u 0 := by
    unfold loss dot sampleGood sampleBad sample
    rw [Finsupp.sum_single_index (by ring)]
    simp
    ring
  have h3 : normSq (sampleGood.features - sampleBad.features) = 1 := by
    unfold normSq sampleGood sampleBad
    simp [Finsupp.sum_single_index]
  unfold update
  rw [if_neg (by rw [h1]; simp)]
  simp only [h2]
  rw [if_pos (by linarith)]
  unfold stepSize
  rw [h3, if_neg one_ne_zero, div_one, if_pos (show (1 - u 0 : ℚ) > (sample passes).C by show (1 - u 0 : ℚ) > 1 / 10; linarith)]
  simp [sampleGood, sampleBad, sample]

theorem sample_oracles (good best : Option Hyp) (h : good = none ∨ good = some sampleGood) :
    updateOracles good best [sampleBad, sampleGood] = { good := some sampleGood, bad := some sampleBad, best := some sampleBad } := by
  have h10 : ¬ ((1 : ℚ) < 0) := by norm_num
  rcases h with rfl | rfl <;> simp [updateOracles, updateLoop, keepGood, keepBad, sampleGood, sampleBad, h10]

theorem sample_process (passes : Nat) (s : State) (hg : s.good 0 = none ∨ s.good 0 = some sampleGood) (hu : s.dense 0 ≤ 1 / 2) :
    process (sample passes) s = some { s with
      lambdas := s.lambdas + (1 / 10 : ℚ) • Finsupp.single 0 1, tot := s.tot + (s.lambdas + (1 / 10 : ℚ) • Finsupp.single 0 1),
      normalizer := s.normalizer + 1, lcount := s.lcount + 1, curSent := s.curSent + 1,
      good := fun i => if i = 0 then some sampleGood else s.good i, best := some sampleBad } := by
  unfold process
  have e1 : (sample passes).order s.curPass s.curSent = 0 := rfl
  have e2 : (sample passes).decode s.dense 0 = [sampleBad, sampleGood] := rfl
  simp only [e1, e2, sample_oracles _ s.best hg, sample_update passes s.lambdas s.dense hu]

/-- The hypotheses of the theorems hold for the sample. -/
example (passes : Nat) : 0 ≤ (sample passes).C ∧ 1 ≤ (sample passes).n ∧ (∀ u i, (sample passes).decode u i ≠ []) :=
  ⟨by norm_num [sample], le_refl _, fun u i => by simp [sample]⟩

theorem sample_train : ∃ final avg s, train (sample 1) = some (final, avg, s) ∧ final 0 = 1 / 20 ∧ s.lambdas 0 = 1 / 5 ∧ s.lcount = 2 := by
  unfold train
  have el : loop (sample 1) ((sample 1).passes * (sample 1).n + 1) (start (sample 1)) =
      (match iter (sample 1) (start (sample 1)) with
        | some s' => (match iter (sample 1) s' with | some s'' => some s'' | none => none)
        | none => none) := by
    show loop (sample 1) 2 (start (sample 1)) = _
    unfold loop
    rw [if_pos (by simp [start])]
    cases h : iter (sample 1) (start (sample 1)) with
    | none => rfl
    | some s' =>
      simp only
      unfold loop
      have : s'.lcount = 1 := by
        unfold iter at h
        have e : endPass (sample 1) { start (sample 1) with dense := (start (sample 1)).lambdas } = start (sample 1) := rfl
        rw [e, sample_process 1 _ (Or.inl rfl) (by simp [start, sample])] at h
        cases h; rfl
      rw [if_pos (by rw [this]; exact le_refl _)]
      rfl
  rw [el]
  have e1 : iter (sample 1) (start (sample 1)) = _ := sample_process 1 (start (sample 1)) (Or.inl rfl) (by simp [start, sample])
  rw [e1]
  simp only
  generalize hs : ({ start (sample 1) with
      lambdas := (start (sample 1)).lambdas + (1 / 10 : ℚ) • Finsupp.single 0 1, tot := (start (sample 1)).tot + ((start (sample 1)).lambdas + (1 / 10 : ℚ) • Finsupp.single 0 1),
      normalizer := (start (sample 1)).normalizer + 1, lcount := (start (sample 1)).lcount + 1, curSent := (start (sample 1)).curSent + 1,
      good := fun i => if i = 0 then some sampleGood else (start (sample 1)).good i, best := some sampleBad } : State) = s1
  have hl1 : s1.lambdas = (1 / 10 : ℚ) • Finsupp.single 0 1 := by rw [← hs]; simp [start, sample]
  have ht1 : s1.tot = (1 / 10 : ℚ) • Finsupp.single 0 1 := by rw [← hs]; simp [start, sample]
  have hn1 : s1.normalizer = 2 := by rw [← hs]; rfl
  have hc1 : s1.curSent = 1 := by rw [← hs]; rfl
  have hlc : s1.lcount = 1 := by rw [← hs]; rfl
  have hg1 : s1.good 0 = some sampleGood := by rw [← hs]; rfl
  have hav : average s1.tot s1.normalizer = (1 / 20 : ℚ) • Finsupp.single 0 1 := by
    unfold average; rw [ht1, hn1, smul_smul]; norm_num
  have e2 : endPass (sample 1) { s1 with dense := s1.lambdas } =
      { s1 with dense := average s1.tot s1.normalizer, curSent := 0, curPass := s1.curPass + 1, files := s1.files ++ [average s1.tot s1.normalizer] } := by
    unfold endPass
    rw [if_pos (by rw [hc1]; rfl)]
  have e3 := sample_process 1 { s1 with dense := average s1.tot s1.normalizer, curSent := 0, curPass := s1.curPass + 1, files := s1.files ++ [average s1.tot s1.normalizer] }
    (Or.inr hg1) (by show average s1.tot s1.normalizer 0 ≤ 1 / 2; rw [hav]; norm_num)
  have e4 : iter (sample 1) s1 = _ := (congrArg (process (sample 1)) e2).trans e3
  rw [e4]
  refine ⟨_, _, _, rfl, ?_, ?_, ?_⟩
  · show average s1.tot s1.normalizer 0 = _
    rw [hav]; norm_num
  · show (s1.lambdas + (1 / 10 : ℚ) • Finsupp.single 0 1 : Vec) 0 = _
    rw [hl1]; norm_num
  · show s1.lcount + 1 = 2
    rw [hlc]

/-- `weights.mira-final.gz` should hold the weights at the end of training (there is another file for the average). -/
theorem C109_final_fails : ∃ (c : Config) (final avg : Vec) (s : State), 0 ≤ c.C ∧ 1 ≤ c.n ∧ (∀ u i, c.decode u i ≠ []) ∧
    train c = some (final, avg, s) ∧ final ≠ s.lambdas := by
  obtain ⟨final, avg, s, h1, h2, h3, _⟩ := sample_train
  refine ⟨sample 1, final, avg, s, by norm_num [sample], le_refl _, fun u i => by simp [sample], h1, fun h => ?_⟩
  rw [h, h3] at h2
  norm_num at h2

/-- `passes` passes over the data should update once for every sentence and pass. -/
theorem C109_passes_fails : ∃ (c : Config) (final avg : Vec) (s : State), 0 ≤ c.C ∧ 1 ≤ c.n ∧ (∀ u i, c.decode u i ≠ []) ∧
    train c = some (final, avg, s) ∧ s.lcount ≠ c.passes * c.n := by
  obtain ⟨final, avg, s, h1, _, _, h4⟩ := sample_train
  refine ⟨sample 1, final, avg, s, by norm_num [sample], le_refl _, fun u i => by simp [sample], h1, ?_⟩
  rw [h4]; simp [sample]

end Cdec.Train.Mira
