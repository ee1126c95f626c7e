import Verif.HG.MarginLemmas
import Verif.Props.C07
/-! # C08: density / beam pruning and the best derivation -/
namespace Cdec.HG
open scoped NNReal
variable {α : Type}

/-- Derivation `d` of the goal of `g` is still there in `h`: renamed by `f` it is a derivation of the
goal of `h`, with unchanged edge payloads. -/
def Survives (g h : Hypergraph α) (f : Nat → Nat) (d : Tree) : Prop :=
  IsDeriv h h.goal (d.map f) ∧
    ∀ e ∈ d.edges, (h.edges[f e]?).map Edge.val = (g.edges[e]?).map Edge.val

/-- C08 (partial), margin pruning.  `b` is a best goal derivation (positive weight).  Margin pruning
with any cutoff at most one (relative to the best score) terminates; a derivation `d` survives as soon
as each of its edges `e` is preserved or the score of `d` relative to the best is at least
`cutoff^(1-(e+1)·10⁻⁶)`.  Missing w.r.t. the full property: the threshold is this "crept" one and not
`cutoff` itself, and tails of an edge must be distinct. -/
theorem C08_margin_pruning_partial (g : Hypergraph α) (wf : WF g) (hnd : DistinctTails g)
    (huh : UniqueHead g) (hn : 0 < g.nodes.length) (w : Nat → ℝ≥0) (b : Tree) (hb : IsBest g w b)
    (cutoff : ℝ≥0) (hc0 : 0 < cutoff) (hc : cutoff ≤ 1) (preserve : Nat → Bool) (safe : Bool) :
    ∃ (h : Hypergraph α) (f : Nat → Nat),
      (∃ k, ∀ fuel, k ≤ fuel → marginPrune g (maxMarginals g w) cutoff preserve safe fuel = some h) ∧
      WF h ∧
      (∀ t', IsDeriv h h.goal t' → ∃ d, IsDeriv g g.goal d ∧ d.map f = t') ∧
      ∀ d, IsDeriv g g.goal d →
        (∀ e ∈ d.edges, preserve e = true ∨
          cutoff ^ (1 - (e + 1 : Nat) * (1e-6 : ℝ)) ≤ d.weight w / b.weight w) →
        Survives g h f d := by
  obtain ⟨h, f, hrun, hwf, _, hbij⟩ := C07_prune_edges g wf hn
    (fun e => (marginMask (creep cutoff) preserve 0 cutoff (maxMarginals g w)).getD e false) safe
  refine ⟨h, f, hrun, hwf, fun t' ht' => ?_, fun d hd hcut => ?_⟩
  · obtain ⟨t, h1, _, h2⟩ := hbij.bwd t' ht'
    exact ⟨t, h1, h2⟩
  · have hav : Avoids (fun e => (marginMask (creep cutoff) preserve 0 cutoff (maxMarginals g w)).getD e false) d := by
      intro e he
      by_contra hcon
      obtain ⟨_, h2, h3⟩ := (marginMask_getD _ _ _ _ _ _).1 (by simpa using hcon)
      rw [Nat.zero_add] at h3
      rcases hcut e he with hp | hp
      · rw [hp] at h3; cases h3
      · rw [creep_pow cutoff hc hc0] at h2
        exact absurd (hp.trans (maxMarginals_ge wf hnd huh hn w hb d hd e he)) (not_le.2 h2)
    exact ⟨hbij.fwd d hd hav, fun e he => (hbij.payload d hd hav e he).2.2⟩

/-- C08 (partial), the best derivation.  With at most a million edges, `PruneInsideOutside` (Viterbi
scores; density, beam or both; any preserve mask; any `safe_inside`) terminates and never loses a best
derivation.  (For more edges it can, see `C08_more_than_a_million_edges_fails`.) -/
theorem C08_best_derivation_survives_partial (g : Hypergraph α) (wf : WF g) (hnd : DistinctTails g)
    (huh : UniqueHead g) (hn : 0 < g.nodes.length) (hsize : g.edges.length ≤ 1000000)
    (w : Nat → ℝ≥0) (b : Tree) (hb : IsBest g w b)
    (density : Option Nat) (hden : ∀ r, density = some r → r < g.edges.length)
    (beam : Option ℝ) (hbeam : ∀ a, beam = some a → 0 < a) (preserve : Nat → Bool) (safe : Bool) :
    ∃ (h : Hypergraph α) (f : Nat → Nat),
      (∃ k, ∀ fuel, k ≤ fuel → pruneInsideOutside g w density beam preserve safe fuel = some h) ∧
      WF h ∧ (∀ t', IsDeriv h h.goal t' → ∃ d, IsDeriv g g.goal d ∧ d.map f = t') ∧
      ∀ d, IsBest g w d → Survives g h f d := by
  -- the cutoff exists and is at most one
  have hcut : ∃ c, pruneCutoff (maxMarginals g w) density beam = some c ∧ c ≤ 1 := by
    have hexp : ∀ a : ℝ, 0 < a → 1 * (Real.exp (-a)).toNNReal ≤ 1 := by
      intro a ha
      rw [one_mul]
      exact Real.toNNReal_le_one.2 (Real.exp_le_one_iff.2 (by linarith))
    have h0 : ∃ c, densityCutoff (maxMarginals g w) density = some c ∧ c ≤ 1 := by
      cases hd : density with
      | none => exact ⟨1, rfl, le_refl _⟩
      | some r =>
        have hr := hden r hd
        have hlen : (isort (fun a b => decide (b ≤ a)) (maxMarginals g w)).length = g.edges.length := by
          rw [(isort_perm _ _).length_eq, maxMarginals_length]
        refine ⟨_, List.getElem?_eq_getElem (by rw [hlen]; exact hr), ?_⟩
        have hm := (isort_perm (fun a b : ℝ≥0 => decide (b ≤ a)) (maxMarginals g w)).mem_iff.1
          (List.getElem_mem (by rw [hlen]; exact hr : r < _))
        obtain ⟨i, hi, he⟩ := List.getElem_of_mem hm
        have := maxMarginals_le wf hnd huh hn w hb i
        rw [List.getD_eq_getElem?_getD, List.getElem?_eq_getElem hi, he] at this
        exact this
    obtain ⟨c, hc, hc1⟩ := h0
    refine ⟨beamCutoff density.isSome c beam, by rw [pruneCutoff, hc]; rfl, ?_⟩
    cases hbm : beam with
    | none => exact hc1
    | some a =>
      rw [beamCutoff]
      split
      · exact hc1
      · exact hexp a (hbeam a hbm)
  obtain ⟨c, hc, hc1⟩ := hcut
  obtain ⟨h, f, hrun, hwf, _, hbij⟩ := C07_prune_edges g wf hn
    (fun e => (marginMask (creep c) preserve 0 c (maxMarginals g w)).getD e false) safe
  refine ⟨h, f, ?_, hwf, fun t' ht' => ?_, fun d hd => ?_⟩
  · simpa only [pruneInsideOutside, hc, Option.bind_some, marginPrune] using hrun
  · obtain ⟨t, h1, _, h2⟩ := hbij.bwd t' ht'
    exact ⟨t, h1, h2⟩
  · have hav : Avoids (fun e => (marginMask (creep c) preserve 0 c (maxMarginals g w)).getD e false) d := by
      intro e he
      by_contra hcon
      obtain ⟨h1, h2, _⟩ := (marginMask_getD _ _ _ _ _ _).1 (by simpa using hcon)
      rw [maxMarginals_length] at h1
      have h3 := maxMarginals_ge wf hnd huh hn w hd d hd.deriv e he
      rw [div_self hd.pos.ne'] at h3
      exact absurd (h3.trans_lt h2) (not_lt.2 (creep_le_one c hc1 _ (by omega)))
    exact ⟨hbij.fwd d hd.deriv hav, fun e he => (hbij.payload d hd.deriv hav e he).2.2⟩

/-- C08 fails beyond a million edges: the cutoff creeps above one, so every edge numbered `10⁶` or more
is dropped, even when it is on the best derivation, whatever the beam. -/
theorem C08_more_than_a_million_edges_fails (g : Hypergraph α) (wf : WF g) (hnd : DistinctTails g)
    (huh : UniqueHead g) (hn : 0 < g.nodes.length) (w : Nat → ℝ≥0) (b : Tree) (hb : IsBest g w b)
    (cutoff : ℝ≥0) (hc0 : 0 < cutoff) (hc : cutoff < 1) (e : Nat) (he : 1000000 ≤ e) (hlt : e < g.edges.length) :
    (marginMask (creep cutoff) (fun _ => false) 0 cutoff (maxMarginals g w)).getD e false = true := by
  refine (marginMask_getD _ _ _ _ _ _).2 ⟨by rw [maxMarginals_length]; exact hlt, ?_, rfl⟩
  exact (maxMarginals_le wf hnd huh hn w hb e).trans_lt (creep_gt_one cutoff hc hc0 _ (by omega))

/-- The threshold is not the cutoff itself: a derivation whose relative score equals the cutoff is not
protected, since already for the first edge the threshold is larger. -/
theorem C08_exact_cutoff_fails (cutoff : ℝ≥0) (hc0 : 0 < cutoff) (hc : cutoff < 1) :
    (marginMask (creep cutoff) (fun _ => false) 0 cutoff [cutoff]).getD 0 false = true := by
  refine (marginMask_getD _ _ _ _ _ _).2 ⟨by simp, ?_, rfl⟩
  rw [creep_pow cutoff hc.le hc0, List.getD_cons_zero]
  conv => lhs; rw [← NNReal.rpow_one cutoff]
  apply NNReal.rpow_lt_rpow_of_exponent_gt hc0 hc
  norm_num

/-- Non-vacuity: `exG` with all weights one, beam 1. -/
example : WF exG ∧ DistinctTails exG ∧ UniqueHead exG ∧ 0 < exG.nodes.length ∧ exG.edges.length ≤ 1000000 ∧
    IsBest exG (fun _ => 1) (.node 4 [.node 2 [.node 0 []]]) := by
  have hone : ∀ t : Tree, t.weight (fun _ => (1 : ℝ≥0)) = 1 := by
    intro t
    induction t using Tree.rec (motive_2 := fun ch => (ch.map fun t : Tree => t.weight fun _ => (1 : ℝ≥0)).prod = 1) with
    | node e ch ih => rw [weight_node, ih, mul_one]
    | nil => rfl
    | cons t ts h1 h2 => simp [h1, h2]
  refine ⟨exG_wf, ?_, ?_, by decide, by decide, ?_, fun d _ => by rw [hone, hone], by rw [hone]; exact one_pos⟩
  · unfold DistinctTails; decide
  · have : ∀ u < exG.nodes.length, ∀ v < exG.nodes.length, ∀ e ∈ exG.inE u, e ∈ exG.inE v → u = v := by decide
    exact fun u hu v hv e => this u hu v hv e
  · refine isDeriv_iff.2 ⟨by decide, .cons (isDeriv_iff.2 ⟨by decide, .cons (isDeriv_iff.2 ⟨by decide, .nil⟩) .nil⟩) .nil⟩

end Cdec.HG
