import Verif.HG.ReweightModel
import Verif.Sparse.Lemmas
import Verif.Props.C04
import Verif.HG.OutsideLemmas
import Mathlib.Analysis.SpecialFunctions.Log.Basic
import Mathlib.Data.NNReal.Defs
/-! # C10: reweighting scores derivations by the feature dot product -/
namespace Cdec.HG
open Cdec.Sparse
variable {α : Type}

theorem foldl_plus (L : Nat) (as : List (FSV ℝ)) : ∀ r : FSV ℝ, r.Inv → (∀ a ∈ as, a.Inv) →
    (as.foldl (fun (r a : FSV ℝ) => r.plus L a) r).Inv ∧
    ∀ k, (as.foldl (fun (r a : FSV ℝ) => r.plus L a) r).value k = r.value k + (as.map fun a => a.value k).sum := by
  induction as with
  | nil => exact fun r hr _ => ⟨hr, by simp⟩
  | cons a as ih =>
    intro r hr ha
    obtain ⟨p1, p2⟩ := plus_spec L hr (ha a (by simp))
    obtain ⟨h1, h2⟩ := ih (r.plus L a) p1 fun b hb => ha b (by simp [hb])
    refine ⟨h1, fun k => ?_⟩
    rw [List.foldl_cons, h2 k, p2 k, List.map_cons, List.sum_cons, add_assoc]

theorem features_of_tree (L : Nat) (feats : Nat → FSV ℝ) (hf : ∀ e, (feats e).Inv) (t : Tree) :
    (t.traverse (featureTraversal L feats)).Inv ∧
    ∀ k, (t.traverse (featureTraversal L feats)).value k = (t.edges.map fun e => (feats e).value k).sum := by
  induction t using Tree.rec (motive_2 := fun ch =>
    (∀ t ∈ ch, (t.traverse (featureTraversal L feats)).Inv) ∧
    ∀ k, (ch.map fun t : Tree => (t.traverse (featureTraversal L feats)).value k).sum =
      ((ch.flatMap fun t => t.edges).map fun e => (feats e).value k).sum) with
  | node e ch ih =>
    rw [traverse_node, featureTraversal]
    obtain ⟨h1, h2⟩ := foldl_plus L (ch.map fun t => t.traverse (featureTraversal L feats)) .empty
      (by simp [FSV.Inv, FSV.empty, FSV.entries]) (by
        intro a ha
        obtain ⟨t, ht, rfl⟩ := List.mem_map.1 ha
        exact ih.1 t ht)
    obtain ⟨h3, h4⟩ := plus_spec L h1 (hf e)
    refine ⟨h3, fun k => ?_⟩
    rw [h4 k, h2 k, List.map_map]
    have := ih.2 k
    simp only [Function.comp_def]
    rw [this, Tree.edges]
    simp [FSV.value, FSV.empty, FSV.entries, lookup, add_comm]
  | nil => simp
  | cons t ts ih1 ih2 =>
    constructor
    · intro u hu
      rcases List.mem_cons.1 hu with rfl | hu
      · exact ih1.1
      · exact ih2.1 u hu
    · intro k
      simp [ih1.2 k, ih2.2 k]

theorem weight_exp (x : Nat → ℝ) (t : Tree) :
    t.weight (fun e => Real.exp (x e)) = Real.exp (t.edges.map x).sum := by
  induction t using Tree.rec (motive_2 := fun ch =>
    (ch.map fun t : Tree => t.weight fun e => Real.exp (x e)).prod =
      Real.exp ((ch.flatMap fun t => t.edges).map x).sum) with
  | node e ch ih => rw [weight_node, ih, Tree.edges, List.map_cons, List.sum_cons, Real.exp_add]
  | nil => simp
  | cons t ts ih1 ih2 => simp [ih1, ih2, Real.exp_add]

theorem sum_dot (L : List Nat) (feats : Nat → FSV ℝ) (hf : ∀ e, (feats e).Inv) (w : List ℝ) :
    (L.map fun e => (feats e).dotDense w).sum =
      ∑ k ∈ Finset.range w.length, (L.map fun e => (feats e).value k).sum * w.getD k 0 := by
  induction L with
  | nil => simp
  | cons e L ih => simp only [List.map_cons, List.sum_cons, ih, dotDense_eq (hf e), add_mul, Finset.sum_add_distrib]

/-- C10.  After `Reweight(weights)`, the weight of every derivation is the exponential of the dot product
of `weights` with the sum, key by key, of the feature values of its edges. -/
theorem C10_reweight (feats : Nat → FSV ℝ) (hf : ∀ e, (feats e).Inv) (weights : List ℝ) (t : Tree) :
    t.weight (reweight feats weights) =
      Real.exp (∑ k ∈ Finset.range weights.length,
        (t.edges.map fun e => (feats e).value k).sum * weights.getD k 0) := by
  rw [← sum_dot _ feats hf]
  exact weight_exp _ t

/-- C10, Viterbi features.  After `Reweight(weights)` the vector `ViterbiFeatures` returns for a node, dotted
with the weights, is the logarithm of the returned probability, so the disagreement check of viterbi.cc:124-135
never triggers (in exact arithmetic); the vector is the feature total of a best derivation. -/
theorem C10_viterbi_features (g : Hypergraph α) (wf : WF g) (hne : ∀ v < g.nodes.length, g.inE v ≠ [])
    (L : Nat) (feats : Nat → FSV ℝ) (hf : ∀ e, (feats e).Inv) (weights : List ℝ)
    (v : Nat) (hv : v < g.nodes.length) :
    ∃ (p : NNReal) (r : FSV ℝ) (t : Tree), IsDeriv g v t ∧
      (viterbi g (fun e => (⟨reweight feats weights e, (Real.exp_pos _).le⟩ : NNReal))
        (featureTraversal L feats) (1, (FSV.empty : FSV ℝ))).getD v (1, (FSV.empty : FSV ℝ)) = (p, r) ∧
      p.1 = t.weight (reweight feats weights) ∧
      (∀ t', IsDeriv g v t' → t'.weight (reweight feats weights) ≤ p.1) ∧
      (∀ k, r.value k = (t.edges.map fun e => (feats e).value k).sum) ∧
      Real.log p.1 = r.dotDense weights := by
  obtain ⟨t, h1, h2, h3⟩ := C04_viterbi_best_derivation g wf hne
    (fun e => (⟨reweight feats weights e, (Real.exp_pos _).le⟩ : NNReal)) (featureTraversal L feats) (1, (FSV.empty : FSV ℝ)) v hv
  have hw : ∀ t : Tree, (t.weight fun e => (⟨reweight feats weights e, (Real.exp_pos _).le⟩ : NNReal)).1 =
      t.weight (reweight feats weights) := by
    intro t
    induction t using Tree.rec (motive_2 := fun ch =>
      (ch.map fun t : Tree => (t.weight fun e => (⟨reweight feats weights e, (Real.exp_pos _).le⟩ : NNReal))).prod.1 =
        (ch.map fun t : Tree => t.weight (reweight feats weights)).prod) with
    | node e ch ih => rw [Tree.weight, weight_node]; exact congrArg₂ (· * ·) rfl ih
    | nil => rfl
    | cons t ts ih1 ih2 =>
      simp only [List.map_cons, List.prod_cons]
      exact congrArg₂ (· * ·) ih1 ih2
  obtain ⟨hi, hk⟩ := features_of_tree L feats hf t
  refine ⟨_, _, t, h1, h2, hw t, fun t' ht' => ?_, hk, ?_⟩
  · rw [← hw t']; exact NNReal.coe_le_coe.2 (h3 t' ht')
  · rw [hw, C10_reweight feats hf, Real.log_exp, dotDense_eq hi]
    exact Finset.sum_congr rfl fun k _ => by rw [hk]

/-- Non-vacuity: features with a shared key on the edges of `exG`. -/
example : WF exG ∧ (∀ v < exG.nodes.length, exG.inE v ≠ []) ∧
    (∀ e : Nat, (FSV.loc [(0, (e : ℝ)), (3, 2)]).Inv) := by
  exact ⟨exG_wf, by decide, fun e => by simp [FSV.Inv, FSV.entries]⟩

end Cdec.HG
