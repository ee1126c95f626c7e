import Verif.Decoder.RescoreSpec
import Verif.Decoder.ParserFinal
import Mathlib.Tactic.ByContra
/-! What `Parse` returns. -/
namespace Cdec.Dec.Parser
open Cdec.HG Spec
variable {ι R φ : Type} [Add φ] [Zero φ] {p : Env ι R φ} {u : List R} {s : State ι R φ}

theorem parse_span {c : Int} {i j : Nat} {t : LTree (Val R φ)} (h : Parse p u c i j t) : i < j ∧ j ≤ p.n := by
  induction t using LTree.rec (motive_2 := fun ts => ∀ t ∈ ts, ∀ c i j, Parse p u c i j t → i < j ∧ j ≤ p.n) generalizing c i j with
  | node b ch ih =>
    cases h with
    | rule hG hij hj _ _ _ _ _ => exact ⟨hij, hj⟩
    | unary hr h1 => exact ih _ (by simp) _ _ _ h1
  | nil =>
    rename_i h _ _ _ _
    simp at h
  | cons t ts ih1 ih2 =>
    rename_i t' h c i j h'
    rcases List.mem_cons.1 h with rfl | h
    · exact ih1 h'
    · exact ih2 _ h _ _ _ h'

/-- Nodes below which every node has an edge have derivations. -/
theorem exists_deriv {α : Type} {F : Hypergraph α} {goal : Nat} (hac : AcyclicFrom F (fun _ => false) goal) (hne : ∀ w, Reach F (fun _ => false) goal w → F.inE w ≠ []) :
    ∀ w, Reach F (fun _ => false) goal w → ∃ T, IsDeriv F w T := by
  obtain ⟨rank, hr⟩ := hac
  have : ∀ n w, rank w = n → Reach F (fun _ => false) goal w → ∃ T, IsDeriv F w T := by
    intro n
    induction n using Nat.strongRecOn with
    | ind n ih =>
      intro w hw hR
      obtain ⟨e, he⟩ := List.exists_mem_of_ne_nil _ (hne w hR)
      have : ∀ ts : List Nat, (∀ t ∈ ts, t ∈ F.tails e) → ∃ ch, List.Forall₂ (IsDeriv F) ts ch := by
        intro ts
        induction ts with
        | nil => intro _; exact ⟨[], .nil⟩
        | cons t ts iht =>
          intro hts
          obtain ⟨ch, hch⟩ := iht fun x hx => hts x (by simp [hx])
          have ht := hts t (by simp)
          obtain ⟨T, hT⟩ := ih (rank t) (hw ▸ hr w hR e he rfl t ht) t rfl (.tail hR he rfl ht)
          exact ⟨T :: ch, .cons hT hch⟩
      obtain ⟨ch, hch⟩ := this _ fun _ h => h
      exact ⟨.node e ch, isDeriv_iff.2 ⟨he, hch⟩⟩
  exact fun w h => this _ w rfl h

/-- Derivations show trees. -/
theorem exists_shows {α : Type} {F : Hypergraph α} (hir : InRange F) (T : Tree) : ∀ w, IsDeriv F w T → ∃ t, Shows F T t := by
  induction T using Tree.rec (motive_2 := fun ch => ∀ ws, List.Forall₂ (IsDeriv F) ws ch → ∃ ts, List.Forall₂ (Shows F) ch ts) with
  | node e ch ih =>
    intro w h
    obtain ⟨he, hch⟩ := isDeriv_iff.1 h
    obtain ⟨ts, hts⟩ := ih _ hch
    have hw : w < F.nodes.length := by
      by_contra hw
      rw [inE_oob F w (by omega)] at he
      simp at he
    have := hir.edge_lt w hw e he
    exact ⟨_, .node (List.getElem?_eq_getElem this) hts⟩
  | nil =>
    rename_i ws h
    exact ⟨[], .nil⟩
  | cons T ch ih1 ih2 =>
    rename_i ws h
    cases h with
    | cons a b =>
      obtain ⟨t, ht⟩ := ih1 _ a
      obtain ⟨ts, hts⟩ := ih2 _ b
      exact ⟨_, .cons ht hts⟩

/-- Derivations of the goal node. -/
theorem goal_derivs {v : Nat} {F : Hypergraph (Val R φ)} {N : Nat} (hgoal : F.apps N = [some ([v], goalVal p)]) {T : Tree} {t : LTree (Val R φ)} :
    (IsDeriv F N T ∧ Shows F T t) ↔ ∃ e T0 t0, F.inE N = [e] ∧ F.app e = some ([v], goalVal p) ∧ T = .node e [T0] ∧ t = goalTree p t0 ∧ IsDeriv F v T0 ∧ Shows F T0 t0 := by
  obtain ⟨e0, he0⟩ : ∃ e, F.inE N = [e] := by
    have : (F.apps N).length = 1 := by rw [hgoal]; rfl
    unfold Hypergraph.apps at this
    rw [List.length_map] at this
    exact List.length_eq_one_iff.1 this
  have happ : F.app e0 = some ([v], goalVal p) := by
    unfold Hypergraph.apps at hgoal
    rw [he0] at hgoal
    simpa using hgoal
  obtain ⟨x, hx, hxt, hxv⟩ := app_eq.1 happ
  have htl : F.tails e0 = [v] := by
    unfold Hypergraph.tails
    rw [hx]
    exact hxt
  constructor
  · rintro ⟨h1, h2⟩
    obtain ⟨e, ch⟩ := T
    obtain ⟨b, ts⟩ := t
    obtain ⟨he, hch⟩ := isDeriv_iff.1 h1
    obtain ⟨y, hy, hyb, hts⟩ := shows_iff.1 h2
    rw [he0, List.mem_singleton] at he
    subst he
    rw [htl] at hch
    rw [hx] at hy
    have := Option.some.inj hy
    subst this
    cases hch with
    | cons a b =>
      cases b
      cases hts with
      | cons c d =>
        cases d
        refine ⟨_, _, _, he0, happ, rfl, ?_, a, c⟩
        rw [← hyb, hxv]
        rfl
  · rintro ⟨e, T0, t0, h1, h2, rfl, rfl, h3, h4⟩
    rw [he0] at h1
    have := List.head_eq_of_cons_eq h1
    subst this
    refine ⟨isDeriv_iff.2 ⟨by rw [he0]; simp, by rw [htl]; exact .cons h3 .nil⟩, shows_iff.2 ⟨x, hx, hxv, .cons h4 .nil⟩⟩

/-- The end of `Parse` from a finished chart, and that its forest can be rescored. -/
theorem finish_ready (p : Env ι R φ) (hok : Ok p) (hs : sortUnaries p = some u) (h : FInv p u s) :
    ∃ q b g F, goalLoop p s.psv = some q ∧ (∀ fuel, F ≤ fuel → finish q fuel = some (b, g)) ∧ (b = true ↔ ∃ t, Parse p u p.goalCat 0 p.n t) ∧
      (b = true → WF g ∧ 0 < g.nodes.length ∧ (∀ t, (∃ T, IsDeriv g g.goal T ∧ Shows g T t) ↔ ∃ t0, Parse p u p.goalCat 0 p.n t0 ∧ t = goalTree p t0) ∧
        (Distinct p → ∀ T T' t, IsDeriv g g.goal T → IsDeriv g g.goal T' → Shows g T t → Shows g T' t → T = T') ∧ Dec.Spec.Ready g) := by
  obtain ⟨u', hu', ⟨ρ, hρ⟩, hsub, _⟩ := sortUnaries_spec p
  rw [hs] at hu'
  have := Option.some.inj hu'
  subst this
  cases hv : s.psv.nodemap 0 p.n p.goalCat with
  | none =>
    refine ⟨s.psv, false, s.psv.forest, 0, goalLoop_none h hv hok.goal_ne, fun fuel _ => ?_, ?_, by simp⟩
    · unfold finish
      rw [h.goalNone]
    · simp only [Bool.false_eq_true, false_iff]
      rintro ⟨t, ht⟩
      obtain ⟨v, _, e, _⟩ := parse_deriv hok h (F := s.psv.forest) (fun _ _ => rfl) t _ _ _ ht
      rw [hv] at e
      simp at e
  | some v =>
    obtain ⟨q, hq, hqf, hqg⟩ := goalLoop_some hok h hv
    have hlv : ∀ w ∈ [v], w < s.psv.forest.nodes.length := by
      intro w hw
      rw [List.mem_singleton.1 hw]
      exact h.pinv.map_lt _ _ _ _ hv
    obtain ⟨g1, g2, g3, _, _⟩ := grow_new h.pinv.inv (goalVal p) [v] hlv p.kGoal
    have hdef : connect (addNode (addEdge s.psv.forest (goalVal p) [v]) p.kGoal) s.psv.forest.edges.length s.psv.forest.nodes.length = goalForest p s.psv.forest v := rfl
    rw [hdef] at g1 g2 g3
    generalize hFd : goalForest p s.psv.forest v = F at *
    have hF : Agrees s F := by
      intro w hw
      rw [g3 w, if_neg (by omega)]
    have hgoal : F.apps s.psv.forest.nodes.length = [some ([v], goalVal p)] := by
      rw [g3, if_pos rfl]
    have ⟨hac, hfull⟩ := goal_acyclic hok h hρ hv hF hgoal
    obtain ⟨g, f, pos, ⟨k, hk⟩, wf, hpos, _, _, hreach, hsurj, hbij, hgp⟩ := C06_topological_sort F g1.inRange (fun _ => false) s.psv.forest.nodes.length (by omega) hac
    have bij := hbij _ _ hgp
    have hav : ∀ T, Avoids (fun _ => false) T := fun T e _ => rfl
    have hshow : ∀ T t, IsDeriv F s.psv.forest.nodes.length T → (Shows g (T.map f) t ↔ Shows F T t) := by
      intro T t hT
      exact shows_map T t fun e he => (bij.payload T hT (hav T) e he).2.2
    have hlang : ∀ t, (∃ T, IsDeriv g g.goal T ∧ Shows g T t) ↔ ∃ t0, Parse p u p.goalCat 0 p.n t0 ∧ t = goalTree p t0 := by
      intro t
      constructor
      · rintro ⟨T', h1, h2⟩
        obtain ⟨T, h3, _, rfl⟩ := bij.bwd T' h1
        obtain ⟨e, T0, t0, _, _, _, e2, h4, h5⟩ := (goal_derivs hgoal).1 ⟨h3, (hshow T t h3).1 h2⟩
        exact ⟨t0, deriv_parse hok h hF T0 v _ _ _ t0 hv h4 h5, e2⟩
      · rintro ⟨t0, h1, rfl⟩
        obtain ⟨v', T0, e1, h2, h3⟩ := parse_deriv hok h hF t0 _ _ _ h1
        rw [hv] at e1
        have := Option.some.inj e1
        subst this
        obtain ⟨e0, he0⟩ : ∃ e, F.inE s.psv.forest.nodes.length = [e] := by
          have : (F.apps s.psv.forest.nodes.length).length = 1 := by rw [hgoal]; rfl
          unfold Hypergraph.apps at this
          rw [List.length_map] at this
          exact List.length_eq_one_iff.1 this
        have happ : F.app e0 = some ([v], goalVal p) := by
          unfold Hypergraph.apps at hgoal
          rw [he0] at hgoal
          simpa using hgoal
        have h4 := (goal_derivs (T := .node e0 [T0]) (t := goalTree p t0) hgoal).2 ⟨e0, T0, t0, he0, happ, rfl, rfl, h2, h3⟩
        exact ⟨_, bij.fwd _ h4.1 (hav _), (hshow _ _ h4.1).2 h4.2⟩
    refine ⟨q, true, g, k, hq, fun fuel hf => ?_, ?_, fun _ => ⟨wf, hpos, hlang, ?_, ?_⟩⟩
    · unfold finish
      obtain ⟨gi, hgi⟩ := Option.isSome_iff_exists.1 hqg
      rw [hgi]
      simp only []
      rw [hqf, g2, Nat.add_sub_cancel, hk fuel hf]
      rfl
    · simp only [true_iff]
      obtain ⟨T, hT⟩ := exists_deriv hac hfull _ .goal
      obtain ⟨t, ht⟩ := exists_shows g1.inRange T _ hT
      obtain ⟨_, T0, t0, _, _, _, _, h4, h5⟩ := (goal_derivs hgoal).1 ⟨hT, ht⟩
      exact ⟨t0, deriv_parse hok h hF T0 v _ _ _ t0 hv h4 h5⟩
    · intro hd T T' t h1 h2 h3 h4
      obtain ⟨S, a1, _, rfl⟩ := bij.bwd T h1
      obtain ⟨S', b1, _, rfl⟩ := bij.bwd T' h2
      obtain ⟨e, S0, t0, a2, _, rfl, a3, a4, a5⟩ := (goal_derivs hgoal).1 ⟨a1, (hshow _ t a1).1 h3⟩
      obtain ⟨e', S0', t0', b2, _, rfl, b3, b4, b5⟩ := (goal_derivs hgoal).1 ⟨b1, (hshow _ t b1).1 h4⟩
      rw [a2] at b2
      have e1 := List.head_eq_of_cons_eq b2
      subst e1
      rw [a3] at b3
      simp only [goalTree, LTree.node.injEq, List.cons.injEq, and_true, true_and] at b3
      subst b3
      have hun : u.Nodup := by
        obtain ⟨l, hl1, hl2⟩ := hsub
        exact hl1.nodup_iff.1 ((hd.unaries.filter _).sublist hl2)
      rw [(shows_inj hok hd hun h hF S0 S0' v v _ _ _ _ _ _ t0 hv hv a4 b4 a5 b5).2]
    · have hcF : Consistent F := ⟨g1.nid, g1.eid, g1.tails_lt, g1.head_lt, g1.outc, g1.inc⟩
      have hc : Consistent g := C06_tables_stay_consistent F g1.inRange hcF (fun _ => false) s.psv.forest.nodes.length (by omega) k g (hk k (Nat.le_refl _))
      refine ⟨wf, fun w hw e he => ?_, fun w hw => ?_, fun e he => ?_, hpos⟩
      · have h1 := hc.inc w hw e
        have h2 : g.inE w = (g.nodes[w]).inEdges := by
          simp [Hypergraph.inE, Hypergraph.node, hw]
        rw [h2] at he
        have h3 := List.count_pos_iff.2 he
        by_contra h4
        rw [if_neg h4] at h1
        omega
      · obtain ⟨v', hv'⟩ := (hsurj w).1 hw
        have hr := (hreach v').1 (by rw [hv']; rfl)
        obtain ⟨T, hT⟩ := exists_deriv hac hfull v' hr
        have := (hbij v' w hv').fwd T hT (hav T)
        intro h0
        obtain ⟨e, ch⟩ := T
        rw [Tree.map] at this
        have := (isDeriv_iff.1 this).1
        rw [h0] at this
        simp at this
      · obtain ⟨T0, hT0⟩ : ∃ ch, IsDeriv g g.goal (.node e ch) := by
          have hgl : g.goal < g.nodes.length := by unfold Hypergraph.goal; omega
          have : ∀ ws : List Nat, (∀ w ∈ ws, w < g.nodes.length) → ∃ ch, List.Forall₂ (IsDeriv g) ws ch := by
            intro ws
            induction ws with
            | nil => exact fun _ => ⟨[], .nil⟩
            | cons w ws ih =>
              intro hws
              obtain ⟨ch, hch⟩ := ih fun x hx => hws x (by simp [hx])
              obtain ⟨v', hv'⟩ := (hsurj w).1 (hws w (by simp))
              obtain ⟨T, hT⟩ := exists_deriv hac hfull v' ((hreach v').1 (by rw [hv']; rfl))
              exact ⟨_, .cons ((hbij v' w hv').fwd T hT (hav T)) hch⟩
          obtain ⟨ch, hch⟩ := this (g.tails e) fun w hw => Nat.lt_trans (wf.topo _ hgl e he w hw) hgl
          exact ⟨ch, isDeriv_iff.2 ⟨he, hch⟩⟩
        obtain ⟨S, a1, _, a2⟩ := bij.bwd _ hT0
        obtain ⟨t, ht⟩ := exists_shows g1.inRange S _ a1
        obtain ⟨e', S0, t0, _, _, rfl, _, _, _⟩ := (goal_derivs hgoal).1 ⟨a1, ht⟩
        rw [Tree.map] at a2
        simp only [Tree.node.injEq] at a2
        have h5 := (isDeriv_iff.1 hT0).2.length_eq
        rw [← a2.2] at h5
        simpa using h5

/-- The whole of `Parse`, and that its forest can be rescored. -/
theorem parse_ready (p : Env ι R φ) (hok : Ok p) (hs : sortUnaries p = some u) :
    ∃ b g F, (∀ fuel, F ≤ fuel → parse p fuel = some (b, g)) ∧ (b = true ↔ ∃ t, Parse p u p.goalCat 0 p.n t) ∧
      (b = true → WF g ∧ 0 < g.nodes.length ∧ (∀ t, (∃ T, IsDeriv g g.goal T ∧ Shows g T t) ↔ ∃ t0, Parse p u p.goalCat 0 p.n t0 ∧ t = goalTree p t0) ∧
        (Distinct p → ∀ T T' t, IsDeriv g g.goal T → IsDeriv g g.goal T' → Shows g T t → Shows g T' t → T = T') ∧ Dec.Spec.Ready g) := by
  obtain ⟨u', hu', ⟨ρ, hρ⟩, hsub, _⟩ := sortUnaries_spec p
  rw [hs] at hu'
  have := Option.some.inj hu'
  subst this
  have hmem : ∀ r ∈ u, r ∈ p.unaries := fun r hr => List.mem_of_mem_filter (hsub.subset hr)
  have hu : ∀ r ∈ u, p.lhs r ≠ p.kGoal := fun r hr => hok.unaries_ne r (hmem r hr)
  by_cases hn : p.n = 0
  · refine ⟨false, empty, 0, fun fuel _ => ?_, ?_, by simp⟩
    · unfold parse
      rw [hs]
      simp only []
      rw [hn]
      rfl
    · simp only [Bool.false_eq_true, false_iff]
      rintro ⟨t, ht⟩
      have := parse_span ht
      omega
  · obtain ⟨s, h, hrun⟩ := sinv_end hok hu (by omega)
    obtain ⟨q, b, g, F, hq, hf, hrest⟩ := finish_ready p hok hs (h.final hok)
    refine ⟨b, g, F, fun fuel hF => ?_, hrest⟩
    unfold parse
    rw [hs]
    simp only []
    rw [hrun, hq]
    exact hf fuel hF

/-- The whole of `Parse`. -/
theorem parse_core (p : Env ι R φ) (hok : Ok p) (hs : sortUnaries p = some u) :
    ∃ b g F, (∀ fuel, F ≤ fuel → parse p fuel = some (b, g)) ∧ (b = true ↔ ∃ t, Parse p u p.goalCat 0 p.n t) ∧
      (b = true → WF g ∧ 0 < g.nodes.length ∧ (∀ t, (∃ T, IsDeriv g g.goal T ∧ Shows g T t) ↔ ∃ t0, Parse p u p.goalCat 0 p.n t0 ∧ t = goalTree p t0) ∧
        (Distinct p → ∀ T T' t, IsDeriv g g.goal T → IsDeriv g g.goal T' → Shows g T t → Shows g T' t → T = T')) := by
  obtain ⟨b, g, F, h1, h2, h3⟩ := parse_ready p hok hs
  exact ⟨b, g, F, h1, h2, fun hb => ⟨(h3 hb).1, (h3 hb).2.1, (h3 hb).2.2.1, (h3 hb).2.2.2.1⟩⟩

end Cdec.Dec.Parser
