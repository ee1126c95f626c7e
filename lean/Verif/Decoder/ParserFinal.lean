import Verif.Decoder.ParserUnique
import Verif.Decoder.UnarySort
import Verif.Props.C06
/-! The goal node, the order of the nodes, and one derivation per parse. -/
namespace Cdec.Dec.Parser
open Cdec.HG Spec
variable {ι R φ : Type} [Add φ] [Zero φ] {p : Env ι R φ} {u : List R} {s : State ι R φ}

/-- The payload of the goal edge. -/
def goalVal (p : Env ι R φ) : Val R φ := ⟨p.goalRule, 0, p.n, p.rfeats p.goalRule + 0, [none]⟩

/-- The forest with the goal node. -/
def goalForest (p : Env ι R φ) (g : Hypergraph (Val R φ)) (v : Nat) : Hypergraph (Val R φ) :=
  connect (addNode (addEdge g (goalVal p) [v]) p.kGoal) g.edges.length g.nodes.length

theorem goalLoop_none (h : FInv p u s) (hn : s.psv.nodemap 0 p.n p.goalCat = none) (hg : p.goalCat ≠ p.kGoal) : goalLoop p s.psv = some s.psv := by
  unfold goalLoop
  have : ∀ v ∈ s.psv.chart 0 p.n, s.psv.cat v ≠ p.goalCat := by
    intro v hv e
    have := (h.pinv.map_iff 0 p.n p.goalCat v hg).2 ⟨hv, e⟩
    rw [hn] at this
    simp at this
  generalize s.psv.chart 0 p.n = l at this
  induction l with
  | nil => rfl
  | cons v l ih =>
    rw [List.foldlM_cons, if_neg (this v (by simp))]
    exact ih fun w hw => this w (by simp [hw])

theorem goalLoop_some (hok : Ok p) (h : FInv p u s) {v : Nat} (hv : s.psv.nodemap 0 p.n p.goalCat = some v) :
    ∃ q, goalLoop p s.psv = some q ∧ q.forest = goalForest p s.psv.forest v ∧ q.goalIdx.isSome := by
  have hnm := h.named hv
  have hl : ∀ x : Val R φ, (addEdge s.psv.forest x [v]).nodes.length = s.psv.forest.nodes.length := by
    intro x; simp [addEdge, indexTails_length]
  have hlv : ∀ w ∈ [v], w < s.psv.forest.nodes.length := by
    intro w hw
    rw [List.mem_singleton.1 hw]
    exact h.pinv.lt _ _ _ hnm.2.2.2.1
  obtain ⟨_, g2, _, g4, g5⟩ := grow_new h.pinv.inv (goalVal p) [v] hlv p.kGoal
  have hap : ∃ q, applyRule p 0 p.n p.goalRule [v] 0 [none] s.psv = some q ∧ q.forest = goalForest p s.psv.forest v ∧ q.goalIdx.isSome := by
    unfold applyRule
    simp only [hok.goal, h.pinv.goal h.goalNone, h.goalNone, if_true]
    refine ⟨_, rfl, ?_, rfl⟩
    simp only [hl]
    rfl
  obtain ⟨q, e1, e2, e3⟩ := hap
  have hcat : ∀ w ∈ s.psv.chart 0 p.n, q.cat w = s.psv.cat w := by
    intro w hw
    unfold Passive.cat
    rw [e2]
    exact g4 w (h.pinv.lt _ _ _ hw)
  obtain ⟨l1, l2, hsplit⟩ := List.append_of_mem hnm.2.2.2.1
  have huniq : ∀ w ∈ s.psv.chart 0 p.n, s.psv.cat w = p.goalCat → w = v := fun w hw e => h.pinv.cat_inj hw hnm.2.2.2.1 (e.trans hnm.2.2.2.2.symm)
  have hnd := h.pinv.nodup 0 p.n
  rw [hsplit] at hnd huniq hcat
  have hnd' := List.nodup_append.1 hnd
  have hnd2 := List.nodup_cons.1 hnd'.2.1
  have skip : ∀ (l : List Nat) (q' : Passive R φ), (∀ w ∈ l, q'.cat w ≠ p.goalCat) → l.foldlM (fun q' v => if q'.cat v = p.goalCat then applyRule p 0 p.n p.goalRule [v] 0 [none] q' else some q') q' = some q' := by
    intro l
    induction l with
    | nil => intro q' _; rfl
    | cons w l ih =>
      intro q' hw
      rw [List.foldlM_cons, if_neg (hw w (by simp))]
      exact ih q' fun x hx => hw x (by simp [hx])
  refine ⟨q, ?_, e2, e3⟩
  unfold goalLoop
  rw [hsplit, List.foldlM_append, skip l1 s.psv ?_]
  · simp only [Option.bind_eq_bind, Option.bind_some, List.foldlM_cons, if_pos hnm.2.2.2.2, e1]
    apply skip
    intro w hw e
    rw [hcat w (by simp [hw])] at e
    have := huniq w (by simp [hw]) e
    rw [this] at hw
    exact hnd2.1 hw
  · intro w hw e
    have := huniq w (by simp [hw]) e
    exact hnd'.2.2 w hw v (by simp) this

omit [Add φ] [Zero φ] in
/-- A rank for the nodes of the chart. -/
theorem exists_rank (h : PInv p s.psv) (ρ : Int → Nat) (M top : Nat) : ∃ rk : Nat → Nat, (∀ a b, ∀ v ∈ s.psv.chart a b, rk v = (b - a) * (M + 1) + min (ρ (s.psv.cat v)) M) ∧
    ∀ v, (∀ a b, v ∉ s.psv.chart a b) → rk v = top := by
  classical
  refine ⟨fun v => if hx : ∃ ab : Nat × Nat, v ∈ s.psv.chart ab.1 ab.2 then (hx.choose.2 - hx.choose.1) * (M + 1) + min (ρ (s.psv.cat v)) M else top, ?_, ?_⟩
  · intro a b v hv
    have hx : ∃ ab : Nat × Nat, v ∈ s.psv.chart ab.1 ab.2 := ⟨(a, b), hv⟩
    beta_reduce
    rw [dif_pos hx]
    have := h.disj hx.choose_spec hv
    rw [this.1, this.2]
  · intro v hv
    beta_reduce
    rw [dif_neg]
    rintro ⟨ab, hx⟩
    exact hv _ _ hx

theorem le_foldr_max (l : List Nat) : ∀ x ∈ l, x ≤ l.foldr max 0 := by
  induction l with
  | nil => simp
  | cons y l ih =>
    intro x hx
    rw [List.foldr_cons]
    rcases List.mem_cons.1 hx with rfl | hx
    · exact Nat.le_max_left _ _
    · exact Nat.le_trans (ih x hx) (Nat.le_max_right _ _)

theorem goal_acyclic (hok : Ok p) (h : FInv p u s) {ρ : Int → Nat} (hρ : ∀ r ∈ u, ρ (p.rhs r) < ρ (p.lhs r)) {v : Nat} (hv : s.psv.nodemap 0 p.n p.goalCat = some v)
    {F : Hypergraph (Val R φ)} (hF : Agrees s F) (hgoal : F.apps s.psv.forest.nodes.length = [some ([v], goalVal p)]) :
    AcyclicFrom F (fun _ => false) s.psv.forest.nodes.length ∧ ∀ w, Reach F (fun _ => false) s.psv.forest.nodes.length w → F.inE w ≠ [] := by
  have hnm := h.named hv
  obtain ⟨rk, hr1, hr2⟩ := exists_rank h.pinv ρ ((u.map fun r => ρ (p.lhs r)).foldr max 0) ((p.n + 1) * ((u.map fun r => ρ (p.lhs r)).foldr max 0 + 1))
  generalize hM : (u.map fun r => ρ (p.lhs r)).foldr max 0 = M at hr1 hr2
  have hMle : ∀ r ∈ u, ρ (p.lhs r) ≤ M := by
    intro r hr
    rw [← hM]
    exact le_foldr_max _ _ (List.mem_map.2 ⟨r, hr, rfl⟩)
  have hgt : rk s.psv.forest.nodes.length = (p.n + 1) * (M + 1) := by
    apply hr2
    intro a b hx
    have := h.pinv.lt a b _ hx
    omega
  -- tails of edges of chart nodes
  have edge : ∀ i j w, w ∈ s.psv.chart i j → ∀ e ∈ F.inE w, ∀ t ∈ F.tails e, (∃ a b, t ∈ s.psv.chart a b) ∧ rk t < rk w := by
    intro i j w hw e he t ht
    have hwn := h.chart hw
    have hwm := h.named hwn
    obtain ⟨b, hb, hbc, hba⟩ := (edge_iff h hF hwn).1 ⟨e, he, rfl⟩
    obtain ⟨ed, he1, he2, he3⟩ := app_eq.1 hba
    have htl : F.tails e = b.ants := by
      unfold Hypergraph.tails
      rw [he1]
      exact he2
    rw [htl] at ht
    rcases mem_cellJobs.1 hb with ⟨gi, G, hG, hh, it, hit, r, hr, rfl⟩ | ⟨x, hx, r, hr, hc, rfl⟩
    · obtain ⟨a, b, c1, c2, c3⟩ := ants_short hok h hG (by omega) hit hr ht
      refine ⟨⟨a, b, c1⟩, ?_⟩
      rw [hr1 a b t c1, hr1 i j w hw]
      have h1 : min (ρ (s.psv.cat t)) M ≤ M := Nat.min_le_right _ _
      have h2 : (b - a + 1) * (M + 1) ≤ (j - i) * (M + 1) := Nat.mul_le_mul_right _ (by omega)
      rw [Nat.add_mul, Nat.one_mul] at h2
      omega
    · simp only [List.mem_singleton] at ht
      subst ht
      refine ⟨⟨i, j, hx⟩, ?_⟩
      rw [hr1 i j t hx, hr1 i j w hw, ← hc, ← hbc]
      have := hρ r hr
      have := hMle r hr
      simp only []
      rw [Nat.min_eq_left (by omega), Nat.min_eq_left (by omega)]
      omega
  have goalEdge : ∀ e ∈ F.inE s.psv.forest.nodes.length, F.tails e = [v] := by
    intro e he
    have : F.app e ∈ F.apps s.psv.forest.nodes.length := List.mem_map.2 ⟨e, he, rfl⟩
    rw [hgoal, List.mem_singleton] at this
    obtain ⟨ed, he1, he2, _⟩ := app_eq.1 this
    unfold Hypergraph.tails
    rw [he1]
    exact he2
  have hreach : ∀ w, Reach F (fun _ => false) s.psv.forest.nodes.length w → w = s.psv.forest.nodes.length ∨ ∃ a b, w ∈ s.psv.chart a b := by
    intro w hw
    induction hw with
    | goal => exact .inl rfl
    | tail _ he _ ht ih =>
      right
      rcases ih with rfl | ⟨a, b, hx⟩
      · rw [goalEdge _ he, List.mem_singleton] at ht
        exact ⟨0, p.n, ht ▸ hnm.2.2.2.1⟩
      · exact (edge a b _ hx _ he _ ht).1
  refine ⟨⟨rk, ?_⟩, ?_⟩
  rotate_left
  · intro w hw e
    have : F.apps w = [] := by
      unfold Hypergraph.apps
      rw [e]
      rfl
    rcases hreach w hw with rfl | ⟨a, b, hx⟩
    · rw [hgoal] at this
      simp at this
    · rw [hF w (h.pinv.lt a b w hx)] at this
      exact h.pinv.full _ _ _ w (h.chart hx) this
  intro w hw e he _ t ht
  rcases hreach w hw with rfl | ⟨a, b, hx⟩
  · rw [goalEdge e he, List.mem_singleton] at ht
    subst ht
    rw [hgt, hr1 0 p.n t hnm.2.2.2.1]
    have : min (ρ (s.psv.cat t)) M ≤ M := Nat.min_le_right _ _
    rw [Nat.add_mul, Nat.one_mul]
    have : (p.n - 0) * (M + 1) = p.n * (M + 1) := by simp
    omega
  · exact (edge a b w hx e he t ht).2

/-- A tree shows at most one derivation of a node of the chart. -/
theorem shows_inj (hok : Ok p) (hd : Distinct p) (hu : u.Nodup) (h : FInv p u s) {F : Hypergraph (Val R φ)} (hF : Agrees s F) (T : Tree) :
    ∀ T' v v' i j c i' j' c' t, s.psv.nodemap i j c = some v → s.psv.nodemap i' j' c' = some v' → IsDeriv F v T → IsDeriv F v' T' → Shows F T t → Shows F T' t → v = v' ∧ T = T' := by
  induction T using Tree.rec (motive_2 := fun ch => ∀ ch' vs vs' ts, (∀ v ∈ vs, ∃ i j c, s.psv.nodemap i j c = some v) → (∀ v ∈ vs', ∃ i j c, s.psv.nodemap i j c = some v) →
      List.Forall₂ (IsDeriv F) vs ch → List.Forall₂ (IsDeriv F) vs' ch' → List.Forall₂ (Shows F) ch ts → List.Forall₂ (Shows F) ch' ts → vs = vs' ∧ ch = ch') with
  | node e ch ih =>
    rintro ⟨e', ch'⟩ v v' i j c i' j' c' ⟨b, ts⟩ hv hv' hd1 hd2 hs1 hs2
    obtain ⟨he, hch⟩ := isDeriv_iff.1 hd1
    obtain ⟨he', hch'⟩ := isDeriv_iff.1 hd2
    obtain ⟨x, hx, hxb, hts⟩ := shows_iff.1 hs1
    obtain ⟨x', hx', hxb', hts'⟩ := shows_iff.1 hs2
    have happ : F.app e = some (x.tails, b) := app_eq.2 ⟨x, hx, rfl, hxb⟩
    have happ' : F.app e' = some (x'.tails, b) := app_eq.2 ⟨x', hx', rfl, hxb'⟩
    have htl : F.tails e = x.tails := by
      unfold Hypergraph.tails
      rw [hx]
    have htl' : F.tails e' = x'.tails := by
      unfold Hypergraph.tails
      rw [hx']
    obtain ⟨bj, hb, hbc, hba⟩ := (edge_iff h hF hv).1 ⟨e, he, rfl⟩
    obtain ⟨bj', hb', hbc', hba'⟩ := (edge_iff h hF hv').1 ⟨e', he', rfl⟩
    rw [happ] at hba
    rw [happ'] at hba'
    have q1 : (x.tails, b) = bj.app p i j := Option.some.inj hba
    have q2 : (x'.tails, b) = bj'.app p i' j' := Option.some.inj hba'
    unfold Job.app mkApp at q1 q2
    rw [Prod.mk.injEq] at q1 q2
    have hbb := q1.2.symm.trans q2.2
    simp only [Val.mk.injEq] at hbb
    obtain ⟨hrr, rfl, rfl, _, _⟩ := hbb
    have hcc : c = c' := by rw [← hbc, ← hbc', hrr]
    subst hcc
    have hvv : v = v' := by
      rw [hv] at hv'
      exact Option.some.inj hv'
    subst hvv
    have hnames : ∀ bj ∈ cellJobs p u s.psv s.act i j, ∀ w ∈ bj.ants, ∃ a b c, s.psv.nodemap a b c = some w := by
      intro bj hb w hw
      have hnm := h.named hv
      rcases mem_cellJobs.1 hb with ⟨gi, G, hG, hh, it, hit, r, hr, rfl⟩ | ⟨y, hy, r, hr, hc, rfl⟩
      · obtain ⟨a, b, c1, _⟩ := ants_short hok h hG (by omega) hit hr hw
        exact ⟨a, b, _, h.chart c1⟩
      · simp only [List.mem_singleton] at hw
        exact ⟨i, j, _, hw ▸ h.chart hy⟩
    rw [htl, q1.1] at hch
    rw [htl', q2.1] at hch'
    obtain ⟨hants, hcc⟩ := ih ch' _ _ ts (hnames bj hb) (hnames bj' hb') hch hch' hts hts'
    refine ⟨rfl, ?_⟩
    have hee : F.app e = F.app e' := by
      rw [happ, happ', q1.1, q2.1, hants]
    have hnd : (F.apps v).Nodup := by
      rw [hF v (h.pinv.map_lt _ _ _ _ hv)]
      have hnm := h.named hv
      have h1 := h.done i j hnm.1 hnm.2.1 c
      unfold Passive.at at h1
      rw [hv] at h1
      simp only [] at h1
      rw [h1.nodup_iff]
      unfold appsOf
      have := jobs_nodup hok hd hu h hnm.1 hnm.2.1
      have hsub : (((cellJobs p u s.psv s.act i j).filter fun b => decide (p.lhs b.r = c)).map (Job.app p i j)).Nodup := this.sublist ((List.filter_sublist).map _)
      have := hsub.map (f := some) (fun _ _ e => Option.some.inj e)
      rwa [List.map_map] at this
    have := List.inj_on_of_nodup_map hnd he he' hee
    rw [this, hcc]
  | nil =>
    rename_i ch' vs vs' ts n1 n2 d1 d2 s1 s2
    cases d1
    cases s1
    cases s2
    cases d2
    exact ⟨rfl, rfl⟩
  | cons T ch ih1 ih2 =>
    rename_i ch' vs vs' ts n1 n2 d1 d2 s1 s2
    cases d1 with
    | cons a1 a2 =>
      cases s1 with
      | cons b1 b2 =>
        cases s2 with
        | cons c1 c2 =>
          cases d2 with
          | cons e1 e2 =>
            obtain ⟨i, j, c, hn⟩ := n1 _ List.mem_cons_self
            obtain ⟨i', j', c', hn'⟩ := n2 _ List.mem_cons_self
            obtain ⟨r1, r2⟩ := ih1 _ _ _ _ _ _ _ _ _ _ hn hn' a1 e1 b1 c1
            obtain ⟨r3, r4⟩ := ih2 _ _ _ _ (fun v hv => n1 v (List.mem_cons_of_mem _ hv)) (fun v hv => n2 v (List.mem_cons_of_mem _ hv)) a2 e2 b2 c2
            exact ⟨by rw [r1, r3], by rw [r2, r4]⟩

/-- Derivations with renamed edges show the same trees. -/
theorem shows_map {β : Type} {g h : Hypergraph β} {f : Nat → Nat} (T : Tree) : ∀ t, (∀ e ∈ T.edges, (h.edges[f e]?).map Edge.val = (g.edges[e]?).map Edge.val) →
    (Shows h (T.map f) t ↔ Shows g T t) := by
  induction T using Tree.rec (motive_2 := fun ch => ∀ ts, (∀ e ∈ ch.flatMap fun t => t.edges, (h.edges[f e]?).map Edge.val = (g.edges[e]?).map Edge.val) →
      (List.Forall₂ (Shows h) (ch.map fun t => t.map f) ts ↔ List.Forall₂ (Shows g) ch ts)) with
  | node e ch ih =>
    rintro ⟨b, ts⟩ hp
    rw [Tree.edges] at hp
    rw [tree_map_node, shows_iff, shows_iff]
    have he := hp e (by simp)
    have hc := ih ts (fun x hx => hp x (List.mem_cons_of_mem _ hx))
    constructor
    · rintro ⟨x, h1, h2, h3⟩
      rw [h1] at he
      obtain ⟨y, hy, e'⟩ := Option.map_eq_some_iff.1 he.symm
      exact ⟨y, hy, e'.trans h2, hc.1 h3⟩
    · rintro ⟨x, h1, h2, h3⟩
      rw [h1] at he
      obtain ⟨y, hy, e'⟩ := Option.map_eq_some_iff.1 he
      exact ⟨y, hy, e'.trans h2, hc.2 h3⟩
  | nil =>
    rename_i ts hp
    simp
  | cons T ch ih1 ih2 =>
    rename_i ts hp
    simp only [List.flatMap_cons, List.mem_append] at hp
    cases ts with
    | nil => simp
    | cons t ts =>
      rw [List.map_cons, List.forall₂_cons, List.forall₂_cons, ih1 t (fun e he => hp e (.inl he)), ih2 ts (fun e he => hp e (.inr he))]

end Cdec.Dec.Parser
