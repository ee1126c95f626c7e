import Verif.Decoder.ParserSem
import Mathlib.Data.List.Nodup
import Mathlib.Data.List.Pairwise
/-! No application is made twice. -/
namespace Cdec.Dec.Parser
open Cdec.HG Spec
variable {ι R φ : Type}

/-- The nodes among the steps. -/
def nodesOf (l : List Step) : List Nat := l.filterMap fun st => match st with
  | .arc _ _ => none
  | .node v => some v

theorem steps_inj : ∀ l l' : List Step, l.map Step.shape = l'.map Step.shape → nodesOf l = nodesOf l' → l = l' := by
  intro l
  induction l with
  | nil => intro l' h _; cases l' with
    | nil => rfl
    | cons => simp at h
  | cons a l ih =>
    intro l' h1 h2
    cases l' with
    | nil => simp at h1
    | cons b l' =>
      simp only [List.map_cons, List.cons.injEq] at h1
      cases a with
      | arc k i =>
        cases b with
        | arc k' i' =>
          simp only [Step.shape, Option.some.injEq, Prod.mk.injEq] at h1
          rw [h1.1.1, h1.1.2, ih l' h1.2 h2]
        | node v => simp [Step.shape] at h1
      | node v =>
        cases b with
        | arc k' i' => simp [Step.shape] at h1
        | node w =>
          simp only [nodesOf, List.filterMap_cons, List.cons.injEq] at h2
          rw [h2.1, ih l' h1.2 h2.2]

theorem nodesOf_append (a b : List Step) : nodesOf (a ++ b) = nodesOf a ++ nodesOf b := by simp [nodesOf]

variable [Add φ] [Zero φ] {p : Env ι R φ} {u : List R} {s : State ι R φ}

theorem items_ants (hok : Ok p) (h : FInv p u s) {gi : Nat} {G : Gram ι R} (hG : p.grams[gi]? = some G) {i : Nat} (hi : i ≤ p.n) (m : Nat) :
    ∀ it ∈ s.act gi i m, it.ants = nodesOf it.steps := by
  induction m using Nat.strongRecOn with
  | ind m ih =>
    intro it hit
    rcases (h.items _ _ hG _ hi _ _).1 hit with ⟨rfl, hh, rfl⟩ | ⟨k, hk1, hk2, hh, ⟨rfl, k', h1, h2, hx⟩ | hx⟩
    · rfl
    · obtain ⟨y, hy, v, hv, g, hg, rfl⟩ := mem_nodeExts.1 hx
      simp only [nodesOf_append, ← ih k' h2 y hy]
      rfl
    · obtain ⟨idx, a, ha, rfl, y, hy, g, hg, rfl⟩ := mem_arcExts.1 hx
      have hlen := (hok.arcs k a (List.mem_of_getElem? ha)).1
      simp only [nodesOf_append, ← ih k (by omega) y hy]
      simp [nodesOf]

/-- Where antecedents are. -/
theorem ants_span (hok : Ok p) (h : FInv p u s) {gi : Nat} {G : Gram ι R} (hG : p.grams[gi]? = some G) {i : Nat} (hi : i ≤ p.n) (m : Nat) :
    ∀ it ∈ s.act gi i m, ∀ w ∈ it.ants, ∃ a b, w ∈ s.psv.chart a b ∧ i ≤ a ∧ b ≤ m ∧ (a = i → b = m → G.extend G.root (s.psv.cat w) = some it.g) := by
  have hp := fun k a ha => (hok.arcs k a ha).1
  induction m using Nat.strongRecOn with
  | ind m ih =>
    intro it hit w hw
    rcases (h.items _ _ hG _ hi _ _).1 hit with ⟨rfl, hh, rfl⟩ | ⟨k, hk1, hk2, hh, ⟨rfl, k', h1, h2, hx⟩ | hx⟩
    · simp at hw
    · obtain ⟨y, hy, v, hv, g, hg, rfl⟩ := mem_nodeExts.1 hx
      simp only [List.mem_append, List.mem_singleton] at hw
      rcases hw with hw | rfl
      · obtain ⟨a, b, h3, h4, h5, _⟩ := ih k' h2 y hy w hw
        exact ⟨a, b, h3, h4, by omega, fun _ _ => by omega⟩
      · refine ⟨k', k + 1, hv, h1, Nat.le_refl _, ?_⟩
        rintro rfl _
        rcases (h.items _ _ hG _ hi _ _).1 hy with ⟨_, _, rfl⟩ | ⟨k2, b1, _, _, ⟨b2, _⟩ | b2⟩
        · exact hg
        · omega
        · obtain ⟨_, a2, ha2, b3, _⟩ := mem_arcExts.1 b2
          have := hp k2 a2 (List.mem_of_getElem? ha2)
          omega
    · obtain ⟨idx, a, ha, rfl, y, hy, g, hg, rfl⟩ := mem_arcExts.1 hx
      have hlen := hp k a (List.mem_of_getElem? ha)
      obtain ⟨a', b', h3, h4, h5, _⟩ := ih k (by omega) y hy w hw
      exact ⟨a', b', h3, h4, by omega, fun _ _ => by omega⟩

/-- Antecedents of items with rules are shorter. -/
theorem ants_short (hok : Ok p) (h : FInv p u s) {gi : Nat} {G : Gram ι R} (hG : p.grams[gi]? = some G) {i m : Nat} (hi : i ≤ p.n) {it : Item ι φ}
    (hit : it ∈ s.act gi i m) {r : R} (hr : r ∈ G.rules it.g) {w : Nat} (hw : w ∈ it.ants) : ∃ a b, w ∈ s.psv.chart a b ∧ a < b ∧ b - a < m - i := by
  obtain ⟨a, b, h1, h2, h3, h4⟩ := ants_span hok h hG hi m it hit w hw
  have hnm := h.named (h.chart h1)
  refine ⟨a, b, h1, hnm.1, ?_⟩
  by_contra hc
  have hs := hok.single G (List.mem_of_getElem? hG) _ _ (h.pinv.cat_lhs a b w h1) (h4 (by omega) (by omega))
  rw [hs] at hr
  simp at hr

theorem nodup_map_flatMap {α β γ : Type} {f : β → γ} {g : α → List β} {l : List α} (h1 : ∀ x ∈ l, ((g x).map f).Nodup)
    (h2 : l.Pairwise fun x y => ∀ a ∈ g x, ∀ b ∈ g y, f a ≠ f b) : ((l.flatMap g).map f).Nodup := by
  rw [List.map_flatMap, List.nodup_flatMap]
  refine ⟨h1, h2.imp ?_⟩
  intro x y hxy z hz1 hz2
  obtain ⟨a, ha, e1⟩ := List.mem_map.1 hz1
  obtain ⟨b, hb, e2⟩ := List.mem_map.1 hz2
  exact hxy a ha b hb (e1.trans e2.symm)

/-- Items of a cell differ in their steps. -/
theorem items_nodup (hok : Ok p) (h : SInv p u (p.n + 1) 0 s) {gi : Nat} {G : Gram ι R} (hG : p.grams[gi]? = some G) {i : Nat} (hi : i ≤ p.n) (m : Nat) :
    ((s.act gi i m).map Item.steps).Nodup := by
  have hp := fun k a ha => (hok.arcs k a ha).1
  have hrow := h.rowN hG hi
  induction m using Nat.strongRecOn with
  | ind m ih =>
    have node_nd : ∀ k < m, ((nodeExts s.psv G (s.act gi i) k m).map Item.steps).Nodup := by
      intro k hk
      unfold nodeExts
      refine nodup_map_flatMap ?_ ?_
      · intro y hy
        have : ((s.psv.chart k m).filterMap fun v => extNode s.psv G v y).map Item.steps = ((s.psv.chart k m).filter fun v => (extNode s.psv G v y).isSome).map fun v => y.steps ++ [.node v] := by
          generalize s.psv.chart k m = l
          induction l with
          | nil => rfl
          | cons v l ihl =>
            rw [List.filterMap_cons, List.filter_cons]
            cases he : extNode s.psv G v y with
            | none => simpa using ihl
            | some x =>
              unfold extNode at he
              obtain ⟨g, _, e⟩ := Option.map_eq_some_iff.1 he
              simp [ihl, ← e]
        rw [this]
        refine ((h.pinv.nodup k m).filter _).map ?_
        intro a b hab
        simpa using hab
      · have := List.pairwise_map.1 (ih k hk)
        refine this.imp ?_
        intro x y hxy a ha b hb hab
        obtain ⟨v, _, e1⟩ := List.mem_filterMap.1 ha
        obtain ⟨w, _, e2⟩ := List.mem_filterMap.1 hb
        unfold extNode at e1 e2
        obtain ⟨_, _, e1⟩ := Option.map_eq_some_iff.1 e1
        obtain ⟨_, _, e2⟩ := Option.map_eq_some_iff.1 e2
        rw [← e1, ← e2] at hab
        exact hxy (List.append_inj_left' hab rfl)
    have node_last : ∀ k, ∀ it ∈ nodeExts s.psv G (s.act gi i) k m, ∃ l v, v ∈ s.psv.chart k m ∧ it.steps = l ++ [.node v] := by
      intro k it hit
      obtain ⟨y, _, v, hv, _, _, rfl⟩ := mem_nodeExts.1 hit
      exact ⟨_, v, hv, rfl⟩
    have arc_last : ∀ k, ∀ it ∈ arcExts p G (s.act gi i) k m, ∃ l idx, it.steps = l ++ [.arc k idx] := by
      intro k it hit
      obtain ⟨idx, a, _, _, y, _, _, _, rfl⟩ := mem_arcExts.1 hit
      exact ⟨_, idx, rfl⟩
    have node_node : ∀ k k', k ≠ k' → ∀ x ∈ nodeExts s.psv G (s.act gi i) k m, ∀ y ∈ nodeExts s.psv G (s.act gi i) k' m, x.steps ≠ y.steps := by
      intro k k' hne x hx y hy hxy
      obtain ⟨l, v, hv, e⟩ := node_last k x hx
      obtain ⟨l', w, hw, e'⟩ := node_last k' y hy
      rw [e, e'] at hxy
      have := List.append_inj_right' hxy rfl
      simp at this
      subst this
      exact hne (h.pinv.disj hv hw).1
    have node_arc : ∀ k k', ∀ x ∈ nodeExts s.psv G (s.act gi i) k m, ∀ y ∈ arcExts p G (s.act gi i) k' m, x.steps ≠ y.steps := by
      intro k k' x hx y hy hxy
      obtain ⟨l, v, _, e⟩ := node_last k x hx
      obtain ⟨l', idx, e'⟩ := arc_last k' y hy
      rw [e, e'] at hxy
      have := List.append_inj_right' hxy rfl
      simp at this
    have arc_arc : ∀ k k', k ≠ k' → ∀ x ∈ arcExts p G (s.act gi i) k m, ∀ y ∈ arcExts p G (s.act gi i) k' m, x.steps ≠ y.steps := by
      intro k k' hne x hx y hy hxy
      obtain ⟨l, idx, e⟩ := arc_last k x hx
      obtain ⟨l', idx', e'⟩ := arc_last k' y hy
      rw [e, e'] at hxy
      have := List.append_inj_right' hxy rfl
      simp at this
      exact hne this.1
    have arc_nd : ∀ k, ((arcExts p G (s.act gi i) k m).map Item.steps).Nodup := by
      intro k
      have ext_steps : ∀ (idx : Nat) (a : Arc φ) (x y : Item ι φ), extTerm p G k idx a x = some y → y.steps = x.steps ++ [.arc k idx] := by
        intro idx a x y he
        unfold extTerm at he
        split at he
        · rw [← Option.some.inj he]
        · obtain ⟨_, _, e⟩ := Option.map_eq_some_iff.1 he
          rw [← e]
      unfold arcExts
      refine nodup_map_flatMap ?_ ?_
      · intro a ha
        split
        · rename_i hm
          have hlen := hp k a.1 (List.fst_mem_of_mem_zipIdx ha)
          have := ih k (by omega)
          generalize s.act gi i k = l at this
          have e : (l.filterMap (extTerm p G k a.2 a.1)).map Item.steps = ((l.filter fun y => (extTerm p G k a.2 a.1 y).isSome).map Item.steps).map fun x => x ++ [.arc k a.2] := by
            clear this
            induction l with
            | nil => rfl
            | cons y l ihl =>
              rw [List.filterMap_cons, List.filter_cons]
              cases he : extTerm p G k a.2 a.1 y with
              | none => simpa using ihl
              | some x =>
                simp only [List.map_cons, Option.isSome_some, if_true, ihl, ext_steps _ _ _ _ he]
          rw [e]
          refine List.Nodup.map ?_ (this.sublist ((List.filter_sublist).map _))
          intro a b hab
          simpa using hab
        · simp
      · have hnd : ((p.lat.getD k []).zipIdx.map Prod.snd).Nodup := by
          rw [List.zipIdx_map_snd]
          exact List.nodup_range'
        refine (List.pairwise_map.1 hnd).imp ?_
        intro x y hxy a ha b hb hab
        split at ha
        · split at hb
          · obtain ⟨a', _, e1⟩ := List.mem_filterMap.1 ha
            obtain ⟨b', _, e2⟩ := List.mem_filterMap.1 hb
            rw [ext_steps _ _ _ _ e1, ext_steps _ _ _ _ e2] at hab
            have := List.append_inj_right' hab rfl
            simp at this
            exact hxy this
          · simp at hb
        · simp at ha
    have step_nd : ∀ k, i ≤ k → ((rowStep p s.psv G (s.act gi i) i k m).map Item.steps).Nodup := by
      intro k hk
      unfold rowStep
      split
      · by_cases hm : m = k + 1
        · simp only [if_pos hm, List.map_append]
          have mid : ((((List.range' (i + 1) (k - i)).flatMap fun k' => nodeExts s.psv G (s.act gi i) k' m)).map Item.steps).Nodup := by
            refine nodup_map_flatMap ?_ ?_
            · intro k' hk'
              have := List.mem_range'_1.1 hk'
              exact node_nd k' (by omega)
            · have hnd : (List.range' (i + 1) (k - i)).Nodup := List.nodup_range'
              exact hnd.imp fun hne => node_node _ _ hne
          refine List.Nodup.append (List.Nodup.append mid (arc_nd k) ?_) (node_nd i (by omega)) ?_
          · intro z hz1 hz2
            obtain ⟨x, hx, e1⟩ := List.mem_map.1 hz1
            obtain ⟨y, hy, e2⟩ := List.mem_map.1 hz2
            obtain ⟨k', _, hx⟩ := List.mem_flatMap.1 hx
            exact node_arc k' k x hx y hy (e1.trans e2.symm)
          · intro z hz1 hz2
            obtain ⟨y, hy, e2⟩ := List.mem_map.1 hz2
            rcases List.mem_append.1 hz1 with hz1 | hz1
            · obtain ⟨x, hx, e1⟩ := List.mem_map.1 hz1
              obtain ⟨k', hk', hx⟩ := List.mem_flatMap.1 hx
              have := List.mem_range'_1.1 hk'
              exact node_node k' i (by omega) x hx y hy (e1.trans e2.symm)
            · obtain ⟨x, hx, e1⟩ := List.mem_map.1 hz1
              exact node_arc i k y hy x hx (e2.trans e1.symm)
        · simp only [if_neg hm, List.nil_append, List.append_nil]
          exact arc_nd k
      · simp
    have step_mem : ∀ k, i ≤ k → ∀ x ∈ rowStep p s.psv G (s.act gi i) i k m, (m = k + 1 ∧ ∃ k', x ∈ nodeExts s.psv G (s.act gi i) k' m) ∨ x ∈ arcExts p G (s.act gi i) k m := by
      intro k hk x hx
      rcases (mem_rowStep hk).1 hx with ⟨_, ⟨h1, k', _, _, h2⟩ | h1⟩
      · exact .inl ⟨h1, k', h2⟩
      · exact .inr h1
    rw [hrow m, List.map_append]
    refine List.Nodup.append ?_ ?_ ?_
    · unfold seed
      split
      · split <;> simp
      · simp
    · refine nodup_map_flatMap ?_ ?_
      · intro k hk
        have := List.mem_range'_1.1 hk
        exact step_nd k (by omega)
      · have hnd : (List.range' i (p.n - i)).Pairwise fun a b => a < b := List.pairwise_lt_range'
        refine (List.pairwise_iff_forall_sublist.2 ?_)
        intro k k' hsub x hx y hy
        have hlt : k < k' := by
          have := List.pairwise_iff_forall_sublist.1 hnd hsub
          exact this
        have hk : i ≤ k := (List.mem_range'_1.1 (hsub.subset (by simp))).1
        rcases step_mem k hk x hx with ⟨h1, a, hx⟩ | hx
        · rcases step_mem k' (by omega) y hy with ⟨h2, b, hy⟩ | hy
          · omega
          · exact node_arc _ _ x hx y hy
        · rcases step_mem k' (by omega) y hy with ⟨h2, b, hy⟩ | hy
          · exact fun e => node_arc _ _ y hy x hx e.symm
          · exact arc_arc _ _ (by omega) x hx y hy
    · intro z hz1 hz2
      have hz : z = [] := by
        obtain ⟨x, hx, rfl⟩ := List.mem_map.1 hz1
        unfold seed at hx
        split at hx
        · split at hx
          · rw [List.mem_singleton.1 hx]
          · simp at hx
        · simp at hx
      obtain ⟨y, hy, e⟩ := List.mem_map.1 hz2
      obtain ⟨k, hk, hy⟩ := List.mem_flatMap.1 hy
      have := List.mem_range'_1.1 hk
      rw [hz] at e
      rcases step_mem k (by omega) y hy with ⟨_, a, hy⟩ | hy
      · obtain ⟨l, v, _, e'⟩ := node_last a y hy
        rw [e'] at e
        simp at e
      · obtain ⟨l, v, e'⟩ := arc_last k y hy
        rw [e'] at e
        simp at e

/-- The state at the end of the loops of the parser. -/
theorem SInv.final (hok : Ok p) (h : SInv p u (p.n + 1) 0 s) : FInv p u s where
  pinv := h.pinv
  goalNone := h.goalNone
  placed := h.placed
  items gi G hG i hi m it := mem_row (h.rowN hG hi)
  nodup gi G hG i hi m := items_nodup hok h hG hi m
  done a b h1 h2 c := List.Perm.of_eq (h.done a b (by unfold Done; omega) c)
  empty a b hn := h.empty a b (by unfold Done; omega)

/-- The applications in a cell are different. -/
theorem jobs_nodup (hok : Ok p) (hd : Distinct p) (hu : u.Nodup) (h : FInv p u s) {i j : Nat} (hij : i < j) (hj : j ≤ p.n) :
    ((cellJobs p u s.psv s.act i j).map (Job.app p i j)).Nodup := by
  unfold cellJobs
  rw [List.map_append]
  refine List.Nodup.append ?_ ?_ ?_
  · refine nodup_map_flatMap ?_ ?_
    · rintro ⟨G, gi⟩ hx
      have hG := List.mk_mem_zipIdx_iff_getElem?.1 hx
      unfold gramJobs
      split
      · refine nodup_map_flatMap ?_ ?_
        · intro it hit
          obtain ⟨α, hα⟩ := h.placed gi G hG i j it hit
          unfold itemJobs
          rw [List.map_map]
          refine List.Nodup.map ?_ (hd.bin G (List.mem_of_getElem? hG) α it.g hα)
          intro a b hab
          simp only [Function.comp_apply, Job.app, mkApp, Prod.mk.injEq, Val.mk.injEq] at hab
          exact hab.2.1
        · have := List.pairwise_map.1 (h.nodup _ _ hG _ (show i ≤ p.n by omega) j)
          simp only []
          rw [List.pairwise_iff_forall_sublist] at this ⊢
          intro x y hsub a ha b hb hab
          unfold itemJobs at ha hb
          obtain ⟨r, hr, rfl⟩ := List.mem_map.1 ha
          obtain ⟨r', hr', rfl⟩ := List.mem_map.1 hb
          simp only [Job.app, mkApp, Prod.mk.injEq, Val.mk.injEq] at hab
          have hx := items_ants hok h hG (by omega) j x (hsub.subset (by simp))
          have hy := items_ants hok h hG (by omega) j y (hsub.subset (by simp))
          refine this hsub (steps_inj _ _ hab.2.2.2.2.2 ?_)
          rw [← hx, ← hy]
          exact hab.1
      · simp
    · have hnd : (p.grams.zipIdx.map Prod.snd).Nodup := by
        rw [List.zipIdx_map_snd]
        exact List.nodup_range'
      have := List.pairwise_map.1 hnd
      rw [List.pairwise_iff_forall_sublist] at this ⊢
      rintro ⟨G, gi⟩ ⟨H, gj⟩ hsub a ha b hb hab
      have hG := List.mk_mem_zipIdx_iff_getElem?.1 (hsub.subset (show (G, gi) ∈ _ by simp))
      have hH := List.mk_mem_zipIdx_iff_getElem?.1 (hsub.subset (show (H, gj) ∈ _ by simp))
      unfold gramJobs at ha hb
      split at ha
      · split at hb
        · obtain ⟨it, hit, ha⟩ := List.mem_flatMap.1 ha
          obtain ⟨it', hit', hb⟩ := List.mem_flatMap.1 hb
          obtain ⟨α, hα⟩ := h.placed gi G hG i j it hit
          obtain ⟨β, hβ⟩ := h.placed gj H hH i j it' hit'
          unfold itemJobs at ha hb
          obtain ⟨r, hr, rfl⟩ := List.mem_map.1 ha
          obtain ⟨r', hr', rfl⟩ := List.mem_map.1 hb
          simp only [Job.app, mkApp, Prod.mk.injEq, Val.mk.injEq] at hab
          rw [← hab.2.1] at hr'
          exact this hsub (hd.grams gi gj G H hG hH α β _ _ r hα hβ hr hr')
        · simp at hb
      · simp at ha
  · refine nodup_map_flatMap ?_ ?_
    · intro v _
      unfold unJobs
      rw [List.map_map]
      refine List.Nodup.map ?_ (hu.filter _)
      intro a b hab
      simp only [Function.comp_apply, Job.app, mkApp, Prod.mk.injEq, Val.mk.injEq] at hab
      exact hab.2.1
    · refine (h.pinv.nodup i j).imp ?_
      intro v w hvw a ha b hb hab
      unfold unJobs at ha hb
      obtain ⟨r, _, rfl⟩ := List.mem_map.1 ha
      obtain ⟨r', _, rfl⟩ := List.mem_map.1 hb
      simp only [Job.app, mkApp, Prod.mk.injEq, Val.mk.injEq] at hab
      simp at hab
      exact hvw hab.1
  · intro z hz1 hz2
    obtain ⟨a, ha, e1⟩ := List.mem_map.1 hz1
    obtain ⟨b, hb, e2⟩ := List.mem_map.1 hz2
    have ha' : a ∈ cellJobs p u s.psv s.act i j := by unfold cellJobs; exact List.mem_append_left _ ha
    obtain ⟨⟨G, gi⟩, hx, ha⟩ := List.mem_flatMap.1 ha
    have hG := List.mk_mem_zipIdx_iff_getElem?.1 hx
    unfold gramJobs at ha
    split at ha
    · obtain ⟨it, hit, ha⟩ := List.mem_flatMap.1 ha
      unfold itemJobs at ha
      obtain ⟨r, hr, rfl⟩ := List.mem_map.1 ha
      obtain ⟨v, hv, hb⟩ := List.mem_flatMap.1 hb
      unfold unJobs at hb
      obtain ⟨r', _, rfl⟩ := List.mem_map.1 hb
      rw [← e2] at e1
      simp only [Job.app, mkApp, Prod.mk.injEq, Val.mk.injEq] at e1
      obtain ⟨x, y, w1, w2, w3⟩ := ants_short hok h hG (by omega) hit hr (w := v) (by simp [e1.1])
      have := h.pinv.disj hv w1
      omega
    · simp at ha

end Cdec.Dec.Parser
