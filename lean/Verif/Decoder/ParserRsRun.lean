import Verif.Decoder.ParserRs
import Verif.Decoder.ParserCell
import Mathlib.Tactic.ByContra
/-! What the steps of the other parser do to the chart. -/
namespace Cdec.Dec.Parser.Rs
open Cdec.HG
variable {ι R φ : Type}

/-- The jobs for the cell that ends at `b`. -/
def jobsAt (b : Nat) (bs : List (Nat × Job R φ)) : List (Job R φ) := (bs.filter fun x => decide (x.1 = b)).map Prod.snd

theorem jobsAt_append (b : Nat) (l l' : List (Nat × Job R φ)) : jobsAt b (l ++ l') = jobsAt b l ++ jobsAt b l' := by simp [jobsAt]

theorem jobsAt_nil {b : Nat} {l : List (Nat × Job R φ)} (h : ∀ x ∈ l, x.1 ≠ b) : jobsAt b l = [] := by
  unfold jobsAt
  rw [List.filter_eq_nil_iff.2 (fun x hx => by simpa using h x hx)]
  rfl

theorem jobsAt_same (b : Nat) (l : List (Job R φ)) : jobsAt b (l.map fun x => (b, x)) = l := by
  unfold jobsAt
  rw [List.filter_eq_self.2 (by simp), List.map_map]
  exact List.map_id' l

variable [Add φ] [Zero φ]

/-- What running the jobs of row `i` does, with all unary rules for the nodes that are new. -/
structure RowRan (p : Env ι R φ) (u : List R) (i : Nat) (bs : List (Nat × Job R φ)) (q q' : Passive R φ) : Prop where
  inv : PInv p q'
  nodes : q.forest.nodes.length ≤ q'.forest.nodes.length
  cat : ∀ v < q.forest.nodes.length, q'.cat v = q.cat v
  chart : ∀ a b, a ≠ i → q'.chart a b = q.chart a b
  other : ∀ a b c, a ≠ i → q'.at a b c = q.at a b c
  map : ∀ a b c, a ≠ i → q'.nodemap a b c = q.nodemap a b c
  goalIdx : q'.goalIdx = q.goalIdx
  quiet : ∀ b, (∀ x ∈ bs, x.1 ≠ b) → q'.chart i b = q.chart i b ∧ ∀ c, q'.nodemap i b c = q.nodemap i b c
  here : ∀ b, ∃ N, q'.chart i b = q.chart i b ++ N ∧ ∀ c, List.Perm (q'.at i b c) (q.at i b c ++ appsOf p i b c (jobsAt b bs ++ N.flatMap (unJobs p u q')))

theorem RowRan.nil {p : Env ι R φ} {u : List R} {i : Nat} {q : Passive R φ} (h : PInv p q) : RowRan p u i [] q q :=
  ⟨h, Nat.le_refl _, fun _ _ => rfl, fun _ _ _ => rfl, fun _ _ _ _ => rfl, fun _ _ _ _ => rfl, rfl, fun _ _ => ⟨rfl, fun _ => rfl⟩,
    fun b => ⟨[], by simp, fun c => by simp [jobsAt, appsOf]⟩⟩

theorem flatMap_unJobs_congr {p : Env ι R φ} {u : List R} {q q' : Passive R φ} {l : List Nat} (h : ∀ v ∈ l, q'.cat v = q.cat v) :
    l.flatMap (unJobs (φ := φ) p u q') = l.flatMap (unJobs p u q) := by
  rw [List.flatMap_def, List.flatMap_def]
  congr 1
  exact List.map_congr_left fun v hv => unJobs_congr p u (h v hv)

theorem appsOf_perm {p : Env ι R φ} {i j : Nat} {c : Int} {l l' : List (Job R φ)} (h : List.Perm l l') : List.Perm (appsOf p i j c l) (appsOf p i j c l') :=
  (h.filter _).map _

theorem RowRan.trans {p : Env ι R φ} {u : List R} {i : Nat} {a b : List (Nat × Job R φ)} {q1 q2 q3 : Passive R φ} (h1 : RowRan p u i a q1 q2) (h2 : RowRan p u i b q2 q3) :
    RowRan p u i (a ++ b) q1 q3 := by
  refine ⟨h2.inv, Nat.le_trans h1.nodes h2.nodes, fun v hv => (h2.cat v (Nat.lt_of_lt_of_le hv h1.nodes)).trans (h1.cat v hv), fun x y h => (h2.chart x y h).trans (h1.chart x y h),
    fun x y c h => (h2.other x y c h).trans (h1.other x y c h), fun x y c h => (h2.map x y c h).trans (h1.map x y c h), h2.goalIdx.trans h1.goalIdx, ?_, ?_⟩
  · intro y hy
    have e1 := h1.quiet y fun x hx => hy x (List.mem_append_left _ hx)
    have e2 := h2.quiet y fun x hx => hy x (List.mem_append_right _ hx)
    exact ⟨e2.1.trans e1.1, fun c => (e2.2 c).trans (e1.2 c)⟩
  · intro y
    obtain ⟨N1, n1, p1⟩ := h1.here y
    obtain ⟨N2, n2, p2⟩ := h2.here y
    refine ⟨N1 ++ N2, by rw [n2, n1, List.append_assoc], fun c => ?_⟩
    refine (p2 c).trans (((p1 c).append_right _).trans ?_)
    have e : N1.flatMap (unJobs (φ := φ) p u q3) = N1.flatMap (unJobs p u q2) :=
      flatMap_unJobs_congr fun v hv => h2.cat v (h1.inv.lt i y v (by rw [n1]; exact List.mem_append_right _ hv))
    rw [jobsAt_append, List.flatMap_append, e, List.append_assoc]
    refine List.Perm.append_left _ ?_
    rw [← appsOf_append]
    apply appsOf_perm
    simp only [List.append_assoc]
    refine List.Perm.append_left _ ?_
    rw [← List.append_assoc, ← List.append_assoc]
    exact List.Perm.append_right _ List.perm_append_comm

/-- Charts of other rows stay. -/
structure Up (p : Env ι R φ) (i : Nat) (q q' : Passive R φ) : Prop where
  inv : PInv p q'
  nodes : q.forest.nodes.length ≤ q'.forest.nodes.length
  cat : ∀ v < q.forest.nodes.length, q'.cat v = q.cat v
  chart : ∀ a b, a ≠ i → q'.chart a b = q.chart a b

theorem RowRan.up {p : Env ι R φ} {u : List R} {i : Nat} {bs : List (Nat × Job R φ)} {q q' : Passive R φ} (h : RowRan p u i bs q q') : Up p i q q' := ⟨h.inv, h.nodes, h.cat, h.chart⟩

omit [Add φ] [Zero φ] in
theorem Up.trans {p : Env ι R φ} {i : Nat} {q1 q2 q3 : Passive R φ} (h1 : Up p i q1 q2) (h2 : Up p i q2 q3) : Up p i q1 q3 :=
  ⟨h2.inv, Nat.le_trans h1.nodes h2.nodes, fun v hv => (h2.cat v (Nat.lt_of_lt_of_le hv h1.nodes)).trans (h1.cat v hv), fun x y h => (h2.chart x y h).trans (h1.chart x y h)⟩

omit [Add φ] [Zero φ] in
theorem Up.refl {p : Env ι R φ} {i : Nat} {q : Passive R φ} (h : PInv p q) : Up p i q q := ⟨h, Nat.le_refl _, fun _ _ => rfl, fun _ _ _ => rfl⟩

/-- Loops. -/
theorem fold_spec {α : Type} {p : Env ι R φ} {u : List R} {i : Nat} (step : Passive R φ → α → Option (Passive R φ)) (J : α → List (Nat × Job R φ)) (P : Passive R φ → Prop) (l : List α)
    (h : ∀ x ∈ l, ∀ q, P q → PInv p q → ∃ q', step q x = some q' ∧ RowRan p u i (J x) q q' ∧ P q') :
    ∀ q, P q → PInv p q → ∃ q', l.foldlM step q = some q' ∧ RowRan p u i (l.flatMap J) q q' ∧ P q' := by
  induction l with
  | nil => intro q hq hi; exact ⟨q, rfl, RowRan.nil hi, hq⟩
  | cons x l ih =>
    intro q hq hi
    obtain ⟨q1, e1, r1, p1⟩ := h x (by simp) q hq hi
    obtain ⟨q2, e2, r2, p2⟩ := ih (fun y hy => h y (by simp [hy])) q1 p1 r1.inv
    refine ⟨q2, ?_, ?_, p2⟩
    · rw [List.foldlM_cons, e1]
      exact e2
    · rw [List.flatMap_cons]
      exact r1.trans r2

/-- One rule, with the unary rules for a new node. -/
theorem applyNew_spec {p : Env ι R φ} {u : List R} {q : Passive R φ} (h : PInv p q) (i j : Nat) (more : Nat → Passive R φ → Option (Passive R φ)) (r : R) (ants : List Nat) (feats : φ)
    (shape : List (Option (Nat × Nat))) (hr : p.lhs r ≠ p.kGoal) (ha : ∀ v ∈ ants, v < q.forest.nodes.length)
    (hmore : ∀ q1 v, PInv p q1 → v < q1.forest.nodes.length → q1.cat v = p.lhs r → ∃ q2, more v q1 = some q2 ∧ RowRan p u i ((unJobs p u q1 v).map fun b => (j, b)) q1 q2) :
    ∃ q', applyNew p i j more r ants feats shape q = some q' ∧ RowRan p u i [(j, ⟨r, ants, feats, shape⟩)] q q' := by
  obtain ⟨q1, e1, i1, g1, a1, n1⟩ := apply_spec h i j r ants feats shape hr ha
  have hne : ∀ b, b ≠ j → ∀ a : Nat, ¬(a = i ∧ b = j) := fun b hb a hx => hb hx.2
  obtain ⟨N, hN⟩ := g1.here
  have hNcat : ∀ v ∈ N, q1.cat v = p.lhs r := by
    intro v hv
    rcases n1 v (by rw [← hN]; exact List.mem_append_right _ hv) with h' | h'
    · exfalso
      have := i1.nodup i j
      rw [← hN] at this
      exact (List.nodup_append.1 this).2.2 v h' v hv rfl
    · exact h'
  have happ : ∀ c, appsOf p i j c [⟨r, ants, feats, shape⟩] = if p.lhs r = c then [some (mkApp p i j r ants feats shape)] else [] := by
    intro c
    unfold appsOf Job.app
    by_cases hc : p.lhs r = c <;> simp [hc]
  unfold applyNew
  rw [e1]
  simp only []
  cases hm : q.nodemap i j (p.lhs r) with
  | some v =>
    have hv := (h.map_iff i j _ v hr).1 hm
    have hN0 : N = [] := by
      rw [List.eq_nil_iff_forall_not_mem]
      intro w hw
      have h1 : w ∈ q1.chart i j := by rw [← hN]; exact List.mem_append_right _ hw
      have h2 : v ∈ q1.chart i j := by rw [← hN]; exact List.mem_append_left _ hv.1
      have h3 := i1.cat_inj h1 h2 ((hNcat w hw).trans (by rw [g1.cat v (h.lt i j v hv.1), hv.2]))
      have := i1.nodup i j
      rw [← hN] at this
      exact (List.nodup_append.1 this).2.2 v hv.1 w hw h3.symm
    subst hN0
    rw [List.append_nil] at hN
    refine ⟨q1, rfl, i1, g1.nodes, g1.cat, fun a b hab => g1.chart a b fun hx => hab hx.1, fun a b c hab => g1.other a b c fun hx => hab hx.1,
      fun a b c hab => g1.map a b c fun hx => hab hx.1, g1.goalIdx, ?_, ?_⟩
    · intro b hb
      have hb' := hb _ (List.mem_singleton.2 rfl)
      exact ⟨g1.chart i b fun hx => hb' hx.2.symm, fun c => g1.map i b c fun hx => hb' hx.2.symm⟩
    · intro b
      refine ⟨[], ?_, fun c => ?_⟩
      · by_cases hb : b = j
        · subst hb
          rw [← hN, List.append_nil]
        · rw [g1.chart i b (hne b hb i), List.append_nil]
      · by_cases hb : b = j
        · subst hb
          rw [a1 c]
          have : jobsAt b [(b, (⟨r, ants, feats, shape⟩ : Job R φ))] = [⟨r, ants, feats, shape⟩] := by simp [jobsAt]
          rw [this, List.flatMap_nil, List.append_nil, happ]
        · rw [g1.other i b c (hne b hb i), jobsAt_nil (by simp [Ne.symm hb])]
          simp [appsOf]
  | none =>
    simp only []
    obtain ⟨v, hv⟩ : ∃ v, q1.nodemap i j (p.lhs r) = some v := by
      cases hx : q1.nodemap i j (p.lhs r) with
      | some v => exact ⟨v, rfl⟩
      | none =>
        have := a1 (p.lhs r)
        unfold Passive.at at this
        rw [hx] at this
        simp at this
    rw [hv]
    simp only []
    have hvm := (i1.map_iff i j _ v hr).1 hv
    have hvN : v ∈ N := by
      have := hvm.1
      rw [← hN] at this
      rcases List.mem_append.1 this with h1 | h1
      · exfalso
        have := (h.map_iff i j _ v hr).2 ⟨h1, (g1.cat v (h.lt i j v h1)).symm.trans hvm.2⟩
        rw [hm] at this
        simp at this
      · exact h1
    have hN1 : N = [v] := by
      have hnd : N.Nodup := by
        have := i1.nodup i j
        rw [← hN] at this
        exact (List.nodup_append.1 this).2.1
      have hall : ∀ w ∈ N, w = v := fun w hw => i1.cat_inj (by rw [← hN]; exact List.mem_append_right _ hw) hvm.1 ((hNcat w hw).trans hvm.2.symm)
      match N, hnd, hall, hvN with
      | [a], _, hall, _ => rw [hall a (by simp)]
      | a :: b :: _, hnd, hall, _ =>
        exfalso
        rw [hall a (by simp), hall b (by simp)] at hnd
        simp at hnd
    subst hN1
    obtain ⟨q2, e2, r2⟩ := hmore q1 v i1 (i1.lt i j v hvm.1) hvm.2
    refine ⟨q2, e2, r2.inv, Nat.le_trans g1.nodes r2.nodes, fun w hw => (r2.cat w (Nat.lt_of_lt_of_le hw g1.nodes)).trans (g1.cat w hw),
      fun a b hab => (r2.chart a b hab).trans (g1.chart a b fun hx => hab hx.1), fun a b c hab => (r2.other a b c hab).trans (g1.other a b c fun hx => hab hx.1),
      fun a b c hab => (r2.map a b c hab).trans (g1.map a b c fun hx => hab hx.1), r2.goalIdx.trans g1.goalIdx, ?_, ?_⟩
    · intro b hb
      have hb' : j ≠ b := hb _ (List.mem_singleton.2 rfl)
      have := r2.quiet b (by
        intro x hx
        obtain ⟨y, _, rfl⟩ := List.mem_map.1 hx
        exact hb')
      exact ⟨this.1.trans (g1.chart i b fun hx => hb' hx.2.symm), fun c => (this.2 c).trans (g1.map i b c fun hx => hb' hx.2.symm)⟩
    · intro b
      obtain ⟨N2, n2, p2⟩ := r2.here b
      by_cases hb : b = j
      · subst hb
        refine ⟨v :: N2, by rw [n2, ← hN, List.append_assoc]; rfl, fun c => ?_⟩
        refine (p2 c).trans ?_
        rw [a1 c, ← happ c, List.append_assoc]
        refine List.Perm.append_left _ ?_
        rw [← appsOf_append, jobsAt_same]
        apply appsOf_perm
        have : jobsAt b [(b, (⟨r, ants, feats, shape⟩ : Job R φ))] = [⟨r, ants, feats, shape⟩] := by simp [jobsAt]
        rw [this, List.flatMap_cons, unJobs_congr p u (r2.cat v (i1.lt i b v hvm.1))]
      · have hq := r2.quiet b (by
          intro x hx
          obtain ⟨y, _, rfl⟩ := List.mem_map.1 hx
          exact Ne.symm hb)
        have hN2 : N2 = [] := by
          rw [hq.1] at n2
          exact List.self_eq_append_right.1 n2
        subst hN2
        refine ⟨[], ?_, fun c => ?_⟩
        · rw [n2, g1.chart i b (hne b hb i)]
        · refine (p2 c).trans ?_
          have z1 : jobsAt b ((unJobs (φ := φ) p u q1 v).map fun x => (j, x)) = [] := jobsAt_nil fun x hx => by
            obtain ⟨y, _, rfl⟩ := List.mem_map.1 hx
            exact Ne.symm hb
          have z2 : jobsAt b [(j, (⟨r, ants, feats, shape⟩ : Job R φ))] = [] := jobsAt_nil fun x hx => by
            rw [List.mem_singleton.1 hx]
            exact Ne.symm hb
          rw [g1.other i b c (hne b hb i), z1, z2]

/-- Unary rules. -/
theorem applyUnary_spec {p : Env ι R φ} {u : List R} (hu : ∀ r ∈ u, p.lhs r ≠ p.kGoal) {ρ : Int → Nat} (hρ : ∀ r ∈ u, ρ (p.rhs r) < ρ (p.lhs r)) (i j : Nat) :
    ∀ (fuel : Nat) (cat : Int) (v : Nat) (q : Passive R φ), (u.filter fun r => decide (ρ cat ≤ ρ (p.rhs r))).length < fuel → PInv p q → v < q.forest.nodes.length → q.cat v = cat →
      ∃ q', applyUnary p u i j fuel cat v q = some q' ∧ RowRan p u i ((unJobs p u q v).map fun b => (j, b)) q q' := by
  intro fuel
  induction fuel with
  | zero => intro cat v q h; omega
  | succ fuel ih =>
    intro cat v q hf hq hv hcat
    unfold applyUnary
    have hJ : (unJobs p u q v).map (fun b => (j, b)) = u.flatMap fun r => if p.rhs r = cat then [(j, (⟨r, [v], 0, [none]⟩ : Job R φ))] else [] := by
      unfold unJobs
      rw [hcat]
      generalize u = l
      induction l with
      | nil => rfl
      | cons r l ihl =>
        rw [List.flatMap_cons, ← ihl, List.filter_cons]
        by_cases hr : p.rhs r = cat <;> simp [hr]
    rw [hJ]
    obtain ⟨q', e, r, _⟩ := fold_spec (p := p) (u := u) (i := i) (fun q r => if p.rhs r = cat then applyNew p i j (applyUnary p u i j fuel (p.lhs r)) r [v] 0 [none] q else some q)
      (fun r => if p.rhs r = cat then [(j, (⟨r, [v], 0, [none]⟩ : Job R φ))] else []) (fun q => v < q.forest.nodes.length) u (by
        intro r hr q1 hv1 hi1
        by_cases hc : p.rhs r = cat
        · simp only [if_pos hc]
          obtain ⟨q2, e2, r2⟩ := applyNew_spec (u := u) hi1 i j (applyUnary p u i j fuel (p.lhs r)) r [v] 0 [none] (hu r hr) (by simpa using hv1) (by
            intro q3 w hi3 hw hwc
            refine ih (p.lhs r) w q3 ?_ hi3 hw hwc
            have hlt := hρ r hr
            have hsub : List.Sublist (u.filter fun x => decide (ρ (p.lhs r) ≤ ρ (p.rhs x))) (u.filter fun x => decide (ρ cat ≤ ρ (p.rhs x))) := by
              refine List.monotone_filter_right u ?_
              intro x hx
              simp only [decide_eq_true_eq] at hx ⊢
              rw [← hc]
              omega
            have hlen := hsub.length_le
            by_contra hge
            have heq := hsub.eq_of_length_le (by omega)
            have hmem : r ∈ u.filter fun x => decide (ρ cat ≤ ρ (p.rhs x)) := List.mem_filter.2 ⟨hr, by rw [hc]; simp⟩
            rw [← heq] at hmem
            have := of_decide_eq_true (List.mem_filter.1 hmem).2
            omega)
          exact ⟨q2, e2, r2, Nat.lt_of_lt_of_le hv1 r2.nodes⟩
        · simp only [if_neg hc]
          exact ⟨q1, rfl, RowRan.nil hi1, hv1⟩) q hv hq
    exact ⟨q', e, r⟩

/-- The rules of an item. -/
theorem applyRules_spec {p : Env ι R φ} {u : List R} (hu : ∀ r ∈ u, p.lhs r ≠ p.kGoal) {ρ : Int → Nat} (hρ : ∀ r ∈ u, ρ (p.rhs r) < ρ (p.lhs r)) (i j : Nat) (G : Gram ι R)
    (it : Item ι φ) (hr : ∀ r ∈ G.rules it.g, p.lhs r ≠ p.kGoal) (q : Passive R φ) (hq : PInv p q) (ha : ∀ v ∈ it.ants, v < q.forest.nodes.length) :
    ∃ q', applyRules p u i j (G.rules it.g) it q = some q' ∧ RowRan p u i ((itemJobs G it).map fun b => (j, b)) q q' := by
  unfold applyRules
  have hJ : (itemJobs G it).map (fun b => (j, b)) = (G.rules it.g).flatMap fun r => [(j, (⟨r, it.ants, it.feats, it.steps.map Step.shape⟩ : Job R φ))] := by
    unfold itemJobs
    generalize G.rules it.g = l
    induction l with
    | nil => rfl
    | cons r l ih => rw [List.flatMap_cons, ← ih]; rfl
  rw [hJ]
  obtain ⟨q', e, r, _⟩ := fold_spec (p := p) (u := u) (i := i)
    (fun q r => applyNew p i j (applyUnary p u i j (u.length + 1) (p.lhs r)) r it.ants it.feats (it.steps.map Step.shape) q)
    (fun r => [(j, (⟨r, it.ants, it.feats, it.steps.map Step.shape⟩ : Job R φ))]) (fun q => ∀ v ∈ it.ants, v < q.forest.nodes.length) (G.rules it.g) (by
      intro r hr' q1 hv1 hi1
      obtain ⟨q2, e2, r2⟩ := applyNew_spec (u := u) hi1 i j (applyUnary p u i j (u.length + 1) (p.lhs r)) r it.ants it.feats (it.steps.map Step.shape) (hr r hr') hv1 (by
        intro q3 w hi3 hw hwc
        refine applyUnary_spec hu hρ i j _ _ w q3 ?_ hi3 hw hwc
        have := List.length_filter_le (fun r' => decide (ρ (p.lhs r) ≤ ρ (p.rhs r'))) u
        omega)
      exact ⟨q2, e2, r2, fun v hv => Nat.lt_of_lt_of_le (hv1 v hv) r2.nodes⟩) q ha hq
  exact ⟨q', e, r⟩

end Cdec.Dec.Parser.Rs
