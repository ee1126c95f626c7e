import Verif.Decoder.ParserPassive
/-! Applying many rules in a cell. -/
namespace Cdec.Dec.Parser
open Cdec.HG
variable {ι R φ : Type}

/-- A call of `ApplyRule`. -/
structure Job (R φ : Type) where
  r : R
  ants : List Nat
  feats : φ
  shape : List (Option (Nat × Nat))

/-- The application a call makes. -/
def Job.app [Add φ] (p : Env ι R φ) (i j : Nat) (b : Job R φ) : App R φ := mkApp p i j b.r b.ants b.feats b.shape

/-- A list of calls. -/
def applyAll [Add φ] (p : Env ι R φ) (i j : Nat) (bs : List (Job R φ)) (q : Passive R φ) : Option (Passive R φ) :=
  bs.foldlM (fun q b => applyRule p i j b.r b.ants b.feats b.shape q) q

/-- The applications of the jobs with a category. -/
def appsOf [Add φ] (p : Env ι R φ) (i j : Nat) (c : Int) (bs : List (Job R φ)) : List (Option (App R φ)) :=
  (bs.filter fun b => decide (p.lhs b.r = c)).map fun b => some (b.app p i j)

theorem appsOf_append [Add φ] (p : Env ι R φ) (i j : Nat) (c : Int) (a b : List (Job R φ)) : appsOf p i j c (a ++ b) = appsOf p i j c a ++ appsOf p i j c b := by
  simp [appsOf]

/-- What running the jobs does. -/
structure Ran [Add φ] (p : Env ι R φ) (i j : Nat) (bs : List (Job R φ)) (q q' : Passive R φ) : Prop where
  inv : PInv p q'
  grow : Grow i j q q'
  at_eq : ∀ c, q'.at i j c = q.at i j c ++ appsOf p i j c bs
  new : ∀ v ∈ q'.chart i j, v ∈ q.chart i j ∨ ∃ b ∈ bs, q'.cat v = p.lhs b.r

theorem Ran.nil [Add φ] {p : Env ι R φ} {i j : Nat} {q : Passive R φ} (h : PInv p q) : Ran p i j [] q q :=
  ⟨h, Grow.refl _ _ _, fun c => by simp [appsOf], fun _ hv => .inl hv⟩

theorem Ran.trans [Add φ] {p : Env ι R φ} {i j : Nat} {a b : List (Job R φ)} {q1 q2 q3 : Passive R φ} (hi : PInv p q2) (h1 : Ran p i j a q1 q2) (h2 : Ran p i j b q2 q3) :
    Ran p i j (a ++ b) q1 q3 := by
  refine ⟨h2.inv, h1.grow.trans h2.grow, fun c => ?_, fun v hv => ?_⟩
  · rw [h2.at_eq, h1.at_eq, appsOf_append, List.append_assoc]
  · rcases h2.new v hv with h | ⟨x, hx, e⟩
    · rcases h1.new v h with h' | ⟨x, hx, e⟩
      · exact .inl h'
      · exact .inr ⟨x, List.mem_append_left _ hx, (h2.grow.cat v (hi.lt i j v h)).trans e⟩
    · exact .inr ⟨x, List.mem_append_right _ hx, e⟩

theorem applyAll_spec [Add φ] (p : Env ι R φ) (i j : Nat) (bs : List (Job R φ)) : ∀ (q : Passive R φ), PInv p q →
    (∀ b ∈ bs, p.lhs b.r ≠ p.kGoal ∧ ∀ v ∈ b.ants, v < q.forest.nodes.length) → ∃ q', applyAll p i j bs q = some q' ∧ Ran p i j bs q q' := by
  induction bs with
  | nil => intro q h _; exact ⟨q, rfl, Ran.nil h⟩
  | cons b bs ih =>
    intro q h hb
    have hb0 := hb b (by simp)
    obtain ⟨q1, e1, i1, g1, a1, n1⟩ := apply_spec h i j b.r b.ants b.feats b.shape hb0.1 hb0.2
    have r1 : Ran p i j [b] q q1 := ⟨i1, g1, fun c => by rw [a1 c]; unfold appsOf Job.app; by_cases hc : p.lhs b.r = c <;> simp [hc], fun v hv => by
      rcases n1 v hv with h | h
      · exact .inl h
      · exact .inr ⟨b, by simp, h⟩⟩
    obtain ⟨q2, e2, r2⟩ := ih q1 i1 fun b' hb' => ⟨(hb b' (by simp [hb'])).1, fun v hv => Nat.lt_of_lt_of_le ((hb b' (by simp [hb'])).2 v hv) g1.nodes⟩
    refine ⟨q2, ?_, Ran.trans i1 r1 r2⟩
    unfold applyAll at e2 ⊢
    rw [List.foldlM_cons, e1]
    exact e2

theorem applyAll_append [Add φ] (p : Env ι R φ) (i j : Nat) (a b : List (Job R φ)) (q : Passive R φ) :
    applyAll p i j (a ++ b) q = (applyAll p i j a q).bind fun q' => applyAll p i j b q' := by
  unfold applyAll
  rw [List.foldlM_append]
  rfl

/-- The jobs of an item. -/
def itemJobs (G : Gram ι R) (it : Item ι φ) : List (Job R φ) := (G.rules it.g).map fun r => ⟨r, it.ants, it.feats, it.steps.map Step.shape⟩

theorem applyItems_eq [Add φ] (p : Env ι R φ) (G : Gram ι R) (i j : Nat) (cell : List (Item ι φ)) : ∀ q : Passive R φ,
    applyItems p G i j q cell = applyAll p i j (cell.flatMap (itemJobs G)) q := by
  induction cell with
  | nil => intro q; rfl
  | cons it cell ih =>
    intro q
    have h1 : (G.rules it.g).foldlM (fun q r => applyRule p i j r it.ants it.feats (it.steps.map Step.shape) q) q = applyAll p i j (itemJobs G it) q := by
      unfold applyAll itemJobs
      rw [List.foldlM_map]
    rw [List.flatMap_cons, applyAll_append, ← h1]
    unfold applyItems at ih ⊢
    rw [List.foldlM_cons]
    congr 1
    funext q'
    exact ih q'

/-- The jobs of unary rules over a node. -/
def unJobs [Zero φ] (p : Env ι R φ) (u : List R) (q : Passive R φ) (v : Nat) : List (Job R φ) :=
  (u.filter fun r => decide (p.rhs r = q.cat v)).map fun r => ⟨r, [v], 0, [none]⟩

theorem applyUnaries_eq [Add φ] [Zero φ] (p : Env ι R φ) (u : List R) (i j v : Nat) (q : Passive R φ) :
    applyUnaries p u i j v q = applyAll p i j (unJobs p u q v) q := by
  unfold applyUnaries unJobs applyAll
  generalize q.cat v = c
  generalize q = q0
  induction u generalizing q0 with
  | nil => rfl
  | cons r u ih =>
    rw [List.foldlM_cons, List.filter_cons]
    by_cases h : p.rhs r = c
    · rw [if_pos h]
      simp only [h, decide_true, if_true, List.map_cons, List.foldlM_cons]
      congr 1
      funext q'
      exact ih q'
    · rw [if_neg h]
      simp only [h, decide_false]
      exact ih q0

theorem unJobs_congr [Zero φ] (p : Env ι R φ) (u : List R) {q q' : Passive R φ} {v : Nat} (h : q'.cat v = q.cat v) : unJobs p u q' v = unJobs (φ := φ) p u q v := by
  unfold unJobs
  rw [h]

theorem unaryLoop_spec [Add φ] [Zero φ] (p : Env ι R φ) (u : List R) (i j : Nat) (hu : ∀ r ∈ u, p.lhs r ≠ p.kGoal) (q0 : Passive R φ) (h0 : PInv p q0) :
    ∀ (fuel di : Nat) (q : Passive R φ), Ran p i j (((q.chart i j).take di).flatMap (unJobs p u q)) q0 q → di ≤ (q.chart i j).length →
      (∀ v ∈ q.chart i j, v ∈ q0.chart i j ∨ ∃ r ∈ u, q.cat v = p.lhs r) →
      (q0.chart i j).length + u.length + 1 ≤ fuel + di → 
      ∃ q', unaryLoop p u i j fuel di q = some q' ∧ Ran p i j ((q'.chart i j).flatMap (unJobs p u q')) q0 q' ∧
        (∀ v ∈ q'.chart i j, v ∈ q0.chart i j ∨ ∃ r ∈ u, q'.cat v = p.lhs r) := by
  intro fuel
  have bound : ∀ q : Passive R φ, PInv p q → (∀ v ∈ q.chart i j, v ∈ q0.chart i j ∨ ∃ r ∈ u, q.cat v = p.lhs r) → (q.chart i j).length ≤ (q0.chart i j).length + u.length := by
    intro q hq hn
    have hnd : ((q.chart i j).map fun v => if v ∈ q0.chart i j then Sum.inl v else Sum.inr (q.cat v)).Nodup := by
      refine List.Nodup.map_on ?_ (hq.nodup i j)
      intro a ha b hb hab
      split at hab
      · split at hab
        · exact Sum.inl.inj hab
        · simp at hab
      · split at hab
        · simp at hab
        · exact hq.cat_inj ha hb (Sum.inr.inj hab)
    have := (List.subperm_of_subset (l₂ := (q0.chart i j).map Sum.inl ++ u.map fun r => Sum.inr (p.lhs r)) hnd (by
      intro x hx
      obtain ⟨v, hv, rfl⟩ := List.mem_map.1 hx
      split
      · rename_i h
        exact List.mem_append_left _ (List.mem_map.2 ⟨v, h, rfl⟩)
      · rename_i h
        rcases hn v hv with h' | ⟨r, hr, e⟩
        · exact absurd h' h
        · exact List.mem_append_right _ (List.mem_map.2 ⟨r, hr, by rw [e]⟩))).length_le
    simpa using this
  induction fuel with
  | zero =>
    intro di q hr hd hn hf
    have := bound q hr.inv hn
    omega
  | succ fuel ih =>
    intro di q hr hd hn hf
    unfold unaryLoop
    cases hv : (q.chart i j)[di]? with
    | none =>
      have : (q.chart i j).length = di := by
        have := List.getElem?_eq_none_iff.1 hv
        omega
      refine ⟨q, rfl, ?_, hn⟩
      rwa [← this, List.take_length] at hr
    | some v =>
      simp only []
      have hlt := (List.getElem?_eq_some_iff.1 hv).1
      have hmem : v ∈ q.chart i j := List.mem_of_getElem? hv
      rw [applyUnaries_eq]
      obtain ⟨q1, e1, r1⟩ := applyAll_spec p i j (unJobs p u q v) q hr.inv (by
        intro b hb
        unfold unJobs at hb
        obtain ⟨r, hr', rfl⟩ := List.mem_map.1 hb
        refine ⟨hu r (List.mem_filter.1 hr').1, ?_⟩
        intro w hw
        rw [List.mem_singleton.1 hw]
        exact hr.inv.lt i j v hmem)
      rw [e1]
      have hpre := r1.grow.here
      have htake : (q1.chart i j).take (di + 1) = (q.chart i j).take di ++ [v] := by
        obtain ⟨t, ht⟩ := hpre
        rw [← ht, List.take_append_of_le_length (by omega), List.take_succ, hv]
        rfl
      have hcat : ∀ w ∈ q.chart i j, q1.cat w = q.cat w := fun w hw => r1.grow.cat w (hr.inv.lt i j w hw)
      refine ih (di + 1) q1 ?_ ?_ ?_ (by omega)
      · rw [htake, List.flatMap_append]
        have c1 : ((q.chart i j).take di).flatMap (unJobs p u q1) = ((q.chart i j).take di).flatMap (unJobs (φ := φ) p u q) := by
          rw [List.flatMap_def, List.flatMap_def]
          congr 1
          apply List.map_congr_left
          intro w hw
          exact unJobs_congr p u (hcat w (List.mem_of_mem_take hw))
        have c2 : [v].flatMap (unJobs p u q1) = unJobs (φ := φ) p u q v := by
          simp [unJobs_congr (φ := φ) p u (hcat v hmem)]
        rw [c1, c2]
        exact Ran.trans hr.inv hr r1
      · have := hpre.length_le
        omega
      · intro w hw
        rcases r1.new w hw with h | ⟨b, hb, e⟩
        · rcases hn w h with h' | ⟨r, hr', e⟩
          · exact .inl h'
          · exact .inr ⟨r, hr', (hcat w h).trans e⟩
        · unfold unJobs at hb
          obtain ⟨r, hr', rfl⟩ := List.mem_map.1 hb
          exact .inr ⟨r, (List.mem_filter.1 hr').1, e⟩

end Cdec.Dec.Parser
