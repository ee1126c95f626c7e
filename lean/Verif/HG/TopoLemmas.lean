import Verif.HG.TopoModel
import Verif.HG.InsideLemmas
/-! Helper lemmas for C06: correctness of the DFS loop. -/
namespace Cdec.HG
variable {α : Type}

inductive Steps (g : Hypergraph α) (prune : Nat → Bool) : DFS → DFS → Prop where
  | refl (s : DFS) : Steps g prune s s
  | head {s s' s'' : DFS} : dfsStep g prune s = .next s' → Steps g prune s' s'' → Steps g prune s s''

theorem Steps.trans {g : Hypergraph α} {prune : Nat → Bool} {a b c : DFS}
    (h1 : Steps g prune a b) (h2 : Steps g prune b c) : Steps g prune a c := by
  induction h1 with
  | refl => exact h2
  | head hs _ ih => exact .head hs (ih h2)

theorem Steps.run {g : Hypergraph α} {prune : Nat → Bool} {a b : DFS} (h : Steps g prune a b)
    {r : Nat → Option Nat} {c : Nat} (hd : dfsStep g prune b = .done r c) :
    ∃ k, ∀ f, k ≤ f → dfsRun g prune f a = some (r, c) := by
  induction h with
  | refl s =>
    refine ⟨1, fun f hf => ?_⟩
    obtain ⟨f, rfl⟩ : ∃ f', f = f' + 1 := ⟨f - 1, by omega⟩
    simp [dfsRun, hd]
  | head hs _ ih =>
    obtain ⟨k, hk⟩ := ih hd
    refine ⟨k + 1, fun f hf => ?_⟩
    obtain ⟨f, rfl⟩ : ∃ f', f = f' + 1 := ⟨f - 1, by omega⟩
    simp only [dfsRun, hs]
    exact hk f (by omega)

/-- Invariant on the numbering. -/
structure Num (g : Hypergraph α) (prune : Nat → Bool) (goal : Nat) (color : Nat → Color)
    (reloc : Nat → Option Nat) (count : Nat) : Prop where
  black : ∀ v, color v = .black ↔ (reloc v).isSome
  lt : ∀ v i, reloc v = some i → i < count
  inj : ∀ u v i, reloc u = some i → reloc v = some i → u = v
  surj : ∀ i < count, ∃ v, reloc v = some i
  closed : ∀ v i, reloc v = some i → ∀ e ∈ g.inE v, prune e = false → ∀ t ∈ g.tails e,
    ∃ j, j < i ∧ reloc t = some j
  reach : ∀ v i, reloc v = some i → Reach g prune goal v

/-- Everything before position `(ei, ti)` in the edge lists of `v` has been numbered. -/
def DoneUpTo (g : Hypergraph α) (prune : Nat → Bool) (reloc : Nat → Option Nat) (v ei ti : Nat) : Prop :=
  (∀ i e, i < ei → (g.inE v)[i]? = some e → prune e = false → ∀ t ∈ g.tails e, (reloc t).isSome) ∧
  (∀ e, (g.inE v)[ei]? = some e → prune e = false → ∀ j t, j < ti → (g.tails e)[j]? = some t →
    (reloc t).isSome)

theorem upd_same {β : Type} (f : Nat → β) (i : Nat) (x : β) : upd f i x i = x := by simp [upd]
theorem upd_ne {β : Type} (f : Nat → β) {i j : Nat} (x : β) (h : j ≠ i) : upd f i x j = f j := by
  simp [upd, h]

theorem Num.finish {g : Hypergraph α} {prune : Nat → Bool} {goal : Nat} {color : Nat → Color}
    {reloc : Nat → Option Nat} {count : Nat} (h : Num g prune goal color reloc count) (v : Nat)
    (hv : reloc v = none) (hr : Reach g prune goal v)
    (hall : ∀ e ∈ g.inE v, prune e = false → ∀ t ∈ g.tails e, (reloc t).isSome) :
    Num g prune goal (upd color v .black) (upd reloc v (some count)) (count + 1) := by
  constructor
  · intro u
    by_cases hu : u = v
    · subst hu; simp [upd]
    · rw [upd_ne _ _ hu, upd_ne _ _ hu]; exact h.black u
  · intro u i hi
    by_cases hu : u = v
    · subst hu; rw [upd_same] at hi; simp at hi; omega
    · rw [upd_ne _ _ hu] at hi; have := h.lt u i hi; omega
  · intro u w i hu hw
    by_cases h1 : u = v
    · by_cases h2 : w = v
      · rw [h1, h2]
      · subst h1
        rw [upd_same] at hu; rw [upd_ne _ _ h2] at hw
        have := h.lt w i hw; simp at hu; omega
    · by_cases h2 : w = v
      · subst h2
        rw [upd_same] at hw; rw [upd_ne _ _ h1] at hu
        have := h.lt u i hu; simp at hw; omega
      · rw [upd_ne _ _ h1] at hu; rw [upd_ne _ _ h2] at hw
        exact h.inj u w i hu hw
  · intro i hi
    by_cases hc : i = count
    · exact ⟨v, by rw [upd_same, hc]⟩
    · obtain ⟨u, hu⟩ := h.surj i (by omega)
      refine ⟨u, ?_⟩
      rw [upd_ne]
      · exact hu
      · intro e; subst e; rw [hv] at hu; simp at hu
  · intro u i hu e he hp t ht
    by_cases h1 : u = v
    · subst h1
      rw [upd_same] at hu
      have hs := hall e he hp t ht
      obtain ⟨j, hj⟩ := Option.isSome_iff_exists.1 hs
      have hlt := h.lt t j hj
      refine ⟨j, by simp at hu; omega, ?_⟩
      rw [upd_ne]
      · exact hj
      · intro e'; subst e'; rw [hv] at hj; simp at hj
    · rw [upd_ne _ _ h1] at hu
      obtain ⟨j, hj, hj2⟩ := h.closed u i hu e he hp t ht
      refine ⟨j, hj, ?_⟩
      rw [upd_ne]
      · exact hj2
      · intro e'; subst e'; rw [hv] at hj2; simp at hj2
  · intro u i hu
    by_cases h1 : u = v
    · subst h1; exact hr
    · rw [upd_ne _ _ h1] at hu; exact h.reach u i hu

theorem Num.gray {g : Hypergraph α} {prune : Nat → Bool} {goal : Nat} {color : Nat → Color}
    {reloc : Nat → Option Nat} {count : Nat} (h : Num g prune goal color reloc count) (v : Nat)
    (hv : color v ≠ .black) : Num g prune goal (upd color v .gray) reloc count := by
  refine ⟨fun u => ?_, h.lt, h.inj, h.surj, h.closed, h.reach⟩
  by_cases hu : u = v
  · subst hu
    rw [upd_same, ← h.black u]
    simp [hv]
  · rw [upd_ne _ _ hu]; exact h.black u

/-- Postcondition of visiting `v`. -/
structure Visited (g : Hypergraph α) (prune : Nat → Bool) (goal : Nat) (rank : Nat → Nat)
    (s s' : DFS) : Prop where
  steps : Steps g prune s s'
  cur : s'.cur = s.cur
  stack : s'.stack = s.stack
  fin : (g.inE s.cur)[s'.ei]? = none
  num : Num g prune goal s'.color s'.reloc s'.count
  mono : ∀ u i, s.reloc u = some i → s'.reloc u = some i
  keep : ∀ u, rank s.cur ≤ rank u → s'.reloc u = s.reloc u ∧ s'.color u = s.color u
  grayback : ∀ u, s'.color u = .gray → s.color u = .gray
  all : ∀ e ∈ g.inE s.cur, prune e = false → ∀ t ∈ g.tails e, (s'.reloc t).isSome

theorem visit {g : Hypergraph α} {prune : Nat → Bool} {goal : Nat} {rank : Nat → Nat}
    (hr : ∀ v, Reach g prune goal v → ∀ e ∈ g.inE v, prune e = false → ∀ t ∈ g.tails e, rank t < rank v)
    (r : Nat) :
    ∀ s : DFS, rank s.cur = r → Num g prune goal s.color s.reloc s.count → Reach g prune goal s.cur →
      s.reloc s.cur = none → (∀ u, s.color u = .gray → rank s.cur ≤ rank u) →
      DoneUpTo g prune s.reloc s.cur s.ei s.ti → s.ei ≤ (g.inE s.cur).length →
      ∃ s', Visited g prune goal rank s s' := by
  induction r using Nat.strongRecOn with
  | ind r ihr =>
    -- inner induction on what is left of the edge lists
    suffices H : ∀ (a b : Nat) (s : DFS), rank s.cur = r → (g.inE s.cur).length - s.ei = a →
        (∀ e, (g.inE s.cur)[s.ei]? = some e → (g.tails e).length - s.ti = b) →
        Num g prune goal s.color s.reloc s.count → Reach g prune goal s.cur →
        s.reloc s.cur = none → (∀ u, s.color u = .gray → rank s.cur ≤ rank u) →
        DoneUpTo g prune s.reloc s.cur s.ei s.ti → s.ei ≤ (g.inE s.cur).length →
        ∃ s', Visited g prune goal rank s s' by
      intro s h1 h2 h3 h4 h5 h6 h7
      cases he : (g.inE s.cur)[s.ei]? with
      | none => exact H _ 0 s h1 rfl (fun e h => by rw [he] at h; simp at h) h2 h3 h4 h5 h6 h7
      | some e =>
        exact H _ ((g.tails e).length - s.ti) s h1 rfl
          (fun e' h => by rw [he] at h; simp at h; rw [h]) h2 h3 h4 h5 h6 h7
    intro a
    induction a using Nat.strongRecOn with
    | ind a iha =>
      intro b
      induction b using Nat.strongRecOn with
      | ind b ihb =>
        intro s hrank ha hb hnum hreach hnone hgray hdone hle
        cases he : (g.inE s.cur)[s.ei]? with
        | none =>
          -- all edges processed
          refine ⟨s, .refl s, rfl, rfl, he, hnum, fun _ _ h => h, fun _ _ => ⟨rfl, rfl⟩, fun _ h => h, ?_⟩
          intro e hemem hp t ht
          obtain ⟨i, hi, hie⟩ := List.getElem_of_mem hemem
          have hlen := List.getElem?_eq_none_iff.1 he
          exact hdone.1 i e (by omega) (by rw [List.getElem?_eq_getElem hi, hie]) hp t ht
        | some e =>
          have hei : s.ei < (g.inE s.cur).length := by
            rcases Nat.lt_or_ge s.ei (g.inE s.cur).length with h | h
            · exact h
            · rw [List.getElem?_eq_none_iff.2 h] at he; simp at he
          have hemem : e ∈ g.inE s.cur := List.mem_of_getElem? he
          -- moving on to the next edge
          have nextEdge : dfsStep g prune s = .next { s with ei := s.ei + 1, ti := 0 } →
              (prune e = false → ∀ t ∈ g.tails e, (s.reloc t).isSome) →
              ∃ s', Visited g prune goal rank s s' := by
            intro hstep hall
            have hd : DoneUpTo g prune s.reloc s.cur (s.ei + 1) 0 := by
              refine ⟨fun i e' hi hie hp t ht => ?_, fun _ _ _ j t hj => by omega⟩
              by_cases hieq : i = s.ei
              · subst hieq; rw [he] at hie; simp at hie; subst hie; exact hall hp t ht
              · exact hdone.1 i e' (by omega) hie hp t ht
            have : ∃ s', Visited g prune goal rank { s with ei := s.ei + 1, ti := 0 } s' := by
              cases he2 : (g.inE s.cur)[s.ei + 1]? with
              | none =>
                exact iha ((g.inE s.cur).length - (s.ei + 1)) (by omega) 0 _ hrank rfl
                  (fun e' h => by simp only at h; rw [he2] at h; simp at h) hnum hreach hnone hgray hd (by simp only; omega)
              | some e2 =>
                exact iha ((g.inE s.cur).length - (s.ei + 1)) (by omega) (g.tails e2).length _ hrank rfl
                  (fun e' h => by simp only at h; rw [he2] at h; simp at h; rw [h]; rfl)
                  hnum hreach hnone hgray hd (by simp only; omega)
            obtain ⟨s', hv⟩ := this
            exact ⟨s', .head hstep hv.steps, hv.cur, hv.stack, hv.fin, hv.num, hv.mono, hv.keep,
              hv.grayback, hv.all⟩
          by_cases hp : prune e
          · apply nextEdge
            · simp [dfsStep, he, hp]
            · intro h; rw [hp] at h; simp at h
          · have hp' : prune e = false := by simpa using hp
            cases ht : (g.tails e)[s.ti]? with
            | none =>
              apply nextEdge
              · simp [dfsStep, he, hp', ht]
              · intro _ t htm
                obtain ⟨j, hj, hjt⟩ := List.getElem_of_mem htm
                have hlen := List.getElem?_eq_none_iff.1 ht
                exact hdone.2 e he hp' j t (by omega) (by rw [List.getElem?_eq_getElem hj, hjt])
            | some tn =>
              have htmem : tn ∈ g.tails e := List.mem_of_getElem? ht
              have hti : s.ti < (g.tails e).length := by
                rcases Nat.lt_or_ge s.ti (g.tails e).length with h | h
                · exact h
                · rw [List.getElem?_eq_none_iff.2 h] at ht; simp at ht
              have hrk : rank tn < rank s.cur := hr s.cur hreach e hemem hp' tn htmem
              have hbb := hb e he
              cases hc : s.color tn with
              | gray => have := hgray tn hc; omega
              | black =>
                have hstep : dfsStep g prune s = .next { s with ti := s.ti + 1 } := by
                  simp [dfsStep, he, hp', ht, hc]
                have htn := (hnum.black tn).1 hc
                have hd : DoneUpTo g prune s.reloc s.cur s.ei (s.ti + 1) := by
                  refine ⟨hdone.1, fun e' he' hp'' j t hj hjt => ?_⟩
                  rw [he] at he'; simp at he'; subst he'
                  by_cases hjeq : j = s.ti
                  · subst hjeq; rw [ht] at hjt; simp at hjt; subst hjt; exact htn
                  · exact hdone.2 e he hp'' j t (by omega) hjt
                obtain ⟨s', hv⟩ := ihb ((g.tails e).length - (s.ti + 1)) (by omega)
                  { s with ti := s.ti + 1 } hrank ha
                  (fun e' h => by simp only at h; rw [he] at h; simp at h; rw [← h]) hnum hreach hnone hgray hd hle
                exact ⟨s', .head hstep hv.steps, hv.cur, hv.stack, hv.fin, hv.num, hv.mono, hv.keep,
                  hv.grayback, hv.all⟩
              | white =>
                let s1 : DFS := { s with cur := tn, ei := 0, ti := 0
                                         stack := (s.cur, s.ei, s.ti + 1) :: s.stack
                                         color := upd s.color tn .gray }
                have hstep : dfsStep g prune s = .next s1 := by
                  simp [dfsStep, he, hp', ht, hc, s1]
                have htnone : s.reloc tn = none := by
                  have := hnum.black tn
                  rw [hc] at this
                  simpa using this
                obtain ⟨s2, hv⟩ := ihr (rank tn) (by omega) s1 rfl
                  (hnum.gray tn (by rw [hc]; simp)) (.tail hreach hemem hp' htmem) htnone
                  (fun u hu => by
                    by_cases hut : u = tn
                    · subst hut; exact Nat.le_refl _
                    · change upd s.color tn .gray u = .gray at hu
                      rw [upd_ne _ _ hut] at hu
                      have := hgray u hu
                      change rank tn ≤ rank u
                      omega)
                  ⟨fun i _ hi => by simp [s1] at hi, fun _ _ _ j _ hj => by simp [s1] at hj⟩
                  (by simp [s1])
                have hkeep := hv.keep
                change ∀ u, rank tn ≤ rank u → s2.reloc u = s.reloc u ∧
                  s2.color u = upd s.color tn .gray u at hkeep
                have hmono := hv.mono
                change ∀ u i, s.reloc u = some i → s2.reloc u = some i at hmono
                have hgb := hv.grayback
                change ∀ u, s2.color u = .gray → upd s.color tn .gray u = .gray at hgb
                have hfin := hv.fin
                change (g.inE tn)[s2.ei]? = none at hfin
                have hcur : s2.cur = tn := hv.cur
                have hst : s2.stack = (s.cur, s.ei, s.ti + 1) :: s.stack := hv.stack
                have hall := hv.all
                change ∀ e ∈ g.inE tn, prune e = false → ∀ t ∈ g.tails e, (s2.reloc t).isSome at hall
                let s3 : DFS := { cur := s.cur, ei := s.ei, ti := s.ti + 1, stack := s.stack
                                  color := upd s2.color tn .black
                                  reloc := upd s2.reloc tn (some s2.count), count := s2.count + 1 }
                have hstep2 : dfsStep g prune s2 = .next s3 := by
                  simp [dfsStep, hcur, hfin, hst, s3]
                have htn2 : s2.reloc tn = none := by rw [(hkeep tn (Nat.le_refl _)).1, htnone]
                have hnum3 : Num g prune goal s3.color s3.reloc s3.count :=
                  hv.num.finish tn htn2 (.tail hreach hemem hp' htmem) hall
                have hmono3 : ∀ u i, s.reloc u = some i → s3.reloc u = some i := by
                  intro u i hu
                  change upd s2.reloc tn (some s2.count) u = some i
                  rw [upd_ne]
                  · exact hmono u i hu
                  · intro e'; subst e'; rw [htnone] at hu; simp at hu
                have hsome3 : ∀ u, (s.reloc u).isSome → (s3.reloc u).isSome := by
                  intro u hu
                  obtain ⟨i, hi⟩ := Option.isSome_iff_exists.1 hu
                  rw [hmono3 u i hi]; rfl
                have hkeep3 : ∀ u, rank s.cur ≤ rank u → s3.reloc u = s.reloc u ∧ s3.color u = s.color u := by
                  intro u hu
                  have hne : u ≠ tn := fun e' => by subst e'; omega
                  change upd s2.reloc tn (some s2.count) u = _ ∧ upd s2.color tn .black u = _
                  rw [upd_ne _ _ hne, upd_ne _ _ hne, (hkeep u (by omega)).1, (hkeep u (by omega)).2,
                    upd_ne _ _ hne]
                  exact ⟨rfl, rfl⟩
                have hgb3 : ∀ u, s3.color u = .gray → s.color u = .gray := by
                  intro u hu
                  change upd s2.color tn .black u = .gray at hu
                  have hne : u ≠ tn := fun e' => by subst e'; rw [upd_same] at hu; simp at hu
                  rw [upd_ne _ _ hne] at hu
                  have := hgb u hu
                  rwa [upd_ne _ _ hne] at this
                have hd3 : DoneUpTo g prune s3.reloc s.cur s.ei (s.ti + 1) := by
                  refine ⟨fun i e' hi hie hp'' t ht' => hsome3 t (hdone.1 i e' hi hie hp'' t ht'),
                    fun e' he' hp'' j t hj hjt => ?_⟩
                  rw [he] at he'; simp at he'; subst he'
                  by_cases hjeq : j = s.ti
                  · subst hjeq; rw [ht] at hjt; simp at hjt; subst hjt
                    change (upd s2.reloc tn (some s2.count) tn).isSome = true
                    rw [upd_same]; rfl
                  · exact hsome3 t (hdone.2 e he hp'' j t (by omega) hjt)
                obtain ⟨s', hw⟩ := ihb ((g.tails e).length - (s.ti + 1)) (by omega) s3 hrank ha
                  (fun e' h => by change (g.inE s.cur)[s.ei]? = some e' at h; rw [he] at h; simp at h; rw [← h])
                  hnum3 hreach (by rw [(hkeep3 s.cur (Nat.le_refl _)).1]; exact hnone)
                  (fun u hu => hgray u (hgb3 u hu)) hd3 hle
                exact ⟨s', .head hstep (hv.steps.trans (.head hstep2 hw.steps)), hw.cur, hw.stack, hw.fin,
                  hw.num, fun u i hu => hw.mono u i (hmono3 u i hu),
                  fun u hu => ⟨by rw [(hw.keep u hu).1, (hkeep3 u hu).1], by rw [(hw.keep u hu).2, (hkeep3 u hu).2]⟩,
                  fun u hu => hgb3 u (hw.grayback u hu), hw.all⟩

/-- What the DFS returns. -/
structure Numbering (g : Hypergraph α) (prune : Nat → Bool) (goal : Nat) (rn : Nat → Option Nat)
    (count : Nat) : Prop where
  lt : ∀ v i, rn v = some i → i < count
  inj : ∀ u v i, rn u = some i → rn v = some i → u = v
  surj : ∀ i < count, ∃ v, rn v = some i
  closed : ∀ v i, rn v = some i → ∀ e ∈ g.inE v, prune e = false → ∀ t ∈ g.tails e,
    ∃ j, j < i ∧ rn t = some j
  reach : ∀ v i, rn v = some i → Reach g prune goal v
  goal : rn goal = some (count - 1)
  pos : 0 < count

theorem dfs_correct {g : Hypergraph α} {prune : Nat → Bool} (goal : Nat) {rank : Nat → Nat}
    (hr : ∀ v, Reach g prune goal v → ∀ e ∈ g.inE v, prune e = false → ∀ t ∈ g.tails e, rank t < rank v) :
    ∃ k rn count, (∀ f, k ≤ f → dfsRun g prune f (dfsInit goal) = some (rn, count)) ∧
      Numbering g prune goal rn count := by
  have hnum0 : Num g prune goal (dfsInit goal).color (dfsInit goal).reloc (dfsInit goal).count := by
    constructor <;> simp [dfsInit]
  obtain ⟨s', hv⟩ := visit hr (rank goal) (dfsInit goal) rfl hnum0 .goal rfl
    (fun u hu => by simp [dfsInit] at hu)
    ⟨fun i _ hi => by simp [dfsInit] at hi, fun _ _ _ j _ hj => by simp [dfsInit] at hj⟩ (by simp [dfsInit])
  have hcur : s'.cur = goal := hv.cur
  have hst : s'.stack = [] := hv.stack
  have hfin : (g.inE goal)[s'.ei]? = none := hv.fin
  have hn : s'.reloc goal = none := by
    rw [(hv.keep goal (Nat.le_refl _)).1]; rfl
  have hstep : dfsStep g prune s' = .done (upd s'.reloc goal (some s'.count)) (s'.count + 1) := by
    simp [dfsStep, hcur, hfin, hst]
  obtain ⟨k, hk⟩ := hv.steps.run hstep
  have hf := hv.num.finish goal hn .goal hv.all
  exact ⟨k, _, _, hk, hf.lt, hf.inj, hf.surj, hf.closed, hf.reach, by simp [upd], by omega⟩

theorem dfsRun_mono {g : Hypergraph α} {prune : Nat → Bool} (f : Nat) (s : DFS) (r : (Nat → Option Nat) × Nat)
    (h : dfsRun g prune f s = some r) (f' : Nat) (hf : f ≤ f') : dfsRun g prune f' s = some r := by
  induction f generalizing s f' with
  | zero => simp [dfsRun] at h
  | succ f ih =>
    obtain ⟨f', rfl⟩ : ∃ k, f' = k + 1 := ⟨f' - 1, by omega⟩
    simp only [dfsRun] at h ⊢
    cases hs : dfsStep g prune s with
    | next s' => rw [hs] at h; exact ih s' h f' (by omega)
    | done r c => rw [hs] at h; exact h
    | abort => rw [hs] at h; simp at h

theorem Acyclic.from {g : Hypergraph α} {prune : Nat → Bool} (h : Acyclic g prune) (goal : Nat) :
    AcyclicFrom g prune goal := by
  obtain ⟨rank, hr⟩ := h
  exact ⟨rank, fun v _ e he hp t ht => hr v e he hp t ht⟩

theorem Numbering.reach_iff {g : Hypergraph α} {prune : Nat → Bool} {goal : Nat} {rn : Nat → Option Nat}
    {count : Nat} (h : Numbering g prune goal rn count) (v : Nat) :
    (rn v).isSome ↔ Reach g prune goal v := by
  constructor
  · intro hs
    obtain ⟨i, hi⟩ := Option.isSome_iff_exists.1 hs
    exact h.reach v i hi
  · intro hr
    induction hr with
    | goal => rw [h.goal]; rfl
    | tail _ he hp ht ih =>
      obtain ⟨i, hi⟩ := Option.isSome_iff_exists.1 ih
      obtain ⟨j, _, hj⟩ := h.closed _ i hi _ he hp _ ht
      rw [hj]; rfl

end Cdec.HG
