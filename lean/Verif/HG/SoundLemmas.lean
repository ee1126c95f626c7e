import Verif.HG.RelocLemmas
import Mathlib.Tactic.ByContra
/-! Helper lemmas for C06: every run of the DFS loop that returns a result returns a numbering (so a
cycle that can be reached makes it abort). -/
namespace Cdec.HG
variable {α : Type}

section
variable (g : Hypergraph α) (prune : Nat → Bool) (reloc : Nat → Option Nat)

/-- The suspended frames: `child` is the tail at which the top frame was left, and so on downwards. -/
def Chain : Nat → List (Nat × Nat × Nat) → Prop
  | _, [] => True
  | child, (n, e, t) :: st =>
    (∃ ed j, t = j + 1 ∧ (g.inE n)[e]? = some ed ∧ prune ed = false ∧ (g.tails ed)[j]? = some child ∧
      DoneUpTo g prune reloc n e j) ∧ Chain n st

/-- Nodes of the suspended frames. -/
def frames (st : List (Nat × Nat × Nat)) : List Nat := st.map (·.1)

/-- Normal running: the nodes being visited are distinct, all gray but the goal at the bottom. -/
structure Normal (goal : Nat) (s : DFS) : Prop where
  num : Num g prune goal s.color s.reloc s.count
  done : DoneUpTo g prune s.reloc s.cur s.ei s.ti
  chain : Chain g prune s.reloc s.cur s.stack
  nodup : (s.cur :: frames s.stack).Nodup
  bottom : (s.cur :: frames s.stack).getLast? = some goal
  white : s.color goal = .white
  gray : ∀ v ∈ s.cur :: frames s.stack, v ≠ goal → s.color v = .gray
  reach : ∀ v ∈ s.cur :: frames s.stack, Reach g prune goal v

/-- The goal is being visited a second time and is bound to run into a gray tail. -/
structure Doomed (goal : Nat) (s : DFS) : Prop where
  black : ∀ v, s.color v = .black ↔ (s.reloc v).isSome
  cur : s.cur = goal
  hit : ∃ e0 j0 ed c, (g.inE goal)[e0]? = some ed ∧ prune ed = false ∧ (g.tails ed)[j0]? = some c ∧
    s.color c = .gray ∧ DoneUpTo g prune s.reloc goal e0 j0 ∧ (s.ei < e0 ∨ s.ei = e0 ∧ s.ti ≤ j0)

end

section
variable {g : Hypergraph α} {prune : Nat → Bool}

theorem DoneUpTo.mono {r r' : Nat → Option Nat} {v ei ti : Nat} (h : DoneUpTo g prune r v ei ti)
    (hm : ∀ u, (r u).isSome → (r' u).isSome) : DoneUpTo g prune r' v ei ti :=
  ⟨fun i e hi he hp t ht => hm t (h.1 i e hi he hp t ht), fun e he hp j t hj ht => hm t (h.2 e he hp j t hj ht)⟩

theorem Chain.mono {r r' : Nat → Option Nat} (hm : ∀ u, (r u).isSome → (r' u).isSome) :
    ∀ (st : List (Nat × Nat × Nat)) (c : Nat), Chain g prune r c st → Chain g prune r' c st
  | [], _, _ => trivial
  | (_, _, _) :: st, _, ⟨⟨ed, j, h1, h2, h3, h4, h5⟩, h6⟩ =>
    ⟨⟨ed, j, h1, h2, h3, h4, h5.mono hm⟩, Chain.mono hm st _ h6⟩

/-- Moving past a tail that is numbered. -/
theorem DoneUpTo.tail {r : Nat → Option Nat} {v ei ti ed tn : Nat} (h : DoneUpTo g prune r v ei ti)
    (he : (g.inE v)[ei]? = some ed) (ht : (g.tails ed)[ti]? = some tn) (hs : (r tn).isSome) :
    DoneUpTo g prune r v ei (ti + 1) := by
  refine ⟨h.1, fun e he' hp j t hj hjt => ?_⟩
  have : e = ed := by rw [he] at he'; exact (Option.some.inj he').symm
  subst this
  by_cases hj' : j = ti
  · subst hj'; rw [ht] at hjt; cases hjt; exact hs
  · exact h.2 e he hp j t (by omega) hjt

/-- Moving to the next edge. -/
theorem DoneUpTo.edge {r : Nat → Option Nat} {v ei ti ed : Nat} (h : DoneUpTo g prune r v ei ti)
    (he : (g.inE v)[ei]? = some ed) (hp : prune ed = false → (g.tails ed)[ti]? = none) :
    DoneUpTo g prune r v (ei + 1) 0 := by
  refine ⟨fun i e hi hie hpe t ht => ?_, fun _ _ _ j _ hj => by omega⟩
  by_cases hieq : i = ei
  · subst hieq
    have : e = ed := by rw [he] at hie; exact (Option.some.inj hie).symm
    subst this
    obtain ⟨j, hj, rfl⟩ := List.getElem_of_mem ht
    have := List.getElem?_eq_none_iff.1 (hp hpe)
    exact h.2 e he hpe j _ (by omega) (List.getElem?_eq_getElem hj)
  · exact h.1 i e (by omega) hie hpe t ht

theorem doomed_step {goal : Nat} {s : DFS} (h : Doomed g prune goal s) :
    dfsStep g prune s = .abort ∨ ∃ s', dfsStep g prune s = .next s' ∧ Doomed g prune goal s' := by
  obtain ⟨e0, j0, ed, c, he0, hp0, ht0, hc, hd, hpos⟩ := h.hit
  have hlen : e0 < (g.inE goal).length := by
    by_contra hh; rw [List.getElem?_eq_none (by omega)] at he0; simp at he0
  have hlen2 : j0 < (g.tails ed).length := by
    by_contra hh; rw [List.getElem?_eq_none (by omega)] at ht0; simp at ht0
  have hcur := h.cur
  have hle : s.ei < (g.inE goal).length := by omega
  obtain ⟨e, he⟩ : ∃ e, (g.inE goal)[s.ei]? = some e := ⟨_, List.getElem?_eq_getElem hle⟩
  have heq : s.ei = e0 → e = ed := fun hh => by rw [hh, he0] at he; exact (Option.some.inj he).symm
  by_cases hp : prune e
  · have hne : s.ei ≠ e0 := fun hh => by rw [heq hh, hp0] at hp; simp at hp
    refine .inr ⟨{ s with ei := s.ei + 1, ti := 0 }, by simp [dfsStep, hcur, he, hp], h.black, hcur,
      e0, j0, ed, c, he0, hp0, ht0, hc, hd, ?_⟩
    simp only; omega
  · have hp' : prune e = false := by simpa using hp
    cases ht : (g.tails e)[s.ti]? with
    | none =>
      have hne : s.ei ≠ e0 := fun hh => by
        have := heq hh; subst this
        have := List.getElem?_eq_none_iff.1 ht; omega
      refine .inr ⟨{ s with ei := s.ei + 1, ti := 0 }, by simp [dfsStep, hcur, he, hp', ht], h.black, hcur,
        e0, j0, ed, c, he0, hp0, ht0, hc, hd, ?_⟩
      simp only; omega
    | some tn =>
      by_cases hat : s.ei = e0 ∧ s.ti = j0
      · have := heq hat.1; subst this
        rw [hat.2, ht0] at ht; cases ht
        left
        simp [dfsStep, hcur, he, hp', hat.2, ht0, hc]
      · have hb : (s.reloc tn).isSome := by
          rcases hpos with hlt | ⟨hee, hlt⟩
          · exact hd.1 s.ei e hlt he hp' tn (List.mem_of_getElem? ht)
          · have := heq hee; subst this
            rw [← hee] at hd
            exact hd.2 e he hp' s.ti tn (by omega) ht
        have hcol := (h.black tn).2 hb
        refine .inr ⟨{ s with ti := s.ti + 1 }, by simp [dfsStep, hcur, he, hp', ht, hcol], h.black, hcur,
          e0, j0, ed, c, he0, hp0, ht0, hc, hd, ?_⟩
        simp only; omega

theorem doomed_run {goal : Nat} (f : Nat) : ∀ {s : DFS}, Doomed g prune goal s → dfsRun g prune f s = none := by
  induction f with
  | zero => intro s _; rfl
  | succ f ih =>
    intro s h
    rcases doomed_step h with hs | ⟨s', hs, h'⟩
    · simp [dfsRun, hs]
    · simp only [dfsRun, hs]; exact ih h'

/-- The bottom frame of a chain. -/
theorem chain_bottom {r : Nat → Option Nat} {goal : Nat} :
    ∀ (st : List (Nat × Nat × Nat)) (child : Nat), Chain g prune r child st → st ≠ [] →
      (child :: frames st).Nodup → (child :: frames st).getLast? = some goal →
      ∃ e0 j0 ed c, (g.inE goal)[e0]? = some ed ∧ prune ed = false ∧ (g.tails ed)[j0]? = some c ∧
        DoneUpTo g prune r goal e0 j0 ∧ c ∈ child :: frames st ∧ c ≠ goal
  | [], _, _, h, _, _ => absurd rfl h
  | [(n, e, t)], child, ⟨⟨ed, j, _, h2, h3, h4, h5⟩, _⟩, _, hnd, hl => by
    simp [frames] at hl hnd
    subst hl
    exact ⟨e, j, ed, child, h2, h3, h4, h5, by simp, hnd⟩
  | (n, e, t) :: f2 :: st, child, ⟨_, h6⟩, _, hnd, hl => by
    obtain ⟨e0, j0, ed, c, h1, h2, h3, h4, h5, h7⟩ := chain_bottom (f2 :: st) n h6 (by simp)
      (by simpa [frames] using (List.nodup_cons.1 hnd).2) (by simpa [frames] using hl)
    refine ⟨e0, j0, ed, c, h1, h2, h3, h4, ?_, h7⟩
    simp only [frames, List.map_cons, List.mem_cons] at h5 ⊢
    exact .inr h5

theorem normal_run {goal : Nat} (f : Nat) : ∀ {s : DFS}, Normal g prune goal s → ∀ rn count,
    dfsRun g prune f s = some (rn, count) → Numbering g prune goal rn count := by
  induction f with
  | zero => intro s _ rn count h; simp [dfsRun] at h
  | succ f ih =>
    intro s h rn count hrun
    have hblk : ∀ v ∈ s.cur :: frames s.stack, s.reloc v = none := by
      intro v hv
      have : s.color v ≠ .black := by
        by_cases hg : v = goal
        · subst hg; rw [h.white]; simp
        · rw [h.gray v hv hg]; simp
      rw [Ne, h.num.black v] at this
      simpa using this
    cases he : (g.inE s.cur)[s.ei]? with
    | none =>
      have hall : ∀ e ∈ g.inE s.cur, prune e = false → ∀ t ∈ g.tails e, (s.reloc t).isSome := by
        intro e hemem hp t ht
        obtain ⟨i, hi, hie⟩ := List.getElem_of_mem hemem
        have hlen := List.getElem?_eq_none_iff.1 he
        exact h.done.1 i e (by omega) (by rw [List.getElem?_eq_getElem hi, hie]) hp t ht
      have hf := h.num.finish s.cur (hblk _ (by simp)) (h.reach _ (by simp)) hall
      cases hst : s.stack with
      | nil =>
        have hstep : dfsStep g prune s = .done (upd s.reloc s.cur (some s.count)) (s.count + 1) := by
          simp [dfsStep, he, hst]
        have hgl : s.cur = goal := by
          have := h.bottom; rw [hst] at this; simpa [frames] using this
        simp only [dfsRun, hstep] at hrun
        simp only [Option.some.injEq, Prod.mk.injEq] at hrun
        obtain ⟨rfl, rfl⟩ := hrun
        exact ⟨hf.lt, hf.inj, hf.surj, hf.closed, hf.reach, by simp [upd, hgl], by omega⟩
      | cons fr st =>
        obtain ⟨n, e, t⟩ := fr
        have hstep : dfsStep g prune s = .next ⟨n, e, t, st, upd s.color s.cur .black,
            upd s.reloc s.cur (some s.count), s.count + 1⟩ := by simp [dfsStep, he, hst]
        simp only [dfsRun, hstep] at hrun
        have hch := h.chain
        rw [hst] at hch
        obtain ⟨⟨ed, j, rfl, h2, h3, h4, h5⟩, h6⟩ := hch
        have hmono : ∀ u, (s.reloc u).isSome → (upd s.reloc s.cur (some s.count) u).isSome := by
          intro u hu
          by_cases huc : u = s.cur
          · rw [huc, upd_same]; rfl
          · rw [upd_ne _ _ huc]; exact hu
        have hnd := h.nodup
        rw [hst] at hnd
        have hnd2 : (n :: frames st).Nodup := (List.nodup_cons.1 hnd).2
        have hne : ∀ v ∈ n :: frames st, v ≠ s.cur := fun v hv hvc =>
          (List.nodup_cons.1 hnd).1 (by rw [← hvc]; exact hv)
        have hbot : (n :: frames st).getLast? = some goal := by
          have := h.bottom; rw [hst] at this; simpa [frames] using this
        have hin : ∀ v ∈ n :: frames st, v ∈ s.cur :: frames s.stack := by
          intro v hv; rw [hst]; exact List.mem_cons_of_mem _ hv
        have hgne : goal ≠ s.cur := hne goal (List.mem_of_getLast? hbot)
        refine ih (s := ⟨n, e, j + 1, st, _, _, _⟩) ?_ rn count hrun
        refine ⟨hf, ?_, h6.mono hmono, hnd2, hbot, ?_, ?_, fun v hv => h.reach v (hin v hv)⟩
        · exact (h5.mono hmono).tail h2 h4 (by rw [upd_same]; rfl)
        · simp only; rw [upd_ne _ _ hgne]; exact h.white
        · intro v hv hvg
          simp only; rw [upd_ne _ _ (hne v hv)]; exact h.gray v (hin v hv) hvg
    | some e =>
      by_cases hp : prune e
      · have hstep : dfsStep g prune s = .next { s with ei := s.ei + 1, ti := 0 } := by simp [dfsStep, he, hp]
        simp only [dfsRun, hstep] at hrun
        exact ih (s := { s with ei := s.ei + 1, ti := 0 })
          ⟨h.num, h.done.edge he (by simp [hp]), h.chain, h.nodup, h.bottom, h.white, h.gray, h.reach⟩ rn count hrun
      · have hp' : prune e = false := by simpa using hp
        cases ht : (g.tails e)[s.ti]? with
        | none =>
          have hstep : dfsStep g prune s = .next { s with ei := s.ei + 1, ti := 0 } := by
            simp [dfsStep, he, hp', ht]
          simp only [dfsRun, hstep] at hrun
          exact ih (s := { s with ei := s.ei + 1, ti := 0 })
            ⟨h.num, h.done.edge he (fun _ => ht), h.chain, h.nodup, h.bottom, h.white, h.gray, h.reach⟩ rn count hrun
        | some tn =>
          cases hc : s.color tn with
          | gray =>
            have hstep : dfsStep g prune s = .abort := by simp [dfsStep, he, hp', ht, hc]
            simp [dfsRun, hstep] at hrun
          | black =>
            have hstep : dfsStep g prune s = .next { s with ti := s.ti + 1 } := by
              simp [dfsStep, he, hp', ht, hc]
            simp only [dfsRun, hstep] at hrun
            exact ih (s := { s with ti := s.ti + 1 })
              ⟨h.num, h.done.tail he ht ((h.num.black tn).1 hc), h.chain, h.nodup, h.bottom, h.white,
                h.gray, h.reach⟩ rn count hrun
          | white =>
            have hstep : dfsStep g prune s = .next ⟨tn, 0, 0, (s.cur, s.ei, s.ti + 1) :: s.stack,
                upd s.color tn .gray, s.reloc, s.count⟩ := by
              simp [dfsStep, he, hp', ht, hc]
            simp only [dfsRun, hstep] at hrun
            have hb' : ∀ v, upd s.color tn .gray v = .black ↔ (s.reloc v).isSome :=
              (h.num.gray tn (by rw [hc]; simp)).black
            by_cases htg : tn = goal
            · subst htg
              have hdoom : Doomed g prune tn ⟨tn, 0, 0, (s.cur, s.ei, s.ti + 1) :: s.stack,
                upd s.color tn .gray, s.reloc, s.count⟩ := by
                refine ⟨hb', rfl, ?_⟩
                simp only
                by_cases hst : s.stack = []
                · have hgl : s.cur = tn := by
                    have := h.bottom; rw [hst] at this; simpa [frames] using this
                  have hd := h.done
                  rw [hgl] at he hd
                  exact ⟨s.ei, s.ti, e, tn, he, hp', ht, by rw [upd_same], hd, by omega⟩
                · obtain ⟨e0, j0, ed, c, h1, h2, h3, h4, h5, h6⟩ :=
                    chain_bottom s.stack s.cur h.chain hst h.nodup h.bottom
                  exact ⟨e0, j0, ed, c, h1, h2, h3, by rw [upd_ne _ _ h6]; exact h.gray c h5 h6, h4, by omega⟩
              rw [doomed_run f hdoom] at hrun; simp at hrun
            · have hnotin : tn ∉ s.cur :: frames s.stack := fun hin => by
                rw [h.gray tn hin htg] at hc; simp at hc
              refine ih (s := ⟨tn, 0, 0, (s.cur, s.ei, s.ti + 1) :: s.stack,
                upd s.color tn .gray, s.reloc, s.count⟩) ?_ rn count hrun
              refine ⟨h.num.gray tn (by rw [hc]; simp), ⟨fun i _ hi => by simp at hi, fun _ _ _ j _ hj => by simp at hj⟩,
                ⟨⟨e, s.ti, rfl, he, hp', ht, h.done⟩, h.chain⟩, ?_, ?_, ?_, ?_, ?_⟩
              · exact List.nodup_cons.2 ⟨hnotin, h.nodup⟩
              · have := h.bottom
                simpa [frames] using this
              · simp only; rw [upd_ne _ _ (Ne.symm htg)]; exact h.white
              · intro v hv hvg
                simp only
                by_cases hvt : v = tn
                · rw [hvt, upd_same]
                · rw [upd_ne _ _ hvt]
                  exact h.gray v (by simpa [frames, hvt] using hv) hvg
              · intro v hv
                by_cases hvt : v = tn
                · rw [hvt]; exact .tail (h.reach s.cur (by simp)) (List.mem_of_getElem? he) hp' (List.mem_of_getElem? ht)
                · exact h.reach v (by simpa [frames, hvt] using hv)

theorem dfs_sound {goal f : Nat} {rn : Nat → Option Nat} {count : Nat}
    (h : dfsRun g prune f (dfsInit goal) = some (rn, count)) : Numbering g prune goal rn count := by
  refine normal_run f ?_ rn count h
  refine ⟨by constructor <;> simp [dfsInit], ?_, trivial, by simp [dfsInit, frames], by simp [dfsInit, frames], rfl,
    ?_, ?_⟩
  · exact ⟨fun i _ hi => by simp [dfsInit] at hi, fun _ _ _ j _ hj => by simp [dfsInit] at hj⟩
  · intro v hv hg; simp [dfsInit, frames] at hv; exact absurd hv hg
  · intro v hv; simp [dfsInit, frames] at hv; subst hv; exact .goal

theorem Numbering.acyclic {goal : Nat} {rn : Nat → Option Nat} {count : Nat}
    (h : Numbering g prune goal rn count) : AcyclicFrom g prune goal := by
  refine ⟨fun v => (rn v).getD 0, fun v hv e he hp t ht => ?_⟩
  obtain ⟨i, hi⟩ := Option.isSome_iff_exists.1 ((h.reach_iff v).2 hv)
  obtain ⟨j, hj, hj2⟩ := h.closed v i hi e he hp t ht
  simp only [hi, hj2, Option.getD_some]; exact hj

/-- Tables stay consistent under relocation. -/
theorem reloc_consistent {goal : Nat} {rn : Nat → Option Nat} {count : Nat}
    (hnum : Numbering g prune goal rn count) (hir : InRange g) (hg : goal < g.nodes.length)
    (hc : Consistent g) : Consistent (relocate g rn (edgeReloc g prune rn)) := by
  have hnodes := reloc_nodes hnum hir hg (edgeReloc g prune rn)
  have hedges := (reloc_edges (g := g) (prune := prune) (rn := rn)).2
  generalize hH : relocate g rn (edgeReloc g prune rn) = H at *
  have hnode : ∀ i (hi : i < H.nodes.length), ∃ v, v < g.nodes.length ∧ rn v = some i ∧ H.nodes[i] =
      { id := i, cat := (g.node v).cat, inEdges := (g.inE v).filterMap (edgeReloc g prune rn),
        outEdges := (g.node v).outEdges.filterMap (edgeReloc g prune rn) } := by
    intro i hi
    obtain ⟨v, hv⟩ := hnum.surj i (by rw [← hnodes.1]; exact hi)
    have := hnodes.2 v i hv
    rw [Hypergraph.node, List.getD_eq_getElem?_getD, List.getElem?_eq_getElem hi] at this
    exact ⟨v, (hnum.reach v i hv).lt hir hg, hv, by simpa using this⟩
  have hkept : ∀ e k, edgeReloc g prune rn e = some k → prune e = false ∧
      ∃ v, v < g.nodes.length ∧ (rn v).isSome ∧ e ∈ g.inE v := by
    intro e k hk
    have := (edgeReloc_some hk).1
    simp only [edgeKept, Bool.and_eq_true, List.any_eq_true, List.mem_range, Bool.not_eq_true'] at this
    obtain ⟨⟨v, hv, h1, h2⟩, h3⟩ := this
    exact ⟨h3, v, hv, h1, by simpa using h2⟩
  have htails : ∀ e k, edgeReloc g prune rn e = some k → ∀ t ∈ g.tails e, ∃ j, rn t = some j := by
    intro e k hk t ht
    obtain ⟨hp, v, hv, hs, hm⟩ := hkept e k hk
    obtain ⟨i, hi⟩ := Option.isSome_iff_exists.1 hs
    obtain ⟨j, _, hj⟩ := hnum.closed v i hi e hm hp t ht
    exact ⟨j, hj⟩
  have hedge : ∀ i (hi : i < H.edges.length), ∃ e, ∃ h : e < g.edges.length, edgeReloc g prune rn e = some i ∧
      H.edges[i] = { id := i, head := g.edges[e].head.bind rn, tails := g.edges[e].tails.map fun t => (rn t).getD 0, val := g.edges[e].val } :=
    fun i hi => (hedges i _).1 (List.getElem?_eq_getElem hi)
  have count_fm : ∀ (l : List Nat) (e k : Nat), edgeReloc g prune rn e = some k →
      (l.filterMap (edgeReloc g prune rn)).count k = l.count e := by
    intro l e k hk
    induction l with
    | nil => simp
    | cons a l ih =>
      by_cases hae : a = e
      · subst hae; rw [List.filterMap_cons_some hk]; simp [ih]
      · rw [List.count_cons_of_ne hae]
        cases ha : edgeReloc g prune rn a with
        | none => rw [List.filterMap_cons_none ha, ih]
        | some k' =>
          rw [List.filterMap_cons_some ha]
          have : k' ≠ k := fun h => hae (edgeReloc_inj (h ▸ ha) hk)
          rw [List.count_cons_of_ne this, ih]
  have gnode : ∀ v (hv : v < g.nodes.length), g.node v = g.nodes[v] := by
    intro v hv; simp [Hypergraph.node, List.getD_eq_getElem?_getD, hv]
  have gtails : ∀ e (he : e < g.edges.length), g.tails e = g.edges[e].tails := by
    intro e he; simp [Hypergraph.tails, he]
  have ghead : ∀ e (he : e < g.edges.length), g.head e = g.edges[e].head := by
    intro e he; simp [Hypergraph.head, he]
  constructor
  · intro i hi
    obtain ⟨v, _, _, h⟩ := hnode i hi
    rw [h]
  · intro i hi
    obtain ⟨e, _, _, h⟩ := hedge i hi
    rw [h]
  · intro i hi t ht
    obtain ⟨e, he, hk, h⟩ := hedge i hi
    rw [h] at ht
    obtain ⟨u, hu, rfl⟩ := List.mem_map.1 ht
    obtain ⟨j, hj⟩ := htails e i hk u (by rw [gtails e he]; exact hu)
    rw [hj, hnodes.1]; exact hnum.lt u j hj
  · intro i hi w hw
    obtain ⟨e, he, hk, h⟩ := hedge i hi
    rw [h] at hw
    simp only [Option.bind_eq_some_iff] at hw
    obtain ⟨u, _, hu⟩ := hw
    rw [hnodes.1]; exact hnum.lt u w hu
  · intro k hk e'
    obtain ⟨v, hv, hvk, h⟩ := hnode k hk
    rw [h]
    by_cases hlt : e' < H.edges.length
    · obtain ⟨e, he, hre, hE⟩ := hedge e' hlt
      simp only
      rw [count_fm _ e e' hre, gnode v hv, hc.outc v hv e]
      have : H.tails e' = g.edges[e].tails.map fun t => (rn t).getD 0 := by
        simp [Hypergraph.tails, hlt, hE]
      rw [this, ← gtails e he]
      have hin := htails e e' hre
      generalize g.tails e = ts at hin
      induction ts with
      | nil => simp
      | cons a ts ih =>
        obtain ⟨j, hj⟩ := hin a (by simp)
        rw [List.map_cons, List.count_cons, List.count_cons, ih (fun t ht => hin t (by simp [ht])), hj]
        have : (a == v) = ((some j).getD 0 == k) := by
          rw [Bool.eq_iff_iff]
          simp only [Option.getD_some, beq_iff_eq]
          constructor
          · rintro rfl; rw [hj] at hvk; exact Option.some.inj hvk
          · rintro rfl; exact hnum.inj _ _ _ hj hvk
        rw [this]
    · have h0 : H.tails e' = [] := by simp [Hypergraph.tails, Nat.le_of_not_lt hlt]
      rw [h0, List.count_nil]
      rw [List.count_eq_zero]
      intro hmem
      obtain ⟨e, _, he⟩ := List.mem_filterMap.1 hmem
      obtain ⟨_, u, hu, _, hm⟩ := hkept e e' he
      have helt := hir.edge_lt u hu e hm
      have := (hedges e' _).2 ⟨e, helt, he, rfl⟩
      exact hlt (List.getElem?_eq_some_iff.1 this).1
  · intro k hk e'
    obtain ⟨v, hv, hvk, h⟩ := hnode k hk
    rw [h]
    have ginE : g.inE v = g.nodes[v].inEdges := by rw [Hypergraph.inE, gnode v hv]
    by_cases hlt : e' < H.edges.length
    · obtain ⟨e, he, hre, hE⟩ := hedge e' hlt
      simp only
      rw [count_fm _ e e' hre, ginE, hc.inc v hv e]
      have : H.head e' = (g.head e).bind rn := by
        have h1 : H.head e' = H.edges[e'].head := by simp [Hypergraph.head, hlt]
        rw [h1, ghead e he, hE]
      rw [this]
      by_cases hh : g.head e = some v
      · rw [hh]; simp [hvk]
      · rw [if_neg hh, if_neg]
        intro hb
        obtain ⟨u, hu, hu2⟩ := Option.bind_eq_some_iff.1 hb
        have := hnum.inj _ _ _ hu2 hvk
        subst this; exact hh hu
    · have h0 : H.head e' = none := by simp [Hypergraph.head, Nat.le_of_not_lt hlt]
      rw [h0, if_neg (by simp), List.count_eq_zero]
      intro hmem
      obtain ⟨e, _, he⟩ := List.mem_filterMap.1 hmem
      obtain ⟨_, u, hu, _, hm⟩ := hkept e e' he
      have helt := hir.edge_lt u hu e hm
      have := (hedges e' _).2 ⟨e, helt, he, rfl⟩
      exact hlt (List.getElem?_eq_some_iff.1 this).1

end
end Cdec.HG
