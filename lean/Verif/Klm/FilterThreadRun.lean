import Verif.Klm.FilterThreadMain
import Mathlib.Data.List.Perm.Subperm
/-!
# Runs of the threaded filter: reachable states, progress, termination
-/
namespace Cdec.Klm.FilterThread

variable {α β ε : Type}
variable {B Q W : Nat} {f : α → List β} {cmds : List (Cmd α ε)} {s s' : St α β ε} {g : Ghost α β ε}

theorem inv_init (hQ : 1 ≤ Q) (hg : Good B false 0 cmds) :
    Inv B Q W f cmds (init Q W cmds : St α β ε) ⟨[], 0, [], 0, false⟩ := by
  have hno : ∀ b, ¬ InF (init Q W cmds : St α β ε) b := by
    intro b hb
    rcases hb with hb | ⟨w, hw, hb⟩ | hb | hb
    · cases hb
    · simp only [init, List.mem_replicate] at hw; rw [hw.2] at hb; cases hb
    · cases hb
    · cases hb
  have hheld : (List.replicate W Wk.idle).filterMap Wk.held = [] := by
    rw [List.filterMap_eq_nil_iff]; intro w hw; rw [List.mem_replicate] at hw; rw [hw.2]; rfl
  refine ⟨?_, by simp [init], ?_, ?_, ?_, ?_, ?_, ⟨rfl, Nat.le_refl _⟩, ?_, ?_, ?_, ?_, ?_, ?_, ?_, ?_, ?_⟩
  · intro b
    simp only [cnt, init, hheld, List.filterMap_nil, List.count_nil, Nat.zero_add, List.count_reverse]
    split
    · exact List.count_eq_one_of_mem List.nodup_range (List.mem_range.mpr (by assumption))
    · exact List.count_eq_zero_of_not_mem (fun h => by rw [List.mem_range] at h; omega)
  · intro b _; rfl
  · intro b hb; cases hb
  · intro w hw; simp only [init, List.mem_replicate] at hw; rw [hw.2]; trivial
  · intro b hb; cases hb
  · intro p b hb; simp [init] at hb
  · exact fun b hb => absurd hb (hno b)
  · intro q h1 h2; simp only [init, List.length_nil] at h1 h2; omega
  · exact fun b b' hb => absurd hb (hno b)
  · simp [init, calls, expand]
  · intro h; cases h
  · intro _ b o h; cases h
  · refine ⟨by simp [Whole], ⟨hg, rfl⟩, Or.inl rfl, ?_, fun _ => ⟨rfl, hno⟩⟩
    intro h
    have h := congrArg List.length h
    simp [init] at h
    omega
  · exact ⟨by simp [init], by simp [init], by simp [init], by simp [init]⟩
  · exact fun hf => ⟨hf, by simp, by simp⟩

theorem reach_inv (hB : 1 ≤ B) (hQ : 1 ≤ Q) (hW : 1 ≤ W) (hg : Good B false 0 cmds) (h : Reach B Q W f cmds s) :
    ∃ g, Inv B Q W f cmds s g := by
  induction h with
  | init => exact ⟨_, inv_init hQ hg⟩
  | step t _ e ih =>
    obtain ⟨g, ih⟩ := ih
    cases t with
    | main => exact inv_main hB hQ hW ih e
    | worker i => exact ⟨g, inv_worker ih e⟩
    | out => exact inv_out ih e

theorem worker_not_bad (Q : Nat) (f : α → List β) (i : Nat) (s : St α β ε) : stepWorker Q f i s ≠ .bad := by
  unfold stepWorker
  cases s.workers[i]? with
  | none => simp
  | some w =>
    cases w with
    | idle =>
      simp only
      cases s.fq with
      | nil => simp
      | cons x q => cases x <;> simp
    | got b => simp
    | filtered b => simp only; split <;> simp
    | dead => simp

/-! ## Where the batches are -/

/-- The batches in all places. -/
def everywhere (s : St α β ε) : List Nat :=
  s.fq.filterMap id ++ s.workers.filterMap Wk.held ++ s.oq.filterMap id ++ s.ordering.filterMap id ++ s.rq ++ s.loc

theorem Inv.perm (h : Inv B Q W f cmds s g) : (everywhere s).Perm (List.range Q) := by
  rw [List.perm_iff_count]
  intro b
  have e : (everywhere s).count b = cnt s b := by simp only [everywhere, cnt, List.count_append]
  rw [e, h.own b]
  split
  · exact (List.count_eq_one_of_mem List.nodup_range (List.mem_range.mpr (by assumption))).symm
  · exact (List.count_eq_zero_of_not_mem (fun h => by rw [List.mem_range] at h; omega)).symm

theorem Inv.total (h : Inv B Q W f cmds s g) :
    (s.fq.filterMap id).length + (s.workers.filterMap Wk.held).length + (s.oq.filterMap id).length +
      (s.ordering.filterMap id).length + s.rq.length + s.loc.length = Q := by
  have := h.perm.length_eq
  simpa [everywhere, Nat.add_assoc] using this

theorem some_len {l : List (Option Nat)} (h : none ∉ l) : (l.filterMap id).length = l.length := by
  obtain ⟨l', rfl⟩ := map_some_of_none h
  simp

theorem held_pos {w : Wk} {b : Nat} (hw : w ∈ s.workers) (hb : w.held = some b) : 1 ≤ (s.workers.filterMap Wk.held).length :=
  List.length_pos_of_mem (mem_held.mpr ⟨w, hw, hb⟩)

/-- A worker with work to do can do it. -/
theorem worker_go (h : Inv B Q W f cmds s g) {w : Wk} (hw : w ∈ s.workers) (hd : w ≠ .dead) (hoq : none ∉ s.oq)
    (hf : s.fq ≠ [] ∨ w ≠ .idle) : ∃ i s', stepWorker Q f i s = .ok s' := by
  obtain ⟨i, hi⟩ := List.getElem?_of_mem hw
  refine ⟨i, ?_⟩
  unfold stepWorker
  rw [hi]
  cases w with
  | dead => exact absurd rfl hd
  | idle =>
    simp only
    cases hq : s.fq with
    | nil => rcases hf with hf | hf; exact absurd hq hf; exact absurd rfl hf
    | cons x q => cases x <;> exact ⟨_, rfl⟩
  | got b => exact ⟨_, rfl⟩
  | filtered b =>
    simp only
    have h1 := h.total
    have h2 := held_pos hw (b := b) rfl
    have h3 := some_len hoq
    rw [if_pos (by omega)]
    exact ⟨_, rfl⟩

/-- The output worker with work to do can do it. -/
theorem out_go (h : Inv B Q W f cmds s g) (hd : s.out ≠ .dead) (hoq : s.oq ≠ [] ∨ s.out ≠ .idle) :
    ∃ s', stepOut Q s = .ok s' := by
  cases hs : stepOut Q s with
  | ok s' => exact ⟨s', rfl⟩
  | bad => exact absurd hs (out_not_bad h)
  | blocked =>
    unfold stepOut at hs
    cases hout : s.out with
    | dead => exact absurd hout hd
    | idle =>
      rw [hout] at hs
      simp only at hs
      cases hq : s.oq with
      | nil => rcases hoq with hoq | hoq; exact absurd hq hoq; exact absurd hout hoq
      | cons x q =>
        rw [hq] at hs
        cases x with
        | none => cases hs
        | some b => simp only at hs; split at hs <;> cases hs
    | loop =>
      rw [hout] at hs
      simp only at hs
      cases ho : s.ordering with
      | nil => rw [ho] at hs; cases hs
      | cons x o => rw [ho] at hs; cases x <;> cases hs
    | flushed =>
      rw [hout] at hs
      obtain ⟨b, o, e⟩ := h.flushedHd hout
      rw [e] at hs
      simp only at hs
      split at hs
      · cases hs
      · rename_i hl
        have h1 := h.total
        rw [e] at h1
        simp only [List.filterMap_cons, id, List.length_cons] at h1
        omega

/-- A reachable state is final or some thread can go on. -/
theorem inv_progress (hB : 1 ≤ B) (hQ : 1 ≤ Q) (hW : 1 ≤ W) (h : Inv B Q W f cmds s g) (hd : s.pc ≠ .done) :
    ∃ t s', step B Q f s t = .ok s' := by
  by_contra hcon
  have hm : ∀ s', stepMain B Q s ≠ .ok s' := fun s' hs => hcon ⟨.main, s', hs⟩
  have hwk : ∀ i s', stepWorker Q f i s ≠ .ok s' := fun i s' hs => hcon ⟨.worker i, s', hs⟩
  have hou : ∀ s', stepOut Q s ≠ .ok s' := fun s' hs => hcon ⟨.out, s', hs⟩
  have htot := h.total
  have hp := h.pcOk
  have hpo := h.poison
  have hnb := main_not_bad h
  -- waiting for a batch to come back
  have wait : s.rq = [] → s.loc.length < Q → none ∉ s.oq → s.out ≠ .dead → none ∉ s.fq → Wk.dead ∉ s.workers → False := by
    intro hr hl h1 h2 h3 h4
    have hout : s.out = .idle ∧ s.oq = [] := by
      by_contra hn
      obtain ⟨s', hs'⟩ := out_go h h2 (by
        by_cases ho : s.out = .idle
        · left; intro hq; exact hn ⟨ho, hq⟩
        · exact Or.inr ho)
      exact hou s' hs'
    have hwi : ∀ w ∈ s.workers, w = .idle := by
      intro w hw
      by_contra hn
      obtain ⟨i, s', hs'⟩ := worker_go h hw (fun hd => h4 (hd ▸ hw)) h1 (Or.inr hn)
      exact hwk i s' hs'
    have hfq : s.fq = [] := by
      by_contra hn
      cases hws : s.workers with
      | nil => have := h.wlen; rw [hws] at this; simp at this; omega
      | cons w ws =>
        have hw : w ∈ s.workers := by rw [hws]; simp
        obtain ⟨i, s', hs'⟩ := worker_go h hw (fun hd => h4 (hd ▸ hw)) h1 (Or.inl hn)
        exact hwk i s' hs'
    have hn : g.n = g.P.length := h.quiet (by rw [hfq]; simp) (fun w hw => by rw [hwi w hw]; rfl)
      (by rw [hout.2]; simp) (h.idleHd (Or.inl hout.1))
    have hord : s.ordering.filterMap id = [] := by
      rw [List.filterMap_eq_nil_iff]
      intro x hx
      cases x with
      | none => rfl
      | some b =>
        exfalso
        have hb : InF s b := Or.inr (Or.inr (Or.inr hx))
        obtain ⟨o, ho⟩ := h.holds hb
        have h5 := ho.le
        have h6 := h.low b hb
        have h7 := h.base.1
        omega
    have hheld : s.workers.filterMap Wk.held = [] := by
      rw [List.filterMap_eq_nil_iff]; intro w hw; rw [hwi w hw]; rfl
    rw [hord, hheld, hfq, hout.2, hr] at htot
    simp at htot
    omega
  -- waiting for a filter worker
  have waitF : ∀ (l : List Nat) (k m : Nat), s.fq = l.map some ++ List.replicate k none → alive s.workers = k + m →
      none ∉ s.oq → (s.fq ≠ [] ∨ m = 0) → alive s.workers ≠ 0 → False := by
    intro l k m h1 h2 h3 h4 h5
    obtain ⟨w, hw, hw'⟩ : ∃ w ∈ s.workers, w ≠ .dead := by
      by_contra hn
      exact h5 (alive_none (fun w hw => by
        by_contra hd; exact hn ⟨w, hw, hd⟩))
    have hf : s.fq ≠ [] := by
      rcases h4 with h4 | h4
      · exact h4
      · intro he
        rw [he] at h1
        have := congrArg List.length h1
        simp at this
        omega
    obtain ⟨i, s', hs'⟩ := worker_go h hw hw' h3 (Or.inl hf)
    exact hwk i s' hs'
  unfold stepMain at hm hnb
  unfold PcOk at hp
  unfold Poison at hpo
  cases hpc : s.pc with
  | run cs =>
    rw [hpc] at hm
    cases cs with
    | nil => exact hm _ rfl
    | cons c cs => cases c <;> exact hm _ rfl
  | send k cs =>
    rw [hpc] at hm hp hpo
    simp only at hm
    have hl : s.loc.head? = some s.cur := by cases k <;> exact hp.1
    split at hm
    · exact hm _ rfl
    · cases hlc : s.loc with
      | nil => rw [hlc] at hl; cases hl
      | cons b r =>
        rw [hlc] at hm htot
        simp only at hm
        rw [if_pos] at hm
        · exact hm _ rfl
        · have := some_len hpo.2.2.1
          simp only [List.length_cons] at htot
          omega
  | move k cs =>
    rw [hpc] at hm hp hpo
    simp only at hm
    have hl : s.loc = [] := by cases k; exact hp.2.2.2.2; exact hp.2.2.2
    cases hr : s.rq with
    | nil => exact wait hr (by rw [hl]; simp; omega) hpo.1 hpo.2.1 hpo.2.2.1 hpo.2.2.2
    | cons b r => rw [hr] at hm; exact hm _ rfl
  | drain cs =>
    rw [hpc] at hm hpo
    simp only at hm
    split at hm
    · cases hr : s.rq with
      | nil => exact wait hr (by assumption) hpo.1 hpo.2.1 hpo.2.2.1 hpo.2.2.2
      | cons b r => rw [hr] at hm; exact hm _ rfl
    · exact hm _ rfl
  | fill cs =>
    rw [hpc] at hm hp
    simp only at hm
    cases hl : s.loc with
    | nil => exact hp.2.2.2.1 hl
    | cons b r => rw [hl] at hm; exact hm _ rfl
  | kill n =>
    rw [hpc] at hm hpo
    obtain ⟨b1, b2, l, k, b3, b4, b5⟩ := hpo
    cases n with
    | zero => exact hm _ rfl
    | succ n =>
      simp only at hm
      split at hm
      · exact hm _ rfl
      · rename_i hl
        refine waitF l k (n + 1) b3 b4 b1 (Or.inl ?_) (by omega)
        intro he; rw [he] at hl; simp at hl; omega
  | joinF =>
    rw [hpc] at hm hpo
    obtain ⟨b1, b2, l, k, b3, b4, b5⟩ := hpo
    simp only at hm
    split at hm
    · exact hm _ rfl
    · rename_i hl
      refine waitF l k 0 b3 b4 b1 (Or.inr rfl) ?_
      intro he
      apply hl
      unfold alive at he
      rw [List.countP_eq_zero] at he
      rw [List.all_eq_true]
      intro w hw
      have := he w hw
      simpa using this
  | killO =>
    rw [hpc] at hm hpo
    obtain ⟨b1, b2, b3, b4⟩ := hpo
    simp only at hm
    split at hm
    · exact hm _ rfl
    · rename_i hl
      obtain ⟨s', hs'⟩ := out_go h b2 (Or.inl (by intro he; rw [he] at hl; simp at hl; omega))
      exact hou s' hs'
  | joinO =>
    rw [hpc] at hm hpo
    obtain ⟨b1, b2, b3⟩ := hpo
    simp only at hm
    split at hm
    · exact hm _ rfl
    · rename_i hl
      rcases b3 with ⟨b3, l, b4⟩ | ⟨b3, _⟩
      · obtain ⟨s', hs'⟩ := out_go h b3 (Or.inl (by rw [b4]; simp))
        exact hou s' hs'
      · exact hl b3
  | done => exact hd hpc

/-! ## Termination -/

def Wk.weight : Wk → Nat
  | .idle => 0
  | .got _ => 8
  | .filtered _ => 7
  | .dead => 0

def Ow.weight : Ow → Nat
  | .idle => 0
  | .loop => 2
  | .flushed => 1
  | .dead => 0

def Pc.weight (W : Nat) : Pc α ε → Nat
  | .run cs => 20 * cs.length + (10 * W + 11)
  | .send _ cs => 20 * cs.length + (10 * W + 11) + 13
  | .move _ cs => 20 * cs.length + (10 * W + 11) + 3
  | .drain cs => 20 * cs.length + (10 * W + 11) + 2
  | .fill cs => 20 * cs.length + (10 * W + 11) + 1
  | .kill n => 10 * n + 10
  | .joinF => 9
  | .killO => 8
  | .joinO => 1
  | .done => 0

/-- What is left to do. -/
def work (s : St α β ε) : Nat :=
  s.pc.weight s.workers.length + 9 * s.fq.length + (s.workers.map Wk.weight).sum + 6 * s.oq.length +
    3 * (s.ordering.filterMap id).length + s.rq.length + s.out.weight

theorem filterMap_set_le (l : List (Option Nat)) (i b : Nat) :
    ((l.set i (some b)).filterMap id).length ≤ (l.filterMap id).length + 1 := by
  induction l generalizing i with
  | nil => simp
  | cons x l ih =>
    cases i with
    | zero => cases x <;> simp
    | succ i =>
      simp only [List.set_cons_succ]
      have := ih i
      cases x <;> simp at this ⊢ <;> omega

theorem place_le (o : List (Option Nat)) (pos b : Nat) :
    ((place o pos b).filterMap id).length ≤ (o.filterMap id).length + 1 := by
  rw [place_eq]
  rw [← pad_filter o pos]
  exact filterMap_set_le _ _ _

theorem set_weight {l : List Wk} {i : Nat} {w : Wk} (h : l[i]? = some w) (w' : Wk) :
    ((l.set i w').map Wk.weight).sum + w.weight = (l.map Wk.weight).sum + w'.weight := by
  obtain ⟨l1, l2, e1, e2⟩ := set_split h
  rw [e2, e1]
  simp
  omega

theorem go_weight (W : Nat) (k : Next) (cs : List (Cmd α ε)) :
    (k.go cs).weight W ≤ 20 * cs.length + (10 * W + 11) + 2 := by
  cases k <;> simp [Next.go, Pc.weight]

theorem step_work {t : Thread} (h : step B Q f s t = .ok s') : work s' < work s := by
  cases t with
  | main =>
    unfold step stepMain at h
    simp only at h
    cases hpc : s.pc with
    | run cs =>
      rw [hpc] at h
      cases cs with
      | nil =>
        simp only [Res.ok.injEq] at h; subst h
        simp only [work, Pc.weight, hpc, List.length_nil]; omega
      | cons c cs =>
        cases c with
        | add l =>
          simp only [Res.ok.injEq] at h; subst h
          simp only [work, hpc]
          split <;> simp only [Pc.weight, List.length_cons] <;> omega
        | flush =>
          simp only [Res.ok.injEq] at h; subst h
          simp only [work, Pc.weight, hpc, List.length_cons]; omega
        | emit e =>
          simp only [Res.ok.injEq] at h; subst h
          simp only [work, Pc.weight, hpc, List.length_cons]; omega
    | send k cs =>
      rw [hpc] at h
      simp only at h
      have hg := go_weight s.workers.length k cs
      split at h
      · simp only [Res.ok.injEq] at h; subst h
        simp only [work, hpc]; simp only [Pc.weight] at hg ⊢; omega
      · cases hl : s.loc with
        | nil => rw [hl] at h; cases h
        | cons b rest =>
          rw [hl] at h
          simp only at h
          split at h
          · simp only [Res.ok.injEq] at h; subst h
            simp only [work, hpc, List.length_append, List.length_singleton]
            split <;> simp only [Pc.weight] at hg ⊢ <;> omega
          · cases h
    | move k cs =>
      rw [hpc] at h
      simp only at h
      have hg := go_weight s.workers.length k cs
      cases hr : s.rq with
      | nil => rw [hr] at h; cases h
      | cons b r =>
        rw [hr] at h
        simp only [Res.ok.injEq] at h; subst h
        simp only [work, hpc, hr, List.length_cons]; simp only [Pc.weight] at hg ⊢; omega
    | drain cs =>
      rw [hpc] at h
      simp only at h
      split at h
      · cases hr : s.rq with
        | nil => rw [hr] at h; cases h
        | cons b r =>
          rw [hr] at h
          simp only [Res.ok.injEq] at h; subst h
          simp only [work, hpc, hr, List.length_cons]; omega
      · simp only [Res.ok.injEq] at h; subst h
        simp only [work, hpc, Pc.weight]; omega
    | fill cs =>
      rw [hpc] at h
      simp only at h
      cases hl : s.loc with
      | nil => rw [hl] at h; cases h
      | cons b r =>
        rw [hl] at h
        simp only [Res.ok.injEq] at h; subst h
        simp only [work, hpc, Pc.weight]; omega
    | kill n =>
      rw [hpc] at h
      cases n with
      | zero =>
        simp only [Res.ok.injEq] at h; subst h
        simp only [work, hpc, Pc.weight]; omega
      | succ n =>
        simp only at h
        split at h
        · simp only [Res.ok.injEq] at h; subst h
          simp only [work, hpc, Pc.weight, List.length_append, List.length_singleton]; omega
        · cases h
    | joinF =>
      rw [hpc] at h
      simp only at h
      split at h
      · simp only [Res.ok.injEq] at h; subst h
        simp only [work, hpc, Pc.weight]; omega
      · cases h
    | killO =>
      rw [hpc] at h
      simp only at h
      split at h
      · simp only [Res.ok.injEq] at h; subst h
        simp only [work, hpc, Pc.weight, List.length_append, List.length_singleton]; omega
      · cases h
    | joinO =>
      rw [hpc] at h
      simp only at h
      split at h
      · simp only [Res.ok.injEq] at h; subst h
        simp only [work, hpc, Pc.weight]; omega
      · cases h
    | done => rw [hpc] at h; cases h
  | worker i =>
    unfold step stepWorker at h
    simp only at h
    cases hw : s.workers[i]? with
    | none => rw [hw] at h; cases h
    | some w =>
      rw [hw] at h
      cases w with
      | idle =>
        simp only at h
        cases hq : s.fq with
        | nil => rw [hq] at h; cases h
        | cons x q =>
          rw [hq] at h
          cases x with
          | none =>
            simp only [Res.ok.injEq] at h; subst h
            have := set_weight hw .dead
            simp only [work, hq, List.length_cons, List.length_set]; simp only [Wk.weight] at this ⊢; omega
          | some b =>
            simp only [Res.ok.injEq] at h; subst h
            have := set_weight hw (.got b)
            simp only [work, hq, List.length_cons, List.length_set]; simp only [Wk.weight] at this ⊢; omega
      | got b =>
        simp only [Res.ok.injEq] at h; subst h
        have := set_weight hw (.filtered b)
        simp only [work, List.length_set]; simp only [Wk.weight] at this ⊢; omega
      | filtered b =>
        simp only at h
        split at h
        · simp only [Res.ok.injEq] at h; subst h
          have := set_weight hw .idle
          simp only [work, List.length_set, List.length_append, List.length_singleton]; simp only [Wk.weight] at this ⊢; omega
        · cases h
      | dead => cases h
  | out =>
    unfold step stepOut at h
    simp only at h
    cases hout : s.out with
    | idle =>
      rw [hout] at h
      simp only at h
      cases hq : s.oq with
      | nil => rw [hq] at h; cases h
      | cons x q =>
        rw [hq] at h
        cases x with
        | none =>
          simp only [Res.ok.injEq] at h; subst h
          simp only [work, hq, hout, List.length_cons, Ow.weight]; omega
        | some b =>
          simp only at h
          split at h
          · cases h
          · simp only [Res.ok.injEq] at h; subst h
            have := place_le s.ordering ((s.mem b).seq - s.base) b
            simp only [work, hq, hout, List.length_cons, Ow.weight]; omega
    | loop =>
      rw [hout] at h
      simp only at h
      cases ho : s.ordering with
      | nil =>
        rw [ho] at h; simp only [Res.ok.injEq] at h; subst h
        simp only [work, hout, Ow.weight, ho]; omega
      | cons x o =>
        rw [ho] at h
        cases x with
        | none =>
          simp only [Res.ok.injEq] at h; subst h
          simp only [work, hout, Ow.weight, ho]; omega
        | some b =>
          simp only [Res.ok.injEq] at h; subst h
          simp only [work, hout, Ow.weight, ho]; omega
    | flushed =>
      rw [hout] at h
      simp only at h
      cases ho : s.ordering with
      | nil => rw [ho] at h; cases h
      | cons x o =>
        rw [ho] at h
        cases x with
        | none => cases h
        | some b =>
          simp only at h
          split at h
          · simp only [Res.ok.injEq] at h; subst h
            have e : ((some b :: o).filterMap id).length = (o.filterMap id).length + 1 := by simp
            simp only [work, hout, Ow.weight, ho, e, List.length_append, List.length_singleton]
            omega
          · cases h
    | dead => rw [hout] at h; cases h

/-! ## What is in the file -/

theorem Inv.whole (h : Inv B Q W f cmds s g) : ∃ pend cs, Whole cmds g pend cs := by
  have hp := h.pcOk
  unfold PcOk at hp
  cases hpc : s.pc with
  | run cs => rw [hpc] at hp; exact ⟨_, _, hp.2.1⟩
  | send k cs => rw [hpc] at hp; cases k <;> exact ⟨_, _, hp.2.1⟩
  | move k cs => rw [hpc] at hp; cases k <;> exact ⟨_, _, hp.1⟩
  | drain cs => rw [hpc] at hp; exact ⟨_, _, hp.1⟩
  | fill cs => rw [hpc] at hp; exact ⟨_, _, hp.1⟩
  | kill n => rw [hpc] at hp; exact ⟨_, _, hp.choose_spec.1⟩
  | joinF => rw [hpc] at hp; exact ⟨_, _, hp.choose_spec.1⟩
  | killO => rw [hpc] at hp; exact ⟨_, _, hp.choose_spec.1⟩
  | joinO => rw [hpc] at hp; exact ⟨_, _, hp.choose_spec.1⟩
  | done => rw [hpc] at hp; exact ⟨_, _, hp.choose_spec.1⟩

theorem Whole.events {pend : List α} {cs : List (Cmd α ε)} (h : Whole cmds g pend cs) (f : α → List β) :
    events f cmds = expand f g.pre ++ calls f g.P.flatten ++ calls f pend ++ FilterThread.events f cs := by
  rw [← expand_sym, h]
  simp only [expand_append, expand_calls, expand_sym]

theorem calls_append (f : α → List β) (a b : List α) : (calls f (a ++ b) : List (Ev β ε)) = calls f a ++ calls f b := by
  simp [calls]

theorem Inv.prefix (h : Inv B Q W f cmds s g) : s.file <+: events f cmds := by
  obtain ⟨pend, cs, hw⟩ := h.whole
  rw [hw.events f, h.file]
  generalize (g.n + if s.out = .flushed then 1 else 0) = m
  have hP : g.P = g.P.take m ++ g.P.drop m := (List.take_append_drop m g.P).symm
  refine ⟨calls f (g.P.drop m).flatten ++ calls f pend ++ FilterThread.events f cs, ?_⟩
  conv => rhs; rw [hP, List.flatten_append, calls_append]
  simp only [List.append_assoc]

/-- In the end all but the lines of the last batch have been written. -/
theorem Inv.final (h : Inv B Q W f cmds s g) (hd : s.pc = .done) :
    s.file = expand f (g.pre ++ g.P.flatten.map .call) ∧ Rest B cmds g := by
  have hp := h.pcOk
  have hpo := h.poison
  unfold PcOk at hp
  unfold Poison at hpo
  rw [hd] at hp hpo
  refine ⟨?_, hp⟩
  have ho : s.out ≠ .flushed := by rw [hpo.2.2.1]; simp
  rw [h.file, if_neg ho, Nat.add_zero, hpo.2.2.2.2, List.take_length, expand_append, expand_calls]

end Cdec.Klm.FilterThread
