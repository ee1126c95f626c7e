import Verif.Klm.FilterThreadOut
import Mathlib.Data.List.Nodup
import Mathlib.Data.List.Lattice
/-!
# The invariant of the threaded filter is kept: the reading thread
-/
namespace Cdec.Klm.FilterThread

variable {α β ε : Type}
variable {B Q W : Nat} {f : α → List β} {cmds : List (Cmd α ε)} {s s' : St α β ε} {g : Ghost α β ε}

theorem map_some_of_none {l : List (Option Nat)} (h : none ∉ l) : ∃ l' : List Nat, l = l'.map some := by
  induction l with
  | nil => exact ⟨[], rfl⟩
  | cons x l ih =>
    simp only [List.mem_cons, not_or] at h
    obtain ⟨l', rfl⟩ := ih h.2
    cases x with
    | none => exact absurd rfl h.1
    | some b => exact ⟨b :: l', rfl⟩

theorem alive_full {ws : List Wk} (h : .dead ∉ ws) : alive ws = ws.length := by
  unfold alive
  rw [List.countP_eq_length]
  intro w hw
  simp only [ne_eq, decide_eq_true_eq]
  rintro rfl
  exact h hw

theorem alive_none {ws : List Wk} (h : ∀ w ∈ ws, w = .dead) : alive ws = 0 := by
  unfold alive
  rw [List.countP_eq_zero]
  intro w hw
  simp [h w hw]

/-- `PcOk` is about `mem`, `cur`, `loc`, `seq` and the batches on their way: only the place of the reading thread changes. -/
theorem Inv.repc (h : Inv B Q W f cmds s g) (pc' : Pc α ε)
    (hp : PcOk B cmds ⟨pc', s.mem, s.cur, s.loc, s.seq, s.fq, s.oq, s.rq, s.workers, s.out, s.ordering, s.base, s.file⟩ g)
    (hpo : Poison ⟨pc', s.mem, s.cur, s.loc, s.seq, s.fq, s.oq, s.rq, s.workers, s.out, s.ordering, s.base, s.file⟩ g)
    (hr : NoFlush cmds → RawOk ⟨pc', s.mem, s.cur, s.loc, s.seq, s.fq, s.oq, s.rq, s.workers, s.out, s.ordering, s.base, s.file⟩) :
    Inv B Q W f cmds ⟨pc', s.mem, s.cur, s.loc, s.seq, s.fq, s.oq, s.rq, s.workers, s.out, s.ordering, s.base, s.file⟩ g :=
  ⟨h.own, h.wlen, h.fresh, h.fqI, h.wI, h.oqI, h.ordI, h.base, h.low, h.cover, h.inj, h.file, h.flushedHd, h.idleHd,
    hp, hpo, fun hf => ⟨hr hf, (h.raw hf).2⟩⟩

/-- Every batch on its way is one of those sent. -/
theorem Inv.holds (h : Inv B Q W f cmds s g) {b : Nat} (hb : InF s b) : ∃ o, Holds g (s.mem b) o := by
  rcases hb with hb | ⟨w, hw, hb⟩ | hb | hb
  · exact ⟨_, h.fqI b hb⟩
  · have := h.wI w hw
    cases w with
    | idle => cases hb
    | dead => cases hb
    | got a => cases hb; exact ⟨fun _ => [], this⟩
    | filtered a => cases hb; exact ⟨(·.flatMap f), this⟩
  · exact ⟨_, h.oqI b hb⟩
  · obtain ⟨p, hp⟩ := List.getElem?_of_mem hb
    exact ⟨_, (h.ordI p b hp).2⟩

theorem Inv.flushed_lt (h : Inv B Q W f cmds s g) (ho : s.out = .flushed) : g.n < g.P.length := by
  obtain ⟨b, o, e⟩ := h.flushedHd ho
  obtain ⟨h1, h2⟩ := h.ordI 0 b (by rw [e]; rfl)
  have := h2.le
  have := h.base.1
  omega

/-- Changing the contents of the batch on top of the stack does not matter for the batches on their way. -/
theorem Inv.remem (h : Inv B Q W f cmds s g) {b : Nat} (hb : b ∈ s.loc) (y : Batch α β) (hy : y.output = [])
    (pc' : Pc α ε) (cur' seq' : Nat) (dirty' : Bool)
    (hp : PcOk B cmds ⟨pc', upd s.mem b y, cur', s.loc, seq', s.fq, s.oq, s.rq, s.workers, s.out, s.ordering, s.base, s.file⟩ ⟨g.pre, g.s0, g.P, g.n, dirty'⟩)
    (hpo : Poison ⟨pc', upd s.mem b y, cur', s.loc, seq', s.fq, s.oq, s.rq, s.workers, s.out, s.ordering, s.base, s.file⟩ ⟨g.pre, g.s0, g.P, g.n, dirty'⟩)
    (hr : NoFlush cmds → RawOk ⟨pc', upd s.mem b y, cur', s.loc, seq', s.fq, s.oq, s.rq, s.workers, s.out, s.ordering, s.base, s.file⟩) :
    Inv B Q W f cmds ⟨pc', upd s.mem b y, cur', s.loc, seq', s.fq, s.oq, s.rq, s.workers, s.out, s.ordering, s.base, s.file⟩ ⟨g.pre, g.s0, g.P, g.n, dirty'⟩ := by
  have hni := h.loc_notInF (Or.inl hb)
  have hm : ∀ a, InF s a → upd s.mem b y a = s.mem a := fun a ha => by
    have : a ≠ b := by rintro rfl; exact hni ha
    simp [upd, this]
  refine ⟨h.own, h.wlen, ?_, ?_, ?_, ?_, ?_, h.base, ?_, ?_, ?_, h.file, h.flushedHd, h.idleHd,
    hp, hpo, fun hf => ⟨hr hf, (h.raw hf).2⟩⟩
  · intro a ha
    by_cases hab : a = b
    · subst hab; simp [upd, hy]
    · simp only [upd, hab, if_false]; exact h.fresh a ha
  · intro a ha
    simp only [hm a (Or.inl ha)]; exact h.fqI a ha
  · intro w hw
    have := h.wI w hw
    have hin : ∀ a, w.held = some a → InF s a := fun a ha => Or.inr (Or.inl ⟨w, hw, ha⟩)
    cases w with
    | idle => trivial
    | dead => trivial
    | got a => simp only [Wk.Ok, hm a (hin a rfl)]; exact this
    | filtered a => simp only [Wk.Ok, hm a (hin a rfl)]; exact this
  · intro a ha
    simp only [hm a (Or.inr (Or.inr (Or.inl ha)))]; exact h.oqI a ha
  · intro p a ha
    simp only [hm a (Or.inr (Or.inr (Or.inr (List.mem_of_getElem? ha))))]; exact h.ordI p a ha
  · intro a ha
    simp only [hm a ha]; exact h.low a ha
  · intro q h1 h2
    obtain ⟨a, ha, ha'⟩ := h.cover q h1 h2
    exact ⟨a, ha, by simp only [hm a ha]; exact ha'⟩
  · intro a a' ha ha' he
    simp only [hm a ha, hm a' ha'] at he
    exact h.inj a a' ha ha' he

/-- Taking a batch from `to_read_`. -/
theorem Inv.take (h : Inv B Q W f cmds s g) {b : Nat} {r : List Nat} (hq : s.rq = b :: r) (pc' : Pc α ε)
    (hp : PcOk B cmds ⟨pc', s.mem, s.cur, b :: s.loc, s.seq, s.fq, s.oq, r, s.workers, s.out, s.ordering, s.base, s.file⟩ g)
    (hpo : Poison ⟨pc', s.mem, s.cur, b :: s.loc, s.seq, s.fq, s.oq, r, s.workers, s.out, s.ordering, s.base, s.file⟩ g)
    (hr : NoFlush cmds → RawOk ⟨pc', s.mem, s.cur, b :: s.loc, s.seq, s.fq, s.oq, r, s.workers, s.out, s.ordering, s.base, s.file⟩) :
    Inv B Q W f cmds ⟨pc', s.mem, s.cur, b :: s.loc, s.seq, s.fq, s.oq, r, s.workers, s.out, s.ordering, s.base, s.file⟩ g := by
  refine ⟨?_, h.wlen, ?_, h.fqI, h.wI, h.oqI, h.ordI, h.base, h.low, h.cover, h.inj, h.file, h.flushedHd, h.idleHd,
    hp, hpo, fun hf => ⟨hr hf, (h.raw hf).2⟩⟩
  · intro a
    have := h.own a
    simp only [cnt, hq, List.count_cons] at this ⊢
    omega
  · intro a ha
    apply h.fresh a
    rw [hq]
    simp only [List.mem_cons] at ha ⊢
    rcases ha with (rfl | ha) | ha
    · exact Or.inr (Or.inl rfl)
    · exact Or.inl ha
    · exact Or.inr (Or.inr ha)

theorem Holds.grow {x : Batch α β} {o : List α → List β} (h : Holds g x o) (ls : List α) :
    Holds (⟨g.pre, g.s0, g.P ++ [ls], g.n, g.dirty⟩ : Ghost α β ε) x o :=
  ⟨h.1, by rw [List.getElem?_append_left (List.getElem?_eq_some_iff.mp h.2.1).1]; exact h.2.1, h.2.2⟩

/-- Sending the current batch. -/
theorem Inv.send (h : Inv B Q W f cmds s g) {b : Nat} {rest : List Nat} (hl : s.loc = b :: rest)
    (hseq : (s.mem b).seq = g.s0 + g.P.length) (pc' : Pc α ε)
    (hp : PcOk B cmds ⟨pc', s.mem, s.cur, rest, s.seq, s.fq ++ [some b], s.oq, s.rq, s.workers, s.out, s.ordering, s.base, s.file⟩
      ⟨g.pre, g.s0, g.P ++ [(s.mem b).input], g.n, g.dirty⟩)
    (hpo : Poison ⟨pc', s.mem, s.cur, rest, s.seq, s.fq ++ [some b], s.oq, s.rq, s.workers, s.out, s.ordering, s.base, s.file⟩
      ⟨g.pre, g.s0, g.P ++ [(s.mem b).input], g.n, g.dirty⟩)
    (hr : NoFlush cmds → RawOk ⟨pc', s.mem, s.cur, rest, s.seq, s.fq ++ [some b], s.oq, s.rq, s.workers, s.out, s.ordering, s.base, s.file⟩ ∧
      (s.mem b).input.length = B) :
    Inv B Q W f cmds ⟨pc', s.mem, s.cur, rest, s.seq, s.fq ++ [some b], s.oq, s.rq, s.workers, s.out, s.ordering, s.base, s.file⟩
      ⟨g.pre, g.s0, g.P ++ [(s.mem b).input], g.n, g.dirty⟩ := by
  have hni := h.loc_notInF (b := b) (Or.inl (by rw [hl]; simp))
  obtain ⟨hb1, hb2⟩ := h.base
  have hin : ∀ a, InF ⟨pc', s.mem, s.cur, rest, s.seq, s.fq ++ [some b], s.oq, s.rq, s.workers, s.out, s.ordering, s.base, s.file⟩ a ↔
      a = b ∨ InF s a := by
    intro a
    simp only [InF, List.mem_append, List.mem_singleton, Option.some.injEq]
    constructor
    · rintro ((ha | ha) | ha)
      · exact Or.inr (Or.inl ha)
      · exact Or.inl ha
      · exact Or.inr (Or.inr ha)
    · rintro (ha | ha | ha)
      · exact Or.inl (Or.inr ha)
      · exact Or.inl (Or.inl ha)
      · exact Or.inr ha
  have hnew : Holds (⟨g.pre, g.s0, g.P ++ [(s.mem b).input], g.n, g.dirty⟩ : Ghost α β ε) (s.mem b) (fun _ => []) :=
    ⟨by simp only; omega, by simp only [hseq, Nat.add_sub_cancel_left]; simp, h.fresh b (Or.inl (by rw [hl]; simp))⟩
  have hlt : ∀ a, InF s a → (s.mem a).seq < g.s0 + g.P.length := fun a ha => (h.holds ha).choose_spec.le
  refine ⟨?_, h.wlen, ?_, ?_, ?_, ?_, ?_, ⟨hb1, ?_⟩, ?_, ?_, ?_, ?_, h.flushedHd, h.idleHd, hp, hpo, ?_⟩
  · intro a
    have := h.own a
    simp only [cnt, hl, List.count_cons, List.filterMap_append, List.count_append] at this ⊢
    have e : (List.filterMap id [some b]).count a = if b == a then 1 else 0 := by
      simp [List.count_cons]
    omega
  · intro a ha
    apply h.fresh a
    rw [hl]
    rcases ha with ha | ha
    · exact Or.inl (List.mem_cons_of_mem _ ha)
    · exact Or.inr ha
  · intro a ha
    simp only [List.mem_append, List.mem_singleton, Option.some.injEq] at ha
    rcases ha with ha | rfl
    · exact (h.fqI a ha).grow _
    · exact hnew
  · intro w hw
    have := h.wI w hw
    cases w with
    | idle => trivial
    | dead => trivial
    | got a => exact Holds.grow (g := g) (o := fun _ => []) this _
    | filtered a => exact Holds.grow (g := g) (o := (·.flatMap f)) this _
  · intro a ha
    exact (h.oqI a ha).grow _
  · intro p a ha
    exact ⟨(h.ordI p a ha).1, (h.ordI p a ha).2.grow _⟩
  · simp only [List.length_append, List.length_singleton]; omega
  · intro a ha
    rcases (hin a).mp ha with rfl | ha
    · simp only; omega
    · exact h.low a ha
  · intro q h1 h2
    simp only [List.length_append, List.length_singleton] at h1 h2
    by_cases hq : q < g.s0 + g.P.length
    · obtain ⟨a, ha, ha'⟩ := h.cover q h1 hq
      exact ⟨a, (hin a).mpr (Or.inr ha), ha'⟩
    · exact ⟨b, (hin b).mpr (Or.inl rfl), by simp only; omega⟩
  · intro a a' ha ha' he
    simp only at he
    rcases (hin a).mp ha with ha | ha <;> rcases (hin a').mp ha' with ha' | ha'
    · rw [ha, ha']
    · have := hlt a' ha'; rw [ha] at he; omega
    · have := hlt a ha; rw [ha'] at he; omega
    · exact h.inj a a' ha ha' he
  · simp only
    rw [h.file, List.take_append_of_le_length]
    split
    · rename_i ho; have := h.flushed_lt ho; omega
    · omega
  · intro hf
    refine ⟨(hr hf).1, ?_, (h.raw hf).2.2⟩
    intro ls hls
    simp only [List.mem_append, List.mem_singleton] at hls
    rcases hls with hls | rfl
    · exact (h.raw hf).2.1 ls hls
    · exact (hr hf).2

/-- When the stack holds all batches, nothing is on its way. -/
theorem Inv.all_back (h : Inv B Q W f cmds s g) (hl : Q ≤ s.loc.length) (b : Nat) : ¬ InF s b := by
  intro hb
  have hnd : s.loc.Nodup := by
    rw [List.nodup_iff_count_le_one]
    intro a
    have := h.uniq a
    unfold cnt at this
    omega
  have hsub : s.loc ⊆ List.range Q := by
    intro a ha
    rw [List.mem_range]
    by_contra hn
    have := h.own a
    rw [if_neg hn] at this
    have h1 := pos_of_mem ha
    unfold cnt at this
    omega
  have hperm : s.loc.Perm (List.range Q) := by
    apply (List.subperm_of_subset hnd hsub).perm_of_length_le
    rw [List.length_range]; exact hl
  have hbQ : b < Q := by
    by_contra hn
    have := h.own b
    rw [if_neg hn] at this
    unfold cnt at this
    rcases hb with hb | hb | hb | hb
    · have := pos_of_mem (mem_fm.mpr hb); omega
    · have := pos_of_mem (mem_held.mpr hb); omega
    · have := pos_of_mem (mem_fm.mpr hb); omega
    · have := pos_of_mem (mem_fm.mpr hb); omega
  exact h.loc_notInF (Or.inl (hperm.mem_iff.mpr (List.mem_range.mpr hbQ))) hb

theorem main_not_bad (h : Inv B Q W f cmds s g) : stepMain B Q s ≠ .bad := by
  have hp := h.pcOk
  unfold stepMain
  unfold PcOk at hp
  cases hpc : s.pc with
  | run cs =>
    cases cs with
    | nil => simp
    | cons c cs => cases c <;> simp
  | send k cs =>
    rw [hpc] at hp
    have hl : s.loc.head? = some s.cur := by cases k <;> exact hp.1
    simp only
    split
    · simp
    · cases hlc : s.loc with
      | nil => rw [hlc] at hl; cases hl
      | cons b r => simp only; split <;> simp
  | move k cs => simp only; cases s.rq <;> simp
  | drain cs =>
    simp only
    split
    · cases s.rq <;> simp
    · simp
  | fill cs =>
    rw [hpc] at hp
    simp only
    cases hlc : s.loc with
    | nil => exact absurd hlc hp.2.2.2.1
    | cons b r => simp
  | kill n =>
    cases n with
    | zero => simp
    | succ n => simp only; split <;> simp
  | joinF => simp only; split <;> simp
  | killO => simp only; split <;> simp
  | joinO => simp only; split <;> simp
  | done => simp

theorem expand_append (f : α → List β) (a b : List (Ev α ε)) : expand f (a ++ b) = expand f a ++ expand f b := by
  induction a with
  | nil => rfl
  | cons c a ih => cases c <;> simp [expand, ih]

theorem expand_calls (f : α → List β) (ls : List α) : expand f (ls.map (Ev.call (ε := ε))) = calls f ls := by
  induction ls with
  | nil => rfl
  | cons l ls ih => simp [expand, calls] at ih ⊢; exact ih

theorem expand_sym (f : α → List β) (cs : List (Cmd α ε)) : expand f (sym cs) = events f cs := by
  induction cs with
  | nil => rfl
  | cons c cs ih => cases c <;> simp [expand, sym, events, ih]

theorem inv_main (hB : 1 ≤ B) (hQ : 1 ≤ Q) (hW : 1 ≤ W) (h : Inv B Q W f cmds s g) (hs : stepMain B Q s = .ok s') :
    ∃ g', Inv B Q W f cmds s' g' := by
  have hp := h.pcOk
  have hpo := h.poison
  have hraw := fun hf => (h.raw hf).1
  unfold stepMain at hs
  unfold PcOk at hp
  unfold Poison at hpo
  unfold RawOk at hraw
  cases hpc : s.pc with
  | run cs =>
    rw [hpc] at hs hp hpo hraw
    simp only at hp hpo hraw
    obtain ⟨a1, a2, a3, a4, a5, a6, a7⟩ := hp
    cases cs with
    | nil =>
      simp only [Res.ok.injEq] at hs
      subst hs
      refine ⟨g, h.repc _ ?_ ?_ (fun _ => trivial)⟩
      · exact ⟨_, a2, a3, fun hd => (a7 (a4.2.trans hd)).2.2⟩
      · refine ⟨hpo.1, hpo.2.1, ?_⟩
        obtain ⟨l, hl⟩ := map_some_of_none hpo.2.2.1
        exact ⟨l, 0, by simpa using hl, by simpa using alive_full hpo.2.2.2, fun hd => absurd hd hpo.2.2.2⟩
    | cons c cs =>
      cases c with
      | add l =>
        simp only [Res.ok.injEq] at hs
        subst hs
        have hcl : s.cur ∈ s.loc := List.mem_of_mem_head? a1
        have hsq : (s.mem s.cur).seq = g.s0 + g.P.length := by
          rcases a6 with a6 | ⟨a6, _⟩
          · exact a6
          · exact absurd (List.mem_cons_self ..) (a6 l)
        have hw : Whole cmds g ((s.mem s.cur).input ++ [l]) cs := by
          unfold Whole at a2 ⊢
          rw [a2]
          simp [sym]
        refine ⟨⟨g.pre, g.s0, g.P, g.n, true⟩, h.remem hcl
          ⟨(s.mem s.cur).seq, (s.mem s.cur).input ++ [l], (s.mem s.cur).output⟩ (h.fresh _ (Or.inl hcl)) _ _ _ _ ?_ ?_ ?_⟩
        · have hu : upd s.mem s.cur ⟨(s.mem s.cur).seq, (s.mem s.cur).input ++ [l], (s.mem s.cur).output⟩ s.cur =
              ⟨(s.mem s.cur).seq, (s.mem s.cur).input ++ [l], (s.mem s.cur).output⟩ := by simp [upd]
          obtain ⟨a4, a4'⟩ := a4
          simp only [Good] at a4
          simp only [fin] at a4'
          by_cases hl : ((s.mem s.cur).input ++ [l]).length = B
          · rw [if_pos hl]
            unfold PcOk
            simp only
            rw [hu]
            refine ⟨a1, hw, hl, ?_, a5, hsq, trivial⟩
            have : ((s.mem s.cur).input.length + 1) % B = 0 := by
              rw [List.length_append, List.length_singleton] at hl; rw [hl]; exact Nat.mod_self B
            rw [this] at a4
            exact ⟨a4, a4'⟩
          · rw [if_neg hl]
            unfold PcOk
            simp only
            rw [hu]
            rw [List.length_append, List.length_singleton] at hl
            refine ⟨a1, hw, ?_, ?_, a5, Or.inl hsq, fun hd => by cases hd⟩
            · simp only [List.length_append, List.length_singleton]; omega
            · rw [Nat.mod_eq_of_lt (by omega)] at a4
              exact ⟨by simpa using a4, a4'⟩
        · unfold Poison
          split <;> first | exact hpo | (rename_i heq; split at heq <;> cases heq)
        · intro hf
          have hn : NoFlush cs := fun hm => hraw hf (List.mem_cons_of_mem _ hm)
          unfold RawOk
          simp only
          split <;> rename_i heq <;> first
            | (split at heq <;> cases heq; try exact hn)
            | trivial
      | flush =>
        simp only [Res.ok.injEq] at hs
        subst hs
        obtain ⟨a4, a4'⟩ := a4
        simp only [Good] at a4
        simp only [fin] at a4'
        refine ⟨g, h.repc _ ?_ ?_ ?_⟩
        · refine ⟨a1, by unfold Whole at a2 ⊢; simpa [sym] using a2, a3, ⟨a4.2, a4'⟩, a5, ?_, ?_⟩
          · rcases a6 with a6 | a6
            · exact Or.inl a6
            · exact Or.inr ⟨fun l hm => a6.1 l (List.mem_cons_of_mem _ hm), a6.2⟩
          · rcases a4.1 with a4 | a4
            · left; intro he; simp only at he; rw [he] at a4; exact a4 rfl
            · exact Or.inr a4
        · exact hpo
        · intro hf; exact absurd (List.mem_cons_self ..) (hraw hf)
      | emit e =>
        simp only [Res.ok.injEq] at hs
        subst hs
        obtain ⟨a4, a4'⟩ := a4
        simp only [Good] at a4
        simp only [fin] at a4'
        obtain ⟨hP, hN, hI⟩ := a7 a4.1
        have hn : g.n = 0 := by have := h.base.2; rw [hP] at this; simpa using this
        have hof : s.out ≠ .flushed := by
          intro ho
          have := h.flushed_lt ho
          rw [hP] at this; cases this
        have hfile : s.file = expand f g.pre := by rw [h.file, hP]; simp [calls]
        refine ⟨⟨g.pre ++ [.main e], g.s0, g.P, g.n, g.dirty⟩, h.own, h.wlen, h.fresh, h.fqI, ?_, h.oqI, h.ordI, h.base, h.low,
          h.cover, h.inj, ?_, h.flushedHd, h.idleHd, ?_, hpo, ?_⟩
        · intro w hw
          have := h.wI w hw
          cases w <;> exact this
        · simp only [hfile, hP, expand_append]; simp [calls, expand]
        · refine ⟨a1, ?_, a3, ⟨a4.2, a4'⟩, a5, ?_, a7⟩
          · unfold Whole at a2 ⊢
            rw [a2, hP, hI]
            simp [sym]
          · rcases a6 with a6 | a6
            · exact Or.inl a6
            · exact Or.inr ⟨fun l hm => a6.1 l (List.mem_cons_of_mem _ hm), a6.2⟩
        · exact fun hf => ⟨fun hm => hraw hf (List.mem_cons_of_mem _ hm), (h.raw hf).2.1, fun l hl => by
            simp only [List.mem_append, List.mem_singleton] at hl
            rcases hl with hl | hl
            · exact (h.raw hf).2.2 l hl
            · cases hl⟩
  | send k cs =>
    rw [hpc] at hs
    simp only at hs
    split at hs
    · rename_i he
      rw [List.isEmpty_iff] at he
      simp only [Res.ok.injEq] at hs
      subst hs
      rw [hpc] at hp hpo hraw
      cases k with
      | fill => simp only [he] at hp; simp at hp; omega
      | drain =>
        simp only at hp
        obtain ⟨a1, a2, a3, a4, a5, a6, a7⟩ := hp
        refine ⟨g, h.repc _ ?_ hpo (fun hf => absurd (hraw hf) (by simp))⟩
        refine ⟨by rw [he] at a2; exact a2, a4, Or.inr ?_⟩
        rcases a7 with a7 | a7
        · exact absurd he a7
        · exact a7
    · rename_i he
      have he : (s.mem s.cur).input ≠ [] := fun h => he (by rw [h]; rfl)
      rw [hpc] at hp hpo hraw
      have hhd : s.loc.head? = some s.cur := by cases k <;> exact hp.1
      cases hl : s.loc with
      | nil => rw [hl] at hhd; cases hhd
      | cons b rest =>
        rw [hl] at hs hhd
        simp only [List.head?_cons, Option.some.injEq] at hhd
        simp only at hs
        split at hs
        case isFalse => cases hs
        simp only [Res.ok.injEq] at hs
        subst hs
        subst hhd
        have hpo' : none ∉ s.oq ∧ s.out ≠ .dead ∧ none ∉ s.fq ++ [some s.cur] ∧ Wk.dead ∉ s.workers := by
          refine ⟨hpo.1, hpo.2.1, ?_, hpo.2.2.2⟩
          simp only [List.mem_append, List.mem_singleton, not_or]
          exact ⟨hpo.2.2.1, by simp⟩
        have hwh : Whole cmds g (s.mem s.cur).input cs →
            Whole cmds (⟨g.pre, g.s0, g.P ++ [(s.mem s.cur).input], g.n, g.dirty⟩ : Ghost α β ε) [] cs := by
          intro a2
          unfold Whole at a2 ⊢
          rw [a2]
          simp
        cases k with
        | fill =>
          simp only at hp hraw
          obtain ⟨a1, a2, a3, a4, a5, a6, a7⟩ := hp
          have hsq : s.seq = g.s0 + (g.P ++ [(s.mem s.cur).input]).length := by
            rw [List.length_append, List.length_singleton]; omega
          refine ⟨_, h.send hl a6 _ ?_ ?_ ?_⟩
          · cases rest with
            | nil => exact ⟨hwh a2, a4, hsq, a7, rfl⟩
            | cons r rs => exact ⟨hwh a2, by simpa only [a7] using a4, Or.inl hsq, by simp, fun hd => by simp [a7] at hd⟩
          · cases rest <;> exact hpo'
          · intro hf
            refine ⟨?_, a3⟩
            cases rest <;> exact hraw hf
        | drain =>
          simp only at hp hraw
          obtain ⟨a1, a2, a3, a4, a5, a6, a7⟩ := hp
          have a6 : (s.mem s.cur).seq = g.s0 + g.P.length := by
            rcases a6 with a6 | a6
            · exact a6
            · exact absurd a6.2 he
          have hsq : s.seq = g.s0 + (g.P ++ [(s.mem s.cur).input]).length := by
            rw [List.length_append, List.length_singleton]; omega
          refine ⟨_, h.send hl a6 _ ?_ ?_ ?_⟩
          · cases rest with
            | nil => exact ⟨hwh a2, a4, Or.inl hsq, rfl⟩
            | cons r rs => exact ⟨hwh a2, a4, Or.inl hsq⟩
          · cases rest <;> exact hpo'
          · intro hf
            exact absurd (hraw hf) (by simp)
  | move k cs =>
    rw [hpc] at hs hp hpo hraw
    simp only at hs
    cases hq : s.rq with
    | nil => rw [hq] at hs; cases hs
    | cons b r =>
      rw [hq] at hs
      simp only [Res.ok.injEq] at hs
      subst hs
      cases k with
      | fill =>
        obtain ⟨a1, a2, a3, a4, a5⟩ := hp
        refine ⟨g, h.take hq _ ?_ hpo hraw⟩
        exact ⟨a1, by rw [a4]; exact a2, Or.inl a3, by simp, fun hd => by rw [a4] at hd; cases hd⟩
      | drain =>
        obtain ⟨a1, a2, a3, a4⟩ := hp
        exact ⟨g, h.take hq _ ⟨a1, a2, a3⟩ hpo hraw⟩
  | drain cs =>
    rw [hpc] at hs hp hpo hraw
    simp only at hs hp hpo hraw
    obtain ⟨a1, a2, a3⟩ := hp
    split at hs
    · cases hq : s.rq with
      | nil => rw [hq] at hs; cases hs
      | cons b r =>
        rw [hq] at hs
        simp only [Res.ok.injEq] at hs
        subst hs
        exact ⟨g, h.take hq _ ⟨a1, a2, a3⟩ hpo (fun hf => (hraw hf).elim)⟩
    · rename_i hl
      simp only [Res.ok.injEq] at hs
      subst hs
      have hno := h.all_back (by omega)
      have hn : g.n = g.P.length := h.quiet (fun b hb => hno b (Or.inl hb))
        (fun w hw => by
          cases hh : w.held with
          | none => rfl
          | some b => exact absurd (Or.inr (Or.inl ⟨w, hw, hh⟩)) (hno b))
        (fun b hb => hno b (Or.inr (Or.inr (Or.inl hb))))
        (fun b o he => hno b (Or.inr (Or.inr (Or.inr (by rw [he]; simp)))))
      have hof : s.out ≠ .flushed := by
        intro ho; have := h.flushed_lt ho; omega
      have hfile : s.file = expand f (g.pre ++ g.P.flatten.map .call) := by
        rw [h.file, if_neg hof, Nat.add_zero, hn, List.take_length, expand_append, expand_calls]
      refine ⟨⟨g.pre ++ g.P.flatten.map .call, s.base, [], 0, false⟩, h.own, h.wlen, h.fresh, ?_, ?_, ?_, ?_, ⟨rfl, Nat.le_refl _⟩, ?_, ?_, ?_, ?_,
        h.flushedHd, h.idleHd, ?_, hpo, fun hf => (hraw hf).elim⟩
      · exact fun b hb => absurd (Or.inl hb) (hno b)
      · intro w hw
        cases w with
        | idle => trivial
        | dead => trivial
        | got b => exact absurd (Or.inr (Or.inl ⟨_, hw, rfl⟩)) (hno b)
        | filtered b => exact absurd (Or.inr (Or.inl ⟨_, hw, rfl⟩)) (hno b)
      · exact fun b hb => absurd (Or.inr (Or.inr (Or.inl hb))) (hno b)
      · exact fun p b hb => absurd (Or.inr (Or.inr (Or.inr (List.mem_of_getElem? hb)))) (hno b)
      · exact fun b hb => absurd hb (hno b)
      · intro q h1 h2; simp only [List.length_nil] at h1 h2; omega
      · exact fun b b' hb => absurd hb (hno b)
      · simp only [hfile]; simp [calls]
      · refine ⟨?_, a2, ?_, ?_, fun _ => ⟨rfl, hno⟩⟩
        · unfold Whole at a1 ⊢
          rw [a1]
          simp
        · rcases a3 with a3 | a3
          · left; have := h.base.1; simp only [List.length_nil]; omega
          · exact Or.inr a3
        · intro he; simp only at he; rw [he] at hl; simp at hl; omega
  | fill cs =>
    rw [hpc] at hs hp hpo hraw
    simp only at hs hp hpo hraw
    obtain ⟨a1, a2, a3, a4, a5⟩ := hp
    cases hl : s.loc with
    | nil => exact absurd hl a4
    | cons b r =>
      rw [hl] at hs
      simp only [Res.ok.injEq] at hs
      subst hs
      have hb : b ∈ s.loc := by rw [hl]; simp
      have key := h.remem hb ⟨s.seq, [], (s.mem b).output⟩ (h.fresh _ (Or.inl hb)) (.run cs) b (s.seq + 1) g.dirty ?_ hpo hraw
      · rw [hl] at key; exact ⟨_, key⟩
      · have hu : upd s.mem b ⟨s.seq, [], (s.mem b).output⟩ b = ⟨s.seq, [], (s.mem b).output⟩ := by simp [upd]
        unfold PcOk
        simp only
        rw [hu]
        refine ⟨by rw [hl]; rfl, a1, by simp only [List.length_nil]; omega, a2, rfl, ?_, fun hd => ⟨(a5 hd).1, (a5 hd).2, rfl⟩⟩
        rcases a3 with a3 | a3
        · exact Or.inl a3
        · exact Or.inr ⟨a3, rfl⟩
  | kill n =>
    rw [hpc] at hs hp hpo
    simp only at hp hpo
    obtain ⟨b1, b2, l, k, b3, b4, b5⟩ := hpo
    cases n with
    | zero =>
      simp only [Res.ok.injEq] at hs
      subst hs
      exact ⟨g, h.repc _ hp ⟨b1, b2, l, k, b3, by simpa using b4, b5⟩ (fun _ => trivial)⟩
    | succ n =>
      simp only at hs
      split at hs
      case isFalse => cases hs
      simp only [Res.ok.injEq] at hs
      subst hs
      have hin : ∀ b, InF ⟨.kill n, s.mem, s.cur, s.loc, s.seq, s.fq ++ [none], s.oq, s.rq, s.workers, s.out, s.ordering, s.base, s.file⟩ b ↔ InF s b := by
        intro b; simp [InF]
      refine ⟨g, ?_, h.wlen, h.fresh, ?_, h.wI, h.oqI, h.ordI, h.base, ?_, ?_, ?_, h.file, h.flushedHd, h.idleHd,
        hp, ?_, fun hf => ⟨trivial, (h.raw hf).2⟩⟩
      · intro b
        have := h.own b
        simp only [cnt, List.filterMap_append] at this ⊢
        simpa using this
      · intro b hb; exact h.fqI b (by simpa using hb)
      · exact fun b hb => h.low b ((hin b).mp hb)
      · intro q h1 h2
        obtain ⟨b, hb, hb'⟩ := h.cover q h1 h2
        exact ⟨b, (hin b).mpr hb, hb'⟩
      · exact fun b b' hb hb' he => h.inj b b' ((hin b).mp hb) ((hin b').mp hb') he
      · refine ⟨b1, b2, l, k + 1, ?_, ?_, b5⟩
        · simp only [b3, List.append_assoc, List.replicate_succ']
        · simp only; omega
  | joinF =>
    rw [hpc] at hs hp hpo
    simp only at hp hpo hs
    obtain ⟨b1, b2, l, k, b3, b4, b5⟩ := hpo
    split at hs
    case isFalse => cases hs
    rename_i hd
    simp only [Res.ok.injEq] at hs
    subst hs
    have hd : ∀ w ∈ s.workers, w = .dead := by simpa using hd
    have hk : k = 0 := by rw [← b4]; exact alive_none hd
    have hl : l = [] := by
      apply b5
      cases hw : s.workers with
      | nil => have := h.wlen; rw [hw] at this; simp at this; omega
      | cons w ws =>
        have := hd w (by rw [hw]; simp)
        rw [this]; simp
    refine ⟨g, h.repc _ hp ⟨b1, b2, ?_, hd⟩ (fun _ => trivial)⟩
    rw [b3, hk, hl]; rfl
  | killO =>
    rw [hpc] at hs hp hpo
    simp only at hp hpo hs
    obtain ⟨b1, b2, b3, b4⟩ := hpo
    split at hs
    case isFalse => cases hs
    simp only [Res.ok.injEq] at hs
    subst hs
    have hin : ∀ b, InF ⟨.joinO, s.mem, s.cur, s.loc, s.seq, s.fq, s.oq ++ [none], s.rq, s.workers, s.out, s.ordering, s.base, s.file⟩ b ↔ InF s b := by
      intro b; simp [InF]
    refine ⟨g, ?_, h.wlen, h.fresh, h.fqI, h.wI, ?_, h.ordI, h.base, ?_, ?_, ?_, h.file, h.flushedHd, h.idleHd,
      hp, ?_, fun hf => ⟨trivial, (h.raw hf).2⟩⟩
    · intro b
      have := h.own b
      simp only [cnt, List.filterMap_append] at this ⊢
      simpa using this
    · intro b hb; exact h.oqI b (by simpa using hb)
    · exact fun b hb => h.low b ((hin b).mp hb)
    · intro q h1 h2
      obtain ⟨b, hb, hb'⟩ := h.cover q h1 h2
      exact ⟨b, (hin b).mpr hb, hb'⟩
    · exact fun b b' hb hb' he => h.inj b b' ((hin b).mp hb) ((hin b').mp hb') he
    · obtain ⟨l, hl⟩ := map_some_of_none b1
      exact ⟨b3, b4, Or.inl ⟨b2, l, by simp only [hl]⟩⟩
  | joinO =>
    rw [hpc] at hs hp hpo
    simp only at hp hpo hs
    obtain ⟨b1, b2, b3⟩ := hpo
    split at hs
    case isFalse => cases hs
    rename_i hd
    simp only [Res.ok.injEq] at hs
    subst hs
    refine ⟨g, h.repc _ hp ?_ (fun _ => trivial)⟩
    rcases b3 with b3 | b3
    · exact absurd hd b3.1
    · exact ⟨b1, b2, hd, b3.2.1, b3.2.2⟩
  | done => rw [hpc] at hs; cases hs

end Cdec.Klm.FilterThread
