import Verif.Klm.FilterThreadInv
/-!
# The invariant of the threaded filter is kept: workers
-/
namespace Cdec.Klm.FilterThread

variable {α β ε : Type}
variable {B Q W : Nat} {f : α → List β} {cmds : List (Cmd α ε)} {s s' : St α β ε} {g : Ghost α β ε}

theorem PcOk.congr (h : PcOk B cmds s g) (h1 : s'.pc = s.pc) (h2 : s'.loc = s.loc) (h3 : s'.cur = s.cur)
    (h4 : s'.seq = s.seq) (h5 : s.loc.head? = some s.cur → s'.mem s.cur = s.mem s.cur)
    (h6 : ∀ b, InF s' b → InF s b) : PcOk B cmds s' g := by
  unfold PcOk at h ⊢
  rw [h1, h2, h3, h4]
  cases hpc : s.pc with
  | run cs =>
    rw [hpc] at h
    simp only at h ⊢
    rw [h5 h.1]
    obtain ⟨a1, a2, a3, a4, a5, a6, a7⟩ := h
    exact ⟨a1, a2, a3, a4, a5, a6, fun hd => ⟨(a7 hd).1, fun b hb => (a7 hd).2.1 b (h6 b hb), (a7 hd).2.2⟩⟩
  | send k cs =>
    rw [hpc] at h
    cases k with
    | fill => simp only at h ⊢; rw [h5 h.1]; exact h
    | drain => simp only at h ⊢; rw [h5 h.1]; exact h
  | move k cs => rw [hpc] at h; cases k <;> exact h
  | drain cs => rw [hpc] at h; exact h
  | fill cs =>
    rw [hpc] at h
    simp only at h ⊢
    obtain ⟨a1, a2, a3, a4, a5⟩ := h
    exact ⟨a1, a2, a3, a4, fun hd => ⟨(a5 hd).1, fun b hb => (a5 hd).2 b (h6 b hb)⟩⟩
  | kill n => rw [hpc] at h; exact h
  | joinF => rw [hpc] at h; exact h
  | killO => rw [hpc] at h; exact h
  | joinO => rw [hpc] at h; exact h
  | done => rw [hpc] at h; exact h

theorem RawOk.congr (h : RawOk s) (h1 : s'.pc = s.pc) : RawOk s' := by
  unfold RawOk at h ⊢; rw [h1]; exact h

/-- The poison as the workers see it. -/
theorem Poison.workers (h : Poison s g) (h1 : s'.pc = s.pc) (h2 : ∀ x, x ∈ s'.oq → x ∈ s.oq ∨ x ≠ none)
    (h3 : s'.out = s.out)
    (h4 : none ∉ s.fq → Wk.dead ∉ s.workers → none ∉ s'.fq ∧ Wk.dead ∉ s'.workers)
    (h5 : ∀ (l : List Nat) (k m : Nat), s.fq = l.map some ++ List.replicate k none → alive s.workers = k + m →
      (Wk.dead ∈ s.workers → l = []) → ∃ (l' : List Nat) (k' : Nat), s'.fq = l'.map some ++ List.replicate k' none ∧
        alive s'.workers = k' + m ∧ (Wk.dead ∈ s'.workers → l' = []))
    (h6 : ¬ (∀ w ∈ s.workers, w = Wk.dead)) : Poison s' g := by
  have hoq : none ∉ s.oq → none ∉ s'.oq := fun h hn => by
    rcases h2 _ hn with h' | h'
    · exact h h'
    · exact h' rfl
  unfold Poison at h ⊢
  rw [h1, h3]
  cases hpc : s.pc <;> rw [hpc] at h
  case kill m =>
    obtain ⟨a1, a2, l, k, a3, a4, a5⟩ := h
    exact ⟨hoq a1, a2, h5 l k m a3 a4 a5⟩
  case joinF =>
    obtain ⟨a1, a2, l, k, a3, a4, a5⟩ := h
    exact ⟨hoq a1, a2, h5 l k 0 a3 a4 a5⟩
  case killO => exact absurd h.2.2.2 h6
  case joinO => exact absurd h.2.1 h6
  case done => exact absurd h.2.1 h6
  all_goals exact ⟨hoq h.1, h.2.1, h4 h.2.2.1 h.2.2.2⟩

theorem exists_held (l1 l2 : List Wk) (w : Wk) (b : Nat) : (∃ x ∈ l1 ++ w :: l2, x.held = some b) ↔
    (∃ x ∈ l1, x.held = some b) ∨ w.held = some b ∨ ∃ x ∈ l2, x.held = some b := by
  constructor
  · rintro ⟨x, hx, hb⟩
    simp only [List.mem_append, List.mem_cons] at hx
    rcases hx with hx | rfl | hx
    · exact Or.inl ⟨x, hx, hb⟩
    · exact Or.inr (Or.inl hb)
    · exact Or.inr (Or.inr ⟨x, hx, hb⟩)
  · rintro (⟨x, hx, hb⟩ | hb | ⟨x, hx, hb⟩)
    · exact ⟨x, by simp [hx], hb⟩
    · exact ⟨w, by simp, hb⟩
    · exact ⟨x, by simp [hx], hb⟩

theorem shuffle1 {A P E R O D : Prop} : (A ∨ (P ∨ E ∨ R) ∨ O ∨ D) ↔ ((E ∨ A) ∨ (P ∨ R) ∨ O ∨ D) := by tauto
theorem shuffle2 {A P E R O D : Prop} : (A ∨ (P ∨ R) ∨ (O ∨ E) ∨ D) ↔ (A ∨ (P ∨ E ∨ R) ∨ O ∨ D) := by tauto

theorem held_idle : Wk.idle.held = none := rfl
theorem held_dead : Wk.dead.held = none := rfl
theorem held_got (b : Nat) : (Wk.got b).held = some b := rfl
theorem held_filtered (b : Nat) : (Wk.filtered b).held = some b := rfl

theorem alive_append (a b : List Wk) : alive (a ++ b) = alive a + alive b := by simp [alive]

theorem alive_cons (w : Wk) (b : List Wk) : alive (w :: b) = alive b + if w ≠ .dead then 1 else 0 := by
  unfold alive; rw [List.countP_cons]; simp

theorem inv_worker (h : Inv B Q W f cmds s g) {i : Nat} (hs : stepWorker Q f i s = .ok s') :
    Inv B Q W f cmds s' g := by
  unfold stepWorker at hs
  cases hw : s.workers[i]? with
  | none => rw [hw] at hs; cases hs
  | some w =>
    rw [hw] at hs
    obtain ⟨l1, l2, e1, e2⟩ := set_split hw
    cases w with
    | dead => cases hs
    | idle =>
      simp only at hs
      cases hq : s.fq with
      | nil => rw [hq] at hs; cases hs
      | cons x q =>
        rw [hq] at hs
        cases x with
        | none =>
          simp only [Res.ok.injEq] at hs
          subst hs
          rw [e2]
          have hin : ∀ b, InF ⟨s.pc, s.mem, s.cur, s.loc, s.seq, q, s.oq, s.rq, l1 ++ Wk.dead :: l2, s.out,
              s.ordering, s.base, s.file⟩ b ↔ InF s b := by
            intro b; simp only [InF, hq, e1, exists_held, held_idle, held_dead, held_got, held_filtered]; simp
          refine ⟨?_, ?_, h.fresh, ?_, ?_, h.oqI, h.ordI, h.base, ?_, ?_, ?_, h.file, h.flushedHd, h.idleHd,
            h.pcOk.congr rfl rfl rfl rfl (fun _ => rfl) (fun b hb => (hin b).mp hb), ?_, ?_⟩
          · intro b
            have := h.own b
            simp only [cnt, hq, e1, List.filterMap_append, List.filterMap_cons, Wk.held, id] at this ⊢
            exact this
          · rw [← h.wlen, e1]; simp
          · intro b hb; exact h.fqI b (by rw [hq]; exact List.mem_cons_of_mem _ hb)
          · intro w hw'
            simp only [List.mem_append, List.mem_cons] at hw'
            rcases hw' with h1 | rfl | h1
            · exact h.wI w (by rw [e1]; simp [h1])
            · trivial
            · exact h.wI w (by rw [e1]; simp [h1])
          · intro b hb; exact h.low b ((hin b).mp hb)
          · intro q' h1 h2
            obtain ⟨b, hb, hb'⟩ := h.cover q' h1 h2
            exact ⟨b, (hin b).mpr hb, hb'⟩
          · intro b b' hb hb' he; exact h.inj b b' ((hin b).mp hb) ((hin b').mp hb') he
          · refine h.poison.workers rfl (fun x hx => Or.inl hx) rfl (fun hn => absurd (by rw [hq]; simp) hn) ?_ ?_
            · intro l k m hl ha hd
              rw [hq] at hl
              cases l with
              | cons a l => simp at hl
              | nil =>
                cases k with
                | zero => simp at hl
                | succ k =>
                  refine ⟨[], k, ?_, ?_, fun _ => rfl⟩
                  · simp [List.replicate_succ] at hl ⊢; exact hl
                  · rw [e1, alive_append, alive_cons] at ha
                    rw [alive_append, alive_cons]
                    simp at ha ⊢; omega
            · intro hall
              have := hall .idle (by rw [e1]; simp)
              cases this
          · exact fun hf => ⟨(h.raw hf).1.congr rfl, (h.raw hf).2⟩
        | some b0 =>
          simp only [Res.ok.injEq] at hs
          subst hs
          rw [e2]
          have hin : ∀ b, InF ⟨s.pc, s.mem, s.cur, s.loc, s.seq, q, s.oq, s.rq, l1 ++ Wk.got b0 :: l2, s.out,
              s.ordering, s.base, s.file⟩ b ↔ InF s b := by
            intro b
            have hc : b0 = b ↔ b = b0 := eq_comm
            simp only [InF, hq, e1, exists_held, held_idle, held_dead, held_got, held_filtered, List.mem_cons, Option.some.injEq, hc, reduceCtorEq, false_or]
            exact shuffle1
          refine ⟨?_, ?_, h.fresh, ?_, ?_, h.oqI, h.ordI, h.base, ?_, ?_, ?_, h.file, h.flushedHd, h.idleHd,
            h.pcOk.congr rfl rfl rfl rfl (fun _ => rfl) (fun b hb => (hin b).mp hb), ?_, ?_⟩
          · intro b
            have := h.own b
            simp only [cnt, hq, e1, List.filterMap_append, List.filterMap_cons, Wk.held, id, List.count_append,
              List.count_cons] at this ⊢
            omega
          · rw [← h.wlen, e1]; simp
          · intro b hb; exact h.fqI b (by rw [hq]; exact List.mem_cons_of_mem _ hb)
          · intro w hw'
            simp only [List.mem_append, List.mem_cons] at hw'
            rcases hw' with h1 | rfl | h1
            · exact h.wI w (by rw [e1]; simp [h1])
            · exact h.fqI b0 (by rw [hq]; simp)
            · exact h.wI w (by rw [e1]; simp [h1])
          · intro b hb; exact h.low b ((hin b).mp hb)
          · intro q' h1 h2
            obtain ⟨b, hb, hb'⟩ := h.cover q' h1 h2
            exact ⟨b, (hin b).mpr hb, hb'⟩
          · intro b b' hb hb' he; exact h.inj b b' ((hin b).mp hb) ((hin b').mp hb') he
          · refine h.poison.workers rfl (fun x hx => Or.inl hx) rfl ?_ ?_ ?_
            · intro hn hd
              refine ⟨fun h' => hn (by rw [hq]; exact List.mem_cons_of_mem _ h'), ?_⟩
              rw [e1] at hd
              simp at hd ⊢
              exact hd
            · intro l k m hl ha hd
              rw [hq] at hl
              cases l with
              | nil =>
                cases k with
                | zero => simp at hl
                | succ k => simp [List.replicate_succ] at hl
              | cons a l =>
                refine ⟨l, k, by simp at hl ⊢; exact hl.2, ?_, ?_⟩
                · rw [e1, alive_append, alive_cons] at ha
                  rw [alive_append, alive_cons]
                  simp at ha ⊢; omega
                · intro hd'
                  have : Wk.dead ∈ s.workers := by rw [e1]; simp at hd' ⊢; exact hd'
                  exact absurd (hd this) (by simp)
            · intro hall
              have := hall .idle (by rw [e1]; simp)
              cases this
          · exact fun hf => ⟨(h.raw hf).1.congr rfl, (h.raw hf).2⟩
    | got b0 =>
      simp only [Res.ok.injEq] at hs
      subst hs
      rw [e2]
      have hb0 : InF s b0 := Or.inr (Or.inl ⟨.got b0, by rw [e1]; simp, rfl⟩)
      have hu := h.uniq b0
      have hcount : cnt s b0 = (s.fq.filterMap id).count b0 + ((l1.filterMap Wk.held).count b0 + ((l2.filterMap Wk.held).count b0 + 1)) +
          (s.oq.filterMap id).count b0 + (s.ordering.filterMap id).count b0 + s.rq.count b0 + s.loc.count b0 := by
        simp only [cnt, e1, List.filterMap_append, List.filterMap_cons, Wk.held, List.count_append, List.count_cons]
        simp
      rw [hcount] at hu
      have hmem : ∀ b, b ≠ b0 → upd s.mem b0 ⟨(s.mem b0).seq, (s.mem b0).input,
          (s.mem b0).output ++ (s.mem b0).input.flatMap f⟩ b = s.mem b := fun b hb => by simp [upd, hb]
      have hseq : ∀ b, (upd s.mem b0 ⟨(s.mem b0).seq, (s.mem b0).input,
          (s.mem b0).output ++ (s.mem b0).input.flatMap f⟩ b).seq = (s.mem b).seq := fun b => by
        by_cases hb : b = b0
        · subst hb; simp [upd]
        · rw [hmem b hb]
      have hin : ∀ b, InF ⟨s.pc, upd s.mem b0 ⟨(s.mem b0).seq, (s.mem b0).input,
          (s.mem b0).output ++ (s.mem b0).input.flatMap f⟩, s.cur, s.loc, s.seq, s.fq, s.oq, s.rq,
          l1 ++ Wk.filtered b0 :: l2, s.out, s.ordering, s.base, s.file⟩ b ↔ InF s b := by
        intro b; simp only [InF, e1, exists_held, held_idle, held_dead, held_got, held_filtered]
      have hfq : ∀ b, some b ∈ s.fq → b ≠ b0 := by
        rintro b hb rfl; have := pos_of_mem (mem_fm.mpr hb); omega
      have hoq : ∀ b, some b ∈ s.oq → b ≠ b0 := by
        rintro b hb rfl; have := pos_of_mem (mem_fm.mpr hb); omega
      have hord : ∀ b, some b ∈ s.ordering → b ≠ b0 := by
        rintro b hb rfl; have := pos_of_mem (mem_fm.mpr hb); omega
      have hloc : ∀ b, b ∈ s.loc ∨ b ∈ s.rq → b ≠ b0 := by
        rintro b hb rfl
        rcases hb with hb | hb <;> have := pos_of_mem hb <;> omega
      have hwk : ∀ w ∈ l1 ++ l2, w.Ok f g (upd s.mem b0 ⟨(s.mem b0).seq, (s.mem b0).input,
          (s.mem b0).output ++ (s.mem b0).input.flatMap f⟩) := by
        intro w hw'
        have hok := h.wI w (by rw [e1]; simp at hw' ⊢; tauto)
        have hne : ∀ b, w.held = some b → b ≠ b0 := by
          rintro b hb rfl
          have : 1 ≤ (l1.filterMap Wk.held).count b + (l2.filterMap Wk.held).count b := by
            rcases List.mem_append.mp hw' with hm | hm
            · have := pos_of_mem (mem_held.mpr ⟨w, hm, hb⟩); omega
            · have := pos_of_mem (mem_held.mpr ⟨w, hm, hb⟩); omega
          omega
        cases w with
        | idle => trivial
        | dead => trivial
        | got b => simp only [Wk.Ok, hmem b (hne b rfl)]; exact hok
        | filtered b => simp only [Wk.Ok, hmem b (hne b rfl)]; exact hok
      refine ⟨?_, ?_, ?_, ?_, ?_, ?_, ?_, h.base, ?_, ?_, ?_, h.file, h.flushedHd, h.idleHd,
        h.pcOk.congr rfl rfl rfl rfl ?_ (fun b hb => (hin b).mp hb), ?_, ?_⟩
      · intro b
        have := h.own b
        simp only [cnt, e1, List.filterMap_append, List.filterMap_cons, Wk.held] at this ⊢
        exact this
      · rw [← h.wlen, e1]; simp
      · intro b hb; simp only [hmem b (hloc b hb)]; exact h.fresh b hb
      · intro b hb; simp only [hmem b (hfq b hb)]; exact h.fqI b hb
      · intro w hw'
        simp only [List.mem_append, List.mem_cons] at hw'
        rcases hw' with h1 | rfl | h1
        · exact hwk w (by simp [h1])
        · have hg : Holds g (s.mem b0) (fun _ => []) := h.wI (.got b0) (by rw [e1]; simp)
          obtain ⟨g1, g2, g3⟩ := hg
          refine ⟨by simpa [upd] using g1, by simpa [upd] using g2, ?_⟩
          simp only [upd, if_true, g3, List.nil_append]
        · exact hwk w (by simp [h1])
      · intro b hb; simp only [hmem b (hoq b hb)]; exact h.oqI b hb
      · intro p b hb; simp only [hmem b (hord b (List.mem_of_getElem? hb))]; exact h.ordI p b hb
      · intro b hb; rw [hseq]; exact h.low b ((hin b).mp hb)
      · intro q' h1 h2
        obtain ⟨b, hb, hb'⟩ := h.cover q' h1 h2
        exact ⟨b, (hin b).mpr hb, by rw [hseq]; exact hb'⟩
      · intro b b' hb hb' he
        rw [hseq, hseq] at he
        exact h.inj b b' ((hin b).mp hb) ((hin b').mp hb') he
      · intro hh; exact hmem _ (hloc _ (Or.inl (List.mem_of_mem_head? hh)))
      · refine h.poison.workers rfl (fun x hx => Or.inl hx) rfl ?_ ?_ ?_
        · intro hn hd
          refine ⟨hn, ?_⟩
          rw [e1] at hd; simp at hd ⊢; exact hd
        · intro l k m hl ha hd
          refine ⟨l, k, hl, ?_, ?_⟩
          · rw [e1, alive_append, alive_cons] at ha
            rw [alive_append, alive_cons]
            simp at ha ⊢; omega
          · intro hd'
            exact hd (by rw [e1]; simp at hd' ⊢; exact hd')
        · intro hall
          have := hall (.got b0) (by rw [e1]; simp)
          cases this
      · exact fun hf => ⟨(h.raw hf).1.congr rfl, (h.raw hf).2⟩
    | filtered b0 =>
      simp only at hs
      split at hs
      · simp only [Res.ok.injEq] at hs
        subst hs
        rw [e2]
        have hin : ∀ b, InF ⟨s.pc, s.mem, s.cur, s.loc, s.seq, s.fq, s.oq ++ [some b0], s.rq, l1 ++ Wk.idle :: l2,
            s.out, s.ordering, s.base, s.file⟩ b ↔ InF s b := by
          intro b
          have hc : b0 = b ↔ b = b0 := eq_comm
          simp only [InF, e1, exists_held, held_idle, held_filtered]
          simp only [List.mem_append, List.mem_singleton, Option.some.injEq, hc, reduceCtorEq, false_or]
          exact shuffle2
        refine ⟨?_, ?_, h.fresh, h.fqI, ?_, ?_, h.ordI, h.base, ?_, ?_, ?_, h.file, h.flushedHd, h.idleHd,
          h.pcOk.congr rfl rfl rfl rfl (fun _ => rfl) (fun b hb => (hin b).mp hb), ?_, ?_⟩
        · intro b
          have := h.own b
          simp only [cnt, e1, List.filterMap_append, List.filterMap_cons, List.filterMap_nil, Wk.held, id,
            List.count_append, List.count_cons, List.count_nil] at this ⊢
          omega
        · rw [← h.wlen, e1]; simp
        · intro w hw'
          simp only [List.mem_append, List.mem_cons] at hw'
          rcases hw' with h1 | rfl | h1
          · exact h.wI w (by rw [e1]; simp [h1])
          · trivial
          · exact h.wI w (by rw [e1]; simp [h1])
        · intro b hb
          simp only [List.mem_append, List.mem_singleton, Option.some.injEq] at hb
          rcases hb with hb | rfl
          · exact h.oqI b hb
          · exact h.wI (.filtered b) (by rw [e1]; simp)
        · intro b hb; exact h.low b ((hin b).mp hb)
        · intro q' h1 h2
          obtain ⟨b, hb, hb'⟩ := h.cover q' h1 h2
          exact ⟨b, (hin b).mpr hb, hb'⟩
        · intro b b' hb hb' he; exact h.inj b b' ((hin b).mp hb) ((hin b').mp hb') he
        · refine h.poison.workers rfl ?_ rfl ?_ ?_ ?_
          · intro x hx
            simp only [List.mem_append, List.mem_singleton] at hx
            rcases hx with hx | rfl
            · exact Or.inl hx
            · exact Or.inr (by simp)
          · intro hn hd
            refine ⟨hn, ?_⟩
            rw [e1] at hd; simp at hd ⊢; exact hd
          · intro l k m hl ha hd
            refine ⟨l, k, hl, ?_, ?_⟩
            · rw [e1, alive_append, alive_cons] at ha
              rw [alive_append, alive_cons]
              simp at ha ⊢; omega
            · intro hd'
              exact hd (by rw [e1]; simp at hd' ⊢; exact hd')
          · intro hall
            have := hall (.filtered b0) (by rw [e1]; simp)
            cases this
        · exact fun hf => ⟨(h.raw hf).1.congr rfl, (h.raw hf).2⟩
      · cases hs

end Cdec.Klm.FilterThread
