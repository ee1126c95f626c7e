import Verif.Klm.FilterThreadStep
/-!
# The invariant of the threaded filter is kept: the output worker
-/
namespace Cdec.Klm.FilterThread

variable {α β ε : Type}
variable {B Q W : Nat} {f : α → List β} {cmds : List (Cmd α ε)} {s s' : St α β ε} {g : Ghost α β ε}

theorem Holds.le {x : Batch α β} {o : List α → List β} (h : Holds g x o) : x.seq < g.s0 + g.P.length := by
  obtain ⟨h1, h2, _⟩ := h
  have := (List.getElem?_eq_some_iff.mp h2).1
  omega

/-- A batch in `ordering_` is in the place of its number. -/
theorem Inv.slot_free (h : Inv B Q W f cmds s g) {b : Nat} {q : List (Option Nat)} (hq : s.oq = some b :: q) :
    s.base ≤ (s.mem b).seq ∧ ∀ a, s.ordering[(s.mem b).seq - s.base]? ≠ some (some a) := by
  have hb : InF s b := Or.inr (Or.inr (Or.inl (by rw [hq]; simp)))
  have hl := h.low b hb
  refine ⟨hl, fun a ha => ?_⟩
  have hs := (h.ordI _ a ha).1
  have ham := List.mem_of_getElem? ha
  have : a = b := h.inj a b (Or.inr (Or.inr (Or.inr ham))) hb (by omega)
  subst this
  have hu := h.uniq a
  have h1 := pos_of_mem (mem_fm.mpr ham)
  have h2 : 1 ≤ (s.oq.filterMap id).count a := pos_of_mem (mem_fm.mpr (by rw [hq]; simp))
  unfold cnt at hu
  omega

/-- When only `ordering_` can hold batches and its front is missing, nothing is pending. -/
theorem Inv.quiet (h : Inv B Q W f cmds s g) (hf : ∀ b, some b ∉ s.fq) (hw : ∀ w ∈ s.workers, w.held = none)
    (ho : ∀ b, some b ∉ s.oq) (hd : ∀ b o, s.ordering ≠ some b :: o) : g.n = g.P.length := by
  obtain ⟨hb1, hb2⟩ := h.base
  by_contra hne
  obtain ⟨b, hb, hbs⟩ := h.cover s.base (Nat.le_refl _) (by omega)
  rcases hb with hb | ⟨w, hw1, hw2⟩ | hb | hb
  · exact hf b hb
  · rw [hw w hw1] at hw2; cases hw2
  · exact ho b hb
  · obtain ⟨p, hp⟩ := List.getElem?_of_mem hb
    have := (h.ordI p b hp).1
    have hp0 : p = 0 := by omega
    subst hp0
    cases ho' : s.ordering with
    | nil => rw [ho'] at hp; simp at hp
    | cons x o =>
      rw [ho'] at hp
      simp at hp
      rw [hp] at ho'
      exact hd b o ho'

theorem out_not_bad (h : Inv B Q W f cmds s g) : stepOut Q s ≠ .bad := by
  unfold stepOut
  cases hout : s.out with
  | idle =>
    simp only
    cases hq : s.oq with
    | nil => simp
    | cons x q =>
      cases x with
      | none => simp
      | some b =>
        simp only
        rw [if_neg (by have := (h.slot_free hq).1; omega)]
        simp
  | loop =>
    simp only
    cases s.ordering with
    | nil => simp
    | cons x o => cases x <;> simp
  | flushed =>
    obtain ⟨b, o, e⟩ := h.flushedHd hout
    simp only [e]
    split <;> simp
  | dead => simp

theorem inv_out (h : Inv B Q W f cmds s g) (hs : stepOut Q s = .ok s') : ∃ g', Inv B Q W f cmds s' g' := by
  unfold stepOut at hs
  cases hout : s.out with
  | dead => rw [hout] at hs; cases hs
  | idle =>
    rw [hout] at hs
    simp only at hs
    cases hq : s.oq with
    | nil => rw [hq] at hs; cases hs
    | cons x q =>
      rw [hq] at hs
      cases x with
      | none =>
        simp only [Res.ok.injEq] at hs
        subst hs
        -- only when the filter workers have ended
        have hpo := h.poison
        have hno : none ∈ s.oq := by rw [hq]; simp
        have hpc : s.pc = .joinO ∧ s.fq = [] ∧ (∀ w ∈ s.workers, w = .dead) ∧ q = [] := by
          unfold Poison at hpo
          cases hpc : s.pc <;> rw [hpc] at hpo
          case joinO =>
            refine ⟨rfl, hpo.1, hpo.2.1, ?_⟩
            rcases hpo.2.2 with ⟨_, l, hl⟩ | ⟨hd, _⟩
            · rw [hq] at hl
              cases l with
              | nil => simpa using hl
              | cons a l => simp at hl
            · rw [hout] at hd; cases hd
          case done => rw [hpo.2.2.2.1] at hno; cases hno
          all_goals exact absurd hno hpo.1
        obtain ⟨hpc, hfq, hwk, rfl⟩ := hpc
        have hn : g.n = g.P.length := h.quiet (by rw [hfq]; simp) (fun w hw => by rw [hwk w hw]; rfl)
          (by rw [hq]; simp) (h.idleHd (Or.inl hout))
        have hin : ∀ b, InF ⟨s.pc, s.mem, s.cur, s.loc, s.seq, s.fq, [], s.rq, s.workers, .dead,
            s.ordering, s.base, s.file⟩ b ↔ InF s b := by
          intro b; simp only [InF, hq]; simp
        refine ⟨g, ?_, h.wlen, h.fresh, h.fqI, h.wI, by simp, ?_, h.base, ?_, ?_, ?_, ?_, ?_, ?_,
          h.pcOk.congr rfl rfl rfl rfl (fun _ => rfl) (fun b hb => (hin b).mp hb), ?_, ?_⟩
        · intro b
          have := h.own b
          simp only [cnt, hq, List.filterMap_cons, id] at this ⊢
          exact this
        · intro p b hb
          have := h.ordI p b hb
          rw [hout] at this
          simpa using this
        · intro b hb; exact h.low b ((hin b).mp hb)
        · intro q' h1 h2
          obtain ⟨b, hb, hb'⟩ := h.cover q' h1 h2
          exact ⟨b, (hin b).mpr hb, hb'⟩
        · intro b b' hb hb' he; exact h.inj b b' ((hin b).mp hb) ((hin b').mp hb') he
        · have := h.file; rw [hout] at this; simpa using this
        · intro hc; cases hc
        · intro _; exact h.idleHd (Or.inl hout)
        · unfold Poison
          rw [hpc]
          exact ⟨hfq, hwk, Or.inr ⟨rfl, rfl, hn⟩⟩
        · exact fun hf => ⟨(h.raw hf).1.congr rfl, (h.raw hf).2⟩
      | some b0 =>
        simp only at hs
        obtain ⟨hl, hfree⟩ := h.slot_free hq
        rw [if_neg (by omega)] at hs
        simp only [Res.ok.injEq] at hs
        subst hs
        have hin : ∀ b, InF ⟨s.pc, s.mem, s.cur, s.loc, s.seq, s.fq, q, s.rq, s.workers, .loop,
            place s.ordering ((s.mem b0).seq - s.base) b0, s.base, s.file⟩ b ↔ InF s b := by
          intro b
          simp only [InF, hq, place_mem _ _ _ _ hfree, List.mem_cons, Option.some.injEq]
          constructor
          · rintro (h | h | h | h | h)
            · exact Or.inl h
            · exact Or.inr (Or.inl h)
            · exact Or.inr (Or.inr (Or.inl (Or.inr h)))
            · exact Or.inr (Or.inr (Or.inl (Or.inl h)))
            · exact Or.inr (Or.inr (Or.inr h))
          · rintro (h | h | (h | h) | h)
            · exact Or.inl h
            · exact Or.inr (Or.inl h)
            · exact Or.inr (Or.inr (Or.inr (Or.inl h)))
            · exact Or.inr (Or.inr (Or.inl h))
            · exact Or.inr (Or.inr (Or.inr (Or.inr h)))
        refine ⟨g, ?_, h.wlen, h.fresh, h.fqI, h.wI, ?_, ?_, h.base, ?_, ?_, ?_, ?_, ?_, ?_,
          h.pcOk.congr rfl rfl rfl rfl (fun _ => rfl) (fun b hb => (hin b).mp hb), ?_, ?_⟩
        · intro b
          have := h.own b
          have hpl := place_count _ _ b0 hfree b
          simp only [cnt, hq] at this ⊢
          rw [hpl]
          simp only [List.filterMap_cons, id, List.count_cons] at this ⊢
          omega
        · intro b hb; exact h.oqI b (by rw [hq]; exact List.mem_cons_of_mem _ hb)
        · intro p b hb
          rcases (place_get _ _ _ _ _).mp hb with ⟨rfl, rfl⟩ | ⟨_, hb⟩
          · refine ⟨by simp only; omega, ?_⟩
            have := h.oqI b (by rw [hq]; simp)
            simpa using this
          · have := h.ordI p b hb
            rw [hout] at this
            simpa using this
        · intro b hb; exact h.low b ((hin b).mp hb)
        · intro q' h1 h2
          obtain ⟨b, hb, hb'⟩ := h.cover q' h1 h2
          exact ⟨b, (hin b).mpr hb, hb'⟩
        · intro b b' hb hb' he; exact h.inj b b' ((hin b).mp hb) ((hin b').mp hb') he
        · have := h.file; rw [hout] at this; simpa using this
        · intro hc; cases hc
        · intro hc; rcases hc with hc | hc <;> cases hc
        · have hpo := h.poison
          have hnq : none ∉ s.oq → none ∉ q := fun hn h' => hn (by rw [hq]; exact List.mem_cons_of_mem _ h')
          unfold Poison at hpo ⊢
          cases hpc : s.pc <;> rw [hpc] at hpo
          case joinO =>
            refine ⟨hpo.1, hpo.2.1, Or.inl ⟨by simp, ?_⟩⟩
            rcases hpo.2.2 with ⟨_, l, hl⟩ | ⟨hd, _⟩
            · rw [hq] at hl
              cases l with
              | nil => simp at hl
              | cons a l => exact ⟨l, by simp at hl; exact hl.2⟩
            · rw [hout] at hd; cases hd
          case done => rw [hpo.2.2.2.1] at hq; cases hq
          all_goals exact ⟨hnq hpo.1, by simp, hpo.2.2⟩
        · exact fun hf => ⟨(h.raw hf).1.congr rfl, (h.raw hf).2⟩
  | loop =>
    rw [hout] at hs
    simp only at hs
    have idleCase : (∀ b o, s.ordering ≠ some b :: o) → ∃ g', Inv B Q W f cmds
        ⟨s.pc, s.mem, s.cur, s.loc, s.seq, s.fq, s.oq, s.rq, s.workers, .idle, s.ordering, s.base, s.file⟩ g' := by
      intro hd
      refine ⟨g, h.own, h.wlen, h.fresh, h.fqI, h.wI, h.oqI, ?_, h.base, h.low, h.cover, h.inj, ?_, ?_, ?_,
          h.pcOk.congr rfl rfl rfl rfl (fun _ => rfl) (fun b hb => hb), ?_, ?_⟩
      · intro p b hb
        have := h.ordI p b hb
        rw [hout] at this
        simpa using this
      · have := h.file; rw [hout] at this; simpa using this
      · intro hc; cases hc
      · intro _; exact hd
      · have hpo := h.poison
        unfold Poison at hpo ⊢
        cases hpc : s.pc <;> rw [hpc] at hpo
        case joinO =>
          refine ⟨hpo.1, hpo.2.1, Or.inl ⟨by simp, ?_⟩⟩
          rcases hpo.2.2 with ⟨_, hl⟩ | ⟨hd, _⟩
          · exact hl
          · rw [hout] at hd; cases hd
        case done => rw [hout] at hpo; exact absurd hpo.2.2.1 (by simp)
        all_goals exact ⟨hpo.1, by simp, hpo.2.2⟩
      · exact fun hf => ⟨(h.raw hf).1.congr rfl, (h.raw hf).2⟩
    cases ho : s.ordering with
    | nil =>
      rw [ho] at hs
      simp only [Res.ok.injEq] at hs
      subst hs
      have := idleCase (by rw [ho]; simp)
      rw [ho] at this
      exact this
    | cons x o =>
      rw [ho] at hs
      cases x with
      | none =>
        simp only [Res.ok.injEq] at hs
        subst hs
        have := idleCase (by rw [ho]; simp)
        rw [ho] at this
        exact this
      | some b0 =>
        simp only [Res.ok.injEq] at hs
        subst hs
        have hb0 : InF s b0 := Or.inr (Or.inr (Or.inr (by rw [ho]; simp)))
        have hu := h.uniq b0
        have hcount : cnt s b0 = (s.fq.filterMap id).count b0 + (s.workers.filterMap Wk.held).count b0 +
            (s.oq.filterMap id).count b0 + ((o.filterMap id).count b0 + 1) + s.rq.count b0 + s.loc.count b0 := by
          simp only [cnt, ho, List.filterMap_cons, id, List.count_cons]
          simp
        rw [hcount] at hu
        have hmem : ∀ b, b ≠ b0 → upd s.mem b0 ⟨(s.mem b0).seq, (s.mem b0).input, []⟩ b = s.mem b :=
          fun b hb => by simp [upd, hb]
        have hseq : ∀ b, (upd s.mem b0 ⟨(s.mem b0).seq, (s.mem b0).input, []⟩ b).seq = (s.mem b).seq := fun b => by
          by_cases hb : b = b0
          · subst hb; simp [upd]
          · rw [hmem b hb]
        have hfq : ∀ b, some b ∈ s.fq → b ≠ b0 := by
          rintro b hb rfl; have := pos_of_mem (mem_fm.mpr hb); omega
        have hoq : ∀ b, some b ∈ s.oq → b ≠ b0 := by
          rintro b hb rfl; have := pos_of_mem (mem_fm.mpr hb); omega
        have hord : ∀ b, some b ∈ o → b ≠ b0 := by
          rintro b hb rfl; have := pos_of_mem (mem_fm.mpr hb); omega
        have hloc : ∀ b, b ∈ s.loc ∨ b ∈ s.rq → b ≠ b0 := by
          rintro b hb rfl
          rcases hb with hb | hb <;> have := pos_of_mem hb <;> omega
        obtain ⟨hs0, hh1, hh2, hh3⟩ := h.ordI 0 b0 (by rw [ho]; rfl)
        obtain ⟨hb1, hb2⟩ := h.base
        have hPn : g.P[g.n]? = some (s.mem b0).input := by
          rw [← hh2]; congr 1; omega
        refine ⟨g, ?_, h.wlen, ?_, ?_, ?_, ?_, ?_, h.base, ?_, ?_, ?_, ?_, ?_, ?_,
          h.pcOk.congr rfl rfl rfl rfl ?_ ?_, ?_, ?_⟩
        · exact fun b => by have := h.own b; simp only [cnt, ho] at this ⊢; exact this
        · intro b hb; simp only [hmem b (hloc b hb)]; exact h.fresh b hb
        · intro b hb; simp only [hmem b (hfq b hb)]; exact h.fqI b hb
        · intro w (hw : w ∈ s.workers)
          have hok := h.wI w hw
          have hne : ∀ b, w.held = some b → b ≠ b0 := by
            rintro b hb rfl
            have := pos_of_mem (mem_held.mpr ⟨w, hw, hb⟩); omega
          cases w with
          | idle => trivial
          | dead => trivial
          | got b => simp only [Wk.Ok, hmem b (hne b rfl)]; exact hok
          | filtered b => simp only [Wk.Ok, hmem b (hne b rfl)]; exact hok
        · intro b hb; simp only [hmem b (hoq b hb)]; exact h.oqI b hb
        · intro p b hb
          have hb' : s.ordering[p]? = some (some b) := by rw [ho]; exact hb
          simp only [hseq]
          cases p with
          | zero =>
            simp at hb
            subst hb
            refine ⟨hs0, by simpa [upd] using hh1, by simpa [upd] using hh2, by simp [upd]⟩
          | succ p =>
            have hne : b ≠ b0 := hord b (List.mem_of_getElem? (i := p) (by simpa using hb))
            have := h.ordI (p + 1) b hb'
            rw [hout] at this
            rw [hmem b hne]
            simpa using this
        · intro b hb
          rw [hseq]
          exact h.low b (by simpa only [InF, ho] using hb)
        · intro q' h1 h2
          obtain ⟨b, hb, hb'⟩ := h.cover q' h1 h2
          exact ⟨b, by simpa only [InF, ho] using hb, by rw [hseq]; exact hb'⟩
        · intro b b' hb hb' he
          rw [hseq, hseq] at he
          exact h.inj b b' (by simpa only [InF, ho] using hb) (by simpa only [InF, ho] using hb') he
        · have hf := h.file
          rw [hout] at hf hh3
          simp only [reduceCtorEq, false_and, if_false, Nat.add_zero] at hf hh3
          simp only [if_true]
          rw [hf, hh3, List.take_add_one, hPn]
          simp [calls]
        · intro _; exact ⟨b0, o, rfl⟩
        · intro hc; rcases hc with hc | hc <;> cases hc
        · intro hh; exact hmem _ (hloc _ (Or.inl (List.mem_of_mem_head? hh)))
        · intro b hb; simpa only [InF, ho] using hb
        · have hpo := h.poison
          unfold Poison at hpo ⊢
          cases hpc : s.pc <;> rw [hpc] at hpo
          case joinO =>
            refine ⟨hpo.1, hpo.2.1, Or.inl ⟨by simp, ?_⟩⟩
            rcases hpo.2.2 with ⟨_, hl⟩ | ⟨hd, _⟩
            · exact hl
            · rw [hout] at hd; cases hd
          case done => rw [hout] at hpo; exact absurd hpo.2.2.1 (by simp)
          all_goals exact ⟨hpo.1, by simp, hpo.2.2⟩
        · exact fun hf => ⟨(h.raw hf).1.congr rfl, (h.raw hf).2⟩
  | flushed =>
    rw [hout] at hs
    simp only at hs
    obtain ⟨b0, o, ho⟩ := h.flushedHd hout
    rw [ho] at hs
    simp only at hs
    split at hs
    · simp only [Res.ok.injEq] at hs
      subst hs
      have hu := h.uniq b0
      have hcount : cnt s b0 = (s.fq.filterMap id).count b0 + (s.workers.filterMap Wk.held).count b0 +
          (s.oq.filterMap id).count b0 + ((o.filterMap id).count b0 + 1) + s.rq.count b0 + s.loc.count b0 := by
        simp only [cnt, ho, List.filterMap_cons, id, List.count_cons]
        simp
      rw [hcount] at hu
      obtain ⟨hs0, hh1, hh2, hh3⟩ := h.ordI 0 b0 (by rw [ho]; rfl)
      obtain ⟨hb1, hb2⟩ := h.base
      have hlt := (List.getElem?_eq_some_iff.mp hh2).1
      have hin : ∀ b, InF ⟨s.pc, s.mem, s.cur, s.loc, s.seq, s.fq, s.oq, s.rq ++ [b0], s.workers, .loop,
          o, s.base + 1, s.file⟩ b ↔ InF s b ∧ b ≠ b0 := by
        intro b
        constructor
        · intro hb
          change some b ∈ s.fq ∨ (∃ w ∈ s.workers, w.held = some b) ∨ some b ∈ s.oq ∨ some b ∈ o at hb
          refine ⟨?_, ?_⟩
          · rcases hb with hb | hb | hb | hb
            · exact Or.inl hb
            · exact Or.inr (Or.inl hb)
            · exact Or.inr (Or.inr (Or.inl hb))
            · exact Or.inr (Or.inr (Or.inr (by rw [ho]; exact List.mem_cons_of_mem _ hb)))
          rintro rfl
          rcases hb with hb | hb | hb | hb
          · have := pos_of_mem (mem_fm.mpr hb); omega
          · have := pos_of_mem (mem_held.mpr hb); omega
          · have := pos_of_mem (mem_fm.mpr hb); omega
          · have := pos_of_mem (mem_fm.mpr hb); omega
        · rintro ⟨hb, hne⟩
          rcases hb with hb | hb | hb | hb
          · exact Or.inl hb
          · exact Or.inr (Or.inl hb)
          · exact Or.inr (Or.inr (Or.inl hb))
          · rw [ho] at hb
            simp only [List.mem_cons, Option.some.injEq] at hb
            exact Or.inr (Or.inr (Or.inr (hb.resolve_left hne)))
      have hb0 : InF s b0 := Or.inr (Or.inr (Or.inr (by rw [ho]; simp)))
      refine ⟨⟨g.pre, g.s0, g.P, g.n + 1, g.dirty⟩, ?_, h.wlen, ?_, h.fqI, ?_, h.oqI, ?_, ?_, ?_, ?_, ?_, ?_, ?_, ?_,
        ?_, ?_, ?_⟩
      · intro b
        have := h.own b
        simp only [cnt, ho, List.filterMap_cons, id, List.count_cons, List.count_append, List.count_nil] at this ⊢
        omega
      · intro b hb
        simp only [List.mem_append, List.mem_singleton] at hb
        rcases hb with hb | hb | rfl
        · exact h.fresh b (Or.inl hb)
        · exact h.fresh b (Or.inr hb)
        · simp only [hh3, hout]; simp
      · intro w hw
        have := h.wI w hw
        cases w <;> exact this
      · intro p b hb
        have := h.ordI (p + 1) b (by rw [ho]; simpa using hb)
        refine ⟨by simp only; omega, ?_⟩
        have h2 := this.2
        simp only [Nat.add_eq_zero_iff, Nat.one_ne_zero, and_false, if_false] at h2
        simp only [reduceCtorEq, false_and, if_false]; exact h2
      · exact ⟨by simp only; omega, by simp only; omega⟩
      · intro b hb
        obtain ⟨h1, h2⟩ := (hin b).mp hb
        have h3 := h.low b h1
        have h4 : (s.mem b).seq ≠ s.base := fun he => h2 (h.inj b b0 h1 hb0 (by omega))
        simp only; omega
      · intro q' h1 h2
        simp only at h1 h2
        obtain ⟨b, hb, hb'⟩ := h.cover q' (by omega) h2
        refine ⟨b, (hin b).mpr ⟨hb, ?_⟩, hb'⟩
        rintro rfl
        omega
      · intro b b' hb hb' he; exact h.inj b b' ((hin b).mp hb).1 ((hin b').mp hb').1 he
      · have hf := h.file
        rw [hout] at hf
        simp only [reduceCtorEq, if_false, if_true, Nat.add_zero] at hf ⊢
        exact hf
      · intro hc; cases hc
      · intro hc; rcases hc with hc | hc <;> cases hc
      · have : PcOk B cmds ⟨s.pc, s.mem, s.cur, s.loc, s.seq, s.fq, s.oq, s.rq ++ [b0], s.workers, .loop,
          o, s.base + 1, s.file⟩ g := h.pcOk.congr rfl rfl rfl rfl (fun _ => rfl) (fun b hb => ((hin b).mp hb).1)
        exact this
      · have hpo := h.poison
        unfold Poison at hpo ⊢
        cases hpc : s.pc <;> rw [hpc] at hpo
        case joinO =>
          refine ⟨hpo.1, hpo.2.1, Or.inl ⟨by simp, ?_⟩⟩
          rcases hpo.2.2 with ⟨_, hl⟩ | ⟨hd, _⟩
          · exact hl
          · rw [hout] at hd; cases hd
        case done => rw [hout] at hpo; exact absurd hpo.2.2.1 (by simp)
        all_goals exact ⟨hpo.1, by simp, hpo.2.2⟩
      · exact fun hf => ⟨(h.raw hf).1.congr rfl, (h.raw hf).2⟩
    · cases hs

end Cdec.Klm.FilterThread
