import Verif.Klm.FilterThreadRun
import Verif.Klm.FilterThreadArpa
import Verif.Klm.FilterBuffer
/-!
# C96: the language model filter with several threads writes what it writes with one

`Verif/Klm/FilterThreadSpec.lean`: `events` is what one thread sends to the output, `Good` are the
sequences of calls that the controller copes with.
-/
namespace Cdec.Klm.FilterThread

variable {α β ε : Type}

/-- Under every schedule: no undefined behaviour (an empty stack, a batch below `base_sequence_`, a
missing front of `ordering_`), and what has been written is the beginning of what one thread writes. -/
theorem C96_safe {B Q W : Nat} (hB : 1 ≤ B) (hQ : 1 ≤ Q) (hW : 1 ≤ W) (f : α → List β) (cmds : List (Cmd α ε))
    (hg : Good B false 0 cmds) {s : St α β ε} (h : Reach B Q W f cmds s) :
    s.file <+: events f cmds ∧ ∀ t, step B Q f s t ≠ .bad := by
  obtain ⟨g, hi⟩ := reach_inv hB hQ hW hg h
  refine ⟨hi.prefix, fun t => ?_⟩
  cases t with
  | main => exact main_not_bad hi
  | worker i => exact worker_not_bad Q f i s
  | out => exact out_not_bad hi

/-! ## Races -/

/-- The batch whose buffers or sequence number the next step of the thread reads or writes. -/
def touches (s : St α β ε) : Thread → Nat → Prop
  | .main, b =>
    match s.pc with
    | .run (.add _ :: _) => b = s.cur
    | .send _ _ => b = s.cur
    | .fill _ => s.loc.head? = some b
    | _ => False
  | .worker i, b => s.workers[i]? = some (.got b)
  | .out, b => (s.out = .idle ∧ s.oq.head? = some (some b)) ∨ (s.out = .loop ∧ s.ordering.head? = some (some b))

/-- The next step of the thread writes to the output. -/
def writes (s : St α β ε) : Thread → Prop
  | .main => ∃ e cs, s.pc = .run (.emit e :: cs)
  | .worker _ => False
  | .out => s.out = .loop ∧ ∃ b, s.ordering.head? = some (some b)

/-- The thread is about to write to the output, or has just written and not yet gone on. -/
def usesOutput (s : St α β ε) : Thread → Prop
  | .main => ∃ e cs, s.pc = .run (.emit e :: cs)
  | .worker _ => False
  | .out => s.out = .flushed ∨ s.out = .loop ∧ ∃ b, s.ordering.head? = some (some b)

/-- What `touches` and `writes` say is true: nothing else changes. -/
theorem C96_frame {B Q : Nat} (f : α → List β) {s s' : St α β ε} {t : Thread} (h : step B Q f s t = .ok s') :
    (∀ b, ¬ touches s t b → s'.mem b = s.mem b) ∧ (¬ writes s t → s'.file = s.file) := by
  cases t with
  | main =>
    unfold step stepMain at h
    simp only [touches, writes] at h ⊢
    cases hpc : s.pc with
    | run cs =>
      rw [hpc] at h
      cases cs with
      | nil => simp only [Res.ok.injEq] at h; subst h; exact ⟨fun _ _ => rfl, fun _ => rfl⟩
      | cons c cs =>
        cases c with
        | add l =>
          simp only [Res.ok.injEq] at h; subst h
          exact ⟨fun b hb => by simp only at hb ⊢; simp [upd, hb], fun _ => rfl⟩
        | flush => simp only [Res.ok.injEq] at h; subst h; exact ⟨fun _ _ => rfl, fun _ => rfl⟩
        | emit e =>
          simp only [Res.ok.injEq] at h; subst h
          exact ⟨fun _ _ => rfl, fun hw => absurd ⟨e, cs, rfl⟩ hw⟩
    | send k cs =>
      rw [hpc] at h
      simp only at h
      split at h
      · simp only [Res.ok.injEq] at h; subst h; exact ⟨fun _ _ => rfl, fun _ => rfl⟩
      · cases hl : s.loc with
        | nil => rw [hl] at h; cases h
        | cons b rest =>
          rw [hl] at h
          simp only at h
          split at h
          · simp only [Res.ok.injEq] at h; subst h; exact ⟨fun _ _ => rfl, fun _ => rfl⟩
          · cases h
    | move k cs =>
      rw [hpc] at h
      simp only at h
      cases hr : s.rq with
      | nil => rw [hr] at h; cases h
      | cons b r => rw [hr] at h; simp only [Res.ok.injEq] at h; subst h; exact ⟨fun _ _ => rfl, fun _ => rfl⟩
    | drain cs =>
      rw [hpc] at h
      simp only at h
      split at h
      · cases hr : s.rq with
        | nil => rw [hr] at h; cases h
        | cons b r => rw [hr] at h; simp only [Res.ok.injEq] at h; subst h; exact ⟨fun _ _ => rfl, fun _ => rfl⟩
      · simp only [Res.ok.injEq] at h; subst h; exact ⟨fun _ _ => rfl, fun _ => rfl⟩
    | fill cs =>
      rw [hpc] at h
      simp only at h
      cases hl : s.loc with
      | nil => rw [hl] at h; cases h
      | cons b r =>
        rw [hl] at h
        simp only [Res.ok.injEq] at h; subst h
        refine ⟨fun a ha => ?_, fun _ => rfl⟩
        have : a ≠ b := fun he => ha (by simp [he])
        simp [upd, this]
    | kill n =>
      rw [hpc] at h
      cases n with
      | zero => simp only [Res.ok.injEq] at h; subst h; exact ⟨fun _ _ => rfl, fun _ => rfl⟩
      | succ n =>
        simp only at h
        split at h
        · simp only [Res.ok.injEq] at h; subst h; exact ⟨fun _ _ => rfl, fun _ => rfl⟩
        · cases h
    | joinF =>
      rw [hpc] at h
      simp only at h
      split at h
      · simp only [Res.ok.injEq] at h; subst h; exact ⟨fun _ _ => rfl, fun _ => rfl⟩
      · cases h
    | killO =>
      rw [hpc] at h
      simp only at h
      split at h
      · simp only [Res.ok.injEq] at h; subst h; exact ⟨fun _ _ => rfl, fun _ => rfl⟩
      · cases h
    | joinO =>
      rw [hpc] at h
      simp only at h
      split at h
      · simp only [Res.ok.injEq] at h; subst h; exact ⟨fun _ _ => rfl, fun _ => rfl⟩
      · cases h
    | done => rw [hpc] at h; cases h
  | worker i =>
    unfold step stepWorker at h
    simp only [touches, writes] at h ⊢
    cases hw : s.workers[i]? with
    | none => rw [hw] at h; cases h
    | some w =>
      rw [hw] at h
      cases w with
      | idle =>
        simp only at h
        cases hq : s.fq with
        | nil => rw [hq] at h; cases h
        | cons x q =>
          rw [hq] at h
          cases x <;> (simp only [Res.ok.injEq] at h; subst h; exact ⟨fun _ _ => rfl, fun _ => rfl⟩)
      | got b =>
        simp only [Res.ok.injEq] at h; subst h
        refine ⟨fun a ha => ?_, fun _ => rfl⟩
        have : a ≠ b := fun he => ha (by rw [he])
        simp [upd, this]
      | filtered b =>
        simp only at h
        split at h
        · simp only [Res.ok.injEq] at h; subst h; exact ⟨fun _ _ => rfl, fun _ => rfl⟩
        · cases h
      | dead => cases h
  | out =>
    unfold step stepOut at h
    simp only [touches, writes] at h ⊢
    cases hout : s.out with
    | idle =>
      rw [hout] at h
      simp only at h
      cases hq : s.oq with
      | nil => rw [hq] at h; cases h
      | cons x q =>
        rw [hq] at h
        cases x with
        | none => simp only [Res.ok.injEq] at h; subst h; exact ⟨fun _ _ => rfl, fun _ => rfl⟩
        | some b =>
          simp only at h
          split at h
          · cases h
          · simp only [Res.ok.injEq] at h; subst h; exact ⟨fun _ _ => rfl, fun _ => rfl⟩
    | loop =>
      rw [hout] at h
      simp only at h
      cases ho : s.ordering with
      | nil => rw [ho] at h; simp only [Res.ok.injEq] at h; subst h; exact ⟨fun _ _ => rfl, fun _ => rfl⟩
      | cons x o =>
        rw [ho] at h
        cases x with
        | none => simp only [Res.ok.injEq] at h; subst h; exact ⟨fun _ _ => rfl, fun _ => rfl⟩
        | some b =>
          simp only [Res.ok.injEq] at h; subst h
          refine ⟨fun a ha => ?_, fun hw => absurd ⟨rfl, b, rfl⟩ hw⟩
          have : a ≠ b := fun he => ha (Or.inr ⟨rfl, by rw [he]; rfl⟩)
          simp [upd, this]
    | flushed =>
      rw [hout] at h
      simp only at h
      cases ho : s.ordering with
      | nil => rw [ho] at h; cases h
      | cons x o =>
        rw [ho] at h
        cases x with
        | none => cases h
        | some b =>
          simp only at h
          split at h
          · simp only [Res.ok.injEq] at h; subst h; exact ⟨fun _ _ => rfl, fun _ => rfl⟩
          · cases h
    | dead => rw [hout] at h; cases h

/-- No two threads are about to use the same batch, and the reading thread writes to the output only
when the output worker does not. -/
theorem C96_race {B Q W : Nat} (hB : 1 ≤ B) (hQ : 1 ≤ Q) (hW : 1 ≤ W) (f : α → List β) (cmds : List (Cmd α ε))
    (hg : Good B false 0 cmds) {s : St α β ε} (h : Reach B Q W f cmds s) :
    (∀ t t' b, touches s t b → touches s t' b → t = t') ∧ ¬ (usesOutput s .main ∧ usesOutput s .out) := by
  obtain ⟨g, hi⟩ := reach_inv hB hQ hW hg h
  have hmain : ∀ b, touches s .main b → b ∈ s.loc := by
    intro b hb
    have hp := hi.pcOk
    unfold PcOk at hp
    unfold touches at hb
    simp only at hb
    cases hpc : s.pc with
    | run cs =>
      rw [hpc] at hp hb
      cases cs with
      | nil => exact hb.elim
      | cons c cs =>
        cases c with
        | add l => rw [show b = s.cur from hb]; exact List.mem_of_mem_head? hp.1
        | flush => exact hb.elim
        | emit e => exact hb.elim
    | send k cs =>
      rw [hpc] at hp hb
      rw [show b = s.cur from hb]
      cases k <;> exact List.mem_of_mem_head? hp.1
    | fill cs => rw [hpc] at hb; exact List.mem_of_mem_head? hb
    | move k cs => rw [hpc] at hb; exact hb.elim
    | drain cs => rw [hpc] at hb; exact hb.elim
    | kill n => rw [hpc] at hb; exact hb.elim
    | joinF => rw [hpc] at hb; exact hb.elim
    | killO => rw [hpc] at hb; exact hb.elim
    | joinO => rw [hpc] at hb; exact hb.elim
    | done => rw [hpc] at hb; exact hb.elim
  have hwk : ∀ i b, touches s (.worker i) b → InF s b := by
    intro i b hb
    exact Or.inr (Or.inl ⟨_, List.mem_of_getElem? hb, rfl⟩)
  have hout : ∀ b, touches s .out b → some b ∈ s.oq ∨ some b ∈ s.ordering := by
    intro b hb
    rcases hb with ⟨_, hb⟩ | ⟨_, hb⟩
    · exact Or.inl (List.mem_of_mem_head? hb)
    · exact Or.inr (List.mem_of_mem_head? hb)
  have hout' : ∀ b, touches s .out b → InF s b := by
    intro b hb
    rcases hout b hb with hb | hb
    · exact Or.inr (Or.inr (Or.inl hb))
    · exact Or.inr (Or.inr (Or.inr hb))
  have hwo : ∀ i b, touches s (.worker i) b → touches s .out b → False := by
    intro i b h1 h2
    have hu := hi.uniq b
    have a1 : 1 ≤ (s.workers.filterMap Wk.held).count b := pos_of_mem (mem_held.mpr ⟨_, List.mem_of_getElem? h1, rfl⟩)
    unfold cnt at hu
    rcases hout b h2 with h2 | h2
    · have := pos_of_mem (mem_fm.mpr h2); omega
    · have := pos_of_mem (mem_fm.mpr h2); omega
  refine ⟨?_, ?_⟩
  · intro t t' b h1 h2
    cases t with
    | main =>
      have hl := hi.loc_notInF (Or.inl (hmain b h1))
      cases t' with
      | main => rfl
      | worker i => exact absurd (hwk i b h2) hl
      | out => exact absurd (hout' b h2) hl
    | worker i =>
      cases t' with
      | main => exact absurd (hwk i b h1) (hi.loc_notInF (Or.inl (hmain b h2)))
      | worker j =>
        by_cases hij : i = j
        · rw [hij]
        · exfalso
          have hu := hi.uniq b
          have key : ∀ (l : List Wk) (i j : Nat), i ≠ j → l[i]? = some (Wk.got b) → l[j]? = some (Wk.got b) →
              2 ≤ (l.filterMap Wk.held).count b := by
            intro l
            induction l with
            | nil => intro i j _ h1; simp at h1
            | cons w l ih =>
              intro i j hne h1 h2
              have one : ∀ k : Nat, l[k]? = some (Wk.got b) → 1 ≤ (l.filterMap Wk.held).count b := fun k hk =>
                pos_of_mem (mem_held.mpr ⟨_, List.mem_of_getElem? hk, rfl⟩)
              cases i with
              | zero =>
                cases j with
                | zero => exact absurd rfl hne
                | succ j =>
                  simp only [List.getElem?_cons_zero, Option.some.injEq] at h1
                  have := one j (by simpa using h2)
                  rw [h1, List.filterMap_cons]
                  simp only [Wk.held, List.count_cons_self]
                  omega
              | succ i =>
                cases j with
                | zero =>
                  simp only [List.getElem?_cons_zero, Option.some.injEq] at h2
                  have := one i (by simpa using h1)
                  rw [h2, List.filterMap_cons]
                  simp only [Wk.held, List.count_cons_self]
                  omega
                | succ j =>
                  have := ih i j (by omega) (by simpa using h1) (by simpa using h2)
                  rw [List.filterMap_cons]
                  split
                  · exact this
                  · rw [List.count_cons]; omega
          have := key s.workers i j hij h1 h2
          unfold cnt at hu
          omega
      | out => exact (hwo i b h1 h2).elim
    | out =>
      cases t' with
      | main => exact absurd (hout' b h1) (hi.loc_notInF (Or.inl (hmain b h2)))
      | worker i => exact (hwo i b h2 h1).elim
      | out => rfl
  · rintro ⟨⟨e, cs, hpc⟩, ho⟩
    have hp := hi.pcOk
    unfold PcOk at hp
    rw [hpc] at hp
    have hno := (hp.2.2.2.2.2.2 hp.2.2.2.1.1.1).2.1
    rcases ho with ho | ⟨_, b, hb⟩
    · obtain ⟨b, o, e⟩ := hi.flushedHd ho
      exact hno b (Or.inr (Or.inr (Or.inr (by rw [e]; simp))))
    · exact hno b (Or.inr (Or.inr (Or.inr (List.mem_of_mem_head? hb))))

/-! ## Ends -/

/-- Every schedule ends: there is no infinite run from any state. -/
theorem C96_terminates (B Q : Nat) (f : α → List β) :
    WellFounded fun (s' s : St α β ε) => ∃ t, step B Q f s t = .ok s' :=
  Subrelation.wf (fun ⟨_, h⟩ => step_work h) (InvImage.wf work Nat.lt_wfRel.wf)

/-- No deadlock: as long as the reading thread has not ended some thread can go on. -/
theorem C96_progress {B Q W : Nat} (hB : 1 ≤ B) (hQ : 1 ≤ Q) (hW : 1 ≤ W) (f : α → List β) (cmds : List (Cmd α ε))
    (hg : Good B false 0 cmds) {s : St α β ε} (h : Reach B Q W f cmds s) (hd : s.pc ≠ .done) :
    ∃ t s', step B Q f s t = .ok s' := by
  obtain ⟨g, hi⟩ := reach_inv hB hQ hW hg h
  exact inv_progress hB hQ hW hi hd

/-- When no thread can go on, the reading thread has ended, and what has been written is what one
thread writes, but for fewer than `B` lines in the last batch, and for none when `Flush` came after
the last line. -/
theorem C96_complete {B Q W : Nat} (hB : 1 ≤ B) (hQ : 1 ≤ Q) (hW : 1 ≤ W) (f : α → List β) (cmds : List (Cmd α ε))
    (hg : Good B false 0 cmds) {s : St α β ε} (h : Reach B Q W f cmds s) (hs : ∀ t s', step B Q f s t ≠ .ok s') :
    s.pc = .done ∧ ∃ pend : List α, events f cmds = s.file ++ (pend.flatMap f).map .call ∧ pend.length < B ∧
      (fin false cmds = false → pend = []) := by
  obtain ⟨g, hi⟩ := reach_inv hB hQ hW hg h
  have hd : s.pc = .done := by
    by_contra hn
    obtain ⟨t, s', hts⟩ := inv_progress hB hQ hW hi hn
    exact hs t s' hts
  obtain ⟨h1, pend, h2, h3, h4⟩ := hi.final hd
  refine ⟨hd, pend, ?_, h3, h4⟩
  rw [h2.events f, h1, expand_append, expand_calls]
  simp [events, calls]

/-! ## ARPA files -/

theorem good_adds {B : Nat} (hB : 1 ≤ B) (ls : List α) (cs : List (Cmd α ε)) (d : Bool) (k : Nat) (hk : k < B)
    (h : ∀ d', Good B d' ((k + ls.length) % B) cs) : Good B d k (ls.map .add ++ cs) := by
  induction ls generalizing d k with
  | nil => simpa [Nat.mod_eq_of_lt hk] using h d
  | cons l ls ih =>
    simp only [List.map_cons, List.cons_append, Good]
    refine ih true ((k + 1) % B) (Nat.mod_lt _ (by omega)) (fun d' => ?_)
    have := h d'
    rw [show ((k + 1) % B + ls.length) % B = (k + (l :: ls).length) % B by
      rw [Nat.mod_add_mod, List.length_cons]; congr 1; omega]
    exact this

theorem noAdd_sections (secs : List (List Filter.Txt)) (i : Nat) (h : ∀ s ∈ secs, s = []) : NoAdd (sectionCmds i secs) := by
  induction secs generalizing i with
  | nil => intro l hl; simp [sectionCmds] at hl
  | cons s secs ih =>
    intro l hl
    have hs : s = [] := h s (by simp)
    subst hs
    simp only [sectionCmds, List.map_nil, List.nil_append, List.mem_cons, reduceCtorEq, false_or] at hl
    exact ih (i + 1) (fun s hs => h s (by simp [hs])) l hl

theorem good_sections {B : Nat} (hB : 1 ≤ B) (secs : List (List Filter.Txt)) (i : Nat)
    (h : ∀ pre s post, secs = pre ++ s :: post → s.length % B = 0 → ∀ r ∈ post, r = []) :
    Good B false 0 (sectionCmds i secs) := by
  induction secs generalizing i with
  | nil => exact ⟨rfl, trivial⟩
  | cons s secs ih =>
    refine ⟨rfl, good_adds hB s _ _ _ (by omega) (fun d' => ⟨?_, rfl, ih (i + 1) ?_⟩)⟩
    · rw [Nat.zero_add]
      by_cases hm : s.length % B = 0
      · right
        intro l hl
        simp only [List.mem_cons, reduceCtorEq, false_or] at hl
        exact noAdd_sections secs _ (h [] s secs rfl hm) l hl
      · exact Or.inl hm
    · intro pre s' post he
      exact h (s :: pre) s' post (by rw [he]; rfl)

theorem fin_adds (ls : List α) (cs : List (Cmd α ε)) (d : Bool) : fin d (ls.map .add ++ .flush :: cs) = fin false cs := by
  induction ls generalizing d with
  | nil => rfl
  | cons l ls ih => exact ih true

theorem fin_sections (secs : List (List Filter.Txt)) (i : Nat) : fin false (sectionCmds i secs) = false := by
  induction secs generalizing i with
  | nil => rfl
  | cons s secs ih =>
    simp only [sectionCmds, fin, fin_adds]
    exact ih (i + 1)

theorem events_adds (f : α → List β) (ls : List α) (cs : List (Cmd α ε)) :
    events f (ls.map .add ++ cs) = (ls.flatMap f).map .call ++ events f cs := by
  induction ls with
  | nil => rfl
  | cons l ls ih => simp [events, ih]

section
open Cdec.Klm.Filter

theorem doEvs_append (files : List ArpaOut) (a b : List (Ev Call ArpaEv)) :
    doEvs files (a ++ b) = (doEvs files a).bind (doEvs · b) := by
  induction a generalizing files with
  | nil => rfl
  | cons e a ih =>
    simp only [List.cons_append, doEvs]
    cases doEv files e with
    | none => rfl
    | some fs => simp [ih]

theorem doEvs_calls (files : List ArpaOut) (cs : List Call) : doEvs files (cs.map .call) = doCalls files cs := by
  induction cs generalizing files with
  | nil => rfl
  | cons c cs ih =>
    simp only [List.map_cons, doEvs, doCalls, doEv]
    cases doCall files c with
    | none => rfl
    | some fs => simp [ih]

theorem doCalls_append (files : List ArpaOut) (a b : List Call) : doCalls files (a ++ b) = (doCalls files a).bind (doCalls · b) := by
  induction a generalizing files with
  | nil => rfl
  | cons c a ih =>
    simp only [List.cons_append, doCalls]
    cases doCall files c with
    | none => rfl
    | some fs => simp [ih]

/-- `f` is what the filter calls for a line. -/
def Calls (flt : Flt) (f : Txt → List Call) (line : Txt) : Prop :=
  ∃ g, ngramOf false line = some g ∧ flt g line = some (f line)

theorem addLines_calls (flt : Flt) (f : Txt → List Call) (lines : List Txt) (h : ∀ l ∈ lines, Calls flt f l)
    (files : List ArpaOut) : addLines false flt files lines = doCalls files (lines.flatMap f) := by
  induction lines generalizing files with
  | nil => rfl
  | cons l ls ih =>
    obtain ⟨g, h1, h2⟩ := h l (by simp)
    simp only [addLines, h1, h2, List.flatMap_cons, doCalls_append]
    cases doCalls files (f l) with
    | none => rfl
    | some fs => exact ih (fun l hl => h l (by simp [hl])) fs

theorem addSections_events (flt : Flt) (f : Txt → List Call) (secs : List (List Txt))
    (h : ∀ s ∈ secs, ∀ l ∈ s, Calls flt f l) (files : List ArpaOut) (i : Nat) :
    (doEvs files (events f (sectionCmds i secs))).map (·.map ArpaOut.file) =
      (addSections flt files i secs).map (fun files => files.map ArpaOut.finish) := by
  induction secs generalizing files i with
  | nil => simp [sectionCmds, events, doEvs, doEv, addSections, Function.comp_def]
  | cons s secs ih =>
    simp only [sectionCmds, events, events_adds, doEvs, doEv, Option.bind_some, addSections]
    rw [doEvs_append, doEvs_calls, addLines_calls flt f s (h s (by simp))]
    cases doCalls (files.map (·.beginLength (i + 1))) (s.flatMap f) with
    | none => rfl
    | some fs =>
      simp only [Option.bind_some, doEvs, doEv]
      exact ih (fun s hs => h s (by simp [hs])) _ _

/-- An ARPA file in which no section whose length is a multiple of the batch size comes before a
section with n-grams: under every schedule the run ends, and the output files are those that the
filter writes without threads (`filterArpa`, the subject of property C95).  Partial: the property asks for
this for every ARPA file, but for the other files the program hangs (`C96_hang_fails`). -/
theorem C96_arpa_partial {B Q W : Nat} (hB : 1 ≤ B) (hQ : 1 ≤ Q) (hW : 1 ≤ W) (flt : Flt) (f : Txt → List Call)
    (sections : List (List Txt)) (hf : ∀ s ∈ sections, ∀ l ∈ s, Calls flt f l)
    (hs : ∀ pre s post, sections = pre ++ s :: post → s.length % B = 0 → ∀ r ∈ post, r = [])
    {s : St Txt Call ArpaEv} (h : Reach B Q W f (arpaCmds sections) s) (hend : ∀ t s', step B Q f s t ≠ .ok s') (n : Nat) :
    s.pc = .done ∧
      (doEvs (List.replicate n (ArpaOut.mk [] 0 [])) s.file).map (·.map ArpaOut.file) = filterArpa flt n sections := by
  have hg : Good B false 0 (arpaCmds sections) := ⟨rfl, good_sections hB sections 0 hs⟩
  obtain ⟨h1, pend, h2, _, h4⟩ := C96_complete hB hQ hW f _ hg h hend
  refine ⟨h1, ?_⟩
  rw [h4 (fin_sections sections 0)] at h2
  simp only [List.flatMap_nil, List.map_nil, List.append_nil] at h2
  rw [← h2, filterArpa, arpaCmds, events, doEvs]
  simp only [doEv, Option.bind_some]
  exact addSections_events flt f sections hf _ 0

end

/-! ## Files of counts -/

theorem good_raw {B : Nat} (hB : 1 ≤ B) (lines : List α) : Good B false 0 (rawCmds lines : List (Cmd α ε)) := by
  have := good_adds (ε := ε) hB lines [] false 0 (by omega) (fun _ => trivial)
  simpa [rawCmds] using this

theorem flatten_len {B : Nat} {P : List (List α)} (h : ∀ ls ∈ P, ls.length = B) : P.flatten.length % B = 0 := by
  induction P with
  | nil => simp
  | cons a P ih =>
    have h1 := h a (by simp)
    have h2 := ih (fun ls hl => h ls (by simp [hl]))
    rw [List.flatten_cons, List.length_append, h1, Nat.add_mod_left, h2]

theorem map_call_inj {a b : List α} (h : a.map (Ev.call (ε := ε)) = b.map .call) : a = b :=
  List.map_injective_iff.mpr (fun _ _ h => by cases h; rfl) h

/-- A file of counts: the lines of full batches are written, in order, and the last `n mod B` lines
are not. -/
theorem C96_raw {B Q W : Nat} (hB : 1 ≤ B) (hQ : 1 ≤ Q) (hW : 1 ≤ W) (f : α → List β) (lines : List α)
    {s : St α β ε} (h : Reach B Q W f (rawCmds lines) s) (hs : ∀ t s', step B Q f s t ≠ .ok s') :
    s.pc = .done ∧ s.file = ((lines.take (lines.length - lines.length % B)).flatMap f).map .call := by
  have hg : Good B false 0 (rawCmds lines : List (Cmd α ε)) := good_raw hB lines
  obtain ⟨g, hi⟩ := reach_inv hB hQ hW hg h
  have hd := (C96_complete hB hQ hW f _ hg h hs).1
  refine ⟨hd, ?_⟩
  obtain ⟨h1, pend, h2, h3, _⟩ := hi.final hd
  have hnf : NoFlush (rawCmds lines : List (Cmd α ε)) := by
    intro hm
    simp [rawCmds] at hm
  obtain ⟨_, hP, hpre⟩ := hi.raw hnf
  have hsym : sym (rawCmds lines : List (Cmd α ε)) = lines.map .call := by
    clear * -
    induction lines with
    | nil => rfl
    | cons l ls ih => simp only [rawCmds, List.map_cons, sym] at ih ⊢; rw [ih]
  unfold Whole at h2
  rw [hsym] at h2
  simp only [sym, List.append_nil] at h2
  have hnil : g.pre = [] := by
    cases hp : g.pre with
    | nil => rfl
    | cons e es =>
      have hm : e ∈ lines.map (Ev.call (ε := ε)) := by rw [h2, hp]; simp
      rw [List.mem_map] at hm
      obtain ⟨l, _, hl⟩ := hm
      exact absurd (by rw [hp, ← hl]; simp) (hpre l)
  rw [hnil, List.nil_append, ← List.map_append] at h2
  have hl := map_call_inj h2
  have hlen := flatten_len hP
  rw [h1, hnil, List.nil_append, expand_calls]
  have e1 : lines.length % B = pend.length := by
    rw [hl, List.length_append, Nat.add_mod, hlen, Nat.zero_add, Nat.mod_mod, Nat.mod_eq_of_lt h3]
  rw [e1, hl, List.length_append, Nat.add_sub_cancel, List.take_left]
  rfl

/-- So a file of counts is not filtered as it is by one thread: a line that the filter keeps in a
file with fewer lines than a batch is never written. -/
theorem C96_raw_fails {B Q W : Nat} (hB : 1 ≤ B) (hQ : 1 ≤ Q) (hW : 1 ≤ W) (f : α → List β) (lines : List α)
    (hlen : lines.length < B) {s : St α β ε} (h : Reach B Q W f (rawCmds lines) s)
    (hs : ∀ t s', step B Q f s t ≠ .ok s') : s.file = [] ∧ events f (rawCmds lines : List (Cmd α ε)) = (lines.flatMap f).map .call := by
  refine ⟨?_, ?_⟩
  · rw [(C96_raw hB hQ hW f lines h hs).2, Nat.mod_eq_of_lt hlen, Nat.sub_self]
    rfl
  · have := events_adds f lines ([] : List (Cmd α ε))
    simpa [rawCmds, events] using this

/-! ## The deadlock -/

/-- A schedule. -/
def play (B Q : Nat) (f : α → List β) : List Thread → St α β ε → Option (St α β ε)
  | [], s => some s
  | t :: ts, s => match step B Q f s t with
    | .ok s' => play B Q f ts s'
    | _ => none

theorem play_reach {B Q W : Nat} {f : α → List β} {cmds : List (Cmd α ε)} (ts : List Thread) {s s' : St α β ε}
    (h : Reach B Q W f cmds s) (hp : play B Q f ts s = some s') : Reach B Q W f cmds s' := by
  induction ts generalizing s with
  | nil => cases hp; exact h
  | cons t ts ih =>
    simp only [play] at hp
    cases ht : step B Q f s t with
    | ok s1 => rw [ht] at hp; exact ih (.step t h ht) hp
    | blocked => rw [ht] at hp; cases hp
    | bad => rw [ht] at hp; cases hp

def Res.isBlocked {σ : Type} : Res σ → Bool
  | .blocked => true
  | _ => false

/-- Two sections of one line each, with batches of one line. -/
def hangCmds : List (Cmd Nat Unit) := [.add 1, .flush, .emit (), .add 2, .flush, .emit ()]

def hangSchedule : List Thread :=
  let send : List Thread := [.main, .main, .main, .main, .main]
  let out : List Thread := [.worker 0, .worker 0, .worker 0, .out]
  .main :: send ++ out ++ [.out, .out, .out] ++ [.main, .main, .main, .main] ++ send ++ out ++ [.out]

/-- The number of lines of a section is a multiple of the batch size and another section follows:
the filter hangs.  `Flush` finds the batch empty, `NewInput` uses up another sequence number, and the
output worker waits for the one that was left out. -/
theorem C96_hang_fails : ∃ s : St Nat Nat Unit, Reach 1 4 2 (fun l => [l]) hangCmds s ∧ s.pc ≠ .done ∧
    (∀ t s', step 1 4 (fun l => [l]) s t ≠ .ok s') ∧ s.file ≠ events (fun l => [l]) hangCmds := by
  have hx : ((play 1 4 (fun l => [l]) hangSchedule (init 4 2 hangCmds : St Nat Nat Unit)).map fun s =>
      decide (s.workers = [.idle, .idle]) && decide (s.fq = []) && (stepMain 1 4 s).isBlocked && (stepOut 4 s).isBlocked &&
        (match s.pc with | .drain _ => true | _ => false) &&
        decide (s.file ≠ events (fun l => [l]) hangCmds)) = some true := by decide
  cases hp : play 1 4 (fun l => [l]) hangSchedule (init 4 2 hangCmds : St Nat Nat Unit) with
  | none => rw [hp] at hx; cases hx
  | some s =>
    rw [hp] at hx
    simp only [Option.map_some, Option.some.injEq, Bool.and_eq_true, decide_eq_true_eq] at hx
    obtain ⟨⟨⟨⟨⟨h1, h2⟩, h3⟩, h4⟩, h5⟩, h6⟩ := hx
    refine ⟨s, play_reach _ .init hp, ?_, ?_, h6⟩
    · intro hd; rw [hd] at h5; cases h5
    · intro t s' hs
      cases t with
      | main => rw [show stepMain 1 4 s = .ok s' from hs] at h3; cases h3
      | worker i =>
        unfold step stepWorker at hs
        simp only at hs
        cases hw : s.workers[i]? with
        | none => rw [hw] at hs; cases hs
        | some w =>
          rw [hw, h2] at hs
          have hm := List.mem_of_getElem? hw
          rw [h1] at hm
          simp at hm
          subst hm
          cases hs
      | out => rw [show stepOut 4 s = .ok s' from hs] at h4; cases h4

/-! ## Cases -/

/-- Two sections, the first with 3 lines and batches of 2. -/
def goodCmds : List (Cmd Nat Unit) := [.emit (), .add 1, .add 2, .add 3, .flush, .emit (), .add 4, .flush, .emit ()]

example : Good 2 false 0 goodCmds := by
  simp [goodCmds, Good]

/-- Two workers overtake each other, and the output is in order. -/
def goodSchedule : List Thread :=
  [.main, .main, .main, .main, .main, .main, .main, .main, .main,
   .worker 0, .worker 1, .worker 1, .worker 1, .out, .out, .worker 0, .worker 0, .out, .out, .out, .out, .out, .out,
   .main, .main, .main, .main, .main, .main, .main, .main,
   .worker 1, .worker 1, .worker 1, .out, .out, .out, .out, .main, .main, .main, .main,
   .main, .main, .main, .worker 0, .worker 1, .main, .main, .main, .out, .main]

example : (play 2 4 (fun l => [l]) goodSchedule (init 4 2 goodCmds : St Nat Nat Unit)).map
    (fun s => (s.file, match s.pc with | .done => true | _ => false)) =
    some ([.main (), .call 1, .call 2, .call 3, .main (), .call 4, .main ()], true) := by decide

example : ∀ pre s post, [["a".toList, "b".toList, "c".toList], ["d".toList], []] = pre ++ s :: post → s.length % 2 = 0 →
    ∀ r ∈ post, r = ([] : List Filter.Txt) := by
  intro pre s post h hl
  rcases pre with _ | ⟨_, _ | ⟨_, _ | ⟨_, pre⟩⟩⟩
  · simp at h; rw [← h.1] at hl; simp at hl
  · simp at h; rw [← h.2.1] at hl; simp at hl
  · simp at h; rw [h.2.2.2]; simp
  · simp at h

end Cdec.Klm.FilterThread

/-! ## The output buffer in mode `multiple` -/
namespace Cdec.Klm.FilterBuffer
open Cdec.Klm.Filter (Call Txt)

theorem adds_more (b : Buf) (l : Piece) (ss : List Nat) (x : Piece) (an : List (List Nat × Piece)) (files : List Nat)
    (hb : b = ⟨an ++ [(ss, x)], some (l.addr, l.text.length)⟩) :
    files.foldlM (fun b j => b.addSingle j l) b = some ⟨an ++ [(ss ++ files, x)], some (l.addr, l.text.length)⟩ := by
  induction files generalizing b ss with
  | nil => simp [hb]
  | cons j files ih =>
    subst hb
    have h1 : Buf.addSingle ⟨an ++ [(ss, x)], some (l.addr, l.text.length)⟩ j l =
        some ⟨an ++ [(ss ++ [j], x)], some (l.addr, l.text.length)⟩ := by
      simp only [Buf.addSingle, if_true, List.getLast?_concat, List.dropLast_concat]
    simp only [List.foldlM_cons, h1]
    have := ih ⟨an ++ [(ss ++ [j], x)], some (l.addr, l.text.length)⟩ (ss ++ [j]) rfl
    simpa using this

/-- A buffer that has never been used for another batch gives back the calls of the filter: when its
last line is none of the lines of the batch, and these have different addresses. -/
theorem C96_buffer (ls : List (Piece × To)) (b : Buf) (hn : (ls.map (·.1.addr)).Nodup)
    (hl : ∀ p ∈ ls, ∀ n, b.last ≠ some (p.1.addr, n)) :
    ∃ b', b.adds ls = some b' ∧ b'.flush.1 = b.flush.1 ++ direct ls ∧ b'.flush.2.annotated = [] := by
  induction ls generalizing b with
  | nil => exact ⟨b, rfl, by simp [direct], rfl⟩
  | cons p ls ih =>
    obtain ⟨l, t⟩ := p
    simp only [List.map_cons, List.nodup_cons] at hn
    have hrest : ∀ p ∈ ls, ∀ n, b.last ≠ some (p.1.addr, n) := fun p hp => hl p (by simp [hp])
    cases t with
    | all =>
      obtain ⟨b', h1, h2, h3⟩ := ih (b.addAll l) hn.2 hrest
      exact ⟨b', h1, by rw [h2]; simp [Buf.flush, Buf.addAll, direct], h3⟩
    | some files =>
      cases files with
      | nil =>
        obtain ⟨b', h1, h2, h3⟩ := ih b hn.2 hrest
        exact ⟨b', h1, by rw [h2]; simp [direct], h3⟩
      | cons j files =>
        have hadd : b.add l (.some (j :: files)) = some ⟨b.annotated ++ [(j :: files, l)], some (l.addr, l.text.length)⟩ := by
          have h0 : b.addSingle j l = some ⟨b.annotated ++ [([j], l)], some (l.addr, l.text.length)⟩ := by
            unfold Buf.addSingle
            rw [if_neg (fun h => hl (l, .some (j :: files)) (by simp) l.text.length h.symm)]
          simp only [Buf.add, List.foldlM_cons, h0]
          exact adds_more _ l [j] l b.annotated files rfl
        obtain ⟨b', h1, h2, h3⟩ := ih ⟨b.annotated ++ [(j :: files, l)], some (l.addr, l.text.length)⟩ hn.2 (by
          intro p hp n he
          simp only [Option.some.injEq, Prod.mk.injEq] at he
          exact hn.1 (List.mem_map.mpr ⟨p, hp, he.1.symm⟩))
        refine ⟨b', ?_, by rw [h2]; simp [Buf.flush, direct], h3⟩
        simp only [Buf.adds, hadd, Option.bind_some]
        exact h1

/-- The first batch. -/
theorem C96_buffer_new (ls : List (Piece × To)) (hn : (ls.map (·.1.addr)).Nodup) :
    ∃ b', Buf.new.adds ls = some b' ∧ b'.flush.1 = direct ls := by
  obtain ⟨b', h1, h2, _⟩ := C96_buffer ls Buf.new hn (by intro p _ n h; cases h)
  exact ⟨b', h1, by rw [h2]; rfl⟩

/-- A buffer that is used again: `Flush` leaves `last_`, and a line of the same length in the same
slot is taken for the one before.  The first case reads the last element of an empty vector; in the
second a line that goes to all files goes to file 7 only, and the line of file 7 is lost. -/
theorem C96_buffer_fails :
    (∃ b : Buf, Buf.new.adds [(⟨1, "ab".toList⟩, .some [0])] = some b ∧
      b.flush.2.adds [(⟨1, "cd".toList⟩, .some [0])] = none) ∧
    (∃ b b' : Buf, Buf.new.adds [(⟨1, "x".toList⟩, .all), (⟨2, "ab".toList⟩, .some [0])] = some b ∧
      b.flush.2.adds [(⟨1, "y".toList⟩, .all), (⟨2, "cd".toList⟩, .some [7])] = some b' ∧
      b'.flush.1 = [.one 7 "y".toList]) := by
  refine ⟨⟨_, rfl, by decide⟩, ⟨_, _, rfl, rfl, by decide⟩⟩

example : (([(⟨1, "x".toList⟩, .all), (⟨2, "ab".toList⟩, .some [0, 3]), (⟨3, "".toList⟩, .some [])] : List (Piece × To)).map
    (·.1.addr)).Nodup := by decide

end Cdec.Klm.FilterBuffer
