import Verif.Klm.ChainInv
/-!
# Every step keeps the invariant of a chain
-/
namespace Cdec.Klm.Chain
variable {σ γ : Type} {W B : Nat} {f : Nat → σ → γ → σ × γ} {st₀ : Nat → σ} {src₀ : List γ} {P : γ → Prop} {s : St σ γ}

theorem conts_upd (mem : Nat → γ) (b : Nat) (x : γ) (l : List (Option Nat)) (h : b ∉ l.filterMap id) :
    conts (upd mem b x) l = conts mem l := by
  unfold conts
  apply List.map_congr_left
  intro a ha
  exact upd_ne _ _ (fun e => h (e ▸ ha))

theorem work_upd {f : σ → γ → σ × γ} {s₀ : σ} {mem : Nat → γ} {pc : Pc} {st : σ} {seen sent : List γ} (b : Nat) (x : γ)
    (h : b ∉ pc.held) (hw : Work f s₀ mem pc st seen sent) : Work f s₀ (upd mem b x) pc st seen sent := by
  cases pc with
  | «have» c =>
    have : c ≠ b := fun e => h (by simp [Pc.held, e])
    simpa [Work, upd_ne mem x this] using hw
  | send c =>
    have : c ≠ b := fun e => h (by simp [Pc.held, e])
    simpa [Work, upd_ne mem x this] using hw
  | wait => exact hw
  | poison => exact hw
  | done => exact hw

theorem open_cons {b : Option Nat} {r : List (Option Nat)} (h : Open (b :: r)) : Open r ∧ ∃ c, b = some c := by
  obtain ⟨bs, h⟩ := h
  cases bs with
  | nil => simp at h
  | cons c bs => simp at h; exact ⟨⟨bs, h.2⟩, c, h.1⟩

theorem closed_cons {b : Option Nat} {r : List (Option Nat)} (h : Closed (b :: r)) :
    (b = none ∧ r = []) ∨ (Closed r ∧ ∃ c, b = some c) := by
  obtain ⟨bs, h⟩ := h
  cases bs with
  | nil => simp at h; exact Or.inl h
  | cons c bs => simp at h; exact Or.inr ⟨⟨bs, h.2⟩, c, h.1⟩

theorem open_snoc {l : List (Option Nat)} (b : Nat) (h : Open l) : Open (l ++ [some b]) := by
  obtain ⟨bs, h⟩ := h; exact ⟨bs ++ [b], by simp [h]⟩

theorem closed_snoc {l : List (Option Nat)} (h : Open l) : Closed (l ++ [none]) := by
  obtain ⟨bs, h⟩ := h; exact ⟨bs, by rw [h]⟩

theorem nxt_lt (hW : 2 ≤ W) {i : Nat} (hi : i < W) : nxt W i < W := by unfold nxt; split <;> omega
theorem nxt_ne (hW : 2 ≤ W) {i : Nat} (hi : i < W) : nxt W i ≠ i := by unfold nxt; split <;> omega
theorem nxt_eq {i j : Nat} (h : nxt W i = j + 1) : i = j := by unfold nxt at h; split at h <;> omega
theorem nxt_succ {i : Nat} (h : i + 1 < W) : nxt W i = i + 1 := by unfold nxt; split <;> omega
theorem nxt_zero {i : Nat} (hi : i < W) (h : nxt W i = 0) : i = W - 1 := by unfold nxt at h; split at h <;> omega
theorem nxt_last (hW : 2 ≤ W) : nxt W (W - 1) = 0 := by unfold nxt; split <;> omega

/-- A worker that is about to consume or holds a block has not ended. -/
theorem Inv.consume (hW : 2 ≤ W) (h : Inv W B f st₀ src₀ P s) {i : Nat} (hi : i < W) (hpc : s.pc i = .wait) {b : Nat}
    {r : List (Option Nat)} (hq : s.q i = some b :: r) :
    Inv W B f st₀ src₀ P { s with q := upd s.q i r, pc := upd s.pc i (.have b), seen := upd s.seen i (s.seen i ++ [s.mem b]) } := by
  obtain ⟨s', hs'⟩ : ∃ s' : St σ γ, s' = { s with q := upd s.q i r, pc := upd s.pc i (.have b), seen := upd s.seen i (s.seen i ++ [s.mem b]) } := ⟨_, rfl⟩
  rw [← hs']
  have q1 : s'.q i = r := by rw [hs']; exact upd_same _ _ _
  have q2 : ∀ j, j ≠ i → s'.q j = s.q j := fun j hj => by rw [hs']; exact upd_ne _ _ hj
  have p1 : s'.pc i = .have b := by rw [hs']; exact upd_same _ _ _
  have p2 : ∀ j, j ≠ i → s'.pc j = s.pc j := fun j hj => by rw [hs']; exact upd_ne _ _ hj
  have e1 : s'.seen i = s.seen i ++ [s.mem b] := by rw [hs']; exact upd_same _ _ _
  have e2 : ∀ j, j ≠ i → s'.seen j = s.seen j := fun j hj => by rw [hs']; exact upd_ne _ _ hj
  have m : s'.mem = s.mem := by rw [hs']
  have t : s'.st = s.st := by rw [hs']
  have c : s'.src = s.src := by rw [hs']
  have n : s'.main = s.main := by rw [hs']
  have x : s'.sent = s.sent := by rw [hs']
  have g1 : seg s i = b :: r.filterMap id := by simp [seg, hq, hpc, Pc.held]
  have g2 : seg s' i = r.filterMap id ++ [b] := by simp [seg, q1, p1, Pc.held]
  have g3 : ∀ j, j ≠ i → seg s' j = seg s j := fun j hj => by simp [seg, q2 j hj, p2 j hj]
  have gm : ∀ j a, a ∈ seg s' j ↔ a ∈ seg s j := by
    intro j a
    by_cases hj : j = i
    · subst hj; rw [g1, g2]; simp [or_comm]
    · rw [g3 j hj]
  have pd : ∀ j, s'.pc j = .done ↔ s.pc j = .done := by
    intro j
    by_cases hj : j = i
    · subst hj; rw [p1, hpc]; simp
    · rw [p2 j hj]
  have pe : ∀ j, Ended (s'.pc j) ↔ Ended (s.pc j) := by
    intro j
    by_cases hj : j = i
    · subst hj; rw [p1, hpc]; simp [Ended]
    · rw [p2 j hj]
  constructor
  · have h1 := tot_change (g := tok s) (g' := tok s') hi (fun j _ hj => by simp [tok, q2 j hj, p2 j hj])
    have h2 : tok s i = r.length + 1 := by simp [tok, hq, hpc, Pc.num]
    have h3 : tok s' i = r.length + 1 := by simp [tok, q1, p1, Pc.num]
    rw [n]
    have := h.total
    omega
  · intro j hj
    by_cases hji : j = i
    · subst hji
      have := h.nodup j hj
      rw [g1] at this
      rw [g2]
      exact (List.nodup_append_comm.2 (by simpa using this))
    · rw [g3 j hji]; exact h.nodup j hj
  · intro j hj k hk a ha hb
    exact h.uniq j hj k hk a ((gm j a).1 ha) ((gm k a).1 hb)
  · intro j hj
    rw [x, m]
    by_cases hji : j + 1 = i
    · subst hji
      rw [e1, q1, h.flow j hj, hq]
      simp [conts]
    · rw [e2 _ hji, q2 _ hji]; exact h.flow j hj
  · intro j hj hd
    rw [pe, ]
    have := h.before j hj (fun e => hd ((pd j).2 e))
    refine ⟨?_, this.2⟩
    by_cases hji : j + 1 = i
    · subst hji; rw [q1]; rw [hq] at this; exact (open_cons this.1).1
    · rw [q2 _ hji]; exact this.1
  · intro j hj hd
    rw [pe]
    rcases h.after j hj ((pd j).1 hd) with ⟨h1, h2⟩ | ⟨h1, h2⟩
    · left
      refine ⟨h1, ?_⟩
      by_cases hji : j + 1 = i
      · subst hji; rw [hq] at h2; cases h2
      · rw [q2 _ hji]; exact h2
    · right
      refine ⟨h1, ?_⟩
      by_cases hji : j + 1 = i
      · subst hji; rw [q1]; rw [hq] at h2
        rcases closed_cons h2 with ⟨h3, _⟩ | ⟨h3, _⟩
        · cases h3
        · exact h3
      · rw [q2 _ hji]; exact h2
  · intro hd
    rw [n]
    have := h.ring (fun e => hd ((pd _).2 e))
    refine ⟨?_, this.2⟩
    by_cases hji : 0 = i
    · subst hji; rw [q1]; rw [hq] at this; exact (open_cons this.1).1
    · rw [q2 _ hji]; exact this.1
  · intro hd
    have hd' := (pd _).1 hd
    have h0 : s.pc 0 = .done := h.done_before _ (by omega) hd' 0 (by omega)
    have hji : 0 ≠ i := fun e => by rw [← e, h0] at hpc; cases hpc
    rw [n, q2 _ hji]
    exact h.ring' hd'
  · rw [x, m, c]
    by_cases hji : 0 = i
    · subst hji
      have := h.source
      rw [hpc] at this
      rw [p1]
      exact this
    · rw [p2 _ hji]; exact h.source
  · intro he
    rw [c]; exact h.sourceEnd ((pe 0).1 he)
  · intro j h1 hj
    rw [m, t, x]
    by_cases hji : j = i
    · subst hji
      have := h.work j h1 hj
      rw [hpc] at this
      rw [p1, e1]
      exact ⟨s.seen j, rfl, this.1, this.2⟩
    · rw [p2 j hji, e2 j hji]; exact h.work j h1 hj
  · intro a ha hs
    rw [m]
    apply h.fresh a ((gm 0 a).1 ha)
    by_cases hji : 0 = i
    · subst hji; rw [hpc]; simp
    · rw [← p2 0 hji]; exact hs
  · intro a ha
    rw [m]
    by_cases hji : W - 1 = i
    · rw [hji, p1] at ha; cases ha
    · rw [p2 _ hji] at ha; exact h.freshLast a ha

/-- The poison arrives. -/
theorem Inv.getPoison (hW : 2 ≤ W) (h : Inv W B f st₀ src₀ P s) {i : Nat} (hi : i < W) (hpc : s.pc i = .wait)
    {r : List (Option Nat)} (hq : s.q i = none :: r) :
    Inv W B f st₀ src₀ P { s with q := upd s.q i r, pc := upd s.pc i .poison } := by
  have hi0 : i ≠ 0 := by
    intro e
    subst e
    have hd : s.pc (W - 1) ≠ .done := fun e => by
      have := h.done_before _ (by omega) e 0 (by omega)
      rw [hpc] at this; cases this
    have := (h.ring hd).1
    rw [hq] at this
    obtain ⟨_, c, hc⟩ := open_cons this
    cases hc
  obtain ⟨k, rfl⟩ : ∃ k, i = k + 1 := ⟨i - 1, by omega⟩
  have hkd : s.pc k = .done := by
    by_contra hn
    have := (h.before k hi hn).1
    rw [hq] at this
    obtain ⟨_, c, hc⟩ := open_cons this
    cases hc
  have hr : r = [] := by
    rcases h.after k hi hkd with ⟨h1, _⟩ | ⟨_, h2⟩
    · rw [hpc] at h1; exact h1.elim
    · rw [hq] at h2
      rcases closed_cons h2 with ⟨_, h3⟩ | ⟨_, c, hc⟩
      · exact h3
      · cases hc
  subst hr
  obtain ⟨s', hs'⟩ : ∃ s' : St σ γ, s' = { s with q := upd s.q (k + 1) [], pc := upd s.pc (k + 1) .poison } := ⟨_, rfl⟩
  rw [← hs']
  have q1 : s'.q (k + 1) = [] := by rw [hs']; exact upd_same _ _ _
  have q2 : ∀ j, j ≠ k + 1 → s'.q j = s.q j := fun j hj => by rw [hs']; exact upd_ne _ _ hj
  have p1 : s'.pc (k + 1) = .poison := by rw [hs']; exact upd_same _ _ _
  have p2 : ∀ j, j ≠ k + 1 → s'.pc j = s.pc j := fun j hj => by rw [hs']; exact upd_ne _ _ hj
  have m : s'.mem = s.mem := by rw [hs']
  have t : s'.st = s.st := by rw [hs']
  have c : s'.src = s.src := by rw [hs']
  have n : s'.main = s.main := by rw [hs']
  have x : s'.sent = s.sent := by rw [hs']
  have e : s'.seen = s.seen := by rw [hs']
  have g : ∀ j, seg s' j = seg s j := by
    intro j
    by_cases hj : j = k + 1
    · subst hj; simp [seg, q1, p1, hq, hpc, Pc.held]
    · simp [seg, q2 j hj, p2 j hj]
  have pd : ∀ j, s'.pc j = .done ↔ s.pc j = .done := by
    intro j
    by_cases hj : j = k + 1
    · subst hj; rw [p1, hpc]; simp
    · rw [p2 j hj]
  constructor
  · have h1 := tot_change (g := tok s) (g' := tok s') hi (fun j _ hj => by simp [tok, q2 j hj, p2 j hj])
    have h2 : tok s (k + 1) = 1 := by simp [tok, hq, hpc, Pc.num]
    have h3 : tok s' (k + 1) = 1 := by simp [tok, q1, p1, Pc.num]
    rw [n]
    have := h.total
    omega
  · intro j hj; rw [g]; exact h.nodup j hj
  · intro j hj k hk a; rw [g, g]; exact h.uniq j hj k hk a
  · intro j hj
    rw [x, m, e]
    by_cases hji : j = k
    · subst hji
      rw [q1, h.flow j hj, hq]
      simp [conts]
    · rw [q2 _ (by omega)]; exact h.flow j hj
  · intro j hj hd
    have hd' := fun e => hd ((pd j).2 e)
    by_cases hji : j = k
    · subst hji; exact absurd hkd hd'
    · rw [q2 _ (by omega), p2 _ (by omega)]; exact h.before j hj hd'
  · intro j hj hd
    by_cases hji : j = k
    · subst hji; rw [p1, q1]; exact Or.inl ⟨trivial, rfl⟩
    · rw [q2 _ (by omega), p2 _ (by omega)]; exact h.after j hj ((pd j).1 hd)
  · intro hd
    rw [n, q2 _ (by omega)]; exact h.ring (fun e => hd ((pd _).2 e))
  · intro hd
    rw [n, q2 _ (by omega)]; exact h.ring' ((pd _).1 hd)
  · rw [x, m, c, p2 _ (by omega)]; exact h.source
  · rw [c, p2 _ (by omega)]; exact h.sourceEnd
  · intro j h1 hj
    rw [m, t, x, e]
    by_cases hji : j = k + 1
    · subst hji
      have := h.work _ h1 hj
      rw [hpc] at this
      rw [p1]
      exact this
    · rw [p2 j hji]; exact h.work j h1 hj
  · rw [g, m, p2 _ (by omega)]; exact h.fresh
  · intro a ha
    rw [m]
    by_cases hji : W - 1 = k + 1
    · rw [hji, p1] at ha; cases ha
    · rw [p2 _ hji] at ha; exact h.freshLast a ha

/-- The source finds that nothing is left. -/
theorem Inv.sourceEmpty (hW : 2 ≤ W) (h : Inv W B f st₀ src₀ P s) {b : Nat} (hpc : s.pc 0 = .have b) (hsrc : s.src = []) :
    Inv W B f st₀ src₀ P { s with pc := upd s.pc 0 .poison } := by
  obtain ⟨s', hs'⟩ : ∃ s' : St σ γ, s' = { s with pc := upd s.pc 0 .poison } := ⟨_, rfl⟩
  rw [← hs']
  have p1 : s'.pc 0 = .poison := by rw [hs']; exact upd_same s.pc 0 _
  have p2 : ∀ j, j ≠ 0 → s'.pc j = s.pc j := fun j hj => by rw [hs']; exact upd_ne _ _ hj
  have q : s'.q = s.q := by rw [hs']
  have m : s'.mem = s.mem := by rw [hs']
  have t : s'.st = s.st := by rw [hs']
  have c : s'.src = s.src := by rw [hs']
  have n : s'.main = s.main := by rw [hs']
  have x : s'.sent = s.sent := by rw [hs']
  have e : s'.seen = s.seen := by rw [hs']
  have g : ∀ j, (seg s' j).Sublist (seg s j) := by
    intro j
    by_cases hj : j = 0
    · subst hj; simp [seg, q, p1, hpc, Pc.held]
    · simp [seg, q, p2 j hj]
  have pd : ∀ j, s'.pc j = .done ↔ s.pc j = .done := by
    intro j
    by_cases hj : j = 0
    · subst hj; rw [p1, hpc]; simp
    · rw [p2 j hj]
  constructor
  · have h1 := tot_change (g := tok s) (g' := tok s') (i := 0) (by omega : 0 < W) (fun j _ hj => by simp [tok, q, p2 j hj])
    have h2 : tok s 0 = (s.q 0).length + 1 := by simp [tok, hpc, Pc.num]
    have h3 : tok s' 0 = (s.q 0).length + 1 := by simp [tok, q, p1, Pc.num]
    rw [n]
    have := h.total
    omega
  · intro j hj; exact (h.nodup j hj).sublist (g j)
  · intro j hj k hk a ha hb; exact h.uniq j hj k hk a ((g j).subset ha) ((g k).subset hb)
  · rw [x, m, e, q]; exact h.flow
  · intro j hj hd
    rw [q, p2 _ (by omega)]; exact h.before j hj (fun e => hd ((pd j).2 e))
  · intro j hj hd
    rw [q, p2 _ (by omega)]; exact h.after j hj ((pd j).1 hd)
  · intro hd
    rw [n, q]; exact h.ring (fun e => hd ((pd _).2 e))
  · intro hd
    rw [n, q]; exact h.ring' ((pd _).1 hd)
  · have := h.source
    rw [hpc] at this
    rw [x, m, c, p1]; exact this
  · intro _; rw [c]; exact hsrc
  · intro j h1 hj
    rw [m, t, x, e, p2 _ (by omega)]; exact h.work j h1 hj
  · intro a ha _
    rw [m]
    exact h.fresh a ((g 0).subset ha) (by rw [hpc]; simp)
  · intro a ha
    rw [m]
    rw [p2 _ (by omega)] at ha
    exact h.freshLast a ha

/-- A worker changes the block it holds. -/
theorem Inv.change (h : Inv W B f st₀ src₀ P s) {i b : Nat} (hi : i < W) (hpc : s.pc i = .have b) :
    (∀ j < W, b ∉ (s.q j).filterMap id) ∧ (∀ j < W, j ≠ i → b ∉ (s.pc j).held) ∧ ∀ j < W, j ≠ i → b ∉ seg s j := by
  have hb : b ∈ seg s i := by simp [seg, hpc, Pc.held]
  have h3 : ∀ j < W, j ≠ i → b ∉ seg s j := fun j hj hne hm => hne (h.uniq j hj i hi b hm hb)
  refine ⟨fun j hj hm => ?_, fun j hj hne hm => h3 j hj hne (by simp [seg, hm]), h3⟩
  by_cases hji : j = i
  · subst hji
    have := h.nodup j hj
    simp only [seg, hpc, Pc.held] at this
    rw [List.nodup_append] at this
    exact this.2.2 b hm b (by simp) rfl
  · exact h3 j hj hji (by simp only [seg, List.mem_append]; exact Or.inl hm)

theorem Inv.sourceWrite (hW : 2 ≤ W) (h : Inv W B f st₀ src₀ P s) {b : Nat} (hpc : s.pc 0 = .have b) {v : γ} {vs : List γ}
    (hsrc : s.src = v :: vs) :
    Inv W B f st₀ src₀ P { s with mem := upd s.mem b v, src := vs, pc := upd s.pc 0 (.send b) } := by
  obtain ⟨hf1, hf2, hf3⟩ := h.change (by omega : 0 < W) hpc
  obtain ⟨s', hs'⟩ : ∃ s' : St σ γ, s' = { s with mem := upd s.mem b v, src := vs, pc := upd s.pc 0 (.send b) } := ⟨_, rfl⟩
  rw [← hs']
  have p1 : s'.pc 0 = .send b := by rw [hs']; exact upd_same s.pc 0 _
  have p2 : ∀ j, j ≠ 0 → s'.pc j = s.pc j := fun j hj => by rw [hs']; exact upd_ne _ _ hj
  have q : s'.q = s.q := by rw [hs']
  have m : s'.mem = upd s.mem b v := by rw [hs']
  have t : s'.st = s.st := by rw [hs']
  have c : s'.src = vs := by rw [hs']
  have n : s'.main = s.main := by rw [hs']
  have x : s'.sent = s.sent := by rw [hs']
  have e : s'.seen = s.seen := by rw [hs']
  have g : ∀ j, seg s' j = seg s j := by
    intro j
    by_cases hj : j = 0
    · subst hj; simp [seg, q, p1, hpc, Pc.held]
    · simp [seg, q, p2 j hj]
  have pd : ∀ j, s'.pc j = .done ↔ s.pc j = .done := by
    intro j
    by_cases hj : j = 0
    · subst hj; rw [p1, hpc]; simp
    · rw [p2 j hj]
  constructor
  · rw [tot_same (g := tok s) (g' := tok s') (fun j _ => by
      by_cases hj : j = 0
      · subst hj; simp [tok, q, p1, hpc, Pc.num]
      · simp [tok, q, p2 j hj]), n]
    exact h.total
  · intro j hj; rw [g]; exact h.nodup j hj
  · intro j hj k hk a; rw [g, g]; exact h.uniq j hj k hk a
  · intro j hj
    rw [x, m, e, q, conts_upd _ _ _ _ (hf1 (j + 1) hj)]; exact h.flow j hj
  · intro j hj hd
    rw [q, p2 _ (by omega)]; exact h.before j hj (fun e => hd ((pd j).2 e))
  · intro j hj hd
    rw [q, p2 _ (by omega)]; exact h.after j hj ((pd j).1 hd)
  · intro hd
    rw [n, q]; exact h.ring (fun e => hd ((pd _).2 e))
  · intro hd
    rw [n, q]; exact h.ring' ((pd _).1 hd)
  · have := h.source
    rw [hpc, hsrc] at this
    rw [x, m, c, p1, ← this]
    simp [pend, upd_same]
  · intro he; rw [p1] at he; exact he.elim
  · intro j h1 hj
    rw [m, t, x, e, p2 _ (by omega)]; exact work_upd b v (hf2 j hj (by omega)) (h.work j h1 hj)
  · intro a ha hne
    rw [g] at ha
    have hab : a ≠ b := fun e => hne (by rw [p1, e])
    rw [m, upd_ne _ _ hab]
    exact h.fresh a ha (by rw [hpc]; simp)
  · intro a ha
    rw [p2 _ (by omega)] at ha
    have hab : a ≠ b := fun e => hf2 (W - 1) (by omega) (by omega) (by rw [ha, e]; simp [Pc.held])
    rw [m, upd_ne _ _ hab]
    exact h.freshLast a ha

theorem Inv.process (h : Inv W B f st₀ src₀ P s) (hP : ∀ st x, P (f (W - 1) st x).2) {i b : Nat}
    (hi : i < W) (hi0 : i ≠ 0) (hpc : s.pc i = .have b) :
    Inv W B f st₀ src₀ P { s with mem := upd s.mem b (f i (s.st i) (s.mem b)).2, st := upd s.st i (f i (s.st i) (s.mem b)).1, pc := upd s.pc i (.send b) } := by
  obtain ⟨hf1, hf2, hf3⟩ := h.change hi hpc
  obtain ⟨R, hR⟩ : ∃ R, R = f i (s.st i) (s.mem b) := ⟨_, rfl⟩
  rw [← hR]
  obtain ⟨s', hs'⟩ : ∃ s' : St σ γ, s' = { s with mem := upd s.mem b R.2, st := upd s.st i R.1, pc := upd s.pc i (.send b) } := ⟨_, rfl⟩
  rw [← hs']
  have p1 : s'.pc i = .send b := by rw [hs']; exact upd_same _ _ _
  have p2 : ∀ j, j ≠ i → s'.pc j = s.pc j := fun j hj => by rw [hs']; exact upd_ne _ _ hj
  have q : s'.q = s.q := by rw [hs']
  have m : s'.mem = upd s.mem b R.2 := by rw [hs']
  have t1 : s'.st i = R.1 := by rw [hs']; exact upd_same _ _ _
  have t2 : ∀ j, j ≠ i → s'.st j = s.st j := fun j hj => by rw [hs']; exact upd_ne _ _ hj
  have c : s'.src = s.src := by rw [hs']
  have n : s'.main = s.main := by rw [hs']
  have x : s'.sent = s.sent := by rw [hs']
  have e : s'.seen = s.seen := by rw [hs']
  have g : ∀ j, seg s' j = seg s j := by
    intro j
    by_cases hj : j = i
    · subst hj; simp [seg, q, p1, hpc, Pc.held]
    · simp [seg, q, p2 j hj]
  have pd : ∀ j, s'.pc j = .done ↔ s.pc j = .done := by
    intro j
    by_cases hj : j = i
    · subst hj; rw [p1, hpc]; simp
    · rw [p2 j hj]
  have pe : ∀ j, Ended (s'.pc j) ↔ Ended (s.pc j) := by
    intro j
    by_cases hj : j = i
    · subst hj; rw [p1, hpc]; simp [Ended]
    · rw [p2 j hj]
  constructor
  · rw [tot_same (g := tok s) (g' := tok s') (fun j _ => by
      by_cases hj : j = i
      · subst hj; simp [tok, q, p1, hpc, Pc.num]
      · simp [tok, q, p2 j hj]), n]
    exact h.total
  · intro j hj; rw [g]; exact h.nodup j hj
  · intro j hj k hk a; rw [g, g]; exact h.uniq j hj k hk a
  · intro j hj
    rw [x, m, e, q, conts_upd _ _ _ _ (hf1 (j + 1) hj)]; exact h.flow j hj
  · intro j hj hd
    rw [q, pe]; exact h.before j hj (fun e => hd ((pd j).2 e))
  · intro j hj hd
    rw [q, pe]; exact h.after j hj ((pd j).1 hd)
  · intro hd
    rw [n, q]; exact h.ring (fun e => hd ((pd _).2 e))
  · intro hd
    rw [n, q]; exact h.ring' ((pd _).1 hd)
  · have hb0 : b ∉ (s.pc 0).held := hf2 0 (by omega) (fun e => hi0 e.symm)
    rw [x, m, c, p2 0 (fun e => hi0 e.symm), ← h.source]
    congr 2
    cases hp : s.pc 0 with
    | send a =>
      have : a ≠ b := fun e => hb0 (by rw [hp, e]; simp [Pc.held])
      simp [pend, upd_ne _ _ this]
    | wait => rfl
    | «have» a => rfl
    | poison => rfl
    | done => rfl
  · intro he; rw [c]; exact h.sourceEnd ((pe 0).1 he)
  · intro j h1 hj
    rw [m, x, e]
    by_cases hji : j = i
    · subst hji
      have := h.work j h1 hj
      rw [hpc] at this
      obtain ⟨l, l1, l2, l3⟩ := this
      rw [p1, t1, l1]
      show s.sent j ++ [upd s.mem b R.2 b] = _ ∧ R.1 = _
      rw [alone_snoc, upd_same, ← l3, ← hR, l2]
      exact ⟨rfl, rfl⟩
    · rw [p2 j hji, t2 j hji]; exact work_upd b _ (hf2 j hj hji) (h.work j h1 hj)
  · intro a ha hne
    rw [g] at ha
    have hab : a ≠ b := fun e => hf3 0 (by omega) (fun e => hi0 e.symm) (e ▸ ha)
    rw [m, upd_ne _ _ hab]
    exact h.fresh a ha (by rw [← p2 0 (fun e => hi0 e.symm)]; exact hne)
  · intro a ha
    rw [m]
    by_cases hji : W - 1 = i
    · rw [hji, p1] at ha
      simp only [Pc.send.injEq] at ha
      rw [← ha, upd_same, hR, ← hji]
      exact hP _ _
    · rw [p2 _ hji] at ha
      have hab : a ≠ b := fun e => hf2 (W - 1) (by omega) hji (by rw [ha, e]; simp [Pc.held])
      rw [upd_ne _ _ hab]
      exact h.freshLast a ha

/-- A worker passes its block on. -/
theorem Inv.produce (hW : 2 ≤ W) (h : Inv W B f st₀ src₀ P s) {i b : Nat} (hi : i < W) (hpc : s.pc i = .send b) :
    Inv W B f st₀ src₀ P { s with q := upd s.q (nxt W i) (s.q (nxt W i) ++ [some b]), pc := upd s.pc i .wait, sent := upd s.sent i (s.sent i ++ [s.mem b]) } := by
  have hnl := nxt_lt hW hi
  have hnn := nxt_ne hW hi
  obtain ⟨z, hz⟩ : ∃ z, z = nxt W i := ⟨_, rfl⟩
  rw [← hz] at hnl hnn ⊢
  obtain ⟨s', hs'⟩ : ∃ s' : St σ γ, s' = { s with q := upd s.q z (s.q z ++ [some b]), pc := upd s.pc i .wait, sent := upd s.sent i (s.sent i ++ [s.mem b]) } := ⟨_, rfl⟩
  rw [← hs']
  have q1 : s'.q z = s.q z ++ [some b] := by rw [hs']; exact upd_same _ _ _
  have q2 : ∀ j, j ≠ z → s'.q j = s.q j := fun j hj => by rw [hs']; exact upd_ne _ _ hj
  have p1 : s'.pc i = .wait := by rw [hs']; exact upd_same _ _ _
  have p2 : ∀ j, j ≠ i → s'.pc j = s.pc j := fun j hj => by rw [hs']; exact upd_ne _ _ hj
  have x1 : s'.sent i = s.sent i ++ [s.mem b] := by rw [hs']; exact upd_same _ _ _
  have x2 : ∀ j, j ≠ i → s'.sent j = s.sent j := fun j hj => by rw [hs']; exact upd_ne _ _ hj
  have m : s'.mem = s.mem := by rw [hs']
  have t : s'.st = s.st := by rw [hs']
  have c : s'.src = s.src := by rw [hs']
  have n : s'.main = s.main := by rw [hs']
  have e : s'.seen = s.seen := by rw [hs']
  have hb : b ∈ seg s i := by simp [seg, hpc, Pc.held]
  have hbo : ∀ j < W, j ≠ i → b ∉ seg s j := fun j hj hne hm => hne (h.uniq j hj i hi b hm hb)
  have g1 : seg s i = (s.q i).filterMap id ++ [b] := by simp [seg, hpc, Pc.held]
  have g2 : seg s' i = (s.q i).filterMap id := by simp [seg, q2 i (Ne.symm hnn), p1, Pc.held]
  have g3 : seg s' z = (s.q z).filterMap id ++ ([b] ++ (s.pc z).held) := by simp [seg, q1, p2 z hnn]
  have g4 : ∀ j, j ≠ i → j ≠ z → seg s' j = seg s j := fun j hj hz => by simp [seg, q2 j hz, p2 j hj]
  have gz : ∀ a, a ∈ seg s' z ↔ a = b ∨ a ∈ seg s z := by
    intro a; rw [g3]; simp only [seg, List.mem_append, List.mem_singleton]; tauto
  have gi : ∀ a, a ∈ seg s' i → a ∈ seg s i ∧ a ≠ b := by
    intro a ha
    rw [g2] at ha
    rw [g1]
    refine ⟨by simp only [List.mem_append]; exact Or.inl ha, ?_⟩
    have := h.nodup i hi
    rw [g1, List.nodup_append] at this
    exact fun e => this.2.2 a ha b (by simp) e
  have pd : ∀ j, s'.pc j = .done ↔ s.pc j = .done := by
    intro j
    by_cases hj : j = i
    · subst hj; rw [p1, hpc]; simp
    · rw [p2 j hj]
  have pe : ∀ j, Ended (s'.pc j) ↔ Ended (s.pc j) := by
    intro j
    by_cases hj : j = i
    · subst hj; rw [p1, hpc]; simp [Ended]
    · rw [p2 j hj]
  have hnd : s.pc i ≠ .done := by rw [hpc]; simp
  constructor
  · have h1 := tot_change (g := tok s) (g' := upd (tok s) i (tok s' i)) hi (fun j _ hj => upd_ne _ _ hj)
    have h2 := tot_change (g := upd (tok s) i (tok s' i)) (g' := tok s') hnl (fun j _ hj => by
      by_cases hji : j = i
      · subst hji; rw [upd_same]
      · rw [upd_ne _ _ hji]; simp [tok, q2 j hj, p2 j hji])
    rw [upd_same] at h1
    rw [upd_ne _ _ hnn] at h2
    have h3 : tok s i = tok s' i + 1 := by simp [tok, hpc, p1, q2 i (Ne.symm hnn), Pc.num]
    have h4 : tok s' z = tok s z + 1 := by simp [tok, q1, p2 z hnn]; omega
    rw [n]
    have := h.total
    omega
  · intro j hj
    by_cases hji : j = i
    · subst hji
      rw [g2]
      have := h.nodup j hj
      rw [g1, List.nodup_append] at this
      exact this.1
    · by_cases hjz : j = z
      · subst hjz
        have h1 := h.nodup j hj
        have h2 := hbo j hj hji
        rw [g3]
        have h3 : (b :: seg s j).Nodup := List.nodup_cons.2 ⟨h2, h1⟩
        apply List.Perm.nodup _ h3
        unfold seg
        exact List.perm_middle.symm
      · rw [g4 j hji hjz]; exact h.nodup j hj
  · have key : ∀ j < W, ∀ a ∈ seg s' j, (a = b ∧ j = z) ∨ (a ≠ b ∧ a ∈ seg s j) := by
      intro j hj a ha
      by_cases hji : j = i
      · subst hji; have := gi a ha; exact Or.inr ⟨this.2, this.1⟩
      · by_cases hjz : j = z
        · subst hjz
          by_cases hab : a = b
          · exact Or.inl ⟨hab, rfl⟩
          · exact Or.inr ⟨hab, ((gz a).1 ha).resolve_left hab⟩
        · rw [g4 j hji hjz] at ha
          exact Or.inr ⟨fun e => hbo j hj hji (e ▸ ha), ha⟩
    intro j hj k hk a ha hb
    rcases key j hj a ha with ⟨h1, h2⟩ | ⟨h1, h2⟩
    · rcases key k hk a hb with ⟨h3, h4⟩ | ⟨h3, h4⟩
      · omega
      · exact absurd h1 h3
    · rcases key k hk a hb with ⟨h3, h4⟩ | ⟨h3, h4⟩
      · exact absurd h3 h1
      · exact h.uniq j hj k hk a h2 h4
  · intro j hj
    rw [e, m]
    by_cases hji : j = i
    · subst hji
      have : z = j + 1 := by rw [hz]; exact nxt_succ hj
      subst this
      rw [x1, q1, h.flow j hj]
      simp [conts]
    · have hne : j + 1 ≠ z := fun hh => hji (nxt_eq (hz ▸ hh.symm)).symm
      rw [x2 j hji, q2 _ hne]; exact h.flow j hj
  · intro j hj hd
    rw [pe]
    have := h.before j hj (fun e => hd ((pd j).2 e))
    refine ⟨?_, this.2⟩
    by_cases hjz : j + 1 = z
    · subst hjz; rw [q1]; exact open_snoc b this.1
    · rw [q2 _ hjz]; exact this.1
  · intro j hj hd
    have hd' := (pd j).1 hd
    have hne : j + 1 ≠ z := fun hh => by
      have := nxt_eq (hz ▸ hh.symm)
      subst this; exact hnd hd'
    rw [pe, q2 _ hne]; exact h.after j hj hd'
  · intro hd
    rw [n]
    have := h.ring (fun e => hd ((pd _).2 e))
    refine ⟨?_, this.2⟩
    by_cases hjz : 0 = z
    · subst hjz; rw [q1]; exact open_snoc b this.1
    · rw [q2 _ hjz]; exact this.1
  · intro hd
    have hd' := (pd _).1 hd
    have hne : 0 ≠ z := fun hh => by
      have := nxt_zero hi (hz ▸ hh.symm)
      rw [← this] at hd'; exact hnd hd'
    rw [n, q2 _ hne]; exact h.ring' hd'
  · rw [m, c]
    by_cases hji : i = 0
    · subst hji
      rw [x1, p1, ← h.source, hpc]
      simp [pend]
    · rw [x2 0 (fun e => hji e.symm), p2 0 (fun e => hji e.symm)]; exact h.source
  · intro he; rw [c]; exact h.sourceEnd ((pe 0).1 he)
  · intro j h1 hj
    rw [m, t, e]
    by_cases hji : j = i
    · subst hji
      have := h.work j h1 hj
      rw [hpc] at this
      rw [p1, x1]
      exact this
    · rw [p2 j hji, x2 j hji]; exact h.work j h1 hj
  · intro a ha hne
    rw [m]
    by_cases h0 : 0 = z
    · rw [h0] at ha
      have hil : i = W - 1 := nxt_zero hi (by rw [← hz, ← h0])
      rcases (gz a).1 ha with hab | hab
      · rw [hab]; exact h.freshLast b (by rw [← hil]; exact hpc)
      · rw [← h0] at hab
        exact h.fresh a hab (by rw [← p2 0 (by omega)]; exact hne)
    · by_cases hi0 : 0 = i
      · subst hi0
        have := gi a ha
        exact h.fresh a this.1 (by rw [hpc]; simp [Ne.symm this.2])
      · rw [g4 0 hi0 h0] at ha
        exact h.fresh a ha (by rw [← p2 0 hi0]; exact hne)
  · intro a ha
    rw [m]
    by_cases hji : W - 1 = i
    · rw [hji, p1] at ha; cases ha
    · rw [p2 _ hji] at ha; exact h.freshLast a ha

/-- A worker passes the poison on and returns. -/
theorem Inv.producePoison (hW : 2 ≤ W) (h : Inv W B f st₀ src₀ P s) {i : Nat} (hi : i < W) (hpc : s.pc i = .poison) :
    Inv W B f st₀ src₀ P { s with q := upd s.q (nxt W i) (s.q (nxt W i) ++ [none]), pc := upd s.pc i .done } := by
  have hnl := nxt_lt hW hi
  have hnn := nxt_ne hW hi
  obtain ⟨z, hz⟩ : ∃ z, z = nxt W i := ⟨_, rfl⟩
  rw [← hz] at hnl hnn ⊢
  obtain ⟨s', hs'⟩ : ∃ s' : St σ γ, s' = { s with q := upd s.q z (s.q z ++ [none]), pc := upd s.pc i .done } := ⟨_, rfl⟩
  rw [← hs']
  have q1 : s'.q z = s.q z ++ [none] := by rw [hs']; exact upd_same _ _ _
  have q2 : ∀ j, j ≠ z → s'.q j = s.q j := fun j hj => by rw [hs']; exact upd_ne _ _ hj
  have p1 : s'.pc i = .done := by rw [hs']; exact upd_same _ _ _
  have p2 : ∀ j, j ≠ i → s'.pc j = s.pc j := fun j hj => by rw [hs']; exact upd_ne _ _ hj
  have x : s'.sent = s.sent := by rw [hs']
  have m : s'.mem = s.mem := by rw [hs']
  have t : s'.st = s.st := by rw [hs']
  have c : s'.src = s.src := by rw [hs']
  have n : s'.main = s.main := by rw [hs']
  have e : s'.seen = s.seen := by rw [hs']
  have g : ∀ j, seg s' j = seg s j := by
    intro j
    have hq : (s'.q j).filterMap id = (s.q j).filterMap id := by
      by_cases hj : j = z
      · subst hj; rw [q1]; simp
      · rw [q2 j hj]
    have hp : (s'.pc j).held = (s.pc j).held := by
      by_cases hj : j = i
      · subst hj; rw [p1, hpc]; rfl
      · rw [p2 j hj]
    unfold seg; rw [hq, hp]
  have pe : ∀ j, Ended (s'.pc j) ↔ Ended (s.pc j) := by
    intro j
    by_cases hj : j = i
    · subst hj; rw [p1, hpc]; simp [Ended]
    · rw [p2 j hj]
  have hnd : s.pc i ≠ .done := by rw [hpc]; simp
  have hcq : ∀ j, conts s.mem (s'.q j) = conts s.mem (s.q j) := by
    intro j
    by_cases hj : j = z
    · subst hj; rw [q1]; simp [conts]
    · rw [q2 j hj]
  constructor
  · have h1 := tot_change (g := tok s) (g' := upd (tok s) i (tok s' i)) hi (fun j _ hj => upd_ne _ _ hj)
    have h2 := tot_change (g := upd (tok s) i (tok s' i)) (g' := tok s') hnl (fun j _ hj => by
      by_cases hji : j = i
      · subst hji; rw [upd_same]
      · rw [upd_ne _ _ hji]; simp [tok, q2 j hj, p2 j hji])
    rw [upd_same] at h1
    rw [upd_ne _ _ hnn] at h2
    have h3 : tok s i = tok s' i + 1 := by simp [tok, hpc, p1, q2 i (Ne.symm hnn), Pc.num]
    have h4 : tok s' z = tok s z + 1 := by simp [tok, q1, p2 z hnn]; omega
    rw [n]
    have := h.total
    omega
  · intro j hj; rw [g]; exact h.nodup j hj
  · intro j hj k hk a; rw [g, g]; exact h.uniq j hj k hk a
  · intro j hj
    rw [e, m, x, hcq]; exact h.flow j hj
  · intro j hj hd
    rw [pe]
    have hji : j ≠ i := fun e => hd (by rw [e]; exact p1)
    have hne : j + 1 ≠ z := fun hh => hji (nxt_eq (hz ▸ hh.symm)).symm
    rw [q2 _ hne]
    exact h.before j hj (by rw [← p2 j hji]; exact hd)
  · intro j hj hd
    rw [pe]
    by_cases hji : j = i
    · subst hji
      have : z = j + 1 := by rw [hz]; exact nxt_succ hj
      subst this
      have := h.before j hj hnd
      rw [q1]
      exact Or.inr ⟨this.2, closed_snoc this.1⟩
    · have hne : j + 1 ≠ z := fun hh => hji (nxt_eq (hz ▸ hh.symm)).symm
      rw [q2 _ hne]
      exact h.after j hj (by rw [← p2 j hji]; exact hd)
  · intro hd
    have hji : W - 1 ≠ i := fun e => hd (by rw [e]; exact p1)
    have hne : 0 ≠ z := fun hh => hji (nxt_zero hi (hz ▸ hh.symm)).symm
    rw [n, q2 _ hne]
    exact h.ring (by rw [← p2 _ hji]; exact hd)
  · intro hd
    by_cases hji : W - 1 = i
    · subst hji
      have : z = 0 := by rw [hz]; exact nxt_last hW
      subst this
      have := h.ring hnd
      rw [q1, n]
      exact Or.inl ⟨closed_snoc this.1, 0, this.2⟩
    · have hne : 0 ≠ z := fun hh => hji (nxt_zero hi (hz ▸ hh.symm)).symm
      rw [n, q2 _ hne]
      exact h.ring' (by rw [← p2 _ hji]; exact hd)
  · rw [x, m, c]
    by_cases hji : i = 0
    · subst hji
      rw [p1, ← h.source, hpc]
      rfl
    · rw [p2 0 (fun e => hji e.symm)]; exact h.source
  · intro he; rw [c]; exact h.sourceEnd ((pe 0).1 he)
  · intro j h1 hj
    rw [m, t, e, x]
    by_cases hji : j = i
    · subst hji
      have := h.work j h1 hj
      rw [hpc] at this
      rw [p1]
      exact this
    · rw [p2 j hji]; exact h.work j h1 hj
  · intro a ha hne
    rw [m]
    rw [g] at ha
    apply h.fresh a ha
    by_cases hji : i = 0
    · subst hji; rw [hpc]; simp
    · rw [← p2 0 (fun e => hji e.symm)]; exact hne
  · intro a ha
    rw [m]
    by_cases hji : W - 1 = i
    · rw [hji, p1] at ha; cases ha
    · rw [p2 _ hji] at ha; exact h.freshLast a ha

/-- `Wait` takes a block or the poison from the first queue. -/
theorem Inv.main (hW : 2 ≤ W) (h : Inv W B f st₀ src₀ P s) {s' : St σ γ} (hs : stepMain W B s = some s') :
    Inv W B f st₀ src₀ P s' := by
  unfold stepMain at hs
  cases hm : s.main with
  | finished k => rw [hm] at hs; cases hs
  | aborted k => rw [hm] at hs; cases hs
  | run k =>
    rw [hm] at hs
    simp only at hs
    split at hs
    · rename_i hall
      have hd : ∀ i < W, s.pc i = .done := by
        intro i hi
        have := List.all_eq_true.1 hall i (by simpa using hi)
        simpa using this
      have hclosed : Closed (s.q 0) := by
        rcases h.ring' (hd _ (by omega)) with ⟨h1, _⟩ | ⟨_, k', h2⟩
        · exact h1
        · rw [hm] at h2; cases h2
      have htot : tot (tok s) W + k = B := by have := h.total; rw [hm] at this; exact this
      have hlen : (s.q 0).length ≤ tot (tok s) W := by
        have := le_tot (g := tok s) (n := W) (i := 0) (by omega)
        simp only [tok] at this ⊢
        omega
      -- what does not change
      have common : ∀ (r : List (Option Nat)) (x : Option Nat) (M : Main), s.q 0 = x :: r → M.count = k + 1 →
          ((Closed r ∧ ∃ k, M = .run k) ∨ (r = [] ∧ ∃ k, M = .finished k)) →
          Inv W B f st₀ src₀ P { s with q := upd s.q 0 r, main := M } := by
        intro r x M hq hM hC
        obtain ⟨s', hs'⟩ : ∃ s' : St σ γ, s' = { s with q := upd s.q 0 r, main := M } := ⟨_, rfl⟩
        rw [← hs']
        have q1 : s'.q 0 = r := by rw [hs']; exact upd_same s.q 0 _
        have q2 : ∀ j, j ≠ 0 → s'.q j = s.q j := fun j hj => by rw [hs']; exact upd_ne _ _ hj
        have p : s'.pc = s.pc := by rw [hs']
        have m : s'.mem = s.mem := by rw [hs']
        have t : s'.st = s.st := by rw [hs']
        have c : s'.src = s.src := by rw [hs']
        have n : s'.main = M := by rw [hs']
        have xx : s'.sent = s.sent := by rw [hs']
        have e : s'.seen = s.seen := by rw [hs']
        have g : ∀ j, (seg s' j).Sublist (seg s j) := by
          intro j
          by_cases hj : j = 0
          · subst hj
            simp only [seg, q1, p, hq]
            apply List.Sublist.append_right
            exact List.Sublist.filterMap _ (List.sublist_cons_self _ _)
          · simp [seg, q2 j hj, p]
        constructor
        · have h1 := tot_change (g := tok s) (g' := tok s') (i := 0) (by omega : 0 < W) (fun j _ hj => by simp [tok, q2 j hj, p])
          have h2 : tok s 0 = tok s' 0 + 1 := by simp [tok, q1, p, hq]; omega
          rw [n, hM]
          omega
        · intro j hj; exact (h.nodup j hj).sublist (g j)
        · intro j hj k hk a ha hb; exact h.uniq j hj k hk a ((g j).subset ha) ((g k).subset hb)
        · intro j hj; rw [xx, m, e, q2 _ (by omega)]; exact h.flow j hj
        · intro j hj hdj; rw [p] at hdj; exact absurd (hd j (by omega)) hdj
        · intro j hj hdj; rw [p] at hdj ⊢; rw [q2 _ (by omega)]; exact h.after j hj hdj
        · intro hdj; rw [p] at hdj; exact absurd (hd _ (by omega)) hdj
        · intro _; rw [q1, n]; exact hC
        · rw [xx, m, c, p]; exact h.source
        · rw [c, p]; exact h.sourceEnd
        · intro j h1 hj; rw [m, t, xx, e, p]; exact h.work j h1 hj
        · intro a ha; rw [m, p]; exact h.fresh a ((g 0).subset ha)
        · rw [m, p]; exact h.freshLast
      cases hq : s.q 0 with
      | nil => rw [hq] at hs; cases hs
      | cons x r =>
        rw [hq] at hs
        rw [hq] at hclosed hlen
        simp only [List.length_cons] at hlen
        cases x with
        | none =>
          simp only [Option.some.injEq] at hs
          rw [← hs]
          rcases closed_cons hclosed with ⟨_, h2⟩ | ⟨_, c, hc⟩
          · exact common r none _ hq rfl (Or.inr ⟨h2, _, rfl⟩)
          · cases hc
        | some b =>
          simp only [Option.some.injEq] at hs
          rw [if_neg (by omega)] at hs
          rw [← hs]
          rcases closed_cons hclosed with ⟨h2, _⟩ | ⟨h2, _⟩
          · cases h2
          · exact common r (some b) _ hq rfl (Or.inl ⟨h2, _, rfl⟩)
    · cases hs

theorem Inv.step (hW : 2 ≤ W) (hP : ∀ st x, P (f (W - 1) st x).2) (h : Inv W B f st₀ src₀ P s) (t : Thread) {s' : St σ γ}
    (e : step W B f s t = some s') : Inv W B f st₀ src₀ P s' := by
  cases t with
  | main => exact h.main hW e
  | worker i =>
    unfold Chain.step at e
    simp only at e
    split at e
    · rename_i hi
      unfold stepWorker at e
      cases hpc : s.pc i with
      | wait =>
        rw [hpc] at e
        simp only at e
        cases hq : s.q i with
        | nil => rw [hq] at e; cases e
        | cons x r =>
          rw [hq] at e
          cases x with
          | none => simp only [Option.some.injEq] at e; rw [← e]; exact h.getPoison hW hi hpc hq
          | some b => simp only [Option.some.injEq] at e; rw [← e]; exact h.consume hW hi hpc hq
      | «have» b =>
        rw [hpc] at e
        simp only at e
        split at e
        · rename_i h0
          subst h0
          cases hsrc : s.src with
          | nil => rw [hsrc] at e; simp only [Option.some.injEq] at e; rw [← e, ← hsrc]; exact h.sourceEmpty hW hpc hsrc
          | cons v vs => rw [hsrc] at e; simp only [Option.some.injEq] at e; rw [← e]; exact h.sourceWrite hW hpc hsrc
        · rename_i h0
          simp only [Option.some.injEq] at e
          rw [← e]
          exact h.process hP hi h0 hpc
      | send b =>
        rw [hpc] at e
        simp only at e
        split at e
        · simp only [Option.some.injEq] at e; rw [← e]; exact h.produce hW hi hpc
        · cases e
      | poison =>
        rw [hpc] at e
        simp only at e
        split at e
        · simp only [Option.some.injEq] at e; rw [← e]; exact h.producePoison hW hi hpc
        · cases e
      | done => rw [hpc] at e; cases e
    · cases e

theorem Inv.reach (hW : 2 ≤ W) (hP : ∀ st x, P (f (W - 1) st x).2) {mem : Nat → γ} (hm : ∀ b, P (mem b))
    (h : Reach W B f (Chain.init B st₀ mem src₀) s) : Inv W B f st₀ src₀ P s := by
  induction h with
  | init => exact Inv.init hW hm
  | step t _ e ih => exact ih.step hW hP t e

end Cdec.Klm.Chain
