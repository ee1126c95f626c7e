import Verif.Klm.ChainStep
/-!
# A chain does not block, ends, and has done all the work when it has ended
-/
namespace Cdec.Klm.Chain
variable {σ γ : Type} {W B : Nat} {f : Nat → σ → γ → σ × γ} {st₀ : Nat → σ} {src₀ : List γ} {P : γ → Prop} {s : St σ γ}

theorem le_tot_two {g : Nat → Nat} {n i j : Nat} (hi : i < n) (hj : j < n) (hne : i ≠ j) : g i + g j ≤ tot g n := by
  have h1 := tot_change (g := g) (g' := upd g i 0) hi (fun k _ hk => upd_ne _ _ hk)
  have h2 := le_tot (g := upd g i 0) (n := n) hj
  rw [upd_ne _ _ (Ne.symm hne)] at h2
  rw [upd_same] at h1
  omega

/-- There is always room for what a worker holds. -/
theorem Inv.room (hW : 2 ≤ W) (h : Inv W B f st₀ src₀ P s) {i : Nat} (hi : i < W) (hn : (s.pc i).num = 1) :
    (s.q (nxt W i)).length < B := by
  have h1 := le_tot_two (g := tok s) (nxt_lt hW hi) hi (nxt_ne hW hi)
  have h2 := h.total
  simp only [tok] at h1 h2
  omega

theorem Inv.progress (hW : 2 ≤ W) (hB : 1 ≤ B) (h : Inv W B f st₀ src₀ P s) (hm : ∀ k, s.main ≠ .finished k) :
    ∃ t s', Chain.step W B f s t = some s' := by
  by_contra hno
  have hno : ∀ t s', Chain.step W B f s t ≠ some s' := fun t s' e => hno ⟨t, s', e⟩
  have hw : ∀ i < W, s.pc i = .done ∨ (s.pc i = .wait ∧ s.q i = []) := by
    intro i hi
    have hn : ∀ s', stepWorker W B f i s ≠ some s' := by
      intro s' e
      exact hno (.worker i) s' (by simp only [Chain.step, if_pos hi]; exact e)
    unfold stepWorker at hn
    cases hpc : s.pc i with
    | wait =>
      right
      refine ⟨rfl, ?_⟩
      rw [hpc] at hn
      cases hq : s.q i with
      | nil => rfl
      | cons x r =>
        rw [hq] at hn
        cases x <;> exact absurd rfl (hn _)
    | «have» b =>
      rw [hpc] at hn
      simp only at hn
      split at hn
      · cases hsrc : s.src with
        | nil => rw [hsrc] at hn; exact absurd rfl (hn _)
        | cons v vs => rw [hsrc] at hn; exact absurd rfl (hn _)
      · exact absurd rfl (hn _)
    | send b =>
      rw [hpc] at hn
      simp only at hn
      rw [if_pos (h.room hW hi (by rw [hpc]; rfl))] at hn
      exact absurd rfl (hn _)
    | poison =>
      rw [hpc] at hn
      simp only at hn
      rw [if_pos (h.room hW hi (by rw [hpc]; rfl))] at hn
      exact absurd rfl (hn _)
    | done => exact Or.inl rfl
  rcases hw 0 (by omega) with h0 | ⟨h0, _⟩
  · have hall : ∀ i, i < W → s.pc i = .done := by
      intro i
      induction i with
      | zero => exact fun _ => h0
      | succ i ih =>
        intro hi
        have hd := ih (by omega)
        rcases hw (i + 1) hi with h1 | ⟨h1, h2⟩
        · exact h1
        · rcases h.after i hi hd with ⟨h3, _⟩ | ⟨_, bs, h4⟩
          · rw [h1] at h3; exact h3.elim
          · rw [h2] at h4; simp at h4
    rcases h.ring' (hall _ (by omega)) with ⟨⟨bs, hq⟩, k, hk⟩ | ⟨_, k, hk⟩
    · have hn : ∀ s', stepMain W B s ≠ some s' := fun s' e => hno .main s' e
      unfold stepMain at hn
      rw [hk] at hn
      simp only at hn
      rw [if_pos (by
        rw [List.all_eq_true]
        intro i hi
        simp [hall i (by simpa using hi)])] at hn
      cases bs with
      | nil => rw [hq] at hn; exact absurd rfl (hn _)
      | cons b bs => rw [hq] at hn; exact absurd rfl (hn _)
    · exact hm k hk
  · have hall : ∀ i, i < W → tok s i = 0 := by
      intro i hi
      rcases hw i hi with h1 | ⟨h1, h2⟩
      · have := h.done_before i hi h1 0 (by omega)
        rw [h0] at this; cases this
      · simp [tok, h1, h2, Pc.num]
    have ht := h.total
    rw [tot_zero hall] at ht
    have := (h.ring (fun e => by
      have := h.done_before (W - 1) (by omega) e 0 (by omega)
      rw [h0] at this; cases this)).2
    rw [this] at ht
    simp [Main.count] at ht
    omega

theorem Inv.not_aborted (h : Inv W B f st₀ src₀ P s) (k : Nat) : s.main ≠ .aborted k := by
  intro e
  by_cases hd : s.pc (W - 1) = .done
  · rcases h.ring' hd with ⟨_, j, h1⟩ | ⟨_, j, h1⟩ <;> rw [e] at h1 <;> cases h1
  · have := (h.ring hd).2
    rw [e] at this; cases this

/-! ## How long a run can be -/

def qw (W i : Nat) : Nat := if i = 0 then 3 else 4 * (W - i) + 3

def pw (W i : Nat) : Pc → Nat
  | .wait => if i = 0 then 4 * W + 10 else 0
  | .have _ => if i = 0 then 4 * W + 12 else 4 * (W - i) + 2
  | .send _ => if i = 0 then 8 * W + 11 else 4 * (W - i) + 1
  | .poison => 4 * (W - i) + 1
  | .done => 0

def wt (W : Nat) (s : St σ γ) (i : Nat) : Nat := (s.q i).length * qw W i + pw W i (s.pc i)

/-- What is left to do. -/
def left (W : Nat) (s : St σ γ) : Nat := (4 * W + 10) * s.src.length + tot (wt W s) W

/-- What the sums do when only worker `i` changes, and when a token goes to the next queue. -/
theorem tot_one {s s' : St σ γ} {i : Nat} (hi : i < W) (hq : ∀ j, j ≠ i → s'.q j = s.q j) (hp : ∀ j, j ≠ i → s'.pc j = s.pc j) :
    tot (wt W s') W + wt W s i = tot (wt W s) W + wt W s' i :=
  tot_change hi (fun j _ hj => by simp [wt, hq j hj, hp j hj])

theorem qw_nxt (hW : 2 ≤ W) {i : Nat} (hi : i < W) : qw W (nxt W i) + 1 ≤ 4 * (W - i) + 1 := by
  unfold qw nxt
  split
  · simp; omega
  · split <;> omega

theorem tot_move (hW : 2 ≤ W) {s s' : St σ γ} {i : Nat} (hi : i < W) (x : Option Nat)
    (hq1 : s'.q (nxt W i) = s.q (nxt W i) ++ [x]) (hq : ∀ j, j ≠ nxt W i → s'.q j = s.q j) (hp : ∀ j, j ≠ i → s'.pc j = s.pc j) :
    tot (wt W s') W + pw W i (s.pc i) = tot (wt W s) W + pw W i (s'.pc i) + qw W (nxt W i) := by
  have hnl := nxt_lt hW hi
  have hnn := nxt_ne hW hi
  have h1 := tot_change (g := wt W s) (g' := upd (wt W s) i (wt W s' i)) hi (fun j _ hj => upd_ne _ _ hj)
  have h2 := tot_change (g := upd (wt W s) i (wt W s' i)) (g' := wt W s') hnl (fun j _ hj => by
    by_cases hji : j = i
    · subst hji; rw [upd_same]
    · rw [upd_ne _ _ hji]; simp [wt, hq j hj, hp j hji])
  rw [upd_same] at h1
  rw [upd_ne _ _ hnn] at h2
  have h3 : wt W s i + pw W i (s'.pc i) = wt W s' i + pw W i (s.pc i) := by
    unfold wt; rw [hq i (Ne.symm hnn)]; omega
  have h4 : wt W s' (nxt W i) = wt W s (nxt W i) + qw W (nxt W i) := by
    unfold wt; rw [hq1, hp _ hnn, List.length_append, Nat.add_mul]; simp; omega
  omega

theorem left_step (hW : 2 ≤ W) {s s' : St σ γ} {t : Thread} (e : Chain.step W B f s t = some s') : left W s' < left W s := by
  cases t with
  | main =>
    unfold Chain.step stepMain at e
    simp only at e
    have key : ∀ (x : Option Nat) (r : List (Option Nat)) (M : Main), s.q 0 = x :: r →
        left W { s with q := upd s.q 0 r, main := M } < left W s := by
      intro x r M hq
      have := tot_one (W := W) (s := s) (s' := { s with q := upd s.q 0 r, main := M }) (i := 0) (by omega)
        (fun j hj => upd_ne _ _ hj) (fun _ _ => rfl)
      have h1 : wt W s 0 = wt W { s with q := upd s.q 0 r, main := M } 0 + 3 := by
        unfold wt; simp only [upd_same, hq, List.length_cons, qw, if_pos]; omega
      simp only [left]
      omega
    cases hm : s.main with
    | finished k => rw [hm] at e; cases e
    | aborted k => rw [hm] at e; cases e
    | run k =>
      rw [hm] at e
      simp only at e
      split at e
      · cases hq : s.q 0 with
        | nil => rw [hq] at e; cases e
        | cons x r =>
          rw [hq] at e
          cases x with
          | none => simp only [Option.some.injEq] at e; rw [← e]; exact key _ r _ hq
          | some b => simp only [Option.some.injEq] at e; rw [← e]; exact key _ r _ hq
      · cases e
  | worker i =>
    unfold Chain.step at e
    simp only at e
    split at e
    · rename_i hi
      unfold stepWorker at e
      cases hpc : s.pc i with
      | wait =>
        rw [hpc] at e
        simp only at e
        cases hq : s.q i with
        | nil => rw [hq] at e; cases e
        | cons x r =>
          rw [hq] at e
          have key : ∀ (p : Pc) (s' : St σ γ), s'.q = upd s.q i r → s'.pc = upd s.pc i p → s'.src = s.src →
              pw W i p < qw W i + pw W i .wait → left W s' < left W s := by
            intro p s' h1 h2 h3 h4
            have := tot_one (W := W) (s := s) (s' := s') hi (fun j hj => by rw [h1]; exact upd_ne _ _ hj)
              (fun j hj => by rw [h2]; exact upd_ne _ _ hj)
            have h5 : wt W s i = r.length * qw W i + qw W i + pw W i .wait := by
              unfold wt; rw [hq, hpc, List.length_cons, Nat.add_mul]; omega
            have h6 : wt W s' i = r.length * qw W i + pw W i p := by
              unfold wt; rw [h1, h2, upd_same, upd_same]
            simp only [left, h3]
            omega
          cases x with
          | none =>
            simp only [Option.some.injEq] at e; rw [← e]
            refine key .poison _ rfl rfl rfl ?_
            unfold pw qw; by_cases h0 : i = 0
            · subst h0; simp only [if_pos]; omega
            · simp only [if_neg h0]; omega
          | some b =>
            simp only [Option.some.injEq] at e; rw [← e]
            refine key (.have b) _ rfl rfl rfl ?_
            unfold pw qw; by_cases h0 : i = 0
            · subst h0; simp only [if_pos]; omega
            · simp only [if_neg h0]; omega
      | «have» b =>
        rw [hpc] at e
        simp only at e
        have key : ∀ (p : Pc) (s' : St σ γ), s'.q = s.q → s'.pc = upd s.pc i p →
            (4 * W + 10) * s'.src.length + pw W i p < (4 * W + 10) * s.src.length + pw W i (.have b) → left W s' < left W s := by
          intro p s' h1 h2 h4
          have := tot_one (W := W) (s := s) (s' := s') hi (fun j hj => by rw [h1])
            (fun j hj => by rw [h2]; exact upd_ne _ _ hj)
          have h6 : wt W s' i + pw W i (.have b) = wt W s i + pw W i p := by
            unfold wt; rw [h1, h2, upd_same, hpc]; omega
          simp only [left]
          omega
        split at e
        · rename_i h0
          subst h0
          cases hsrc : s.src with
          | nil =>
            rw [hsrc] at e; simp only [Option.some.injEq] at e; rw [← e]
            refine key .poison _ rfl rfl ?_
            rw [hsrc]
            simp only [pw, if_pos]; omega
          | cons v vs =>
            rw [hsrc] at e; simp only [Option.some.injEq] at e; rw [← e]
            refine key (.send b) _ rfl rfl ?_
            rw [hsrc]
            simp only [pw, if_pos, List.length_cons, Nat.mul_add]; omega
        · rename_i h0
          simp only [Option.some.injEq] at e
          rw [← e]
          refine key (.send b) _ rfl rfl ?_
          simp only [pw, if_neg h0]; omega
      | send b =>
        rw [hpc] at e
        simp only at e
        split at e
        · simp only [Option.some.injEq] at e; rw [← e]
          have := tot_move (W := W) hW (s := s) (s' := { s with q := upd s.q (nxt W i) (s.q (nxt W i) ++ [some b]), pc := upd s.pc i .wait, sent := upd s.sent i (s.sent i ++ [s.mem b]) })
            hi (some b) (upd_same _ _ _) (fun j hj => upd_ne _ _ hj) (fun j hj => upd_ne _ _ hj)
          have h1 := qw_nxt hW hi
          simp only [upd_same, hpc] at this
          simp only [left]
          by_cases h0 : i = 0
          · subst h0; simp only [pw, if_pos] at this; omega
          · simp only [pw, if_neg h0] at this; omega
        · cases e
      | poison =>
        rw [hpc] at e
        simp only at e
        split at e
        · simp only [Option.some.injEq] at e; rw [← e]
          have := tot_move (W := W) hW (s := s) (s' := { s with q := upd s.q (nxt W i) (s.q (nxt W i) ++ [none]), pc := upd s.pc i .done })
            hi none (upd_same _ _ _) (fun j hj => upd_ne _ _ hj) (fun j hj => upd_ne _ _ hj)
          have h1 := qw_nxt hW hi
          simp only [upd_same, hpc] at this
          simp only [left]
          simp only [pw] at this; omega
        · cases e
      | done => rw [hpc] at e; cases e
    · cases e

theorem left_init (hW : 2 ≤ W) (mem : Nat → γ) :
    left W (Chain.init B st₀ mem src₀) = (4 * W + 10) * src₀.length + 3 * B + 4 * W + 10 := by
  have h1 := tot_change (g := fun _ => 0) (g' := wt W (Chain.init B st₀ mem src₀)) (n := W) (i := 0) (by omega)
    (fun j _ hj => by simp [wt, Chain.init, hj, pw])
  have h2 : tot (fun _ => 0) W = 0 := tot_zero (fun _ _ => rfl)
  have h3 : wt W (Chain.init B st₀ mem src₀) 0 = B * 3 + (4 * W + 10) := by simp [wt, Chain.init, pw, qw]
  rw [h2, h3] at h1
  have h4 : (Chain.init B st₀ mem src₀).src = src₀ := rfl
  unfold left
  rw [h4]
  omega

/-! ## What has been done -/

theorem alone_prefix (f : σ → γ → σ × γ) : ∀ (l l' : List γ) (s : σ), l <+: l' → (alone f s l).2 <+: (alone f s l').2 := by
  intro l
  induction l with
  | nil => intro l' s _; exact List.nil_prefix
  | cons x l ih =>
    intro l' s h
    obtain ⟨r, rfl⟩ := h
    simp only [List.cons_append, alone]
    rw [List.cons_prefix_cons]
    exact ⟨rfl, ih _ _ ⟨r, rfl⟩⟩

theorem Inv.sent_prefix (h : Inv W B f st₀ src₀ P s) {i : Nat} (h1 : 1 ≤ i) (hi : i < W) :
    s.sent i <+: (alone (f i) (st₀ i) (s.seen i)).2 := by
  have := h.work i h1 hi
  cases hpc : s.pc i with
  | «have» b =>
    rw [hpc] at this
    obtain ⟨l, l1, l2, _⟩ := this
    rw [l1, l2]
    exact alone_prefix _ _ _ _ ⟨_, rfl⟩
  | send b =>
    rw [hpc] at this
    rw [← this.1]
    exact ⟨_, rfl⟩
  | wait => rw [hpc] at this; rw [this.1]; exact List.prefix_rfl
  | poison => rw [hpc] at this; rw [this.1]; exact List.prefix_rfl
  | done => rw [hpc] at this; rw [this.1]; exact List.prefix_rfl

theorem Inv.seen_prefix (h : Inv W B f st₀ src₀ P s) : ∀ i, i + 1 < W → s.seen (i + 1) <+: given f st₀ src₀ i := by
  intro i
  induction i with
  | zero =>
    intro hi
    have h1 : s.sent 0 <+: src₀ := ⟨_, by rw [← List.append_assoc]; exact h.source⟩
    refine List.IsPrefix.trans ⟨_, (h.flow 0 hi).symm⟩ h1
  | succ i ih =>
    intro hi
    refine List.IsPrefix.trans ⟨_, (h.flow (i + 1) hi).symm⟩ ?_
    refine (h.sent_prefix (by omega) (by omega)).trans ?_
    exact alone_prefix _ _ _ _ (ih (by omega))

theorem Inv.complete (hW : 2 ≤ W) (h : Inv W B f st₀ src₀ P s) {k : Nat} (hm : s.main = .finished k) :
    ∀ i, i + 1 < W → s.seen (i + 1) = given f st₀ src₀ i ∧
      s.st (i + 1) = (alone (f (i + 1)) (st₀ (i + 1)) (given f st₀ src₀ i)).1 := by
  have hd : ∀ i < W, s.pc i = .done := by
    have : s.pc (W - 1) = .done := by
      by_contra hn
      have := (h.ring hn).2
      rw [hm] at this; cases this
    intro i hi
    exact h.done_before (W - 1) (by omega) this i (by omega)
  have hq : ∀ i, i + 1 < W → s.q (i + 1) = [] := by
    intro i hi
    rcases h.after i hi (hd i (by omega)) with ⟨_, h1⟩ | ⟨h1, _⟩
    · exact h1
    · rw [hd _ hi] at h1; exact absurd trivial h1
  have hs : ∀ i, i + 1 < W → s.seen (i + 1) = s.sent i := by
    intro i hi
    rw [h.flow i hi, hq i hi]; simp [conts]
  have hwk : ∀ i, 1 ≤ i → i < W → s.sent i = (alone (f i) (st₀ i) (s.seen i)).2 ∧ s.st i = (alone (f i) (st₀ i) (s.seen i)).1 := by
    intro i h1 hi
    have := h.work i h1 hi
    rw [hd i hi] at this
    exact this
  have hseen : ∀ i, i + 1 < W → s.seen (i + 1) = given f st₀ src₀ i := by
    intro i
    induction i with
    | zero =>
      intro hi
      have h0 := h.source
      rw [hd 0 (by omega), h.sourceEnd (by rw [hd 0 (by omega)]; trivial)] at h0
      simp only [pend, List.append_nil] at h0
      rw [hs 0 hi, h0]; rfl
    | succ i ih =>
      intro hi
      rw [hs _ hi, (hwk (i + 1) (by omega) (by omega)).1, ih (by omega)]; rfl
  intro i hi
  exact ⟨hseen i hi, by rw [(hwk (i + 1) (by omega) hi).2, hseen i hi]⟩

end Cdec.Klm.Chain
