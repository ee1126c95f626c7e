import Verif.Train.RPropSpec
import Mathlib.Tactic.Linarith
import Mathlib.Tactic.Ring
/-!
# Lemmas about RProp
-/
namespace Cdec.Train.RProp

/-! ## Every variable for itself -/

/-- One variable. -/
noncomputable def trace (p : Params) (g : Nat → Num) (x0 : ℝ) : Nat → Cell × ℝ
  | 0 => ({ prev := 0, delta := p.delta0 }, x0)
  | t + 1 => one p (g t) (trace p g x0 t).1 (trace p g x0 t).2

theorem optimizeImpl_ofFn (p : Params) : ∀ {n : Nat} (g : Fin n → Num) (c : Fin n → Cell) (x : Fin n → ℝ),
    optimizeImpl p (List.ofFn g) (List.ofFn c) (List.ofFn x) =
      some (List.ofFn fun i => (one p (g i) (c i) (x i)).1, List.ofFn fun i => (one p (g i) (c i) (x i)).2)
  | 0, g, c, x => by simp [optimizeImpl]
  | n + 1, g, c, x => by
    simp only [List.ofFn_succ]
    unfold optimizeImpl
    rw [optimizeImpl_ofFn p (fun i => g i.succ) (fun i => c i.succ) (fun i => x i.succ)]

theorem run_snoc (p : Params) : ∀ (gs : List (List Num)) (s : State) (x : List ℝ) (g : List Num),
    run p s x (gs ++ [g]) = (match run p s x gs with | none => none | some (s', x') => optimize p s' g x')
  | [], s, x, g => by
    simp only [List.nil_append, run]
    cases optimize p s g x with
    | none => rfl
    | some v => rfl
  | h :: gs, s, x, g => by
    simp only [List.cons_append, run]
    cases optimize p s h x with
    | none => rfl
    | some v => exact run_snoc p gs v.1 v.2 g

theorem run_append (p : Params) : ∀ (gs hs : List (List Num)) (s : State) (x : List ℝ),
    run p s x (gs ++ hs) = (match run p s x gs with | none => none | some (s', x') => run p s' x' hs)
  | [], hs, s, x => rfl
  | h :: gs, hs, s, x => by
    simp only [List.cons_append, run]
    cases optimize p s h x with
    | none => rfl
    | some v => exact run_append p gs hs v.1 v.2

theorem run_trace {n : Nat} (p : Params) (hn : 1 ≤ n) (G : Nat → Fin n → Num) (x0 : Fin n → ℝ) (t : Nat) :
    ∃ s, run p (new p n) (List.ofFn x0) ((List.range t).map fun k => List.ofFn (G k)) =
        some (s, List.ofFn fun i => (trace p (fun k => G k i) (x0 i) t).2) ∧
      s.eval = t + 1 ∧ s.cells = List.ofFn fun i => (trace p (fun k => G k i) (x0 i) t).1 := by
  induction t with
  | zero => exact ⟨new p n, rfl, rfl, by simp [new, trace, List.ofFn_const]⟩
  | succ t ih =>
    obtain ⟨s, h1, h2, h3⟩ := ih
    rw [List.range_succ, List.map_append, List.map_singleton, run_snoc, h1]
    simp only
    unfold optimize
    rw [if_neg (by simp), h3, optimizeImpl_ofFn]
    simp only
    rw [if_neg (by simp; omega)]
    exact ⟨_, rfl, by simp [h2], rfl⟩

theorem runs_trace {n : Nat} {p : Params} (hn : 1 ≤ n) {G : Nat → Fin n → Num} {x0 : Fin n → ℝ} {x : Fin n → Nat → ℝ} (h : Runs p G x0 x)
    (i : Fin n) (t : Nat) : x i t = (trace p (fun k => G k i) (x0 i) t).2 := by
  obtain ⟨s, h1, _⟩ := h t
  obtain ⟨s', h1', _⟩ := run_trace p hn G x0 t
  rw [h1] at h1'
  have := congrArg Prod.snd (Option.some.inj h1')
  exact congrFun (List.ofFn_injective this) i

/-! ## The rule -/

theorem sign_eq {g : Num} (h : g.Ok) (h0 : g.val ≠ 0) : sign g = Real.sign g.val := by
  unfold sign
  rcases lt_or_gt_of_ne h0 with hl | hl
  · rw [h.1 hl, Real.sign_of_neg hl]; simp
  · rw [h.2 hl, Real.sign_of_pos hl]; simp

theorem prev_eq (p : Params) (g : Nat → Num) (x0 : ℝ) : ∀ t,
    (Turned (fun k => (g k).val) t → (trace p g x0 (t + 1)).1.prev = 0) ∧
    (¬ Turned (fun k => (g k).val) t → (trace p g x0 (t + 1)).1.prev = (g t).val)
  | 0 => by
    refine ⟨fun h => h.elim, fun _ => ?_⟩
    simp [trace, one]
  | t + 1 => by
    obtain ⟨i1, i2⟩ := prev_eq p g x0 t
    by_cases ht : Turned (fun k => (g k).val) t
    · have hn : ¬ Turned (fun k => (g k).val) (t + 1) := fun h => h.1 ht
      refine ⟨fun h => absurd h hn, fun _ => ?_⟩
      rw [trace, one, i1 ht]
      simp
    · constructor
      · rintro ⟨_, h⟩
        rw [trace, one, i2 ht, if_neg (not_lt.2 (le_of_lt h)), if_pos h]
      · intro h
        have h' : ¬ (g (t + 1)).val * (g t).val < 0 := fun hh => h ⟨ht, hh⟩
        rw [trace, one, i2 ht]
        split
        · rfl
        · first | rfl | rw [if_neg h']

theorem one_turned (p : Params) (g : Nat → Num) (x0 : ℝ) {t : Nat} (h : Turned (fun k => (g k).val) t) :
    trace p g x0 (t + 1) = ({ prev := 0, delta := max ((trace p g x0 t).1.delta * p.etaMinus) p.deltaMin }, (trace p g x0 t).2) := by
  cases t with
  | zero => exact h.elim
  | succ t =>
    rw [trace, one, (prev_eq p g x0 t).2 h.1, if_neg (not_lt.2 (le_of_lt h.2)), if_pos h.2]

theorem one_kept (p : Params) (g : Nat → Num) (x0 : ℝ) {t : Nat} (h : Kept (fun k => (g k).val) t) :
    trace p g x0 (t + 1) = ({ prev := (g t).val, delta := min ((trace p g x0 t).1.delta * p.etaPlus) p.deltaMax },
      (trace p g x0 t).2 - min ((trace p g x0 t).1.delta * p.etaPlus) p.deltaMax * sign (g t)) := by
  cases t with
  | zero => exact h.elim
  | succ t =>
    rw [trace, one, (prev_eq p g x0 t).2 h.1, if_pos h.2]

theorem one_else (p : Params) (g : Nat → Num) (x0 : ℝ) {t : Nat} (h1 : ¬ Turned (fun k => (g k).val) t) (h2 : ¬ Kept (fun k => (g k).val) t) :
    trace p g x0 (t + 1) = ({ prev := (g t).val, delta := (trace p g x0 t).1.delta },
      (trace p g x0 t).2 - (trace p g x0 t).1.delta * sign (g t)) := by
  cases t with
  | zero => simp [trace, one]
  | succ t =>
    have : ¬ 0 < (g (t + 1)).val * (trace p g x0 (t + 1)).1.prev ∧ ¬ (g (t + 1)).val * (trace p g x0 (t + 1)).1.prev < 0 := by
      by_cases ht : Turned (fun k => (g k).val) t
      · rw [(prev_eq p g x0 t).1 ht]; simp
      · rw [(prev_eq p g x0 t).2 ht]; exact ⟨fun h => h2 ⟨ht, h⟩, fun h => h1 ⟨ht, h⟩⟩
    rw [trace, one, if_neg this.1, if_neg this.2]

theorem not_both {g : Nat → ℝ} : ∀ {t : Nat}, Kept g t → ¬ Turned g t
  | 0, h => h.elim
  | _ + 1, h => fun h' => absurd h.2 (not_lt.2 (le_of_lt h'.2))

/-- The step sizes. -/
noncomputable def steps (p : Params) (g : Nat → Num) (x0 : ℝ) (t : Nat) : ℝ := (trace p g x0 t).1.delta

theorem move (p : Params) (g : Nat → Num) (x0 : ℝ) {t : Nat} (h : ¬ Turned (fun k => (g k).val) t) :
    (trace p g x0 (t + 1)).2 = (trace p g x0 t).2 - steps p g x0 (t + 1) * sign (g t) := by
  unfold steps
  by_cases hk : Kept (fun k => (g k).val) t
  · rw [one_kept p g x0 hk]
  · rw [one_else p g x0 h hk]

theorem rule (p : Params) (g : Nat → Num) (x0 : ℝ) (hg : ∀ t, (g t).Ok) :
    Rule p (fun t => (g t).val) (fun t => (trace p g x0 t).2) (steps p g x0) := by
  refine ⟨rfl, fun t => ⟨fun h => ?_, fun h => ?_, fun h1 h2 => ?_, fun h h0 => ?_⟩⟩
  · exact ⟨by unfold steps; rw [one_turned p g x0 h], by simp only; rw [one_turned p g x0 h]⟩
  · unfold steps; rw [one_kept p g x0 h]
  · unfold steps; rw [one_else p g x0 h1 h2]
  · simp only; rw [move p g x0 h, sign_eq (hg t) h0]

theorem steps_bound {p : Params} (hp : p.Ok) (h1 : p.deltaMin ≤ p.delta0) (h2 : p.delta0 ≤ p.deltaMax) (g : Nat → Num) (x0 : ℝ) :
    ∀ t, p.deltaMin ≤ steps p g x0 t ∧ steps p g x0 t ≤ p.deltaMax
  | 0 => ⟨h1, h2⟩
  | t + 1 => by
    obtain ⟨i1, i2⟩ := steps_bound hp h1 h2 g x0 t
    obtain ⟨e1, ⟨e2, e3⟩, _, m⟩ := hp
    unfold steps at *
    by_cases ht : Turned (fun k => (g k).val) t
    · rw [one_turned p g x0 ht]
      refine ⟨le_max_right _ _, max_le ?_ (h1.trans h2)⟩
      nlinarith
    · by_cases hk : Kept (fun k => (g k).val) t
      · rw [one_kept p g x0 hk]
        refine ⟨le_min ?_ (h1.trans h2), min_le_right _ _⟩
        nlinarith
      · rw [one_else p g x0 ht hk]; exact ⟨i1, i2⟩

theorem abs_sign (g : Num) : |sign g| = 1 := by
  unfold sign; split <;> simp

theorem sign_pos {g : Num} (h : g.Ok) (h0 : 0 < g.val) : sign g = 1 := by
  unfold sign; rw [h.2 h0]; simp

theorem sign_neg {g : Num} (h : g.Ok) (h0 : g.val < 0) : sign g = -1 := by
  unfold sign; rw [h.1 h0]; simp

/-- No turn while the sign stays. -/
theorem no_turn {g : Nat → ℝ} {t : Nat} (h : 0 < g (t + 1) * g t) : ¬ Turned g (t + 1) :=
  fun h' => absurd h (not_lt.2 (le_of_lt h'.2))

theorem falls {p : Params} (hp : p.Ok) (h1 : p.deltaMin ≤ p.delta0) (h2 : p.delta0 ≤ p.deltaMax) {g : Nat → Num} (hg : ∀ t, (g t).Ok) (x0 : ℝ)
    {T : Nat} (h : ∀ t, T ≤ t → 0 < (g t).val) (k : Nat) :
    (trace p g x0 (T + 1 + k)).2 ≤ (trace p g x0 (T + 1)).2 - k * p.deltaMin := by
  induction k with
  | zero => simp
  | succ k ih =>
    have hn : ¬ Turned (fun k => (g k).val) (T + 1 + k) := by
      rw [show T + 1 + k = (T + k) + 1 by omega]
      exact no_turn (mul_pos (h _ (by omega)) (h _ (by omega)))
    have hb := (steps_bound hp h1 h2 g x0 (T + 1 + k + 1)).1
    rw [show T + 1 + (k + 1) = T + 1 + k + 1 by omega, move p g x0 hn, sign_pos (hg _) (h _ (by omega))]
    push_cast
    linarith

theorem rises {p : Params} (hp : p.Ok) (h1 : p.deltaMin ≤ p.delta0) (h2 : p.delta0 ≤ p.deltaMax) {g : Nat → Num} (hg : ∀ t, (g t).Ok) (x0 : ℝ)
    {T : Nat} (h : ∀ t, T ≤ t → (g t).val < 0) (k : Nat) :
    (trace p g x0 (T + 1)).2 + k * p.deltaMin ≤ (trace p g x0 (T + 1 + k)).2 := by
  induction k with
  | zero => simp
  | succ k ih =>
    have hn : ¬ Turned (fun k => (g k).val) (T + 1 + k) := by
      rw [show T + 1 + k = (T + k) + 1 by omega]
      exact no_turn (mul_pos_of_neg_of_neg (h _ (by omega)) (h _ (by omega)))
    have hb := (steps_bound hp h1 h2 g x0 (T + 1 + k + 1)).1
    rw [show T + 1 + (k + 1) = T + 1 + k + 1 by omega, move p g x0 hn, sign_neg (hg _) (h _ (by omega))]
    push_cast
    linarith

theorem ddot_eq : ∀ l : List ℝ, ddot l = (l.map (· ^ 2)).sum
  | [] => rfl
  | v :: l => by simp [ddot, ddot_eq l, sq]

/-! ## Files -/

theorem le_length : ∀ (k n : Nat), (le k n).length = k
  | 0, _ => rfl
  | k + 1, n => by simp [le, le_length k]

theorem unle_le : ∀ (k n : Nat), n < 256 ^ k → unle (le k n) = n
  | 0, n, h => by simp at h; simp [le, unle, h]
  | k + 1, n, h => by
    simp only [le, unle]
    rw [unle_le k (n / 256) (by rw [Nat.pow_succ] at h; omega)]
    omega

theorem le_byte : ∀ (k n : Nat), ∀ b ∈ le k n, b < 256
  | 0, _, b, h => by simp [le] at h
  | k + 1, n, b, h => by
    simp only [le, List.mem_cons] at h
    rcases h with rfl | h
    · omega
    · exact le_byte k _ b h

theorem unle_lt : ∀ (l : List Nat), (∀ b ∈ l, b < 256) → unle l < 256 ^ l.length
  | [], _ => by simp [unle]
  | b :: l, h => by
    have := unle_lt l fun b hb => h b (by simp [hb])
    have hb := h b (by simp)
    simp only [unle, List.length_cons, Nat.pow_succ]
    omega

theorem unle_append_zero : ∀ (l : List Nat) (k : Nat), unle (l ++ List.replicate k 0) = unle l
  | [], 0 => rfl
  | [], k + 1 => by
    have := unle_append_zero [] k
    simp only [List.nil_append] at *
    simp [List.replicate_succ, unle, this]
  | b :: l, k => by simp [unle, unle_append_zero l k]

theorem vecBytes_length (d : Doubles) : ∀ l : List ℝ, (vecBytes d l).length = 8 * l.length
  | [] => rfl
  | v :: l => by simp [vecBytes, le_length, vecBytes_length d l]; omega

theorem vecBytes_byte (d : Doubles) : ∀ l : List ℝ, ∀ b ∈ vecBytes d l, b < 256
  | [], b, h => by simp [vecBytes] at h
  | v :: l, b, h => by
    simp only [vecBytes, List.mem_append] at h
    rcases h with h | h
    · exact le_byte _ _ b h
    · exact vecBytes_byte d l b h

theorem vecOf_vecBytes (d : Doubles) : ∀ l : List ℝ, (∀ v ∈ l, d.Rep v) → vecOf d l.length (vecBytes d l) = l
  | [], _ => rfl
  | v :: l, h => by
    have hv := h v (by simp)
    have h8 := le_length 8 (d.enc v)
    simp only [List.length_cons, vecOf, vecBytes]
    rw [List.take_append_of_le_length (by omega), List.take_of_length_le (by omega), unle_le 8 _ hv.1, hv.2,
      List.drop_append_of_le_length (by omega), List.drop_of_length_le (by omega), List.nil_append,
      vecOf_vecBytes d l fun v hv => h v (by simp [hv])]

theorem cellsOf_map : ∀ l : List Cell, cellsOf (l.map Cell.prev) (l.map Cell.delta) = l
  | [] => rfl
  | c :: l => by simp [cellsOf, cellsOf_map l]

theorem read_ok {old a rest : List Nat} (h : a.length = old.length) : read old { bytes := a ++ rest, good := true } = (a, { bytes := rest, good := true }) := by
  unfold read
  rw [if_neg (by simp), if_pos (by simp [h])]
  simp [← h]

theorem load_save (d : Doubles) {s s0 : State} {junk : List Nat} (hs : s0.cells.length = s.cells.length) (hj : junk.length = 8)
    (he : s.eval < 256 ^ 4) (hn : s.cells.length < 256 ^ 8) (hr : ∀ c ∈ s.cells, d.Rep c.prev ∧ d.Rep c.delta) :
    load d junk s0 (save d s) = some s := by
  unfold load save saveImpl loadImpl
  simp only [List.append_assoc]
  rw [read_ok (by simp [le_length])]
  simp only
  rw [read_ok (by simp [le_length])]
  simp only
  rw [read_ok (by simp [le_length, hj])]
  simp only
  rw [unle_le 8 _ hn, if_neg (by simp [hs])]
  rw [read_ok (by simp [vecBytes_length, hs])]
  simp only
  rw [read_ok (by simp [vecBytes_length, hs])]
  simp only
  have h4 : read (le 4 0) { bytes := le 4 magic, good := true } = (le 4 magic, { bytes := [], good := true }) := by
    have := @read_ok (le 4 0) (le 4 magic) [] (by simp [le_length])
    simpa using this
  rw [h4]
  simp only
  rw [unle_le 4 magic (by decide), if_neg (by simp), unle_le 4 _ he, hs]
  have e1 := vecOf_vecBytes d (s.cells.map Cell.prev) (by intro v hv; obtain ⟨c, hc, rfl⟩ := List.mem_map.1 hv; exact (hr c hc).1)
  have e2 := vecOf_vecBytes d (s.cells.map Cell.delta) (by intro v hv; obtain ⟨c, hc, rfl⟩ := List.mem_map.1 hv; exact (hr c hc).2)
  rw [List.length_map] at e1 e2
  rw [e1, e2, cellsOf_map]
  cases s with
  | mk e c cs =>
    cases c <;> simp [le, unle]

theorem read_bad {old : List Nat} {i : In} (h : i.good = false) : read old i = (old, i) := by
  unfold read; rw [if_pos h]

/-- After a read that succeeds. -/
theorem read_good {old : List Nat} {i : In} (h : (read old i).2.good = true) :
    i.good = true ∧ old.length ≤ i.bytes.length ∧ read old i = (i.bytes.take old.length, { bytes := i.bytes.drop old.length, good := true }) := by
  unfold read at *
  by_cases hg : i.good = false
  · rw [if_pos hg] at h; simp [hg] at h
  · have hg' : i.good = true := by simpa using hg
    rw [if_neg hg] at *
    by_cases hl : old.length ≤ i.bytes.length
    · rw [if_pos hl] at *; exact ⟨hg', hl, by simp [hg']⟩
    · rw [if_neg hl] at h; simp at h

/-- A magic number that is right has been read. -/
theorem magic_good {i : In} (hb : ∀ b ∈ i.bytes, b < 256) (h : unle (read (le 4 0) i).1 = magic) : i.good = true ∧ 4 ≤ i.bytes.length := by
  by_cases hg : i.good = false
  · rw [read_bad hg] at h; simp [le, unle, magic] at h
  · refine ⟨by simpa using hg, ?_⟩
    by_contra hl
    unfold read at h
    rw [if_neg hg, if_neg (by rw [le_length]; exact hl)] at h
    simp only at h
    have e : le 4 0 = List.replicate 4 0 := rfl
    rw [e, List.drop_replicate, unle_append_zero] at h
    have h1 := unle_lt i.bytes hb
    have h2 : (256 : Nat) ^ i.bytes.length ≤ 256 ^ 3 := Nat.pow_le_pow_right (by omega) (by omega)
    rw [h] at h1
    have : (256 : Nat) ^ 3 < magic := by decide
    omega

theorem load_length (d : Doubles) {s0 s' : State} {junk f : List Nat} (hj : junk.length = 8) (hf : ∀ b ∈ f, b < 256) (h : load d junk s0 f = some s') :
    17 + 16 * s0.cells.length ≤ f.length ∧ unle ((f.drop 5).take 8) = s0.cells.length := by
  unfold load loadImpl at h
  simp only at h
  generalize hi0 : ({ bytes := f, good := true } : In) = i0 at h
  generalize he : read (le 4 s0.eval) i0 = e at h
  generalize hc : read (le 1 (if s0.converged = true then 1 else 0)) e.2 = c at h
  generalize hn : read junk c.2 = n at h
  generalize ha : read (vecBytes d (s0.cells.map Cell.prev)) n.2 = a at h
  generalize hb : read (vecBytes d (s0.cells.map Cell.delta)) a.2 = b at h
  split at h
  · cases h
  · rename_i cells i hm
    split at hm
    · cases hm
    · rename_i hlen
      cases hm
      split at h
      · cases h
      · rename_i hmag
        have hmag' : unle (read (le 4 0) b.2).1 = magic := not_not.1 hmag
        -- the bytes stay bytes
        have mono : ∀ {old : List Nat} {i : In}, (∀ x ∈ i.bytes, x < 256) → ∀ x ∈ (read old i).2.bytes, x < 256 := by
          intro old i hx x hm
          unfold read at hm
          split at hm
          · exact hx x hm
          · split at hm
            · exact hx x (List.mem_of_mem_drop hm)
            · simp at hm
        have m0 : ∀ x ∈ i0.bytes, x < 256 := by rw [← hi0]; exact hf
        have m1 : ∀ x ∈ e.2.bytes, x < 256 := by rw [← he]; exact mono m0
        have m2 : ∀ x ∈ c.2.bytes, x < 256 := by rw [← hc]; exact mono m1
        have m3 : ∀ x ∈ n.2.bytes, x < 256 := by rw [← hn]; exact mono m2
        have m4 : ∀ x ∈ a.2.bytes, x < 256 := by rw [← ha]; exact mono m3
        have m5 : ∀ x ∈ b.2.bytes, x < 256 := by rw [← hb]; exact mono m4
        obtain ⟨g5, l5⟩ := magic_good m5 hmag'
        obtain ⟨g4, l4, r4⟩ := read_good (show (read (vecBytes d (s0.cells.map Cell.delta)) a.2).2.good = true by rw [hb]; exact g5)
        obtain ⟨g3, l3, r3⟩ := read_good (show (read (vecBytes d (s0.cells.map Cell.prev)) n.2).2.good = true by rw [ha]; exact g4)
        obtain ⟨g2, l2, r2⟩ := read_good (show (read junk c.2).2.good = true by rw [hn]; exact g3)
        obtain ⟨g1, l1, r1⟩ := read_good (show (read (le 1 (if s0.converged = true then 1 else 0)) e.2).2.good = true by rw [hc]; exact g2)
        obtain ⟨g0, l0, r0⟩ := read_good (show (read (le 4 s0.eval) i0).2.good = true by rw [he]; exact g1)
        rw [hb] at r4; rw [ha] at r3; rw [hn] at r2; rw [hc] at r1; rw [he] at r0
        rw [r4] at l5
        rw [r3] at l4 l5
        rw [r2] at l3 l4 l5 hlen
        rw [r1] at l2 l3 l4 l5 hlen
        rw [r0] at l1 l2 l3 l4 l5 hlen
        rw [← hi0] at l0 l1 l2 l3 l4 l5 hlen
        simp only [vecBytes_length, le_length, List.length_map, List.length_drop, hj, List.drop_drop] at *
        refine ⟨by omega, not_not.1 hlen⟩

theorem save_byte (d : Doubles) (s : State) : ∀ b ∈ save d s, b < 256 := by
  intro b hb
  unfold save saveImpl at hb
  simp only [List.mem_append] at hb
  rcases hb with ((h | h) | (h | h) | h) | h
  · exact le_byte _ _ b h
  · exact le_byte _ _ b h
  · exact le_byte _ _ b h
  · exact vecBytes_byte d _ b h
  · exact vecBytes_byte d _ b h
  · exact le_byte _ _ b h

theorem save_length (d : Doubles) (s : State) : (save d s).length = 17 + 16 * s.cells.length := by
  simp [save, saveImpl, le_length, vecBytes_length]; omega

theorem save_count (d : Doubles) (s : State) (hn : s.cells.length < 256 ^ 8) : unle (((save d s).drop 5).take 8) = s.cells.length := by
  unfold save saveImpl
  simp only [List.append_assoc]
  have e : le 4 s.eval ++ (le 1 (if s.converged = true then 1 else 0) ++ (le 8 s.cells.length ++ (vecBytes d (s.cells.map Cell.prev) ++
      (vecBytes d (s.cells.map Cell.delta) ++ le 4 magic)))) =
      (le 4 s.eval ++ le 1 (if s.converged = true then 1 else 0)) ++ (le 8 s.cells.length ++ (vecBytes d (s.cells.map Cell.prev) ++
      (vecBytes d (s.cells.map Cell.delta) ++ le 4 magic))) := by simp
  rw [e, List.drop_left' (by simp [le_length]), List.take_left' (le_length 8 _), unle_le 8 _ hn]

end Cdec.Train.RProp
