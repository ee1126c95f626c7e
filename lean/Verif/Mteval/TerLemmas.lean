import Verif.Mteval.Ter
import Verif.Mteval.EditLemmas
import Mathlib.Tactic.IntervalCases
import Mathlib.Data.Nat.Bitwise
namespace Cdec.Ter

open Cdec.Edit

variable {α : Type _} [DecidableEq α]

theorem foldlM_inv {σ β : Type _} (P : σ → Prop) (f : σ → β → Option σ) : ∀ (l : List β) (s : σ),
    (∀ s x, P s → x ∈ l → ∃ s', f s x = some s' ∧ P s') → P s → ∃ s', l.foldlM f s = some s' ∧ P s'
  | [], s, _, hs => ⟨s, rfl, hs⟩
  | x :: l, s, h, hs => by
    obtain ⟨s1, e1, p1⟩ := h s x hs (by simp)
    obtain ⟨s2, e2, p2⟩ := foldlM_inv P f l s1 (fun s y hs hy => h s y hs (by simp [hy])) p1
    refine ⟨s2, ?_, p2⟩
    rw [List.foldlM_cons, e1]; exact e2

/-! ## Packing -/

theorem testBit_big (x i : Nat) (k : Nat) (hx : x < 2 ^ k) (hi : k ≤ i) : x.testBit i = false :=
  Nat.testBit_lt_two_pow (Nat.lt_of_lt_of_le hx (Nat.pow_le_pow_right (by decide) hi))

theorem bit1 : ∀ i < 10, Nat.testBit 0x3ff i = true := by decide
theorem bit2 : ∀ i < 10, Nat.testBit 0xfff003ff i = true := by decide
theorem bit3 : ∀ i < 20, Nat.testBit 0xfffff i = true := by decide
theorem bit4 : ∀ i < 11, Nat.testBit 0x7ff i = true := by decide

theorem pack_begin (b e m : Nat) (hb : b < 1024) : shiftBegin (pack b e m) = b := by
  unfold shiftBegin pack
  apply Nat.eq_of_testBit_eq
  intro i
  simp only [Nat.testBit_and, Nat.testBit_or, Nat.testBit_shiftLeft, Nat.zero_and, Nat.zero_or]
  by_cases hi : i < 10
  · have h10 : ¬ 10 ≤ i := by omega
    have h20 : ¬ 20 ≤ i := by omega
    simp [bit1 i hi, bit2 i hi, bit3 i (by omega), h10, h20]
  · have h1 : Nat.testBit 0x3ff i = false := testBit_big _ _ 10 (by decide) (by omega)
    have h2 : b.testBit i = false := testBit_big _ _ 10 hb (by omega)
    simp [h1, h2]

theorem pack_end (b e m : Nat) (he : e < 1024) : shiftEnd (pack b e m) = e := by
  unfold shiftEnd pack
  apply Nat.eq_of_testBit_eq
  intro i
  simp only [Nat.testBit_and, Nat.testBit_or, Nat.testBit_shiftLeft, Nat.testBit_shiftRight, Nat.zero_and, Nat.zero_or]
  by_cases hi : i < 10
  · have h1 : Nat.testBit 0x3ff (10 + i) = false := testBit_big _ _ 10 (by decide) (by omega)
    have h20 : ¬ 20 ≤ 10 + i := by omega
    simp [bit1 i hi, h1, bit3 (10 + i) (by omega), h20]
  · have h1 : Nat.testBit 0x3ff i = false := testBit_big _ _ 10 (by decide) (by omega)
    have h2 : e.testBit i = false := testBit_big _ _ 10 he (by omega)
    simp [h1, h2]

theorem pack_moveto_bits (b e m : Nat) (hm : m < 2048) : (pack b e m >>> 20) &&& 0x7ff = m := by
  unfold pack
  apply Nat.eq_of_testBit_eq
  intro i
  simp only [Nat.testBit_and, Nat.testBit_or, Nat.testBit_shiftLeft, Nat.testBit_shiftRight, Nat.zero_and, Nat.zero_or]
  have h20 : Nat.testBit 0xfffff (20 + i) = false := testBit_big _ _ 20 (by decide) (by omega)
  by_cases hi : i < 11
  · simp [h20, bit4 i hi]
  · have h1 : Nat.testBit 0x7ff i = false := testBit_big _ _ 11 (by decide) (by omega)
    have h2 : m.testBit i = false := testBit_big _ _ 11 hm (by omega)
    simp [h1, h2]

theorem pack_moveto (b e m : Nat) (hm : m ≤ 1024) : shiftMoveto (pack b e m) = m := by
  unfold shiftMoveto
  rw [pack_moveto_bits b e m (by omega)]
  rw [if_neg (by omega)]

/-! ## Matches -/

def MatchOk (n : Nat) (nmap : Matches α) : Prop := ∀ g s, s ∈ nmap g → s + g.length ≤ n

theorem matchLens_ok (n : Nat) (both : α → Bool) (start : Nat) : ∀ (rest cp : List α) (nmap : Matches α),
    MatchOk n nmap → start + cp.length + rest.length ≤ n → MatchOk n (matchLens both start nmap cp rest)
  | [], _, _, h, _ => h
  | w :: rest, cp, nmap, h, hl => by
    rw [matchLens]
    split
    · exact h
    · apply matchLens_ok n both start rest
      · intro g s hs
        simp only at hs
        split at hs
        · rename_i hg
          rcases List.mem_append.mp hs with hs | hs
          · exact h g s hs
          · rw [List.mem_singleton] at hs
            subst hs; subst hg
            simp at hl ⊢; omega
        · exact h g s hs
      · simp at hl ⊢; omega

theorem matchStarts_ok (n : Nat) (both : α → Bool) : ∀ (rest : List α) (start : Nat) (nmap : Matches α),
    MatchOk n nmap → start + rest.length ≤ n → MatchOk n (matchStarts both start nmap rest)
  | [], _, _, h, _ => h
  | w :: rest, start, nmap, h, hl => by
    rw [matchStarts]
    apply matchStarts_ok n both rest
    · split
      · exact h
      · apply matchLens_ok n both start _ _ _ h
        have : ((w :: rest).take 10).length ≤ (w :: rest).length := List.length_take_le' _ _
        simp at hl this ⊢; omega
    · simp at hl ⊢; omega

theorem buildWordMatches_ok (ref hyp : List α) : MatchOk ref.length (buildWordMatches ref hyp) :=
  matchStarts_ok _ _ _ _ _ (fun g s h => by simp at h) (by simp)

/-! ## Vectors -/

omit [DecidableEq α] in
theorem alignVecs_ok {p : List Trans} {h r : List α} (hp : Explains p h r) : ∀ hpos : Int, -1 ≤ hpos →
    (alignVecs hpos p).1.length = h.length ∧ (alignVecs hpos p).2.1.length = r.length ∧
    (alignVecs hpos p).2.2.length = r.length ∧
    ∀ v ∈ (alignVecs hpos p).2.2, -1 ≤ v ∧ v < hpos + 1 + h.length := by
  induction hp with
  | nil => intro hpos _; simp [alignVecs]
  | keep x _ ih =>
    intro hpos hh
    obtain ⟨h1, h2, h3, h4⟩ := ih (hpos + 1) (by omega)
    simp only [alignVecs, List.length_cons, h1, h2, h3, true_and]
    intro v hv
    rcases List.mem_cons.mp hv with rfl | hv
    · omega
    · have := h4 v hv; omega
  | subst x y _ _ ih =>
    intro hpos hh
    obtain ⟨h1, h2, h3, h4⟩ := ih (hpos + 1) (by omega)
    simp only [alignVecs, List.length_cons, h1, h2, h3, true_and]
    intro v hv
    rcases List.mem_cons.mp hv with rfl | hv
    · omega
    · have := h4 v hv; omega
  | inserted x _ ih =>
    intro hpos hh
    obtain ⟨h1, h2, h3, h4⟩ := ih (hpos + 1) (by omega)
    simp only [alignVecs, List.length_cons, h1, h2, h3, true_and]
    intro v hv
    have := h4 v hv; omega
  | deleted y _ ih =>
    intro hpos hh
    obtain ⟨h1, h2, h3, h4⟩ := ih hpos hh
    simp only [alignVecs, List.length_cons, h1, h2, h3, true_and]
    intro v hv
    rcases List.mem_cons.mp hv with rfl | hv
    · omega
    · have := h4 v hv; omega

theorem anyFrom_some (v : List Bool) : ∀ (n lo : Nat), lo + n ≤ v.length → ∃ b, anyFrom v lo n = some b
  | 0, _, _ => ⟨false, rfl⟩
  | n + 1, lo, h => by
    rw [anyFrom, List.getElem?_eq_getElem (show lo < v.length by omega)]
    cases v[lo]'(by omega) with
    | true => exact ⟨true, rfl⟩
    | false => exact anyFrom_some v n (lo + 1) (by omega)

/-! ## Performing a shift -/

omit [DecidableEq α] in
theorem slice_some (l : List α) (lo hi : Nat) (h : hi ≤ l.length) : slice l lo hi = some ((l.drop lo).take (hi - lo)) := by
  unfold slice
  split
  · rename_i h'
    rw [Nat.sub_eq_zero_of_le h']; simp
  · rfl

/-- Where the block goes, counted in the words that are not part of it. -/
def landing (len start stop : Nat) (moveto : Int) : Nat :=
  if moveto = -1 then 0
  else if moveto < start then moveto.toNat + 1
  else if stop < moveto then start + (moveto.toNat - stop)
  else start + min (moveto.toNat - start) (len - 1 - stop)

omit [DecidableEq α] in
theorem performShift_eq (l : List α) (start stop : Nat) (mv : Int) (h1 : start ≤ stop) (h2 : stop < l.length)
    (h3 : -1 ≤ mv) (h4 : mv < l.length) :
    let block := (l.drop start).take (stop + 1 - start)
    let rest := l.take start ++ l.drop (stop + 1)
    performShift l start stop mv =
      some (rest.take (landing l.length start stop mv) ++ block ++ rest.drop (landing l.length start stop mv)) := by
  intro block rest
  have hblock : block.length = stop + 1 - start := by simp [block]; omega
  have hrest : rest.length = l.length - (stop + 1 - start) := by simp [rest]; omega
  have hlen : ∀ p, (rest.take p ++ block ++ rest.drop p).length = l.length := by
    intro p; simp [List.length_append, hblock, hrest]; omega
  have e0 : slice l start (stop + 1) = some block := slice_some l _ _ (by omega)
  have e1 : slice l 0 start = some (l.take start) := by rw [slice_some l _ _ (by omega)]; simp
  have e2 : ∀ k, slice l k l.length = some (l.drop k) := by
    intro k
    rw [slice_some l _ _ (Nat.le_refl _), List.take_of_length_le (by simp)]
  unfold performShift landing
  by_cases hm1 : mv = -1
  · simp only [hm1, if_true, e0, e1, e2]
    have := hlen 0
    simp only [List.take_zero, List.drop_zero, List.nil_append] at this ⊢
    have e : block ++ l.take start ++ l.drop (stop + 1) = block ++ rest := by simp [rest]
    simp only [bind, Option.bind, e]
    rw [if_pos this]
  · have hmn : ¬ mv < -1 := by omega
    obtain ⟨m, rfl⟩ : ∃ m : Nat, mv = (m : Int) := ⟨mv.toNat, by omega⟩
    simp only [hm1, hmn, if_false, Int.toNat_natCast]
    by_cases hms : m < start
    · have : (m : Int) < start := by omega
      simp only [hms, this, if_true, e0]
      have e3 : slice l 0 (m + 1) = some (l.take (m + 1)) := by rw [slice_some l _ _ (by omega)]; simp
      have e4 : slice l (m + 1) start = some ((l.drop (m + 1)).take (start - (m + 1))) := slice_some l _ _ (by omega)
      simp only [e3, e4, e2, bind, Option.bind]
      have t1 : rest.take (m + 1) = l.take (m + 1) := by
        simp only [rest]
        rw [List.take_append_of_le_length (by simp; omega), List.take_take, Nat.min_eq_left (by omega)]
      have t2 : rest.drop (m + 1) = (l.drop (m + 1)).take (start - (m + 1)) ++ l.drop (stop + 1) := by
        simp only [rest]
        rw [List.drop_append_of_le_length (by simp; omega), List.drop_take]
      have := hlen (m + 1)
      rw [t1, t2] at this ⊢
      simp only [← List.append_assoc] at this ⊢
      rw [if_pos this]
    · have : ¬ (m : Int) < start := by omega
      simp only [hms, this, if_false]
      have key : ∀ k, k ≤ l.length → stop ≤ k → k ≥ stop + 1 ∨ True →
          ∀ q, q = start + (k - (stop + 1)) →
          rest.take q = l.take start ++ (l.drop (stop + 1)).take (k - (stop + 1)) ∧
          rest.drop q = (l.drop (stop + 1)).drop (k - (stop + 1)) := by
        intro k _ _ _ q hq
        subst hq
        have hl : (l.take start).length = start := by simp; omega
        simp only [rest]
        constructor
        · rw [List.take_append, hl, List.take_of_length_le (by omega)]
          congr 2; omega
        · rw [List.drop_append, hl, List.drop_of_length_le (by omega)]
          simp
      by_cases hms2 : stop < m
      · have : (stop : Int) < (m : Int) := by omega
        simp only [hms2, this, if_true, e0, e1]
        have e4 : slice l (stop + 1) (m + 1) = some ((l.drop (stop + 1)).take (m + 1 - (stop + 1))) :=
          slice_some l _ _ (by omega)
        simp only [e4, e2, bind, Option.bind]
        obtain ⟨t1, t2⟩ := key (m + 1) (by omega) (by omega) (.inr trivial) (start + (m - stop)) (by omega)
        have t3 : (l.drop (stop + 1)).drop (m + 1 - (stop + 1)) = l.drop (m + 1) := by
          rw [List.drop_drop]; congr 1; omega
        have := hlen (start + (m - stop))
        rw [t1, t2, t3] at this ⊢
        rw [if_pos this]
      · have : ¬ (stop : Int) < (m : Int) := by omega
        simp only [hms2, this, if_false, e0, e1]
        have e4 : slice l (stop + 1) (min l.length (stop + (m - start) + 1)) =
            some ((l.drop (stop + 1)).take (min l.length (stop + (m - start) + 1) - (stop + 1))) :=
          slice_some l _ _ (by omega)
        simp only [e4, e2, bind, Option.bind]
        obtain ⟨t1, t2⟩ := key (min l.length (stop + (m - start) + 1)) (by omega) (by omega) (.inr trivial)
          (start + min (m - start) (l.length - 1 - stop)) (by omega)
        have t3 : (l.drop (stop + 1)).drop (min l.length (stop + (m - start) + 1) - (stop + 1)) =
            l.drop (stop + (m - start) + 1) := by
          rw [List.drop_drop]
          by_cases hh : stop + (m - start) + 1 ≤ l.length
          · rw [Nat.min_eq_right hh]; congr 1; omega
          · rw [Nat.min_eq_left (by omega), List.drop_of_length_le (by omega), List.drop_of_length_le (by omega)]
        have := hlen (start + min (m - start) (l.length - 1 - stop))
        rw [t1, t2, t3] at this ⊢
        rw [if_pos this]

omit [DecidableEq α] in
theorem performShift_perm (l : List α) (start stop : Nat) (mv : Int) (h1 : start ≤ stop) (h2 : stop < l.length)
    (h3 : -1 ≤ mv) (h4 : mv < l.length) : ∃ out, performShift l start stop mv = some out ∧ out.Perm l := by
  refine ⟨_, performShift_eq l start stop mv h1 h2 h3 h4, ?_⟩
  generalize landing l.length start stop mv = p
  have e : l = l.take start ++ ((l.drop start).take (stop + 1 - start) ++ l.drop (stop + 1)) := by
    have : l.drop (stop + 1) = (l.drop start).drop (stop + 1 - start) := by rw [List.drop_drop]; congr 1; omega
    rw [this, List.take_append_drop, List.take_append_drop]
  conv_rhs => rw [e]
  refine (List.Perm.append_right _ List.perm_append_comm).trans ?_
  rw [List.append_assoc, List.take_append_drop]
  rw [← List.append_assoc, ← List.append_assoc]
  exact List.Perm.append_right _ List.perm_append_comm

/-! ## All possible shifts -/

/-- Every shift that has been pushed is within the two sentences. -/
def ShiftsOk (nh nr : Nat) (sh : Shifts) : Prop :=
  ∀ i, ∀ d ∈ sh i, ∃ s e m, d = pack s e m ∧ s ≤ e ∧ e < nh ∧ m < nr

theorem okLoop_some (ralign : List Int) (start : Nat) : ∀ ms : List Nat, (∀ m ∈ ms, m < ralign.length) →
    ∃ b, okLoop ralign start ms = some b
  | [], _ => ⟨false, rfl⟩
  | m :: ms, h => by
    rw [okLoop, List.getElem?_eq_getElem (h m (by simp))]
    simp only
    split
    · exact ⟨true, rfl⟩
    · exact okLoop_some ralign start ms fun x hx => h x (by simp [hx])

theorem movetoStep_ok (nh : Nat) (ralign : List Int) (rerr : List Bool) (start stop : Nat) (hr : rerr.length = ralign.length)
    (h1 : start ≤ stop) (h2 : stop < nh) (s : Bool × Shifts) (hs : ShiftsOk nh ralign.length s.2) (m : Nat)
    (hm : m + (stop - start + 1) ≤ ralign.length) :
    ∃ s', movetoStep ralign rerr start stop s m = some s' ∧ ShiftsOk nh ralign.length s'.2 := by
  unfold movetoStep
  rw [List.getElem?_eq_getElem (show m < ralign.length by omega)]
  simp only
  split
  · obtain ⟨b, hb⟩ := anyFrom_some rerr (stop - start + 1) m (by omega)
    rw [hb]
    cases b with
    | false => exact ⟨_, rfl, hs⟩
    | true =>
      simp only
      obtain ⟨sh, e, p⟩ := foldlM_inv (ShiftsOk nh ralign.length)
        (roffStep ralign start stop m (ralign[m]'(by omega))) (List.range (stop - start + 1)) s.2 (by
          intro s x hs hx
          rw [List.mem_range] at hx
          unfold roffStep
          rw [List.getElem?_eq_getElem (show m + x < ralign.length by omega)]
          simp only
          split
          · refine ⟨_, rfl, ?_⟩
            intro i d hd
            unfold pushShift at hd
            split at hd
            · rcases List.mem_append.mp hd with hd | hd
              · exact hs i d hd
              · rw [List.mem_singleton] at hd
                exact ⟨start, stop, m + x, hd, h1, h2, by omega⟩
            · exact hs i d hd
          · exact ⟨_, rfl, hs⟩) hs
      rw [e]
      exact ⟨_, rfl, p⟩
  · exact ⟨_, rfl, hs⟩

theorem endLoop_ok (nmap : Matches α) (hyp : List α) (ralign : List Int) (herr rerr : List Bool) (start : Nat)
    (hm : MatchOk ralign.length nmap) (hh : herr.length = hyp.length) (hr : rerr.length = ralign.length) :
    ∀ (k e : Nat) (cp : List α) (sh : Shifts), e = start + cp.length → e + k ≤ hyp.length →
    ShiftsOk hyp.length ralign.length sh →
    ∃ sh', endLoop nmap hyp ralign herr rerr start (List.range' e k) cp sh = some sh' ∧
      ShiftsOk hyp.length ralign.length sh'
  | 0, _, _, sh, _, _, h => ⟨sh, rfl, h⟩
  | k + 1, e, cp, sh, he, hk, h => by
    rw [List.range'_succ, endLoop, List.getElem?_eq_getElem (show e < hyp.length by omega)]
    simp only
    split
    · exact ⟨sh, rfl, h⟩
    · obtain ⟨b, hb⟩ := anyFrom_some herr (e - start + 1) start (by omega)
      rw [hb]
      cases b with
      | false => exact endLoop_ok nmap hyp ralign herr rerr start hm hh hr k (e + 1) _ sh (by simp; omega) (by omega) h
      | true =>
        simp only
        obtain ⟨s', e', p'⟩ := foldlM_inv (fun s : Bool × Shifts => ShiftsOk hyp.length ralign.length s.2)
          (movetoStep ralign rerr start e) (nmap (cp ++ [hyp[e]'(by omega)])) (false, sh) (by
            intro s m hs hmem
            have := hm _ _ hmem
            simp at this
            exact movetoStep_ok hyp.length ralign rerr start e hr (by omega) (by omega) s hs m (by omega)) h
        rw [e']
        obtain ⟨b, sh'⟩ := s'
        cases b with
        | false => exact ⟨sh', rfl, p'⟩
        | true => exact endLoop_ok nmap hyp ralign herr rerr start hm hh hr k (e + 1) _ sh' (by simp; omega) (by omega) p'

theorem getAllPossibleShifts_ok (nmap : Matches α) (hyp : List α) (ralign : List Int) (herr rerr : List Bool)
    (hm : MatchOk ralign.length nmap) (hh : herr.length = hyp.length) (hr : rerr.length = ralign.length) :
    ∃ sh, getAllPossibleShifts nmap hyp ralign herr rerr = some sh ∧ ShiftsOk hyp.length ralign.length sh := by
  apply foldlM_inv (ShiftsOk hyp.length ralign.length)
  · intro sh start hs hmem
    rw [List.mem_range] at hmem
    unfold startStep
    rw [List.getElem?_eq_getElem hmem]
    simp only
    obtain ⟨b, hb⟩ := okLoop_some ralign start (nmap [hyp[start]]) (fun m h => by
      have := hm _ _ h
      simp at this; omega)
    rw [hb]
    cases b with
    | false => exact ⟨_, rfl, hs⟩
    | true =>
      exact endLoop_ok nmap hyp ralign herr rerr start hm hh hr _ start [] sh (by simp) (by omega) hs
  · intro i d hd; simp at hd

/-! ## The best shift -/

/-- Nothing found yet, or a permutation that is better by at least the price of the shift. -/
def BestOk (cur ref : List α) (curerr : Int) (st : Best α) : Prop :=
  (st.found = none ∧ st.shiftCost = 0 ∧ st.newerr = curerr) ∨
  (∃ h p, st.found = some (h, p) ∧ st.shiftCost = 1 ∧ h.Perm cur ∧ st.newerr = ((minimumEditDistance h ref).1 : Int) ∧
    p = (minimumEditDistance h ref).2 ∧ st.newerr + 1 ≤ curerr)

theorem tryShift_ok (cur ref : List α) (ralign : List Int) (curerr : Int) (i : Nat) (st : Best α) (d : Nat)
    (hst : BestOk cur ref curerr st) (hn : cur.length ≤ 1024) (hr : ralign.length ≤ 1025)
    (hv : ∀ v ∈ ralign, -1 ≤ v ∧ v < cur.length)
    (hd : ∃ s e m, d = pack s e m ∧ s ≤ e ∧ e < cur.length ∧ m < ralign.length) :
    ∃ st', tryShift cur ref ralign curerr i st d = some st' ∧ BestOk cur ref curerr st' := by
  unfold tryShift
  split
  · exact ⟨st, rfl, hst⟩
  · obtain ⟨s, e, m, rfl, h1, h2, h3⟩ := hd
    rw [pack_moveto s e m (by omega), pack_begin s e m (by omega), pack_end s e m (by omega)]
    have hread : readAt ralign (m : Int) = some ralign[m] := by
      unfold readAt
      rw [if_neg (by omega), Int.toNat_natCast, List.getElem?_eq_getElem h3]
    rw [hread]
    simp only
    obtain ⟨v1, v2⟩ := hv _ (List.getElem_mem h3)
    obtain ⟨out, ho, hp⟩ := performShift_perm cur s e ralign[m] h1 h2 v1 v2
    rw [ho]
    simp only
    split
    · rename_i hg
      refine ⟨_, rfl, .inr ⟨out, _, rfl, rfl, hp, rfl, rfl, ?_⟩⟩
      simp only
      rcases hst with ⟨_, hc, he⟩ | ⟨_, _, _, hc, _, _, _, he⟩
      · rw [hc, he] at hg; omega
      · rw [hc] at hg; omega
    · exact ⟨st, rfl, hst⟩

theorem sizesLoop_ok (cur ref : List α) (ralign : List Int) (curerr : Int) (sh : Shifts) (hn : cur.length ≤ 1024)
    (hr : ralign.length ≤ 1025) (hv : ∀ v ∈ ralign, -1 ≤ v ∧ v < cur.length)
    (hsh : ShiftsOk cur.length ralign.length sh) : ∀ (is : List Nat) (st : Best α), BestOk cur ref curerr st →
    ∃ st', sizesLoop cur ref ralign curerr sh is st = some st' ∧ BestOk cur ref curerr st'
  | [], st, h => ⟨st, rfl, h⟩
  | i :: is, st, h => by
    rw [sizesLoop]
    split
    · exact ⟨st, rfl, h⟩
    · obtain ⟨st', e, p⟩ := foldlM_inv (BestOk cur ref curerr) (tryShift cur ref ralign curerr i) (sh i) st
        (fun st d hst hd => tryShift_ok cur ref ralign curerr i st d hst hn hr hv (hsh i d hd)) h
      rw [e]
      exact sizesLoop_ok cur ref ralign curerr sh hn hr hv hsh is st' p

theorem calculateBestShift_ok (nmap : Matches α) (ref cur : List α) (curerr : Int) (path : List Trans)
    (hm : MatchOk ref.length nmap) (hp : Explains path cur ref) (hn : cur.length ≤ 1024) (hr : ref.length ≤ 1025) :
    ∃ st, calculateBestShift nmap ref cur curerr path = some st ∧ BestOk cur ref curerr st := by
  obtain ⟨h1, h2, h3, h4⟩ := alignVecs_ok hp (-1) (by omega)
  unfold calculateBestShift
  simp only
  obtain ⟨sh, e, hsh⟩ := getAllPossibleShifts_ok nmap cur (alignVecs (-1) path).2.2 (alignVecs (-1) path).1
    (alignVecs (-1) path).2.1 (by rw [h3]; exact hm) h1 (by rw [h2, h3])
  rw [e]
  simp only
  exact sizesLoop_ok cur ref _ curerr sh hn (by rw [h3]; exact hr) (fun v hv => by have := h4 v hv; omega) hsh _ _
    (.inl ⟨rfl, rfl, rfl⟩)

theorem pathStats_aux : ∀ (path : List Trans) (s : Nat × Nat × Nat),
    (path.foldl statStep s).1 + (path.foldl statStep s).2.1 + (path.foldl statStep s).2.2 =
      s.1 + s.2.1 + s.2.2 + errors path
  | [], s => by simp [errors]
  | t :: path, s => by
    rw [List.foldl_cons, pathStats_aux path, errors_cons]
    cases t <;> simp [statStep] <;> omega

theorem pathStats_sum (path : List Trans) :
    (pathStats path).1 + (pathStats path).2.1 + (pathStats path).2.2 = errors path := by
  have := pathStats_aux path (0, 0, 0)
  unfold pathStats
  rw [this]; simp

theorem pathStats_fold (path : List Trans) : ∀ s : Nat × Nat × Nat, path.foldl statStep s =
    (s.1 + path.count .SUBSTITUTION, s.2.1 + path.count .INSERTION, s.2.2 + path.count .DELETION) := by
  induction path with
  | nil => intro s; rfl
  | cons t path ih =>
    intro s
    rw [List.foldl_cons, ih]
    cases t <;> simp [statStep] <;> omega

theorem pathStats_eq (path : List Trans) : pathStats path =
    (path.count .SUBSTITUTION, path.count .INSERTION, path.count .DELETION) := by
  rw [pathStats, pathStats_fold]; simp

/-- The loop stops within as many rounds as the distance (plus one). -/
theorem shiftLoop_ok (nmap : Matches α) (ref hyp : List α) (hm : MatchOk ref.length nmap) (hn : hyp.length ≤ 1024)
    (hr : ref.length ≤ 1025) : ∀ (fuel : Nat) (cur : List α) (shifts : Nat), cur.Perm hyp →
    (minimumEditDistance cur ref).1 < fuel →
    ∃ r fin, shiftLoop nmap ref fuel cur ((minimumEditDistance cur ref).1 : Int) (minimumEditDistance cur ref).2 shifts = .done r ∧
      List.Perm fin hyp ∧ r.subs + r.ins + r.dels = (minimumEditDistance fin ref).1 ∧
      r.score = r.subs + r.ins + r.dels + r.shifts ∧
      r.score ≤ (minimumEditDistance cur ref).1 + shifts ∧
      (r.subs, r.ins, r.dels) = pathStats (minimumEditDistance fin ref).2
  | 0, _, _, _, h => absurd h (Nat.not_lt_zero _)
  | fuel + 1, cur, shifts, hp, h => by
    obtain ⟨_, hex, her⟩ := med_ok cur ref
    obtain ⟨st, e, hst⟩ := calculateBestShift_ok nmap ref cur ((minimumEditDistance cur ref).1 : Int) _ hm hex
      (by rw [hp.length_eq]; exact hn) hr
    rw [shiftLoop, e]
    rcases hst with ⟨hf, _, _⟩ | ⟨h', p', hf, _, hperm, hne, hpe, hle⟩
    · obtain ⟨ne, sc, fo⟩ := st
      simp only at hf
      subst hf
      simp only
      have hs := pathStats_sum (minimumEditDistance cur ref).2
      rw [her, ← (med_ok cur ref).1] at hs
      refine ⟨_, cur, rfl, hp, hs, ?_, ?_, rfl⟩
      · simp only; omega
      · simp only; omega
    · obtain ⟨ne, sc, fo⟩ := st
      simp only at hf hne hle
      subst hf hne hpe
      simp only
      obtain ⟨r, fin, e1, e2, e3, e4, e5, e6⟩ := shiftLoop_ok nmap ref hyp hm hn hr fuel h' (shifts + 1) (hperm.trans hp) (by omega)
      exact ⟨r, fin, e1, e2, e3, e4, by push_cast at e5; omega, e6⟩

end Cdec.Ter
