import Verif.Klm.VocabSpec
import Verif.Klm.ProbingLemmas
import Verif.Props.C49
import Verif.Props.C51
/-!
# Lemmas about vocabularies
-/
namespace Cdec.Klm.Vocab

/-! ## The search in the sorted vocabulary -/

/-- The value before the first entry plays no role. -/
theorem boundedFind_head (piv : Nat → Nat → Nat → Nat) (x y : Nat) (l : List Nat) (key bi bv ai av : Nat) :
    boundedFind piv (x :: l) key bi bv ai av = boundedFind piv (y :: l) key bi bv ai av := by
  induction hn : ai - bi using Nat.strong_induction_on generalizing bi bv ai av with
  | _ n ih =>
    rw [boundedFind.eq_def, boundedFind.eq_def (a := y :: l)]
    by_cases h : ai - bi > 1
    · rw [dif_pos h, dif_pos h]
      by_cases hp : bi + (1 + piv (key - bv) (av - bv) (ai - bi - 1)) < ai
      · simp only [dif_pos hp]
        have hget : (x :: l)[bi + (1 + piv (key - bv) (av - bv) (ai - bi - 1))]? =
            (y :: l)[bi + (1 + piv (key - bv) (av - bv) (ai - bi - 1))]? := by
          rw [← Nat.add_assoc, Nat.add_right_comm, List.getElem?_cons_succ, List.getElem?_cons_succ]
        rw [hget]
        cases (y :: l)[bi + (1 + piv (key - bv) (av - bv) (ai - bi - 1))]? with
        | none => rfl
        | some mid =>
          simp only
          split
          · exact ih _ (by omega) _ _ _ _ rfl
          · split
            · exact ih _ (by omega) _ _ _ _ rfl
            · rfl
      · simp only [dif_neg hp]
    · rw [dif_neg h, dif_neg h]

theorem index_spec (q : Nat → Nat → Nat → Nat) (h : Word → Nat) (s : Sorted) (w : Word)
    (hs : s.hashes.Pairwise (· ≤ ·)) (hb : ∀ x ∈ s.hashes, x < 2 ^ 64) (hw : h w < 2 ^ 64) (hn : s.hashes.Nodup) :
    (∀ p : Nat, s.hashes[p]? = some (h w) → s.index q h w = some (p + 1)) ∧
    (h w ∉ s.hashes → s.index q h w = some 0) := by
  have hsorted : (0 :: s.hashes).Pairwise (· ≤ ·) := List.pairwise_cons.mpr ⟨fun _ _ => Nat.zero_le _, hs⟩
  obtain ⟨r, h1, h2⟩ := C51_bounded_find (2 ^ 64 - 1) (s.hashes.length) (pivot64 q)
    ((C51_pivots_in_range (2 ^ 64 - 1) s.hashes.length).2 q) (0 :: s.hashes) hsorted (h w) 0 0 (s.hashes.length + 1) (2 ^ 64 - 1)
    (by simp) (Nat.zero_le _) (by omega)
    (fun p x hp _ hx => by
      obtain ⟨p, rfl⟩ := Nat.exists_eq_succ_of_ne_zero (show p ≠ 0 by omega)
      rw [List.getElem?_cons_succ] at hx
      have := hb x (List.mem_of_getElem? hx)
      omega) (le_refl _) (by omega)
  have hi : s.index q h w = some (r.getD 0) := by
    unfold Sorted.index
    rw [boundedFind_head _ s.count 0, h1]
    cases r <;> rfl
  rw [hi]
  cases r with
  | some p =>
    obtain ⟨ha, hb', hc⟩ := h2
    obtain ⟨p, rfl⟩ := Nat.exists_eq_succ_of_ne_zero (show p ≠ 0 by omega)
    rw [List.getElem?_cons_succ] at hc
    refine ⟨fun p' hp' => ?_, fun hni => absurd (List.mem_of_getElem? hc) hni⟩
    have hlt : p < s.hashes.length := by omega
    rw [← hp'] at hc
    rw [← (List.getElem?_inj hlt hn).mp hc]; rfl
  | none =>
    refine ⟨fun p' hp' => ?_, fun _ => rfl⟩
    have hlt : p' < s.hashes.length := (List.getElem?_eq_some_iff.mp hp').1
    exact absurd (by rw [List.getElem?_cons_succ]; exact hp') (h2 (p' + 1) (by omega) (by omega))

/-! ## Inserting -/

abbrev isKnown (w : Word) : Bool := decide (w ≠ unk ∧ w ≠ unkCap)

theorem known_filter {ws : List Word} {w : Word} : Known ws w ↔ w ∈ ws.filter isKnown := by
  simp [Known]

theorem hash_unk {h : Word → Nat} {ws : List Word} {S : Word → Prop} (hd : Distinguishes h ws S) {w : Word} (hw : w ∈ ws) :
    (h w = h unk ∨ h w = h unkCap) ↔ isKnown w = false := by
  have e : isKnown w = false ↔ (w = unk ∨ w = unkCap) := by
    simp only [isKnown, decide_eq_false_iff_not]; tauto
  rw [e]
  constructor
  · rintro (g | g)
    · exact Or.inl (hd.inj _ _ (Or.inr (Or.inr (Or.inl hw))) (Or.inl rfl) g)
    · exact Or.inr (hd.inj _ _ (Or.inr (Or.inr (Or.inl hw))) (Or.inr (Or.inl rfl)) g)
  · rintro (g | g) <;> subst g <;> simp

theorem Distinguishes.tail {h : Word → Nat} {w : Word} {ws : List Word} {S : Word → Prop} (hd : Distinguishes h (w :: ws) S) :
    Distinguishes h ws S :=
  ⟨hd.bits, fun a b ha hb => hd.inj a b (by simp only [List.mem_cons]; tauto) (by simp only [List.mem_cons]; tauto)⟩

/-- The indices returned by the insertions. -/
def idsFrom : Nat → List Word → List Nat
  | _, [] => []
  | n, w :: ws => if isKnown w then (n + 1) :: idsFrom (n + 1) ws else 0 :: idsFrom n ws

theorem idsFrom_get (n : Nat) (ws : List Word) (j i : Nat) (w : Word) (hw : ws[j]? = some w) (hk : isKnown w = true)
    (hi : (idsFrom n ws)[j]? = some i) : ∃ k, i = n + k + 1 ∧ (ws.filter isKnown)[k]? = some w := by
  induction ws generalizing n j with
  | nil => simp at hw
  | cons v ws ih =>
    cases j with
    | zero =>
      simp only [List.getElem?_cons_zero, Option.some.injEq] at hw
      subst hw
      rw [idsFrom, if_pos hk] at hi
      simp only [List.getElem?_cons_zero, Option.some.injEq] at hi
      exact ⟨0, by omega, by rw [List.filter_cons_of_pos hk]; rfl⟩
    | succ j =>
      rw [List.getElem?_cons_succ] at hw
      rw [idsFrom] at hi
      by_cases hv : isKnown v = true
      · rw [if_pos hv, List.getElem?_cons_succ] at hi
        obtain ⟨k, h1, h2⟩ := ih _ _ hw hi
        exact ⟨k + 1, by omega, by rw [List.filter_cons_of_pos hv, List.getElem?_cons_succ]; exact h2⟩
      · rw [if_neg hv, List.getElem?_cons_succ] at hi
        obtain ⟨k, h1, h2⟩ := ih _ _ hw hi
        exact ⟨k, h1, by rw [List.filter_cons_of_neg hv]; exact h2⟩

theorem insertAll_sorted {h : Word → Nat} {S : Word → Prop} (ws : List Word) (hd : Distinguishes h ws S) (s : Sorted)
    (hc : s.hashes.length + known ws ≤ s.capacity) :
    s.insertAll h ws = some (idsFrom s.hashes.length ws,
      { s with hashes := s.hashes ++ (ws.filter isKnown).map h, strings := s.strings.map (· ++ ws.filter isKnown),
               sawUnk := s.sawUnk || ws.any (fun w => !isKnown w) }) := by
  induction ws generalizing s with
  | nil =>
    obtain ⟨a, b, c, d, e, f, g⟩ := s
    cases f <;> simp [Sorted.insertAll, idsFrom]
  | cons w ws ih =>
    have hu := hash_unk hd (w := w) (by simp)
    rw [Sorted.insertAll, Sorted.insert]
    by_cases hk : isKnown w = true
    · have hl : known (w :: ws) = known ws + 1 := by
        show ((w :: ws).filter isKnown).length = _
        rw [List.filter_cons_of_pos hk]; rfl
      rw [if_neg (by rw [hu, hk]; simp), if_pos (by omega)]
      simp only
      rw [ih hd.tail _ (by simp only [List.length_append, List.length_singleton]; omega)]
      simp only [List.length_append, List.length_singleton, idsFrom, hk, if_true, List.filter_cons_of_pos,
        List.map_cons, List.append_assoc, List.singleton_append, List.any_cons, Bool.not_true, Bool.false_or, Option.map_map]
      congr 4
      funext l
      simp
    · have hk' : isKnown w = false := by simpa using hk
      have hl : known (w :: ws) = known ws := by
        show ((w :: ws).filter isKnown).length = _
        rw [List.filter_cons_of_neg hk]; rfl
      rw [if_pos (by rw [hu, hk'])]
      simp only
      rw [ih hd.tail _ (by simp only; omega)]
      simp only [idsFrom, hk', List.filter_cons_of_neg hk, List.any_cons, Bool.not_false, Bool.true_or, Bool.or_true, if_neg (Bool.false_ne_true)]

/-! ## After loading -/

theorem numbered_length (i : Nat) (ws : List Word) : (numbered i ws).length = ws.length := by
  induction ws generalizing i with
  | nil => rfl
  | cons w ws ih => simp [numbered, ih]

theorem numbered_get (i : Nat) (ws : List Word) (k : Nat) : (numbered i ws)[k]? = (ws[k]?).map fun w => (i + k, w) := by
  induction ws generalizing i k with
  | nil => simp [numbered]
  | cons w ws ih =>
    cases k with
    | zero => simp [numbered]
    | succ k =>
      rw [numbered, List.getElem?_cons_succ, List.getElem?_cons_succ, ih]
      congr 1; funext w; congr 1; omega

/-- What the proof needs to know of the vocabulary after sorting: the entries are those of the known words. -/
theorem loaded_spec (q : Nat → Nat → Nat → Nat) {h : Word → Nat} {S : Word → Prop} {ws : List Word} (hd : Distinguishes h ws S) (ho : Once ws) (s : Sorted)
    (hs : s.hashes.Pairwise (· ≤ ·)) (hp : s.hashes.Perm ((ws.filter isKnown).map h)) (hb : s.bound = known ws + 1) :
    Numbers ws S (s.index q h) s.bound ∧
    ∀ (w : Word) (p : Nat), s.hashes[p]? = some (h w) → w ∈ ws → s.index q h w = some (p + 1) := by
  have hinj : ∀ a ∈ ws.filter isKnown, ∀ b ∈ ws.filter isKnown, h a = h b → a = b := fun a ha b hb hab =>
    hd.inj a b (Or.inr (Or.inr (Or.inl (List.mem_of_mem_filter ha)))) (Or.inr (Or.inr (List.mem_of_mem_filter hb))) hab
  have hn : s.hashes.Nodup := hp.nodup_iff.mpr (List.Nodup.map_on hinj ho)
  have hbits : ∀ x ∈ s.hashes, x < 2 ^ 64 := fun x hx => by
    obtain ⟨w, _, rfl⟩ := List.mem_map.mp (hp.mem_iff.mp hx)
    exact hd.bits w
  have hlen : s.hashes.length = known ws := by rw [hp.length_eq, List.length_map]; rfl
  have hmem : ∀ w, Known ws w → ∃ p : Nat, s.hashes[p]? = some (h w) := fun w hw =>
    List.mem_iff_getElem?.mp (hp.mem_iff.mpr (List.mem_map.mpr ⟨w, known_filter.mp hw, rfl⟩))
  refine ⟨⟨hb, fun w hw => ?_, fun w w' hw hw' he => ?_, fun w hw hu => ?_⟩, fun w p hwp hw => (index_spec q h s w hs hbits (hd.bits w) hn).1 p hwp⟩
  · obtain ⟨p, hpw⟩ := hmem w hw
    refine ⟨p + 1, (index_spec q h s w hs hbits (hd.bits w) hn).1 p hpw, by omega, ?_⟩
    have := (List.getElem?_eq_some_iff.mp hpw).1
    omega
  · obtain ⟨p, hpw⟩ := hmem w hw
    obtain ⟨p', hpw'⟩ := hmem w' hw'
    rw [(index_spec q h s w hs hbits (hd.bits w) hn).1 p hpw, (index_spec q h s w' hs hbits (hd.bits w') hn).1 p' hpw'] at he
    have : p = p' := by simpa using he
    subst this
    rw [hpw] at hpw'
    exact hinj w (known_filter.mp hw) w' (known_filter.mp hw') (Option.some.inj hpw')
  · refine (index_spec q h s w hs hbits (hd.bits w) hn).2 fun hm => hu ?_
    obtain ⟨v, hv, hvw⟩ := List.mem_map.mp (hp.mem_iff.mp hm)
    have : w = v := hd.inj w v (Or.inr (Or.inr (Or.inr hw))) (Or.inr (Or.inr (List.mem_of_mem_filter hv))) hvw.symm
    rw [this]
    exact known_filter.mpr hv

end Cdec.Klm.Vocab
