import Verif.Extract.FixPoint
import Mathlib.Tactic.ByContra
import Mathlib.Order.Basic
import Mathlib.Data.List.Basic
/-!
# Lemmas: alignment spans and projections
-/
namespace Cdec.Extract

/-- The two vectors hold, for every word, the lowest and one above the highest word related to it. -/
structure ArrOK (low high : List Int) (n : Nat) (R : Nat → Nat → Prop) : Prop where
  llen : low.length = n
  hlen : high.length = n
  entry : ∀ i, i < n → (low.getD i (-1) = -1 ∧ high.getD i (-1) = -1 ∧ ∀ j, ¬ R i j) ∨
    ∃ a b : Nat, low.getD i (-1) = a ∧ high.getD i (-1) = b + 1 ∧ R i a ∧ R i b ∧ ∀ j, R i j → a ≤ j ∧ j ≤ b

theorem getD_set (l : List Int) (i k : Nat) (x : Int) (h : i < l.length) :
    (l.set i x).getD k (-1) = if k = i then x else l.getD k (-1) := by
  rw [List.getD_eq_getElem?_getD, List.getElem?_set, List.getD_eq_getElem?_getD]
  by_cases hk : i = k
  · subst hk; simp [h]
  · rw [if_neg hk, if_neg (Ne.symm hk)]

theorem lowerTo_getD (low : List Int) (i k : Nat) (j : Int) (h : i < low.length) :
    (lowerTo low i j).getD k (-1) =
      if k = i then (if low.getD i (-1) = -1 ∨ low.getD i (-1) > j then j else low.getD i (-1))
      else low.getD k (-1) := by
  unfold lowerTo
  by_cases hc : low.getD i (-1) = -1 ∨ low.getD i (-1) > j
  · rw [if_pos hc, if_pos hc, getD_set _ _ _ _ h]
  · rw [if_neg hc, if_neg hc]
    split_ifs with hk
    · rw [hk]
    · rfl

theorem ArrOK.add {low high : List Int} {n : Nat} {R : Nat → Nat → Prop} (h : ArrOK low high n R) (i j : Nat)
    (hi : i < n) : ArrOK (lowerTo low i j) (raiseTo high i j) n (fun i' j' => R i' j' ∨ (i' = i ∧ j' = j)) := by
  refine ⟨?_, ?_, ?_⟩
  · unfold lowerTo; split_ifs <;> simp [h.llen]
  · simp [raiseTo, h.hlen]
  · intro k hk
    rw [lowerTo_getD _ _ _ _ (by rw [h.llen]; exact hi), raiseTo, getD_set _ _ _ _ (by rw [h.hlen]; exact hi)]
    by_cases e : k = i
    · subst e
      rw [if_pos rfl, if_pos rfl]
      right
      rcases h.entry k hk with ⟨h1, h2, h3⟩ | ⟨a, b, h1, h2, h3, h4, h5⟩
      · refine ⟨j, j, by rw [if_pos (Or.inl h1)], by rw [h2]; omega, Or.inr ⟨rfl, rfl⟩, Or.inr ⟨rfl, rfl⟩, ?_⟩
        rintro j' (hr | ⟨_, rfl⟩)
        · exact absurd hr (h3 j')
        · omega
      · have ha := h5 a h3
        refine ⟨min a j, max b j, ?_, ?_, ?_, ?_, ?_⟩
        · rw [h1]
          by_cases hc : (a : Int) = -1 ∨ (a : Int) > j
          · rw [if_pos hc]; omega
          · rw [if_neg hc]; omega
        · rw [h2]; omega
        · rcases Nat.le_total a j with h | h
          · rw [Nat.min_eq_left h]; exact Or.inl h3
          · rw [Nat.min_eq_right h]; exact Or.inr ⟨rfl, rfl⟩
        · rcases Nat.le_total b j with h | h
          · rw [Nat.max_eq_right h]; exact Or.inr ⟨rfl, rfl⟩
          · rw [Nat.max_eq_left h]; exact Or.inl h4
        · rintro j' (hr | ⟨_, rfl⟩)
          · have := h5 j' hr; omega
          · omega
    · rw [if_neg e, if_neg e]
      rcases h.entry k hk with ⟨h1, h2, h3⟩ | ⟨a, b, h1, h2, h3, h4, h5⟩
      · left
        refine ⟨h1, h2, ?_⟩
        rintro j' (hr | ⟨he, _⟩)
        · exact h3 j' hr
        · exact e he
      · right
        refine ⟨a, b, h1, h2, Or.inl h3, Or.inl h4, ?_⟩
        rintro j' (hr | ⟨he, _⟩)
        · exact h5 j' hr
        · exact absurd he e

theorem ArrOK.congr {low high : List Int} {n : Nat} {R R' : Nat → Nat → Prop} (h : ArrOK low high n R)
    (e : ∀ i j, R i j ↔ R' i j) : ArrOK low high n R' := by
  have : R = R' := by funext i j; exact propext (e i j)
  rw [← this]; exact h

theorem ArrOK.init (n : Nat) : ArrOK (List.replicate n (-1)) (List.replicate n (-1)) n (fun _ _ => False) := by
  refine ⟨by simp, by simp, fun i hi => Or.inl ⟨?_, ?_, fun _ h => h⟩⟩ <;>
    simp [List.getD_eq_getElem?_getD, hi]

theorem getLinksSpans_ok (slen tlen : Nat) (links : List (Nat × Nat))
    (h : ∀ l ∈ links, l.1 < slen ∧ l.2 < tlen) :
    ArrOK (getLinksSpans slen tlen links).sourceLow (getLinksSpans slen tlen links).sourceHigh slen
      (fun i j => (i, j) ∈ links) ∧
    ArrOK (getLinksSpans slen tlen links).targetLow (getLinksSpans slen tlen links).targetHigh tlen
      (fun j i => (i, j) ∈ links) := by
  have key : ∀ (ls : List (Nat × Nat)) (s : LinkSpans) (seen : List (Nat × Nat)),
      (∀ l ∈ ls, l.1 < slen ∧ l.2 < tlen) →
      ArrOK s.sourceLow s.sourceHigh slen (fun i j => (i, j) ∈ seen) →
      ArrOK s.targetLow s.targetHigh tlen (fun j i => (i, j) ∈ seen) →
      ArrOK (ls.foldl addLink s).sourceLow (ls.foldl addLink s).sourceHigh slen (fun i j => (i, j) ∈ seen ++ ls) ∧
      ArrOK (ls.foldl addLink s).targetLow (ls.foldl addLink s).targetHigh tlen (fun j i => (i, j) ∈ seen ++ ls) := by
    intro ls
    induction ls with
    | nil => intro s seen _ h1 h2; simpa using ⟨h1, h2⟩
    | cons l ls ih =>
      intro s seen hl h1 h2
      have hl0 := hl l List.mem_cons_self
      have := ih (addLink s l) (seen ++ [l]) (fun l' h' => hl l' (List.mem_cons_of_mem _ h'))
        ((h1.add l.1 l.2 hl0.1).congr (by
          intro i j
          rw [List.mem_append, List.mem_singleton, Prod.ext_iff]))
        ((h2.add l.2 l.1 hl0.2).congr (by
          intro j i
          rw [List.mem_append, List.mem_singleton, Prod.ext_iff]
          constructor
          · rintro (h | ⟨a, b⟩); exacts [Or.inl h, Or.inr ⟨b, a⟩]
          · rintro (h | ⟨a, b⟩); exacts [Or.inl h, Or.inr ⟨b, a⟩]))
      simpa [List.append_assoc] using this
  have := key links ⟨List.replicate slen (-1), List.replicate slen (-1), List.replicate tlen (-1),
    List.replicate tlen (-1)⟩ [] h
    ((ArrOK.init slen).congr (by simp)) ((ArrOK.init tlen).congr (by simp))
  simpa [getLinksSpans] using this

/-- A span that is unknown or nonempty. -/
def ValidSpan (t : Int × Int) : Prop := t = (-1, -1) ∨ (0 ≤ t.1 ∧ t.1 < t.2)

/-- `t'` is the least span covering `t` and everything related to the words `is`. -/
structure Hull (R : Nat → Nat → Prop) (is : List Nat) (t t' : Int × Int) : Prop where
  valid : ValidSpan t'
  grow : t.1 ≠ -1 → t'.1 ≠ -1 ∧ t'.1 ≤ t.1 ∧ t.2 ≤ t'.2
  cover : ∀ i ∈ is, ∀ j : Nat, R i j → t'.1 ≠ -1 ∧ t'.1 ≤ j ∧ (j : Int) < t'.2
  least : ∀ lo hi : Int, (t.1 ≠ -1 → lo ≤ t.1 ∧ t.2 ≤ hi) → (∀ i ∈ is, ∀ j : Nat, R i j → lo ≤ j ∧ (j : Int) < hi) →
    t'.1 ≠ -1 → lo ≤ t'.1 ∧ t'.2 ≤ hi
  known : t'.1 ≠ -1 → t.1 ≠ -1 ∨ ∃ i ∈ is, ∃ j, R i j

theorem projectStep_hull {low high : List Int} {n : Nat} {R : Nat → Nat → Prop} (h : ArrOK low high n R)
    (t : Int × Int) (ht : ValidSpan t) (i : Nat) (hi : i < n) : Hull R [i] t (projectStep low high t i) := by
  unfold projectStep
  rcases h.entry i hi with ⟨h1, h2, h3⟩ | ⟨a, b, h1, h2, h3, h4, h5⟩
  · rw [if_neg (by rw [h1]; simp)]
    refine ⟨ht, fun h => ⟨h, by omega, by omega⟩, ?_, fun lo hi h _ h' => h h', fun h => Or.inl h⟩
    intro k hk j hr
    rw [List.mem_singleton] at hk; subst hk
    exact absurd hr (h3 j)
  · rw [if_pos (by rw [h1]; omega), h1, h2]
    have hab := h5 a h3
    rcases ht with rfl | ⟨ht1, ht2⟩
    · simp only [true_or, if_true]
      refine ⟨Or.inr ?_, by simp, ?_, ?_, ?_⟩
      · simp only []; omega
      · intro k hk j hr
        rw [List.mem_singleton] at hk; subst hk
        have := h5 j hr
        simp only []; omega
      · intro lo hi' _ h' _
        have e1 := h' i (by simp) a h3
        have e2 := h' i (by simp) b h4
        simp only []; omega
      · intro _; exact Or.inr ⟨i, by simp, a, h3⟩
    · refine ⟨Or.inr ?_, ?_, ?_, ?_, ?_⟩
      · simp only []; split_ifs <;> omega
      · intro _; simp only []; split_ifs <;> omega
      · intro k hk j hr
        rw [List.mem_singleton] at hk; subst hk
        have := h5 j hr
        simp only []; split_ifs <;> omega
      · intro lo hi' hlo h' _
        have e1 := h' i (by simp) a h3
        have e2 := h' i (by simp) b h4
        have e3 := hlo (by omega)
        simp only []; split_ifs <;> omega
      · intro _; exact Or.inr ⟨i, by simp, a, h3⟩

theorem Hull.trans {R : Nat → Nat → Prop} {is js : List Nat} {t t' t'' : Int × Int} (h1 : Hull R is t t')
    (h2 : Hull R js t' t'') : Hull R (is ++ js) t t'' := by
  refine ⟨h2.valid, ?_, ?_, ?_, ?_⟩
  · intro h
    have a := h1.grow h
    have b := h2.grow a.1
    exact ⟨b.1, by omega, by omega⟩
  · intro i hi j hr
    rcases List.mem_append.1 hi with hi | hi
    · have a := h1.cover i hi j hr
      have b := h2.grow a.1
      exact ⟨b.1, by omega, by omega⟩
    · exact h2.cover i hi j hr
  · intro lo hi h h' hne
    refine h2.least lo hi (fun hne' => h1.least lo hi h (fun i hi' => h' i (List.mem_append_left _ hi')) hne')
      (fun i hi' => h' i (List.mem_append_right _ hi')) hne
  · intro h
    rcases h2.known h with h | ⟨i, hi, j, hr⟩
    · rcases h1.known h with h | ⟨i, hi, j, hr⟩
      · exact Or.inl h
      · exact Or.inr ⟨i, List.mem_append_left _ hi, j, hr⟩
    · exact Or.inr ⟨i, List.mem_append_right _ hi, j, hr⟩

theorem Hull.nil {R : Nat → Nat → Prop} {t : Int × Int} (h : ValidSpan t) : Hull R [] t t :=
  ⟨h, fun h => ⟨h, by omega, by omega⟩, by simp, fun _ _ h _ h' => h h', fun h => Or.inl h⟩

theorem foldl_hull {low high : List Int} {n : Nat} {R : Nat → Nat → Prop} (h : ArrOK low high n R) :
    ∀ (is : List Nat) (t : Int × Int), ValidSpan t → (∀ i ∈ is, i < n) →
      Hull R is t (is.foldl (projectStep low high) t)
  | [], t, ht, _ => Hull.nil ht
  | i :: is, t, ht, hn => by
    have a := projectStep_hull h t ht i (hn i List.mem_cons_self)
    have b := foldl_hull h is _ a.valid (fun k hk => hn k (List.mem_cons_of_mem _ hk))
    exact a.trans b

/-- The projection of the words `[a, b)`, which are in range. -/
theorem findProjection_hull {low high : List Int} {n : Nat} {R : Nat → Nat → Prop} (h : ArrOK low high n R)
    (a b : Int) (ha : 0 ≤ a) (hb : b ≤ n) (t : Int × Int) (ht : ValidSpan t) :
    Hull R (List.range' a.toNat (b - a).toNat) t (findProjection a b low high t) := by
  unfold findProjection
  rw [if_neg (by omega)]
  refine foldl_hull h _ t ht ?_
  intro i hi
  rw [List.mem_range'_1] at hi
  omega

theorem mem_words {a b : Int} (ha : 0 ≤ a) (i : Nat) :
    i ∈ List.range' a.toNat (b - a).toNat ↔ a ≤ i ∧ (i : Int) < b := by
  rw [List.mem_range'_1]; omega

end Cdec.Extract
