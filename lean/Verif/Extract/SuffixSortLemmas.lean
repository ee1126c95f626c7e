import Verif.Extract.SuffixArray
import Mathlib.Algebra.Group.End
import Mathlib.Order.Basic
import Mathlib.Tactic.ByContra
import Mathlib.Tactic.Tauto
/-!
# Lemmas: ternary quicksort and prefix doubling
-/
namespace Cdec.Extract

theorem upd_same {α : Type _} (a : Nat → α) (i : Nat) (v : α) : upd a i v i = v := by simp [upd]
theorem upd_ne {α : Type _} (a : Nat → α) {i j : Nat} (v : α) (h : j ≠ i) : upd a i v j = a j := by simp [upd, h]

theorem swp_eq {α : Type _} (a : Nat → α) (i j : Nat) : swp a i j = a ∘ Equiv.swap i j := by
  funext k
  simp only [swp, upd, Function.comp, Equiv.swap_apply_def]
  split_ifs <;> simp_all

theorem three_eq {α : Type _} (a : Nat → α) (i ml mr : Nat) (h : ml < mr) (h2 : mr ≤ i) :
    upd (upd (upd a i (a mr)) mr (upd a i (a mr) ml)) ml (a i) =
      a ∘ (Equiv.swap i mr * Equiv.swap mr ml : Equiv.Perm Nat) := by
  funext k
  simp only [upd, Function.comp, Equiv.Perm.mul_apply, Equiv.swap_apply_def]
  split_ifs <;> first | omega | simp_all

theorem two_eq {α : Type _} (a : Nat → α) (i mr : Nat) :
    upd (upd a i (a mr)) mr (a i) = a ∘ (Equiv.swap i mr) := by
  funext k
  simp only [upd, Function.comp, Equiv.swap_apply_def]
  split_ifs <;> simp_all

/-- `σ` only moves indices of `[lo, hi)`. -/
def Fixes (σ : Equiv.Perm Nat) (lo hi : Nat) : Prop := ∀ i, i < lo ∨ hi ≤ i → σ i = i

theorem Fixes.mul {σ τ : Equiv.Perm Nat} {lo hi : Nat} (h : Fixes σ lo hi) (h' : Fixes τ lo hi) :
    Fixes (σ * τ) lo hi := by
  intro i hi'; simp [Equiv.Perm.mul_apply, h' i hi', h i hi']

theorem Fixes.mono {σ : Equiv.Perm Nat} {lo hi lo' hi' : Nat} (h : Fixes σ lo hi) (h1 : lo' ≤ lo) (h2 : hi ≤ hi') :
    Fixes σ lo' hi' := fun i hi => h i (by omega)

theorem fixes_swap {i j lo hi : Nat} (h1 : lo ≤ i) (h2 : i < hi) (h3 : lo ≤ j) (h4 : j < hi) :
    Fixes (Equiv.swap i j) lo hi := by
  intro k hk; exact Equiv.swap_apply_of_ne_of_ne (by omega) (by omega)

theorem Fixes.mem {σ : Equiv.Perm Nat} {lo hi : Nat} (h : Fixes σ lo hi) {i : Nat} (h1 : lo ≤ i) (h2 : i < hi) :
    lo ≤ σ i ∧ σ i < hi := by
  by_contra hc
  have : σ (σ i) = σ i := h _ (by omega)
  have := σ.injective this
  omega

theorem Fixes.symm {σ : Equiv.Perm Nat} {lo hi : Nat} (h : Fixes σ lo hi) : Fixes σ.symm lo hi := by
  intro i hi'
  rw [Equiv.symm_apply_eq]; exact (h i hi').symm

/-- The key of the position `x`. -/
def keyOf (step : Nat) (g : Nat → Nat) (x : Int) : Nat := g (x + step).toNat

/-- State of the partition after the indices `[lo, hi)`. -/
structure PartInv (n step : Nat) (g : Nat → Nat) (pv lo hi : Nat) (a0 a : Nat → Int) (ml mr : Nat) : Prop where
  b1 : lo ≤ ml
  b2 : ml ≤ mr
  b3 : mr < hi
  perm : ∃ σ : Equiv.Perm Nat, Fixes σ lo hi ∧ a = a0 ∘ σ
  lt : ∀ i, lo ≤ i → i < ml → keyOf step g (a i) < pv
  eq : ∀ i, ml ≤ i → i ≤ mr → keyOf step g (a i) = pv
  gt : ∀ i, mr < i → i < hi → pv < keyOf step g (a i)

theorem partStep_inv {n step : Nat} {g : Nat → Nat} {pv lo hi : Nat} {a0 a : Nat → Int} {ml mr : Nat}
    (h0 : 0 ≤ a0 hi ∧ a0 hi + step < n)
    (h : PartInv n step g pv lo hi a0 a ml mr) :
    ∃ a' ml' mr', partStep n step g pv (a, ml, mr) hi = some (a', ml', mr') ∧
      PartInv n step g pv lo (hi + 1) a0 a' ml' mr' := by
  obtain ⟨h1, h2, h3, ⟨σ, hσ, rfl⟩, hl, he, hg⟩ := h
  have ha : (a0 ∘ σ) hi = a0 hi := by simp [hσ hi (Or.inr (le_refl _))]
  have hk : keyAt n step g (a0 ∘ σ) hi = some (keyOf step g (a0 hi)) := by
    simp only [keyAt, ha, keyOf]; rw [if_pos ⟨by omega, by omega⟩]
  simp only [partStep, hk]
  simp only [Option.pure_def, Option.bind_eq_bind, Option.bind_some]
  split_ifs with c1 c2
  · refine ⟨_, _, _, rfl, by omega, by omega, by omega, ?_, ?_, ?_, ?_⟩
    · refine ⟨σ * (Equiv.swap hi (mr + 1) * Equiv.swap (mr + 1) ml), ?_, ?_⟩
      · exact (hσ.mono (le_refl _) (by omega)).mul
          ((fixes_swap (by omega) (by omega) (by omega) (by omega)).mul
            (fixes_swap (by omega) (by omega) (by omega) (by omega)))
      · rw [three_eq _ _ _ _ (by omega) (by omega)]; rfl
    · intro i h4 h5
      rw [three_eq _ _ _ _ (by omega) (by omega)]
      rcases Nat.lt_or_ge i ml with h6 | h6
      · have : (Equiv.swap hi (mr + 1) * Equiv.swap (mr + 1) ml : Equiv.Perm Nat) i = i := by
          rw [Equiv.Perm.mul_apply, Equiv.swap_apply_of_ne_of_ne (a := mr + 1) (by omega) (by omega),
            Equiv.swap_apply_of_ne_of_ne (by omega) (by omega)]
        rw [Function.comp_apply, this]; exact hl i h4 h6
      · have : i = ml := by omega
        subst this
        simpa [hσ hi (Or.inr (le_refl _))] using c1
    · intro i h4 h5
      rw [three_eq _ _ _ _ (by omega) (by omega)]
      by_cases h6 : i = mr + 1
      · subst h6
        have : (Equiv.swap hi (mr + 1) * Equiv.swap (mr + 1) ml : Equiv.Perm Nat) (mr + 1) = ml := by
          rw [Equiv.Perm.mul_apply, Equiv.swap_apply_left, Equiv.swap_apply_of_ne_of_ne (by omega) (by omega)]
        rw [Function.comp_apply, this]; exact he ml (le_refl _) h2
      · have : (Equiv.swap hi (mr + 1) * Equiv.swap (mr + 1) ml : Equiv.Perm Nat) i = i := by
          rw [Equiv.Perm.mul_apply, Equiv.swap_apply_of_ne_of_ne (a := mr + 1) (by omega) (by omega),
            Equiv.swap_apply_of_ne_of_ne (by omega) (by omega)]
        rw [Function.comp_apply, this]; exact he i (by omega) (by omega)
    · intro i h4 h5
      rw [three_eq _ _ _ _ (by omega) (by omega)]
      by_cases h6 : i = hi
      · subst h6
        have : (Equiv.swap i (mr + 1) * Equiv.swap (mr + 1) ml : Equiv.Perm Nat) i = mr + 1 := by
          rw [Equiv.Perm.mul_apply, Equiv.swap_apply_of_ne_of_ne (a := mr + 1) (by omega) (by omega),
            Equiv.swap_apply_left]
        rw [Function.comp_apply, this]; exact hg (mr + 1) (by omega) (by omega)
      · have : (Equiv.swap hi (mr + 1) * Equiv.swap (mr + 1) ml : Equiv.Perm Nat) i = i := by
          rw [Equiv.Perm.mul_apply, Equiv.swap_apply_of_ne_of_ne (a := mr + 1) (by omega) (by omega),
            Equiv.swap_apply_of_ne_of_ne (by omega) (by omega)]
        rw [Function.comp_apply, this]; exact hg i (by omega) (by omega)
  · refine ⟨_, _, _, rfl, by omega, by omega, by omega, ?_, ?_, ?_, ?_⟩
    · refine ⟨σ * Equiv.swap hi (mr + 1), ?_, ?_⟩
      · exact (hσ.mono (le_refl _) (by omega)).mul (fixes_swap (by omega) (by omega) (by omega) (by omega))
      · rw [two_eq]; rfl
    · intro i h4 h5
      rw [two_eq]
      simpa [Equiv.swap_apply_of_ne_of_ne (show i ≠ hi by omega) (show i ≠ mr + 1 by omega)] using hl i h4 h5
    · intro i h4 h5
      rw [two_eq]
      by_cases h6 : i = mr + 1
      · subst h6; simpa [hσ hi (Or.inr (le_refl _))] using c2
      · simpa [Equiv.swap_apply_of_ne_of_ne (show i ≠ hi by omega) h6] using he i (by omega) (by omega)
    · intro i h4 h5
      rw [two_eq]
      by_cases h6 : i = hi
      · subst h6; simpa using hg (mr + 1) (by omega) (by omega)
      · simpa [Equiv.swap_apply_of_ne_of_ne h6 (show i ≠ mr + 1 by omega)] using hg i (by omega) (by omega)
  · refine ⟨_, _, _, rfl, by omega, by omega, by omega, ⟨σ, hσ.mono (le_refl _) (by omega), rfl⟩, hl, he, ?_⟩
    intro i h4 h5
    by_cases h6 : i = hi
    · subst h6; simp only [ha]; omega
    · exact hg i h4 (by omega)

theorem partition_inv {n step : Nat} {g : Nat → Nat} {pv lo : Nat} {a0 : Nat → Int} (k : Nat)
    (h0 : ∀ i, lo ≤ i → i < lo + 1 + k → 0 ≤ a0 i ∧ a0 i + step < n) (hp : keyOf step g (a0 lo) = pv) :
    ∃ a ml mr, (List.range' (lo + 1) k).foldlM (partStep n step g pv) (a0, lo, lo) = some (a, ml, mr) ∧
      PartInv n step g pv lo (lo + 1 + k) a0 a ml mr := by
  induction k with
  | zero =>
    refine ⟨a0, lo, lo, rfl, le_refl _, le_refl _, by omega, ⟨1, fun i _ => rfl, rfl⟩, ?_, ?_, ?_⟩
    · intro i h1 h2; omega
    · intro i h1 h2
      have : i = lo := by omega
      subst this; exact hp
    · intro i h1 h2; omega
  | succ k ih =>
    obtain ⟨a, ml, mr, e, inv⟩ := ih (fun i h1 h2 => h0 i h1 (by omega))
    obtain ⟨a', ml', mr', e', inv'⟩ := partStep_inv (h0 (lo + 1 + k) (by omega) (by omega)) inv
    refine ⟨a', ml', mr', ?_, inv'⟩
    rw [List.range'_concat, List.foldlM_append, e]
    simp [e']


/-! ### Suffix order -/

theorem drop_lt {data : List Nat} {p q h : Nat} (h1 : (data.drop p).take h = (data.drop q).take h)
    (h2 : data.drop (p + h) < data.drop (q + h)) : data.drop p < data.drop q := by
  rw [← List.take_append_drop h (data.drop p), ← List.take_append_drop h (data.drop q), h1, List.drop_drop,
    List.drop_drop]
  exact List.append_left_lt h2

theorem take_double {data : List Nat} {p q h : Nat} (h1 : (data.drop p).take h = (data.drop q).take h)
    (h2 : (data.drop (p + h)).take h = (data.drop (q + h)).take h) :
    (data.drop p).take (h * 2) = (data.drop q).take (h * 2) := by
  rw [show h * 2 = h + h by omega, List.take_add, List.take_add, h1, List.drop_drop, List.drop_drop, h2]

theorem take_bound {data : List Nat} {p q h : Nat} (h1 : (data.drop p).take h = (data.drop q).take h)
    (hp : p < data.length + 1) (hq : q < data.length + 1) (hne : p ≠ q) : p + h < data.length + 1 := by
  have := congrArg List.length h1
  simp only [List.length_take, List.length_drop] at this
  omega

/-- Groups are consistent with the suffix order, and members of a group agree on `h` words. -/
structure Good (data : List Nat) (h : Nat) (g : Nat → Nat) : Prop where
  lt : ∀ p q, p < data.length + 1 → q < data.length + 1 → g p < g q → data.drop p < data.drop q
  eq : ∀ p q, p < data.length + 1 → q < data.length + 1 → g p = g q → (data.drop p).take h = (data.drop q).take h
  ub : ∀ p, p < data.length + 1 → g p < data.length + 1

/-- The indices `[lo, hi)` of the suffix array are runs of finished singletons and unfinished groups. -/
inductive Tiled (n : Nat) (g : Nat → Nat) (sa : Nat → Int) : Nat → Nat → Prop
  | nil (lo : Nat) : Tiled n g sa lo lo
  | run (lo hi c : Nat) : 0 < c → sa lo = -(c : Int) →
      (∀ r, lo ≤ r → r < lo + c → ∃ p, p < n ∧ g p = r ∧ ∀ q, q < n → g q = r → q = p) →
      Tiled n g sa (lo + c) hi → Tiled n g sa lo hi
  | grp (lo hi j : Nat) : lo < j →
      (∀ i, lo ≤ i → i ≤ j → ∃ p : Nat, p < n ∧ sa i = p ∧ g p = j) →
      (∀ i k, lo ≤ i → i ≤ j → lo ≤ k → k ≤ j → sa i = sa k → i = k) →
      (∀ p, p < n → g p = j → ∃ i, lo ≤ i ∧ i ≤ j ∧ sa i = p) →
      (∀ p, p < n → ¬ (lo ≤ g p ∧ g p < j)) →
      Tiled n g sa (j + 1) hi → Tiled n g sa lo hi

theorem Tiled.le {n : Nat} {g : Nat → Nat} {sa : Nat → Int} {lo hi : Nat} (h : Tiled n g sa lo hi) : lo ≤ hi := by
  induction h <;> omega

theorem Tiled.append {n : Nat} {g : Nat → Nat} {sa : Nat → Int} {lo mid hi : Nat} (h : Tiled n g sa lo mid)
    (h' : Tiled n g sa mid hi) : Tiled n g sa lo hi := by
  induction h with
  | nil => exact h'
  | run lo hi c h1 h2 h3 _ ih => exact .run _ _ c h1 h2 h3 (ih h')
  | grp lo hi j h1 h2 h3 h4 h5 _ ih => exact .grp _ _ j h1 h2 h3 h4 h5 (ih h')

theorem Tiled.congr {n : Nat} {g g' : Nat → Nat} {sa sa' : Nat → Int} {lo hi : Nat} (h : Tiled n g sa lo hi)
    (hg : ∀ p r, p < n → lo ≤ r → r < hi → (g p = r ↔ g' p = r)) (hs : ∀ i, lo ≤ i → i < hi → sa i = sa' i) :
    Tiled n g' sa' lo hi := by
  induction h with
  | nil => exact .nil _
  | run lo hi c h1 h2 h3 ht ih =>
    have := ht.le
    refine .run _ _ c h1 (by rw [← hs lo (by omega) (by omega)]; exact h2) ?_
      (ih (fun p r hp h4 h5 => hg p r hp (by omega) h5) (fun i h4 h5 => hs i (by omega) h5))
    intro r h4 h5
    obtain ⟨p, hp, e, u⟩ := h3 r h4 h5
    exact ⟨p, hp, (hg p r hp h4 (by omega)).1 e, fun q hq eq => u q hq ((hg q r hq h4 (by omega)).2 eq)⟩
  | grp lo hi j h1 h2 h3 h4 h5 ht ih =>
    have := ht.le
    refine .grp _ _ j h1 ?_ ?_ ?_ ?_
      (ih (fun p r hp h4 h5 => hg p r hp (by omega) h5) (fun i h4 h5 => hs i (by omega) h5))
    · intro i h6 h7
      obtain ⟨p, hp, e, e2⟩ := h2 i h6 h7
      exact ⟨p, hp, by rw [← hs i h6 (by omega)]; exact e, (hg p j hp (by omega) (by omega)).1 e2⟩
    · intro i k a b c d e
      rw [← hs i a (by omega), ← hs k c (by omega)] at e
      exact h3 i k a b c d e
    · intro p hp e
      obtain ⟨i, a, b, c⟩ := h4 p hp ((hg p j hp (by omega) (by omega)).2 e)
      exact ⟨i, a, b, by rw [← hs i a (by omega)]; exact c⟩
    · intro p hp hh
      exact h5 p hp (by rw [(hg p (g' p) hp hh.1 (by omega)).2 rfl]; exact hh)

/-- Precondition of sorting `[lo, hi)` inside the group whose last index is `G`. -/
structure Block (data : List Nat) (h lo hi G : Nat) (g : Nat → Nat) (sa : Nat → Int) : Prop where
  le : hi ≤ G + 1
  mem : ∀ i, lo ≤ i → i ≤ G → ∃ p : Nat, p < data.length + 1 ∧ sa i = p ∧ g p = G
  inj : ∀ i k, lo ≤ i → i ≤ G → lo ≤ k → k ≤ G → sa i = sa k → i = k
  all : ∀ p, p < data.length + 1 → g p = G → ∃ i, lo ≤ i ∧ i ≤ G ∧ sa i = p
  gap : ∀ p, p < data.length + 1 → ¬ (lo ≤ g p ∧ g p < G)
  ord : ∀ i k (p q : Nat), lo ≤ i → i < hi → hi ≤ k → k ≤ G → sa i = p → sa k = q → data.drop p < data.drop q
  bound : ∀ i, lo ≤ i → i < hi → sa i + h < data.length + 1

/-- Postcondition of sorting `[lo, hi)`. -/
structure Sorted2 (data : List Nat) (h lo hi : Nat) (g0 g : Nat → Nat) (sa0 sa : Nat → Int) : Prop where
  good : Good data h g
  saEq : ∀ i, i < lo ∨ hi ≤ i → sa i = sa0 i
  gEq : ∀ p : Nat, (∀ i, lo ≤ i → i < hi → sa0 i ≠ p) → g p = g0 p
  rng : ∀ i (p : Nat), lo ≤ i → i < hi → sa0 i = p → lo ≤ g p ∧ g p < hi
  two : ∀ i k (p q : Nat), lo ≤ i → i < hi → lo ≤ k → k < hi → sa0 i = p → sa0 k = q → g p = g q →
    (data.drop p).take (h * 2) = (data.drop q).take (h * 2)
  tiled : Tiled (data.length + 1) g sa lo hi

theorem setGroups_inv {n : Nat} {sa : Nat → Int} {v ml : Nat} {g : Nat → Nat} (k : Nat)
    (h0 : ∀ i, ml ≤ i → i < ml + k → 0 ≤ sa i ∧ sa i < n) :
    ∃ g', (List.range' ml k).foldlM (setGroup n sa v) g = some g' ∧
      (∀ i (p : Nat), ml ≤ i → i < ml + k → sa i = p → g' p = v) ∧
      (∀ p : Nat, (∀ i, ml ≤ i → i < ml + k → sa i ≠ p) → g' p = g p) := by
  induction k with
  | zero => exact ⟨g, rfl, fun i p a b => absurd b (by omega), fun p _ => rfl⟩
  | succ k ih =>
    obtain ⟨g', e, h1, h2⟩ := ih (fun i a b => h0 i a (by omega))
    have hb := h0 (ml + k) (by omega) (by omega)
    refine ⟨upd g' (sa (ml + k)).toNat v, ?_, ?_, ?_⟩
    · rw [List.range'_concat, List.foldlM_append, e]
      simp [setGroup, hb]
    · intro i p a b c
      by_cases hp : p = (sa (ml + k)).toNat
      · rw [hp, upd_same]
      · rw [upd_ne _ _ hp]
        by_cases hi : i = ml + k
        · subst hi; omega
        · exact h1 i p a (by omega) c
    · intro p hp
      have := hp (ml + k) (by omega) (by omega)
      rw [upd_ne _ _ (by omega)]
      exact h2 p (fun i a b => hp i a (by omega))

theorem nameMid_inv {n ml mr : Nat} {st : SortState} (hle : ml ≤ mr)
    (h0 : ∀ i, ml ≤ i → i ≤ mr → 0 ≤ st.sa i ∧ st.sa i < n) :
    ∃ st', nameMid n ml mr st = some st' ∧
      (∀ i (p : Nat), ml ≤ i → i ≤ mr → st.sa i = p → st'.g p = mr) ∧
      (∀ p : Nat, (∀ i, ml ≤ i → i ≤ mr → st.sa i ≠ p) → st'.g p = st.g p) ∧
      (∀ i, i < ml ∨ mr < i → st'.sa i = st.sa i) ∧
      (ml = mr → st'.sa ml = -1) ∧ (ml < mr → st'.sa = st.sa) := by
  unfold nameMid
  split_ifs with c
  · subst c
    have hb := h0 ml (le_refl _) (le_refl _)
    refine ⟨⟨upd st.sa ml (-1), upd st.g (st.sa ml).toNat ml, st.rc⟩, by simp [setGroup, hb], ?_, ?_, ?_, ?_, ?_⟩
    · intro i p a b e
      have : i = ml := by omega
      subst this
      have : p = (st.sa i).toNat := by omega
      subst this; exact upd_same _ _ _
    · intro p hp
      have := hp ml (le_refl _) (le_refl _)
      exact upd_ne _ _ (by omega)
    · intro i hi; exact upd_ne _ _ (by omega)
    · intro _; exact upd_same _ _ _
    · intro hh; omega
  · obtain ⟨g', e, h1, h2⟩ := setGroups_inv (n := n) (sa := st.sa) (v := mr) (ml := ml) (g := st.g) (mr + 1 - ml)
      (fun i a b => h0 i a (by omega))
    refine ⟨⟨st.sa, g', st.rc⟩, by simp [e], ?_, ?_, fun i _ => rfl, fun hh => absurd hh c, fun _ => rfl⟩
    · intro i p a b e; exact h1 i p a (by omega) e
    · intro p hp; exact h2 p (fun i a b => hp i a (by omega))


theorem Block.perm {data : List Nat} {h lo hi G : Nat} {g : Nat → Nat} {sa : Nat → Int}
    (b : Block data h lo hi G g sa) {τ : Equiv.Perm Nat} (hτ : Fixes τ lo hi) :
    Block data h lo hi G g (sa ∘ τ) := by
  have hle := b.le
  have hG : Fixes τ lo (G + 1) := hτ.mono (le_refl _) hle
  refine ⟨hle, ?_, ?_, ?_, b.gap, ?_, ?_⟩
  · intro i h1 h2
    have := hG.mem h1 (by omega)
    exact b.mem (τ i) this.1 (by omega)
  · intro i k h1 h2 h3 h4 e
    have := hG.mem h1 (by omega)
    have := hG.mem h3 (by omega)
    exact τ.injective (b.inj (τ i) (τ k) (by omega) (by omega) (by omega) (by omega) e)
  · intro p hp e
    obtain ⟨i, h1, h2, h3⟩ := b.all p hp e
    have := hG.symm.mem h1 (by omega)
    exact ⟨τ.symm i, by omega, by omega, by simpa using h3⟩
  · intro i k p q h1 h2 h3 h4 e1 e2
    have := hτ.mem h1 h2
    refine b.ord (τ i) k p q this.1 this.2 h3 h4 e1 ?_
    have : τ k = k := hτ k (Or.inr h3)
    simpa [this] using e2
  · intro i h1 h2
    have := hτ.mem h1 h2
    exact b.bound (τ i) this.1 this.2

theorem Sorted2.perm {data : List Nat} {h lo hi : Nat} {g0 g : Nat → Nat} {sa0 sa : Nat → Int}
    {τ : Equiv.Perm Nat} (hτ : Fixes τ lo hi) (s : Sorted2 data h lo hi g0 g (sa0 ∘ τ) sa) :
    Sorted2 data h lo hi g0 g sa0 sa := by
  have key : ∀ i (p : Nat), lo ≤ i → i < hi → sa0 i = p → ∃ k, lo ≤ k ∧ k < hi ∧ (sa0 ∘ τ) k = p := by
    intro i p h1 h2 e
    have := hτ.symm.mem h1 h2
    exact ⟨τ.symm i, this.1, this.2, by simpa using e⟩
  refine ⟨s.good, ?_, ?_, ?_, ?_, s.tiled⟩
  · intro i hi'
    rw [s.saEq i hi', Function.comp_apply, hτ i hi']
  · intro p hp
    refine s.gEq p (fun i h1 h2 => ?_)
    have := hτ.mem h1 h2
    exact hp (τ i) this.1 this.2
  · intro i p h1 h2 e
    obtain ⟨k, a, b, c⟩ := key i p h1 h2 e
    exact s.rng k p a b c
  · intro i k p q h1 h2 h3 h4 e1 e2 e3
    obtain ⟨k1, a, b, c⟩ := key i p h1 h2 e1
    obtain ⟨k2, a2, b2, c2⟩ := key k q h3 h4 e2
    exact s.two k1 k2 p q a b a2 b2 c c2 e3

/-- The part of `TernaryQuicksort` after the partition. -/
theorem tqs_core {data : List Nat} {h lo hi G ml mr pv : Nat} {g : Nat → Nat} {a a0 : Nat → Int}
    (good : Good data h g) (blk : Block data h lo hi G g a)
    (part : PartInv (data.length + 1) h g pv lo hi a0 a ml mr) :
    Block data h lo ml G g a ∧
    ∀ g1 sa1, Sorted2 data h lo ml g g1 a sa1 →
      (∀ i, ml ≤ i → i ≤ mr → 0 ≤ sa1 i ∧ sa1 i < (data.length + 1 : Nat)) ∧
      ∀ g2 sa2, (∀ i (p : Nat), ml ≤ i → i ≤ mr → sa1 i = p → g2 p = mr) →
        (∀ p : Nat, (∀ i, ml ≤ i → i ≤ mr → sa1 i ≠ p) → g2 p = g1 p) →
        (∀ i, i < ml ∨ mr < i → sa2 i = sa1 i) →
        (ml = mr → sa2 ml = -1) → (ml < mr → sa2 = sa1) →
        Good data h g2 ∧ (mr + 1 < hi → Block data h (mr + 1) hi G g2 sa2) ∧
        (mr + 1 = hi → Sorted2 data h lo hi g g2 a sa2) ∧
        ∀ g3 sa3, mr + 1 < hi → Sorted2 data h (mr + 1) hi g2 g3 sa2 sa3 → Sorted2 data h lo hi g g3 a sa3 := by
  obtain ⟨p1, p2, p3, -, plt, peq, pgt⟩ := part
  have hle := blk.le
  -- comparison of two members
  have cmp : ∀ i k (p q : Nat), lo ≤ i → i < hi → lo ≤ k → k < hi → a i = p → a k = q →
      keyOf h g (a i) < keyOf h g (a k) → data.drop p < data.drop q := by
    intro i k p q h1 h2 h3 h4 e1 e2 hk
    obtain ⟨p', hp, e, gp⟩ := blk.mem i h1 (by omega)
    obtain ⟨q', hq, e', gq⟩ := blk.mem k h3 (by omega)
    have : p' = p := by omega
    subst this
    have : q' = q := by omega
    subst this
    have b1 := blk.bound i h1 h2
    have b2 := blk.bound k h3 h4
    refine drop_lt (good.eq p' q' hp hq (by rw [gp, gq])) (good.lt _ _ (by omega) (by omega) ?_)
    simpa [keyOf, e1, e2, ← Int.natCast_add] using hk
  have ord : ∀ i k (p q : Nat), lo ≤ i → i ≤ mr → ml ≤ k → (i < ml ∨ mr < k) → k ≤ G → a i = p → a k = q →
      data.drop p < data.drop q := by
    intro i k p q h1 h2 h3 h4 h5 e1 e2
    rcases Nat.lt_or_ge k hi with hk | hk
    · refine cmp i k p q h1 (by omega) (by omega) hk e1 e2 ?_
      rcases Nat.lt_or_ge i ml with hi' | hi'
      · have := plt i h1 hi'
        rcases Nat.lt_or_ge mr k with hk' | hk'
        · have := pgt k hk' hk; omega
        · have := peq k h3 hk'; omega
      · have := peq i hi' h2
        have := pgt k (by omega) hk
        omega
    · exact blk.ord i k p q h1 (by omega) hk h5 e1 e2
  refine ⟨⟨by omega, blk.mem, blk.inj, blk.all, blk.gap, ?_, ?_⟩, ?_⟩
  · intro i k p q h1 h2 h3 h4 e1 e2
    exact ord i k p q h1 (by omega) h3 (Or.inl h2) h4 e1 e2
  · intro i h1 h2; exact blk.bound i h1 (by omega)
  intro g1 sa1 s1
  have hsa1 : ∀ i, ml ≤ i → sa1 i = a i := fun i hi' => s1.saEq i (Or.inr hi')
  have g1out : ∀ k (p : Nat), ml ≤ k → k ≤ G → a k = p → g1 p = G := by
    intro k p h1 h2 e
    obtain ⟨p', hp, e', gp⟩ := blk.mem k (by omega) h2
    have : p' = p := by omega
    subst this
    rw [s1.gEq p' ?_, gp]
    intro i h3 h4 e2
    have := blk.inj i k h3 (by omega) (by omega) h2 (by omega)
    omega
  have g1cases : ∀ p, p < data.length + 1 → (∃ i, lo ≤ i ∧ i < ml ∧ a i = p ∧ lo ≤ g1 p ∧ g1 p < ml) ∨
      ((∀ i, lo ≤ i → i < ml → a i ≠ p) ∧ g1 p = g p) := by
    intro p hp
    by_cases hc : ∃ i, lo ≤ i ∧ i < ml ∧ a i = p
    · obtain ⟨i, h1, h2, e⟩ := hc
      exact Or.inl ⟨i, h1, h2, e, s1.rng i p h1 h2 e⟩
    · have : ∀ i, lo ≤ i → i < ml → a i ≠ p := fun i h1 h2 e => hc ⟨i, h1, h2, e⟩
      exact Or.inr ⟨this, s1.gEq p this⟩
  refine ⟨?_, ?_⟩
  · intro i h1 h2
    rw [hsa1 i h1]
    obtain ⟨p', hp, e', gp⟩ := blk.mem i (by omega) (by omega)
    omega
  intro g2 sa2 hmid hout hsa2 hone hmore
  have hmid' : ∀ i (p : Nat), ml ≤ i → i ≤ mr → a i = p → g2 p = mr := by
    intro i p h1 h2 e; exact hmid i p h1 h2 (by rw [hsa1 i h1]; exact e)
  have hout' : ∀ p : Nat, (∀ i, ml ≤ i → i ≤ mr → a i ≠ p) → g2 p = g1 p := by
    intro p hp; exact hout p (fun i h1 h2 => by rw [hsa1 i h1]; exact hp i h1 h2)
  -- classification under g2
  have cls : ∀ p, p < data.length + 1 →
      (∃ i, lo ≤ i ∧ i < ml ∧ a i = p ∧ g2 p = g1 p ∧ lo ≤ g1 p ∧ g1 p < ml ∧ g p = G) ∨
      (∃ i, ml ≤ i ∧ i ≤ mr ∧ a i = p ∧ g2 p = mr ∧ g p = G ∧ g1 p = G) ∨
      (∃ i, mr < i ∧ i ≤ G ∧ a i = p ∧ g2 p = G ∧ g p = G ∧ g1 p = G) ∨
      ((∀ i, lo ≤ i → i ≤ G → a i ≠ p) ∧ g2 p = g p ∧ g1 p = g p ∧ g p ≠ G ∧ (g p < lo ∨ G < g p)) := by
    intro p hp
    by_cases hG : g p = G
    · obtain ⟨i, h1, h2, e⟩ := blk.all p hp hG
      rcases Nat.lt_or_ge i ml with c1 | c1
      · left
        have hne : g2 p = g1 p := hout' p (fun k h3 h4 e2 => by
          have := blk.inj i k h1 h2 (by omega) (by omega) (by omega); omega)
        have := s1.rng i p h1 c1 e
        exact ⟨i, h1, c1, e, hne, this.1, this.2, hG⟩
      · right
        rcases Nat.lt_or_ge mr i with c2 | c2
        · right; left
          have hne : g2 p = g1 p := hout' p (fun k h3 h4 e2 => by
            have := blk.inj i k h1 h2 (by omega) (by omega) (by omega); omega)
          have := g1out i p c1 h2 e
          exact ⟨i, c2, h2, e, by omega, hG, this⟩
        · left
          exact ⟨i, c1, c2, e, hmid' i p c1 c2 e, hG, g1out i p c1 h2 e⟩
    · right; right; right
      have hno : ∀ i, lo ≤ i → i ≤ G → a i ≠ p := by
        intro i h1 h2 e
        obtain ⟨p', hp', e', gp⟩ := blk.mem i h1 h2
        have : p' = p := by omega
        subst this; exact hG gp
      have e1 : g1 p = g p := s1.gEq p (fun i h1 h2 => hno i h1 (by omega))
      have e2 : g2 p = g1 p := hout' p (fun i h1 h2 => hno i (by omega) (by omega))
      have := blk.gap p hp
      exact ⟨hno, by omega, e1, hG, by omega⟩
  have good2 : Good data h g2 := by
    constructor
    · intro p q hp hq hlt
      rcases cls p hp with ⟨i, h1, h2, e, x1, x2, x3, x4⟩ | ⟨i, h1, h2, e, x1, x2, x3⟩ |
          ⟨i, h1, h2, e, x1, x2, x3⟩ | ⟨h1, x1, x2, x3, x4⟩ <;>
        rcases cls q hq with ⟨k, k1, k2, f, y1, y2, y3, y4⟩ | ⟨k, k1, k2, f, y1, y2, y3⟩ |
          ⟨k, k1, k2, f, y1, y2, y3⟩ | ⟨k1, y1, y2, y3, y4⟩
      · exact s1.good.lt p q hp hq (by omega)
      · exact ord i k p q h1 (by omega) k1 (Or.inl h2) (by omega) e f
      · exact s1.good.lt p q hp hq (by omega)
      · exact s1.good.lt p q hp hq (by omega)
      · omega
      · omega
      · exact ord i k p q (by omega) h2 (by omega) (Or.inr k1) k2 e f
      · exact good.lt p q hp hq (by omega)
      · omega
      · omega
      · omega
      · exact good.lt p q hp hq (by omega)
      · exact good.lt p q hp hq (by omega)
      · exact good.lt p q hp hq (by omega)
      · exact good.lt p q hp hq (by omega)
      · exact good.lt p q hp hq (by omega)
    · intro p q hp hq heq
      refine good.eq p q hp hq ?_
      rcases cls p hp with ⟨i, h1, h2, e, x1, x2, x3, x4⟩ | ⟨i, h1, h2, e, x1, x2, x3⟩ |
          ⟨i, h1, h2, e, x1, x2, x3⟩ | ⟨h1, x1, x2, x3, x4⟩ <;>
        rcases cls q hq with ⟨k, k1, k2, f, y1, y2, y3, y4⟩ | ⟨k, k1, k2, f, y1, y2, y3⟩ |
          ⟨k, k1, k2, f, y1, y2, y3⟩ | ⟨k1, y1, y2, y3, y4⟩ <;> omega
    · intro p hp
      have u1 := good.ub p hp
      have u2 := s1.good.ub p hp
      rcases cls p hp with ⟨i, h1, h2, e, x1, x2, x3, x4⟩ | ⟨i, h1, h2, e, x1, x2, x3⟩ |
          ⟨i, h1, h2, e, x1, x2, x3⟩ | ⟨h1, x1, x2, x3, x4⟩ <;> omega
  have twoMid : ∀ i k (p q : Nat), ml ≤ i → i ≤ mr → ml ≤ k → k ≤ mr → a i = p → a k = q →
      (data.drop p).take (h * 2) = (data.drop q).take (h * 2) := by
    intro i k p q h1 h2 h3 h4 e1 e2
    obtain ⟨p', hp, e, gp⟩ := blk.mem i (by omega) (by omega)
    obtain ⟨q', hq, e', gq⟩ := blk.mem k (by omega) (by omega)
    have : p' = p := by omega
    subst this
    have : q' = q := by omega
    subst this
    have b1 := blk.bound i (by omega) (by omega)
    have b2 := blk.bound k (by omega) (by omega)
    refine take_double (good.eq p' q' hp hq (by rw [gp, gq])) (good.eq _ _ (by omega) (by omega) ?_)
    have k1 := peq i h1 h2
    have k2 := peq k h3 h4
    rw [← k2] at k1
    simpa [keyOf, e1, e2, ← Int.natCast_add] using k1
  -- the middle tile, for any later state which keeps it
  have tileMid : ∀ g3 sa3, (∀ p r, p < data.length + 1 → ml ≤ r → r ≤ mr → (g2 p = r ↔ g3 p = r)) →
      (∀ i, ml ≤ i → i ≤ mr → sa2 i = sa3 i) → Tiled (data.length + 1) g3 sa3 ml (mr + 1) := by
    intro g3 sa3 hg hs
    refine Tiled.congr (g := g2) (sa := sa2) ?_ (fun p r hp h1 h2 => hg p r hp h1 (by omega))
      (fun i h1 h2 => hs i h1 (by omega))
    by_cases hml : ml = mr
    · refine .run _ _ 1 (by omega) (by simpa using hone hml) ?_ (by rw [hml]; exact .nil _)
      intro r h1 h2
      have : r = ml := by omega
      subst this
      obtain ⟨p, hp, e, gp⟩ := blk.mem r (by omega) (by omega)
      refine ⟨p, hp, by rw [hmid' r p (by omega) (by omega) e, hml], ?_⟩
      intro q hq hh
      rcases cls q hq with ⟨k, k1, k2, f, y1, y2, y3, y4⟩ | ⟨k, k1, k2, f, y1, y2, y3⟩ |
          ⟨k, k1, k2, f, y1, y2, y3⟩ | ⟨k1, y1, y2, y3, y4⟩
      · omega
      · have : k = r := by omega
        subst this; omega
      · omega
      · omega
    · have hlt : ml < mr := by omega
      have hs2 := hmore hlt
      refine .grp _ _ mr hlt ?_ ?_ ?_ ?_ (.nil _)
      · intro i h1 h2
        obtain ⟨p, hp, e, gp⟩ := blk.mem i (by omega) (by omega)
        exact ⟨p, hp, by rw [hs2, hsa1 i h1]; exact e, hmid' i p h1 h2 e⟩
      · intro i k h1 h2 h3 h4 e
        rw [hs2, hsa1 i h1, hsa1 k h3] at e
        exact blk.inj i k (by omega) (by omega) (by omega) (by omega) e
      · intro p hp e
        rcases cls p hp with ⟨k, k1, k2, f, y1, y2, y3, y4⟩ | ⟨k, k1, k2, f, y1, y2, y3⟩ |
          ⟨k, k1, k2, f, y1, y2, y3⟩ | ⟨k1, y1, y2, y3, y4⟩
        · omega
        · exact ⟨k, k1, k2, by rw [hs2, hsa1 k k1]; exact f⟩
        · omega
        · omega
      · intro p hp hh
        rcases cls p hp with ⟨k, k1, k2, f, y1, y2, y3, y4⟩ | ⟨k, k1, k2, f, y1, y2, y3⟩ |
          ⟨k, k1, k2, f, y1, y2, y3⟩ | ⟨k1, y1, y2, y3, y4⟩ <;> omega
  refine ⟨good2, ?_, ?_, ?_⟩
  · intro hlt
    have hs2 : ∀ i, mr < i → sa2 i = a i := fun i hi' => by rw [hsa2 i (Or.inr hi'), hsa1 i (by omega)]
    refine ⟨hle, ?_, ?_, ?_, ?_, ?_, ?_⟩
    · intro i h1 h2
      obtain ⟨p, hp, e, gp⟩ := blk.mem i (by omega) h2
      refine ⟨p, hp, by rw [hs2 i (by omega)]; exact e, ?_⟩
      rcases cls p hp with ⟨k, k1, k2, f, y1, y2, y3, y4⟩ | ⟨k, k1, k2, f, y1, y2, y3⟩ |
          ⟨k, k1, k2, f, y1, y2, y3⟩ | ⟨k1, y1, y2, y3, y4⟩
      · have := blk.inj i k (by omega) h2 k1 (by omega) (by omega); omega
      · have := blk.inj i k (by omega) h2 (by omega) (by omega) (by omega); omega
      · exact y1
      · exact absurd e (k1 i (by omega) h2)
    · intro i k h1 h2 h3 h4 e
      rw [hs2 i (by omega), hs2 k (by omega)] at e
      exact blk.inj i k (by omega) h2 (by omega) h4 e
    · intro p hp e
      rcases cls p hp with ⟨k, k1, k2, f, y1, y2, y3, y4⟩ | ⟨k, k1, k2, f, y1, y2, y3⟩ |
          ⟨k, k1, k2, f, y1, y2, y3⟩ | ⟨k1, y1, y2, y3, y4⟩
      · omega
      · omega
      · exact ⟨k, by omega, k2, by rw [hs2 k k1]; exact f⟩
      · omega
    · intro p hp hh
      rcases cls p hp with ⟨k, k1, k2, f, y1, y2, y3, y4⟩ | ⟨k, k1, k2, f, y1, y2, y3⟩ |
          ⟨k, k1, k2, f, y1, y2, y3⟩ | ⟨k1, y1, y2, y3, y4⟩ <;> omega
    · intro i k p q h1 h2 h3 h4 e1 e2
      rw [hs2 i (by omega)] at e1
      rw [hs2 k (by omega)] at e2
      exact blk.ord i k p q (by omega) h2 h3 h4 e1 e2
    · intro i h1 h2
      rw [hs2 i (by omega)]
      exact blk.bound i (by omega) h2
  · intro hlast
    refine ⟨good2, ?_, ?_, ?_, ?_, ?_⟩
    · intro i hi'
      rw [hsa2 i (by omega), s1.saEq i (by omega)]
    · intro p hp
      rw [hout' p (fun i h1 h2 => hp i (by omega) (by omega)), s1.gEq p (fun i h1 h2 => hp i h1 (by omega))]
    · intro i p h1 h2 e
      rcases Nat.lt_or_ge i ml with c | c
      · have hr := s1.rng i p h1 c e
        have : g2 p = g1 p := hout' p (fun k h3 h4 e2 => by
          have := blk.inj i k h1 (by omega) (by omega) (by omega) (by omega); omega)
        omega
      · have := hmid' i p c (by omega) e; omega
    · intro i k p q h1 h2 h3 h4 e1 e2 e3
      have hr : ∀ i (p : Nat), lo ≤ i → i < ml → a i = p → g2 p = g1 p ∧ g1 p < ml := by
        intro i p h1 c e
        have hr := s1.rng i p h1 c e
        have : g2 p = g1 p := hout' p (fun k h3 h4 e2 => by
          have := blk.inj i k h1 (by omega) (by omega) (by omega) (by omega); omega)
        omega
      rcases Nat.lt_or_ge i ml with c | c <;> rcases Nat.lt_or_ge k ml with d | d
      · have := hr i p h1 c e1
        have := hr k q h3 d e2
        exact s1.two i k p q h1 c h3 d e1 e2 (by omega)
      · have := hr i p h1 c e1
        have := hmid' k q d (by omega) e2
        omega
      · have := hr k q h3 d e2
        have := hmid' i p c (by omega) e1
        omega
      · exact twoMid i k p q c (by omega) d (by omega) e1 e2
    · refine Tiled.append (mid := ml) (s1.tiled.congr ?_ ?_) (hlast ▸ tileMid g2 sa2 (fun _ _ _ _ _ => Iff.rfl)
        (fun _ _ _ => rfl))
      · intro p r hp h1 h2
        rcases cls p hp with ⟨k, k1, k2, f, y1, y2, y3, y4⟩ | ⟨k, k1, k2, f, y1, y2, y3⟩ |
          ⟨k, k1, k2, f, y1, y2, y3⟩ | ⟨k1, y1, y2, y3, y4⟩ <;> omega
      · intro i h1 h2
        rw [hsa2 i (Or.inl h2)]
  · intro g3 sa3 hlt s3
    have hs2 : ∀ i, mr < i → sa2 i = a i := fun i hi' => by rw [hsa2 i (Or.inr hi'), hsa1 i (by omega)]
    have g3out : ∀ p : Nat, (∀ i, mr < i → i < hi → a i ≠ p) → g3 p = g2 p := by
      intro p hp
      exact s3.gEq p (fun i h1 h2 => by rw [hs2 i (by omega)]; exact hp i (by omega) h2)
    have hr1 : ∀ i (p : Nat), lo ≤ i → i < ml → a i = p → g3 p = g1 p ∧ lo ≤ g1 p ∧ g1 p < ml := by
      intro i p h1 c e
      have hr := s1.rng i p h1 c e
      have e1 : g2 p = g1 p := hout' p (fun k h3 h4 e2 => by
        have := blk.inj i k h1 (by omega) (by omega) (by omega) (by omega); omega)
      have e2 : g3 p = g2 p := g3out p (fun k h3 h4 e2 => by
        have := blk.inj i k h1 (by omega) (by omega) (by omega) (by omega); omega)
      omega
    have hr2 : ∀ i (p : Nat), ml ≤ i → i ≤ mr → a i = p → g3 p = mr := by
      intro i p h1 c e
      have e2 : g3 p = g2 p := g3out p (fun k h3 h4 e2 => by
        have := blk.inj i k (by omega) (by omega) (by omega) (by omega) (by omega); omega)
      have := hmid' i p h1 c e
      omega
    have hr3 : ∀ i (p : Nat), mr < i → i < hi → a i = p → mr < g3 p ∧ g3 p < hi := by
      intro i p h1 c e
      have := s3.rng i p (by omega) c (by rw [hs2 i h1]; exact e)
      omega
    have cls3 : ∀ p, p < data.length + 1 →
        (g3 p = g2 p) ∨ (mr < g3 p ∧ g3 p < hi ∧ g2 p = G) := by
      intro p hp
      by_cases hc : ∃ i, mr < i ∧ i < hi ∧ a i = p
      · obtain ⟨i, h1, h2, e⟩ := hc
        right
        have := hr3 i p h1 h2 e
        rcases cls p hp with ⟨k, k1, k2, f, y1, y2, y3, y4⟩ | ⟨k, k1, k2, f, y1, y2, y3⟩ |
          ⟨k, k1, k2, f, y1, y2, y3⟩ | ⟨k1, y1, y2, y3, y4⟩
        · have := blk.inj i k (by omega) (by omega) k1 (by omega) (by omega); omega
        · have := blk.inj i k (by omega) (by omega) (by omega) (by omega) (by omega); omega
        · omega
        · exact absurd e (k1 i (by omega) (by omega))
      · left
        exact g3out p (fun i h1 h2 e => hc ⟨i, h1, h2, e⟩)
    refine ⟨s3.good, ?_, ?_, ?_, ?_, ?_⟩
    · intro i hi'
      rw [s3.saEq i (by omega), hsa2 i (by omega), s1.saEq i (by omega)]
    · intro p hp
      rw [g3out p (fun i h1 h2 => hp i (by omega) h2), hout' p (fun i h1 h2 => hp i (by omega) (by omega)),
        s1.gEq p (fun i h1 h2 => hp i h1 (by omega))]
    · intro i p h1 h2 e
      rcases Nat.lt_or_ge i ml with c | c
      · have := hr1 i p h1 c e; omega
      · rcases Nat.lt_or_ge mr i with d | d
        · have := hr3 i p d h2 e; omega
        · have := hr2 i p c d e; omega
    · intro i k p q h1 h2 h3 h4 e1 e2 e3
      rcases Nat.lt_or_ge i ml with c | c
      · have := hr1 i p h1 c e1
        rcases Nat.lt_or_ge k ml with d | d
        · have := hr1 k q h3 d e2
          exact s1.two i k p q h1 c h3 d e1 e2 (by omega)
        · rcases Nat.lt_or_ge mr k with d2 | d2
          · have := hr3 k q d2 h4 e2; omega
          · have := hr2 k q d d2 e2; omega
      · rcases Nat.lt_or_ge mr i with c2 | c2
        · have := hr3 i p c2 h2 e1
          rcases Nat.lt_or_ge k ml with d | d
          · have := hr1 k q h3 d e2; omega
          · rcases Nat.lt_or_ge mr k with d2 | d2
            · exact s3.two i k p q (by omega) h2 (by omega) h4 (by rw [hs2 i c2]; exact e1)
                (by rw [hs2 k d2]; exact e2) e3
            · have := hr2 k q d d2 e2; omega
        · have := hr2 i p c c2 e1
          rcases Nat.lt_or_ge k ml with d | d
          · have := hr1 k q h3 d e2; omega
          · rcases Nat.lt_or_ge mr k with d2 | d2
            · have := hr3 k q d2 h4 e2; omega
            · exact twoMid i k p q c c2 d d2 e1 e2
    · refine Tiled.append (mid := ml) (s1.tiled.congr ?_ ?_) (Tiled.append (mid := mr + 1) (tileMid g3 sa3 ?_ ?_)
        s3.tiled)
      · intro p r hp h1 h2
        rcases cls p hp with ⟨k, k1, k2, f, y1, y2, y3, y4⟩ | ⟨k, k1, k2, f, y1, y2, y3⟩ |
          ⟨k, k1, k2, f, y1, y2, y3⟩ | ⟨k1, y1, y2, y3, y4⟩ <;> rcases cls3 p hp with z | z <;> omega
      · intro i h1 h2
        rw [s3.saEq i (by omega), hsa2 i (Or.inl h2)]
      · intro p r hp h1 h2
        rcases cls p hp with ⟨k, k1, k2, f, y1, y2, y3, y4⟩ | ⟨k, k1, k2, f, y1, y2, y3⟩ |
          ⟨k, k1, k2, f, y1, y2, y3⟩ | ⟨k1, y1, y2, y3, y4⟩ <;> rcases cls3 p hp with z | z <;> omega
      · intro i h1 h2
        rw [s3.saEq i (by omega)]

theorem tqs_inv {data : List Nat} {h : Nat} {rnd : Nat → Nat} : ∀ fuel lo hi G (st : SortState),
    lo ≤ hi → hi - lo ≤ fuel → Good data h st.g → Block data h lo hi G st.g st.sa →
    ∃ st', ternaryQuicksort (data.length + 1) h rnd fuel lo hi st = some st' ∧
      Sorted2 data h lo hi st.g st'.g st.sa st'.sa := by
  have triv : ∀ (st : SortState) lo, Good data h st.g → Sorted2 data h lo lo st.g st.g st.sa st.sa := by
    intro st lo good
    exact ⟨good, fun _ _ => rfl, fun _ _ => rfl, fun i p h1 h2 => absurd h2 (by omega),
      fun i k p q h1 h2 => absurd h2 (by omega), .nil _⟩
  intro fuel
  induction fuel with
  | zero =>
    intro lo hi G st h1 h2 good blk
    have : hi = lo := by omega
    subst this
    exact ⟨st, by simp [ternaryQuicksort], triv st hi good⟩
  | succ fuel ih =>
    intro lo hi G st h1 h2 good blk
    rcases Nat.lt_or_ge lo hi with hlt | hge
    swap
    · have : hi = lo := by omega
      subst this
      exact ⟨st, by simp [ternaryQuicksort], triv st hi good⟩
    have hle := blk.le
    have hmod : rnd st.rc % (hi - lo) < hi - lo := Nat.mod_lt _ (by omega)
    generalize hpiv : lo + rnd st.rc % (hi - lo) = pivot
    have hsw : Fixes (Equiv.swap pivot lo) lo hi := fixes_swap (by omega) (by omega) (by omega) (by omega)
    have hb1 := blk.perm hsw
    rw [← swp_eq] at hb1
    have hkey : keyAt (data.length + 1) h st.g st.sa pivot = some (keyOf h st.g (st.sa pivot)) := by
      obtain ⟨p, hp, e, _⟩ := blk.mem pivot (by omega) (by omega)
      have := blk.bound pivot (by omega) (by omega)
      simp only [keyAt, keyOf]; rw [if_pos ⟨by omega, by push_cast; omega⟩]
    obtain ⟨a, ml, mr, epart, part⟩ := partition_inv (n := data.length + 1) (step := h) (g := st.g)
      (pv := keyOf h st.g (st.sa pivot)) (lo := lo) (a0 := swp st.sa pivot lo) (hi - lo - 1)
      (fun i h3 h4 => by
        obtain ⟨p, hp, e, _⟩ := hb1.mem i h3 (by omega)
        have := hb1.bound i h3 (by omega)
        push_cast
        omega) (by rw [swp_eq]; simp)
    rw [show lo + 1 + (hi - lo - 1) = hi by omega] at part
    obtain ⟨σ, hσ, rfl⟩ := part.perm
    have hb2 := hb1.perm hσ
    have b1 := part.b1
    have b2 := part.b2
    have b3 := part.b3
    obtain ⟨hbl, hrest⟩ := tqs_core good hb2 part
    obtain ⟨st1, e1, s1⟩ := ih lo ml G { st with sa := swp st.sa pivot lo ∘ σ, rc := st.rc + 1 }
      (by omega) (by omega) good hbl
    obtain ⟨hin, hrest⟩ := hrest st1.g st1.sa s1
    obtain ⟨st2, e2, f1, f2, f3, f4, f5⟩ := nameMid_inv (n := data.length + 1) (st := st1) part.b2 hin
    obtain ⟨good2, hblk2, hlast, hfin⟩ := hrest st2.g st2.sa f1 f2 f3 f4 f5
    have conv : ∀ g' sa', Sorted2 data h lo hi st.g g' (swp st.sa pivot lo ∘ σ) sa' →
        Sorted2 data h lo hi st.g g' st.sa sa' := by
      intro g' sa' s
      have := s.perm hσ
      rw [swp_eq] at this
      exact this.perm hsw
    rcases Nat.lt_or_ge (mr + 1) hi with c | c
    · obtain ⟨st3, e3, s3⟩ := ih (mr + 1) hi G st2 (by omega) (by omega) good2 (hblk2 c)
      refine ⟨st3, ?_, conv _ _ (hfin _ _ c s3)⟩
      simp only [ternaryQuicksort, if_neg (show ¬ hi ≤ lo by omega), hpiv, hkey, Option.bind_eq_bind,
        Option.bind_some, epart, e1, e2, e3]
    · have hc : mr + 1 = hi := by omega
      refine ⟨st2, ?_, conv _ _ (hlast hc)⟩
      simp only [ternaryQuicksort, if_neg (show ¬ hi ≤ lo by omega), hpiv, hkey, Option.bind_eq_bind,
        Option.bind_some, epart, e1, e2]
      cases fuel <;> simp [ternaryQuicksort, c]


/-! ### Prefix doubling -/

/-- State of a pass at index `i` with `c` combined finished positions just before `i`. -/
structure PassInv (data : List Nat) (h i c : Nat) (g0 g : Nat → Nat) (sa : Nat → Int) : Prop where
  good : Good data h g
  ile : i ≤ data.length + 1
  cle : c ≤ i
  done : Tiled (data.length + 1) g sa 0 (i - c)
  comb : 0 < c → sa (i - c) = -(c : Int)
  sing : ∀ r, i - c ≤ r → r < i → ∃ p, p < data.length + 1 ∧ g p = r ∧ ∀ q, q < data.length + 1 → g q = r → q = p
  todo : Tiled (data.length + 1) g sa i (data.length + 1)
  two : ∀ p q, p < data.length + 1 → q < data.length + 1 → g p = g q → g p < i →
    (data.drop p).take (h * 2) = (data.drop q).take (h * 2)
  inj : (∀ p q, p < data.length + 1 → q < data.length + 1 → g0 p = g0 q → p = q) → g = g0 ∧ c = i

theorem PassInv.prefixTiled {data : List Nat} {h i c : Nat} {g0 g : Nat → Nat} {sa : Nat → Int}
    (inv : PassInv data h i c g0 g sa) : Tiled (data.length + 1) g sa 0 i := by
  refine inv.done.append ?_
  have := inv.cle
  by_cases hc : 0 < c
  · refine .run _ _ c hc (inv.comb hc) (fun r h1 h2 => inv.sing r h1 (by omega)) ?_
    rw [show i - c + c = i by omega]; exact .nil _
  · rw [show i - c = i by omega]; exact .nil _

theorem passLoop_inv {data : List Nat} {h : Nat} {rnd : Nat → Nat} {g0 : Nat → Nat} : ∀ fuel i c (st : SortState),
    data.length + 1 - i < fuel → PassInv data h i c g0 st.g st.sa →
    ∃ st', passLoop (data.length + 1) h rnd fuel i c st = some st' ∧
      ∃ c', PassInv data h (data.length + 1) c' g0 st'.g st'.sa := by
  intro fuel
  induction fuel with
  | zero => intro i c st h1; omega
  | succ fuel ih =>
    intro i c st h1 inv
    have hile := inv.ile
    have hcle := inv.cle
    rcases Nat.lt_or_ge i (data.length + 1) with hlt | hge
    swap
    · have : i = data.length + 1 := by omega
      subst this
      exact ⟨st, by simp [passLoop], c, inv⟩
    have todo := inv.todo
    generalize hn : data.length + 1 = n at todo
    cases todo with
    | nil => omega
    | run _ _ d hd hsa hsing ht =>
      subst hn
      have hneg : st.sa i < 0 := by omega
      have hdn : (-st.sa i).toNat = d := by omega
      have hle := ht.le
      simp only [passLoop, hlt, if_true, hneg, hdn]
      rw [show i + d - (c + d) = i - c by omega]
      apply ih _ _ _ (by omega)
      refine ⟨inv.good, by omega, by omega, ?_, ?_, ?_, ?_, ?_, ?_⟩
      · rw [show i + d - (c + d) = i - c by omega]
        refine inv.done.congr (fun _ _ _ _ _ => Iff.rfl) (fun k _ h3 => ?_)
        exact (upd_ne _ _ (by omega)).symm
      · intro _
        rw [show i + d - (c + d) = i - c by omega]
        exact upd_same _ _ _
      · intro r h3 h4
        rcases Nat.lt_or_ge r i with h5 | h5
        · exact inv.sing r (by omega) h5
        · exact hsing r h5 h4
      · refine ht.congr (fun _ _ _ _ _ => Iff.rfl) (fun k h3 _ => ?_)
        exact (upd_ne _ _ (by omega)).symm
      · intro p q hp hq e h3
        rcases Nat.lt_or_ge (st.g p) i with h5 | h5
        · exact inv.two p q hp hq e h5
        · obtain ⟨p', _, _, u⟩ := hsing (st.g p) h5 h3
          rw [u p hp rfl, u q hq e.symm]
      · intro hinj
        obtain ⟨e1, e2⟩ := inv.inj hinj
        exact ⟨e1, by omega⟩
    | grp _ _ j hij hmem hinj hall hgap ht =>
      subst hn
      have hle := ht.le
      obtain ⟨p0, hp0, e0, g0e⟩ := hmem i (le_refl _) (by omega)
      have hnn : ¬ st.sa i < 0 := by omega
      have hlt2 : st.sa i < ((data.length + 1 : Nat) : Int) := by omega
      have htn : (st.sa i).toNat = p0 := by omega
      simp only [passLoop, hlt, if_true, hnn, if_false, hlt2, htn, g0e]
      have blk : Block data h i (j + 1) j st.g st.sa := by
        refine ⟨le_refl _, hmem, hinj, hall, hgap, ?_, ?_⟩
        · intro i k p q _ _ h3 h4; omega
        · intro k h3 h4
          obtain ⟨p, hp, e, gp⟩ := hmem k h3 (by omega)
          obtain ⟨k', h5, h6, h7⟩ : ∃ k', i ≤ k' ∧ k' ≤ j ∧ k' ≠ k := by
            by_cases hk : k = i
            · exact ⟨j, by omega, by omega, by omega⟩
            · exact ⟨i, by omega, by omega, by omega⟩
          obtain ⟨q, hq, e', gq⟩ := hmem k' h5 h6
          have hne : p ≠ q := by
            intro hpq
            subst hpq
            exact h7 (hinj k' k h5 h6 h3 (by omega) (by rw [e, e']))
          have := take_bound (inv.good.eq p q hp hq (by rw [gp, gq])) hp hq hne
          omega
      obtain ⟨st1, e1, s1⟩ := tqs_inv (rnd := rnd) (j + 1 - i) i (j + 1) j st (by omega) (by omega) inv.good blk
      simp only [e1, Option.bind_eq_bind, Option.bind_some]
      apply ih _ _ _ (by omega)
      have inblk : ∀ p, p < data.length + 1 → (∃ k, i ≤ k ∧ k < j + 1 ∧ st.sa k = p ∧ st.g p = j ∧ i ≤ st1.g p ∧ st1.g p ≤ j) ∨
          (st1.g p = st.g p ∧ (st.g p < i ∨ j < st.g p)) := by
        intro p hp
        by_cases hg : st.g p = j
        · obtain ⟨k, h3, h4, h5⟩ := hall p hp hg
          have := s1.rng k p h3 (by omega) h5
          exact Or.inl ⟨k, h3, by omega, h5, hg, by omega, by omega⟩
        · right
          refine ⟨s1.gEq p ?_, ?_⟩
          · intro k h3 h4 h5
            obtain ⟨q, hq, e, gq⟩ := hmem k h3 (by omega)
            have : p = q := by omega
            subst this; exact hg gq
          · have := hgap p hp; omega
      refine ⟨s1.good, by omega, by omega, ?_, by omega, ?_, ?_, ?_, ?_⟩
      · rw [Nat.sub_zero]
        refine Tiled.append (mid := i) ?_ s1.tiled
        refine inv.prefixTiled.congr ?_ ?_
        · intro p r hp h3 h4
          rcases inblk p hp with ⟨k, a1, a2, a3, a4, a5, a6⟩ | ⟨a1, a2⟩ <;> omega
        · intro k h3 h4; exact (s1.saEq k (by omega)).symm
      · intro r h3 h4; omega
      · refine ht.congr ?_ ?_
        · intro p r hp h3 h4
          rcases inblk p hp with ⟨k, a1, a2, a3, a4, a5, a6⟩ | ⟨a1, a2⟩ <;> omega
        · intro k h3 h4; exact (s1.saEq k (by omega)).symm
      · intro p q hp hq e h3
        rcases inblk p hp with ⟨k, a1, a2, a3, a4, a5, a6⟩ | ⟨a1, a2⟩ <;>
          rcases inblk q hq with ⟨k', b1, b2, b3, b4, b5, b6⟩ | ⟨b1, b2⟩
        · exact s1.two k k' p q a1 a2 b1 b2 a3 b3 e
        · omega
        · omega
        · exact inv.two p q hp hq (by omega) (by omega)
      · intro hi0
        exfalso
        obtain ⟨e2, _⟩ := inv.inj hi0
        obtain ⟨q, hq, e', gq⟩ := hmem j (by omega) (le_refl _)
        have hpq := hi0 p0 q hp0 hq (by rw [← e2, g0e, gq])
        subst hpq
        have := hinj i j (le_refl _) (by omega) (by omega) (le_refl _) (by rw [e0, e'])
        omega

theorem good_inj {data : List Nat} {h : Nat} {g : Nat → Nat} (good : Good data h g) (hh : data.length + 1 ≤ h) :
    ∀ p q, p < data.length + 1 → q < data.length + 1 → g p = g q → p = q := by
  intro p q hp hq e
  by_contra hne
  have := take_bound (good.eq p q hp hq e) hp hq hne
  omega

theorem pass_inv {data : List Nat} {h : Nat} {rnd : Nat → Nat} {st : SortState} (good : Good data h st.g)
    (ht : Tiled (data.length + 1) st.g st.sa 0 (data.length + 1)) :
    ∃ st', passLoop (data.length + 1) h rnd (data.length + 2) 0 0 st = some st' ∧ Good data (h * 2) st'.g ∧
      Tiled (data.length + 1) st'.g st'.sa 0 (data.length + 1) ∧
      (data.length + 1 ≤ h → st'.sa 0 = -((data.length + 1 : Nat) : Int)) := by
  obtain ⟨st', e, c, inv⟩ := passLoop_inv (h := h) (rnd := rnd) (g0 := st.g) (data.length + 2) 0 0 st (by omega)
    ⟨good, by omega, by omega, .nil _, by omega, fun r h1 h2 => absurd h2 (by omega), ht,
      fun p q _ _ _ h2 => absurd h2 (by omega), fun _ => ⟨rfl, rfl⟩⟩
  refine ⟨st', e, ⟨inv.good.lt, ?_, inv.good.ub⟩, inv.prefixTiled, ?_⟩
  · intro p q hp hq hh
    exact inv.two p q hp hq hh (inv.good.ub p hp)
  · intro hh
    obtain ⟨_, hc⟩ := inv.inj (good_inj good hh)
    subst hc
    have := inv.comb (by omega)
    simpa using this

theorem prefixDoubling_inv {data : List Nat} {rnd : Nat → Nat} : ∀ f fuel h (st : SortState),
    1 ≤ h → data.length + 1 ≤ h + f → f + 2 ≤ fuel → Good data h st.g →
    Tiled (data.length + 1) st.g st.sa 0 (data.length + 1) →
    ∃ st', prefixDoubling (data.length + 1) rnd fuel h st = some st' ∧ (∃ h', Good data h' st'.g) ∧
      Tiled (data.length + 1) st'.g st'.sa 0 (data.length + 1) ∧ st'.sa 0 = -((data.length + 1 : Nat) : Int) := by
  intro f
  induction f with
  | zero =>
    intro fuel h st h1 h2 h3 good ht
    obtain ⟨fuel, rfl⟩ : ∃ k, fuel = k + 2 := ⟨fuel - 2, by omega⟩
    by_cases hc : st.sa 0 = -((data.length + 1 : Nat) : Int)
    · exact ⟨st, by simp only [prefixDoubling, hc, if_true], ⟨h, good⟩, ht, hc⟩
    · obtain ⟨st1, e, good1, ht1, hfin⟩ := pass_inv (rnd := rnd) good ht
      have hs := hfin (by omega)
      refine ⟨st1, ?_, ⟨_, good1⟩, ht1, hs⟩
      simp only [prefixDoubling, hc, if_false, e, Option.bind_eq_bind, Option.bind_some, hs, if_true]
  | succ f ih =>
    intro fuel h st h1 h2 h3 good ht
    obtain ⟨fuel, rfl⟩ : ∃ k, fuel = k + 1 := ⟨fuel - 1, by omega⟩
    by_cases hc : st.sa 0 = -((data.length + 1 : Nat) : Int)
    · exact ⟨st, by simp only [prefixDoubling, hc, if_true], ⟨h, good⟩, ht, hc⟩
    · obtain ⟨st1, e, good1, ht1, hfin⟩ := pass_inv (rnd := rnd) good ht
      obtain ⟨st2, e2, r⟩ := ih fuel (h * 2) st1 (by omega) (by omega) (by omega) good1 ht1
      refine ⟨st2, ?_, r⟩
      simp only [prefixDoubling, hc, if_false, e, Option.bind_eq_bind, Option.bind_some, e2]

/-- The groups left by prefix doubling are the ranks of the suffixes. -/
theorem doubling_rank {data : List Nat} {rnd : Nat → Nat} {st : SortState} (good : Good data 1 st.g)
    (ht : Tiled (data.length + 1) st.g st.sa 0 (data.length + 1)) :
    ∃ st', prefixDoubling (data.length + 1) rnd (data.length + 3) 1 st = some st' ∧
      (∀ p, p < data.length + 1 → st'.g p < data.length + 1) ∧
      (∀ p q, p < data.length + 1 → q < data.length + 1 → st'.g p < st'.g q → data.drop p < data.drop q) ∧
      (∀ r, r < data.length + 1 → ∃ p, p < data.length + 1 ∧ st'.g p = r ∧
        ∀ q, q < data.length + 1 → st'.g q = r → q = p) := by
  obtain ⟨st', e, ⟨h', good'⟩, ht', hs⟩ := prefixDoubling_inv (rnd := rnd) data.length (data.length + 3) 1 st
    (le_refl _) (by omega) (by omega) good ht
  refine ⟨st', e, good'.ub, good'.lt, ?_⟩
  generalize hn : data.length + 1 = n at ht'
  cases ht' with
  | nil => omega
  | run _ _ c hc hsa hsing _ =>
    subst hn
    have : c = data.length + 1 := by omega
    subst this
    intro r hr
    exact hsing r (by omega) (by omega)
  | grp _ _ j hj hmem =>
    obtain ⟨p, hp, e, _⟩ := hmem 0 (le_refl _) (by omega)
    omega

end Cdec.Extract
