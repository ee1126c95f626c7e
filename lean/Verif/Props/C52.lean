import Verif.Klm.MultiInter
import Mathlib.Order.Nat
import Mathlib.Data.List.Perm.Basic
/-!
# C52: intersection of sorted sets

Specification: `x` is common to the sets when it is an element of each of them.  `AllIntersection` outputs the
common values, each once, in increasing order; `FirstIntersection` returns the smallest one.
-/
namespace Cdec.Klm

variable {α : Type*} [LinearOrder α]

/-- `x` is an element of every set. -/
def Common (sets : List (List α)) (x : α) : Prop := ∀ s ∈ sets, x ∈ s

theorem mem_advance {h x : α} {s : List α} (hx : x ∈ s) (hh : h ≤ x) : x ∈ advance h s := by
  induction s with
  | nil => cases hx
  | cons y s ih =>
    unfold advance at ih ⊢
    rw [List.dropWhile_cons]
    split
    · rename_i hy
      rcases List.mem_cons.mp hx with rfl | h'
      · simp only [decide_eq_true_eq] at hy; exact absurd hh (not_le.mpr hy)
      · exact ih h'
    · exact hx

theorem advance_suffix (h : α) (s : List α) : advance h s <:+ s := List.dropWhile_suffix _

theorem head_advance {h x : α} {s t : List α} (e : advance h s = x :: t) : h ≤ x := by
  induction s with
  | nil => cases e
  | cons y s ih =>
    unfold advance at ih e
    rw [List.dropWhile_cons] at e
    split at e
    · exact ih e
    · rename_i hy
      cases e
      simpa using hy

theorem common_set (sets : List (List α)) (i : Nat) (hi : i < sets.length) (h : α)
    (hlow : ∀ x, Common sets x → h ≤ x) (x : α) :
    Common (sets.set i (advance h sets[i])) x ↔ Common sets x := by
  constructor
  · intro hc s hs
    obtain ⟨j, hj, rfl⟩ := List.mem_iff_getElem.mp hs
    by_cases hji : i = j
    · subst hji
      have : advance h sets[i] ∈ sets.set i (advance h sets[i]) :=
        List.mem_of_getElem? (i := i) (by simp [hi])
      exact (advance_suffix h _).subset (hc _ this)
    · apply hc
      exact List.mem_of_getElem? (i := j) (by simp [hji, hj])
  · intro hc s hs
    rcases List.mem_or_eq_of_mem_set hs with h' | rfl
    · exact hc _ h'
    · exact mem_advance (hc _ (List.getElem_mem hi)) (hlow x hc)

/-- What the loop of `FirstIntersectionSorted` returns. -/
theorem firstLoop_spec (sets : List (List α)) (i : Nat) (h : α)
    (hs : ∀ s ∈ sets, s.Pairwise (· ≤ ·)) (hlow : ∀ x, Common sets x → h ≤ x)
    (hh : ∀ (j : Nat) s, j < i → sets[j]? = some s → s.head? = some h) (hil : i ≤ sets.length) :
    (∀ S, firstLoop sets i h = (none, S) → ∀ x, ¬ Common sets x) ∧
    (∀ v S, firstLoop sets i h = (some v, S) →
      (∀ x, Common S x ↔ Common sets x) ∧ S.length = sets.length ∧ S.flatten.Sublist sets.flatten ∧
      (∀ s ∈ S, ∃ t ∈ sets, s <:+ t) ∧ ∀ s ∈ S, s.head? = some v) := by
  fun_induction firstLoop sets i h with
  | case1 sets i h hi he =>
    refine ⟨fun S hS x hx => ?_, fun v S hS => by cases hS⟩
    have := mem_advance (hx _ (List.getElem_mem hi)) (hlow x hx)
    rw [he] at this; cases this
  | case2 sets i h hi x s he hlt ih =>
    have hcs := common_set sets i hi h hlow
    rw [he] at hcs
    have hsort : ∀ t ∈ sets.set i (x :: s), t.Pairwise (· ≤ ·) := by
      intro t ht
      rcases List.mem_or_eq_of_mem_set ht with h' | rfl
      · exact hs _ h'
      · rw [← he]; exact (hs _ (List.getElem_mem hi)).sublist (advance_suffix h _).sublist
    have hmem : (x :: s) ∈ sets.set i (x :: s) := List.mem_of_getElem? (i := i) (by simp [hi])
    obtain ⟨h1, h2⟩ := ih hsort (by
        intro y hy
        rcases List.mem_cons.mp (hy _ hmem) with rfl | h'
        · exact le_refl _
        · exact List.rel_of_pairwise_cons (hsort _ hmem) h') (by intro j s hj; omega) (Nat.zero_le _)
    refine ⟨fun S hS y => by rw [← hcs]; exact h1 S hS y, fun v S hS => ?_⟩
    obtain ⟨a, b, c, d, e⟩ := h2 v S hS
    have hsuf : x :: s <:+ sets[i] := he ▸ advance_suffix h _
    refine ⟨fun y => (a y).trans (hcs y), by simpa using b, c.trans (flatten_set_sublist _ _ _ ?_), ?_, e⟩
    · intro t ht
      rw [List.getElem?_eq_getElem hi] at ht; cases ht; exact hsuf.sublist
    · intro s' hs'
      obtain ⟨t, ht, hst⟩ := d s' hs'
      rcases List.mem_or_eq_of_mem_set ht with h' | rfl
      · exact ⟨t, h', hst⟩
      · exact ⟨_, List.getElem_mem hi, hst.trans hsuf⟩
  | case3 sets i h hi x s he hnlt ih =>
    have hcs := common_set sets i hi h hlow
    rw [he] at hcs
    have hx : x = h := le_antisymm (not_lt.mp hnlt) (head_advance he)
    have hsort : ∀ t ∈ sets.set i (x :: s), t.Pairwise (· ≤ ·) := by
      intro t ht
      rcases List.mem_or_eq_of_mem_set ht with h' | rfl
      · exact hs _ h'
      · rw [← he]; exact (hs _ (List.getElem_mem hi)).sublist (advance_suffix h _).sublist
    obtain ⟨h1, h2⟩ := ih hsort (fun y hy => hlow y ((hcs y).mp hy)) (by
        intro j t hj ht
        rw [List.getElem?_set] at ht
        split at ht
        · rename_i hij
          subst hij
          cases ht; rw [hx]; rfl
        · exact hh j t (by omega) ht) (by rw [List.length_set]; exact hi)
    refine ⟨fun S hS y => by rw [← hcs]; exact h1 S hS y, fun v S hS => ?_⟩
    obtain ⟨a, b, c, d, e⟩ := h2 v S hS
    have hsuf : x :: s <:+ sets[i] := he ▸ advance_suffix h _
    refine ⟨fun y => (a y).trans (hcs y), by simpa using b, c.trans (flatten_set_sublist _ _ _ ?_), ?_, e⟩
    · intro t ht
      rw [List.getElem?_eq_getElem hi] at ht; cases ht; exact hsuf.sublist
    · intro s' hs'
      obtain ⟨t, ht, hst⟩ := d s' hs'
      rcases List.mem_or_eq_of_mem_set ht with h' | rfl
      · exact ⟨t, h', hst⟩
      · exact ⟨_, List.getElem_mem hi, hst.trans hsuf⟩
  | case4 sets i h hi =>
    refine ⟨fun S hS => (by cases hS), fun v S hS => ?_⟩
    cases hS
    refine ⟨fun _ => Iff.rfl, rfl, List.Sublist.refl _, fun s hs' => ⟨s, hs', List.suffix_refl _⟩, fun s hs' => ?_⟩
    obtain ⟨j, hj, rfl⟩ := List.mem_iff_getElem.mp hs'
    exact hh j _ (by omega) (List.getElem?_eq_getElem hj)

theorem firstIntersectionSorted_spec (sets : List (List α)) (hne : sets ≠ [])
    (hs : ∀ s ∈ sets, s.Pairwise (· ≤ ·)) : ∃ r S, firstIntersectionSorted sets = some (r, S) ∧
      (r = none → ∀ x, ¬ Common sets x) ∧
      (∀ v, r = some v → (∀ x, Common S x ↔ Common sets x) ∧ S.length = sets.length ∧
        S.flatten.Sublist sets.flatten ∧ (∀ s ∈ S, ∃ t ∈ sets, s <:+ t) ∧ ∀ s ∈ S, s.head? = some v) := by
  unfold firstIntersectionSorted
  split
  · exact absurd rfl hne
  · rename_i rest
    refine ⟨none, _, rfl, fun _ x hx => ?_, fun v hv => by cases hv⟩
    have := hx [] List.mem_cons_self
    cases this
  · rename_i x s rest
    obtain ⟨h1, h2⟩ := firstLoop_spec ((x :: s) :: rest) 0 x hs (by
      intro y hy
      rcases List.mem_cons.mp (hy _ List.mem_cons_self) with rfl | h'
      · exact le_refl _
      · exact List.rel_of_pairwise_cons (hs _ List.mem_cons_self) h') (by intro j t hj; omega) (Nat.zero_le _)
    refine ⟨_, _, rfl, fun hr => ?_, fun v hv => ?_⟩
    · exact h1 _ (Prod.ext hr rfl)
    · exact h2 v _ (Prod.ext hv rfl)

/-- **C52 (first intersection).**  For any non-empty collection of sorted sets (repeated values allowed) the
result is the smallest common value, or nothing if there is none. -/
theorem C52_first_intersection (sets sets' : List (List α)) (hp : sets'.Perm sets) (hne : sets ≠ [])
    (hs : ∀ s ∈ sets, s.Pairwise (· ≤ ·)) :
    ∃ r S, firstIntersectionSorted sets' = some (r, S) ∧
      (r = none ↔ ∀ x, ¬ Common sets x) ∧
      ∀ v, r = some v → Common sets v ∧ ∀ x, Common sets x → v ≤ x := by
  have hne' : sets' ≠ [] := fun h => hne (by subst h; exact hp.nil_eq.symm)
  have hcc : ∀ x, Common sets' x ↔ Common sets x := fun x =>
    ⟨fun h s hs => h s (hp.mem_iff.mpr hs), fun h s hs => h s (hp.mem_iff.mp hs)⟩
  have hs' : ∀ s ∈ sets', s.Pairwise (· ≤ ·) := fun s h => hs s (hp.mem_iff.mp h)
  obtain ⟨r, S, he, h1, h2⟩ := firstIntersectionSorted_spec sets' hne' hs'
  have key : ∀ v, r = some v → Common sets v ∧ ∀ x, Common sets x → v ≤ x := by
    intro v hv
    obtain ⟨a, b, c, d, e⟩ := h2 v hv
    refine ⟨(hcc v).mp ((a v).mp fun s hsS => List.mem_of_mem_head? (e s hsS)), fun x hx => ?_⟩
    have hx' := (a x).mpr ((hcc x).mpr hx)
    cases S with
    | nil => simp only [List.length_nil] at b; exact absurd (List.length_eq_zero_iff.mp b.symm) hne'
    | cons s S =>
      have hhd := e s List.mem_cons_self
      obtain ⟨t, ht, hst⟩ := d s List.mem_cons_self
      have hss := (hs' t ht).sublist hst.sublist
      have hxs := hx' s List.mem_cons_self
      cases s with
      | nil => cases hxs
      | cons y s =>
        cases hhd
        rcases List.mem_cons.mp hxs with rfl | h'
        · exact le_refl _
        · exact List.rel_of_pairwise_cons hss h'
  refine ⟨r, S, he, ⟨fun hr x hx => h1 hr x ((hcc x).mpr hx), fun hn => ?_⟩, key⟩
  cases r with
  | none => rfl
  | some v => exact absurd (key v rfl).1 (hn v)

theorem allLoop_spec (n : Nat) (sets : List (List α)) (hn : sets.flatten.length < n) (hne : sets ≠ [])
    (hs : ∀ s ∈ sets, s.Pairwise (· < ·)) :
    ∃ out, allLoop n sets = some out ∧ (∀ x, x ∈ out ↔ Common sets x) ∧ out.Pairwise (· < ·) := by
  induction n generalizing sets with
  | zero => omega
  | succ n ih =>
    have hs' : ∀ s ∈ sets, s.Pairwise (· ≤ ·) := fun s h => (hs s h).imp le_of_lt
    obtain ⟨r, S, he, h1, h2⟩ := firstIntersectionSorted_spec sets hne hs'
    unfold allLoop
    rw [he]
    cases r with
    | none =>
      exact ⟨[], rfl, fun x => ⟨fun h => (by cases h), fun h => absurd h (h1 rfl x)⟩, List.Pairwise.nil⟩
    | some v =>
      obtain ⟨a, b, c, d, e⟩ := h2 v rfl
      cases S with
      | nil => simp only [List.length_nil] at b; exact absurd (List.length_eq_zero_iff.mp b.symm) hne
      | cons s S =>
        have hhd := e s List.mem_cons_self
        cases s with
        | nil => cases hhd
        | cons y s =>
          cases hhd
          have hsort : ∀ t ∈ (v :: s) :: S, t.Pairwise (· < ·) := by
            intro t ht
            obtain ⟨u, hu, hst⟩ := d t ht
            exact (hs u hu).sublist hst.sublist
          have hsv := List.pairwise_cons.mp (hsort _ List.mem_cons_self)
          obtain ⟨out, ho, hm, hpw⟩ := ih (s :: S) (by
              have := c.length_le
              simp only [List.flatten_cons, List.length_append, List.length_cons] at this ⊢
              omega) (by simp) (by
              intro t ht
              rcases List.mem_cons.mp ht with rfl | h'
              · exact hsv.2
              · exact hsort t (List.mem_cons_of_mem _ h'))
          have hmem : ∀ x, x ∈ out → v < x := fun x hx => hsv.1 x ((hm x).mp hx s List.mem_cons_self)
          refine ⟨v :: out, by simp [ho], fun x => ?_, List.pairwise_cons.mpr ⟨hmem, hpw⟩⟩
          rw [List.mem_cons, hm, ← a x]
          constructor
          · rintro (rfl | hx)
            · exact fun t ht => List.mem_of_mem_head? (e t ht)
            · intro t ht
              rcases List.mem_cons.mp ht with rfl | h'
              · exact List.mem_cons_of_mem _ (hx s List.mem_cons_self)
              · exact hx t (List.mem_cons_of_mem _ h')
          · intro hx
            by_cases hxv : x = v
            · exact Or.inl hxv
            · refine Or.inr fun t ht => ?_
              rcases List.mem_cons.mp ht with rfl | h'
              · exact (List.mem_cons.mp (hx (v :: t) List.mem_cons_self)).resolve_left hxv
              · exact hx t (List.mem_cons_of_mem _ h')

/-- **C52 (all intersections).**  For any non-empty collection of strictly increasing sets, in whatever order the
sort by size leaves them, the search ends and outputs exactly the common values, in increasing order. -/
theorem C52_all_intersection (sets sets' : List (List α)) (hp : sets'.Perm sets) (hne : sets ≠ [])
    (hs : ∀ s ∈ sets, s.Pairwise (· < ·)) :
    ∃ out, allIntersection sets' = some out ∧ (∀ x, x ∈ out ↔ ∀ s ∈ sets, x ∈ s) ∧ out.Pairwise (· < ·) := by
  have hne' : sets' ≠ [] := fun h => hne (by subst h; exact hp.nil_eq.symm)
  obtain ⟨out, h1, h2, h3⟩ := allLoop_spec (sets'.flatten.length + 1) sets' (Nat.lt_succ_self _) hne'
    (fun s h => hs s (hp.mem_iff.mp h))
  refine ⟨out, h1, fun x => (h2 x).trans ?_, h3⟩
  exact ⟨fun h s hs => h s (hp.mem_iff.mpr hs), fun h s hs => h s (hp.mem_iff.mp hs)⟩

/-- Non-vacuity: three sets with two common values, in an order other than that of the call. -/
example : ∃ out, allIntersection [[1, 4, 9], [0, 4, 5, 9], [2, 3, 4, 8, 9, 11]] = some out ∧
    4 ∈ out ∧ 9 ∈ out ∧ 8 ∉ out := by
  obtain ⟨out, h1, h2, h3⟩ := C52_all_intersection [[0, 4, 5, 9], [1, 4, 9], [2, 3, 4, 8, 9, 11]]
    [[1, 4, 9], [0, 4, 5, 9], [2, 3, 4, 8, 9, 11]] (by decide) (by decide) (by decide)
  exact ⟨out, h1, (h2 4).mpr (by decide), (h2 9).mpr (by decide), fun h => absurd ((h2 8).mp h) (by decide)⟩

end Cdec.Klm
