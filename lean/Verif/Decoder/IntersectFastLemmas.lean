import Verif.Decoder.IntersectFast
import Verif.Decoder.IntersectTrees
import Verif.Props.C07
import Mathlib.Data.Finset.Card
import Mathlib.Data.Finset.Image
/-! What the fast intersection should do, and helper lemmas about its loop. -/
namespace Cdec.Dec.Fast
open Cdec.HG
variable {φ : Type}

namespace Spec

/-- The word of the edge's rule is the word of the reference at the position of the edge. -/
def Right (heap : Nat → Rule) (target : List Int) (x : Edge (FVal φ)) : Prop := target[x.val.prevI.toNat]? = some ((heap x.val.rule).e.getD 0 0)

/-- All words of a derivation are those of the reference. -/
def Follows (heap : Nat → Rule) (target : List Int) (g : Hypergraph (FVal φ)) (T : Tree) : Prop :=
  ∀ e ∈ T.edges, ∀ x, g.edges[e]? = some x → x.tails = [] → Right heap target x

/-- What the function is to be given: a sorted forest whose edges without tails write one word at a position of the reference, and whose rule objects exist. -/
structure Fit (heap : Nat → Rule) (next : Nat) (target : List Int) (g : Hypergraph (FVal φ)) : Prop where
  wf : WF g
  pos : 0 < g.nodes.length
  leaf : ∀ x ∈ g.edges, x.tails = [] → 0 ≤ x.val.prevI ∧ x.val.prevI < target.length ∧ ((heap x.val.rule).e.length : Int) - (heap x.val.rule).arity = 1
  rule : ∀ x ∈ g.edges, x.val.rule < next

/-- No edge before `e` writes a word of the reference with the rule object `r`. -/
def First (heap : Nat → Rule) (target : List Int) (g : Hypergraph (FVal φ)) (e : Nat) (r : Nat) : Prop :=
  ∀ e' < e, ∀ y, g.edges[e']? = some y → y.tails = [] → Right heap target y → y.val.rule ≠ r

/-- What becomes of an edge without tails: the positions are exchanged; the rule has its sides exchanged if no edge before it used the same rule object. -/
structure Turned (heap heap' : Nat → Rule) (target : List Int) (g : Hypergraph (FVal φ)) (e : Nat) (x x' : FVal φ) : Prop where
  feats : x'.feats = x.feats
  span : x'.i = x.prevI ∧ x'.j = x.prevJ ∧ x'.prevI = x.i ∧ x'.prevJ = x.j
  inverted : First heap target g e x.rule → heap' x'.rule = invert (heap x.rule)
  shared : ¬ First heap target g e x.rule → heap' x'.rule = heap x.rule

end Spec
open Spec

theorem deriv_congr {α β : Type} {g : Hypergraph α} {h : Hypergraph β} (hi : ∀ v, g.inE v = h.inE v) (ht : ∀ e, g.tails e = h.tails e) (T : Tree) :
    ∀ v, IsDeriv g v T ↔ IsDeriv h v T := by
  induction T using Tree.rec (motive_2 := fun ch => ∀ vs, List.Forall₂ (IsDeriv g) vs ch ↔ List.Forall₂ (IsDeriv h) vs ch) with
  | node e ch ih =>
    intro v
    rw [isDeriv_iff, isDeriv_iff, hi, ht, ih]
  | nil => simp
  | cons T ch ih1 ih2 =>
    rename_i vs
    cases vs with
    | nil => simp
    | cons v vs => rw [List.forall₂_cons, List.forall₂_cons, ih1, ih2]

/-- An edge that is kept. -/
def Kept (heap : Nat → Rule) (target : List Int) (x : Edge (FVal φ)) : Prop := x.tails = [] ∧ Right heap target x

/-- What the loop has done of an edge. -/
structure Done (heap : Nat → Rule) (target : List Int) (l : List (Edge (FVal φ))) (s : State φ) (e : Nat) (x : Edge (FVal φ)) : Prop where
  ex : ∃ x', s.edges[e]? = some x' ∧ x'.tails = x.tails ∧
    (¬ Kept heap target x → x' = x) ∧ (Kept heap target x → ∃ o, x' = turn x o ∧ o < s.next ∧
      ((∀ e' < e, ∀ y, l[e']? = some y → Kept heap target y → y.val.rule ≠ x.val.rule) → s.heap o = invert (heap x.val.rule)) ∧
      (¬ (∀ e' < e, ∀ y, l[e']? = some y → Kept heap target y → y.val.rule ≠ x.val.rule) → s.heap o = heap x.val.rule))
  prune : ∃ b, s.prune[e]? = some b ∧ (b = true ↔ x.tails = [] ∧ ¬ Right heap target x)

structure Inv (heap : Nat → Rule) (next : Nat) (target : List Int) (l : List (Edge (FVal φ))) (s : State φ) : Prop where
  old : ∀ k < next, s.heap k = heap k
  le : next ≤ s.next
  len : s.edges.length = l.length
  plen : s.prune.length = l.length
  cov : ∀ i, i ∈ s.cov ↔ ∃ x ∈ l, Kept heap target x ∧ x.val.prevI = i
  nodup : s.cov.Nodup
  fresh : ∀ r, s.inv r = none → ∀ x ∈ l, Kept heap target x → x.val.rule ≠ r
  inv : ∀ r o, s.inv r = some o → r < next ∧ o < s.next ∧ ((∀ x ∈ l, Kept heap target x → x.val.rule ≠ r) → s.heap o = invert (heap r)) ∧
    ((∃ x ∈ l, Kept heap target x ∧ x.val.rule = r) → s.heap o = heap r)
  done : ∀ e x, l[e]? = some x → Done heap target l s e x

theorem Inv.step {heap : Nat → Rule} {next : Nat} {target : List Int} {l : List (Edge (FVal φ))} {s : State φ} (h : Inv heap next target l s) (x : Edge (FVal φ))
    (h1 : x.tails = [] → 0 ≤ x.val.prevI ∧ x.val.prevI < target.length ∧ ((heap x.val.rule).e.length : Int) - (heap x.val.rule).arity = 1) (h2 : x.val.rule < next) :
    ∃ s', Fast.step target s x = some s' ∧ Inv heap next target (l ++ [x]) s' := by
  classical
  have hlast : (l ++ [x])[l.length]? = some x := by simp
  have hold : ∀ e < l.length, (l ++ [x])[e]? = l[e]? := fun e he => List.getElem?_append_left he
  have hpre : ∀ e, e ≤ l.length → ∀ r, (∀ e' < e, ∀ y, (l ++ [x])[e']? = some y → Kept heap target y → y.val.rule ≠ r) ↔ (∀ e' < e, ∀ y, l[e']? = some y → Kept heap target y → y.val.rule ≠ r) := by
    intro e he r
    constructor
    · intro h e' he' y hy; exact h e' he' y (by rw [hold e' (by omega)]; exact hy)
    · intro h e' he' y hy; exact h e' he' y (by rw [hold e' (by omega)] at hy; exact hy)
  have hall : ∀ r, (∀ e' < l.length, ∀ y, l[e']? = some y → Kept heap target y → y.val.rule ≠ r) ↔ ∀ y ∈ l, Kept heap target y → y.val.rule ≠ r := by
    intro r
    constructor
    · intro h y hy
      obtain ⟨e', he', rfl⟩ := List.mem_iff_getElem.1 hy
      exact h e' he' _ (List.getElem?_eq_getElem he')
    · intro h e' _ y hy; exact h y (List.mem_of_getElem? hy)
  -- how an old edge fares
  have hkeep : ∀ s' : State φ, (∀ k < s.next, s'.heap k = s.heap k) → s.next ≤ s'.next → (∃ y, s'.edges = s.edges ++ [y]) → (∃ b, s'.prune = s.prune ++ [b]) →
      ∀ e y, l[e]? = some y → Done heap target (l ++ [x]) s' e y := by
    rintro s' g1 g2 ⟨z, g3⟩ ⟨b, g4⟩ e y hy
    have hlt : e < l.length := (List.getElem?_eq_some_iff.1 hy).1
    obtain ⟨⟨x', a1, a2, a3, a4⟩, ⟨b', b1, b2⟩⟩ := h.done e y hy
    refine ⟨⟨x', ?_, a2, a3, fun hk => ?_⟩, ⟨b', ?_, b2⟩⟩
    · rw [g3, List.getElem?_append_left (by rw [h.len]; exact hlt)]; exact a1
    · obtain ⟨o, o1, o2, o3, o4⟩ := a4 hk
      refine ⟨o, o1, by omega, ?_, ?_⟩
      · rw [hpre e (by omega), g1 o o2]; exact o3
      · rw [hpre e (by omega), g1 o o2]; exact o4
    · rw [g4, List.getElem?_append_left (by rw [h.plen]; exact hlt)]; exact b1
  have hsplit : ∀ s' : State φ, (∀ e y, l[e]? = some y → Done heap target (l ++ [x]) s' e y) → Done heap target (l ++ [x]) s' l.length x → ∀ e y, (l ++ [x])[e]? = some y → Done heap target (l ++ [x]) s' e y := by
    intro s' g1 g2 e y hy
    rcases Nat.lt_trichotomy e l.length with he | he | he
    · rw [hold e he] at hy; exact g1 e y hy
    · subst he; rw [hlast] at hy; cases hy; exact g2
    · rw [List.getElem?_eq_none (by simp; omega)] at hy; cases hy
  unfold Fast.step
  by_cases ht : x.tails = []
  swap
  · rw [if_neg ht]
    have hnk : ¬ Kept heap target x := fun hk => ht hk.1
    have hin : ∀ P : Edge (FVal φ) → Prop, (∃ y ∈ l ++ [x], Kept heap target y ∧ P y) ↔ ∃ y ∈ l, Kept heap target y ∧ P y := by
      intro P
      constructor
      · rintro ⟨y, hy, hk, hp⟩
        rcases List.mem_append.1 hy with hy | hy
        · exact ⟨y, hy, hk, hp⟩
        · rw [List.mem_singleton.1 hy] at hk; exact absurd hk hnk
      · rintro ⟨y, hy, hk, hp⟩; exact ⟨y, List.mem_append_left _ hy, hk, hp⟩
    have hin' : ∀ r, (∀ y ∈ l ++ [x], Kept heap target y → y.val.rule ≠ r) ↔ ∀ y ∈ l, Kept heap target y → y.val.rule ≠ r := by
      intro r
      constructor
      · exact fun h y hy => h y (List.mem_append_left _ hy)
      · intro h y hy hk
        rcases List.mem_append.1 hy with hy | hy
        · exact h y hy hk
        · rw [List.mem_singleton.1 hy] at hk; exact absurd hk hnk
    refine ⟨_, rfl, h.old, h.le, by simp [h.len], by simp [h.plen], ?_, h.nodup, ?_, ?_, ?_⟩
    · intro i; rw [hin]; exact h.cov i
    · intro r hr; rw [hin']; exact h.fresh r hr
    · intro r o hr; rw [hin', hin]; exact h.inv r o hr
    · refine hsplit _ (hkeep _ (fun _ _ => by rfl) (by exact Nat.le_refl _) ⟨x, by rfl⟩ ⟨false, by rfl⟩) ⟨⟨x, ?_, rfl, fun _ => rfl, fun hk => absurd hk hnk⟩, ⟨false, ?_, ?_⟩⟩
      · simp [← h.len]
      · simp [← h.plen]
      · simp [ht]
  rw [if_pos ht]
  obtain ⟨p1, p2, p3⟩ := h1 ht
  have hr : s.heap x.val.rule = heap x.val.rule := h.old _ h2
  have hget : ∃ trg, target[x.val.prevI.toNat]? = some trg := ⟨_, List.getElem?_eq_getElem (by omega)⟩
  obtain ⟨trg, htrg⟩ := hget
  unfold leaf
  rw [if_neg (by omega), htrg]
  simp only []
  rw [hr, if_neg (by simpa using p3)]
  -- the object of the inverted rule
  have hobj : ∃ o hp nx, lookup s x.val.rule = (o, hp, nx) ∧ (∀ k < s.next, hp k = s.heap k) ∧ s.next ≤ nx ∧ o < nx ∧
      ((∀ y ∈ l, Kept heap target y → y.val.rule ≠ x.val.rule) → hp o = invert (heap x.val.rule)) ∧
      ((∃ y ∈ l, Kept heap target y ∧ y.val.rule = x.val.rule) → hp o = heap x.val.rule) := by
    unfold lookup
    cases hinv : s.inv x.val.rule with
    | some o =>
      obtain ⟨_, q2, q3, q4⟩ := h.inv _ _ hinv
      exact ⟨o, s.heap, s.next, rfl, fun _ _ => rfl, Nat.le_refl _, q2, q3, q4⟩
    | none =>
      refine ⟨_, _, _, rfl, fun k hk => if_neg (by omega), by omega, by omega, fun _ => ?_, fun ⟨y, hy, hk, he⟩ => absurd he (h.fresh _ hinv y hy hk)⟩
      rw [if_pos rfl, hr]
  obtain ⟨o, hp, nx, ho, o1, o2, o3, o4, o5⟩ := hobj
  rw [ho]
  simp only []
  have hheap : ∀ k < next, hp k = heap k := fun k hk => by rw [o1 k (by have := h.le; omega), h.old k hk]
  have hnx : next ≤ nx := by have := h.le; omega
  have hinv0 : ∀ r o', s.inv r = some o' → hp o' = s.heap o' := fun r o' hro => o1 o' (h.inv r o' hro).2.1
  by_cases hw : (heap x.val.rule).e.getD 0 0 ≠ trg
  · rw [if_pos hw]
    have hnk : ¬ Kept heap target x := by
      rintro ⟨_, hk⟩
      unfold Right at hk
      rw [htrg] at hk
      exact hw (Option.some.inj hk).symm
    have hin : ∀ P : Edge (FVal φ) → Prop, (∃ y ∈ l ++ [x], Kept heap target y ∧ P y) ↔ ∃ y ∈ l, Kept heap target y ∧ P y := by
      intro P
      constructor
      · rintro ⟨y, hy, hk, hp⟩
        rcases List.mem_append.1 hy with hy | hy
        · exact ⟨y, hy, hk, hp⟩
        · rw [List.mem_singleton.1 hy] at hk; exact absurd hk hnk
      · rintro ⟨y, hy, hk, hp⟩; exact ⟨y, List.mem_append_left _ hy, hk, hp⟩
    have hin' : ∀ r, (∀ y ∈ l ++ [x], Kept heap target y → y.val.rule ≠ r) ↔ ∀ y ∈ l, Kept heap target y → y.val.rule ≠ r := by
      intro r
      constructor
      · exact fun h y hy => h y (List.mem_append_left _ hy)
      · intro h y hy hk
        rcases List.mem_append.1 hy with hy | hy
        · exact h y hy hk
        · rw [List.mem_singleton.1 hy] at hk; exact absurd hk hnk
    refine ⟨_, rfl, hheap, hnx, by simp [h.len], by simp [h.plen], ?_, h.nodup, ?_, ?_, ?_⟩
    · intro i; rw [hin]; exact h.cov i
    · intro r hr'
      rw [hin']
      simp only [] at hr'
      split at hr'
      · cases hr'
      · exact h.fresh r hr'
    · intro r o' hr'
      rw [hin', hin]
      simp only [] at hr' ⊢
      split at hr'
      · rename_i hrr
        subst hrr
        cases hr'
        exact ⟨h2, o3, o4, o5⟩
      · obtain ⟨q1, q2, q3, q4⟩ := h.inv r o' hr'
        rw [hinv0 r o' hr']
        exact ⟨q1, by omega, q3, q4⟩
    · refine hsplit _ (hkeep _ (by exact o1) (by exact o2) ⟨x, by rfl⟩ ⟨true, by rfl⟩) ⟨⟨x, ?_, rfl, fun _ => rfl, fun hk => absurd hk hnk⟩, ⟨true, ?_, ?_⟩⟩
      · simp [← h.len]
      · simp [← h.plen]
      · simp only [true_iff]
        exact ⟨ht, fun hk => hnk ⟨ht, hk⟩⟩
  · rw [if_neg hw]
    have hk : Kept heap target x := ⟨ht, by
      unfold Right
      rw [htrg]
      simp only [ne_eq, Decidable.not_not] at hw
      rw [hw]⟩
    refine ⟨_, rfl, hheap, hnx, by simp [h.len], by simp [h.plen], ?_, ?_, ?_, ?_, ?_⟩
    · intro i
      have e : (∃ y ∈ l ++ [x], Kept heap target y ∧ y.val.prevI = i) ↔ i ∈ s.cov ∨ x.val.prevI = i := by
        rw [h.cov]
        constructor
        · rintro ⟨y, hy, hk', hp'⟩
          rcases List.mem_append.1 hy with hy | hy
          · exact .inl ⟨y, hy, hk', hp'⟩
          · rw [List.mem_singleton.1 hy] at hp'; exact .inr hp'
        · rintro (⟨y, hy, hk', hp'⟩ | hp')
          · exact ⟨y, List.mem_append_left _ hy, hk', hp'⟩
          · exact ⟨x, by simp, hk, hp'⟩
      rw [e]
      simp only []
      split
      · rename_i hc
        constructor
        · exact fun hi => .inl hi
        · rintro (hi | rfl)
          · exact hi
          · exact hc
      · rw [List.mem_append, List.mem_singleton]
        constructor
        · rintro (hi | rfl)
          · exact .inl hi
          · exact .inr rfl
        · rintro (hi | rfl)
          · exact .inl hi
          · exact .inr rfl
    · simp only []
      split
      · exact h.nodup
      · rename_i hc
        exact List.Nodup.append h.nodup (by simp) (by simpa using hc)
    · intro r hr' y hy hky
      simp only [] at hr'
      split at hr'
      · cases hr'
      · rename_i hrr
        rcases List.mem_append.1 hy with hy | hy
        · exact h.fresh r hr' y hy hky
        · rw [List.mem_singleton.1 hy]; exact fun e => hrr e.symm
    · intro r o' hr'
      simp only [] at hr' ⊢
      split at hr'
      · rename_i hrr
        subst hrr
        cases hr'
        exact ⟨h2, by have := h.le; omega, fun hno => absurd rfl (hno x (by simp) hk), fun _ => hheap _ h2⟩
      · rename_i hrr
        obtain ⟨q1, q2, q3, q4⟩ := h.inv r o' hr'
        rw [hinv0 r o' hr']
        refine ⟨q1, by omega, fun hno => q3 fun y hy => hno y (List.mem_append_left _ hy), ?_⟩
        rintro ⟨y, hy, hky, e⟩
        rcases List.mem_append.1 hy with hy | hy
        · exact q4 ⟨y, hy, hky, e⟩
        · rw [List.mem_singleton.1 hy] at e; exact absurd e.symm hrr
    · refine hsplit _ (hkeep _ (by exact o1) (by exact o2) ⟨turn x o, by rfl⟩ ⟨false, by rfl⟩) ⟨⟨turn x o, ?_, rfl, fun hn => absurd hk hn, fun _ => ⟨o, rfl, o3, ?_, ?_⟩⟩, ⟨false, ?_, ?_⟩⟩
      · simp [← h.len]
      · rw [hpre _ (Nat.le_refl _), hall]; exact o4
      · rw [hpre _ (Nat.le_refl _), hall]
        intro hno
        refine o5 ?_
        simpa using hno
      · simp [← h.plen]
      · simp only [Bool.false_eq_true, false_iff, not_and, Decidable.not_not]
        exact fun _ => hk.2

theorem loop_inv {heap : Nat → Rule} {next : Nat} {target : List Int} (l : List (Edge (FVal φ)))
    (h1 : ∀ x ∈ l, x.tails = [] → 0 ≤ x.val.prevI ∧ x.val.prevI < target.length ∧ ((heap x.val.rule).e.length : Int) - (heap x.val.rule).arity = 1) (h2 : ∀ x ∈ l, x.val.rule < next) :
    ∃ s, l.foldlM (Fast.step target) (⟨heap, next, fun _ => none, [], [], []⟩ : State φ) = some s ∧ Inv heap next target l s := by
  induction l using List.reverseRecOn with
  | nil =>
    refine ⟨_, rfl, fun _ _ => rfl, Nat.le_refl _, rfl, rfl, by simp, by simp, by simp, by simp, by simp⟩
  | append_singleton l x ih =>
    obtain ⟨s, h3, h4⟩ := ih (fun y hy => h1 y (List.mem_append_left _ hy)) fun y hy => h2 y (List.mem_append_left _ hy)
    obtain ⟨s', h5, h6⟩ := h4.step x (h1 x (by simp)) (h2 x (by simp))
    refine ⟨s', ?_, h6⟩
    rw [List.foldlM_append, h3]
    simp [h5]

theorem covered {cov : List Int} {n : Nat} (hnd : cov.Nodup) (hsub : ∀ i ∈ cov, 0 ≤ i ∧ i < n) : cov.length = n ↔ ∀ i : Nat, i < n → (i : Int) ∈ cov := by
  classical
  have hc : cov.toFinset.card = cov.length := List.toFinset_card_of_nodup hnd
  have hi : ((Finset.range n).image fun i : Nat => (i : Int)).card = n := by
    rw [Finset.card_image_of_injective _ (f := fun i : Nat => (i : Int)) (fun a b h => Int.ofNat.inj h), Finset.card_range]
  have hss : cov.toFinset ⊆ (Finset.range n).image fun i : Nat => (i : Int) := by
    intro i hi
    rw [List.mem_toFinset] at hi
    obtain ⟨a, b⟩ := hsub i hi
    rw [Finset.mem_image]
    exact ⟨i.toNat, by rw [Finset.mem_range]; omega, by omega⟩
  constructor
  · intro h i hlt
    have := Finset.eq_of_subset_of_card_le hss (by omega)
    rw [← List.mem_toFinset, this, Finset.mem_image]
    exact ⟨i, by simpa using hlt, rfl⟩
  · intro h
    have : (Finset.range n).image (fun i : Nat => (i : Int)) ⊆ cov.toFinset := by
      intro i hi
      obtain ⟨k, hk, rfl⟩ := Finset.mem_image.1 hi
      rw [List.mem_toFinset]
      exact h k (by simpa using hk)
    have := Finset.Subset.antisymm hss this
    rw [this, hi] at hc
    exact hc.symm

end Cdec.Dec.Fast
