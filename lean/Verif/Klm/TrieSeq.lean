import Verif.Klm.Trie
import Mathlib.Data.List.Basic
import Mathlib.Data.List.Perm.Basic
import Mathlib.Data.List.Flatten
/-!
# The order in which a trie is built
-/
namespace Cdec.Klm.LM

variable {K : Type}

/-! ## Lexicographic order -/

theorem take_lt {g : List Word} {n m : Nat} (h : n < m) (hm : m ≤ g.length) : g.take n < g.take m := by
  induction g generalizing n m with
  | nil => simp at hm; omega
  | cons x g ih =>
    obtain ⟨m, rfl⟩ : ∃ k, m = k + 1 := ⟨m - 1, by omega⟩
    cases n with
    | zero => simp
    | succ n =>
      simp only [List.take_succ_cons, List.length_cons] at *
      exact List.cons_lt_cons_iff.2 (.inr ⟨rfl, ih (by omega) (by omega)⟩)

theorem take_lt_self {g : List Word} {n : Nat} (h : n < g.length) : g.take n < g := by
  have := take_lt h (le_refl _)
  rwa [List.take_length] at this

theorem lt_concat (p : List Word) (x : Word) : p < p ++ [x] := by
  have := take_lt_self (g := p ++ [x]) (n := p.length) (by simp)
  simpa using this

/-- What is between a prefix and the whole begins with the prefix. -/
theorem between (p g x : List Word) (hp : p <+: g) (h1 : p ≤ x) (h2 : x < g) : p <+: x := by
  induction p generalizing g x with
  | nil => exact List.nil_prefix
  | cons a p ih =>
    obtain ⟨t, rfl⟩ := hp
    cases x with
    | nil => exact absurd h1 (by simp)
    | cons b x =>
      rw [List.cons_append] at h2
      rcases List.cons_lt_cons_iff.1 h2 with h3 | ⟨rfl, h3⟩
      · exfalso
        rcases lt_or_eq_of_le h1 with h4 | h4
        · rcases List.cons_lt_cons_iff.1 h4 with h5 | ⟨h5, _⟩
          · exact absurd h5 (lt_asymm h3)
          · rw [h5] at h3; exact absurd h3 (lt_irrefl _)
        · cases h4; exact absurd h3 (lt_irrefl _)
      · have h4 : p ≤ x := by
          rcases lt_or_eq_of_le h1 with h4 | h4
          · rcases List.cons_lt_cons_iff.1 h4 with h5 | ⟨_, h5⟩
            · exact absurd h5 (lt_irrefl _)
            · exact le_of_lt h5
          · cases h4; exact le_refl _
        exact (List.cons_prefix_cons).2 ⟨rfl, ih _ _ (List.prefix_append p t) h4 h3⟩

theorem common_le (xs ys : List Word) : common xs ys ≤ xs.length ∧ common xs ys ≤ ys.length := by
  induction xs generalizing ys with
  | nil => simp [common]
  | cons x xs ih =>
    cases ys with
    | nil => simp [common]
    | cons y ys =>
      unfold common
      split
      · have := ih ys; simp; omega
      · simp

theorem common_take (xs ys : List Word) : xs.take (common xs ys) = ys.take (common xs ys) := by
  induction xs generalizing ys with
  | nil => simp [common]
  | cons x xs ih =>
    cases ys with
    | nil => simp [common]
    | cons y ys =>
      unfold common
      split
      · rename_i h; subst h; simp [ih ys]
      · simp

theorem common_pos {xs ys p : List Word} (hp : p <+: xs) (hq : p <+: ys) : p.length ≤ common xs ys := by
  induction p generalizing xs ys with
  | nil => simp
  | cons a p ih =>
    obtain ⟨s, rfl⟩ := hp
    obtain ⟨t, rfl⟩ := hq
    simp only [List.cons_append, common, if_true, List.length_cons]
    have := ih (List.prefix_append p s) (List.prefix_append p t)
    omega

theorem been_lt {g been : List Word} (h : been < g) (hc : common g.dropLast been < g.length - 1) : been < g.take (common g.dropLast been + 1) := by
  induction g generalizing been with
  | nil => simp at hc
  | cons x g ih =>
    cases g with
    | nil => simp at hc
    | cons x2 g =>
      cases been with
      | nil => simp [common]
      | cons y been =>
        rw [List.dropLast_cons_of_ne_nil (by simp)] at hc ⊢
        unfold common at hc ⊢
        rcases List.cons_lt_cons_iff.1 h with h1 | ⟨rfl, h1⟩
        · rw [if_neg (ne_of_gt h1)]
          simp only [List.take_succ_cons, List.take_zero]
          exact List.cons_lt_cons_iff.2 (.inl h1)
        · rw [if_pos rfl] at hc ⊢
          rw [List.take_succ_cons]
          exact List.cons_lt_cons_iff.2 (.inr ⟨rfl, ih h1 (by simp at hc ⊢; omega)⟩)

/-! ## Merging -/

theorem popMin_none {qs : List (List (Rec K))} (h : popMin qs = none) : qs.flatten = [] := by
  induction qs with
  | nil => rfl
  | cons q qs ih =>
    cases q with
    | nil =>
      simp only [popMin, Option.map_eq_none_iff] at h
      simpa using ih h
    | cons r q =>
      simp only [popMin] at h
      split at h
      · cases h
      · split at h <;> cases h

/-- A file is in order. -/
abbrev InOrder (q : List (Rec K)) : Prop := q.Pairwise fun r r' => r.g < r'.g

theorem popMin_some {qs qs' : List (List (Rec K))} {r : Rec K} (h : popMin qs = some (r, qs')) (hs : ∀ q ∈ qs, InOrder q) :
    qs.flatten.Perm (r :: qs'.flatten) ∧ (∀ q ∈ qs', InOrder q) ∧ ∀ x ∈ qs'.flatten, r.g ≤ x.g := by
  induction qs generalizing r qs' with
  | nil => simp [popMin] at h
  | cons q qs ih =>
    have hs' : ∀ q ∈ qs, InOrder q := fun q hq => hs q (by simp [hq])
    cases q with
    | nil =>
      simp only [popMin, Option.map_eq_some_iff] at h
      obtain ⟨⟨r1, q1⟩, h1, h2⟩ := h
      cases h2
      obtain ⟨h3, h4, h5⟩ := ih h1 hs'
      refine ⟨by simpa using h3, ?_, by simpa using h5⟩
      intro q hq
      rcases List.mem_cons.1 hq with rfl | hq
      · exact List.Pairwise.nil
      · exact h4 q hq
    | cons r0 q =>
      have h0 := hs (r0 :: q) (by simp)
      obtain ⟨h01, h02⟩ := List.pairwise_cons.1 h0
      simp only [popMin] at h
      split at h
      · rename_i hn
        cases h
        have hf := popMin_none hn
        refine ⟨by simp, ?_, ?_⟩
        · intro q' hq'
          rcases List.mem_cons.1 hq' with rfl | hq'
          · exact h02
          · exact hs' q' hq'
        · intro x hx
          simp only [List.flatten_cons, hf, List.append_nil] at hx
          exact le_of_lt (h01 x hx)
      · rename_i r1 q1 h1
        obtain ⟨h3, h4, h5⟩ := ih h1 hs'
        split at h
        · rename_i hlt
          cases h
          refine ⟨by simp, ?_, ?_⟩
          · intro q' hq'
            rcases List.mem_cons.1 hq' with rfl | hq'
            · exact h02
            · exact hs' q' hq'
          · intro x hx
            simp only [List.flatten_cons, List.mem_append] at hx
            rcases hx with hx | hx
            · exact le_of_lt (h01 x hx)
            · rcases List.mem_cons.1 (h3.mem_iff.1 hx) with rfl | hx
              · exact le_of_lt hlt
              · exact le_trans (le_of_lt hlt) (h5 x hx)
        · rename_i hlt
          cases h
          refine ⟨?_, ?_, ?_⟩
          · simp only [List.flatten_cons]
            exact ((List.Perm.append_left _ h3).trans List.perm_middle)
          · intro q' hq'
            rcases List.mem_cons.1 hq' with rfl | hq'
            · exact h0
            · exact h4 q' hq'
          · intro x hx
            simp only [List.flatten_cons, List.mem_append] at hx
            rcases hx with hx | hx
            · rcases List.mem_cons.1 hx with rfl | hx
              · exact not_lt.1 hlt
              · exact le_trans (not_lt.1 hlt) (le_of_lt (h01 x hx))
            · exact h5 x hx

theorem mergeAll_spec (fuel : Nat) : ∀ (qs : List (List (Rec K))), qs.flatten.length ≤ fuel → (∀ q ∈ qs, InOrder q) → (qs.flatten.map (·.g)).Nodup →
    (mergeAll fuel qs).Perm qs.flatten ∧ InOrder (mergeAll fuel qs) := by
  induction fuel with
  | zero =>
    intro qs h _ _
    have := List.length_eq_zero_iff.1 (Nat.le_zero.1 h)
    simp [mergeAll, this]
  | succ fuel ih =>
    intro qs h hs hn
    unfold mergeAll
    cases hp : popMin qs with
    | none => simp [popMin_none hp]
    | some x =>
      obtain ⟨r, qs'⟩ := x
      obtain ⟨h1, h2, h3⟩ := popMin_some hp hs
      have hn' := (h1.map (·.g)).nodup_iff.1 hn
      rw [List.map_cons, List.nodup_cons] at hn'
      have hl := h1.length_eq
      simp only [List.length_cons] at hl
      obtain ⟨h4, h5⟩ := ih qs' (by omega) h2 hn'.2
      refine ⟨(List.Perm.cons _ h4).trans h1.symm, List.pairwise_cons.2 ⟨?_, h5⟩⟩
      intro x hx
      have hx' := h4.mem_iff.1 hx
      refine lt_of_le_of_ne (h3 x hx') fun he => hn'.1 ?_
      rw [he]
      exact List.mem_map.2 ⟨x, hx', rfl⟩

/-! ## The calls -/

/-- The n-gram of a call. -/
def Call.gram : Call K → List Word
  | .unigram w => [w]
  | .blank g _ _ => g
  | .middle r => r.g
  | .longest r => r.g

/-- The probability of an n-gram in a list of records. -/
def probIn (R : List (Rec K)) (h : List Word) : Option K := (R.find? fun r => decide (r.g = h)).map (·.prob)

theorem probIn_none {R : List (Rec K)} {h : List Word} : probIn R h = none ↔ ∀ r ∈ R, r.g ≠ h := by
  unfold probIn
  simp

theorem probIn_append_left {D E : List (Rec K)} {h : List Word} (he : ∀ r ∈ E, r.g ≠ h) : probIn (D ++ E) h = probIn D h := by
  unfold probIn
  rw [List.find?_append]
  have : E.find? (fun r => decide (r.g = h)) = none := by simpa using he
  rw [this]
  simp

theorem probIn_mem {R : List (Rec K)} (hn : (R.map (·.g)).Nodup) {r : Rec K} (hr : r ∈ R) : probIn R r.g = some r.prob := by
  unfold probIn
  induction R with
  | nil => cases hr
  | cons x R ih =>
    rw [List.map_cons, List.nodup_cons] at hn
    rw [List.find?_cons]
    by_cases hx : x.g = r.g
    · rcases List.mem_cons.1 hr with rfl | hr
      · simp
      · exact absurd (List.mem_map.2 ⟨r, hr, hx.symm⟩) hn.1
    · simp only [hx, decide_false]
      rcases List.mem_cons.1 hr with rfl | hr
      · exact absurd rfl hx
      · exact ih hn.2 hr

theorem probIn_some {R : List (Rec K)} {h : List Word} {q : K} (hp : probIn R h = some q) : ∃ r ∈ R, r.g = h ∧ r.prob = q := by
  unfold probIn at hp
  rw [Option.map_eq_some_iff] at hp
  obtain ⟨r, h1, h2⟩ := hp
  exact ⟨r, List.mem_of_find?_eq_some h1, by simpa using List.find?_some h1, h2⟩

/-- What a call is about. -/
def GoodCall (order : Nat) (R : List (Rec K)) : Call K → Prop
  | .unigram w => ∃ r ∈ R, r.g = [w]
  | .blank g lower q => 2 ≤ g.length ∧ g.length < order ∧ 1 ≤ lower ∧ lower < g.length ∧ probIn R (g.take lower) = some q ∧ ∀ k, lower < k → k ≤ g.length → probIn R (g.take k) = none
  | .middle r => r ∈ R ∧ 2 ≤ r.g.length ∧ r.g.length < order
  | .longest r => r ∈ R ∧ r.g.length = order

theorem findBasis_spec {basis : Nat → Option K} {n : Nat} {q : K} (h1 : 1 ≤ n) (hb : basis 1 = some q) :
    ∃ lower p, findBasis basis n = some (lower, p) ∧ 1 ≤ lower ∧ lower ≤ n ∧ basis lower = some p ∧ ∀ k, lower < k → k ≤ n → basis k = none := by
  induction n with
  | zero => omega
  | succ n ih =>
    unfold findBasis
    cases hc : basis (n + 1) with
    | some p => exact ⟨n + 1, p, rfl, by omega, le_refl _, hc, fun k h1 h2 => by omega⟩
    | none =>
      have : 1 ≤ n := by
        by_contra h0
        have : n = 0 := by omega
        subst this
        rw [hb] at hc
        cases hc
      obtain ⟨lower, p, h2, h3, h4, h5, h6⟩ := ih this
      refine ⟨lower, p, h2, h3, by omega, h5, fun k h7 h8 => ?_⟩
      by_cases h9 : k = n + 1
      · rw [h9, hc]
      · exact h6 k h7 (by omega)

/-- The state of `BlankManager` after the records `D`. -/
structure BlankInv (D : List (Rec K)) (b : Blank K) : Prop where
  last : ∀ r ∈ D, r.g ≤ b.been
  mem : b.been = [] ∨ ∃ r ∈ D, r.g = b.been
  basis : ∀ k, 1 ≤ k → k ≤ b.been.length → b.basis k = probIn D (b.been.take k)

theorem visit_spec {order : Nat} {D E : List (Rec K)} {r : Rec K} {b : Blank K} (hv : BlankInv D b) (hs : InOrder (D ++ r :: E)) (hg : r.g ≠ []) (ho : r.g.length ≤ order)
    (huni : [r.g.headD 0] ∈ (D ++ r :: E).map (·.g)) :
    ∃ cs b', visit b r.g r.prob = some (cs, b') ∧ BlankInv (D ++ [r]) b' ∧ b'.been = r.g ∧
      ((b.been :: cs.map Call.gram) ++ [r.g]).Pairwise (· < ·) ∧
      (∀ n, 1 ≤ n → n < r.g.length → r.g.take n <+: b.been ∨ r.g.take n ∈ cs.map Call.gram) ∧
      ∀ c ∈ cs, GoodCall order (D ++ r :: E) c ∧ ∃ n, 1 ≤ n ∧ n < r.g.length ∧ c.gram = r.g.take n := by
  obtain ⟨hs1, hs2, hs3⟩ := List.pairwise_append.1 hs
  obtain ⟨hs4, hs5⟩ := List.pairwise_cons.1 hs2
  have hlt : b.been < r.g := by
    rcases hv.mem with h | ⟨x, hx, h⟩
    · rw [h]
      cases hg' : r.g with
      | nil => exact absurd hg' hg
      | cons a t => simp
    · rw [← h]; exact hs3 x hx r (by simp)
  have hDg : ∀ x ∈ D, x.g ≠ r.g := fun x hx => ne_of_lt (hs3 x hx r (by simp))
  have hlenpos : 1 ≤ r.g.length := List.length_pos_iff.2 hg
  have hcl := common_le r.g.dropLast b.been
  have hct := common_take r.g.dropLast b.been
  have hdl : r.g.dropLast.length = r.g.length - 1 := by simp
  set cur := common r.g.dropLast b.been with hcur
  have htake : ∀ k, k ≤ cur → r.g.take k = b.been.take k := by
    intro k hk
    have h1 := congrArg (List.take k) hct
    rw [List.take_take, List.take_take, Nat.min_eq_left hk] at h1
    rw [← h1, List.dropLast_eq_take, List.take_take, Nat.min_eq_left (by omega)]
  have hfuture : ∀ k, k < r.g.length → ∀ x ∈ r :: E, x.g ≠ r.g.take k := by
    intro k hk x hx
    have h1 := take_lt_self hk
    rcases List.mem_cons.1 hx with rfl | hx
    · exact ne_of_gt h1
    · exact ne_of_gt (lt_trans h1 (hs4 x hx))
  have hnotD : ∀ k, cur < k → k < r.g.length → probIn D (r.g.take k) = none := by
    intro k h1 h2
    rw [probIn_none]
    intro x hx he
    have h3 := been_lt hlt (by rw [← hcur]; omega)
    rw [← hcur] at h3
    have h4 : r.g.take (cur + 1) ≤ r.g.take k := by
      by_cases h5 : cur + 1 = k
      · rw [h5]
      · exact le_of_lt (take_lt (by omega) (by omega))
    have h5 := hv.last x hx
    rw [he] at h5
    exact absurd (lt_of_lt_of_le h3 h4) (not_lt.2 h5)
  have hbasisCur : ∀ k, 1 ≤ k → k ≤ cur → b.basis k = probIn D (r.g.take k) := by
    intro k h1 h2
    rw [hv.basis k h1 (by omega), htake k h2]
  have hallD : ∀ k, k < r.g.length → probIn (D ++ r :: E) (r.g.take k) = probIn D (r.g.take k) := by
    intro k hk
    exact probIn_append_left (hfuture k hk)
  have hone : ∀ k, k < r.g.length → probIn (D ++ [r]) (r.g.take k) = probIn D (r.g.take k) := by
    intro k hk
    refine probIn_append_left ?_
    intro x hx
    exact hfuture k hk x (by simp at hx; simp [hx])
  have hself : probIn (D ++ [r]) r.g = some r.prob := by
    unfold probIn
    rw [List.find?_append]
    have : D.find? (fun x => decide (x.g = r.g)) = none := by simpa using hDg
    rw [this]
    simp
  have hlast : ∀ x ∈ D ++ [r], x.g ≤ r.g := by
    intro x hx
    rcases List.mem_append.1 hx with hx | hx
    · exact le_of_lt (hs3 x hx r (by simp))
    · simp at hx; rw [hx]
  unfold visit
  simp only [← hcur]
  by_cases hc : cur = r.g.length - 1
  · rw [if_pos hc]
    refine ⟨[], _, rfl, ⟨hlast, .inr ⟨r, by simp, rfl⟩, ?_⟩, rfl, by simpa using hlt, ?_, by simp⟩
    · intro k h1 h2
      simp only at h2 ⊢
      by_cases hk : k = r.g.length
      · rw [if_pos hk, hk, List.take_length, hself]
      · rw [if_neg hk, hone k (by omega), hbasisCur k h1 (by omega)]
    · intro n h1 h2
      left
      rw [htake n (by omega)]
      exact List.take_prefix _ _
  · rw [if_neg hc]
    have hcpos : 1 ≤ cur := by
      -- the unigram was visited before
      obtain ⟨x, hx, hxg⟩ := List.mem_map.1 huni
      obtain ⟨w, t, ht⟩ := List.exists_cons_of_ne_nil hg
      have htne : t ≠ [] := by
        rintro rfl
        rw [ht] at hc hcl
        simp at hc hcl
        omega
      rw [ht] at hxg
      simp only [List.headD_cons] at hxg
      have hpre : [w] <+: r.g := ⟨t, by rw [ht]; rfl⟩
      have hxD : x ∈ D := by
        rcases List.mem_append.1 hx with hx | hx
        · exact hx
        · exfalso
          have := hfuture 1 (by rw [ht]; cases t with | nil => exact absurd rfl htne | cons _ _ => simp) x hx
          rw [ht] at this
          exact this (by simpa using hxg)
      have h1 := hv.last x hxD
      rw [hxg] at h1
      have h2 := between _ _ _ hpre h1 hlt
      have h3 : [w] <+: r.g.dropLast := by rw [ht, List.dropLast_cons_of_ne_nil htne]; exact ⟨_, rfl⟩
      have := common_pos h3 h2
      simpa [hcur] using this
    rw [if_neg (by omega)]
    have hq : ∃ q, probIn D (r.g.take 1) = some q := by
      obtain ⟨x, hx, hxg⟩ := List.mem_map.1 huni
      have hne : probIn (D ++ r :: E) (r.g.take 1) ≠ none := by
        rw [Ne, probIn_none]
        intro h
        refine h x hx ?_
        rw [hxg]
        obtain ⟨w, t, ht⟩ := List.exists_cons_of_ne_nil hg
        simp [ht]
      rw [hallD 1 (by omega)] at hne
      exact Option.ne_none_iff_exists'.1 hne
    obtain ⟨q, hq⟩ := hq
    have hb1 : (fun n => if n = r.g.length then some r.prob else b.basis n) 1 = some q := by
      simp only
      rw [if_neg (by omega), hbasisCur 1 (le_refl _) hcpos, hq]
    obtain ⟨lower, p, hf1, hf2, hf3, hf4, hf5⟩ := findBasis_spec (basis := fun n => if n = r.g.length then some r.prob else b.basis n) hcpos hb1
    rw [hf1]
    refine ⟨_, _, rfl, ⟨hlast, .inr ⟨r, by simp, rfl⟩, ?_⟩, rfl, ?_, ?_, ?_⟩
    · intro k h1 h2
      simp only at h2 ⊢
      by_cases hk : cur < k ∧ k < r.g.length
      · rw [if_pos hk, hone k hk.2, hnotD k hk.1 hk.2]
      · rw [if_neg hk]
        by_cases hk2 : k = r.g.length
        · rw [if_pos hk2, hk2, List.take_length, hself]
        · rw [if_neg hk2, hone k (by omega), hbasisCur k h1 (by omega)]
    · simp only [List.map_map, Call.gram, Function.comp_def, List.cons_append]
      have hsort : ((List.range' (cur + 1) (r.g.length - 1 - cur)).map (fun n => r.g.take n) ++ [r.g]).Pairwise (· < ·) := by
        rw [List.pairwise_append]
        refine ⟨?_, by simp, ?_⟩
        · rw [List.pairwise_map]
          refine List.Pairwise.imp_of_mem ?_ (List.pairwise_lt_range' (s := cur + 1) (n := r.g.length - 1 - cur))
          intro i j hi hj hij
          rw [List.mem_range'_1] at hi hj
          exact take_lt hij (by omega)
        · intro x hx y hy
          obtain ⟨n, hn, rfl⟩ := List.mem_map.1 hx
          rw [List.mem_range'_1] at hn
          simp at hy
          subst hy
          exact take_lt_self (by omega)
      refine List.pairwise_cons.2 ⟨?_, hsort⟩
      have h3 := been_lt hlt (by rw [← hcur]; omega)
      rw [← hcur] at h3
      intro x hx
      rcases List.mem_append.1 hx with hx | hx
      · obtain ⟨n, hn, rfl⟩ := List.mem_map.1 hx
        rw [List.mem_range'_1] at hn
        by_cases h5 : cur + 1 = n
        · rw [← h5]; exact h3
        · exact lt_trans h3 (take_lt (by omega) (by omega))
      · simp at hx
        subst hx
        exact hlt
    · intro n h1 h2
      by_cases hn : n ≤ cur
      · left
        rw [htake n hn]
        exact List.take_prefix _ _
      · right
        simp only [List.map_map, List.mem_map, Function.comp_def, Call.gram]
        exact ⟨n, by rw [List.mem_range'_1]; omega, rfl⟩
    · intro c hcm
      obtain ⟨n, hn, rfl⟩ := List.mem_map.1 hcm
      rw [List.mem_range'_1] at hn
      have hlen : (r.g.take n).length = n := by rw [List.length_take]; omega
      refine ⟨⟨by omega, by omega, hf2, by omega, ?_, ?_⟩, n, by omega, by omega, rfl⟩
      · rw [List.take_take, Nat.min_eq_left (by omega), hallD _ (by omega), ← hbasisCur _ hf2 hf3]
        rwa [if_neg (by omega)] at hf4
      · intro k h1 h2
        rw [hlen] at h2
        rw [List.take_take, Nat.min_eq_left (by omega), hallD _ (by omega)]
        by_cases hk : k ≤ cur
        · rw [← hbasisCur _ (by omega) hk]
          have := hf5 k h1 hk
          rwa [if_neg (by omega)] at this
        · exact hnotD k (by omega) (by omega)

theorem callOf_gram (order : Nat) (r : Rec K) : (callOf order r).gram = r.g := by
  unfold callOf
  split
  · rename_i h
    obtain ⟨w, h1⟩ := List.length_eq_one_iff.1 h
    simp [Call.gram, h1]
  · split <;> rfl

theorem callOf_good {order : Nat} {R : List (Rec K)} {r : Rec K} (hr : r ∈ R) (hg : r.g ≠ []) (ho : r.g.length ≤ order) : GoodCall order R (callOf order r) := by
  unfold callOf
  split
  · rename_i h
    obtain ⟨w, h1⟩ := List.length_eq_one_iff.1 h
    exact ⟨r, hr, by simp [h1]⟩
  · have := List.length_pos_iff.2 hg
    split
    · rename_i h; exact ⟨hr, h⟩
    · exact ⟨hr, by omega, by omega⟩

/-- The result of the loop: n-grams in order, with every prefix. -/
structure CallsOk (order : Nat) (R : List (Rec K)) (been : List Word) (E : List (Rec K)) (cs : List (Call K)) : Prop where
  sorted : (been :: cs.map Call.gram).Pairwise (· < ·)
  closed : ∀ c ∈ cs, ∀ n, 1 ≤ n → n < c.gram.length → c.gram.take n <+: been ∨ c.gram.take n ∈ cs.map Call.gram
  all : ∀ r ∈ E, callOf order r ∈ cs
  good : ∀ c ∈ cs, GoodCall order R c
  pre : ∀ c ∈ cs, ∃ r ∈ R, c.gram <+: r.g

theorem insertLoop_spec {order : Nat} (E : List (Rec K)) : ∀ (D : List (Rec K)) (b : Blank K), BlankInv D b → InOrder (D ++ E) →
    (∀ r ∈ E, r.g ≠ [] ∧ r.g.length ≤ order ∧ [r.g.headD 0] ∈ (D ++ E).map (·.g)) →
    ∃ cs, insertLoop order b E = some cs ∧ CallsOk order (D ++ E) b.been E cs := by
  induction E with
  | nil => intro D b _ _ _; exact ⟨[], rfl, by simp, by simp, by simp, by simp, by simp⟩
  | cons r E ih =>
    intro D b hv hs hE
    obtain ⟨hg, ho, hu⟩ := hE r (by simp)
    obtain ⟨cs, b', h1, h2, h3, h4, h5, h6⟩ := visit_spec hv hs hg ho hu
    have happ : D ++ r :: E = (D ++ [r]) ++ E := by simp
    obtain ⟨cs', h7, h8⟩ := ih (D ++ [r]) b' h2 (by rw [← happ]; exact hs) (by
      intro x hx
      rw [← happ]
      exact hE x (by simp [hx]))
    rw [← happ] at h8
    refine ⟨cs ++ callOf order r :: cs', by simp [insertLoop, h1, h7], ?_, ?_, ?_, ?_, ?_⟩
    · have e : b.been :: (cs ++ callOf order r :: cs').map Call.gram = (b.been :: cs.map Call.gram) ++ (r.g :: cs'.map Call.gram) := by simp [callOf_gram]
      rw [e, List.pairwise_append]
      have h9 := h8.sorted
      rw [h3] at h9
      obtain ⟨ha, _, hb⟩ := List.pairwise_append.1 h4
      refine ⟨ha, h9, ?_⟩
      intro x hx y hy
      have hxr := hb x hx r.g (by simp)
      rcases List.mem_cons.1 hy with rfl | hy
      · exact hxr
      · exact lt_trans hxr ((List.pairwise_cons.1 h9).1 y hy)
    · have hr : ∀ n, 1 ≤ n → n < r.g.length → r.g.take n <+: b.been ∨ r.g.take n ∈ (cs ++ callOf order r :: cs').map Call.gram := by
        intro n hn1 hn2
        rcases h5 n hn1 hn2 with h | h
        · exact .inl h
        · exact .inr (by rw [List.map_append]; exact List.mem_append_left _ h)
      intro c hc n hn1 hn2
      rcases List.mem_append.1 hc with hc | hc
      · obtain ⟨_, m, hm1, hm2, hm3⟩ := h6 c hc
        rw [hm3, List.length_take] at hn2
        rw [hm3, List.take_take, Nat.min_eq_left (by omega)]
        exact hr n hn1 (by omega)
      · rcases List.mem_cons.1 hc with rfl | hc
        · rw [callOf_gram] at hn2 ⊢
          exact hr n hn1 hn2
        · rcases h8.closed c hc n hn1 hn2 with h | h
          · rw [h3] at h
            obtain ⟨t, ht⟩ := h
            have hl : (c.gram.take n).length = n := by rw [List.length_take]; omega
            have he : c.gram.take n = r.g.take n := by
              have := congrArg (List.take n) ht
              rwa [List.take_append_of_le_length (by omega), List.take_take, Nat.min_self] at this
            by_cases hnr : n < r.g.length
            · rw [he]; exact hr n hn1 hnr
            · right
              rw [he, List.take_of_length_le (by omega)]
              simp [callOf_gram]
          · right
            simp only [List.map_append, List.map_cons, List.mem_append, List.mem_cons]
            exact .inr (.inr h)
    · intro x hx
      rcases List.mem_cons.1 hx with rfl | hx
      · simp
      · simp [h8.all x hx]
    · intro c hc
      rcases List.mem_append.1 hc with hc | hc
      · exact (h6 c hc).1
      · rcases List.mem_cons.1 hc with rfl | hc
        · exact callOf_good (by simp) hg ho
        · exact h8.good c hc
    · intro c hc
      rcases List.mem_append.1 hc with hc | hc
      · obtain ⟨_, m, hm1, hm2, hm3⟩ := h6 c hc
        exact ⟨r, by simp, by rw [hm3]; exact List.take_prefix _ _⟩
      · rcases List.mem_cons.1 hc with rfl | hc
        · exact ⟨r, by simp, by rw [callOf_gram]; exact List.prefix_refl _⟩
        · exact h8.pre c hc

end Cdec.Klm.LM
