import Verif.Train.DtrainSpec
import Verif.Train.MiraLemmas
import Mathlib.Tactic.Linarith
import Mathlib.Tactic.Ring
import Mathlib.Data.List.Basic
import Mathlib.Data.List.Count
/-!
# Lemmas about ranking training
-/
namespace Cdec.Train.Dtrain
open Cdec.Train.Mira (Vec)
variable {H : Type}

/-! ## The loops as one loop over pairs -/

def run (V : View H) (thr : ℚ) (max : Nat) (mis : Bool) : List (H × H) → St H → St H
  | [], s => s
  | p :: l, s =>
    let s' := visit V thr max mis p.1 p.2 s
    if s'.stop then s' else run V thr max mis l s'

theorem run_append (V : View H) (thr : ℚ) (max : Nat) (mis : Bool) (q : List (H × H)) : ∀ (p : List (H × H)) (s : St H), s.stop = false →
    run V thr max mis (p ++ q) s = if (run V thr max mis p s).stop then run V thr max mis p s else run V thr max mis q (run V thr max mis p s)
  | [], s, h => by simp [run, h]
  | x :: p, s, h => by
    show (let s' := visit V thr max mis x.1 x.2 s; if s'.stop then s' else run V thr max mis (p ++ q) s') = _
    simp only [run]
    by_cases hs : (visit V thr max mis x.1 x.2 s).stop = true
    · simp only [hs, if_true]
    · have hs' : (visit V thr max mis x.1 x.2 s).stop = false := by simpa using hs
      simp only [if_neg hs]
      exact run_append V thr max mis q p _ hs'

theorem inner_run (V : View H) (thr : ℚ) (max : Nat) (mis : Bool) (a : H) : ∀ (l : List H) (s : St H),
    inner V thr max mis a l s = run V thr max mis (l.map fun b => (a, b)) s
  | [], _ => rfl
  | b :: l, s => by
    simp only [inner, List.map_cons, run]
    rw [inner_run V thr max mis a l]

/-- The pairs of an element and a later one, in the order of the loops. -/
def pairsOf : List H → List (H × H)
  | [] => []
  | a :: l => l.map (fun b => (a, b)) ++ pairsOf l

theorem allLoop_run (V : View H) (thr : ℚ) (max : Nat) (mis : Bool) : ∀ (l : List H) (s : St H), s.stop = false →
    allLoop V thr max mis l s = run V thr max mis (pairsOf l) s
  | [], _, _ => rfl
  | a :: l, s, h => by
    simp only [allLoop, pairsOf]
    rw [run_append V thr max mis _ _ _ h, inner_run]
    cases hs : (run V thr max mis (l.map fun b => (a, b)) s).stop with
    | true => simp
    | false => simpa using allLoop_run V thr max mis l _ hs

def prodOf (bs : List H) : List H → List (H × H)
  | [] => []
  | a :: l => bs.map (fun b => (a, b)) ++ prodOf bs l

theorem cross_run (V : View H) (thr : ℚ) (max : Nat) (mis : Bool) (bs : List H) : ∀ (l : List H) (s : St H), s.stop = false →
    cross V thr max mis bs l s = run V thr max mis (prodOf bs l) s
  | [], _, _ => rfl
  | a :: l, s, h => by
    simp only [cross, prodOf]
    rw [run_append V thr max mis _ _ _ h, inner_run]
    cases hs : (run V thr max mis (bs.map fun b => (a, b)) s).stop with
    | true => simp
    | false => simpa using cross_run V thr max mis bs l _ hs

/-! ## What the loop keeps -/

def considered (V : View H) (mis : Bool) (p : H × H) : Bool := ! (mis && ! decide (V.model p.1 ≤ V.model p.2))

def keep (V : View H) (thr : ℚ) (mis : Bool) (p : H × H) : Bool := considered V mis p && accepted V thr p.1 p.2

theorem visit_eq (V : View H) (thr : ℚ) (max : Nat) (mis : Bool) (p : H × H) (s : St H) :
    visit V thr max mis p.1 p.2 s = if considered V mis p then
      { training := s.training ++ [p].filter (keep V thr mis), count := s.count + 1, stop := decide (s.count + 1 = max) } else s := by
  unfold visit keep considered
  cases mis
  · cases h : accepted V thr p.1 p.2 <;> simp [h]
  · by_cases hm : V.model p.1 ≤ V.model p.2
    · cases h : accepted V thr p.1 p.2 <;> simp [h, hm]
    · simp [hm]

/-- The loop treats a prefix of the pairs, all of them if it is not stopped. -/
theorem run_prefix (V : View H) (thr : ℚ) (max : Nat) (mis : Bool) : ∀ (ps : List (H × H)) (s : St H), s.stop = false →
    ∃ q r, ps = q ++ r ∧ (run V thr max mis ps s).training = s.training ++ q.filter (keep V thr mis) ∧
      (run V thr max mis ps s).count = s.count + (q.filter (considered V mis)).length ∧
      ((run V thr max mis ps s).stop = false → r = []) ∧ ((run V thr max mis ps s).stop = true → (run V thr max mis ps s).count = max)
  | [], s, h => ⟨[], [], rfl, by simp [run], by simp [run], fun _ => rfl, fun h' => by simp [run, h] at h'⟩
  | p :: ps, s, h => by
    have hv := visit_eq V thr max mis p s
    simp only [run]
    by_cases hc : considered V mis p = true
    · rw [if_pos hc] at hv
      by_cases hm : s.count + 1 = max
      · rw [hv]
        refine ⟨[p], ps, rfl, ?_, ?_, ?_, ?_⟩ <;> simp [hm, hc]
      · have hst : (visit V thr max mis p.1 p.2 s).stop = false := by rw [hv]; simp [hm]
        obtain ⟨q, r, e1, e2, e3, e4, e5⟩ := run_prefix V thr max mis ps _ hst
        rw [if_neg (by simp [hst])]
        refine ⟨p :: q, r, by rw [e1]; rfl, ?_, ?_, e4, e5⟩
        · rw [e2, hv]
          simp only [List.append_assoc, ← List.filter_append, List.singleton_append]
        · rw [e3, hv]
          simp [hc]
          omega
    · rw [if_neg hc] at hv
      rw [hv, if_neg (by simp [h])]
      obtain ⟨q, r, e1, e2, e3, e4, e5⟩ := run_prefix V thr max mis ps s h
      refine ⟨p :: q, r, by rw [e1]; rfl, ?_, ?_, e4, e5⟩
      · rw [e2, List.filter_cons_of_neg]
        simp [keep, hc]
      · rw [e3, List.filter_cons_of_neg hc]

theorem filter_nil_of {A : Type} {p q : A → Bool} (hpq : ∀ x, q x = true → p x = true) {l : List A} (h : l.filter p = []) : l.filter q = [] := by
  rw [List.filter_eq_nil_iff] at h ⊢
  exact fun a ha hq => h a ha (hpq a hq)

theorem run_all (V : View H) (thr : ℚ) (max : Nat) (mis : Bool) (ps : List (H × H)) (s : St H) (h : s.stop = false)
    (hm : s.count + ps.length ≤ max) : (run V thr max mis ps s).training = s.training ++ ps.filter (keep V thr mis) ∧
      (run V thr max mis ps s).count ≤ s.count + ps.length := by
  obtain ⟨q, r, e1, e2, e3, e4, e5⟩ := run_prefix V thr max mis ps s h
  have hq : (q.filter (considered V mis)).length ≤ q.length := List.length_filter_le _ _
  refine ⟨?_, by rw [e3, e1, List.length_append]; omega⟩
  cases hs : (run V thr max mis ps s).stop with
  | false => rw [e2, e1, e4 hs, List.append_nil]
  | true =>
    have := e5 hs
    rw [e1, List.length_append] at hm
    have hr : r = [] := List.length_eq_zero_iff.1 (by omega)
    rw [e2, e1, hr, List.append_nil]

theorem run_count (V : View H) (thr : ℚ) (max : Nat) (mis : Bool) : ∀ (ps : List (H × H)) (s : St H), s.count < max →
    (run V thr max mis ps s).count ≤ max
  | [], s, h => Nat.le_of_lt h
  | p :: ps, s, h => by
    have hv := visit_eq V thr max mis p s
    simp only [run]
    by_cases hc : considered V mis p = true
    · rw [if_pos hc] at hv
      by_cases hm : s.count + 1 = max
      · rw [hv]; simp [hm]
      · rw [hv]
        simp only [hm, decide_false, Bool.false_eq_true, if_false]
        exact run_count V thr max mis ps _ (by show s.count + 1 < max; omega)
    · rw [if_neg hc] at hv
      rw [hv]
      split
      · exact Nat.le_of_lt h
      · exact run_count V thr max mis ps s h

theorem length_filter_mono {A : Type} {p q : A → Bool} (hpq : ∀ x, q x = true → p x = true) (l : List A) : (l.filter q).length ≤ (l.filter p).length := by
  rw [← List.countP_eq_length_filter, ← List.countP_eq_length_filter]
  exact List.countP_mono_left fun x _ h => hpq x h

theorem keep_wanted {V : View H} {thr : ℚ} {mis : Bool} {p : H × H} (hle : V.score p.2 ≤ V.score p.1) (hthr : 0 ≤ thr) :
    keep V thr mis p = true ↔ Wanted V thr mis p.1 p.2 := by
  unfold keep considered accepted acceptPair Wanted
  have habs : |V.score p.1 - V.score p.2| = V.score p.1 - V.score p.2 := abs_of_nonneg (by linarith)
  rw [habs]
  by_cases ht : thr > 0
  · simp only [ht, if_true]
    by_cases hd : V.score p.1 - V.score p.2 < thr
    · simp only [hd, if_true, Bool.and_false]
      constructor
      · intro h; cases h
      · intro h; exact absurd (h.2.1 trivial) (by linarith)
    · have h1 : V.score p.2 < V.score p.1 := by linarith
      have h2 : thr ≤ V.score p.1 - V.score p.2 := by linarith
      cases mis <;> simp [hd, h1, h2]
  · have h0 : thr = 0 := by linarith
    subst h0
    have : (V.score p.1 ≠ V.score p.2) ↔ V.score p.2 < V.score p.1 := ⟨fun h => lt_of_le_of_ne hle (fun e => h e.symm), fun h => ne_of_gt h⟩
    cases mis <;> simp [← this]
    exact And.comm

section Counting
variable [DecidableEq H]

theorem count_map_pair (a b x : H) (l : List H) : (l.map fun y => (x, y)).count (a, b) = if x = a then l.count b else 0 := by
  induction l with
  | nil => simp
  | cons y l ih =>
    rw [List.map_cons, List.count_cons, ih, List.count_cons]
    by_cases hx : x = a <;> by_cases hy : y = b <;> simp [hx, hy]

theorem count_prodOf (a b : H) (bs l : List H) : (prodOf bs l).count (a, b) = l.count a * bs.count b := by
  induction l with
  | nil => simp [prodOf]
  | cons x l ih =>
    rw [prodOf, List.count_append, count_map_pair, ih, List.count_cons]
    by_cases hx : x = a
    · simp [hx]; ring
    · simp [hx]

theorem count_pairsOf (key : H → ℚ) {a b : H} (hab : key b < key a) : ∀ {l : List H}, l.Pairwise (fun x y => key y ≤ key x) →
    (pairsOf l).count (a, b) = l.count a * l.count b
  | [], _ => by simp [pairsOf]
  | x :: l, h => by
    have ih := count_pairsOf key hab (List.pairwise_cons.1 h).2
    have hx := (List.pairwise_cons.1 h).1
    have hne : a ≠ b := fun e => by rw [e] at hab; exact lt_irrefl _ hab
    rw [pairsOf, List.count_append, count_map_pair, ih, List.count_cons, List.count_cons]
    by_cases hxa : x = a
    · subst hxa
      simp [hne]; ring
    · by_cases hxb : x = b
      · subst hxb
        have : l.count a = 0 := List.count_eq_zero.2 fun hm => absurd (hx a hm) (not_le.2 hab)
        simp [hxa, this]
      · simp [hxa, hxb]

end Counting

theorem mem_pairsOf {key : H → ℚ} : ∀ {l : List H}, l.Pairwise (fun x y => key y ≤ key x) → ∀ p ∈ pairsOf l, key p.2 ≤ key p.1
  | [], _, p, hp => by simp [pairsOf] at hp
  | x :: l, h, p, hp => by
    rcases List.mem_append.1 hp with hp | hp
    · obtain ⟨b, hb, rfl⟩ := List.mem_map.1 hp
      exact (List.pairwise_cons.1 h).1 b hb
    · exact mem_pairsOf (List.pairwise_cons.1 h).2 p hp

theorem mem_pairsOf_mem : ∀ {l : List H}, ∀ p ∈ pairsOf l, p.1 ∈ l ∧ p.2 ∈ l
  | [], p, hp => by simp [pairsOf] at hp
  | x :: l, p, hp => by
    rcases List.mem_append.1 hp with hp | hp
    · obtain ⟨b, hb, rfl⟩ := List.mem_map.1 hp
      exact ⟨by simp, by simp [hb]⟩
    · have := mem_pairsOf_mem p hp
      exact ⟨by simp [this.1], by simp [this.2]⟩

theorem length_pairsOf : ∀ l : List H, 2 * (pairsOf l).length = l.length * (l.length - 1)
  | [] => rfl
  | x :: l => by
    have ih := length_pairsOf l
    rw [pairsOf, List.length_append, List.length_map, Nat.mul_add, ih, List.length_cons, Nat.add_sub_cancel]
    cases l.length with
    | zero => rfl
    | succ n => rw [Nat.add_sub_cancel]; ring

theorem length_prodOf (bs l : List H) : (prodOf bs l).length = l.length * bs.length := by
  induction l with
  | nil => simp [prodOf]
  | cons x l ih => rw [prodOf, List.length_append, List.length_map, ih, List.length_cons]; ring

theorem mem_prodOf {bs l : List H} {p : H × H} : p ∈ prodOf bs l ↔ p.1 ∈ l ∧ p.2 ∈ bs := by
  induction l with
  | nil => simp [prodOf]
  | cons x l ih =>
    rw [prodOf, List.mem_append, ih, List.mem_cons, List.mem_map]
    constructor
    · rintro (⟨b, hb, rfl⟩ | ⟨h1, h2⟩)
      · exact ⟨Or.inl rfl, hb⟩
      · exact ⟨Or.inr h1, h2⟩
    · rintro ⟨h1 | h1, h2⟩
      · exact Or.inl ⟨p.2, h2, by rw [← h1]⟩
      · exact Or.inr ⟨h1, h2⟩

/-! ## The best part -/

theorem climb_spec (sc : List ℚ) : ∀ (fuel k : Nat), k ≤ sc.length → sc.length ≤ fuel + k →
    k ≤ climb sc fuel k ∧ climb sc fuel k ≤ sc.length ∧ (∀ m, k ≤ m → m < climb sc fuel k → sc[m - 1]? = sc[m]?) ∧
      (climb sc fuel k < sc.length → sc[climb sc fuel k - 1]? ≠ sc[climb sc fuel k]?)
  | 0, k, h1, h2 => ⟨Nat.le_refl _, h1, fun m hm hm' => absurd hm' (by simp [climb]; omega), fun h => absurd h (by simp [climb]; omega)⟩
  | fuel + 1, k, h1, h2 => by
    unfold climb
    by_cases hc : k < sc.length ∧ sc[k - 1]? = sc[k]?
    · rw [if_pos hc]
      obtain ⟨a1, a2, a3, a4⟩ := climb_spec sc fuel (k + 1) hc.1 (by omega)
      refine ⟨by omega, a2, fun m hm hm' => ?_, a4⟩
      rcases Nat.eq_or_lt_of_le hm with rfl | hlt
      · exact hc.2
      · exact a3 m hlt hm'
    · rw [if_neg hc]
      refine ⟨Nat.le_refl _, h1, fun m hm hm' => absurd hm' (by omega), fun hk he => hc ⟨hk, he⟩⟩

theorem countP_perm_hi (V : View H) (sep : Nat) {s t : List H} (h : s.Perm t) (a : H) : Hi V sep s a ↔ Hi V sep t a := by
  unfold Hi; rw [h.countP_eq]

/-- The first part of a sorted list, cut between different scores, consists of the best. -/
theorem hi_split (V : View H) {s : List H} (hs : s.Pairwise fun a b => V.score b ≤ V.score a) {sep k : Nat} (h1 : 1 ≤ sep)
    (hk : sep ≤ k) (hkl : k ≤ s.length) (heq : ∀ m, sep ≤ m → m < k → (s.map V.score)[m - 1]? = (s.map V.score)[m]?)
    (hne : k < s.length → (s.map V.score)[k - 1]? ≠ (s.map V.score)[k]?) :
    (∀ a ∈ s.take k, Hi V sep s a) ∧ (∀ a ∈ s.drop k, ¬ Hi V sep s a) := by
  have hget : ∀ i (hi : i < s.length), (s.map V.score)[i]? = some (V.score s[i]) := fun i hi => by simp [hi]
  have hmono : ∀ i j (hi : i < s.length) (hj : j < s.length), i ≤ j → V.score s[j] ≤ V.score s[i] := by
    intro i j hi hj hij
    rcases Nat.eq_or_lt_of_le hij with rfl | hlt
    · exact le_refl _
    · exact List.pairwise_iff_getElem.1 hs i j hi hj hlt
  -- the scores at sep-1 .. k-1 agree
  have hflat : ∀ d, sep - 1 + d < k → (s.map V.score)[sep - 1 + d]? = (s.map V.score)[sep - 1]? := by
    intro d
    induction d with
    | zero => intro _; rfl
    | succ d ih =>
      intro hd
      rw [← ih (by omega), ← heq (sep - 1 + (d + 1)) (by omega) hd]
      rfl
  have hsep : sep - 1 < s.length := by omega
  have htop : ∀ i (hi : i < s.length), i < k → V.score s[sep - 1] ≤ V.score s[i] := by
    intro i hi hik
    by_cases hle : i ≤ sep - 1
    · exact hmono i (sep - 1) hi hsep hle
    · have := hflat (i - (sep - 1)) (by omega)
      rw [show sep - 1 + (i - (sep - 1)) = i by omega, hget i hi, hget _ hsep] at this
      exact le_of_eq (Option.some.inj this).symm
  have hlow : ∀ i (hi : i < s.length), k ≤ i → V.score s[i] < V.score s[sep - 1] := by
    intro i hi hik
    have hkl' : k < s.length := by omega
    have h2 := hne hkl'
    rw [hget _ hkl', hget (k - 1) (by omega)] at h2
    have h3 := htop (k - 1) (by omega) (by omega)
    have h4 := hmono (sep - 1) (k - 1) hsep (by omega) (by omega)
    have h5 := hmono (k - 1) k (by omega) hkl' (by omega)
    have h6 := hmono k i hkl' hi hik
    have h7 : V.score s[k - 1] ≠ V.score s[k] := fun e => h2 (by rw [e])
    exact lt_of_le_of_lt h6 (lt_of_lt_of_le (lt_of_le_of_ne h5 (Ne.symm h7)) h4)
  constructor
  · intro a ha
    obtain ⟨i, hi, rfl⟩ := List.getElem_of_mem ha
    rw [List.length_take] at hi
    rw [List.getElem_take]
    have hle := htop i (by omega) (by omega)
    unfold Hi
    have hspl : s.countP (fun x => decide (V.score s[i] < V.score x)) =
        (s.take (sep - 1)).countP (fun x => decide (V.score s[i] < V.score x)) + (s.drop (sep - 1)).countP (fun x => decide (V.score s[i] < V.score x)) := by
      rw [← List.countP_append, List.take_append_drop]
    have hz : (s.drop (sep - 1)).countP (fun x => decide (V.score s[i] < V.score x)) = 0 := by
      rw [List.countP_eq_zero]
      intro x hx
      obtain ⟨j, hj, rfl⟩ := List.getElem_of_mem hx
      rw [List.length_drop] at hj
      rw [List.getElem_drop]
      simp only [decide_eq_true_eq, not_lt]
      exact le_trans (hmono (sep - 1) (sep - 1 + j) hsep (by omega) (by omega)) hle
    have hle2 := List.countP_le_length (p := fun x => decide (V.score s[i] < V.score x)) (l := s.take (sep - 1))
    rw [List.length_take] at hle2
    omega
  · intro a ha
    obtain ⟨j, hj, rfl⟩ := List.getElem_of_mem ha
    rw [List.length_drop] at hj
    rw [List.getElem_drop]
    unfold Hi
    rw [not_lt]
    have hall : (s.take sep).countP (fun x => decide (V.score s[k + j] < V.score x)) = (s.take sep).length := by
      rw [List.countP_eq_length]
      intro x hx
      obtain ⟨i, hi, rfl⟩ := List.getElem_of_mem hx
      rw [List.length_take] at hi
      rw [List.getElem_take]
      simp only [decide_eq_true_eq]
      exact lt_of_lt_of_le (hlow (k + j) (by omega) (by omega)) (hmono i (sep - 1) (by omega) hsep (by omega))
    have hspl : s.countP (fun x => decide (V.score s[k + j] < V.score x)) =
        (s.take sep).countP (fun x => decide (V.score s[k + j] < V.score x)) + (s.drop sep).countP (fun x => decide (V.score s[k + j] < V.score x)) := by
      rw [← List.countP_append, List.take_append_drop]
    rw [hspl, hall, List.length_take]
    omega

/-! ## PRO -/

theorem proInner_eq (V : View H) (thr : ℚ) (a : H) : ∀ (l : List H) (s : St H), s.stop = false → s.count < 5000 →
    let acc := (l.map fun b => (a, b)).filter fun p => acceptPair (V.score p.1) (V.score p.2) thr
    (proInner V thr a l s).training = s.training ++ acc.take (5000 - s.count) ∧
      ((proInner V thr a l s).stop = true → 5000 - s.count ≤ acc.length) ∧
      ((proInner V thr a l s).stop = false → (proInner V thr a l s).count = s.count + acc.length ∧ (proInner V thr a l s).count < 5000)
  | [], s, h, hc => by simp [proInner, h, hc]
  | b :: l, s, h, hc => by
    simp only [List.map_cons, proInner]
    by_cases ha : acceptPair (V.score a) (V.score b) thr = true
    · rw [if_pos ha, List.filter_cons_of_pos (by simpa using ha)]
      by_cases hm : s.count + 1 = 5000
      · have : 5000 - s.count = 1 := by omega
        simp [hm, this]
      · have hd : decide (s.count + 1 = 5000) = false := by simpa using hm
        simp only [hd, Bool.false_eq_true, if_false]
        obtain ⟨e1, e2, e3⟩ := proInner_eq V thr a l ⟨s.training ++ [(a, b)], s.count + 1, false⟩ rfl (by show s.count + 1 < 5000; omega)
        refine ⟨?_, fun hs => ?_, fun hs => ?_⟩
        · rw [e1]
          simp only
          rw [show 5000 - s.count = 5000 - (s.count + 1) + 1 by omega, List.take_succ_cons, List.append_assoc]; rfl
        · have := e2 hs
          simp only at this
          rw [List.length_cons]; omega
        · have := e3 hs
          simp only at this
          rw [List.length_cons]; omega
    · rw [if_neg ha, List.filter_cons_of_neg (by simpa using ha)]
      exact proInner_eq V thr a l s h hc

theorem proLoop_eq (V : View H) (thr : ℚ) : ∀ (l : List H) (s : St H), s.stop = false → s.count < 5000 →
    (proLoop V thr l s).training = s.training ++
      ((pairsOf l).filter fun p => acceptPair (V.score p.1) (V.score p.2) thr).take (5000 - s.count)
  | [], s, h, hc => by simp [proLoop, pairsOf]
  | a :: l, s, h, hc => by
    simp only [proLoop, pairsOf, List.filter_append]
    obtain ⟨e1, e2, e3⟩ := proInner_eq V thr a l s h hc
    cases hs : (proInner V thr a l s).stop with
    | true =>
      simp only [if_true]
      rw [e1, List.take_append_of_le_length (e2 hs)]
    | false =>
      simp only [Bool.false_eq_true, if_false]
      obtain ⟨e4, e5⟩ := e3 hs
      rw [proLoop_eq V thr l _ hs e5, e1, List.append_assoc, List.take_append, e4]
      congr 3
      omega

/-! ## Updates -/

theorem hinge_le {m x y : ℚ} {upd : Bool} (hm : 0 ≤ m) (h : upd = true → x ≤ m) (h' : upd = false → m ≤ x) :
    max 0 (m - x) + (if upd then -(y - x) else 0) ≤ max 0 (m - y) := by
  cases upd with
  | true =>
    have := h rfl
    rw [max_eq_right (by linarith : (0 : ℚ) ≤ m - x)]
    exact le_trans (by simp) (le_max_right 0 (m - y))
  | false =>
    have := h' rfl
    rw [max_eq_left (by linarith : m - x ≤ 0)]
    simp

/-- The sum of the differences of the pairs that lead to an update. -/
noncomputable def total (c : Config) (ps : List (Hyp × Hyp)) : Vec := ((ps.filter (updates c)).map fun p => p.1.f - p.2.f).sum

theorem updatePairs_online (c : Config) (hg : c.gamma = 0) (hb : c.batch = false) (np : Nat) : ∀ (ps : List (Hyp × Hyp)) (w : Weights),
    ps.foldl (updatePair c np) w = { w with lambdas := w.lambdas + c.eta • total c ps }
  | [], w => by simp [total]
  | p :: ps, w => by
    rw [List.foldl_cons, updatePairs_online c hg hb np ps]
    unfold updatePair total
    cases hu : updates c p with
    | true => simp [hu, hb, hg, smul_add, add_assoc]
    | false => simp [hu]

theorem updatePairs_batch (c : Config) (hb : c.batch = true) (np : Nat) : ∀ (ps : List (Hyp × Hyp)) (w : Weights),
    ps.foldl (updatePair c np) w = { w with batchUpdates := w.batchUpdates + total c ps }
  | [], w => by simp [total]
  | p :: ps, w => by
    rw [List.foldl_cons, updatePairs_batch c hb np ps]
    unfold updatePair total
    cases hu : updates c p with
    | true => simp [hu, hb, add_assoc]
    | false => simp [hu]

theorem inner_neg_left (f g : Vec) : Mira.inner (-f) g = - Mira.inner f g := by
  have := Mira.inner_smul_left f g (-1)
  rw [neg_one_smul] at this
  rw [this]; ring

theorem inner_zero_left (g : Vec) : Mira.inner 0 g = 0 := by simp [Mira.inner]

theorem inner_add_left (f g h : Vec) : Mira.inner (f + g) h = Mira.inner f h + Mira.inner g h := by
  rw [Mira.inner_comm, Mira.inner_add_right, Mira.inner_comm h f, Mira.inner_comm h g]

/-- The differences are a subgradient. -/
theorem subgradient (c : Config) (hm : 0 ≤ c.lossMargin) (w : Vec) : ∀ (ps : List (Hyp × Hyp)),
    (∀ p ∈ ps, p.1.model = Mira.inner p.1.f w ∧ p.2.model = Mira.inner p.2.f w ∧ (c.faster = true → p.1.model ≤ p.2.model)) →
    Subgradient (hinge c.lossMargin ps) w (-(total c ps))
  | [], _ => fun v => by simp [hinge, total, inner_zero_left]
  | p :: ps, h => fun v => by
    have ih := subgradient c hm w ps (fun x hx => h x (by simp [hx])) v
    obtain ⟨h1, h2, h3⟩ := h p (by simp)
    have hx := hinge_le (m := c.lossMargin) (x := Mira.inner p.1.f w - Mira.inner p.2.f w)
      (y := Mira.inner p.1.f v - Mira.inner p.2.f v) (upd := updates c p) hm
      (by
        intro hu
        rw [← h1, ← h2]
        unfold updates at hu
        cases hf : c.faster with
        | true => have := h3 hf; linarith
        | false =>
          simp only [hf, Bool.false_eq_true, if_false, decide_eq_true_eq] at hu
          rcases hu with hu | hu
          · linarith
          · exact le_of_lt (lt_of_le_of_lt (le_abs_self _) hu))
      (by
        intro hu
        rw [← h1, ← h2]
        unfold updates at hu
        cases hf : c.faster with
        | true => simp [hf] at hu
        | false =>
          simp only [hf, Bool.false_eq_true, if_false, decide_eq_false_iff_not, not_or, not_lt, not_le] at hu
          rw [abs_of_pos hu.1] at hu
          exact hu.2)
    have hsum : hinge c.lossMargin (p :: ps) = fun u => max 0 (c.lossMargin - (Mira.inner p.1.f u - Mira.inner p.2.f u)) + hinge c.lossMargin ps u := by
      funext u; simp [hinge]
    rw [hsum]
    simp only
    have htot : Mira.inner (-(total c (p :: ps))) (v - w) =
        (if updates c p then -((Mira.inner p.1.f v - Mira.inner p.2.f v) - (Mira.inner p.1.f w - Mira.inner p.2.f w)) else 0) +
          Mira.inner (-(total c ps)) (v - w) := by
      rw [inner_neg_left, inner_neg_left]
      unfold total
      cases hu : updates c p with
      | true =>
        rw [List.filter_cons_of_pos hu, List.map_cons, List.sum_cons, inner_add_left, Mira.inner_sub_left, Mira.inner_sub_right, Mira.inner_sub_right]
        simp only [if_true]
        ring
      | false =>
        rw [List.filter_cons_of_neg (by simp [hu])]
        simp
    rw [htot]
    linarith

/-- One sentence. -/
theorem sentence_eq (c : Config) (hd : Decodes c.decode) (hs : Samples c.pairs) (e : Epoch) (i : Nat) :
    ∃ ps, c.pairs c.faster (c.decode e.w.lambdas i) = some ps ∧
      sentence c e i = some { w := updatePairs c e.w ps, npairs := e.npairs + ps.length, scoreSum := e.scoreSum + topScore c e.w.lambdas i } ∧
      ∀ p ∈ ps, p.1.model = Mira.inner p.1.f e.w.lambdas ∧ p.2.model = Mira.inner p.2.f e.w.lambdas ∧ (c.faster = true → p.1.model ≤ p.2.model) := by
  obtain ⟨d1, d2⟩ := hd e.w.lambdas i
  obtain ⟨ps, e1, e2⟩ := hs c.faster _ d1
  refine ⟨ps, e1, ?_, fun p hp => ?_⟩
  · unfold sentence topScore
    cases hc : c.decode e.w.lambdas i with
    | nil => exact absurd hc d1
    | cons x l => rw [hc] at e1; simp [e1]
  · obtain ⟨a, b, h⟩ := e2 p hp
    exact ⟨d2 _ a, d2 _ b, h⟩

theorem sentences_online (c : Config) (hg : c.gamma = 0) (hb : c.batch = false) (hm : 0 ≤ c.lossMargin) (hd : Decodes c.decode) (hs : Samples c.pairs) :
    ∀ (k a : Nat) (e : Epoch), ∃ (e' : Epoch) (u : Nat → Vec), sentences c (List.range' a k) e = some e' ∧ e'.w.batchUpdates = e.w.batchUpdates ∧
      u a = e.w.lambdas ∧ u (a + k) = e'.w.lambdas ∧ (∀ i, a ≤ i → i < a + k → SentenceStep c i (u i) (u (i + 1))) ∧
      e'.scoreSum = e.scoreSum + ∑ i ∈ Finset.Ico a (a + k), topScore c (u i) i
  | 0, a, e => ⟨e, fun _ => e.w.lambdas, rfl, rfl, rfl, rfl, fun i h1 h2 => by omega, by simp⟩
  | k + 1, a, e => by
    obtain ⟨ps, h1, h2, h3⟩ := sentence_eq c hd hs e a
    have hup := updatePairs_online c hg hb ps.length ps e.w
    obtain ⟨e', u, g1, g2, g3, g4, g5, g6⟩ := sentences_online c hg hb hm hd hs k (a + 1)
      { w := updatePairs c e.w ps, npairs := e.npairs + ps.length, scoreSum := e.scoreSum + topScore c e.w.lambdas a }
    simp only at g2 g3 g6
    have hup' : updatePairs c e.w ps = { e.w with lambdas := e.w.lambdas + c.eta • total c ps } := hup
    rw [hup'] at g2 g3
    simp only at g2 g3
    refine ⟨e', fun i => if i = a then e.w.lambdas else u i, ?_, g2, by simp, ?_, fun i hi1 hi2 => ?_, ?_⟩
    · rw [List.range'_succ]
      show (match sentence c e a with | none => none | some e' => sentences c (List.range' (a + 1) k) e') = _
      rw [h2]; exact g1
    · show (if a + (k + 1) = a then _ else _) = _
      rw [if_neg (by omega), show a + (k + 1) = a + 1 + k by omega]; exact g4
    · rcases Nat.eq_or_lt_of_le hi1 with rfl | hlt
      · simp only [if_true, Nat.succ_ne_self, if_false]
        rw [g3]
        refine ⟨ps, -(total c ps), h1, subgradient c hm _ ps h3, ?_⟩
        rw [smul_neg, sub_neg_eq_add]
      · simp only
        rw [if_neg (by omega), if_neg (by omega)]
        exact g5 i hlt (by omega)
    · rw [g6, show a + 1 + k = a + (k + 1) by omega, Finset.sum_eq_sum_Ico_succ_bot (by omega : a < a + (k + 1))]
      simp only [if_true, add_assoc]
      congr 2
      exact Finset.sum_congr rfl fun i hi => by rw [if_neg (by have := Finset.mem_Ico.1 hi; omega)]

theorem total_append (c : Config) (p q : List (Hyp × Hyp)) : total c (p ++ q) = total c p + total c q := by
  unfold total; rw [List.filter_append, List.map_append, List.sum_append]

theorem sentences_batch (c : Config) (hb : c.batch = true) (hd : Decodes c.decode) (hs : Samples c.pairs) :
    ∀ (k a : Nat) (e : Epoch), ∃ (e' : Epoch) (pss : List (List (Hyp × Hyp))), sentences c (List.range' a k) e = some e' ∧ pss.length = k ∧
      e'.w.lambdas = e.w.lambdas ∧ e'.w.batchUpdates = e.w.batchUpdates + total c pss.flatten ∧
      (∀ i < k, ∃ ps, pss[i]? = some ps ∧ c.pairs c.faster (c.decode e.w.lambdas (a + i)) = some ps) ∧
      (∀ p ∈ pss.flatten, p.1.model = Mira.inner p.1.f e.w.lambdas ∧ p.2.model = Mira.inner p.2.f e.w.lambdas ∧ (c.faster = true → p.1.model ≤ p.2.model)) ∧
      e'.scoreSum = e.scoreSum + ∑ i ∈ Finset.Ico a (a + k), topScore c e.w.lambdas i
  | 0, a, e => ⟨e, [], rfl, rfl, rfl, by simp [total], fun i h => by omega, fun p hp => by simp at hp, by simp⟩
  | k + 1, a, e => by
    obtain ⟨ps, h1, h2, h3⟩ := sentence_eq c hd hs e a
    have hup : updatePairs c e.w ps = { e.w with batchUpdates := e.w.batchUpdates + total c ps } := updatePairs_batch c hb ps.length ps e.w
    obtain ⟨e', pss, g1, g2, g3, g4, g5, g6, g7⟩ := sentences_batch c hb hd hs k (a + 1)
      { w := updatePairs c e.w ps, npairs := e.npairs + ps.length, scoreSum := e.scoreSum + topScore c e.w.lambdas a }
    simp only [hup] at g3 g4 g5 g6 g7
    refine ⟨e', ps :: pss, ?_, by simp [g2], g3, ?_, fun i hi => ?_, fun p hp => ?_, ?_⟩
    · rw [List.range'_succ]
      show (match sentence c e a with | none => none | some e' => sentences c (List.range' (a + 1) k) e') = _
      rw [h2]; exact g1
    · rw [g4, List.flatten_cons, total_append, add_assoc]
    · cases i with
      | zero => exact ⟨ps, rfl, h1⟩
      | succ i =>
        obtain ⟨q, q1, q2⟩ := g5 i (by omega)
        exact ⟨q, q1, by rw [show a + (i + 1) = a + 1 + i by omega]; exact q2⟩
    · rw [List.flatten_cons, List.mem_append] at hp
      rcases hp with hp | hp
      · exact h3 p hp
      · exact g6 p hp
    · rw [g7, show a + 1 + k = a + (k + 1) by omega, Finset.sum_eq_sum_Ico_succ_bot (by omega : a < a + (k + 1))]
      simp only [add_assoc]

end Cdec.Train.Dtrain
