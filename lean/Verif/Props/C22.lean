import Verif.Decoder.ForestGrammar
import Verif.Props.C19
import Mathlib.Data.List.Nodup
/-!
# C22: rewriting a forest as a grammar exchanges source and target
-/
namespace Cdec.Dec

namespace Spec

/-- The numbers of the variables of a target side, from left to right. -/
def order (e : List Int) : List Nat := (e.filter fun c => decide (c ≤ 0)).map fun c => (-c).toNat

/-- `new` denotes `old` with source and target exchanged: when the antecedents of the old rule have the target yields `E` and
the source yields `F`, and those of the new rule, which come in the order in which `old`'s target side uses them, have these
exchanged, the new rule's source yield is the old one's target yield, and conversely. -/
def Exchanged (n : Nat) (old new : Rule) : Prop :=
  ∀ E F : List (List Int), E.length = n → F.length = n →
    (∃ out, eSubst old.e E = some out ∧ fSubst new.f ((order old.e).map fun k => E.getD k []) = some out) ∧
    (∃ out, fSubst old.f F = some out ∧ eSubst new.e ((order old.e).map fun k => F.getD k []) = some out)

end Spec
open Spec

theorem linear_order {e : List Int} {n : Nat} (h : Linear e n) : (order e).Perm (List.range n) := h

theorem order_nodup {e : List Int} {n : Nat} (h : Linear e n) : (order e).Nodup := (linear_order h).nodup_iff.2 List.nodup_range

theorem order_length {e : List Int} {n : Nat} (h : Linear e n) : (order e).length = n := by
  have := (linear_order h).length_eq
  simpa using this

theorem order_cons (c : Int) (e : List Int) : order (c :: e) = if c ≤ 0 then (-c).toNat :: order e else order e := by
  unfold order
  rw [List.filter_cons]
  by_cases h : c ≤ 0 <;> simp [h]

theorem source_exchanged (cats : Nat → Int) (hcats : ∀ n, cats n < 0) (tails : List Nat) {E : List (List Int)} {e out : List Int}
    (h : Replaced E e out) : ReplacedInOrder ((order e).map fun k => E.getD k []) (newSource cats tails e) out := by
  induction h with
  | nil => exact .nil
  | @word w e out hw _ ih =>
    rw [order_cons, if_neg (by omega)]
    simp only [newSource, List.map_cons, if_pos (show w > 0 by omega)]
    exact .word hw ih
  | @var k v e out hv _ ih =>
    rw [order_cons, if_pos (by omega)]
    simp only [newSource, List.map_cons, if_neg (show ¬ -(k : Int) > 0 by omega)]
    have h3 : (- -(k : Int)).toNat = k := by omega
    have h4 : E.getD k [] = v := by rw [List.getD_eq_getElem?_getD, hv]; rfl
    rw [h3, h4]
    exact .cat (by have := hcats (tails.getD k 0); omega) ih

/-- A table of variables that is right for the order of the antecedents. -/
def GoodTable (tn : List Int) (ord : List Nat) : Prop := ∀ j, j < ord.length → ∃ k : Nat, tn.getD j 0 = -(k : Int) ∧ ord[k]? = some j

theorem newTarget_replaced (tn : List Int) (ord : List Nat) (F : List (List Int)) (hF : F.length = ord.length) (ht : GoodTable tn ord)
    (f : List Int) (i : Nat) (acc : List Int) (out : List Int) (h : ReplacedInOrder (F.drop i) f out) :
    ∃ t, (f.foldl (newTargetStep tn) (i, acc)).2 = acc ++ t ∧ Replaced (ord.map fun k => F.getD k []) t out ∧ numVars t = (F.drop i).length := by
  induction f generalizing i acc out with
  | nil =>
    generalize hd : F.drop i = d at h
    cases h
    exact ⟨[], by simp, .nil, rfl⟩
  | cons c f ih =>
    generalize hd : F.drop i = d at h
    cases h with
    | @word _ _ _ out' hw h' =>
      subst hd
      obtain ⟨t, h1, h2, h3⟩ := ih i (acc ++ [c]) out' h'
      refine ⟨c :: t, ?_, .word hw h2, ?_⟩
      · simp only [List.foldl_cons, newTargetStep, if_pos (show c > 0 by omega), h1]
        simp
      · have : numVars (c :: t) = numVars t := by simp [numVars, show ¬ c ≤ 0 by omega]
        rw [this, h3]
    | @cat vals' _ v _ out' hc h' =>
      have hlt : i < F.length := by
        apply Classical.byContradiction
        intro hge
        rw [List.drop_eq_nil_of_le (by omega)] at hd
        cases hd
      have hd' := hd
      rw [List.drop_eq_getElem_cons hlt] at hd'
      obtain ⟨hv, hvals⟩ := List.cons.inj hd'
      subst hvals
      obtain ⟨k, hk1, hk2⟩ := ht i (by omega)
      obtain ⟨t, h1, h2, h3⟩ := ih (i + 1) (acc ++ [tn.getD i 0]) out' h'
      refine ⟨tn.getD i 0 :: t, ?_, ?_, ?_⟩
      · simp only [List.foldl_cons, newTargetStep, if_neg (show ¬ c > 0 by omega), h1]
        simp
      · rw [hk1]
        refine .var ?_ h2
        rw [List.getElem?_map, hk2]
        simp [List.getD_eq_getElem?_getD, hlt, hv]
      · rw [hk1]
        have : numVars (-(k : Int) :: t) = numVars t + 1 := by simp [numVars]
        rw [this, h3]
        simp

theorem exchanged_of_table (cats : Nat → Int) (hcats : ∀ n, cats n < 0) (tails : List Nat) (n : Nat) (old new : Rule)
    (hn : tails.length = n) (hl : Linear old.e n) (hf : numVars old.f = n) (tn : List Int) (ht : GoodTable tn (order old.e))
    (h1 : new.f = newSource cats tails old.e) (h2 : new.e = newTarget tn old.f) : Exchanged n old new := by
  intro E F hE hF
  constructor
  · subst hE
    obtain ⟨out, g1, g2, -⟩ := C19_target_length old.e E hl
    refine ⟨out, g1, ?_⟩
    rw [C19_source, h1]
    exact source_exchanged cats hcats tails g2
  · obtain ⟨out, g1, g2, -⟩ := C19_source_length old.f F (by rw [hf, hF])
    refine ⟨out, g1, ?_⟩
    rw [C19_target, h2]
    obtain ⟨t, k1, k2, k3⟩ := newTarget_replaced tn (order old.e) F (by rw [hF, order_length hl]) ht old.f 0 [] out (by simpa using g2)
    rw [newTarget, k1]
    refine ⟨by simpa using k2, ?_⟩
    simp [k3, hF, order_length hl]

theorem tnStep_fold (ord : List Nat) (e : List Int) (i : Nat) (tn : List Int) (hpre : ord.drop i = order e) (hnd : ord.Nodup)
    (hb : ∀ k ∈ ord, k < tn.length) (htn : ∀ a, a < i → ∀ j, ord[a]? = some j → tn.getD j 0 = -(a : Int)) :
    ∀ a, a < ord.length → ∀ j, ord[a]? = some j → (e.foldl tnStep (i, tn)).2.getD j 0 = -(a : Int) := by
  induction e generalizing i tn with
  | nil =>
    intro a ha j hj
    have : ord.length ≤ i := by
      have := congrArg List.length hpre
      simp [order] at this
      omega
    exact htn a (by omega) j hj
  | cons c e ih =>
    rw [order_cons] at hpre
    by_cases hc : c ≤ 0
    · rw [if_pos hc] at hpre
      simp only [List.foldl_cons, tnStep, if_neg (show ¬ c > 0 by omega)]
      have hlt : i < ord.length := by
        apply Classical.byContradiction
        intro hge
        rw [List.drop_eq_nil_of_le (by omega)] at hpre
        cases hpre
      have hpre' := hpre
      rw [List.drop_eq_getElem_cons hlt] at hpre'
      obtain ⟨hv, hrest⟩ := List.cons.inj hpre'
      refine ih (i + 1) _ hrest (by simpa using hb) ?_
      intro a ha j hj
      obtain ⟨hal, haj⟩ := List.getElem?_eq_some_iff.1 hj
      by_cases hai : a = i
      · subst hai
        have hj' : (-c).toNat = j := by rw [← hv, haj]
        have hjb : j < tn.length := hb j (by rw [← haj]; exact List.getElem_mem _)
        rw [hj', List.getD_eq_getElem?_getD, List.getElem?_set_self hjb]
        rfl
      · have hne : (-c).toNat ≠ j := by
          intro he
          apply hai
          have : ord[a] = ord[i] := by rw [haj, hv, he]
          exact (hnd.getElem_inj_iff).1 this
        rw [List.getD_eq_getElem?_getD, List.getElem?_set_ne hne, ← List.getD_eq_getElem?_getD]
        exact htn a (by omega) j hj
    · rw [if_neg hc] at hpre
      simp only [List.foldl_cons, tnStep, if_pos (show c > 0 by omega)]
      exact ih i tn hpre hb htn

/-- The rule made for intersection denotes the old rule with source and target exchanged, and its categories are those of the
nodes of the antecedents. -/
theorem C22_intersect (cats : Nat → Int) (hcats : ∀ n, cats n < 0) (head : Nat) (tails : List Nat) (r : Rule) (n : Nat) (hn : tails.length = n)
    (hl : Linear r.e n) (hf : numVars r.f = n) :
    Exchanged n r (intersectRule cats head tails r) ∧ (intersectRule cats head tails r).lhs = cats head ∧
      (intersectRule cats head tails r).f.filter (fun c => decide (c ≤ 0)) = (order r.e).map fun k => cats (tails.getD k 0) := by
  refine ⟨?_, rfl, ?_⟩
  · refine exchanged_of_table cats hcats tails n r _ hn hl hf (tnIntersect tails.length r.e) ?_ rfl rfl
    intro j hj
    have hmem : j ∈ order r.e := by
      have := order_length hl
      exact (linear_order hl).symm.subset (by simp; omega)
    obtain ⟨a, ha, haj⟩ := List.getElem_of_mem hmem
    have hget : (order r.e)[a]? = some j := by rw [List.getElem?_eq_getElem ha, haj]
    refine ⟨a, ?_, hget⟩
    refine tnStep_fold (order r.e) r.e 0 (List.replicate tails.length 0) (by simp) (order_nodup hl) ?_ (by omega) a ha j hget
    intro k hk
    have := (linear_order hl).subset hk
    simp at this
    simp [hn, this]
  · simp only [intersectRule]
    generalize r.e = e
    clear hl
    induction e with
    | nil => rfl
    | cons c e ih =>
      rw [order_cons]
      simp only [newSource, List.map_cons] at ih ⊢
      by_cases hc : c ≤ 0
      · simp only [if_neg (show ¬ c > 0 by omega), if_pos hc, List.map_cons]
        rw [List.filter_cons, if_pos (decide_eq_true (by have := hcats (tails.getD (-c).toNat 0); omega)), ih]
      · simp only [if_pos (show c > 0 by omega), if_neg hc]
        rw [List.filter_cons, if_neg (by simp; omega), ih]

theorem tnStepCFG_fold (ord : List Nat) (e : List Int) (i : Nat) (tn : List Int) (hpre : ord.drop i = order e) (hlen : ord.length ≤ tn.length)
    (htn : ∀ a, a < i → ∀ j : Nat, ord[a]? = some j → tn.getD a 0 = -(j : Int)) :
    ∀ a, a < ord.length → ∀ j : Nat, ord[a]? = some j → (e.foldl tnStepCFG (i, tn)).2.getD a 0 = -(j : Int) := by
  induction e generalizing i tn with
  | nil =>
    intro a ha j hj
    have : ord.length ≤ i := by
      have := congrArg List.length hpre
      simp [order] at this
      omega
    exact htn a (by omega) j hj
  | cons c e ih =>
    rw [order_cons] at hpre
    by_cases hc : c ≤ 0
    · rw [if_pos hc] at hpre
      simp only [List.foldl_cons, tnStepCFG, if_neg (show ¬ c > 0 by omega)]
      have hlt : i < ord.length := by
        apply Classical.byContradiction
        intro hge
        rw [List.drop_eq_nil_of_le (by omega)] at hpre
        cases hpre
      have hpre' := hpre
      rw [List.drop_eq_getElem_cons hlt] at hpre'
      obtain ⟨hv, hrest⟩ := List.cons.inj hpre'
      refine ih (i + 1) _ hrest (by simpa using hlen) ?_
      intro a ha j hj
      obtain ⟨hal, haj⟩ := List.getElem?_eq_some_iff.1 hj
      by_cases hai : a = i
      · subst hai
        rw [List.getD_eq_getElem?_getD, List.getElem?_set_self (by omega)]
        simp only [Option.getD_some]
        omega
      · rw [List.getD_eq_getElem?_getD, List.getElem?_set_ne (Ne.symm hai), ← List.getD_eq_getElem?_getD]
        exact htn a (by omega) j hj
    · rw [if_neg hc] at hpre
      simp only [List.foldl_cons, tnStepCFG, if_pos (show c > 0 by omega)]
      exact ih i tn hpre hlen htn

/-- The written rule is right when the order of the variables is its own inverse. -/
theorem C22_written_partial (cats : Nat → Int) (hcats : ∀ n, cats n < 0) (head : Nat) (tails : List Nat) (r : Rule) (n : Nat) (hn : tails.length = n)
    (hl : Linear r.e n) (hf : numVars r.f = n) (hinv : ∀ j k : Nat, (order r.e)[j]? = some k → (order r.e)[k]? = some j) :
    Exchanged n r (writtenRule cats head tails r) := by
  refine exchanged_of_table cats hcats tails n r _ hn hl hf (tnCFG tails.length r.e) ?_ rfl rfl
  intro j hj
  have hget : (order r.e)[j]? = some (order r.e)[j] := List.getElem?_eq_getElem hj
  refine ⟨(order r.e)[j], ?_, hinv _ _ hget⟩
  exact tnStepCFG_fold (order r.e) r.e 0 (List.replicate tails.length 0) (by simp) (by simp [order_length hl, hn]) (by omega) j hj _ hget

/-- This is so for all rules with at most two variables. -/
theorem C22_written_binary_partial (cats : Nat → Int) (hcats : ∀ n, cats n < 0) (head : Nat) (tails : List Nat) (r : Rule) (n : Nat) (hn : tails.length = n)
    (hl : Linear r.e n) (hf : numVars r.f = n) (h2 : n ≤ 2) : Exchanged n r (writtenRule cats head tails r) := by
  refine C22_written_partial cats hcats head tails r n hn hl hf ?_
  have h1 := order_length hl
  have hnd := order_nodup hl
  have hmem : ∀ k ∈ order r.e, k < n := fun k hk => by simpa using (linear_order hl).subset hk
  generalize order r.e = l at *
  match l with
  | [] => simp
  | [a] =>
    have := hmem a (by simp)
    simp only [List.length_singleton] at h1
    have : a = 0 := by omega
    subst this
    intro j k h
    cases j <;> simp at h
    subst h
    rfl
  | [a, b] =>
    have ha := hmem a (by simp)
    have hb := hmem b (by simp)
    simp at hnd
    simp only [List.length_cons, List.length_nil] at h1
    intro j k h
    have hab : (a = 0 ∧ b = 1) ∨ (a = 1 ∧ b = 0) := by omega
    rcases hab with ⟨rfl, rfl⟩ | ⟨rfl, rfl⟩
    all_goals
      match j with
      | 0 => simp at h; subst h; rfl
      | 1 => simp at h; subst h; rfl
      | j + 2 => simp at h
  | _ :: _ :: _ :: _ => simp at h1; omega

/-- With three variables in cyclic order the written rule is another rule. -/
theorem C22_written_fails : ∃ (r : Rule), Linear r.e 3 ∧ numVars r.f = 3 ∧
    ¬ Exchanged 3 r (writtenRule (fun n => -(n + 1 : Int)) 3 [0, 1, 2] r) := by
  refine ⟨⟨-9, [-1, -1, -1], [-1, -2, 0], 3⟩, ?_, by decide, ?_⟩
  · change List.Perm [1, 2, 0] [0, 1, 2]
    decide
  · intro h
    obtain ⟨out, h1, h2⟩ := (h [[], [], []] [[1], [2], [3]] rfl rfl).2
    have e1 : fSubst [-1, -1, -1] [[1], [2], [3]] = some [1, 2, 3] := by decide
    rw [e1] at h1
    cases h1
    revert h2
    decide

example : Linear [7, -1, 0] 2 ∧ intersectRule (fun n => -(n + 1 : Int)) 5 [3, 4] ⟨-9, [-2, 8, -2], [7, -1, 0], 2⟩ = ⟨-6, [7, -5, -4], [-1, 8, 0], 2⟩ :=
  ⟨by change List.Perm [1, 0] [0, 1]; decide, by decide⟩

end Cdec.Dec
