import Verif.Decoder.IntersectSpec
import Verif.Decoder.ParserTextLemmas
import Mathlib.Data.List.Induction
import Mathlib.Data.List.Nodup
import Mathlib.Data.List.Perm.Subperm
import Mathlib.Algebra.Group.Defs
/-! Target sides laid out on a sentence. -/
namespace Cdec.Dec.Intersect
open Cdec.HG Cdec.Dec.Parser Cdec.Dec.Parser.Spec Cdec.Dec.Spec Cdec.Dec.Intersect.Spec

/-! ## Orders -/

theorem order_append (e e' : List Int) : order (e ++ e') = order e ++ order e' := by simp [order]

theorem newSource_append (C : Nat → Int) (tails : List Nat) (e e' : List Int) : newSource C tails (e ++ e') = newSource C tails e ++ newSource C tails e' := by simp [newSource]

theorem replaced_append {vals : List (List Int)} {e e' out out' : List Int} (h : Replaced vals e out) (h' : Replaced vals e' out') : Replaced vals (e ++ e') (out ++ out') := by
  induction h with
  | nil => exact h'
  | word hw _ ih => exact .word hw ih
  | var hv _ ih =>
    rw [List.append_assoc]
    exact .var hv ih

/-- The list whose members in the order `o` are given. -/
theorem unorder {α : Type} {o : List Nat} {n : Nat} (h : o.Perm (List.range n)) (l : List α) (hl : l.length = o.length) :
    ∃ ch : List α, ch.length = n ∧ ∀ (q k : Nat), o[q]? = some k → ch[k]? = l[q]? := by
  have hn : n = o.length := by have := h.length_eq; simpa using this.symm
  have hnd : o.Nodup := h.nodup_iff.2 List.nodup_range
  have hidx : ∀ k < n, o.idxOf k < l.length := fun k hk => by
    rw [hl]
    exact List.idxOf_lt_length_iff.2 (h.mem_iff.2 (List.mem_range.2 hk))
  refine ⟨List.ofFn fun k : Fin n => l[o.idxOf k.1]'(hidx k.1 k.2), by simp, ?_⟩
  intro q k hq
  obtain ⟨hq', e⟩ := List.getElem?_eq_some_iff.1 hq
  have hk : k < n := List.mem_range.1 (h.mem_iff.1 (e ▸ List.getElem_mem hq'))
  rw [List.getElem?_ofFn, dif_pos hk]
  have : o.idxOf k = q := by rw [← e]; exact hnd.idxOf_getElem q hq'
  simp only [this]
  rw [List.getElem?_eq_getElem (by omega)]

/-! ## The arity of the new rules -/

theorem arity_fold (e : List Int) (m : Int) : e.foldl (fun m i => if i < m then i else m) m ≤ m ∧ (∀ c ∈ e, e.foldl (fun m i => if i < m then i else m) m ≤ c) ∧
    (e.foldl (fun m i => if i < m then i else m) m = m ∨ e.foldl (fun m i => if i < m then i else m) m ∈ e) := by
  induction e generalizing m with
  | nil => simp
  | cons c e ih =>
    rw [List.foldl_cons]
    obtain ⟨h1, h2, h3⟩ := ih (if c < m then c else m)
    refine ⟨?_, ?_, ?_⟩
    · split at h1 <;> rename_i h
      · rw [if_pos h]; omega
      · rw [if_neg h]; exact h1
    · intro d hd
      rcases List.mem_cons.1 hd with rfl | hd
      · split at h1 <;> rename_i h
        · rw [if_pos h]; exact h1
        · rw [if_neg h]; omega
      · exact h2 d hd
    · rcases h3 with h | h
      · rw [h]
        split
        · exact .inr List.mem_cons_self
        · exact .inl rfl
      · exact .inr (List.mem_cons_of_mem _ h)

theorem computeArity_linear {e : List Int} {n : Nat} (h : Linear e n) : computeArity e = n := by
  unfold computeArity
  obtain ⟨h1, h2, h3⟩ := arity_fold e 1
  have hmem : ∀ c ∈ e, c ≤ 0 → (-c).toNat < n := fun c hc hc0 => by
    have : (-c).toNat ∈ order e := List.mem_map.2 ⟨c, List.mem_filter.2 ⟨hc, by simpa using hc0⟩, rfl⟩
    exact List.mem_range.1 ((linear_order h).mem_iff.1 this)
  cases n with
  | zero =>
    rcases h3 with h3 | h3
    · rw [h3]; rfl
    · have := hmem _ h3
      omega
  | succ n =>
    have : n ∈ order e := (linear_order h).mem_iff.2 (by simp)
    obtain ⟨c, hc, hcn⟩ := List.mem_map.1 this
    obtain ⟨hc1, hc2⟩ := List.mem_filter.1 hc
    have h4 := h2 c hc1
    simp only [decide_eq_true_eq] at hc2
    rcases h3 with h3 | h3
    · omega
    · have := hmem _ h3 (by omega)
      omega

theorem goodTable {n : Nat} {e : List Int} (hl : Linear e n) : GoodTable (tnIntersect n e) (order e) := by
  intro j hj
  have hmem : j ∈ order e := by
    have := order_length hl
    exact (linear_order hl).symm.subset (by simp; omega)
  obtain ⟨a, ha, haj⟩ := List.getElem_of_mem hmem
  have hget : (order e)[a]? = some j := by rw [List.getElem?_eq_getElem ha, haj]
  refine ⟨a, ?_, hget⟩
  refine tnStep_fold (order e) e 0 (List.replicate n 0) (by simp) (order_nodup hl) ?_ (by omega) a ha j hget
  intro k hk
  have := (linear_order hl).subset hk
  simp at this
  simp [this]

theorem newTarget_order (tn : List Int) (f : List Int) (i : Nat) (acc : List Int) (h : ∀ j, j < i + numVars f → tn.getD j 0 ≤ 0) :
    order (f.foldl (newTargetStep tn) (i, acc)).2 = order acc ++ (List.range' i (numVars f)).map fun j => (-(tn.getD j 0)).toNat := by
  induction f generalizing i acc with
  | nil => simp [numVars]
  | cons c f ih =>
    rw [List.foldl_cons]
    by_cases hc : c > 0
    · have hn : numVars (c :: f) = numVars f := by simp [numVars, show ¬ c ≤ 0 by omega]
      rw [hn] at h ⊢
      simp only [newTargetStep, if_pos hc]
      rw [ih i _ h, order_append]
      have : order [c] = [] := by simp [order, show ¬ c ≤ 0 by omega]
      rw [this, List.append_nil]
    · have hn : numVars (c :: f) = numVars f + 1 := by simp [numVars, show c ≤ 0 by omega]
      rw [hn] at h ⊢
      simp only [newTargetStep, if_neg hc]
      rw [ih (i + 1) _ (fun j hj => h j (by omega)), order_append]
      have : order [tn.getD i 0] = [(-(tn.getD i 0)).toNat] := by
        have := h i (by omega)
        unfold order
        rw [List.filter_cons, if_pos (by simpa using this)]
        rfl
      rw [this, List.append_assoc, List.range'_succ]
      rfl

theorem newTarget_linear {n : Nat} {e f : List Int} (hl : Linear e n) (hf : numVars f = n) : Linear (newTarget (tnIntersect n e) f) n := by
  have hg := goodTable hl
  have hlen := order_length hl
  have hnp : ∀ j, j < 0 + numVars f → (tnIntersect n e).getD j 0 ≤ 0 := fun j hj => by
    obtain ⟨k, hk, _⟩ := hg j (by omega)
    omega
  have ho : order (newTarget (tnIntersect n e) f) = (List.range' 0 (numVars f)).map fun j => (-((tnIntersect n e).getD j 0)).toNat := by
    unfold newTarget
    rw [newTarget_order _ f 0 [] hnp]
    rfl
  show (order (newTarget (tnIntersect n e) f)).Perm (List.range n)
  rw [ho, hf]
  have hval : ∀ j < n, ∃ k : Nat, (-((tnIntersect n e).getD j 0)).toNat = k ∧ (order e)[k]? = some j := fun j hj => by
    obtain ⟨k, h1, h2⟩ := hg j (by omega)
    exact ⟨k, by omega, h2⟩
  have hnd : ((List.range' 0 n).map fun j => (-((tnIntersect n e).getD j 0)).toNat).Nodup := by
    refine List.Nodup.map_on ?_ List.nodup_range'
    intro a ha b hb hab
    obtain ⟨k, h1, h2⟩ := hval a (by have := List.mem_range'_1.1 ha; omega)
    obtain ⟨k', h1', h2'⟩ := hval b (by have := List.mem_range'_1.1 hb; omega)
    rw [h1, h1'] at hab
    subst hab
    rw [h2] at h2'
    exact Option.some.inj h2'
  refine (List.subperm_of_subset hnd ?_).perm_of_length_le (by simp)
  intro k hk
  obtain ⟨j, hj, rfl⟩ := List.mem_map.1 hk
  obtain ⟨k, h1, h2⟩ := hval j (by have := List.mem_range'_1.1 hj; omega)
  rw [h1, List.mem_range, ← hlen]
  exact (List.getElem?_eq_some_iff.1 h2).1

/-! ## Layout -/

/-- A target side from position `k` on, when variable number `v` covers `lens[v]` words: the arcs and places of parts, the parts with their spans, and the end. -/
def lay (lens : List Nat) : List Int → Nat → List (Option (Nat × Nat)) × List (Nat × Nat × Nat) × Nat
  | [], k => ([], [], k)
  | c :: e, k =>
    if 0 < c then
      let r := lay lens e (k + 1)
      (some (k, 0) :: r.1, r.2.1, r.2.2)
    else
      let m := k + lens.getD (-c).toNat 0
      let r := lay lens e m
      (none :: r.1, ((-c).toNat, k, m) :: r.2.1, r.2.2)

theorem lay_append (lens : List Nat) (e e' : List Int) (k : Nat) :
    lay lens (e ++ e') k = ((lay lens e k).1 ++ (lay lens e' (lay lens e k).2.2).1, (lay lens e k).2.1 ++ (lay lens e' (lay lens e k).2.2).2.1, (lay lens e' (lay lens e k).2.2).2.2) := by
  induction e generalizing k with
  | nil => simp [lay]
  | cons c e ih =>
    rw [List.cons_append, lay, lay]
    split
    · simp [ih]
    · simp [ih]

variable {φ : Type} [AddMonoid φ] {val : Nat → Rule} {rfeats : Nat → φ} {gs : List (Nat × List Call)} {ws : List Int} {eps goalCat kGoal : Int} {goalRule : Nat}

/-- What a match of the source side of a new rule says. -/
theorem match_lay (hw : ∀ w ∈ ws, 0 < w ∧ w ≠ eps) {C : Nat → Int} (hC : ∀ v, C v < 0) (tails : List Nat) {G : Gram Node Nat} {i : Nat} (e : List Int) :
    ∀ (j : Nat) sh sp x, Match (textEnv val rfeats gs ws eps goalCat kGoal goalRule) G i j sh sp (newSource C tails e) x → (∀ s ∈ sp, s.1 < 0) →
      x = 0 ∧ sp.map (·.1) = (order e).map (fun k => C (tails.getD k 0)) ∧
      ∀ lens vals, List.Forall₂ (fun k (s : Int × Nat × Nat) => lens.getD k 0 = s.2.2 - s.2.1) (order e) sp →
        List.Forall₂ (fun k (s : Int × Nat × Nat) => vals[k]? = some (slice ws s.2.1 s.2.2)) (order e) sp →
        lay lens e i = (sh, List.zipWith (fun k (s : Int × Nat × Nat) => (k, s.2.1, s.2.2)) (order e) sp, j) ∧ Replaced vals e (slice ws i j) := by
  induction e using List.reverseRecOn with
  | nil =>
    intro j sh sp x h hs
    generalize hα : newSource C tails [] = α at h
    cases h with
    | nil => exact ⟨rfl, rfl, fun lens vals _ _ => ⟨rfl, by rw [slice_self]; exact .nil⟩⟩
    | eps h1 h2 _ h4 =>
      obtain ⟨w, hk, rfl, _⟩ := sentence_arc h2
      exact absurd h4 (hw w (List.mem_of_getElem? hk)).2
    | word => simp [newSource] at hα
    | part => simp [newSource] at hα
  | append_singleton e c ih =>
    intro j sh sp x h hs
    rw [newSource_append] at h
    generalize hα : newSource C tails e ++ newSource C tails [c] = α at h
    have hone : newSource C tails [c] = [if c > 0 then c else C (tails.getD (-c).toNat 0)] := rfl
    rw [hone] at hα
    cases h with
    | nil => simp at hα
    | eps h1 h2 _ h4 =>
      obtain ⟨w, hk, rfl, _⟩ := sentence_arc h2
      exact absurd h4 (hw w (List.mem_of_getElem? hk)).2
    | @word k idx a sh sp α' x h1 h2 h3 h4 =>
      obtain ⟨w, hk, rfl, rfl⟩ := sentence_arc h2
      obtain ⟨ea, ec⟩ := List.append_inj' hα rfl
      subst ea
      have hw' := (hw w (List.mem_of_getElem? hk)).1
      have hc : c > 0 := by
        by_contra hc
        rw [if_neg hc] at ec
        have := hC (tails.getD (-c).toNat 0)
        simp only [List.cons.injEq, and_true] at ec
        omega
      rw [if_pos hc] at ec
      simp only [List.cons.injEq, and_true] at ec
      subst ec
      have ho : order (e ++ [c]) = order e := by
        rw [order_append]
        have : order [c] = [] := by simp [order, show ¬ c ≤ 0 by omega]
        rw [this, List.append_nil]
      obtain ⟨i1, i2, i3⟩ := ih _ _ _ _ h1 hs
      rw [ho]
      refine ⟨by rw [i1]; exact add_zero _, i2, fun lens vals f1 f2 => ?_⟩
      obtain ⟨l1, l2⟩ := i3 lens vals f1 f2
      constructor
      · rw [lay_append, l1]
        simp [lay, hc]
      · show Replaced vals (e ++ [c]) (slice ws i (k + 1))
        rw [← slice_append ws (match_le h1) (Nat.le_add_right k 1), slice_one hk]
        exact replaced_append l2 (.word hc .nil)
    | @part k m c' sh sp α' x h1 h2 h3 h4 =>
      obtain ⟨ea, ec⟩ := List.append_inj' hα rfl
      subst ea
      have hc' : c' < 0 := hs (c', k, j) (by simp)
      have hc : ¬ c > 0 := by
        intro hc
        rw [if_pos hc] at ec
        simp only [List.cons.injEq, and_true] at ec
        omega
      rw [if_neg hc] at ec
      simp only [List.cons.injEq, and_true] at ec
      have ho : order (e ++ [c]) = order e ++ [(-c).toNat] := by
        rw [order_append]
        have : order [c] = [(-c).toNat] := by simp [order, show c ≤ 0 by omega]
        rw [this]
      obtain ⟨i1, i2, i3⟩ := ih _ _ _ _ h1 (fun s h => hs s (List.mem_append_left _ h))
      rw [ho]
      refine ⟨i1, by rw [List.map_append, List.map_append, i2, List.map_singleton, List.map_singleton, ec], fun lens vals f1 f2 => ?_⟩
      have hlen : (order e).length = sp.length := by
        have := congrArg List.length i2
        simpa using this.symm
      obtain ⟨f1a, f1b⟩ := forall₂_append_inv hlen f1
      obtain ⟨f2a, f2b⟩ := forall₂_append_inv hlen f2
      obtain ⟨l1, l2⟩ := i3 lens vals f1a f2a
      cases f1b with
      | cons f1b _ =>
      cases f2b with
      | cons f2b _ =>
      simp only [] at f1b f2b
      constructor
      · rw [lay_append, l1]
        simp only [lay, if_neg hc, f1b]
        rw [List.zipWith_append hlen]
        have : k + (j - k) = j := by omega
        simp [this]
      · rw [← slice_append ws (match_le h1) (Nat.le_of_lt h2)]
        refine replaced_append l2 ?_
        have e1 : c = -((-c).toNat : Int) := by omega
        rw [e1, ← List.append_nil (slice ws k j)]
        exact .var f2b .nil
where
  forall₂_append_inv {α β : Type} {R : α → β → Prop} {a b : List α} {c d : List β} (hl : a.length = c.length) (h : List.Forall₂ R (a ++ b) (c ++ d)) :
      List.Forall₂ R a c ∧ List.Forall₂ R b d := by
    induction a generalizing c with
    | nil =>
      cases c with
      | nil => exact ⟨.nil, h⟩
      | cons _ _ => simp at hl
    | cons x a ih =>
      cases c with
      | nil => simp at hl
      | cons y c =>
        cases h with
        | cons h1 h2 =>
          obtain ⟨i1, i2⟩ := ih (by simpa using hl) h2
          exact ⟨.cons h1 i1, i2⟩

/-- A string that a target side yields is matched by the source side of the new rule. -/
theorem replaced_match (hw : ∀ w ∈ ws, 0 < w ∧ w ≠ eps) {C : Nat → Int} (tails : List Nat) {G : Gram Node Nat} {i : Nat} {lens : List Nat}
    {vals : List (List Int)} (hv : ∀ idx v, vals[idx]? = some v → ∀ a b, a ≤ b → b ≤ ws.length → slice ws a b = v → a < b ∧ lens.getD idx 0 = b - a)
    (hG : ∀ m, m ≤ ws.length → G.has i m = true) {e out : List Int} (h : Replaced vals e out) :
    ∀ {k j : Nat} {sh sp α x}, k ≤ j → j ≤ ws.length → slice ws k j = out → Match (textEnv val rfeats gs ws eps goalCat kGoal goalRule) G i k sh sp α x →
      Match (textEnv val rfeats gs ws eps goalCat kGoal goalRule) G i j (sh ++ (lay lens e k).1)
        (sp ++ (lay lens e k).2.1.map fun s => (C (tails.getD s.1 0), s.2.1, s.2.2)) (α ++ newSource C tails e) x ∧
      (lay lens e k).2.2 = j ∧ ∀ s ∈ (lay lens e k).2.1, s.2.1 ≤ s.2.2 ∧ s.2.2 ≤ ws.length ∧ vals[s.1]? = some (slice ws s.2.1 s.2.2) := by
  induction h with
  | nil =>
    intro k j sh sp α x hk hj hs hm
    have : k = j := by
      have := slice_length ws hk hj
      rw [hs] at this
      simp at this
      omega
    subst this
    exact ⟨by simpa [lay, newSource] using hm, rfl, by simp [lay]⟩
  | @word w e out hpos _ ih =>
    intro k j sh sp α x hk hj hs hm
    obtain ⟨s1, s2, s3⟩ := slice_split (a := [w]) hk hj hs
    simp only [List.length_singleton] at s1 s2 s3
    have hkw : ws[k]? = some w := by
      have hlt : k < ws.length := by omega
      have := slice_one (List.getElem?_eq_getElem hlt)
      rw [this] at s1
      rw [List.getElem?_eq_getElem hlt, List.head_eq_of_cons_eq s1]
    have harc : ((textEnv val rfeats gs ws eps goalCat kGoal goalRule).lat.getD k [])[0]? = some ⟨w, 0, 1⟩ := by
      simp only [textEnv, sentence]
      rw [List.getD_eq_getElem?_getD, List.getElem?_map, hkw]
      rfl
    have hm' := Match.word hm harc (hG (k + 1) (by omega)) (hw w (List.mem_of_getElem? hkw)).2
    obtain ⟨r1, r2, r3⟩ := ih (j := j) s3 hj s2 hm'
    have hl : lay lens (w :: e) k = (some (k, 0) :: (lay lens e (k + 1)).1, (lay lens e (k + 1)).2.1, (lay lens e (k + 1)).2.2) := by simp [lay, hpos]
    rw [hl]
    refine ⟨?_, r2, r3⟩
    have hn : newSource C tails (w :: e) = w :: newSource C tails e := by simp [newSource, hpos]
    rw [hn]
    have e1 : x + (0 : φ) = x := add_zero x
    simp only [e1, List.append_assoc, List.singleton_append] at r1
    exact r1
  | @var v0 v e out hval _ ih =>
    intro k j sh sp α x hk hj hs hm
    obtain ⟨s1, s2, s3⟩ := slice_split (a := v) hk hj hs
    obtain ⟨hlt, hlen⟩ := hv v0 v hval k (k + v.length) (by omega) (by omega) s1
    have hm' := Match.part (c := C (tails.getD v0 0)) hm hlt (by rw [text_n]; omega) (hG _ (by omega))
    obtain ⟨r1, r2, r3⟩ := ih (j := j) s3 hj s2 hm'
    have e0 : (- -(v0 : Int)).toNat = v0 := by omega
    have e1 : k + lens.getD v0 0 = k + v.length := by omega
    have hl : lay lens (-(v0 : Int) :: e) k = (none :: (lay lens e (k + v.length)).1, (v0, k, k + v.length) :: (lay lens e (k + v.length)).2.1, (lay lens e (k + v.length)).2.2) := by
      rw [lay, if_neg (by omega), e0, e1]
    rw [hl]
    have hn : newSource C tails (-(v0 : Int) :: e) = C (tails.getD v0 0) :: newSource C tails e := by
      simp only [newSource, List.map_cons]
      rw [if_neg (by omega), e0]
    rw [hn]
    refine ⟨?_, r2, ?_⟩
    · simp only [List.append_assoc, List.singleton_append] at r1
      exact r1
    · intro s hs'
      rcases List.mem_cons.1 hs' with rfl | hs'
      · exact ⟨by simp only []; omega, by simp only []; omega, by simp only []; rw [hval, s1]⟩
      · exact r3 s hs'

end Cdec.Dec.Intersect
