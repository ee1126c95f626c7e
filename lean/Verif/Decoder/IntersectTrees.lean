import Verif.Decoder.IntersectLay
import Verif.Decoder.DecodeLemmas
/-! Parses with the grammar of a forest are the derivations of the forest, read in target order. -/
namespace Cdec.Dec.Intersect
open Cdec.HG Cdec.Dec.Parser Cdec.Dec.Parser.Spec Cdec.Dec.Spec Cdec.Dec.Intersect.Spec
variable {φ : Type}

/-! ## Lists -/

theorem forall₂_get {α β : Type} {R : α → β → Prop} {a : List α} {b : List β} :
    List.Forall₂ R a b ↔ a.length = b.length ∧ ∀ (q : Nat) x y, a[q]? = some x → b[q]? = some y → R x y := by
  rw [List.forall₂_iff_get]
  refine and_congr_right fun hl => ⟨fun h q x y hx hy => ?_, fun h i h1 h2 => ?_⟩
  · obtain ⟨h1, rfl⟩ := List.getElem?_eq_some_iff.1 hx
    obtain ⟨h2, rfl⟩ := List.getElem?_eq_some_iff.1 hy
    exact h q h1 h2
  · exact h i _ _ (List.getElem?_eq_getElem h1) (List.getElem?_eq_getElem h2)

theorem forall₂_choose {α β γ : Type} {P : α → β → γ → Prop} {a : List α} {b : List β} (h : List.Forall₂ (fun x y => ∃ z, P x y z) a b) :
    ∃ l : List γ, l.length = a.length ∧ ∀ (q : Nat) x y, a[q]? = some x → b[q]? = some y → ∃ z, l[q]? = some z ∧ P x y z := by
  induction h with
  | nil => exact ⟨[], rfl, by simp⟩
  | cons h _ ih =>
    obtain ⟨z, hz⟩ := h
    obtain ⟨l, h1, h2⟩ := ih
    refine ⟨z :: l, by simp [h1], fun q x y hx hy => ?_⟩
    cases q with
    | zero =>
      simp at hx hy
      subst hx hy
      exact ⟨z, rfl, hz⟩
    | succ q => exact h2 q x y hx hy

theorem order_at {e : List Int} {n k : Nat} (h : Linear e n) (hk : k < n) : ∃ q : Nat, (order e)[q]? = some k := by
  have : k ∈ order e := (linear_order h).mem_iff.2 (List.mem_range.2 hk)
  exact List.mem_iff_getElem?.1 this

theorem order_lt {e : List Int} {n q k : Nat} (h : Linear e n) (hq : (order e)[q]? = some k) : k < n :=
  List.mem_range.1 ((linear_order h).mem_iff.1 (List.mem_of_getElem? hq))

theorem lay_end (lens : List Nat) (e : List Int) (k : Nat) : (lay lens e k).2.2 = k + (lay lens e 0).2.2 := by
  induction e generalizing k with
  | nil => rfl
  | cons c e ih =>
    rw [lay, lay]
    split
    · simp only []
      rw [ih (k + 1), ih (0 + 1)]
      omega
    · simp only []
      rw [ih (k + _), ih (0 + _)]
      omega

theorem lay_order (lens : List Nat) (e : List Int) (k : Nat) : (lay lens e k).2.1.map (·.1) = order e := by
  induction e generalizing k with
  | nil => rfl
  | cons c e ih =>
    rw [lay, order_cons]
    split
    · rw [if_neg (by omega)]
      exact ih _
    · rw [if_pos (by omega), List.map_cons]
      simp only []
      rw [ih]

/-! ## Names -/

section
variable {conv : List Char → Nat} {name : Nat → List Char}

theorem split_last {a b c d : List Char} {x : Char} (hb : x ∉ b) (hd : x ∉ d) (h : a ++ x :: b = c ++ x :: d) : b = d := by
  rcases List.append_eq_append_iff.1 h with ⟨l, h1, h2⟩ | ⟨l, h1, h2⟩
  · cases l with
    | nil => simpa using h2
    | cons y l =>
      rw [List.cons_append, List.cons.injEq] at h2
      exact absurd (h2.2 ▸ (by simp : x ∈ l ++ x :: d)) hb
  · cases l with
    | nil => simpa using h2.symm
    | cons y l =>
      rw [List.cons_append, List.cons.injEq] at h2
      exact absurd (h2.2 ▸ (by simp : x ∈ l ++ x :: b)) hd

theorem showNat_no (v : Nat) : '_' ∉ showNat v := fun h => by
  have := showNat_isDigit v _ h
  revert this
  decide

theorem cats_neg (hp : ∀ s, 0 < conv s) (h : Hypergraph (EVal φ)) (v : Nat) : cats conv name h v < 0 := by
  unfold cats
  have := hp ((if (h.node v).cat < 0 then name (-(h.node v).cat).toNat else "CAT".toList) ++ '_' :: showNat v)
  omega

theorem cats_inj (hi : Function.Injective conv) (h : Hypergraph (EVal φ)) {v v' : Nat} (e : cats conv name h v = cats conv name h v') : v = v' := by
  unfold cats at e
  rw [Int.neg_inj, Int.ofNat_inj] at e
  exact showNat_inj (split_last (showNat_no v) (showNat_no v') (hi e))

theorem cats_ne (hi : Function.Injective conv) (h : Hypergraph (EVal φ)) (v : Nat) : cats conv name h v ≠ kGoal conv := by
  intro e
  unfold cats kGoal at e
  rw [Int.neg_inj, Int.ofNat_inj] at e
  have e' := hi e
  have : '_' ∈ "Goal".toList := by rw [← e']; simp
  revert this
  decide

/-! ## The grammar of a forest -/

/-- Forests that can be a grammar. -/
structure Gr (h : Hypergraph (EVal φ)) : Prop where
  inE : ∀ (v e : Nat), e ∈ h.inE v ↔ ∃ x : Edge (EVal φ), h.edges[e]? = some x ∧ x.head = some v
  heads : ∀ (e : Nat) (x : Edge (EVal φ)), h.edges[e]? = some x → ∃ v, x.head = some v
  lt : ∀ (e : Nat) (x : Edge (EVal φ)) v, h.edges[e]? = some x → x.head = some v → v < h.nodes.length
  topo : ∀ (e : Nat) (x : Edge (EVal φ)) v, h.edges[e]? = some x → x.head = some v → ∀ t ∈ x.tails, t < v
  rules : ∀ (e : Nat) (x : Edge (EVal φ)), h.edges[e]? = some x → Linear x.val.rule.e x.tails.length ∧ numVars x.val.rule.f = x.tails.length ∧ x.val.rule.e ≠ []

def calls (h : Hypergraph (EVal φ)) : List Call := (List.range h.edges.length).map fun r => ⟨r, 0, 0⟩

theorem added_calls (h : Hypergraph (EVal φ)) : added (calls h) = List.range h.edges.length := by
  unfold added calls
  rw [List.filter_eq_self.2 (by simp), List.map_map]
  exact List.map_id _

variable [AddMonoid φ]

/-- The parser's input, as for any text grammar. -/
abbrev tenv (conv : List Char → Nat) (name : Nat → List Char) (eps : Int) (h : Hypergraph (EVal φ)) (ws : List Int) : Env Node Nat φ :=
  textEnv (ruleOf conv name h) (featsOf h) [(ws.length + 1, calls h)] ws eps (goalCat conv name h) (kGoal conv) h.edges.length

theorem env_text (eps : Int) (h : Hypergraph (EVal φ)) (ws : List Int) : env conv name eps h (sentence ws) = tenv conv name eps h ws := by
  unfold env tenv textEnv
  simp [sentence, calls]

omit [AddMonoid φ] in
theorem ruleOf_some {h : Hypergraph (EVal φ)} {r : Nat} {x : Edge (EVal φ)} (hx : h.edges[r]? = some x) :
    ruleOf conv name h r = intersectRule (cats conv name h) (x.head.getD 0) x.tails x.val.rule := by
  unfold ruleOf
  rw [hx]

omit [AddMonoid φ] in
theorem ruleOf_arity (hp : ∀ s, 0 < conv s) {h : Hypergraph (EVal φ)} (hg : Gr h) {r : Nat} {x : Edge (EVal φ)} (hx : h.edges[r]? = some x) :
    (ruleOf conv name h r).arity = x.tails.length ∧ ((ruleOf conv name h r).f.filter fun c => decide (c < 0)).length = x.tails.length := by
  obtain ⟨h1, h2, h3⟩ := hg.rules r x hx
  rw [ruleOf_some hx]
  refine ⟨computeArity_linear (newTarget_linear h1 h2), ?_⟩
  have h4 := (C22_intersect (cats conv name h) (cats_neg hp h) (x.head.getD 0) x.tails x.val.rule x.tails.length rfl h1 h2).2.2
  have h5 : (intersectRule (cats conv name h) (x.head.getD 0) x.tails x.val.rule).f.filter (fun c => decide (c < 0)) =
      (intersectRule (cats conv name h) (x.head.getD 0) x.tails x.val.rule).f.filter (fun c => decide (c ≤ 0)) := by
    refine List.filter_congr fun c hc => ?_
    simp only [intersectRule, newSource, List.mem_map] at hc
    obtain ⟨a, _, rfl⟩ := hc
    split
    · rename_i h6
      rw [decide_eq_false (by omega), decide_eq_false (by omega)]
    · have := cats_neg (name := name) hp h (x.tails.getD (-a).toNat 0)
      rw [decide_eq_true this, decide_eq_true (by omega)]
  rw [h5, h4, List.length_map, order_length h1]

omit [AddMonoid φ] in
theorem text_ok (hp : ∀ s, 0 < conv s) (hi : Function.Injective conv) {eps : Int} {h : Hypergraph (EVal φ)} (hg : Gr h) {ws : List Int} (hw : ∀ w ∈ ws, 0 < w ∧ w ≠ eps) :
    TextOk (ruleOf conv name h) [(ws.length + 1, calls h)] ws eps (goalCat conv name h) (kGoal conv) h.edges.length where
  words := hw
  lhs r := by
    unfold ruleOf
    split
    · exact cats_neg hp h _
    · have := hp "Goal".toList
      simp only [kGoal]
      omega
  source := by
    intro g hg' r hr
    rw [List.mem_singleton.1 hg', added_calls, List.mem_range] at hr
    have hx := List.getElem?_eq_getElem hr
    rw [ruleOf_some hx]
    have := (hg.rules r _ hx).2.2
    simpa [intersectRule, newSource] using this
  arity := by
    intro g hg' r hr
    rw [List.mem_singleton.1 hg', added_calls, List.mem_range] at hr
    obtain ⟨a1, a2⟩ := ruleOf_arity (name := name) hp hg (List.getElem?_eq_getElem hr)
    rw [a1, a2]
  goal := by
    unfold ruleOf
    rw [List.getElem?_eq_none (Nat.le_refl _)]
  goal_ne := cats_ne hi h _
  rules_ne := by
    intro g hg' r hr
    rw [List.mem_singleton.1 hg', added_calls, List.mem_range] at hr
    rw [ruleOf_some (List.getElem?_eq_getElem hr)]
    exact cats_ne hi h _

theorem tenv_distinct (eps : Int) (h : Hypergraph (EVal φ)) (ws : List Int) : Distinct (tenv conv name eps h ws) := by
  refine text_distinct ?_
  simp only [List.flatMap_cons, List.flatMap_nil, List.append_nil, added_calls]
  exact List.nodup_range

omit [AddMonoid φ] in
/-- Unary rules come from edges whose target side is a variable. -/
theorem unary_rule (hp : ∀ s, 0 < conv s) {h : Hypergraph (EVal φ)} (hg : Gr h) {r : Nat} {x : Edge (EVal φ)} (hx : h.edges[r]? = some x)
    (hu : (ruleOf conv name h r).isUnary = true) : x.val.rule.e = [0] ∧ x.tails.length = 1 ∧ (ruleOf conv name h r).f = [cats conv name h (x.tails.getD 0 0)] := by
  have h1 := unary_f hu
  have h2 := (ruleOf_arity (name := name) hp hg hx).1
  unfold Rule.isUnary at hu
  simp only [Bool.and_eq_true, decide_eq_true_eq] at hu
  have h3 : x.tails.length = 1 := by omega
  have h4 : x.val.rule.e.length = 1 := by
    have := hu.2
    rw [ruleOf_some hx] at this
    simpa [intersectRule, newSource] using this
  obtain ⟨c, hc⟩ := List.length_eq_one_iff.1 h4
  have h5 := linear_order (hg.rules r x hx).1
  rw [h3, hc] at h5
  have hc0 : c ≤ 0 := by
    by_contra hne
    have := h5.length_eq
    rw [order_cons, if_neg hne] at this
    simp [order] at this
  have h6 : (-c).toNat = 0 := by
    have : (-c).toNat ∈ List.range 1 := h5.subset (by rw [order_cons, if_pos hc0]; simp)
    simpa using this
  have h7 : c = 0 := by omega
  subst h7
  refine ⟨hc, h3, ?_⟩
  rw [ruleOf_some hx]
  simp [intersectRule, newSource, hc]

theorem unaries_used (hp : ∀ s, 0 < conv s) (hi : Function.Injective conv) (eps : Int) {h : Hypergraph (EVal φ)} (hg : Gr h) (ws : List Int) :
    ∃ u, sortUnaries (tenv conv name eps h ws) = some u ∧ ∀ r, r ∈ u ↔ r ∈ (tenv conv name eps h ws).unaries := by
  classical
  obtain ⟨u, h1, _, h2, h3⟩ := sortUnaries_spec (tenv conv name eps h ws)
  have hun : ∀ r ∈ (tenv conv name eps h ws).unaries, ∃ (x : Edge (EVal φ)) (v t : Nat), h.edges[r]? = some x ∧ x.head = some v ∧ v < h.nodes.length ∧ t < v ∧
      (tenv conv name eps h ws).rhs r = cats conv name h t ∧ (tenv conv name eps h ws).lhs r = cats conv name h v := by
    intro r hr
    obtain ⟨g, hg', hr'⟩ := mem_text_unaries.1 hr
    have hadd := (mem_added (val := ruleOf conv name h)).2 (.inr hr')
    rw [List.mem_singleton.1 hg', added_calls, List.mem_range] at hadd
    have hx := List.getElem?_eq_getElem hadd
    obtain ⟨v, hv⟩ := hg.heads r _ hx
    obtain ⟨e1, e2, e3⟩ := unary_rule hp hg hx (unary_unary hr')
    have hmem : h.edges[r].tails.getD 0 0 ∈ h.edges[r].tails := by
      obtain ⟨a, ha⟩ := List.length_eq_one_iff.1 e2
      rw [ha]
      simp
    refine ⟨_, v, h.edges[r].tails.getD 0 0, hx, hv, hg.lt r _ v hx hv, hg.topo r _ v hx hv _ hmem, ?_, ?_⟩
    · show (ruleOf conv name h r).f.headD 0 = _
      rw [e3]
      rfl
    · show (ruleOf conv name h r).lhs = _
      rw [ruleOf_some hx, hv]
      rfl
  have hne : ∀ r ∈ (tenv conv name eps h ws).unaries, (tenv conv name eps h ws).rhs r ≠ (tenv conv name eps h ws).goalCat := by
    intro r hr e
    obtain ⟨x, v, t, _, _, h4, h5, h6, _⟩ := hun r hr
    rw [h6] at e
    have := cats_inj hi h e
    omega
  have hperm := h3 ⟨fun c => if hc : ∃ v, c = cats conv name h v then hc.choose else 0, fun r hr _ => by
    obtain ⟨x, v, t, _, _, _, h5, h6, h7⟩ := hun r hr
    rw [h6, h7]
    have hv : ∃ v', cats conv name h v = cats conv name h v' := ⟨v, rfl⟩
    have ht : ∃ v', cats conv name h t = cats conv name h v' := ⟨t, rfl⟩
    simp only []
    rw [dif_pos ht, dif_pos hv, ← cats_inj hi h hv.choose_spec, ← cats_inj hi h ht.choose_spec]
    exact h5⟩
  refine ⟨u, h1, fun r => ?_⟩
  rw [hperm.mem_iff, List.mem_filter]
  constructor
  · exact fun h => h.1
  · exact fun h => ⟨h, by simpa using hne r h⟩

/-! ## The image of a derivation -/

/-- The image of a rule with the images of its parts: the number of words, and the parse from a position on. -/
def place (h : Hypergraph (EVal φ)) (e : Nat) (parts : List (Nat × (Nat → LTree (Val Nat φ)))) : Nat × (Nat → LTree (Val Nat φ)) :=
  let tgt := match h.edges[e]? with
    | some x => x.val.rule.e
    | none => []
  ((lay (parts.map (·.1)) tgt 0).2.2, fun i =>
    let l := lay (parts.map (·.1)) tgt i
    .node ⟨e, i, l.2.2, featsOf h e + 0, l.1⟩ (l.2.1.map fun s => (parts.map (·.2)).getD s.1 (fun _ => .node ⟨0, 0, 0, 0, []⟩ []) s.2.1))

mutual
def img (h : Hypergraph (EVal φ)) : Tree → Nat × (Nat → LTree (Val Nat φ))
  | .node e ch => place h e (imgs h ch)
def imgs (h : Hypergraph (EVal φ)) : List Tree → List (Nat × (Nat → LTree (Val Nat φ)))
  | [] => []
  | t :: ts => img h t :: imgs h ts
end

theorem imgs_map (h : Hypergraph (EVal φ)) (ch : List Tree) : imgs h ch = ch.map (img h) := by
  induction ch with
  | nil => rw [imgs]; rfl
  | cons t ts ih => rw [imgs, ih]; rfl

def lens (h : Hypergraph (EVal φ)) (ch : List Tree) : List Nat := ch.map fun t => (img h t).1

def partAt (h : Hypergraph (EVal φ)) (ch : List Tree) (s : Nat × Nat × Nat) : LTree (Val Nat φ) :=
  (ch.map fun t => (img h t).2).getD s.1 (fun _ => .node ⟨0, 0, 0, 0, []⟩ []) s.2.1

theorem img_len {h : Hypergraph (EVal φ)} {e : Nat} {x : Edge (EVal φ)} (hx : h.edges[e]? = some x) (ch : List Tree) : (img h (.node e ch)).1 = (lay (lens h ch) x.val.rule.e 0).2.2 := by
  rw [img, place, imgs_map]
  simp only [hx, List.map_map]
  rfl

theorem img_at {h : Hypergraph (EVal φ)} {e : Nat} {x : Edge (EVal φ)} (hx : h.edges[e]? = some x) (ch : List Tree) (i : Nat) :
    (img h (.node e ch)).2 i = .node ⟨e, i, (lay (lens h ch) x.val.rule.e i).2.2, x.val.feats, (lay (lens h ch) x.val.rule.e i).1⟩ ((lay (lens h ch) x.val.rule.e i).2.1.map (partAt h ch)) := by
  rw [img, place, imgs_map]
  simp only [hx, List.map_map, featsOf, add_zero]
  rfl

theorem partAt_some {h : Hypergraph (EVal φ)} {ch : List Tree} {k : Nat} {T : Tree} (hk : ch[k]? = some T) (a b : Nat) : partAt h ch (k, a, b) = (img h T).2 a := by
  unfold partAt
  simp [List.getD_eq_getElem?_getD, hk]

theorem lens_some {h : Hypergraph (EVal φ)} {ch : List Tree} {k : Nat} {T : Tree} (hk : ch[k]? = some T) : (lens h ch).getD k 0 = (img h T).1 := by
  unfold lens
  simp [List.getD_eq_getElem?_getD, hk]

end
end Cdec.Dec.Intersect
