import Verif.Decoder.Tree2StringIter
/-! Reading trees. -/
namespace Cdec.Dec.T2S
open Spec

mutual
/-- The tree below node `n` takes up the entries `lo` to `n` of the table. -/
inductive Blk (sp : Bool) (tf : Table) : Nat → Nat → Nat → Frag → Prop
  | mk {lo n i : Nat} {p : Prd} {cs : List Frag} : tf[n]? = some p → (sp = true → p.span = (i, i + widths cs)) → BKids sp tf lo n i p.rhs cs →
      Blk sp tf lo n i (.node p.lhs cs)
/-- The children take up the entries `lo` to `hi - 1`. -/
inductive BKids (sp : Bool) (tf : Table) : Nat → Nat → Nat → List RSym → List Frag → Prop
  | nil {lo i : Nat} : BKids sp tf lo lo i [] []
  | term {lo hi i : Nat} {w : String} {xs : List RSym} {cs : List Frag} : BKids sp tf lo hi (i + 1) xs cs → BKids sp tf lo hi i (.term w :: xs) (.leaf w :: cs)
  | site {lo hi i : Nat} {c : String} {xs : List RSym} {cs : List Frag} : BKids sp tf lo hi (i + 1) xs cs → BKids sp tf lo hi i (.site c :: xs) (.site c :: cs)
  | node {lo m hi i : Nat} {t : Frag} {xs : List RSym} {cs : List Frag} : Blk sp tf lo m i t → BKids sp tf (m + 1) hi (i + t.width) xs cs →
      BKids sp tf lo hi i (.node m :: xs) (t :: cs)
end

theorem Blk.le {sp : Bool} {tf : Table} {lo n i : Nat} {t : Frag} (h : Blk sp tf lo n i t) : lo ≤ n := by
  refine Blk.rec (motive_1 := fun lo n _ _ _ => lo ≤ n) (motive_2 := fun lo hi _ _ _ _ => lo ≤ hi) ?_ ?_ ?_ ?_ ?_ h
  · intros; assumption
  · intros; exact Nat.le_refl _
  · intros; assumption
  · intros; assumption
  · intros; omega

theorem BKids.le {sp : Bool} {tf : Table} {lo n i : Nat} {xs : List RSym} {cs : List Frag} (h : BKids sp tf lo n i xs cs) : lo ≤ n := by
  refine BKids.rec (motive_1 := fun lo n _ _ _ => lo ≤ n) (motive_2 := fun lo hi _ _ _ _ => lo ≤ hi) ?_ ?_ ?_ ?_ ?_ h
  · intros; assumption
  · intros; exact Nat.le_refl _
  · intros; assumption
  · intros; assumption
  · intros; omega

theorem Blk.tab {sp : Bool} {tf : Table} {lo n i : Nat} {t : Frag} (h : Blk sp tf lo n i t) : Tab sp tf n i t := by
  refine Blk.rec (motive_1 := fun lo n i t _ => Tab sp tf n i t) (motive_2 := fun lo hi i xs cs _ => ∀ n, hi ≤ n → Kids sp tf n i xs cs) ?_ ?_ ?_ ?_ ?_ h
  · intro lo n i p cs h1 h2 _ ih
    exact .mk h1 h2 (ih n (Nat.le_refl _))
  · intros; exact .nil
  · intro lo hi i w xs cs _ ih n hn
    exact .term (ih n hn)
  · intro lo hi i w xs cs _ ih n hn
    exact .site (ih n hn)
  · intro lo m hi i t xs cs _ hk ih1 ih2 n hn
    have := hk.le
    exact .node (by omega) ih1 (ih2 n hn)

/-- Only the entries of the tree matter. -/
theorem Blk.frame {sp : Bool} {tf tf' : Table} {lo n i : Nat} {t : Frag} (h : Blk sp tf lo n i t) : (∀ k, lo ≤ k → k ≤ n → tf'[k]? = tf[k]?) → Blk sp tf' lo n i t := by
  refine Blk.rec (motive_1 := fun lo n i t _ => (∀ k, lo ≤ k → k ≤ n → tf'[k]? = tf[k]?) → Blk sp tf' lo n i t)
    (motive_2 := fun lo hi i xs cs _ => (∀ k, lo ≤ k → k < hi → tf'[k]? = tf[k]?) → BKids sp tf' lo hi i xs cs) ?_ ?_ ?_ ?_ ?_ h
  · intro lo n i p cs h1 h2 h3 ih hf
    exact .mk (by rw [hf n h3.le (Nat.le_refl _)]; exact h1) h2 (ih fun k a b => hf k a (by omega))
  · intros; exact .nil
  · intro lo hi i w xs cs _ ih hf
    exact .term (ih hf)
  · intro lo hi i w xs cs _ ih hf
    exact .site (ih hf)
  · intro lo m hi i t xs cs hb hk ih1 ih2 hf
    have h1 := hk.le
    have h2 := hb.le
    exact .node (ih1 fun k a b => hf k a (by omega)) (ih2 fun k a b => hf k (by omega) b)

theorem BKids.frame {sp : Bool} {tf tf' : Table} {lo hi i : Nat} {xs : List RSym} {cs : List Frag} (h : BKids sp tf lo hi i xs cs) :
    (∀ k, lo ≤ k → k < hi → tf'[k]? = tf[k]?) → BKids sp tf' lo hi i xs cs := by
  induction cs generalizing lo i xs with
  | nil => intro _; cases h; exact .nil
  | cons c cs ih =>
    intro hf
    cases h with
    | term h => exact .term (ih h hf)
    | site h => exact .site (ih h hf)
    | node hb hk =>
      have h1 := hk.le
      have h2 := hb.le
      exact .node (hb.frame fun k a b => hf k a (by omega)) (ih hk fun k a b => hf k (by omega) b)

/-- Without spans the first leaf does not matter. -/
theorem Blk.shift {tf : Table} {lo n i : Nat} {t : Frag} (h : Blk false tf lo n i t) : ∀ j, Blk false tf lo n j t := by
  refine Blk.rec (motive_1 := fun lo n _ t _ => ∀ j, Blk false tf lo n j t) (motive_2 := fun lo hi _ xs cs _ => ∀ j, BKids false tf lo hi j xs cs) ?_ ?_ ?_ ?_ ?_ h
  · intro lo n i p cs h1 _ _ ih j
    exact .mk h1 (by simp) (ih j)
  · intros; exact .nil
  · intro lo hi i w xs cs _ ih j
    exact .term (ih _)
  · intro lo hi i w xs cs _ ih j
    exact .site (ih _)
  · intro lo m hi i t xs cs _ _ ih1 ih2 j
    exact .node (ih1 _) (ih2 _)

theorem BKids.snoc_term {sp : Bool} {tf : Table} {hi : Nat} {w : String} {cs : List Frag} : ∀ {lo i : Nat} {xs : List RSym}, BKids sp tf lo hi i xs cs → BKids sp tf lo hi i (xs ++ [.term w]) (cs ++ [.leaf w]) := by
  induction cs with
  | nil => intro lo i xs h; cases h; exact .term .nil
  | cons c cs ih =>
    intro lo i xs h
    cases h with
    | term h => exact .term (ih h)
    | site h => exact .site (ih h)
    | node h1 h2 => exact .node h1 (ih h2)

theorem BKids.snoc_site {sp : Bool} {tf : Table} {hi : Nat} {w : String} {cs : List Frag} : ∀ {lo i : Nat} {xs : List RSym}, BKids sp tf lo hi i xs cs → BKids sp tf lo hi i (xs ++ [.site w]) (cs ++ [.site w]) := by
  induction cs with
  | nil => intro lo i xs h; cases h; exact .site .nil
  | cons c cs ih =>
    intro lo i xs h
    cases h with
    | term h => exact .term (ih h)
    | site h => exact .site (ih h)
    | node h1 h2 => exact .node h1 (ih h2)

theorem BKids.snoc_node {tf : Table} {hi m : Nat} {t : Frag} {cs : List Frag} : ∀ {lo i : Nat} {xs : List RSym}, BKids false tf lo hi i xs cs → Blk false tf hi m 0 t →
    BKids false tf lo (m + 1) i (xs ++ [.node m]) (cs ++ [t]) := by
  induction cs with
  | nil => intro lo i xs h hb; cases h; exact .node (hb.shift _) .nil
  | cons c cs ih =>
    intro lo i xs h hb
    cases h with
    | term h => exact .term (ih h hb)
    | site h => exact .site (ih h hb)
    | node h1 h2 => exact .node h1 (ih h2 hb)

/-! ### Characters -/

theorem skip_spaces (k : Nat) (x : List Char) : skip (spaces k ++ x) = skip x := by
  unfold skip spaces
  induction k with
  | zero => rfl
  | succ k ih => rw [List.replicate_succ, List.cons_append, List.dropWhile_cons]; simpa using ih

theorem skip_id {x : List Char} (h : ∀ c, x.head? = some c → c ≠ ' ') : skip x = x := by
  unfold skip
  cases x with
  | nil => rfl
  | cons c x =>
    rw [List.dropWhile_cons]
    have := h c rfl
    simp [this]

theorem plain_iff {c : Char} : plainChar c = true ↔ c ≠ ' ' ∧ c ≠ '(' ∧ c ≠ ')' := by
  simp [plainChar, and_assoc]

/-- What comes after a token. -/
def Stops (x : List Char) : Prop := ∀ c, x.head? = some c → plainChar c = false

theorem take_token {t x : List Char} (ht : ∀ c ∈ t, plainChar c = true) (hx : Stops x) : (t ++ x).takeWhile plainChar = t ∧ (t ++ x).dropWhile plainChar = x := by
  induction t with
  | nil =>
    cases x with
    | nil => simp
    | cons c x =>
      have := hx c rfl
      simp [List.takeWhile_cons, List.dropWhile_cons, this]
  | cons c t ih =>
    have h1 := ht c (by simp)
    obtain ⟨h2, h3⟩ := ih fun c hc => ht c (by simp [hc])
    simp [List.takeWhile_cons, List.dropWhile_cons, h1, h2, h3]

theorem token_plain {t : List Char} (h : Token t) : ∀ c ∈ t, plainChar c = true := fun c hc => plain_iff.2 (h.2 c hc)

theorem isSite_iff {t : List Char} : isSite t = true ↔ Bracketed t := by
  unfold isSite Bracketed
  constructor
  · intro h
    simp only [Bool.and_eq_true, beq_iff_eq, Bool.not_eq_true', Bool.or_eq_false_iff, decide_eq_false_iff_not, bne_eq_false_iff_eq, Nat.not_lt] at h
    obtain ⟨h1, h2, h3⟩ := h
    cases t with
    | nil => simp at h1
    | cons c t =>
      simp only [List.head?_cons, Option.some.injEq] at h1
      subst h1
      rcases List.eq_nil_or_concat t with rfl | ⟨m, d, rfl⟩
      · simp at h2
      · rw [List.concat_eq_append] at *
        have : d = ']' := by
          rw [← List.cons_append, List.getLast?_append] at h3
          simpa using h3
        subst this
        refine ⟨m, ?_, rfl⟩
        rintro rfl
        simp at h2
  · rintro ⟨m, hm, rfl⟩
    have h1 : ('[' :: m ++ [']']).getLast? = some ']' := by rw [List.getLast?_append]; rfl
    have h2 : 3 ≤ ('[' :: m ++ [']']).length := by
      cases m with
      | nil => exact absurd rfl hm
      | cons => simp
    rw [h1]
    simp only [List.cons_append, List.head?_cons, Bool.and_eq_true, beq_iff_eq, Bool.not_eq_true', Bool.or_eq_false_iff, decide_eq_false_iff_not, bne_eq_false_iff_eq, Nat.not_lt, true_and, and_true]
    exact h2

theorem text_ne {t : Frag} {x : List Char} (h : Text t x) : ∃ c y, x = c :: y ∧ c ≠ ' ' ∧ c ≠ ')' ∧ (c = '(' ↔ t.isNode) := by
  cases h with
  | @leaf w h1 h2 =>
    cases hw : w.toList with
    | nil => exact absurd hw h1.1
    | cons c y =>
      have := h1.2 c (by rw [hw]; simp)
      exact ⟨c, y, rfl, this.1, this.2.2, by simp [Frag.isNode, this.2.1]⟩
  | site h1 => exact ⟨'[', _, rfl, by decide, by decide, by simp [Frag.isNode]⟩
  | node a b h1 h2 => exact ⟨'(', _, by simp; rfl, by decide, by decide, by simp [Frag.isNode]⟩

/-- Sites are allowed in rules only. -/
def Allowed (afs : Bool) (t : Frag) : Prop := afs = true ∨ t.Plain

theorem stops_kids {cs : List Frag} {x z : List Char} (h : TextAll cs x) (b : Nat) : Stops (x ++ spaces b ++ ')' :: z) := by
  intro c hc
  cases h with
  | nil =>
    cases b with
    | zero => simp [spaces] at hc; subst hc; rfl
    | succ b => simp [spaces, List.replicate_succ] at hc; subst hc; rfl
  | cons k h1 h2 h3 =>
    cases k with
    | zero =>
      obtain ⟨d, y, rfl, _, _, h4⟩ := text_ne h2
      have := h4.2 (h1 rfl)
      subst this
      simp [spaces] at hc
      subst hc
      rfl
    | succ k => simp [spaces, List.replicate_succ] at hc; subst hc; rfl

theorem kids_token (afs : Bool) (fu : Nat) (c : Char) (cs : List Char) (nodes : Table) (rhs : List RSym) (h1 : c ≠ ')') (h2 : ¬ c = '(') :
    parseKids afs (fu + 1) (c :: cs) nodes rhs =
      if isSite ((c :: cs).takeWhile plainChar) then
        if afs then parseKids afs fu (skip ((c :: cs).dropWhile plainChar)) nodes (rhs ++ [.site (String.ofList (((c :: cs).takeWhile plainChar).tail.dropLast))]) else none
      else parseKids afs fu (skip ((c :: cs).dropWhile plainChar)) nodes (rhs ++ [.term (String.ofList ((c :: cs).takeWhile plainChar))]) := by
  rw [parseKids]
  simp only [h1, h2, if_false]

theorem kids_open (afs : Bool) (fu : Nat) (cs rest : List Char) (nodes nodes' : Table) (rhs : List RSym) (h : parseNode afs fu ('(' :: cs) nodes = some (rest, nodes')) :
    parseKids afs (fu + 1) ('(' :: cs) nodes rhs = parseKids afs fu rest nodes' (rhs ++ [.node (nodes'.length - 1)]) := by
  rw [parseKids]
  simp only [show ¬ '(' = ')' by decide, if_false, if_true, h]

theorem text_isNode {c : String} {cs : List Frag} : (Frag.node c cs).isNode := trivial

/-- Reading what has been written. -/
theorem parse_text {afs : Bool} {t : Frag} {x : List Char} (h : Text t x) : Allowed afs t → t.isNode → ∀ (fuel : Nat) (nodes : Table) (z : List Char), x.length ≤ fuel →
    ∃ new, parseNode afs fuel (x ++ z) nodes = some (skip z, nodes ++ new) ∧ 0 < new.length ∧ Blk false (nodes ++ new) nodes.length (nodes.length + new.length - 1) 0 t := by
  refine Text.rec (motive_1 := fun t x _ => Allowed afs t → t.isNode → ∀ (fuel : Nat) (nodes : Table) (z : List Char), x.length ≤ fuel →
    ∃ new, parseNode afs fuel (x ++ z) nodes = some (skip z, nodes ++ new) ∧ 0 < new.length ∧ Blk false (nodes ++ new) nodes.length (nodes.length + new.length - 1) 0 t)
    (motive_2 := fun cs x _ => (∀ t ∈ cs, Allowed afs t) → ∀ (fuel : Nat) (nodes : Table) (rhs : List RSym) (done : List Frag) (lo b : Nat) (z : List Char),
      BKids false nodes lo nodes.length 0 rhs done → x.length + b + 1 ≤ fuel → ∃ new rhs', parseKids afs fuel (skip (x ++ spaces b ++ ')' :: z)) nodes rhs = some (z, nodes ++ new, rhs') ∧
        BKids false (nodes ++ new) lo (nodes ++ new).length 0 rhs' (done ++ cs)) ?_ ?_ ?_ ?_ ?_ h
  · intro w _ _ _ hn
    exact hn.elim
  · intro c _ _ hn
    exact hn.elim
  · intro c cs x a b hc hx ih ha _ fuel nodes z hf
    have hlen : ('(' :: spaces a ++ c.toList ++ x ++ spaces b ++ [')']).length = a + c.toList.length + x.length + b + 2 := by
      simp [spaces]; omega
    rw [hlen] at hf
    obtain ⟨k, rfl⟩ : ∃ k, fuel = k + 1 := ⟨fuel - 1, by omega⟩
    have e : '(' :: spaces a ++ c.toList ++ x ++ spaces b ++ [')'] ++ z = '(' :: (spaces a ++ (c.toList ++ (x ++ spaces b ++ ')' :: z))) := by simp
    rw [e, parseNode]
    obtain ⟨t1, t2⟩ := take_token (token_plain hc) (stops_kids (z := z) hx b)
    have hs : skip (spaces a ++ (c.toList ++ (x ++ spaces b ++ ')' :: z))) = c.toList ++ (x ++ spaces b ++ ')' :: z) := by
      rw [skip_spaces, skip_id]
      intro d hd
      cases hcl : c.toList with
      | nil => exact absurd hcl hc.1
      | cons d' l =>
        rw [hcl] at hd
        simp only [List.cons_append, List.head?_cons, Option.some.injEq] at hd
        exact hd ▸ (hc.2 d' (by rw [hcl]; simp)).1
    have ha' : ∀ t ∈ cs, Allowed afs t := by
      intro t ht
      rcases ha with ha | ha
      · exact .inl ha
      · cases ha with
        | node hp => exact .inr (hp t ht)
    obtain ⟨new, rhs', h1, h2⟩ := ih ha' k nodes [] [] nodes.length b z .nil (by omega)
    simp only [hs, t1, t2, h1, String.ofList_toList]
    refine ⟨new ++ [⟨c, rhs', (0, 0)⟩], by simp, by simp, ?_⟩
    have hn : nodes.length + (new ++ [(⟨c, rhs', (0, 0)⟩ : Prd)]).length - 1 = (nodes ++ new).length := by simp
    rw [hn, ← List.append_assoc]
    refine Blk.mk (p := ⟨c, rhs', (0, 0)⟩) (by simp) (by simp) (h2.frame ?_)
    intro k _ hk
    rw [List.getElem?_append_left hk]
  · intro _ fuel nodes rhs done lo b z hb hf
    obtain ⟨k, rfl⟩ : ∃ k, fuel = k + 1 := ⟨fuel - 1, by omega⟩
    refine ⟨[], rhs, ?_, by simpa using hb⟩
    have : skip ([] ++ spaces b ++ ')' :: z) = ')' :: z := by
      rw [List.nil_append, skip_spaces, skip_id]
      intro c hc
      simp only [List.head?_cons, Option.some.injEq] at hc
      rw [← hc]; decide
    rw [this, parseKids]
    simp
  · intro t ts x y k hk hx hy ih1 ih2 ha fuel nodes rhs done lo b z hb hf
    obtain ⟨fu, rfl⟩ : ∃ fu, fuel = fu + 1 := ⟨fuel - 1, by omega⟩
    have hlen : (spaces k ++ x ++ y).length = k + x.length + y.length := by simp [spaces]; omega
    rw [hlen] at hf
    obtain ⟨c, x', ex, c1, c2, c3⟩ := text_ne hx
    have e : skip (spaces k ++ x ++ y ++ spaces b ++ ')' :: z) = x ++ (y ++ spaces b ++ ')' :: z) := by
      have : spaces k ++ x ++ y ++ spaces b ++ ')' :: z = spaces k ++ (x ++ (y ++ spaces b ++ ')' :: z)) := by simp
      rw [this, skip_spaces, skip_id]
      intro d hd
      rw [ex] at hd
      simp only [List.cons_append, List.head?_cons, Option.some.injEq] at hd
      exact hd ▸ c1
    have hxl : 1 ≤ x.length := by rw [ex]; simp
    rw [e]
    have hat := ha t (by simp)
    have hats : ∀ t ∈ ts, Allowed afs t := fun t ht => ha t (by simp [ht])
    have tok : ¬ t.isNode → Token x → parseKids afs (fu + 1) (x ++ (y ++ spaces b ++ ')' :: z)) nodes rhs =
        if isSite x then if afs then parseKids afs fu (skip (y ++ spaces b ++ ')' :: z)) nodes (rhs ++ [.site (String.ofList (x.tail.dropLast))]) else none
        else parseKids afs fu (skip (y ++ spaces b ++ ')' :: z)) nodes (rhs ++ [.term (String.ofList x)]) := by
      intro hnn htok
      obtain ⟨t1, t2⟩ := take_token (token_plain htok) (stops_kids (z := z) hy b)
      have hc' : ¬ c = '(' := fun h => hnn (c3.1 h)
      rw [ex, List.cons_append] at t1 t2 ⊢
      rw [kids_token afs fu c _ nodes rhs c2 hc', t1, t2]
    cases t with
    | node c' cs' =>
      have := c3.2 trivial
      subst this
      obtain ⟨new, p1, p2, p3⟩ := ih1 hat trivial fu nodes (y ++ spaces b ++ ')' :: z) (by omega)
      have hpos : (nodes ++ new).length - 1 + 1 = (nodes ++ new).length := by simp; omega
      have hb' : BKids false (nodes ++ new) lo (nodes ++ new).length 0 (rhs ++ [.node ((nodes ++ new).length - 1)]) (done ++ [.node c' cs']) := by
        have h1 := hb.frame (tf' := nodes ++ new) fun k _ hk => by rw [List.getElem?_append_left hk]
        have := h1.snoc_node (by simpa using p3)
        rw [← hpos]
        simpa using this
      obtain ⟨new', rhs', q1, q2⟩ := ih2 hats fu (nodes ++ new) _ _ lo b z hb' (by omega)
      refine ⟨new ++ new', rhs', ?_, by simpa using q2⟩
      subst ex
      rw [List.cons_append] at p1 ⊢
      rw [kids_open afs fu _ _ _ _ _ p1, q1, List.append_assoc]
    | leaf w =>
      cases hx with
      | leaf h1 h2 =>
        rw [tok (fun h => h) h1, if_neg (by rw [isSite_iff]; exact h2), String.ofList_toList]
        obtain ⟨new, rhs', q1, q2⟩ := ih2 hats fu nodes _ _ lo b z (hb.snoc_term (w := w)) (by omega)
        exact ⟨new, rhs', q1, by simpa using q2⟩
    | site d =>
      cases hx with
      | site h1 =>
        have haf : afs = true := by
          rcases hat with h | h
          · exact h
          · cases h
        have htok : Token ('[' :: d.toList ++ [']']) := by
          refine ⟨by simp, ?_⟩
          intro c hc
          simp only [List.cons_append, List.mem_cons, List.mem_append, List.not_mem_nil, or_false] at hc
          rcases hc with rfl | hc | rfl
          · decide
          · exact h1.2 c hc
          · decide
        rw [tok (fun h => h) htok, if_pos (by rw [isSite_iff]; exact ⟨d.toList, h1.1, rfl⟩), if_pos haf]
        have : String.ofList (('[' :: d.toList ++ [']']).tail.dropLast) = d := by simp
        rw [this]
        obtain ⟨new, rhs', q1, q2⟩ := ih2 hats fu nodes _ _ lo b z (hb.snoc_site (w := d)) (by simp at hf; omega)
        exact ⟨new, rhs', q1, by simpa using q2⟩

/-- Brackets match. -/
theorem balanced_text {t : Frag} {x : List Char} (h : Text t x) : ∀ (bal : Int) (z : List Char), 1 ≤ bal → balanced bal (x ++ z) = balanced bal z := by
  have tok : ∀ (w : List Char) (bal : Int) (z : List Char), (∀ c ∈ w, c ≠ '(' ∧ c ≠ ')') → balanced bal (w ++ z) = balanced bal z := by
    intro w
    induction w with
    | nil => intros; rfl
    | cons c w ih =>
      intro bal z hw
      have := hw c (by simp)
      rw [List.cons_append, balanced, if_neg this.1, if_neg this.2]
      exact ih bal z fun c hc => hw c (by simp [hc])
  have sp : ∀ k : Nat, ∀ c ∈ spaces k, c ≠ '(' ∧ c ≠ ')' := by
    intro k c hc
    rw [List.eq_of_mem_replicate hc]
    decide
  refine Text.rec (motive_1 := fun t x _ => ∀ (bal : Int) (z : List Char), 1 ≤ bal → balanced bal (x ++ z) = balanced bal z)
    (motive_2 := fun t x _ => ∀ (bal : Int) (z : List Char), 1 ≤ bal → balanced bal (x ++ z) = balanced bal z) ?_ ?_ ?_ ?_ ?_ h
  · intro w h1 _ bal z _
    exact tok _ _ _ fun c hc => (h1.2 c hc).2
  · intro w h1 bal z _
    apply tok
    intro c hc
    simp only [List.cons_append, List.mem_cons, List.mem_append, List.not_mem_nil, or_false] at hc
    rcases hc with rfl | hc | rfl
    · decide
    · exact (h1.2 c hc).2
    · decide
  · intro c cs x a b hc _ ih bal z hb
    have e : '(' :: spaces a ++ c.toList ++ x ++ spaces b ++ [')'] ++ z = '(' :: (spaces a ++ (c.toList ++ (x ++ (spaces b ++ (')' :: z))))) := by simp
    rw [e, balanced, if_pos rfl, tok _ _ _ (sp a), tok _ _ _ (fun c h => (hc.2 c h).2), ih _ _ (by omega), tok _ _ _ (sp b), balanced]
    have h1 : ¬ (bal < 1) := by omega
    simp [h1]
  · intros; rfl
  · intro t ts x y k _ _ _ ih1 ih2 bal z hb
    rw [List.append_assoc, List.append_assoc, tok _ _ _ (sp k), ih1 _ _ hb, ih2 _ _ hb]

/-! ### Spans -/

/-- A bound for the depth of the recursion. -/
def Spec.Frag.size : Frag → Nat
  | .leaf _ => 1
  | .site _ => 1
  | .node _ cs => 2 + (cs.map fun t => t.size).sum

theorem size_node (c : String) (cs : List Frag) : (Frag.node c cs).size = 2 + (cs.map Frag.size).sum := by rw [Frag.size]

theorem size_pos (t : Frag) : 0 < t.size := by
  cases t <;> rw [Frag.size] <;> omega

theorem size_text {t : Frag} {x : List Char} (h : Text t x) : t.size ≤ x.length := by
  refine Text.rec (motive_1 := fun t x _ => t.size ≤ x.length) (motive_2 := fun cs x _ => (cs.map Frag.size).sum ≤ x.length) ?_ ?_ ?_ ?_ ?_ h
  · intro w h1 _
    rw [Frag.size]
    exact List.length_pos_iff.2 h1.1
  · intro c _
    rw [Frag.size]
    simp
  · intro c cs x a b _ _ ih
    rw [size_node]
    simp
    omega
  · simp
  · intro t ts x y k _ _ _ h1 h2
    simp
    omega

/-- What a table is apart from spans. -/
def core (tf : Table) (k : Nat) : Option (String × List RSym) := (tf[k]?).map fun p => (p.lhs, p.rhs)

theorem modify_ne (tf : Table) (f : Prd → Prd) {n k : Nat} (h : n ≠ k) : (tf.modify n f)[k]? = tf[k]? := by
  rw [List.getElem?_modify]
  simp [h]

theorem modify_eq (tf : Table) (f : Prd → Prd) {n : Nat} {p : Prd} (h : tf[n]? = some p) : (tf.modify n f)[n]? = some (f p) := by
  rw [List.getElem?_modify, h]
  simp

theorem core_length {tf tf' : Table} (h : ∀ k, core tf k = core tf' k) : tf.length = tf'.length := by
  have key : ∀ (a b : Table), (∀ k, core a k = core b k) → a.length ≤ b.length := by
    intro a b h
    have := h b.length
    unfold core at this
    rw [List.getElem?_eq_none (Nat.le_refl b.length)] at this
    simpa using this
  exact Nat.le_antisymm (key _ _ h) (key _ _ fun k => (h k).symm)

theorem setup_spec {tf0 : Table} {lo n i : Nat} {t : Frag} (h : Blk false tf0 lo n i t) : ∀ (tf : Table) (fuel left : Nat), (∀ k, lo ≤ k → k ≤ n → tf[k]? = tf0[k]?) → t.size ≤ fuel →
    (setupNode fuel tf n left).2 = left + t.width ∧ (∀ k, ¬ (lo ≤ k ∧ k ≤ n) → (setupNode fuel tf n left).1[k]? = tf[k]?) ∧ (∀ k, core (setupNode fuel tf n left).1 k = core tf k) ∧
    Blk true (setupNode fuel tf n left).1 lo n left t := by
  refine Blk.rec (motive_1 := fun lo n i t _ => ∀ (tf : Table) (fuel left : Nat), (∀ k, lo ≤ k → k ≤ n → tf[k]? = tf0[k]?) → t.size ≤ fuel →
      (setupNode fuel tf n left).2 = left + t.width ∧ (∀ k, ¬ (lo ≤ k ∧ k ≤ n) → (setupNode fuel tf n left).1[k]? = tf[k]?) ∧ (∀ k, core (setupNode fuel tf n left).1 k = core tf k) ∧
      Blk true (setupNode fuel tf n left).1 lo n left t)
    (motive_2 := fun lo hi i xs cs _ => ∀ (tf : Table) (fuel left : Nat), (∀ k, lo ≤ k → k < hi → tf[k]? = tf0[k]?) → 1 + (cs.map Frag.size).sum ≤ fuel →
      (setupKids fuel xs tf left).2 = left + widths cs ∧ (∀ k, ¬ (lo ≤ k ∧ k < hi) → (setupKids fuel xs tf left).1[k]? = tf[k]?) ∧ (∀ k, core (setupKids fuel xs tf left).1 k = core tf k) ∧
      BKids true (setupKids fuel xs tf left).1 lo hi left xs cs) ?_ ?_ ?_ ?_ ?_ h
  · intro lo n i p cs h1 _ hk ih tf fuel left hf hs
    rw [size_node] at hs
    obtain ⟨fu, rfl⟩ : ∃ fu, fuel = fu + 1 := ⟨fuel - 1, by omega⟩
    have hp : tf[n]? = some p := by rw [hf n hk.le (Nat.le_refl _)]; exact h1
    obtain ⟨a1, a2, a3, a4⟩ := ih tf fu left (fun k x y => hf k x (by omega)) (by omega)
    rw [setupNode]
    simp only [at_eq hp]
    generalize setupKids fu p.rhs tf left = r at *
    have hr : r.1[n]? = some p := by rw [a2 n (by omega)]; exact hp
    refine ⟨by rw [a1, width_node], ?_, ?_, ?_⟩
    · intro k hk'
      rw [modify_ne _ _ (by have := hk.le; rintro rfl; omega), a2 k (by omega)]
    · intro k
      rw [← a3 k]
      unfold core
      by_cases e : n = k
      · subst e
        rw [modify_eq _ _ hr, hr]
        rfl
      · rw [modify_ne _ _ e]
    · refine Blk.mk (p := ⟨p.lhs, p.rhs, (left, r.2)⟩) ?_ ?_ (a4.frame ?_)
      · rw [modify_eq _ _ hr]
      · intro _
        rw [a1]
      · intro k _ hk'
        rw [modify_ne _ _ (by omega)]
  · intro lo i tf fuel left _ _
    have : setupKids fuel [] tf left = (tf, left) := by cases fuel <;> rw [setupKids]
    rw [this]
    exact ⟨by simp [widths], by simp, by simp, .nil⟩
  · intro lo hi i w xs cs _ ih tf fuel left hf hs
    rw [List.map_cons, List.sum_cons] at hs
    obtain ⟨fu, rfl⟩ : ∃ fu, fuel = fu + 1 := ⟨fuel - 1, by omega⟩
    have := size_pos (.leaf w)
    obtain ⟨a1, a2, a3, a4⟩ := ih tf fu (left + 1) hf (by omega)
    have e : setupKids (fu + 1) (.term w :: xs) tf left = setupKids fu xs tf (left + 1) := by rw [setupKids]; simp
    rw [e]
    refine ⟨?_, a2, a3, .term a4⟩
    rw [a1]
    simp only [widths, List.map_cons, List.sum_cons, Frag.width]
    omega
  · intro lo hi i w xs cs _ ih tf fuel left hf hs
    rw [List.map_cons, List.sum_cons] at hs
    obtain ⟨fu, rfl⟩ : ∃ fu, fuel = fu + 1 := ⟨fuel - 1, by omega⟩
    have := size_pos (.site w)
    obtain ⟨a1, a2, a3, a4⟩ := ih tf fu (left + 1) hf (by omega)
    have e : setupKids (fu + 1) (.site w :: xs) tf left = setupKids fu xs tf (left + 1) := by rw [setupKids]; simp
    rw [e]
    refine ⟨?_, a2, a3, .site a4⟩
    rw [a1]
    simp only [widths, List.map_cons, List.sum_cons, Frag.width]
    omega
  · intro lo m hi i t xs cs hb hk ih1 ih2 tf fuel left hf hs
    rw [List.map_cons, List.sum_cons] at hs
    obtain ⟨fu, rfl⟩ : ∃ fu, fuel = fu + 1 := ⟨fuel - 1, by omega⟩
    have hle := hk.le
    have hle' := hb.le
    have := size_pos t
    obtain ⟨a1, a2, a3, a4⟩ := ih1 tf fu left (fun k x y => hf k x (by omega)) (by omega)
    rw [setupKids]
    generalize setupNode fu tf m left = r at *
    obtain ⟨b1, b2, b3, b4⟩ := ih2 r.1 fu r.2 (fun k x y => by rw [a2 k (by omega)]; exact hf k (by omega) y) (by omega)
    generalize setupKids fu xs r.1 r.2 = r' at *
    refine ⟨?_, ?_, ?_, .node (a4.frame ?_) ?_⟩
    · rw [b1, a1]
      simp only [widths, List.map_cons, List.sum_cons]
      omega
    · intro k hk'
      rw [b2 k (by omega), a2 k (by omega)]
    · intro k
      rw [b3, a3]
    · intro k x y
      exact b2 k (by omega)
    · rw [← a1]; exact b4

theorem parse_node {afs : Bool} {t : Frag} {x : List Char} (h : Text t x) (ha : Allowed afs t) (hn : t.isNode) :
    ∃ tf, parse afs x = some tf ∧ 0 < tf.length ∧ Blk (!afs) tf 0 (tf.length - 1) 0 t := by
  have hbal : balanced 0 x = true := by
    cases h with
    | leaf => exact hn.elim
    | site => exact hn.elim
    | @node c cs y a b hc hy =>
      have e : '(' :: spaces a ++ c.toList ++ y ++ spaces b ++ [')'] = '(' :: (spaces a ++ c.toList ++ y ++ spaces b ++ [')']) := by simp
      rw [e, balanced, if_pos rfl]
      -- the inside from one open bracket
      have tok : ∀ (w : List Char) (bal : Int) (z : List Char), (∀ c ∈ w, c ≠ '(' ∧ c ≠ ')') → balanced bal (w ++ z) = balanced bal z := by
        intro w
        induction w with
        | nil => intros; rfl
        | cons c w ih =>
          intro bal z hw
          have := hw c (by simp)
          rw [List.cons_append, balanced, if_neg this.1, if_neg this.2]
          exact ih bal z fun c hc => hw c (by simp [hc])
      have sp : ∀ k : Nat, ∀ c ∈ spaces k, c ≠ '(' ∧ c ≠ ')' := by
        intro k c hc
        rw [List.eq_of_mem_replicate hc]
        decide
      have all : ∀ {cs : List Frag} {y : List Char}, TextAll cs y → ∀ z, balanced 1 (y ++ z) = balanced 1 z := by
        intro cs
        induction cs with
        | nil => intro y hy z; cases hy; rfl
        | cons t ts ih =>
          intro y hy z
          cases hy with
          | cons k _ h1 h2 => rw [List.append_assoc, List.append_assoc, tok _ _ _ (sp k), balanced_text h1 _ _ (by omega), ih h2]
      have e2 : spaces a ++ c.toList ++ y ++ spaces b ++ [')'] = spaces a ++ (c.toList ++ (y ++ (spaces b ++ [')']))) := by simp
      rw [e2]
      show balanced 1 _ = true
      rw [tok _ _ _ (sp a), tok _ _ _ (fun c h => (hc.2 c h).2), all hy, tok _ _ _ (sp b)]
      rfl
  obtain ⟨new, p1, p2, p3⟩ := parse_text h ha hn (2 * x.length + 2) [] [] (by omega)
  rw [List.append_nil] at p1
  simp only [List.nil_append, List.length_nil, Nat.zero_add] at p1 p3
  unfold parse
  simp only [hbal, Bool.not_true, Bool.false_eq_true, if_false, p1]
  cases afs with
  | true => exact ⟨new, by simp, p2, p3⟩
  | false =>
    obtain ⟨_, _, c, d⟩ := setup_spec p3 new (2 * x.length + 2) 0 (fun _ _ _ => rfl) (by have := size_text h; omega)
    have hl := core_length c
    refine ⟨_, rfl, by rw [hl]; exact p2, ?_⟩
    rw [hl]
    exact d

/-- Trees without sites have tables without sites. -/
theorem blk_plain {sp : Bool} {tf : Table} {lo n i : Nat} {t : Frag} (h : Blk sp tf lo n i t) : t.Plain → ∀ k p, lo ≤ k → k ≤ n → tf[k]? = some p → ∀ c, RSym.site c ∉ p.rhs := by
  refine Blk.rec (motive_1 := fun lo n i t _ => t.Plain → ∀ k p, lo ≤ k → k ≤ n → tf[k]? = some p → ∀ c, RSym.site c ∉ p.rhs)
    (motive_2 := fun lo hi i xs cs _ => (∀ t ∈ cs, t.Plain) → (∀ k p, lo ≤ k → k < hi → tf[k]? = some p → ∀ c, RSym.site c ∉ p.rhs) ∧ ∀ c, RSym.site c ∉ xs) ?_ ?_ ?_ ?_ ?_ h
  · intro lo n i p cs h1 _ hk ih hp k p' a b hk'
    cases hp with
    | node hp =>
      obtain ⟨ih1, ih2⟩ := ih hp
      by_cases e : k = n
      · subst e
        rw [h1] at hk'
        cases hk'
        exact ih2
      · exact ih1 k p' a (by omega) hk'
  · intro lo i _
    exact ⟨fun k p a b => by omega, by simp⟩
  · intro lo hi i w xs cs _ ih hp
    obtain ⟨ih1, ih2⟩ := ih fun t ht => hp t (by simp [ht])
    exact ⟨ih1, by simpa using ih2⟩
  · intro lo hi i w xs cs _ ih hp
    have := hp (.site w) (by simp)
    cases this
  · intro lo m hi i t xs cs hb hk ih1 ih2 hp
    obtain ⟨a1, a2⟩ := ih2 fun t ht => hp t (by simp [ht])
    have a3 := ih1 (hp t (by simp))
    refine ⟨?_, by simpa using a2⟩
    intro k p x y hk
    rcases Nat.lt_or_ge m k with hmk | hmk
    · exact a1 k p (by omega) y hk
    · exact a3 k p x hmk hk

theorem blk_noSites {sp : Bool} {tf : Table} {i : Nat} {t : Frag} (h : Blk sp tf 0 (tf.length - 1) i t) (hp : t.Plain) : ∀ p ∈ tf, ∀ c, RSym.site c ∉ p.rhs := by
  intro p hm
  obtain ⟨k, hk, rfl⟩ := List.getElem_of_mem hm
  exact blk_plain h hp k _ (Nat.zero_le _) (by omega) (List.getElem?_eq_getElem hk)

/-! ### The symbols of a fragment -/

/-- The symbols of items. -/
inductive Lists (tf : Table) : List Item → List Sym → Prop
  | nil : Lists tf [] []
  | cons {x : Item} {rest : List Item} {p : List Sym} : Lists tf (after tf x rest) p → Lists tf (x :: rest) (x.sym tf :: p)

theorem collect_rel {tf : Table} (fuel : Nat) : ∀ {it : Iter} {l : List Item} (p : List Sym), Rel tf it l → Lists tf l p → p.length < fuel → collect tf fuel it = some p := by
  induction fuel with
  | zero => intro it l p _ _ h; omega
  | succ fuel ih =>
    intro it l p hr hl hp
    rw [collect]
    cases hl with
    | nil =>
      rw [if_pos (by simpa using (rel_nil hr).2 rfl)]
    | cons hl =>
      obtain ⟨h1, h2⟩ := rel_sym hr
      rw [if_neg (by simpa using h2), ih _ (rel_incr hr) hl (by simpa using hp), h1]
      rfl

theorem lists_kids {sp : Bool} {tf : Table} {lo hi i : Nat} {xs : List RSym} {cs : List Frag} (h : BKids sp tf lo hi i xs cs) :
    ∀ (rest : List Item) (p : List Sym), Lists tf rest p → Lists tf (xs.map .child ++ rest) (cs.flatMap Frag.syms ++ p) := by
  refine BKids.rec (motive_1 := fun lo n i t _ => ∀ (rest : List Item) (p : List Sym), Lists tf rest p → Lists tf (.lhs (tf.at n).lhs :: (kidItems tf n ++ rest)) (t.lin ++ p) ∧ ∃ cs, t = .node (tf.at n).lhs cs)
    (motive_2 := fun lo hi i xs cs _ => ∀ (rest : List Item) (p : List Sym), Lists tf rest p → Lists tf (xs.map .child ++ rest) (cs.flatMap Frag.syms ++ p)) ?_ ?_ ?_ ?_ ?_ h
  · intro lo n i p cs h1 _ _ ih rest q hq
    refine ⟨?_, cs, by rw [at_eq h1]⟩
    unfold Frag.lin kidItems
    rw [syms_node, at_eq h1]
    exact .cons (x := .lhs _) (ih rest q hq)
  · intro lo i rest p hp
    exact hp
  · intro lo hi i w xs cs _ ih rest p hp
    rw [List.flatMap_cons, syms_leaf]
    exact .cons (x := .child (.term w)) (ih rest p hp)
  · intro lo hi i w xs cs _ ih rest p hp
    rw [List.flatMap_cons, syms_site]
    exact .cons (x := .child (.site w)) (ih rest p hp)
  · intro lo m hi i t xs cs _ _ ih1 ih2 rest p hp
    obtain ⟨h1, cs', e⟩ := ih1 _ _ (ih2 rest p hp)
    rw [List.flatMap_cons]
    have : t.syms = .rhs (tf.at m).lhs :: t.lin := by
      unfold Frag.lin
      rw [e, syms_node]
      rfl
    rw [this, List.append_assoc]
    exact .cons (x := .child (.node m)) h1

/-- The iterator gives the symbols of the fragment. -/
theorem symbols_blk {sp : Bool} {tf : Table} {i : Nat} {t : Frag} (h : Blk sp tf 0 (tf.length - 1) i t) {fuel : Nat} (hf : t.lin.length < fuel) : collect tf fuel (.begin tf (tf.length - 1)) = some t.lin := by
  cases h with
  | @mk _ _ _ p cs h1 h2 h3 =>
    apply collect_rel fuel _ (rel_begin tf _) _ hf
    have := lists_kids h3 [] [] .nil
    rw [List.append_nil, List.append_nil] at this
    unfold Frag.lin kidItems
    rw [syms_node, at_eq h1]
    exact .cons (x := .lhs _) this

end Cdec.Dec.T2S
