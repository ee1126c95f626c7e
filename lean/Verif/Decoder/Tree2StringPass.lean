import Verif.Decoder.Tree2StringFinal
/-! Pass-through rules of the tree-to-string translator. -/
namespace Cdec.Dec.T2S
open Cdec.HG Spec
open Cdec.Dec.Parser.Spec (LTree Shows)
variable {R : Type}

/-- Words and labels that can be written. -/
inductive Clean : Frag → Prop
  | leaf {w : String} : Token w.toList → ¬ Bracketed w.toList → Clean (.leaf w)
  | site {c : String} : Token c.toList → Clean (.site c)
  | node {c : String} {cs : List Frag} : Token c.toList → (∀ t ∈ cs, Clean t) → Clean (.node c cs)

theorem text_clean {t : Frag} {x : List Char} (h : Text t x) : Clean t := by
  refine Text.rec (motive_1 := fun t _ _ => Clean t) (motive_2 := fun cs _ _ => ∀ t ∈ cs, Clean t) ?_ ?_ ?_ ?_ ?_ h
  · intro w h1 h2; exact .leaf h1 h2
  · intro c h1; exact .site h1
  · intro c cs x a b h1 _ ih; exact .node h1 ih
  · simp
  · intro t ts x y k _ _ _ h1 h2 t' ht'
    rcases List.mem_cons.1 ht' with rfl | ht'
    · exact h1
    · exact h2 t' ht'

/-- The same for the productions of a table. -/
def CleanPrd (tf : Table) (p : Prd) : Prop := Token p.lhs.toList ∧ ∀ x ∈ p.rhs, match x with
  | .term w => Token w.toList ∧ ¬ Bracketed w.toList
  | .node m => Token (tf.at m).lhs.toList
  | .site _ => False

theorem blk_clean {sp : Bool} {tf : Table} {lo n i : Nat} {t : Frag} (h : Blk sp tf lo n i t) : t.Plain → Clean t → Token (tf.at n).lhs.toList ∧ ∀ k p, lo ≤ k → k ≤ n → tf[k]? = some p → CleanPrd tf p := by
  refine Blk.rec (motive_1 := fun lo n i t _ => t.Plain → Clean t → Token (tf.at n).lhs.toList ∧ ∀ k p, lo ≤ k → k ≤ n → tf[k]? = some p → CleanPrd tf p)
    (motive_2 := fun lo hi i xs cs _ => (∀ t ∈ cs, t.Plain) → (∀ t ∈ cs, Clean t) → (∀ x ∈ xs, match x with
      | .term w => Token w.toList ∧ ¬ Bracketed w.toList
      | .node m => Token (tf.at m).lhs.toList
      | .site _ => False) ∧ ∀ k p, lo ≤ k → k < hi → tf[k]? = some p → CleanPrd tf p) ?_ ?_ ?_ ?_ ?_ h
  · intro lo n i p cs h1 _ _ ih hp hc
    cases hp with
    | node hp =>
      cases hc with
      | node hc1 hc2 =>
        obtain ⟨a1, a2⟩ := ih hp hc2
        refine ⟨by rw [at_eq h1]; exact hc1, ?_⟩
        intro k p' x y hk
        by_cases e : k = n
        · subst e
          rw [h1] at hk
          cases hk
          exact ⟨hc1, a1⟩
        · exact a2 k p' x (by omega) hk
  · intro lo i _ _
    exact ⟨by simp, fun k p a b => by omega⟩
  · intro lo hi i w xs cs _ ih hp hc
    obtain ⟨a1, a2⟩ := ih (fun t ht => hp t (by simp [ht])) (fun t ht => hc t (by simp [ht]))
    refine ⟨?_, a2⟩
    intro x hx
    rcases List.mem_cons.1 hx with rfl | hx
    · have := hc (.leaf w) (by simp)
      cases this with
      | leaf h1 h2 => exact ⟨h1, h2⟩
    · exact a1 x hx
  · intro lo hi i w xs cs _ ih hp hc
    have := hp (.site w) (by simp)
    cases this
  · intro lo m hi i t xs cs hb hk ih1 ih2 hp hc
    obtain ⟨a1, a2⟩ := ih2 (fun t ht => hp t (by simp [ht])) (fun t ht => hc t (by simp [ht]))
    obtain ⟨b1, b2⟩ := ih1 (hp t (by simp)) (hc t (by simp))
    refine ⟨?_, ?_⟩
    · intro x hx
      rcases List.mem_cons.1 hx with rfl | hx
      · exact b1
      · exact a1 x hx
    · intro k p x y hk
      rcases Nat.lt_or_ge m k with hmk | hmk
      · exact a2 k p (by omega) y hk
      · exact b2 k p x hmk hk

/-! ### The fragment of a production -/

/-- The child of a fragment. -/
def kidFrag (tf : Table) : RSym → Frag
  | .term w => .leaf w
  | .node m => .site (tf.at m).lhs
  | .site c => .site c

/-- The fragment of a production. -/
def prdFrag (tf : Table) (p : Prd) : Frag := .node p.lhs (p.rhs.map (kidFrag tf))

theorem prdFrag_key {tf : Table} {p p' : Prd} (h : passKey tf p = passKey tf p') : prdFrag tf p = prdFrag tf p' := by
  unfold passKey at h
  simp only [Prod.mk.injEq] at h
  unfold prdFrag
  rw [h.1]
  congr 1
  have key : ∀ xs : List RSym, xs.map (kidFrag tf) = (xs.map (keySym tf)).map fun x => match x with
      | .term w => Frag.leaf w
      | .site c => .site c
      | .node _ => .leaf "" := by
    intro xs
    rw [List.map_map]
    apply List.map_congr_left
    intro x _
    cases x <;> rfl
  rw [key, h.2, ← key]

theorem rhse_key {tf : Table} {p p' : Prd} (h : passKey tf p = passKey tf p') : rhse 0 p.rhs = rhse 0 p'.rhs := by
  unfold passKey at h
  simp only [Prod.mk.injEq] at h
  have key : ∀ (xs : List RSym) (k : Nat), rhse k xs = rhse k (xs.map (keySym tf)) := by
    intro xs
    induction xs with
    | nil => intro k; rfl
    | cons x xs ih =>
      intro k
      cases x <;> simp only [List.map_cons, keySym, rhse, ih]
  rw [key, h.2, ← key]

theorem pass_text {tf : Table} {p : Prd} (h : CleanPrd tf p) : Text (prdFrag tf p) (passText tf p) := by
  have kids : ∀ xs : List RSym, (∀ x ∈ xs, match x with
      | .term w => Token w.toList ∧ ¬ Bracketed w.toList
      | .node m => Token (tf.at m).lhs.toList
      | .site _ => False) → TextAll (xs.map (kidFrag tf)) (xs.flatMap fun x => ' ' :: passSym tf x) := by
    intro xs
    induction xs with
    | nil => intro _; exact .nil
    | cons x xs ih =>
      intro hx
      have h1 := hx x (by simp)
      have h2 := ih fun y hy => hx y (by simp [hy])
      rw [List.map_cons, List.flatMap_cons]
      cases x with
      | term w => exact .cons 1 (by simp) (.leaf h1.1 h1.2) h2
      | node m => exact .cons 1 (by simp) (.site h1) h2
      | site c => exact h1.elim
  have := Text.node 0 0 h.1 (kids p.rhs h.2)
  simpa [spaces, passText, prdFrag] using this

theorem prdFrag_sites (tf : Table) (p : Prd) : (prdFrag tf p).lin.countP Sym.isSite = p.rhs.countP fun x => !x.isTerm := by
  have h : (prdFrag tf p).lin = .lhs p.lhs :: (p.rhs.map (kidFrag tf)).flatMap Frag.syms := by
    unfold Frag.lin prdFrag
    rw [syms_node]
    rfl
  rw [h, List.countP_cons]
  simp only [Sym.isSite, Bool.false_eq_true, if_false, Nat.add_zero]
  generalize p.rhs = xs
  induction xs with
  | nil => rfl
  | cons x xs ih =>
    rw [List.map_cons, List.flatMap_cons, List.countP_append, List.countP_cons, ih]
    cases x <;> simp [kidFrag, syms_leaf, syms_site, Sym.isSite, RSym.isTerm] <;> omega

theorem abstract_rhse {p : Prd} (h : abstractRule p = true) : rhse 0 p.rhs = (List.range (p.rhs.countP fun x => !x.isTerm)).map .inr := by
  unfold abstractRule at h
  rw [Bool.and_eq_true] at h
  have h := h.2
  have key : ∀ (xs : List RSym) (k : Nat), (!xs.any RSym.isTerm) = true →
      rhse k xs = (List.range' k (xs.countP fun x => !x.isTerm)).map .inr := by
    intro xs
    induction xs with
    | nil => intro k _; rfl
    | cons x xs ih =>
      intro k hx
      cases x with
      | term w => simp [RSym.isTerm] at hx
      | node m =>
        rw [rhse, ih (k + 1) (by simpa [RSym.isTerm] using hx), List.countP_cons]
        simp [RSym.isTerm, List.range'_succ]
      | site m =>
        rw [rhse, ih (k + 1) (by simpa [RSym.isTerm] using hx), List.countP_cons]
        simp [RSym.isTerm, List.range'_succ]
  rw [key p.rhs 0 h, List.range_eq_range']

theorem blk_sub {sp : Bool} {tf : Table} {lo n i : Nat} {t : Frag} (h : Blk sp tf lo n i t) : ∀ k, lo ≤ k → k ≤ n → ∃ j s, Sub s t ∧ Tab sp tf k j s := by
  refine Blk.rec (motive_1 := fun lo n i t _ => ∀ k, lo ≤ k → k ≤ n → ∃ j s, Sub s t ∧ Tab sp tf k j s)
    (motive_2 := fun lo hi i xs cs _ => ∀ k, lo ≤ k → k < hi → ∃ j s, (∃ t ∈ cs, Sub s t) ∧ Tab sp tf k j s) ?_ ?_ ?_ ?_ ?_ h
  · intro lo n i p cs h1 h2 h3 ih k a b
    by_cases e : k = n
    · subst e
      exact ⟨i, _, .refl, (Blk.mk h1 h2 h3).tab⟩
    · obtain ⟨j, s, ⟨t, ht, hs⟩, hk⟩ := ih k a (by omega)
      exact ⟨j, s, .under ht hs, hk⟩
  · intro lo i k a b
    omega
  · intro lo hi i w xs cs _ ih k a b
    obtain ⟨j, s, ⟨t, ht, hs⟩, hk⟩ := ih k a b
    exact ⟨j, s, ⟨t, by simp [ht], hs⟩, hk⟩
  · intro lo hi i w xs cs _ ih k a b
    obtain ⟨j, s, ⟨t, ht, hs⟩, hk⟩ := ih k a b
    exact ⟨j, s, ⟨t, by simp [ht], hs⟩, hk⟩
  · intro lo m hi i t xs cs hb hk ih1 ih2 k a b
    rcases Nat.lt_or_ge m k with hmk | hmk
    · obtain ⟨j, s, ⟨t, ht, hs⟩, hk⟩ := ih2 k (by omega) b
      exact ⟨j, s, ⟨t, by simp [ht], hs⟩, hk⟩
    · obtain ⟨j, s, hs, hk⟩ := ih1 k a hmk
      exact ⟨j, s, ⟨t, by simp, hs⟩, hk⟩

theorem tab_top {sp : Bool} {tf : Table} {n i : Nat} {t : Frag} (h : Tab sp tf n i t) {p : Prd} (hp : tf[n]? = some p) : prdFrag tf p = t.top ∧ rhse 0 p.rhs = inOrder 0 t.kids := by
  cases h with
  | @mk _ _ p' cs h1 h2 h3 =>
    rw [h1] at hp
    cases hp
    have key : ∀ (cs : List Frag) (n i : Nat) (xs : List RSym), Kids sp tf n i xs cs → xs.map (kidFrag tf) = cs.map (fun t => match t with
        | .node c' _ => Frag.site c'
        | t => t) ∧ ∀ k, rhse k xs = inOrder k cs := by
      intro cs
      induction cs with
      | nil =>
        intro n i xs h
        cases h
        exact ⟨rfl, fun _ => rfl⟩
      | cons c cs ih =>
        intro n i xs h
        cases h with
        | term h =>
          obtain ⟨a, b⟩ := ih _ _ _ h
          exact ⟨by rw [List.map_cons, List.map_cons, a]; rfl, fun k => by rw [rhse, inOrder, b]⟩
        | site h =>
          obtain ⟨a, b⟩ := ih _ _ _ h
          exact ⟨by rw [List.map_cons, List.map_cons, a]; rfl, fun k => by rw [rhse, inOrder, b]⟩
        | @node _ _ m _ _ _ hm ht h =>
          obtain ⟨a, b⟩ := ih _ _ _ h
          cases ht with
          | @mk _ _ p2 cs2 g1 g2 g3 =>
            refine ⟨?_, fun k => by rw [rhse, inOrder, b]⟩
            rw [List.map_cons, List.map_cons, a]
            simp only [kidFrag, at_eq g1]
    obtain ⟨a, b⟩ := key _ _ _ _ h3
    exact ⟨by unfold prdFrag Frag.top; rw [a]; rfl, b 0⟩

/-- A rule that copies a production. -/
def Copied (tf : Table) (Ts : List (Trie R)) (tgt : R → Tgt) (mk : Tgt → Prd → R) (pass : List (Frag × R)) (p : Prd) : Prop :=
  (∃ r, (prdFrag tf p, r) ∈ pass ∧ ∃ p', r = mk (rhse 0 p'.rhs) p' ∧ rhse 0 p'.rhs = rhse 0 p.rhs) ∨
  ∃ T ∈ Ts, ∃ r ∈ T.data (prdFrag tf p).lin, tgt r = rhse 0 p.rhs

theorem passLoop_spec {tf : Table} {Ts : List (Trie R)} {tgt : R → Tgt} {mk : Tgt → Prd → R} {N : Nat} (ps : List Prd) : (∀ p ∈ ps, CleanPrd tf p ∧ (prdFrag tf p).lin.length < N) →
    ∀ {keys : List (String × List RSym)} {T : Trie R} {pass : List (Frag × R)}, TrieOf pass T → (∀ p, passKey tf p ∈ keys → Copied tf Ts tgt mk pass p) →
    ∃ T' more, (∀ fuel, N ≤ fuel → passLoop tf Ts tgt mk fuel ps keys T = some T') ∧ TrieOf (pass ++ more) T' ∧ (∀ p ∈ ps, Copied tf Ts tgt mk (pass ++ more) p) ∧
      ∀ r ∈ more, ∃ p ∈ ps, r = (prdFrag tf p, mk (rhse 0 p.rhs) p) := by
  induction ps with
  | nil =>
    intro _ keys T pass hT _
    exact ⟨T, [], fun _ _ => rfl, by simpa using hT, by simp, by simp⟩
  | cons p ps ih =>
    intro hc keys T pass hT hk
    have hc' : ∀ p ∈ ps, CleanPrd tf p ∧ (prdFrag tf p).lin.length < N := fun q hq => hc q (by simp [hq])
    have mono : ∀ (more : List (Frag × R)) q, Copied tf Ts tgt mk pass q → Copied tf Ts tgt mk (pass ++ more) q := by
      rintro more q (⟨r, h1, h2⟩ | h)
      · exact .inl ⟨r, List.mem_append_left _ h1, h2⟩
      · exact .inr h
    by_cases hkey : passKey tf p ∈ keys
    · obtain ⟨T', more, h1, h2, h3, h4⟩ := ih hc' hT hk
      refine ⟨T', more, fun fuel hf => ?_, h2, ?_, fun r hr => ?_⟩
      · rw [passLoop, if_pos hkey]
        exact h1 fuel hf
      · intro q hq
        rcases List.mem_cons.1 hq with rfl | hq
        · exact mono more _ (hk _ hkey)
        · exact h3 q hq
      · obtain ⟨q, hq, e⟩ := h4 r hr
        exact ⟨q, by simp [hq], e⟩
    · obtain ⟨c1, c2⟩ := hc p (by simp)
      obtain ⟨src, p1, p2, p3⟩ := parse_node (afs := true) (pass_text c1) (.inl rfl) trivial
      have hsy : ∀ fuel, N ≤ fuel → symbols src fuel = some (prdFrag tf p).lin := fun fuel hf => symbols_blk p3 (by omega)
      by_cases habs : (abstractRule p && monoExists Ts tgt (prdFrag tf p).lin) = true
      · have habs' := habs
        rw [Bool.and_eq_true] at habs
        obtain ⟨ha, hm⟩ := habs
        have hcop : ∀ q, passKey tf q = passKey tf p → Copied tf Ts tgt mk pass q := by
          intro q hq
          unfold monoExists at hm
          simp only [List.any_eq_true, Bool.and_eq_true, decide_eq_true_eq] at hm
          obtain ⟨T0, hT0, _, r, hr, e⟩ := hm
          refine .inr ⟨T0, hT0, r, by rw [prdFrag_key hq]; exact hr, ?_⟩
          rw [e, prdFrag_sites, ← abstract_rhse ha, rhse_key hq]
        obtain ⟨T', more, h1, h2, h3, h4⟩ := ih hc' (keys := passKey tf p :: keys) hT (by
          intro q hq
          rcases List.mem_cons.1 hq with hq | hq
          · exact hcop q hq
          · exact hk q hq)
        refine ⟨T', more, fun fuel hf => ?_, h2, ?_, fun r hr => ?_⟩
        · rw [passLoop, if_neg hkey]
          simp only [p1, hsy fuel hf]
          rw [if_pos habs', h1 fuel hf]
        · intro q hq
          rcases List.mem_cons.1 hq with rfl | hq
          · exact mono more _ (hcop _ rfl)
          · exact h3 q hq
        · obtain ⟨q, hq, e⟩ := h4 r hr
          exact ⟨q, by simp [hq], e⟩
      · have hcop : ∀ q, passKey tf q = passKey tf p → Copied tf Ts tgt mk (pass ++ [(prdFrag tf p, mk (rhse 0 p.rhs) p)]) q := by
          intro q hq
          exact .inl ⟨mk (rhse 0 p.rhs) p, by rw [prdFrag_key hq]; simp, p, rfl, (rhse_key hq).symm⟩
        obtain ⟨T', more, h1, h2, h3, h4⟩ := ih hc' (keys := passKey tf p :: keys) (hT.add (prdFrag tf p) (mk (rhse 0 p.rhs) p)) (by
          intro q hq
          rcases List.mem_cons.1 hq with hq | hq
          · exact hcop q hq
          · exact mono _ q (hk q hq))
        refine ⟨T', (prdFrag tf p, mk (rhse 0 p.rhs) p) :: more, fun fuel hf => ?_, by simpa using h2, ?_, fun r hr => ?_⟩
        · rw [passLoop, if_neg hkey]
          simp only [p1, hsy fuel hf]
          rw [if_neg habs, h1 fuel hf]
        · intro q hq
          have e : pass ++ (prdFrag tf p, mk (rhse 0 p.rhs) p) :: more = pass ++ [(prdFrag tf p, mk (rhse 0 p.rhs) p)] ++ more := by simp
          rw [e]
          rcases List.mem_cons.1 hq with rfl | hq
          · rcases hcop q rfl with ⟨r, a1, a2⟩ | h
            · exact .inl ⟨r, List.mem_append_left _ a1, a2⟩
            · exact .inr h
          · exact h3 q hq
        · rcases List.mem_cons.1 hr with rfl | hr
          · exact ⟨p, by simp, rfl⟩
          · obtain ⟨q, hq, e⟩ := h4 r hr
            exact ⟨q, by simp [hq], e⟩

/-! ### The translation that copies -/

theorem yield_rule (tgt : R → Tgt) (r : R) (i j : Nat) (ch : List (LTree (Val R))) : yield tgt (.node (.rule r i j) ch) = (tgt r).flatMap fun x => match x with
    | .inl w => [w]
    | .inr k => (ch.map (yield tgt)).getD k [] := by
  rw [yield]
  rfl

theorem words_node (c : String) (cs : List Frag) : (Frag.node c cs).words = cs.flatMap Frag.words := by rw [Frag.words]

theorem copy_kids {uses : Frag → R → Prop} {tgt : R → Tgt} {tf : Table} {n : Nat} (ih : ∀ m < n, ∀ i t, Tab true tf m i t → ∃ d, Deriv uses i t d ∧ yield tgt d = t.words) (cs : List Frag) :
    ∀ (i : Nat) (xs : List RSym), Kids true tf n i xs cs → (∀ c, RSym.site c ∉ xs) → ∃ ss ch, CutAll i (xs.map (kidFrag tf)) cs ss ∧ List.Forall₂ (fun s d => Deriv uses s.1 s.2 d) ss ch ∧
      ∀ pre : List (List String), (rhse pre.length xs).flatMap (fun x => match x with
        | .inl w => [w]
        | .inr k => (pre ++ ch.map (yield tgt)).getD k []) = cs.flatMap Frag.words := by
  induction cs with
  | nil =>
    intro i xs h _
    cases h
    exact ⟨[], [], .nil, .nil, fun _ => rfl⟩
  | cons c cs ihc =>
    intro i xs h hs
    cases h with
    | @term _ _ w xs' _ h =>
      obtain ⟨ss, ch, h1, h2, h3⟩ := ihc (i + 1) xs' h fun c hc => hs c (by simp [hc])
      refine ⟨ss, ch, ?_, h2, ?_⟩
      · rw [List.map_cons]
        exact CutAll.cons (ss := []) .leaf (by rw [Frag.width]; exact h1)
      · intro pre
        rw [rhse, List.flatMap_cons, h3, List.flatMap_cons, Frag.words]
    | @site _ _ c' xs' _ h => exact absurd List.mem_cons_self (hs c')
    | @node _ _ m t xs' _ hm ht h =>
      obtain ⟨ss, ch, h1, h2, h3⟩ := ihc (i + c.width) xs' h fun c hc => hs c (by simp [hc])
      obtain ⟨d, hd, hy⟩ := ih m hm i c ht
      obtain ⟨cs', e, _, _⟩ := Tab.elim ht
      refine ⟨(i, c) :: ss, d :: ch, ?_, .cons hd h2, ?_⟩
      · rw [List.map_cons]
        have : Cut i (kidFrag tf (.node m)) c [(i, c)] := by
          rw [e]
          exact .site
        exact CutAll.cons (ss := [(i, c)]) this h1
      · intro pre
        have := h3 (pre ++ [c.words])
        rw [List.length_append, List.length_singleton] at this
        rw [rhse, List.flatMap_cons, List.flatMap_cons, ← this]
        simp [hy]

/-- Every tree has a translation that copies it. -/
theorem copy_tree {uses : Frag → R → Prop} {tgt : R → Tgt} {tf : Table} (hns : NoSites tf) (hall : ∀ p ∈ tf, ∃ r, uses (prdFrag tf p) r ∧ tgt r = rhse 0 p.rhs) (n : Nat) :
    ∀ i t, Tab true tf n i t → ∃ d, Deriv uses i t d ∧ yield tgt d = t.words := by
  induction n using Nat.strongRecOn with
  | ind n ih =>
    intro i t ht
    cases ht with
    | @mk _ _ p cs h1 h2 h3 =>
      have hp := List.mem_of_getElem? h1
      obtain ⟨ss, ch, a1, a2, a3⟩ := copy_kids (fun m hm => ih m hm) cs i p.rhs h3 (hns p hp)
      obtain ⟨r, b1, b2⟩ := hall p hp
      refine ⟨_, Deriv.mk (f := prdFrag tf p) (r := r) trivial b1 (.node a1) a2, ?_⟩
      have := a3 []
      simp only [List.length_nil, List.nil_append] at this
      rw [yield_rule, words_node, b2, this]

theorem forall₂_append {α β : Type} {P : α → β → Prop} {a b : List α} {c d : List β} (h : List.Forall₂ P a c) (h' : List.Forall₂ P b d) : List.Forall₂ P (a ++ b) (c ++ d) := by
  induction h with
  | nil => exact h'
  | cons h _ ih => exact .cons h ih

/-- The whole of the translator with pass-through rules. -/
theorem pass_core {tgt : R → Tgt} {mk : Tgt → Prd → R} (htgt : ∀ e p, tgt (mk e p) = e) (cat : String → Int) (catGoal : Int) {files : List (List (List Char × R))}
    {sets : List (List (Frag × R))} (h : List.Forall₂ Lines files sets) {t : Frag} {x : List Char} (hx : Text t x) (hn : t.isNode) (hp : t.Plain) :
    ∃ N g pass, (∀ fuel, N ≤ fuel → runPass tgt mk cat catGoal fuel files x = some (some g)) ∧ Stands g (Deriv (Takes (sets.flatten ++ pass)) 0 t) ∧
      (∀ r ∈ pass, ∃ s, Sub s t ∧ s.isNode ∧ r.1 = s.top ∧ tgt r.2 = inOrder 0 s.kids) ∧ ∃ d, Deriv (Takes (sets.flatten ++ pass)) 0 t d ∧ yield tgt d = t.words := by
  obtain ⟨N, Ts, h1, h2⟩ := loads_spec h
  obtain ⟨tf, p1, p2, p3⟩ := parse_node (afs := false) hx (.inr hp) hn
  have hns : NoSites tf := blk_noSites p3 hp
  have hcl : ∀ p ∈ tf, CleanPrd tf p := by
    intro p hm
    obtain ⟨k, hk, rfl⟩ := List.getElem_of_mem hm
    exact (blk_clean p3 hp (text_clean hx)).2 k _ (Nat.zero_le _) (by omega) (List.getElem?_eq_getElem hk)
  obtain ⟨N1, hN1⟩ := fuel_bound (tf.map fun p => (prdFrag tf p, ()))
  obtain ⟨T, pass, q1, q2, q3, q4⟩ := passLoop_spec (Ts := Ts) (tgt := tgt) (mk := mk) (N := N1) tf
    (fun p hm => ⟨hcl p hm, hN1 N1 (Nat.le_refl _) (prdFrag tf p, ()) (List.mem_map.2 ⟨p, hm, rfl⟩)⟩) trieOf_empty (keys := []) (by simp)
  rw [List.nil_append] at q2 q3
  have hE : List.Forall₂ TrieOf (sets ++ [pass]) (⟨tf, Ts ++ [T], cat, catGoal⟩ : Env R).grams := forall₂_append h2 (.cons q2 .nil)
  have hfl : (sets ++ [pass]).flatten = sets.flatten ++ pass := by simp
  have hpass : ∀ r ∈ pass, r.1.isNode ∧ r.1.flat := by
    intro r hr
    obtain ⟨p, _, rfl⟩ := q4 r hr
    refine ⟨trivial, ?_⟩
    intro f hf
    obtain ⟨y, _, rfl⟩ := List.mem_map.1 hf
    cases y <;> exact id
  have hnode : ∀ r ∈ (sets ++ [pass]).flatten, r.1.isNode := by
    intro r hr
    rw [hfl] at hr
    rcases List.mem_append.1 hr with hr | hr
    · exact lines_isNode h r hr
    · exact (hpass r hr).1
  obtain ⟨U, hU⟩ := sets_within hE
  have huse := deriv_congr (use_takes hE hnode)
  obtain ⟨N', res, r1, r2, r3⟩ := translate_core (E := ⟨tf, Ts ++ [T], cat, catGoal⟩) (blk_noSites p3 hp) hU (fun g => (gram_of hE g).ok) p3.tab
  rw [huse, hfl] at r2 r3
  obtain ⟨d, hd, hy⟩ := copy_tree (uses := Takes (sets.flatten ++ pass)) (tgt := tgt) hns (by
    intro p hm
    rcases q3 p hm with ⟨r, a1, p', rfl, a2⟩ | ⟨T0, hT0, r, a1, a2⟩
    · exact ⟨_, ⟨_, List.mem_append_right _ a1, trivial, rfl⟩, by rw [htgt, a2]⟩
    · obtain ⟨g, hg, rfl⟩ := List.getElem_of_mem hT0
      have := gram_of h2 g
      rw [List.getD_eq_getElem?_getD (l := Ts), List.getElem?_eq_getElem hg] at this
      obtain ⟨f', b1, b2⟩ := this.mem.1 a1
      have b3 := mem_sets.1 ⟨g, b1⟩
      exact ⟨r, ⟨f', List.mem_append_left _ b3, lines_isNode h _ b3, b2⟩, a2⟩) _ _ _ p3.tab
  have hsome := r2.2 ⟨d, hd⟩
  obtain ⟨g, rfl⟩ := Option.isSome_iff_exists.1 hsome
  refine ⟨N + N1 + N', g, pass, ?_, (r3 g rfl).1, ?_, d, hd, hy⟩
  swap
  · intro r hr
    obtain ⟨p, hm, rfl⟩ := q4 r hr
    obtain ⟨k, hk, rfl⟩ := List.getElem_of_mem hm
    obtain ⟨j, s, hs, ht⟩ := blk_sub p3 k (Nat.zero_le _) (by omega)
    obtain ⟨a, b⟩ := tab_top ht (List.getElem?_eq_getElem hk)
    refine ⟨s, hs, ?_, a, by rw [htgt]; exact b⟩
    cases ht
    trivial
  intro fuel hf
  rw [runPass, h1 fuel (by omega), Option.bind_some, p1, Option.bind_some, q1 fuel (by omega), Option.bind_some, r1 fuel (by omega)]

end Cdec.Dec.T2S
