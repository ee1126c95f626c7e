import Verif.Decoder.ParserText
import Verif.Decoder.ParserMain
import Verif.Props.C17
/-! Parses of sentences and context-free derivations. -/
namespace Cdec.Dec.Parser
open Cdec.HG Spec
variable {φ : Type} [Add φ] [Zero φ]

theorem mem_added {val : Nat → Rule} {calls : List Call} {r : Nat} : r ∈ added calls ↔ r ∈ Dec.Spec.trieRules val calls ∨ r ∈ Dec.Spec.unaryRules val calls := by
  unfold added Dec.Spec.trieRules Dec.Spec.unaryRules
  simp only [List.mem_map, List.mem_filter, Bool.and_eq_true, decide_eq_true_eq, Bool.not_eq_true']
  constructor
  · rintro ⟨c, ⟨h1, h2⟩, rfl⟩
    cases h : (val c.rule).isUnary
    · exact .inl ⟨c, ⟨h1, h2, h⟩, rfl⟩
    · exact .inr ⟨c, ⟨h1, h2, h⟩, rfl⟩
  · rintro (⟨c, ⟨h1, h2, _⟩, rfl⟩ | ⟨c, ⟨h1, h2, _⟩, rfl⟩) <;> exact ⟨c, ⟨h1, h2⟩, rfl⟩

theorem trie_not_unary {val : Nat → Rule} {calls : List Call} {r : Nat} (h : r ∈ Dec.Spec.trieRules val calls) : (val r).isUnary = false := by
  unfold Dec.Spec.trieRules at h
  simp only [List.mem_map, List.mem_filter, Bool.and_eq_true, decide_eq_true_eq, Bool.not_eq_true'] at h
  obtain ⟨c, ⟨_, _, h⟩, rfl⟩ := h
  exact h

theorem unary_unary {val : Nat → Rule} {calls : List Call} {r : Nat} (h : r ∈ Dec.Spec.unaryRules val calls) : (val r).isUnary = true := by
  unfold Dec.Spec.unaryRules at h
  simp only [List.mem_map, List.mem_filter, Bool.and_eq_true, decide_eq_true_eq] at h
  obtain ⟨c, ⟨_, _, h⟩, rfl⟩ := h
  exact h

theorem walk_text (val : Nat → Rule) (limit : Nat) (calls : List Call) : ∀ (α : List Int) (n : Node), walk (textGram val limit calls) n α = n.walk α := by
  intro α
  induction α with
  | nil => intro n; rfl
  | cons a α ih =>
    intro n
    simp only [walk, Node.walk, textGram]
    cases n.extend a with
    | none => rfl
    | some m => exact ih m

theorem rules_text {val : Nat → Rule} {limit : Nat} {calls : List Call} {α : List Int} {g : Node} (h : walk (textGram val limit calls) (textGram val limit calls).root α = some g) {r : Nat} :
    r ∈ (textGram val limit calls).rules g ↔ r ∈ Dec.Spec.trieRules val calls ∧ (val r).f = α := by
  rw [walk_text] at h
  have e : rulesAt (Grammar.run val calls).root α = g.getRules := by
    unfold rulesAt
    have : (Grammar.run val calls).root.walk α = some g := h
    rw [this]
    rfl
  have := (run_inv val calls).bins α
  rw [e] at this
  simp only [textGram]
  rw [this, List.mem_filter]
  simp

theorem walk_trie {val : Nat → Rule} {limit : Nat} {calls : List Call} {r : Nat} (h : r ∈ Dec.Spec.trieRules val calls) :
    ∃ g, walk (textGram val limit calls) (textGram val limit calls).root (val r).f = some g := by
  rw [walk_text]
  exact (C17_extend val calls (val r).f).2 (.inr ⟨r, h, List.prefix_refl _⟩)

/-! ## Slices of the sentence -/

def slice (ws : List Int) (i j : Nat) : List Int := (ws.drop i).take (j - i)

theorem slice_self (ws : List Int) (i : Nat) : slice ws i i = [] := by simp [slice]

theorem slice_append (ws : List Int) {i k j : Nat} (h1 : i ≤ k) (h2 : k ≤ j) : slice ws i k ++ slice ws k j = slice ws i j := by
  unfold slice
  have e : j - i = (k - i) + (j - k) := by omega
  rw [e, List.take_add, List.drop_drop]
  congr 3
  omega

theorem slice_one {ws : List Int} {k : Nat} {w : Int} (h : ws[k]? = some w) : slice ws k (k + 1) = [w] := by
  unfold slice
  have : k + 1 - k = 1 := by omega
  rw [this]
  obtain ⟨hk, e⟩ := List.getElem?_eq_some_iff.1 h
  rw [List.drop_eq_getElem_cons hk, e]
  rfl

theorem slice_length (ws : List Int) {i j : Nat} (h1 : i ≤ j) (h2 : j ≤ ws.length) : (slice ws i j).length = j - i := by
  unfold slice
  rw [List.length_take, List.length_drop]
  omega

theorem slice_split {ws a b : List Int} {i j : Nat} (h1 : i ≤ j) (h2 : j ≤ ws.length) (h : slice ws i j = a ++ b) :
    slice ws i (i + a.length) = a ∧ slice ws (i + a.length) j = b ∧ i + a.length ≤ j := by
  have hl := slice_length ws h1 h2
  rw [h, List.length_append] at hl
  have hs := slice_append ws (i := i) (k := i + a.length) (j := j) (by omega) (by omega)
  rw [h] at hs
  have := List.append_inj hs (by rw [slice_length ws (by omega) (by omega)]; omega)
  exact ⟨this.1, this.2, by omega⟩

theorem sentence_arc {ws : List Int} {k idx : Nat} {a : Arc φ} (h : ((sentence (φ := φ) ws).getD k [])[idx]? = some a) : ∃ w, ws[k]? = some w ∧ a = ⟨w, 0, 1⟩ ∧ idx = 0 := by
  unfold sentence at h
  rw [List.getD_eq_getElem?_getD, List.getElem?_map] at h
  cases hk : ws[k]? with
  | none => rw [hk] at h; simp at h
  | some w =>
    rw [hk] at h
    simp only [Option.map_some, Option.getD_some] at h
    cases idx with
    | zero =>
      simp at h
      exact ⟨w, rfl, h.symm, rfl⟩
    | succ n => simp at h

variable {val : Nat → Rule} {rfeats : Nat → φ} {gs : List (Nat × List Call)} {ws : List Int} {eps goalCat kGoal : Int} {goalRule : Nat}

omit [Add φ] in
theorem text_n : (textEnv val rfeats gs ws eps goalCat kGoal goalRule).n = ws.length := by simp [textEnv, Env.n, sentence]

theorem expands_append {val : Nat → Rule} {hs : List (Nat × List Nat)} {α β : List Int} : ∀ {a b : List Int}, Expands val hs α a → Expands val hs β b → Expands val hs (α ++ β) (a ++ b) := by
  induction α with
  | nil => intro a b h1 h2; cases h1; exact h2
  | cons c α ih =>
    intro a b h1 h2
    cases h1 with
    | word h h' => exact .word h (ih h' h2)
    | cat h h' h'' =>
      rw [List.append_assoc]
      exact .cat h h' (ih h'' h2)

/-- The grammars as the specification sees them. -/
abbrev plain (gs : List (Nat × List Call)) : List (Nat × List Nat) := gs.map fun g => (g.1, added g.2)

theorem match_expands (hw : ∀ w ∈ ws, 0 < w ∧ w ≠ eps) {G : Gram Node Nat} {i j : Nat} {sh sp α x} {hs : List (Nat × List Nat)}
    (h : Match (textEnv val rfeats gs ws eps goalCat kGoal goalRule) G i j sh sp α x) :
    (∀ s ∈ sp, s.1 < 0 ∧ Derives val hs s.1 (slice ws s.2.1 s.2.2)) → Expands val hs α (slice ws i j) := by
  induction h with
  | nil => intro _; rw [slice_self]; exact .nil
  | @eps k idx a sh sp α x h1 h2 h3 h4 ih =>
    obtain ⟨w, hk, rfl, _⟩ := sentence_arc h2
    exact absurd h4 (hw w (List.mem_of_getElem? hk)).2
  | @word k idx a sh sp α x h1 h2 h3 h4 ih =>
    intro hp
    obtain ⟨w, hk, rfl, _⟩ := sentence_arc h2
    rw [← slice_append ws (match_le h1) (Nat.le_add_right _ _), slice_one hk]
    exact expands_append (ih hp) (.word (hw w (List.mem_of_getElem? hk)).1 .nil)
  | @part k m c sh sp α x h1 h2 h3 h4 ih =>
    intro hp
    have h5 := hp (c, k, m) (by simp)
    rw [← slice_append ws (match_le h1) (Nat.le_of_lt h2)]
    refine expands_append (ih fun s hs => hp s (by simp [hs])) ?_
    rw [← List.append_nil (slice ws k m)]
    exact .cat h5.1 h5.2 .nil

omit [Add φ] in
theorem mem_text_grams {G : Gram Node Nat} : G ∈ (textEnv val rfeats gs ws eps goalCat kGoal goalRule).grams ↔ ∃ g ∈ gs, textGram val g.1 g.2 = G := by
  simp [textEnv]

omit [Add φ] in
theorem mem_text_unaries {r : Nat} : r ∈ (textEnv val rfeats gs ws eps goalCat kGoal goalRule).unaries ↔ ∃ g ∈ gs, r ∈ Dec.Spec.unaryRules val g.2 := by
  simp only [textEnv, List.mem_flatMap]
  constructor
  · rintro ⟨g, h1, h2⟩; exact ⟨g, h1, (C17_unaries val g.2).1 ▸ h2⟩
  · rintro ⟨g, h1, h2⟩; exact ⟨g, h1, (C17_unaries val g.2).1.symm ▸ h2⟩

theorem unary_f {r : Rule} (h : r.isUnary = true) : r.f = [r.f.headD 0] := by
  unfold Rule.isUnary at h
  simp only [Bool.and_eq_true, decide_eq_true_eq] at h
  obtain ⟨x, hx⟩ := List.length_eq_one_iff.1 h.2
  rw [hx]
  rfl

theorem parse_derives (hl : ∀ r, (val r).lhs < 0) (hw : ∀ w ∈ ws, 0 < w ∧ w ≠ eps) {u : List Nat}
    (hu : ∀ r ∈ u, r ∈ (textEnv val rfeats gs ws eps goalCat kGoal goalRule).unaries) (t : LTree (Val Nat φ)) :
    ∀ c i j, Parse (textEnv val rfeats gs ws eps goalCat kGoal goalRule) u c i j t → c < 0 ∧ Derives val (plain gs) c (slice ws i j) := by
  induction t using LTree.rec (motive_2 := fun ts => ∀ sp : List (Int × Nat × Nat), List.Forall₂ (fun (s : Int × Nat × Nat) t => Parse (textEnv val rfeats gs ws eps goalCat kGoal goalRule) u s.1 s.2.1 s.2.2 t) sp ts →
      ∀ s ∈ sp, s.1 < 0 ∧ Derives val (plain gs) s.1 (slice ws s.2.1 s.2.2)) with
  | node b ts ih =>
    intro c i j h
    cases h with
    | @rule G i j sh sp α x g r ch hG hij hj hh hm hwalk hr hf =>
      obtain ⟨gr, hgr, rfl⟩ := mem_text_grams.1 hG
      refine ⟨hl r, ?_⟩
      obtain ⟨h1, rfl⟩ := (rules_text hwalk).1 hr
      have hex := match_expands hw hm (ih _ hf)
      refine .rule (limit := gr.1) (rs := added gr.2) (List.mem_map.2 ⟨gr, hgr, rfl⟩) ((mem_added (val := val)).2 (.inl h1)) hex (fun _ => ?_)
      rw [text_n] at hj
      rw [slice_length ws (by omega) hj]
      simpa [textGram] using hh
    | @unary i j r t hr ht =>
      refine ⟨hl r, ?_⟩
      obtain ⟨gr, hgr, h1⟩ := mem_text_unaries.1 (hu r hr)
      have h2 := ih [((val r).f.headD 0, i, j)] (.cons ht .nil) ((val r).f.headD 0, i, j) (by simp)
      refine .rule (limit := gr.1) (rs := added gr.2) (List.mem_map.2 ⟨gr, hgr, rfl⟩) ((mem_added (val := val)).2 (.inr h1)) ?_ (fun h => ?_)
      · rw [unary_f (unary_unary h1), ← List.append_nil (slice ws i j)]
        exact .cat h2.1 h2.2 .nil
      · rw [unary_unary h1] at h
        simp at h
  | nil =>
    rename_i sp h s hs
    cases h
    simp at hs
  | cons t ts ih1 ih2 =>
    rename_i sp h s hs
    cases h with
    | cons a b =>
      rcases List.mem_cons.1 hs with rfl | hs
      · exact ih1 _ _ _ a
      · exact ih2 _ b s hs

theorem derives_parse (hf : ∀ g ∈ gs, ∀ r ∈ added g.2, (val r).f ≠ []) (hv : ∀ g ∈ gs, ∀ r ∈ added g.2, (val r).isUnary = true → (val r).f.headD 0 < 0)
    (hw : ∀ w ∈ ws, 0 < w ∧ w ≠ eps) {u : List Nat}
    (hu : ∀ r ∈ (textEnv val rfeats gs ws eps goalCat kGoal goalRule).unaries, r ∈ u) {c : Int} {ws0 : List Int} (h : Derives val (plain gs) c ws0) :
    ws0 ≠ [] ∧ ∀ i j, i ≤ j → j ≤ ws.length → slice ws i j = ws0 → ∃ t, Parse (textEnv val rfeats gs ws eps goalCat kGoal goalRule) u c i j t := by
  refine @Derives.rec val (plain gs)
    (fun c ws0 _ => ws0 ≠ [] ∧ ∀ i j, i ≤ j → j ≤ ws.length → slice ws i j = ws0 → ∃ t, Parse (textEnv val rfeats gs ws eps goalCat kGoal goalRule) u c i j t)
    (fun α ws0 _ => (α = [] → ws0 = []) ∧ (α ≠ [] → ws0 ≠ []) ∧
      (∀ c, α = [c] → c < 0 → ∀ i j, i ≤ j → j ≤ ws.length → slice ws i j = ws0 → ∃ t, Parse (textEnv val rfeats gs ws eps goalCat kGoal goalRule) u c i j t) ∧
      ∀ (G : Gram Node Nat) (i k j : Nat) sh sp α0 x ch, k ≤ j → j ≤ ws.length → slice ws k j = ws0 → (∀ m, m ≤ j → G.has i m = true) →
        Match (textEnv val rfeats gs ws eps goalCat kGoal goalRule) G i k sh sp α0 x →
        List.Forall₂ (fun s t => Parse (textEnv val rfeats gs ws eps goalCat kGoal goalRule) u s.1 s.2.1 s.2.2 t) sp ch →
        ∃ sh' sp' x' ch', Match (textEnv val rfeats gs ws eps goalCat kGoal goalRule) G i j sh' sp' (α0 ++ α) x' ∧
          List.Forall₂ (fun s t => Parse (textEnv val rfeats gs ws eps goalCat kGoal goalRule) u s.1 s.2.1 s.2.2 t) sp' ch') ?_ ?_ ?_ ?_ c ws0 h
  · intro limit r rs ws0 h1 h2 h3 h4 ⟨_, ih1, ih2, ih3⟩
    obtain ⟨g, hg, he⟩ := List.mem_map.1 h1
    rw [Prod.mk.injEq] at he
    obtain ⟨rfl, rfl⟩ := he
    have hne := ih1 (hf g hg r h2)
    refine ⟨hne, fun i j hij hj hs => ?_⟩
    have hlt : i < j := by
      rcases Nat.lt_or_ge i j with h | h
      · exact h
      · exfalso
        have : i = j := by omega
        subst this
        rw [slice_self] at hs
        exact hne hs.symm
    rcases (mem_added (val := val)).1 h2 with ht | ht
    · have hlim := h4 (trie_not_unary ht)
      rw [← hs, slice_length ws hij hj] at hlim
      have hhas : ∀ m, m ≤ j → (textGram val g.1 g.2).has i m = true := by
        intro m hm
        simp only [textGram, decide_eq_true_eq]
        omega
      obtain ⟨sh, sp, x, ch, m1, m2⟩ := ih3 (textGram val g.1 g.2) i i j [] [] [] 0 [] hij hj hs hhas (.nil (by rw [text_n]; omega) (hhas i hij)) .nil
      obtain ⟨n, hn⟩ := walk_trie (limit := g.1) ht
      exact ⟨_, .rule (mem_text_grams.2 ⟨g, hg, rfl⟩) hlt (by rw [text_n]; exact hj) (hhas j (Nat.le_refl _)) m1 hn ((rules_text hn).2 ⟨ht, rfl⟩) m2⟩
    · have hun := unary_unary ht
      obtain ⟨t, ht'⟩ := ih2 _ (unary_f hun) (hv g hg r h2 hun) i j hij hj hs
      exact ⟨_, .unary (hu r (mem_text_unaries.2 ⟨g, hg, ht⟩)) ht'⟩
  · refine ⟨fun _ => rfl, fun h => absurd rfl h, fun c hc => by simp at hc, ?_⟩
    intro G i k j sh sp α0 x ch hk hj hs hhas hm hfa
    have : k = j := by
      have := slice_length ws hk hj
      rw [hs] at this
      simp at this
      omega
    subst this
    exact ⟨sh, sp, x, ch, by rw [List.append_nil]; exact hm, hfa⟩
  · intro w α ws0 hw0 _ ⟨_, _, _, ih⟩
    refine ⟨fun h => by simp at h, fun _ => by simp, ?_, ?_⟩
    · intro c hc hneg
      rw [List.cons.injEq] at hc
      omega
    · intro G i k j sh sp α0 x ch hk hj hs hhas hm hfa
      obtain ⟨s1, s2, s3⟩ := slice_split (a := [w]) hk hj hs
      simp only [List.length_singleton] at s1 s2 s3
      have hkw : ws[k]? = some w := by
        have hlt : k < ws.length := by omega
        have := slice_one (List.getElem?_eq_getElem hlt)
        rw [this] at s1
        rw [List.getElem?_eq_getElem hlt, List.head_eq_of_cons_eq s1]
      have harc : ((textEnv val rfeats gs ws eps goalCat kGoal goalRule).lat.getD k [])[0]? = some ⟨w, 0, 1⟩ := by
        simp only [textEnv, sentence]
        rw [List.getD_eq_getElem?_getD, List.getElem?_map, hkw]
        rfl
      have hm' := Match.word hm harc (hhas (k + 1) s3) (hw w (List.mem_of_getElem? hkw)).2
      obtain ⟨sh', sp', x', ch', r1, r2⟩ := ih G i (k + 1) j _ _ _ _ ch s3 hj s2 hhas hm' hfa
      refine ⟨sh', sp', x', ch', ?_, r2⟩
      rw [List.append_assoc] at r1
      exact r1
  · intro c α ws0 ws1 hc _ _ ⟨ihn, ih1⟩ ⟨ia, ib, _, ih2⟩
    refine ⟨fun h => by simp at h, fun _ => by simp [ihn], ?_, ?_⟩
    · intro c' hc' hneg i j hij hj hs
      rw [List.cons.injEq] at hc'
      obtain ⟨rfl, rfl⟩ := hc'
      rw [ia rfl, List.append_nil] at hs
      exact ih1 i j hij hj hs
    · intro G i k j sh sp α0 x ch hk hj hs hhas hm hfa
      obtain ⟨s1, s2, s3⟩ := slice_split (a := ws0) hk hj hs
      obtain ⟨t, ht⟩ := ih1 k (k + ws0.length) (by omega) (by omega) s1
      have hpos : 0 < ws0.length := List.length_pos_iff.2 ihn
      have hm' := Match.part (c := c) hm (show k < k + ws0.length by omega) (by rw [text_n]; omega) (hhas _ s3)
      obtain ⟨sh', sp', x', ch', r1, r2⟩ := ih2 G i (k + ws0.length) j _ _ _ _ (ch ++ [t]) s3 hj s2 hhas hm' (List.rel_append hfa (.cons ht .nil))
      refine ⟨sh', sp', x', ch', ?_, r2⟩
      rw [List.append_assoc] at r1
      exact r1

theorem Spec.TextOk.head (h : TextOk val gs ws eps goalCat kGoal goalRule) : ∀ g ∈ gs, ∀ r ∈ added g.2, (val r).isUnary = true → (val r).f.headD 0 < 0 := by
  intro g hg r hr hun
  have h1 := h.arity g hg r hr
  have h2 := unary_f hun
  unfold Rule.isUnary at hun
  simp only [Bool.and_eq_true, decide_eq_true_eq] at hun
  rw [hun.1, h2] at h1
  by_contra hc
  rw [List.filter_cons_of_neg (by simpa using hc)] at h1
  simp at h1

theorem Spec.TextOk.ok (h : TextOk val gs ws eps goalCat kGoal goalRule) : Ok (textEnv val rfeats gs ws eps goalCat kGoal goalRule) where
  arcs := by
    intro k a ha
    obtain ⟨idx, hidx⟩ := List.mem_iff_getElem?.1 ha
    obtain ⟨w, hk, rfl, _⟩ := sentence_arc hidx
    have := (List.getElem?_eq_some_iff.1 hk).1
    rw [text_n]
    exact ⟨Nat.one_pos, this⟩
  goal := h.goal
  goal_ne := h.goal_ne
  rules_ne := by
    intro G hG α g hw r hr
    obtain ⟨gr, hgr, rfl⟩ := mem_text_grams.1 hG
    exact h.rules_ne gr hgr r ((mem_added (val := val)).2 (.inl ((rules_text hw).1 hr).1))
  unaries_ne := by
    intro r hr
    obtain ⟨g, hg, h1⟩ := mem_text_unaries.1 hr
    exact h.rules_ne g hg r ((mem_added (val := val)).2 (.inr h1))
  single := by
    rintro G hG c g ⟨r0, hc⟩ he
    obtain ⟨gr, hgr, rfl⟩ := mem_text_grams.1 hG
    have hw : walk (textGram val gr.1 gr.2) (textGram val gr.1 gr.2).root [c] = some g := by
      simp only [walk, he, Option.bind_some]
    apply List.eq_nil_iff_forall_not_mem.2
    intro r hr
    obtain ⟨h1, h2⟩ := (rules_text hw).1 hr
    have h3 := h.arity gr hgr r ((mem_added (val := val)).2 (.inl h1))
    have hneg : c < 0 := by rw [hc]; exact h.lhs r0
    rw [h2, List.filter_cons_of_pos (by simpa using hneg)] at h3
    have h4 := trie_not_unary h1
    simp [Rule.isUnary, h2, h3] at h4

theorem trie_sublist (val : Nat → Rule) (calls : List Call) : List.Sublist (Dec.Spec.trieRules val calls) (added calls) := by
  unfold Dec.Spec.trieRules added
  refine List.Sublist.map _ ?_
  exact List.monotone_filter_right _ fun c h => (Bool.and_eq_true_iff.1 h).1

theorem unary_sublist (val : Nat → Rule) (calls : List Call) : List.Sublist (Dec.Spec.unaryRules val calls) (added calls) := by
  unfold Dec.Spec.unaryRules added
  refine List.Sublist.map _ ?_
  exact List.monotone_filter_right _ fun c h => (Bool.and_eq_true_iff.1 h).1

theorem flatMap_sublist {α β : Type} {f g : α → List β} (h : ∀ a, List.Sublist (f a) (g a)) (l : List α) : List.Sublist (l.flatMap f) (l.flatMap g) := by
  induction l with
  | nil => exact List.Sublist.slnil
  | cons a l ih => exact (h a).append ih

theorem flatMap_nodup_inj {α β : Type} {f : α → List β} {l : List α} (h : (l.flatMap f).Nodup) {a b : Nat} {x y : α} (hx : l[a]? = some x) (hy : l[b]? = some y) {r : β} (h1 : r ∈ f x)
    (h2 : r ∈ f y) : a = b := by
  induction l generalizing a b with
  | nil => simp at hx
  | cons z l ih =>
    rw [List.flatMap_cons, List.nodup_append] at h
    cases a with
    | zero =>
      cases b with
      | zero => rfl
      | succ b =>
        simp at hx hy
        subst hx
        exact absurd rfl (h.2.2 r h1 r (List.mem_flatMap.2 ⟨y, List.mem_of_getElem? hy, h2⟩))
    | succ a =>
      cases b with
      | zero =>
        simp at hx hy
        subst hy
        exact absurd rfl (h.2.2 r h2 r (List.mem_flatMap.2 ⟨x, List.mem_of_getElem? hx, h1⟩))
      | succ b =>
        simp at hx hy
        rw [ih h.2.1 hx hy]

omit [Add φ] in
/-- Rules that are added once are there once. -/
theorem text_distinct (h : (gs.flatMap fun g => added g.2).Nodup) : Distinct (textEnv val rfeats gs ws eps goalCat kGoal goalRule) where
  bin := by
    intro G hG α g hw
    obtain ⟨gr, hgr, rfl⟩ := mem_text_grams.1 hG
    rw [walk_text] at hw
    have e : rulesAt (Grammar.run val gr.2).root α = g.getRules := by
      unfold rulesAt
      have : (Grammar.run val gr.2).root.walk α = some g := hw
      rw [this]
      rfl
    have := (run_inv val gr.2).bins α
    rw [e] at this
    simp only [textGram]
    rw [this]
    refine (List.Nodup.sublist (trie_sublist val gr.2) ?_).filter _
    exact (List.nodup_flatMap.1 h).1 gr hgr
  grams := by
    intro a b G H hG hH α β g k r hg hk h1 h2
    simp only [textEnv, List.getElem?_map, Option.map_eq_some_iff] at hG hH
    obtain ⟨x, hx, rfl⟩ := hG
    obtain ⟨y, hy, rfl⟩ := hH
    exact flatMap_nodup_inj h hx hy ((trie_sublist val x.2).subset ((rules_text hg).1 h1).1) ((trie_sublist val y.2).subset ((rules_text hk).1 h2).1)
  unaries := by
    simp only [textEnv]
    refine List.Nodup.sublist (flatMap_sublist (fun g => ?_) gs) h
    rw [(C17_unaries val g.2).1]
    exact unary_sublist val g.2

end Cdec.Dec.Parser
