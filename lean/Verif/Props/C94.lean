import Verif.Props.C93
import Mathlib.Tactic.ByContra
/-!
# C94: reading trees
-/
namespace Cdec.Dec.T2S
open Spec

theorem tab_unique {sp : Bool} {tf : Table} {n i : Nat} {t : Frag} (h : Tab sp tf n i t) : ∀ {j : Nat} {t' : Frag}, Tab sp tf n j t' → t = t' := by
  refine Tab.rec (motive_1 := fun n i t _ => ∀ {j : Nat} {t' : Frag}, Tab sp tf n j t' → t = t')
    (motive_2 := fun n i xs cs _ => ∀ {m j : Nat} {cs' : List Frag}, Kids sp tf m j xs cs' → cs = cs') ?_ ?_ ?_ ?_ ?_ h
  · intro n i p cs h1 h2 _ ih j t' h'
    cases h' with
    | mk g1 g2 g3 =>
      rw [h1] at g1
      cases g1
      rw [ih g3]
  · intro n i m j cs' h'
    cases h'
    rfl
  · intro n i w xs cs _ ih m j cs' h'
    cases h' with
    | term h' => rw [ih h']
  · intro n i w xs cs _ ih m j cs' h'
    cases h' with
    | site h' => rw [ih h']
  · intro n i m t xs cs _ _ _ ih1 ih2 m' j cs' h'
    cases h' with
    | node _ h1 h2 => rw [ih1 h1, ih2 h2]

theorem tab_plain {sp : Bool} {tf : Table} (hns : NoSites tf) {n i : Nat} {t : Frag} (h : Tab sp tf n i t) : t.Plain := by
  refine Tab.rec (motive_1 := fun n i t _ => t.Plain) (motive_2 := fun n i xs cs _ => (∀ c, RSym.site c ∉ xs) → ∀ t ∈ cs, t.Plain) ?_ ?_ ?_ ?_ ?_ h
  · intro n i p cs h1 _ _ ih
    exact .node (ih (hns p (List.mem_of_getElem? h1)))
  · simp
  · intro n i w xs cs _ ih hs t ht
    rcases List.mem_cons.1 ht with rfl | ht
    · exact .leaf
    · exact ih (fun c hc => hs c (by simp [hc])) t ht
  · intro n i w xs cs _ ih hs
    exact absurd List.mem_cons_self (hs w)
  · intro n i m t xs cs _ _ _ ih1 ih2 hs t' ht
    rcases List.mem_cons.1 ht with rfl | ht
    · exact ih1
    · exact ih2 (fun c hc => hs c (by simp [hc])) t' ht

/-- What is read if sites are not allowed is also read if they are, and has none. -/
theorem parse_strict (fuel : Nat) :
    (∀ cs nodes r, parseNode false fuel cs nodes = some r → NoSites nodes → parseNode true fuel cs nodes = some r ∧ NoSites r.2) ∧
    ∀ cs nodes rhs r, parseKids false fuel cs nodes rhs = some r → NoSites nodes → (∀ c, RSym.site c ∉ rhs) →
      parseKids true fuel cs nodes rhs = some r ∧ NoSites r.2.1 ∧ ∀ c, RSym.site c ∉ r.2.2 := by
  induction fuel with
  | zero =>
    constructor
    · intro cs nodes r h
      simp [parseNode] at h
    · intro cs nodes rhs r h
      simp [parseKids] at h
  | succ fuel ih =>
    obtain ⟨ih1, ih2⟩ := ih
    constructor
    · intro cs nodes r h hn
      unfold parseNode at h ⊢
      split at h
      · rename_i cs
        simp only at h ⊢
        cases hk : parseKids false fuel (skip ((skip cs).dropWhile plainChar)) nodes [] with
        | none => simp [hk] at h
        | some y =>
          obtain ⟨rest, nodes', rhs⟩ := y
          simp only [hk, Option.some.injEq] at h
          obtain ⟨a1, a2, a3⟩ := ih2 _ _ _ _ hk hn (by simp)
          subst h
          simp only [a1, true_and]
          intro p hp c
          rcases List.mem_append.1 hp with hp | hp
          · exact a2 p hp c
          · rw [List.mem_singleton] at hp
            subst hp
            exact a3 c
      · simp at h
    · intro cs nodes rhs r h hn hr
      unfold parseKids at h ⊢
      cases cs with
      | nil => simp at h
      | cons c cs =>
        simp only at h ⊢
        by_cases h1 : c = ')'
        · simp only [h1, if_true, Option.some.injEq] at h ⊢
          subst h
          exact ⟨rfl, hn, hr⟩
        · simp only [h1, if_false] at h ⊢
          by_cases h2 : c = '('
          · simp only [h2, if_true] at h ⊢
            cases hk : parseNode false fuel ('(' :: cs) nodes with
            | none => simp [hk] at h
            | some y =>
              obtain ⟨rest, nodes'⟩ := y
              simp only [hk] at h
              obtain ⟨a1, a2⟩ := ih1 _ _ _ hk hn
              simp only [a1]
              exact ih2 _ _ _ _ h a2 (by simpa using hr)
          · simp only [h2, if_false] at h ⊢
            by_cases h3 : isSite ((c :: cs).takeWhile plainChar) = true
            · simp [h3] at h
            · rw [if_neg h3] at h ⊢
              exact ih2 _ _ _ _ h hn (by simpa using hr)

theorem balanced_more {t : Frag} {x z : List Char} (h : Text t x) (hn : t.isNode) (hz : z ≠ []) : balanced 0 (x ++ z) = false := by
  have tok : ∀ (w : List Char) (bal : Int) (z : List Char), (∀ c ∈ w, c ≠ '(' ∧ c ≠ ')') → balanced bal (w ++ z) = balanced bal z := by
    intro w
    induction w with
    | nil => intros; rfl
    | cons c w ih =>
      intro bal z hw
      have := hw c (by simp)
      rw [List.cons_append, balanced, if_neg this.1, if_neg this.2]
      exact ih bal z fun c hc => hw c (by simp [hc])
  have sp : ∀ k : Nat, ∀ c ∈ spaces k, c ≠ '(' ∧ c ≠ ')' := by
    intro k c hc
    rw [List.eq_of_mem_replicate hc]
    decide
  have all : ∀ {cs : List Frag} {y : List Char}, TextAll cs y → ∀ z, balanced 1 (y ++ z) = balanced 1 z := by
    intro cs
    induction cs with
    | nil => intro y hy z; cases hy; rfl
    | cons t ts ih =>
      intro y hy z
      cases hy with
      | cons k _ h1 h2 => rw [List.append_assoc, List.append_assoc, tok _ _ _ (sp k), balanced_text h1 _ _ (by omega), ih h2]
  cases h with
  | leaf => exact hn.elim
  | site => exact hn.elim
  | @node c cs y a b hc hy =>
    have e : '(' :: spaces a ++ c.toList ++ y ++ spaces b ++ [')'] ++ z = '(' :: (spaces a ++ (c.toList ++ (y ++ (spaces b ++ (')' :: z))))) := by simp
    rw [e, balanced, if_pos rfl]
    show balanced 1 _ = false
    rw [tok _ _ _ (sp a), tok _ _ _ (fun c h => (hc.2 c h).2), all hy, tok _ _ _ (sp b), balanced]
    cases z with
    | nil => exact absurd rfl hz
    | cons => simp

/-- Every tree that is written down is read as that tree: the last node of the table is its top, each node comes after the
nodes below it, and in an input tree each node has the span of its leaves.  There are as many nodes as in the tree: every
entry of the table is a node of the tree. -/
theorem C94_read {afs : Bool} {t : Frag} {x : List Char} (h : Text t x) (ha : afs = true ∨ t.Plain) (hn : t.isNode) :
    ∃ tf, parse afs x = some tf ∧ 0 < tf.length ∧ Tab (!afs) tf (tf.length - 1) 0 t ∧ ∀ k < tf.length, ∃ i s, Sub s t ∧ Tab (!afs) tf k i s := by
  obtain ⟨tf, h1, h2, h3⟩ := parse_node h ha hn
  exact ⟨tf, h1, h2, h3.tab, fun k hk => blk_sub h3 k (Nat.zero_le _) (by omega)⟩

/-- A text is the text of at most one tree. -/
theorem C94_unambiguous {t t' : Frag} {x : List Char} (h : Text t x) (h' : Text t' x) (hn : t.isNode) (hn' : t'.isNode) : t = t' := by
  obtain ⟨tf, h1, _, h2⟩ := parse_node (afs := true) h (.inl rfl) hn
  obtain ⟨tf', h1', _, h2'⟩ := parse_node (afs := true) h' (.inl rfl) hn'
  rw [h1] at h1'
  cases h1'
  exact tab_unique h2.tab h2'.tab

/-- The iterator goes through the symbols of the tree in depth-first order and comes to an end. -/
theorem C94_iterate {afs : Bool} {t : Frag} {x : List Char} (h : Text t x) (ha : afs = true ∨ t.Plain) (hn : t.isNode) :
    ∃ tf, parse afs x = some tf ∧ ∀ fuel, t.lin.length < fuel → symbols tf fuel = some t.lin := by
  obtain ⟨tf, h1, _, h3⟩ := parse_node h ha hn
  exact ⟨tf, h1, fun fuel hf => symbols_blk h3 hf⟩

/-- An input tree with a site is refused. -/
theorem C94_sites_refused {t : Frag} {x : List Char} (h : Text t x) (hn : t.isNode) (hs : ¬ t.Plain) : parse false x = none := by
  by_contra hne
  obtain ⟨tf, htf⟩ := Option.ne_none_iff_exists'.1 hne
  unfold parse at htf
  split at htf
  · simp at htf
  rename_i hbal
  split at htf
  · simp at htf
  rename_i rest nodes hp
  obtain ⟨a1, a2⟩ := (parse_strict _).1 _ _ _ hp (by intro p hp; simp at hp)
  obtain ⟨tf', b1, _, b2⟩ := parse_node (afs := true) h (.inl rfl) hn
  unfold parse at b1
  rw [if_neg hbal, a1] at b1
  simp only [if_true, Option.some.injEq] at b1
  subst b1
  exact hs (tab_plain a2 b2.tab)

/-- So is a tree with anything behind it, be it only a space.  Missing: a tree that is not closed is not refused
(`C94_unclosed_fails`). -/
theorem C94_nothing_after_partial {afs : Bool} {t : Frag} {x z : List Char} (h : Text t x) (hn : t.isNode) (hz : z ≠ []) : parse afs (x ++ z) = none := by
  unfold parse
  rw [balanced_more h hn hz]
  rfl

/-- A tree that is not closed passes the check of the brackets and is then read past its end. -/
theorem C94_unclosed_fails : balanced 0 "(S (A a) b".toList = true ∧ ∀ fuel, parseNode false fuel "(S (A a) b".toList [] = none := by
  refine ⟨by decide +kernel, ?_⟩
  intro fuel
  have e : "(S (A a) b".toList = ['(', 'S', ' ', '(', 'A', ' ', 'a', ')', ' ', 'b'] := by decide
  rw [e]
  rcases fuel with _ | _ | _ | _ | _ | fuel <;> simp [parseNode, parseKids, skip, plainChar, isSite]

example : ¬ high.Plain ∧ Text high "(S [A] b)".toList ∧ [' '] ≠ ([] : List Char) := by
  refine ⟨?_, high_text, by simp⟩
  intro h
  cases h with
  | node h => cases h (.site "A") (by simp)

example : Text deep "(S (A a) b)".toList ∧ deep.Plain ∧ deep.isNode ∧ Text high "(S [A] b)".toList ∧ high.isNode ∧
    parse false "(S (A a) b)".toList = some [⟨"A", [.term "a"], (0, 1)⟩, ⟨"S", [.node 0, .term "b"], (0, 2)⟩] :=
  ⟨deep_text, deep_plain, trivial, high_text, trivial, by decide +kernel⟩

end Cdec.Dec.T2S
