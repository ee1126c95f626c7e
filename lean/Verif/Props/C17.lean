import Verif.Decoder.Grammar
/-!
# C17: the grammar trie answers exactly what was added
-/
namespace Cdec.Dec

namespace Spec

/-- The calls that add a rule to the trie, in order: level 0 and not unary. -/
def trieRules (val : Nat → Rule) (calls : List Call) : List Nat :=
  (calls.filter fun c => decide (c.level = 0) && !(val c.rule).isUnary).map Call.rule

/-- The calls that add a unary rule, in order. -/
def unaryRules (val : Nat → Rule) (calls : List Call) : List Nat :=
  (calls.filter fun c => decide (c.level = 0) && (val c.rule).isUnary).map Call.rule

/-- The rules added below a coarse rule, in order. -/
def fineRules (calls : List Call) (coarse : Nat) : List Nat :=
  (calls.filter fun c => decide (0 < c.level) && decide (c.coarse = coarse)).map Call.rule

end Spec
open Spec

theorem findKid_setKid (kids : List (Int × Node)) (s t : Int) (n : Node) :
    findKid (setKid kids s n) t = if s = t then some n else findKid kids t := by
  induction kids with
  | nil => simp [setKid, findKid]
  | cons p l ih =>
    obtain ⟨u, m⟩ := p
    by_cases hu : u = s
    · subst hu
      by_cases ht : u = t <;> simp [setKid, findKid, ht]
    · simp only [setKid, if_neg hu, findKid, ih]
      by_cases ht : u = t
      · subst ht
        simp [Ne.symm hu]
      · simp [ht]

theorem walk_empty (f : List Int) : Node.empty.walk f = if f = [] then some Node.empty else none := by
  cases f <;> rfl

/-- Rules of the bin at the end of a path; none if the path ends early. -/
def rulesAt (n : Node) (f : List Int) : Option (List Nat) := (n.walk f).bind Node.getRules

theorem rulesAt_empty (f : List Int) : rulesAt Node.empty f = none := by
  unfold rulesAt
  rw [walk_empty]
  split <;> rfl

theorem rulesAt_cons (kids : List (Int × Node)) (b : Option (List Nat)) (s : Int) (f : List Int) :
    rulesAt (.mk kids b) (s :: f) = rulesAt ((findKid kids s).getD .empty) f := by
  cases h : findKid kids s with
  | none =>
    simp only [Option.getD_none, rulesAt_empty]
    simp [rulesAt, Node.walk, Node.extend, h]
  | some m => simp [rulesAt, Node.walk, Node.extend, h]

theorem rulesAt_insert (f : List Int) (r : Nat) (n : Node) (g : List Int) :
    rulesAt (n.insert f r) g = if g = f then some ((rulesAt n f).getD [] ++ [r]) else rulesAt n g := by
  induction f generalizing n g with
  | nil =>
    obtain ⟨kids, bin⟩ := n
    cases g with
    | nil => simp [Node.insert, rulesAt, Node.walk, Node.getRules]
    | cons t g =>
      simp only [Node.insert]
      rw [rulesAt_cons, rulesAt_cons]
      simp
  | cons s f ih =>
    obtain ⟨kids, bin⟩ := n
    simp only [Node.insert]
    cases g with
    | nil => simp [rulesAt, Node.walk, Node.getRules]
    | cons t g =>
      rw [rulesAt_cons, rulesAt_cons, rulesAt_cons, findKid_setKid]
      by_cases hst : s = t
      · subst hst
        simp only [if_true, Option.getD_some, ih, List.cons.injEq, true_and]
      · have : ¬ (t :: g = s :: f) := by
          intro e
          exact hst (List.cons.inj e).1.symm
        rw [if_neg hst, if_neg this]

theorem isSome_walk_cons (kids : List (Int × Node)) (b : Option (List Nat)) (s : Int) (f : List Int) :
    ((Node.mk kids b).walk (s :: f)).isSome = (match findKid kids s with | none => false | some m => (m.walk f).isSome) := by
  simp only [Node.walk, Node.extend]
  cases findKid kids s <;> rfl

theorem isSome_walk_insert (f : List Int) (r : Nat) (n : Node) (g : List Int) :
    ((n.insert f r).walk g).isSome = true ↔ (n.walk g).isSome = true ∨ g <+: f := by
  induction f generalizing n g with
  | nil =>
    obtain ⟨kids, bin⟩ := n
    cases g with
    | nil => simp [Node.walk]
    | cons t g =>
      simp only [Node.insert]
      rw [isSome_walk_cons, isSome_walk_cons]
      simp
  | cons s f ih =>
    obtain ⟨kids, bin⟩ := n
    simp only [Node.insert]
    cases g with
    | nil => simp [Node.walk]
    | cons t g =>
      rw [isSome_walk_cons, isSome_walk_cons, findKid_setKid]
      by_cases hst : s = t
      · subst hst
        rw [if_pos rfl]
        simp only [ih, List.cons_prefix_cons, true_and]
        cases h : findKid kids s with
        | none =>
          simp only [Option.getD_none, walk_empty]
          by_cases hg : g = []
          · simp [hg]
          · simp [hg]
        | some m => simp
      · rw [if_neg hst]
        have : ¬ (t :: g <+: s :: f) := by
          intro e
          exact hst (List.cons_prefix_cons.1 e).1.symm
        simp [this]

theorem lookup_pushAt {α : Type} [DecidableEq α] (m : List (α × List Nat)) (k k' : α) (v : Nat) :
    lookup (pushAt m k v) k' = if k = k' then lookup m k' ++ [v] else lookup m k' := by
  induction m with
  | nil => simp [pushAt, lookup]
  | cons p m ih =>
    obtain ⟨t, l⟩ := p
    by_cases ht : t = k
    · subst ht
      by_cases hk : t = k' <;> simp [pushAt, lookup, hk]
    · simp only [pushAt, if_neg ht, lookup, ih]
      by_cases hk : t = k'
      · subst hk
        simp [Ne.symm ht]
      · simp [hk]

/-- The state after a history. -/
structure GInv (val : Nat → Rule) (calls : List Call) (g : Grammar) : Prop where
  bins : ∀ f, (rulesAt g.root f).getD [] = (trieRules val calls).filter (fun r => decide ((val r).f = f))
  null : ∀ f, rulesAt g.root f = none ↔ ∀ r ∈ trieRules val calls, (val r).f ≠ f
  nodes : ∀ f, (g.root.walk f).isSome = true ↔ f = [] ∨ ∃ r ∈ trieRules val calls, f <+: (val r).f
  all : g.unaries = unaryRules val calls
  rhs : ∀ c, lookup g.rhs2unaries c = (unaryRules val calls).filter (fun r => decide ((val r).f.headD 0 = c))
  fine : ∀ c, lookup g.fine c = fineRules calls c
  levels : g.ctfLevels = (calls.map Call.level).foldl max 0

theorem run_inv (val : Nat → Rule) (calls : List Call) : GInv val calls (Grammar.run val calls) := by
  unfold Grammar.run
  suffices h : ∀ (done : List Call) (g : Grammar), GInv val done g → ∀ todo,
      GInv val (done ++ todo) (todo.foldl (fun g c => g.addRule val c.rule c.level c.coarse) g) by
    refine h [] Grammar.new ⟨?_, ?_, ?_, rfl, fun _ => rfl, fun _ => rfl, rfl⟩ calls
    · intro f; simp [Grammar.new, rulesAt_empty, trieRules]
    · intro f; simp [Grammar.new, rulesAt_empty, trieRules]
    · intro f; simp [Grammar.new, walk_empty, trieRules]
  intro done g hg todo
  induction todo generalizing done g with
  | nil => simpa using hg
  | cons c todo ih =>
    rw [List.foldl_cons, show done ++ c :: todo = (done ++ [c]) ++ todo by simp]
    refine ih (done ++ [c]) _ ?_
    have hlev : ((done ++ [c]).map Call.level).foldl max 0 = max ((done.map Call.level).foldl max 0) c.level := by simp
    unfold Grammar.addRule
    by_cases hl : 0 < c.level
    · rw [if_pos hl]
      have hl' : ¬ c.level = 0 := by omega
      have e1 : trieRules val (done ++ [c]) = trieRules val done := by simp [trieRules, hl']
      have e2 : unaryRules val (done ++ [c]) = unaryRules val done := by simp [unaryRules, hl']
      refine ⟨?_, ?_, ?_, ?_, ?_, ?_, ?_⟩
      · rw [e1]; exact hg.bins
      · rw [e1]; exact hg.null
      · rw [e1]; exact hg.nodes
      · rw [e2]; exact hg.all
      · rw [e2]; exact hg.rhs
      · intro k
        simp only [lookup_pushAt, hg.fine]
        by_cases hk : c.coarse = k <;> simp [fineRules, hl, hk]
      · rw [hlev, ← hg.levels]
    · rw [if_neg hl]
      have hl' : c.level = 0 := by omega
      have e3 : ∀ k, fineRules (done ++ [c]) k = fineRules done k := by intro k; simp [fineRules, hl]
      have e4 : ((done ++ [c]).map Call.level).foldl max 0 = (done.map Call.level).foldl max 0 := by
        rw [hlev, hl']; simp
      by_cases hu : (val c.rule).isUnary = true
      · rw [if_pos hu]
        have e1 : trieRules val (done ++ [c]) = trieRules val done := by simp [trieRules, hu]
        have e2 : unaryRules val (done ++ [c]) = unaryRules val done ++ [c.rule] := by simp [unaryRules, hu, hl']
        refine ⟨?_, ?_, ?_, ?_, ?_, ?_, ?_⟩
        · rw [e1]; exact hg.bins
        · rw [e1]; exact hg.null
        · rw [e1]; exact hg.nodes
        · rw [e2]
          show g.unaries ++ [c.rule] = _
          rw [hg.all]
        · intro k
          show lookup (pushAt g.rhs2unaries _ _) k = _
          rw [lookup_pushAt, hg.rhs, e2]
          by_cases hk : (val c.rule).f.headD 0 = k
          · rw [if_pos hk, List.filter_append]
            simp only [List.filter_cons, List.filter_nil, decide_eq_true hk, if_true]
          · rw [if_neg hk, List.filter_append]
            simp only [List.filter_cons, List.filter_nil, decide_eq_false hk, Bool.false_eq_true, if_false, List.append_nil]
        · intro k; rw [e3]; exact hg.fine k
        · rw [e4]; exact hg.levels
      · rw [if_neg hu]
        have hu' : (val c.rule).isUnary = false := by simpa using hu
        have e1 : trieRules val (done ++ [c]) = trieRules val done ++ [c.rule] := by simp [trieRules, hu', hl']
        have e2 : unaryRules val (done ++ [c]) = unaryRules val done := by simp [unaryRules, hu']
        refine ⟨?_, ?_, ?_, ?_, ?_, ?_, ?_⟩
        · intro f
          simp only [rulesAt_insert]
          rw [e1, List.filter_append]
          by_cases hf : f = (val c.rule).f
          · subst hf
            rw [if_pos rfl, Option.getD_some, hg.bins]
            simp
          · rw [if_neg hf, hg.bins]
            simp [Ne.symm hf]
        · intro f
          simp only [rulesAt_insert]
          rw [e1]
          by_cases hf : f = (val c.rule).f
          · rw [if_pos hf]
            simp only [reduceCtorEq, List.mem_append, List.mem_singleton, ne_eq, false_iff]
            exact fun h => h c.rule (Or.inr rfl) hf.symm
          · rw [if_neg hf, hg.null]
            constructor
            · intro h r hr
              rcases List.mem_append.1 hr with hr | hr
              · exact h r hr
              · simp at hr
                subst hr
                exact Ne.symm hf
            · exact fun h r hr => h r (by simp [hr])
        · intro f
          simp only [isSome_walk_insert]
          rw [e1, hg.nodes]
          constructor
          · rintro ((h | ⟨r, hr, h⟩) | h)
            · exact Or.inl h
            · exact Or.inr ⟨r, by simp [hr], h⟩
            · exact Or.inr ⟨c.rule, by simp, h⟩
          · rintro (h | ⟨r, hr, h⟩)
            · exact Or.inl (Or.inl h)
            · rcases List.mem_append.1 hr with hr | hr
              · exact Or.inl (Or.inr ⟨r, hr, h⟩)
              · simp at hr
                subst hr
                exact Or.inr h
        · rw [e2]; exact hg.all
        · rw [e2]; exact hg.rhs
        · intro k; rw [e3]; exact hg.fine k
        · rw [e4]; exact hg.levels

/-- After any calls of `AddRule`, following `Extend` along `path` from the root stays inside the trie exactly when the
path begins the source side of a rule in it (or is empty). -/
theorem C17_extend (val : Nat → Rule) (calls : List Call) (path : List Int) :
    (∃ n, (Grammar.run val calls).root.walk path = some n) ↔
      path = [] ∨ ∃ r ∈ trieRules val calls, path <+: (val r).f := by
  rw [← (run_inv val calls).nodes path, Option.isSome_iff_exists]

/-- The node reached has a bin exactly when a rule with that source side was added, and the bin then holds exactly the
rules with that source side, in the order they were added. -/
theorem C17_bins (val : Nat → Rule) (calls : List Call) (path : List Int) (n : Node)
    (hn : (Grammar.run val calls).root.walk path = some n) :
    (n.getRules = none ↔ ∀ r ∈ trieRules val calls, (val r).f ≠ path) ∧
      ∀ bin, n.getRules = some bin → bin = (trieRules val calls).filter (fun r => decide ((val r).f = path)) ∧ bin ≠ [] := by
  have e : rulesAt (Grammar.run val calls).root path = n.getRules := by simp [rulesAt, hn]
  have h := run_inv val calls
  refine ⟨by rw [← e]; exact h.null path, fun bin hb => ?_⟩
  have hbin := h.bins path
  rw [e, hb, Option.getD_some] at hbin
  refine ⟨hbin, fun hnil => ?_⟩
  have : ¬ ∀ r ∈ trieRules val calls, (val r).f ≠ path := by
    rw [← h.null path, e, hb]
    simp
  apply this
  intro r hr hf
  have hm : r ∈ bin := by
    rw [hbin]
    exact List.mem_filter.2 ⟨hr, by simpa using hf⟩
  rw [hnil] at hm
  simp at hm

/-- The unary rules: all of them, and those with a given right-hand side, in the order they were added. -/
theorem C17_unaries (val : Nat → Rule) (calls : List Call) :
    (Grammar.run val calls).unaries = unaryRules val calls ∧
      ∀ cat, lookup (Grammar.run val calls).rhs2unaries cat = (unaryRules val calls).filter (fun r => decide ((val r).f = [cat])) := by
  have h := run_inv val calls
  refine ⟨h.all, fun cat => ?_⟩
  rw [h.rhs cat]
  apply List.filter_congr
  intro r hr
  have hu : (val r).f.length = 1 := by
    unfold unaryRules at hr
    obtain ⟨c, hc, rfl⟩ := List.mem_map.1 hr
    have := (List.mem_filter.1 hc).2
    simp [Rule.isUnary] at this
    exact this.2.2
  obtain ⟨x, hx⟩ : ∃ x, (val r).f = [x] := List.length_eq_one_iff.1 hu
  simp [hx]

/-- Coarse-to-fine: the fine rules of a coarse rule, in order, and the number of levels. -/
theorem C17_fine (val : Nat → Rule) (calls : List Call) :
    (∀ coarse, lookup (Grammar.run val calls).fine coarse = fineRules calls coarse) ∧
      (∀ c ∈ calls, c.level ≤ (Grammar.run val calls).ctfLevels) := by
  have h := run_inv val calls
  refine ⟨h.fine, fun c hc => ?_⟩
  rw [h.levels]
  have key : ∀ (l : List Nat) (a : Nat), a ≤ l.foldl max a ∧ ∀ x ∈ l, x ≤ l.foldl max a := by
    intro l
    induction l with
    | nil => simp
    | cons y l ih =>
      intro a
      have := ih (max a y)
      refine ⟨by simp only [List.foldl_cons]; omega, fun x hx => ?_⟩
      simp only [List.foldl_cons]
      rcases List.mem_cons.1 hx with rfl | hx
      · omega
      · exact this.2 x hx
  exact (key _ 0).2 _ (List.mem_map.2 ⟨c, hc, rfl⟩)

/-- A concrete grammar: two rules with the same source side, one that extends it, and a unary rule. -/
def exampleVal : Nat → Rule
  | 0 => ⟨-1, [5, -1], [7, 0], 1⟩
  | 1 => ⟨-1, [5, -1], [0, 8], 1⟩
  | 2 => ⟨-1, [5, -1, 6], [0], 1⟩
  | _ => ⟨-2, [-1], [0], 1⟩

/-- The calls of the example. -/
def exampleCalls : List Call := [⟨0, 0, 0⟩, ⟨3, 0, 0⟩, ⟨2, 0, 0⟩, ⟨1, 0, 0⟩]

example : ((Grammar.run exampleVal exampleCalls).root.walk [5, -1]).bind Node.getRules = some [0, 1] ∧
    ((Grammar.run exampleVal exampleCalls).root.walk [5]).isSome = true ∧
    ((Grammar.run exampleVal exampleCalls).root.walk [5]).bind Node.getRules = none ∧
    (Grammar.run exampleVal exampleCalls).unaries = [3] ∧ lookup (Grammar.run exampleVal exampleCalls).rhs2unaries (-1) = [3] := by
  decide +kernel

end Cdec.Dec
