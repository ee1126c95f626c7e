import Verif.Decoder.Tree2StringSpec
import Mathlib.Data.List.Forall2
import Mathlib.Data.List.Basic
/-! The depth-first iterator and what a path in the grammar says about a subtree. -/
namespace Cdec.Dec.T2S
open Spec

/-- What is still to be visited. -/
inductive Item where
  | lhs (c : String)
  | child (x : RSym)

/-- The children of a node. -/
def kidItems (tf : Table) (n : Nat) : List Item := (tf.at n).rhs.map .child

/-- What is to be visited after the current symbol. -/
def pend (tf : Table) : List TFI → List Item
  | [] => []
  | s :: q => ((tf.at s.node).rhs.drop s.pos).map .child ++ pend tf q

/-- The symbol of an item. -/
def Item.sym (tf : Table) : Item → Sym
  | .lhs c => .lhs c
  | .child (.term w) => .term w
  | .child (.site c) => .site c
  | .child (.node m) => .rhs (tf.at m).lhs

/-- What is left after the first item. -/
def after (tf : Table) (x : Item) (rest : List Item) : List Item :=
  match x with
  | .child (.node m) => .lhs (tf.at m).lhs :: (kidItems tf m ++ rest)
  | _ => rest

/-- All entries are past their left-hand side. -/
def Past (q : List TFI) : Prop := ∀ s ∈ q, s.state = 1

/-- The iterator is at the first of the items. -/
inductive Rel (tf : Table) : Iter → List Item → Prop
  | done {y : Sym} : Rel tf ⟨[], y⟩ []
  | plain {q : List TFI} {x : Item} : q ≠ [] → Past q → (∀ m, x ≠ .child (.node m)) → Rel tf ⟨q, x.sym tf⟩ (x :: pend tf q)
  | node {q : List TFI} {m : Nat} : q ≠ [] → Past q → Rel tf ⟨⟨m, 0, 0⟩ :: q, .rhs (tf.at m).lhs⟩ (.child (.node m) :: pend tf q)

theorem rel_climb (tf : Table) (y : Sym) : ∀ q : List TFI, Past q → Rel tf (stage tf ⟨climb tf q, y⟩) (pend tf q)
  | [], _ => .done
  | s :: q, h => by
    have hs : s.state = 1 := h s (by simp)
    have hq : Past q := fun s hs => h s (by simp [hs])
    rw [climb, pend]
    split
    · rename_i hlt
      have hd : (tf.at s.node).rhs.drop s.pos = (tf.at s.node).rhs[s.pos] :: (tf.at s.node).rhs.drop (s.pos + 1) := List.drop_eq_getElem_cons hlt
      have hp : Past (⟨s.node, s.pos + 1, s.state⟩ :: q) := by
        intro x hx
        rcases List.mem_cons.1 hx with rfl | hx
        · exact hs
        · exact hq x hx
      have e : pend tf (⟨s.node, s.pos + 1, s.state⟩ :: q) = ((tf.at s.node).rhs.drop (s.pos + 1)).map .child ++ pend tf q := rfl
      rw [hd, List.map_cons, List.cons_append, ← e]
      simp only [stage, hs, Nat.add_sub_cancel, List.getElem?_eq_getElem hlt]
      rw [hs] at hp
      cases hx : (tf.at s.node).rhs[s.pos] with
      | term w => exact Rel.plain (x := .child (.term w)) (by simp) hp (by simp)
      | site c => exact Rel.plain (x := .child (.site c)) (by simp) hp (by simp)
      | node m => exact Rel.node (by simp) hp
    · rename_i hlt
      rw [List.drop_eq_nil_of_le (by omega)]
      exact rel_climb tf y q hq

theorem rel_incr {tf : Table} {it : Iter} {x : Item} {rest : List Item} (h : Rel tf it (x :: rest)) : Rel tf (incr tf it) (after tf x rest) := by
  generalize hl : x :: rest = l at h
  cases h with
  | done => cases hl
  | @plain q y hq hp hx =>
    cases hl
    cases q with
    | nil => exact absurd rfl hq
    | cons s q =>
      have hs : s.state = 1 := hp s (by simp)
      have : after tf x (pend tf (s :: q)) = pend tf (s :: q) := by
        cases x with
        | lhs c => rfl
        | child r =>
          cases r with
          | node m => exact absurd rfl (hx m)
          | term w => rfl
          | site c => rfl
      rw [this]
      simp only [incr, hs]
      exact rel_climb tf _ (s :: q) hp
  | @node q m hq hp =>
    cases hl
    simp only [incr, stage, if_true, after]
    have e : kidItems tf m ++ pend tf q = pend tf (⟨m, 0, 1⟩ :: q) := by simp [pend, kidItems]
    rw [e]
    refine Rel.plain (x := .lhs _) (by simp) ?_ (by simp)
    intro x hx
    rcases List.mem_cons.1 hx with rfl | hx
    · rfl
    · exact hp x hx

theorem rel_truncate {tf : Table} {it : Iter} {m : Nat} {rest : List Item} (h : Rel tf it (.child (.node m) :: rest)) :
    Rel tf (incr tf it.truncate) rest ∧ it.child = m := by
  generalize hl : Item.child (.node m) :: rest = l at h
  cases h with
  | done => cases hl
  | plain hq hp hx => cases hl; exact absurd rfl (hx m)
  | @node q m' hq hp =>
    cases hl
    refine ⟨?_, rfl⟩
    cases q with
    | nil => exact absurd rfl hq
    | cons s q =>
      have hs : s.state = 1 := hp s (by simp)
      simp only [Iter.truncate, List.tail_cons, incr, hs]
      exact rel_climb tf _ (s :: q) hp

theorem rel_begin (tf : Table) (n : Nat) : Rel tf (.begin tf n) (.lhs (tf.at n).lhs :: kidItems tf n) := by
  have : kidItems tf n = pend tf [⟨n, 0, 1⟩] := by simp [kidItems, pend]
  rw [this]
  refine Rel.plain (x := .lhs _) (by simp) ?_ (by simp)
  intro s hs
  rw [List.mem_singleton.1 hs]

theorem rel_sym {tf : Table} {it : Iter} {x : Item} {rest : List Item} (h : Rel tf it (x :: rest)) : it.sym = x.sym tf ∧ it.q ≠ [] := by
  generalize hl : x :: rest = l at h
  cases h with
  | done => cases hl
  | plain hq hp hx => cases hl; exact ⟨rfl, hq⟩
  | node hq hp => cases hl; exact ⟨rfl, by simp⟩

theorem rel_nil {tf : Table} {it : Iter} {l : List Item} (h : Rel tf it l) : it.q = [] ↔ l = [] := by
  cases l with
  | nil =>
    cases h
    simp
  | cons x rest => simp [(rel_sym h).2]

/-! ### Paths -/

/-- One symbol of a path: what the loop does with a state. -/
def istep (tf : Table) (s : Iter × List Nat) (y : Sym) : Option (Iter × List Nat) :=
  if s.1.q = [] then none else
    match s.1.sym with
    | .rhs c => if y = .rhs c then some (incr tf s.1, s.2) else if y = .site c then some (incr tf s.1.truncate, s.2 ++ [s.1.child]) else none
    | .site _ => none
    | x => if y = x then some (incr tf s.1, s.2) else none

/-- The same for items. -/
def step (tf : Table) (s : List Item × List Nat) (y : Sym) : Option (List Item × List Nat) :=
  match s.1 with
  | [] => none
  | .child (.node m) :: rest =>
    if y = .rhs (tf.at m).lhs then some (.lhs (tf.at m).lhs :: (kidItems tf m ++ rest), s.2)
    else if y = .site (tf.at m).lhs then some (rest, s.2 ++ [m]) else none
  | .child (.site _) :: _ => none
  | x :: rest => if y = x.sym tf then some (rest, s.2) else none

/-- Two states of the two kinds that belong together. -/
def Both (tf : Table) : Option (Iter × List Nat) → Option (List Item × List Nat) → Prop
  | some a, some b => Rel tf a.1 b.1 ∧ a.2 = b.2
  | none, none => True
  | _, _ => False

theorem both_step {tf : Table} {it : Iter} {l : List Item} (fs : List Nat) (h : Rel tf it l) (y : Sym) : Both tf (istep tf (it, fs) y) (step tf (l, fs) y) := by
  cases l with
  | nil =>
    rw [istep, if_pos ((rel_nil h).2 rfl)]
    trivial
  | cons x rest =>
    obtain ⟨h1, h2⟩ := rel_sym h
    rw [istep, if_neg h2]
    have hi := rel_incr h
    simp only [h1]
    cases x with
    | lhs c =>
      have e : step tf (.lhs c :: rest, fs) y = if y = .lhs c then some (rest, fs) else none := rfl
      rw [e]
      simp only [Item.sym]
      by_cases hy : y = .lhs c
      · simp only [hy, if_true]; exact ⟨hi, rfl⟩
      · simp only [hy, if_false]; trivial
    | child r =>
      cases r with
      | term w =>
        have e : step tf (.child (.term w) :: rest, fs) y = if y = .term w then some (rest, fs) else none := rfl
        rw [e]
        simp only [Item.sym]
        by_cases hy : y = .term w
        · simp only [hy, if_true]; exact ⟨hi, rfl⟩
        · simp only [hy, if_false]; trivial
      | site c => simp only [Item.sym, step, Both]
      | node m =>
        obtain ⟨t1, t2⟩ := rel_truncate h
        simp only [Item.sym, step]
        by_cases hy : y = .rhs (tf.at m).lhs
        · rw [if_pos hy, if_pos hy]; exact ⟨hi, rfl⟩
        · rw [if_neg hy, if_neg hy]
          by_cases hz : y = .site (tf.at m).lhs
          · rw [if_pos hz, if_pos hz]; exact ⟨t1, by simp [t2]⟩
          · rw [if_neg hz, if_neg hz]; trivial

theorem both_fold {tf : Table} (p : List Sym) : ∀ {it : Iter} {l : List Item} (fs : List Nat), Rel tf it l → Both tf (p.foldlM (istep tf) (it, fs)) (p.foldlM (step tf) (l, fs)) := by
  induction p with
  | nil => intro it l fs h; exact ⟨h, rfl⟩
  | cons y p ih =>
    intro it l fs h
    rw [List.foldlM_cons, List.foldlM_cons]
    have := both_step fs h y
    cases h1 : istep tf (it, fs) y with
    | none =>
      rw [h1] at this
      cases h2 : step tf (l, fs) y with
      | none => trivial
      | some b => rw [h2] at this; exact this.elim
    | some a =>
      rw [h1] at this
      cases h2 : step tf (l, fs) y with
      | none => rw [h2] at this; exact this.elim
      | some b =>
        rw [h2] at this
        obtain ⟨it', fs'⟩ := a
        obtain ⟨l', fs''⟩ := b
        obtain ⟨t1, t2⟩ := this
        simp only at t1 t2
        subst t2
        exact ih fs' t1

/-! ### Paths and fragments -/

theorem step_future (tf : Table) (l : List Item) (fs : List Nat) (y : Sym) : step tf (l, fs) y = (step tf (l, []) y).map fun r => (r.1, fs ++ r.2) := by
  cases l with
  | nil => rfl
  | cons x rest =>
    cases x with
    | lhs c => simp only [step]; split <;> simp
    | child r =>
      cases r with
      | term w => simp only [step]; split <;> simp
      | site c => rfl
      | node m =>
        simp only [step]
        split
        · simp
        · split <;> simp

/-- How a path takes items to the end, and the nodes at sites. -/
inductive Cuts (tf : Table) : List Item → List Sym → List Nat → Prop
  | nil : Cuts tf [] [] []
  | lhs {c : String} {rest : List Item} {p : List Sym} {ns : List Nat} : Cuts tf rest p ns → Cuts tf (.lhs c :: rest) (.lhs c :: p) ns
  | term {w : String} {rest : List Item} {p : List Sym} {ns : List Nat} : Cuts tf rest p ns → Cuts tf (.child (.term w) :: rest) (.term w :: p) ns
  | site {m : Nat} {rest : List Item} {p : List Sym} {ns : List Nat} : Cuts tf rest p ns → Cuts tf (.child (.node m) :: rest) (.site (tf.at m).lhs :: p) (m :: ns)
  | node {m : Nat} {rest : List Item} {p : List Sym} {ns : List Nat} : Cuts tf (.lhs (tf.at m).lhs :: (kidItems tf m ++ rest)) p ns →
      Cuts tf (.child (.node m) :: rest) (.rhs (tf.at m).lhs :: p) ns

theorem cuts_fold {tf : Table} (p : List Sym) : ∀ (l : List Item) (fs ns : List Nat), p.foldlM (step tf) (l, fs) = some ([], fs ++ ns) ↔ Cuts tf l p ns := by
  induction p with
  | nil =>
    intro l fs ns
    rw [List.foldlM_nil]
    constructor
    · intro h
      simp only [pure, Option.some.injEq, Prod.mk.injEq] at h
      obtain ⟨rfl, h⟩ := h
      have : ns = [] := by simpa using h
      subst this
      exact .nil
    · intro h
      cases h
      simp
  | cons y p ih =>
    intro l fs ns
    rw [List.foldlM_cons]
    cases l with
    | nil =>
      constructor
      · intro h; simp [step] at h
      · intro h; cases h
    | cons x rest =>
      cases x with
      | lhs c =>
        have e : step tf (.lhs c :: rest, fs) y = if y = .lhs c then some (rest, fs) else none := rfl
        rw [e]
        split
        · rename_i hy
          subst hy
          exact (ih rest fs ns).trans ⟨.lhs, fun h => by cases h with | lhs h => exact h⟩
        · rename_i hy
          constructor
          · intro h; simp at h
          · intro h; cases h; exact absurd rfl hy
      | child r =>
        cases r with
        | term w =>
          have e : step tf (.child (.term w) :: rest, fs) y = if y = .term w then some (rest, fs) else none := rfl
          rw [e]
          split
          · rename_i hy
            subst hy
            exact (ih rest fs ns).trans ⟨.term, fun h => by cases h with | term h => exact h⟩
          · rename_i hy
            constructor
            · intro h; simp at h
            · intro h; cases h; exact absurd rfl hy
        | site c =>
          constructor
          · intro h; simp [step] at h
          · intro h; cases h
        | node m =>
          have e : step tf (.child (.node m) :: rest, fs) y = if y = .rhs (tf.at m).lhs then some (.lhs (tf.at m).lhs :: (kidItems tf m ++ rest), fs)
            else if y = .site (tf.at m).lhs then some (rest, fs ++ [m]) else none := rfl
          rw [e]
          split
          · rename_i hy
            subst hy
            exact (ih _ fs ns).trans ⟨.node, fun h => by cases h with | node h => exact h⟩
          · rename_i hn
            split
            · rename_i hy
              subst hy
              constructor
              · intro h
                have h : List.foldlM (step tf) (rest, fs ++ [m]) p = some ([], fs ++ ns) := h
                have key : ∀ (p : List Sym) (l : List Item) (fs fs' : List Nat) (l' : List Item), p.foldlM (step tf) (l, fs) = some (l', fs') → ∃ e, fs' = fs ++ e := by
                  intro p
                  induction p with
                  | nil => intro l fs fs' l' h; simp only [List.foldlM_nil, pure, Option.some.injEq, Prod.mk.injEq] at h; exact ⟨[], by simp [h.2]⟩
                  | cons y p ih =>
                    intro l fs fs' l' h
                    rw [List.foldlM_cons, step_future] at h
                    cases hs : step tf (l, []) y with
                    | none => rw [hs] at h; simp at h
                    | some b =>
                      rw [hs] at h
                      obtain ⟨e, he⟩ := ih b.1 (fs ++ b.2) fs' l' h
                      exact ⟨b.2 ++ e, by rw [he, List.append_assoc]⟩
                obtain ⟨e, he⟩ := key _ _ _ _ _ h
                have : ns = m :: e := by simpa using he
                subst this
                refine .site ((ih rest (fs ++ [m]) e).1 ?_)
                simpa using h
              · intro h
                cases h with
                | site h =>
                  have := (ih rest (fs ++ [m]) _).2 h
                  simpa using this
            · rename_i hn2
              constructor
              · intro h; simp at h
              · intro h
                cases h with
                | site h => exact absurd rfl hn2
                | node h => exact absurd rfl hn

theorem Tab.lt {sp : Bool} {tf : Table} {n i : Nat} {t : Frag} (h : Tab sp tf n i t) : n < tf.length := by
  cases h with
  | mk h1 h2 h3 => exact (List.getElem?_eq_some_iff.1 h1).1

theorem at_eq {tf : Table} {n : Nat} {p : Prd} (h : tf[n]? = some p) : tf.at n = p := by
  unfold Table.at
  rw [List.getD_eq_getElem?_getD, h]
  rfl

/-- A table entry, opened. -/
theorem Tab.elim {sp : Bool} {tf : Table} {n i : Nat} {t : Frag} (h : Tab sp tf n i t) :
    ∃ cs, t = .node (tf.at n).lhs cs ∧ (sp = true → (tf.at n).span = (i, i + widths cs)) ∧ Kids sp tf n i (tf.at n).rhs cs := by
  cases h with
  | @mk _ _ p cs h1 h2 h3 =>
    rw [at_eq h1]
    exact ⟨cs, rfl, h2, h3⟩

theorem syms_node (c : String) (cs : List Frag) : (Frag.node c cs).syms = .rhs c :: .lhs c :: cs.flatMap Frag.syms := by
  rw [Frag.syms]

theorem syms_leaf (w : String) : (Frag.leaf w).syms = [.term w] := by rw [Frag.syms]

theorem syms_site (c : String) : (Frag.site c).syms = [.site c] := by rw [Frag.syms]

theorem width_node (c : String) (cs : List Frag) : (Frag.node c cs).width = widths cs := by
  rw [Frag.width]; rfl

/-- Sites and their nodes. -/
abbrev SiteNodes (sp : Bool) (tf : Table) (ns : List Nat) (ss : List (Nat × Frag)) : Prop := List.Forall₂ (fun m s => Tab sp tf m s.1 s.2) ns ss

/-- A fragment that matches gives a path. -/
theorem cut_cuts {sp : Bool} {tf : Table} {i : Nat} {f t : Frag} {ss : List (Nat × Frag)} (h : Cut i f t ss) :
    ∀ (n : Nat) (x : RSym) (rest : List Item) (p : List Sym) (ns : List Nat), Kids sp tf n i [x] [t] → Cuts tf rest p ns →
      ∃ ns', SiteNodes sp tf ns' ss ∧ (∀ m ∈ ns', m < n) ∧ Cuts tf (.child x :: rest) (f.syms ++ p) (ns' ++ ns) := by
  refine Cut.rec (motive_1 := fun i f t ss _ => ∀ (n : Nat) (x : RSym) (rest : List Item) (p : List Sym) (ns : List Nat), Kids sp tf n i [x] [t] → Cuts tf rest p ns →
      ∃ ns', SiteNodes sp tf ns' ss ∧ (∀ m ∈ ns', m < n) ∧ Cuts tf (.child x :: rest) (f.syms ++ p) (ns' ++ ns))
    (motive_2 := fun i fs ts ss _ => ∀ (n : Nat) (xs : List RSym) (rest : List Item) (p : List Sym) (ns : List Nat), Kids sp tf n i xs ts → Cuts tf rest p ns →
      ∃ ns', SiteNodes sp tf ns' ss ∧ (∀ m ∈ ns', m < n) ∧ Cuts tf (xs.map .child ++ rest) (fs.flatMap Frag.syms ++ p) (ns' ++ ns)) ?_ ?_ ?_ ?_ ?_ h
  · intro i w n x rest p ns hk hc
    cases hk with
    | term => exact ⟨[], .nil, by simp, by rw [syms_leaf]; exact .term hc⟩
    | node hm ht =>
      obtain ⟨_, e, _⟩ := Tab.elim ht
      cases e
  · intro i c ts n x rest p ns hk hc
    cases hk with
    | @node _ _ m _ _ _ hm ht _ =>
      obtain ⟨cs, e, _, _⟩ := Tab.elim ht
      refine ⟨[m], .cons ht .nil, by simpa using hm, ?_⟩
      cases e
      rw [syms_site]
      exact .site hc
  · intro i c fs ts ss _ ih n x rest p ns hk hc
    cases hk with
    | @node _ _ m _ _ _ hm ht _ =>
      obtain ⟨cs, e, _, hk⟩ := Tab.elim ht
      cases e
      obtain ⟨ns', h1, h2, h3⟩ := ih m _ rest p ns hk hc
      refine ⟨ns', h1, fun k hk => Nat.lt_trans (h2 k hk) hm, ?_⟩
      rw [syms_node]
      exact .node (.lhs h3)
  · intro i n xs rest p ns hk hc
    cases hk
    exact ⟨[], .nil, by simp, by simpa using hc⟩
  · intro i f t fs ts ss ss' _ _ ih1 ih2 n xs rest p ns hk hc
    have : ∃ x xs', xs = x :: xs' ∧ Kids sp tf n i [x] [t] ∧ Kids sp tf n (i + t.width) xs' ts := by
      cases hk with
      | term h => exact ⟨_, _, rfl, .term .nil, by rw [Frag.width]; exact h⟩
      | site h => exact ⟨_, _, rfl, .site .nil, by rw [Frag.width]; exact h⟩
      | node h1 h2 h3 => exact ⟨_, _, rfl, .node h1 h2 .nil, h3⟩
    obtain ⟨x, xs', rfl, k1, k2⟩ := this
    obtain ⟨ns2, a1, a2, a3⟩ := ih2 n xs' rest p ns k2 hc
    obtain ⟨ns1, b1, b2, b3⟩ := ih1 n x _ _ _ k1 a3
    refine ⟨ns1 ++ ns2, List.rel_append b1 a1, ?_, ?_⟩
    · intro m hm
      rcases List.mem_append.1 hm with hm | hm
      · exact b2 m hm
      · exact a2 m hm
    · rw [List.flatMap_cons, List.append_assoc, List.append_assoc]
      exact b3

/-- A path that takes a subtree to its end is that of a fragment that matches. -/
theorem cuts_cut {sp : Bool} {tf : Table} (t : Frag) : ∀ (i n : Nat) (x : RSym) (rest : List Item) (p : List Sym) (ns : List Nat), Kids sp tf n i [x] [t] →
    Cuts tf (.child x :: rest) p ns → ∃ f ss p' ns1 ns2, Cut i f t ss ∧ SiteNodes sp tf ns1 ss ∧ (∀ m ∈ ns1, m < n) ∧ p = f.syms ++ p' ∧ ns = ns1 ++ ns2 ∧ Cuts tf rest p' ns2 := by
  refine Frag.rec (motive_1 := fun t => ∀ (i n : Nat) (x : RSym) (rest : List Item) (p : List Sym) (ns : List Nat), Kids sp tf n i [x] [t] →
    Cuts tf (.child x :: rest) p ns → ∃ f ss p' ns1 ns2, Cut i f t ss ∧ SiteNodes sp tf ns1 ss ∧ (∀ m ∈ ns1, m < n) ∧ p = f.syms ++ p' ∧ ns = ns1 ++ ns2 ∧ Cuts tf rest p' ns2)
    (motive_2 := fun ts => ∀ (i n : Nat) (xs : List RSym) (rest : List Item) (p : List Sym) (ns : List Nat), Kids sp tf n i xs ts →
    Cuts tf (xs.map .child ++ rest) p ns → ∃ fs ss p' ns1 ns2, CutAll i fs ts ss ∧ SiteNodes sp tf ns1 ss ∧ (∀ m ∈ ns1, m < n) ∧ p = fs.flatMap Frag.syms ++ p' ∧ ns = ns1 ++ ns2 ∧ Cuts tf rest p' ns2)
    ?_ ?_ ?_ ?_ ?_ t
  · intro w i n x rest p ns hk hc
    cases hk with
    | term =>
      cases hc with
      | term hc => exact ⟨.leaf w, [], _, [], _, .leaf, .nil, by simp, by rw [syms_leaf]; rfl, rfl, hc⟩
    | node hm ht =>
      obtain ⟨_, e, _⟩ := Tab.elim ht
      cases e
  · intro c i n x rest p ns hk hc
    cases hk with
    | site => cases hc
    | node hm ht =>
      obtain ⟨_, e, _⟩ := Tab.elim ht
      cases e
  · intro c ts ih i n x rest p ns hk hc
    cases hk with
    | @node _ _ m _ _ _ hm ht _ =>
      obtain ⟨cs, e, _, hk⟩ := Tab.elim ht
      injection e with e1 e2
      subst e1 e2
      cases hc with
      | @site _ _ p ns hc => exact ⟨.site (tf.at m).lhs, _, p, [m], ns, .site, .cons ht .nil, by simpa using hm, by rw [syms_site]; rfl, rfl, hc⟩
      | node hc =>
        cases hc with
        | lhs hc =>
          obtain ⟨fs, ss, p', ns1, ns2, a1, a2, a3, a4, a5, a6⟩ := ih i m _ rest _ _ hk hc
          exact ⟨.node (tf.at m).lhs fs, ss, p', ns1, ns2, .node a1, a2, fun k hk => Nat.lt_trans (a3 k hk) hm, by rw [syms_node, a4]; rfl, a5, a6⟩
  · intro i n xs rest p ns hk hc
    cases hk
    exact ⟨[], [], p, [], ns, .nil, .nil, by simp, rfl, rfl, hc⟩
  · intro t ts ih1 ih2 i n xs rest p ns hk hc
    have : ∃ x xs', xs = x :: xs' ∧ Kids sp tf n i [x] [t] ∧ Kids sp tf n (i + t.width) xs' ts := by
      cases hk with
      | term h => exact ⟨_, _, rfl, .term .nil, by rw [Frag.width]; exact h⟩
      | site h => exact ⟨_, _, rfl, .site .nil, by rw [Frag.width]; exact h⟩
      | node h1 h2 h3 => exact ⟨_, _, rfl, .node h1 h2 .nil, h3⟩
    obtain ⟨x, xs', rfl, k1, k2⟩ := this
    obtain ⟨f, ss, p', ns1, ns2, a1, a2, a3, rfl, rfl, a6⟩ := ih1 i n x _ p ns k1 hc
    obtain ⟨fs, ss', p'', ns3, ns4, b1, b2, b3, rfl, rfl, b6⟩ := ih2 _ n xs' rest p' ns2 k2 a6
    refine ⟨f :: fs, ss ++ ss', p'', ns1 ++ ns3, ns4, .cons a1 b1, List.rel_append a2 b2, ?_, ?_, ?_, b6⟩
    · intro m hm
      rcases List.mem_append.1 hm with hm | hm
      · exact a3 m hm
      · exact b3 m hm
    · rw [List.flatMap_cons, List.append_assoc]
    · rw [List.append_assoc]

/-- Following a path from the start of a subtree to its end. -/
def Ends (tf : Table) (n : Nat) (p : List Sym) (ns : List Nat) : Prop := ∃ it, p.foldlM (istep tf) (.begin tf n, []) = some (it, ns) ∧ it.q = []

theorem ends_cuts {tf : Table} {n : Nat} {p : List Sym} {ns : List Nat} : Ends tf n p ns ↔ Cuts tf (.lhs (tf.at n).lhs :: kidItems tf n) p ns := by
  have hb := both_fold p [] (rel_begin tf n)
  have hc := cuts_fold (tf := tf) p (.lhs (tf.at n).lhs :: kidItems tf n) [] ns
  rw [List.nil_append] at hc
  rw [← hc]
  constructor
  · rintro ⟨it, h, hq⟩
    rw [h] at hb
    cases h2 : p.foldlM (step tf) (.lhs (tf.at n).lhs :: kidItems tf n, []) with
    | none => rw [h2] at hb; exact hb.elim
    | some b =>
      rw [h2] at hb
      obtain ⟨l, fs⟩ := b
      obtain ⟨b1, b2⟩ := hb
      simp only at b1 b2
      subst b2
      rw [(rel_nil b1).1 hq]
  · intro h
    rw [h] at hb
    cases h2 : p.foldlM (istep tf) (.begin tf n, []) with
    | none => rw [h2] at hb; exact hb.elim
    | some b =>
      rw [h2] at hb
      obtain ⟨it, fs⟩ := b
      obtain ⟨b1, b2⟩ := hb
      simp only at b1 b2
      subst b2
      exact ⟨it, h2, (rel_nil b1).2 rfl⟩

theorem kids_cons {sp : Bool} {tf : Table} {n i : Nat} {xs : List RSym} {t : Frag} {ts : List Frag} (hk : Kids sp tf n i xs (t :: ts)) :
    ∃ x xs', xs = x :: xs' ∧ Kids sp tf n i [x] [t] ∧ Kids sp tf n (i + t.width) xs' ts := by
  cases hk with
  | term h => exact ⟨_, _, rfl, .term .nil, by rw [Frag.width]; exact h⟩
  | site h => exact ⟨_, _, rfl, .site .nil, by rw [Frag.width]; exact h⟩
  | node h1 h2 h3 => exact ⟨_, _, rfl, .node h1 h2 .nil, h3⟩

theorem cuts_cutAll {sp : Bool} {tf : Table} (n : Nat) : ∀ (ts : List Frag) (i : Nat) (xs : List RSym) (rest : List Item) (p : List Sym) (ns : List Nat), Kids sp tf n i xs ts →
    Cuts tf (xs.map .child ++ rest) p ns → ∃ fs ss p' ns1 ns2, CutAll i fs ts ss ∧ SiteNodes sp tf ns1 ss ∧ (∀ m ∈ ns1, m < n) ∧ p = fs.flatMap Frag.syms ++ p' ∧ ns = ns1 ++ ns2 ∧ Cuts tf rest p' ns2 := by
  intro ts
  induction ts with
  | nil =>
    intro i xs rest p ns hk hc
    cases hk
    exact ⟨[], [], p, [], ns, .nil, .nil, by simp, rfl, rfl, hc⟩
  | cons t ts ih =>
    intro i xs rest p ns hk hc
    obtain ⟨x, xs', rfl, k1, k2⟩ := kids_cons hk
    obtain ⟨f, ss, p', ns1, ns2, a1, a2, a3, rfl, rfl, a6⟩ := cuts_cut t i n x _ p ns k1 hc
    obtain ⟨fs, ss', p'', ns3, ns4, b1, b2, b3, rfl, rfl, b6⟩ := ih _ xs' rest p' ns2 k2 a6
    refine ⟨f :: fs, ss ++ ss', p'', ns1 ++ ns3, ns4, .cons a1 b1, List.rel_append a2 b2, ?_, ?_, ?_, b6⟩
    · intro m hm
      rcases List.mem_append.1 hm with hm | hm
      · exact a3 m hm
      · exact b3 m hm
    · rw [List.flatMap_cons, List.append_assoc]
    · rw [List.append_assoc]

theorem cutAll_cuts {sp : Bool} {tf : Table} (n : Nat) : ∀ (ts fs : List Frag) (i : Nat) (ss : List (Nat × Frag)) (xs : List RSym) (rest : List Item) (p : List Sym) (ns : List Nat),
    CutAll i fs ts ss → Kids sp tf n i xs ts → Cuts tf rest p ns →
      ∃ ns', SiteNodes sp tf ns' ss ∧ (∀ m ∈ ns', m < n) ∧ Cuts tf (xs.map .child ++ rest) (fs.flatMap Frag.syms ++ p) (ns' ++ ns) := by
  intro ts
  induction ts with
  | nil =>
    intro fs i ss xs rest p ns hc hk hr
    cases hc
    cases hk
    exact ⟨[], .nil, by simp, by simpa using hr⟩
  | cons t ts ih =>
    intro fs i ss xs rest p ns hc hk hr
    obtain ⟨x, xs', rfl, k1, k2⟩ := kids_cons hk
    cases hc with
    | cons c1 c2 =>
      obtain ⟨ns2, a1, a2, a3⟩ := ih _ _ _ xs' rest p ns c2 k2 hr
      obtain ⟨ns1, b1, b2, b3⟩ := cut_cuts c1 n x _ _ _ k1 a3
      refine ⟨ns1 ++ ns2, List.rel_append b1 a1, ?_, ?_⟩
      · intro m hm
        rcases List.mem_append.1 hm with hm | hm
        · exact b2 m hm
        · exact a2 m hm
      · rw [List.flatMap_cons, List.append_assoc, List.append_assoc]
        exact b3

theorem lin_node (c : String) (fs : List Frag) : (Frag.node c fs).lin = .lhs c :: fs.flatMap Frag.syms := by
  rw [Frag.lin, syms_node]; rfl

/-- Paths to the end of a subtree are those of the fragments that match it. -/
theorem ends_cut {sp : Bool} {tf : Table} {n i : Nat} {t : Frag} (ht : Tab sp tf n i t) {p : List Sym} {ns : List Nat} (h : Ends tf n p ns) :
    ∃ f ss, f.isNode ∧ Cut i f t ss ∧ SiteNodes sp tf ns ss ∧ (∀ m ∈ ns, m < n) ∧ p = f.lin := by
  obtain ⟨cs, rfl, _, hk⟩ := Tab.elim ht
  have h := ends_cuts.1 h
  cases h with
  | @lhs _ _ p' _ h =>
    have h' : Cuts tf ((tf.at n).rhs.map .child ++ []) p' ns := by rw [List.append_nil]; exact h
    obtain ⟨fs, ss, p', ns1, ns2, a1, a2, a3, rfl, rfl, a6⟩ := cuts_cutAll n cs i _ [] _ ns hk h'
    cases a6
    refine ⟨.node (tf.at n).lhs fs, ss, trivial, .node a1, by simpa using a2, by simpa using a3, ?_⟩
    rw [lin_node, List.append_nil]

theorem cut_ends {sp : Bool} {tf : Table} {n i : Nat} {t : Frag} (ht : Tab sp tf n i t) {f : Frag} {ss : List (Nat × Frag)} (hf : f.isNode) (h : Cut i f t ss) :
    ∃ ns, Ends tf n f.lin ns ∧ SiteNodes sp tf ns ss ∧ ∀ m ∈ ns, m < n := by
  obtain ⟨cs, rfl, _, hk⟩ := Tab.elim ht
  cases h with
  | site => exact hf.elim
  | @node _ _ fs _ _ h =>
    obtain ⟨ns, a1, a2, a3⟩ := cutAll_cuts n cs fs i ss _ [] [] [] h hk .nil
    refine ⟨ns, ends_cuts.2 ?_, a1, a2⟩
    rw [lin_node]
    simp only [List.append_nil] at a3
    exact .lhs a3

theorem Ends.unique {tf : Table} {n : Nat} {p : List Sym} {ns ns' : List Nat} (h : Ends tf n p ns) (h' : Ends tf n p ns') : ns = ns' := by
  obtain ⟨it, h, _⟩ := h
  obtain ⟨it', h', _⟩ := h'
  rw [h] at h'
  simp only [Option.some.injEq, Prod.mk.injEq] at h'
  exact h'.2

end Cdec.Dec.T2S
