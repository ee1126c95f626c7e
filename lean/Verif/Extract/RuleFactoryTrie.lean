import Verif.Extract.RuleFactoryGen
/-!
# Lemmas for the rule factory: the trie
-/
namespace Cdec.Extract
open Spec

@[simp] theorem size_addChild (t : Trie) (i : Nat) (k : Int) (c : Option Nat) : (t.addChild i k c).size = t.size := rfl
@[simp] theorem link_addChild (t : Trie) (i : Nat) (k : Int) (c : Option Nat) (j : Nat) :
    ((t.addChild i k c).node j).suffixLink = (t.node j).suffixLink := by
  simp only [Trie.addChild]; split
  · rename_i h; rw [h]
  · rfl
@[simp] theorem loc_addChild (t : Trie) (i : Nat) (k : Int) (c : Option Nat) (j : Nat) :
    ((t.addChild i k c).node j).loc = (t.node j).loc := by
  simp only [Trie.addChild]; split
  · rename_i h; rw [h]
  · rfl
theorem children_addChild (t : Trie) (i : Nat) (k : Int) (c : Option Nat) (j : Nat) (k' : Int) :
    ((t.addChild i k c).node j).children k' = if j = i ∧ k' = k then some c else (t.node j).children k' := by
  simp only [Trie.addChild]
  by_cases h : j = i
  · subst h; simp
  · simp [h]

theorem node_alloc_old (t : Trie) (l : Option Nat) (p : PhraseLocation) {j : Nat} (h : j < t.size) :
    (t.alloc l p).2.node j = t.node j := by
  simp only [Trie.alloc]; rw [if_neg (by omega)]
theorem node_alloc_new (t : Trie) (l : Option Nat) (p : PhraseLocation) :
    (t.alloc l p).2.node t.size = ⟨l, p, fun _ => none⟩ := by
  simp [Trie.alloc]
@[simp] theorem size_alloc (t : Trie) (l : Option Nat) (p : PhraseLocation) : (t.alloc l p).2.size = t.size + 1 := rfl
@[simp] theorem fst_alloc (t : Trie) (l : Option Nat) (p : PhraseLocation) : (t.alloc l p).1 = t.size := rfl

/-- The location found by looking up the words one by one. -/
def rangeOf (F : Factory) (s : List Int) : PhraseLocation :=
  .ofRange (findPhrase F.I.d.data F.I.sa (s.map (F.I.d.word2id ∘ F.I.terminal))).1
    (findPhrase F.I.d.data F.I.sa (s.map (F.I.d.word2id ∘ F.I.terminal))).2

/-- The nodes of the trie stand for the patterns `pat`. -/
structure TInv (lines : List (List String)) (F : Factory) (t : Trie) (pat : Nat → List Int) : Prop where
  size : 2 ≤ t.size
  pat0 : pat 0 = []
  pat1 : pat 1 = [-1]
  inj : ∀ i < t.size, ∀ j < t.size, pat i = pat j → i = j
  child : ∀ i < t.size, ∀ k c, (t.node i).children k = some (some c) → c < t.size ∧ pat c = pat i ++ [k]
  parent : ∀ c < t.size, c ≠ 0 → ∃ i < t.size, ∃ k, (t.node i).children k = some (some c)
  root : (t.node 0).suffixLink = none
  link : ∀ i < t.size, i ≠ 0 → ∃ j < t.size, (t.node i).suffixLink = some j ∧ pat j = suf (pat i)
  loc : ∀ i < t.size, cores (pat i) ≠ [] → NodeLoc lines F.I (pat i) (t.node i).loc
  occ : ∀ i < t.size, cores (pat i) ≠ [] → Occ lines F.I (pat i)
  range : ∀ i < t.size, ar (pat i) = 0 → (t.node i).loc = rangeOf F (pat i)
  null : ∀ i < t.size, ∀ k, (t.node i).children k = some none → ¬ Occ lines F.I (pat i ++ [k])
  var0 : (t.node 0).children (-1) = some (some 1)

/-- Every node among `P` that ends with a word has the child for a trailing nonterminal if that is allowed. -/
def Trail (F : Factory) (t : Trie) (pat : Nat → List Int) (P : Nat → Prop) : Prop :=
  ∀ i < t.size, P i → ∀ φ w, pat i = φ ++ [w] → 0 ≤ w → ar φ < F.maxNt →
    ∃ c, (t.node i).children (-((ar φ + 1 : Nat) : Int)) = some (some c)

/-- The second trie extends the first. -/
structure TExt (t : Trie) (pat : Nat → List Int) (t' : Trie) (pat' : Nat → List Int) : Prop where
  size : t.size ≤ t'.size
  pat : ∀ i < t.size, pat' i = pat i
  child : ∀ i < t.size, ∀ k c, (t.node i).children k = some (some c) → (t'.node i).children k = some (some c)

theorem TExt.refl (t : Trie) (pat : Nat → List Int) : TExt t pat t pat := ⟨Nat.le_refl _, fun _ _ => rfl, fun _ _ _ _ h => h⟩

theorem TExt.trans {t t' t'' : Trie} {p p' p'' : Nat → List Int} (h : TExt t p t' p') (h' : TExt t' p' t'' p'') :
    TExt t p t'' p'' := by
  refine ⟨Nat.le_trans h.size h'.size, ?_, ?_⟩
  · intro i hi; rw [h'.pat i (Nat.lt_of_lt_of_le hi h.size), h.pat i hi]
  · intro i hi k c hc; exact h'.child i (Nat.lt_of_lt_of_le hi h.size) k c (h.child i hi k c hc)

variable {lines : List (List String)} {F : Factory} {words : List Int} {t : Trie} {pat : Nat → List Int}

theorem ext_addNull {i : Nat} {k : Int} (hk : ∀ c, (t.node i).children k ≠ some (some c)) :
    TExt t pat (t.addChild i k none) pat := by
  refine ⟨Nat.le_refl _, fun _ _ => rfl, ?_⟩
  intro j _ k' c hc
  rw [children_addChild]
  split
  · rename_i h; rw [h.1, h.2] at hc; exact absurd hc (hk c)
  · exact hc

theorem TInv.addNull (h : TInv lines F t pat) {i : Nat} {k : Int} (hi : i < t.size)
    (hk : ∀ c, (t.node i).children k ≠ some (some c)) (hocc : ¬ Occ lines F.I (pat i ++ [k])) :
    TInv lines F (t.addChild i k none) pat := by
  have hx := ext_addNull (pat := pat) hk
  refine ⟨h.size, h.pat0, h.pat1, h.inj, ?_, ?_, ?_, ?_, ?_, h.occ, ?_, ?_, ?_⟩
  · intro j hj k' c hc
    rw [children_addChild] at hc
    split at hc
    · cases hc
    · exact h.child j hj k' c hc
  · intro c hc h0
    obtain ⟨j, hj, k', e⟩ := h.parent c hc h0
    exact ⟨j, hj, k', hx.child j hj k' c e⟩
  · rw [link_addChild]; exact h.root
  · intro j hj h0; rw [link_addChild]; exact h.link j hj h0
  · intro j hj hc; rw [loc_addChild]; exact h.loc j hj hc
  · intro j hj hc; rw [loc_addChild]; exact h.range j hj hc
  · intro j hj k' hc
    rw [children_addChild] at hc
    split at hc
    · rename_i e; rw [e.1, e.2]; exact hocc
    · exact h.null j hj k' hc
  · exact hx.child 0 (by have := h.size; omega) _ _ h.var0

theorem Trail.ext {t' : Trie} {P P' : Nat → Prop} (h : Trail F t pat P) (hx : TExt t pat t' pat) (hs : t'.size = t.size)
    (hP : ∀ i, P' i → P i) : Trail F t' pat P' := by
  intro i hi hp φ w e hw ha
  obtain ⟨c, hc⟩ := h i (hs ▸ hi) (hP i hp) φ w e hw ha
  exact ⟨c, hx.child i (hs ▸ hi) _ _ hc⟩

/-- A new child. -/
def addNode (t : Trie) (id : Nat) (k : Int) (j : Nat) (l : PhraseLocation) : Trie :=
  (t.alloc (some j) l).2.addChild id k (some t.size)

theorem children_addNode {id : Nat} {k : Int} {j : Nat} {l : PhraseLocation} {i : Nat} (hi : i < t.size) (k' : Int) :
    ((addNode t id k j l).node i).children k' = if i = id ∧ k' = k then some (some t.size) else (t.node i).children k' := by
  rw [addNode, children_addChild, node_alloc_old _ _ _ hi]

theorem children_addNode_new {id : Nat} {k : Int} {j : Nat} {l : PhraseLocation} (hid : id < t.size) (k' : Int) :
    ((addNode t id k j l).node t.size).children k' = none := by
  rw [addNode, children_addChild, if_neg (by omega), node_alloc_new]

theorem loc_addNode {id : Nat} {k : Int} {j : Nat} {l : PhraseLocation} {i : Nat} (hi : i < t.size) :
    ((addNode t id k j l).node i).loc = (t.node i).loc := by
  rw [addNode, loc_addChild, node_alloc_old _ _ _ hi]

theorem loc_addNode_new {id : Nat} {k : Int} {j : Nat} {l : PhraseLocation} :
    ((addNode t id k j l).node t.size).loc = l := by
  rw [addNode, loc_addChild, node_alloc_new]

theorem link_addNode {id : Nat} {k : Int} {j : Nat} {l : PhraseLocation} {i : Nat} (hi : i < t.size) :
    ((addNode t id k j l).node i).suffixLink = (t.node i).suffixLink := by
  rw [addNode, link_addChild, node_alloc_old _ _ _ hi]

theorem link_addNode_new {id : Nat} {k : Int} {j : Nat} {l : PhraseLocation} :
    ((addNode t id k j l).node t.size).suffixLink = some j := by
  rw [addNode, link_addChild, node_alloc_new]

@[simp] theorem size_addNode {id : Nat} {k : Int} {j : Nat} {l : PhraseLocation} :
    (addNode t id k j l).size = t.size + 1 := rfl

theorem ext_addNode {id : Nat} {k : Int} {j : Nat} {l : PhraseLocation} {s : List Int}
    (hk : ∀ c, (t.node id).children k ≠ some (some c)) :
    TExt t pat (addNode t id k j l) (upd pat t.size s) := by
  refine ⟨by simp, ?_, ?_⟩
  · intro i hi; rw [upd, if_neg (by omega)]
  · intro i hi k' c hc
    rw [children_addNode hi]
    split
    · rename_i h; rw [h.1, h.2] at hc; exact absurd hc (hk c)
    · exact hc

/-- A pattern whose child is absent is new. -/
theorem TInv.fresh (h : TInv lines F t pat) {id : Nat} {k : Int} (hid : id < t.size)
    (hk : ∀ c, (t.node id).children k ≠ some (some c)) : ∀ i < t.size, pat i ≠ pat id ++ [k] := by
  intro i hi e
  have h0 : i ≠ 0 := by intro h'; subst h'; rw [h.pat0] at e; simp at e
  obtain ⟨p, hp, k', hc⟩ := h.parent i hi h0
  obtain ⟨_, e'⟩ := h.child p hp k' i hc
  rw [e'] at e
  have e2 := List.append_inj' e rfl
  have : p = id := h.inj p hp id hid e2.1
  subst this
  have : k' = k := by simpa using e2.2
  subst this
  exact hk i hc

theorem TInv.addNode (h : TInv lines F t pat) {id : Nat} {k : Int} {j : Nat} {l : PhraseLocation} (hid : id < t.size)
    (hk : ∀ c, (t.node id).children k ≠ some (some c)) (hj : j < t.size) (hpj : pat j = suf (pat id ++ [k]))
    (hloc : cores (pat id ++ [k]) ≠ [] → NodeLoc lines F.I (pat id ++ [k]) l ∧ Occ lines F.I (pat id ++ [k]))
    (hr : ar (pat id ++ [k]) = 0 → l = rangeOf F (pat id ++ [k])) :
    TInv lines F (Extract.addNode t id k j l) (upd pat t.size (pat id ++ [k])) := by
  have hfresh := h.fresh hid hk
  have hx := ext_addNode (pat := pat) (j := j) (l := l) (s := pat id ++ [k]) hk
  have hs := h.size
  have po : ∀ i < t.size, upd pat t.size (pat id ++ [k]) i = pat i := hx.pat
  have pn : upd pat t.size (pat id ++ [k]) t.size = pat id ++ [k] := by simp [upd]
  have cases' : ∀ i, i < (Extract.addNode t id k j l).size → i < t.size ∨ i = t.size := by
    intro i hi; rw [size_addNode] at hi; omega
  refine ⟨by rw [size_addNode]; omega, by rw [po 0 (by omega)]; exact h.pat0, by rw [po 1 (by omega)]; exact h.pat1,
    ?_, ?_, ?_, ?_, ?_, ?_, ?_, ?_, ?_, ?_⟩
  · intro a ha b hb e
    rcases cases' a ha with ha | ha <;> rcases cases' b hb with hb | hb
    · rw [po a ha, po b hb] at e; exact h.inj a ha b hb e
    · subst hb; rw [po a ha, pn] at e; exact absurd e (hfresh a ha)
    · subst ha; rw [po b hb, pn] at e; exact absurd e.symm (hfresh b hb)
    · omega
  · intro i hi k' c hc
    rcases cases' i hi with hi | hi
    · rw [children_addNode hi] at hc
      split at hc
      · rename_i e
        have : c = t.size := by simpa using hc.symm
        subst this
        rw [size_addNode, pn, po i hi, e.1, e.2]; exact ⟨by omega, rfl⟩
      · obtain ⟨h1, h2⟩ := h.child i hi k' c hc
        rw [size_addNode, po c h1, po i hi]; exact ⟨by omega, h2⟩
    · subst hi; rw [children_addNode_new hid] at hc; cases hc
  · intro c hc h0
    rcases cases' c hc with hc | hc
    · obtain ⟨i, hi, k', e⟩ := h.parent c hc h0
      exact ⟨i, by rw [size_addNode]; omega, k', hx.child i hi k' c e⟩
    · subst hc
      exact ⟨id, by rw [size_addNode]; omega, k, by rw [children_addNode hid]; simp⟩
  · rw [link_addNode (by omega)]; exact h.root
  · intro i hi h0
    rcases cases' i hi with hi | hi
    · obtain ⟨j', hj', e1, e2⟩ := h.link i hi h0
      exact ⟨j', by rw [size_addNode]; omega, by rw [link_addNode hi]; exact e1, by rw [po j' hj', po i hi]; exact e2⟩
    · subst hi
      exact ⟨j, by rw [size_addNode]; omega, link_addNode_new, by rw [po j hj, pn]; exact hpj⟩
  · intro i hi hc
    rcases cases' i hi with hi | hi
    · rw [po i hi] at hc ⊢; rw [loc_addNode hi]; exact h.loc i hi hc
    · subst hi; rw [pn] at hc ⊢; rw [loc_addNode_new]; exact (hloc hc).1
  · intro i hi hc
    rcases cases' i hi with hi | hi
    · rw [po i hi] at hc ⊢; exact h.occ i hi hc
    · subst hi; rw [pn] at hc ⊢; exact (hloc hc).2
  · intro i hi hc
    rcases cases' i hi with hi | hi
    · rw [po i hi] at hc ⊢; rw [loc_addNode hi]; exact h.range i hi hc
    · subst hi; rw [pn] at hc ⊢; rw [loc_addNode_new]; exact hr hc
  · intro i hi k' hc
    rcases cases' i hi with hi | hi
    · rw [children_addNode hi] at hc
      split at hc
      · cases hc
      · rw [po i hi]; exact h.null i hi k' hc
    · subst hi; rw [children_addNode_new hid] at hc; cases hc
  · exact hx.child 0 (by omega) _ _ h.var0

theorem trail_addNode {id : Nat} {k : Int} {j : Nat} {l : PhraseLocation} {s : List Int}
    (hk : ∀ c, (t.node id).children k ≠ some (some c)) {P : Nat → Prop} (h : Trail F t pat P) :
    Trail F (addNode t id k j l) (upd pat t.size s) fun i => P i ∧ i ≠ t.size := by
  have hx := ext_addNode (pat := pat) (j := j) (l := l) (s := s) hk
  intro i hi hp φ w e hw ha
  have hi' : i < t.size := by rw [size_addNode] at hi; have := hp.2; omega
  rw [hx.pat i hi'] at e
  obtain ⟨c, hc⟩ := h i hi' hp.1 φ w e hw ha
  exact ⟨c, hx.child i hi' _ _ hc⟩

/-- Looking at the child of a suffix link. -/
theorem probe (h : TInv lines F t pat) (ht : Trail F t pat fun _ => True) {j : Nat} {w : Int} (hj : j < t.size)
    (hocc : Occ lines F.I (pat j ++ [w]) → ∃ c, (t.node j).children w = some (some c)) :
    TInv lines F (t.getChild j w).2 pat ∧ Trail F (t.getChild j w).2 pat (fun _ => True) ∧
    TExt t pat (t.getChild j w).2 pat ∧ (t.getChild j w).2.size = t.size ∧
    (∀ i, ((t.getChild j w).2.node i).suffixLink = (t.node i).suffixLink) ∧
    ((t.getChild j w).1 = none → ¬ Occ lines F.I (pat j ++ [w])) ∧
    (∀ c, (t.getChild j w).1 = some c → (t.node j).children w = some (some c) ∧ (t.getChild j w).2 = t) := by
  unfold Trie.getChild
  cases hc : (t.node j).children w with
  | some c =>
    refine ⟨h, ht, .refl _ _, rfl, fun _ => rfl, ?_, ?_⟩
    · intro e
      have e : c = none := e
      subst e; exact h.null j hj w hc
    · intro d e
      have e : c = some d := e
      exact ⟨by rw [e], rfl⟩
  | none =>
    have hk : ∀ c, (t.node j).children w ≠ some (some c) := by intro c e; rw [hc] at e; cases e
    have hno : ¬ Occ lines F.I (pat j ++ [w]) := by
      intro ho
      obtain ⟨c, e⟩ := hocc ho
      exact hk c e
    refine ⟨h.addNull hj hk hno, ht.ext (ext_addNull hk) rfl (fun _ h => h), ext_addNull hk, rfl, ?_, fun _ => hno, ?_⟩
    · intro i; exact link_addChild _ _ _ _ _
    · intro c e; cases e

theorem cores_nil_pat {x : Bool} {s e : Nat} {φ : List Int} (hwords : ∀ w ∈ words, 0 ≤ w) (h : Gen F words x s e φ) :
    cores φ = [] → φ = [] ∨ φ = [-1] := by
  intro hc
  cases h with
  | word i h => left; rfl
  | xword i hg h => right; rfl
  | next h hw h1 h2 h3 => exact absurd hc (cores_snoc_ne (word_nonneg hwords hw) _)
  | gap h hw => rw [cores_snoc_nt (by omega)] at hc; exact absurd hc (cores_snoc_ne (word_nonneg hwords hw) _)

/-- Adding the trailing nonterminal. -/
theorem addTrailing_spec (hwords : ∀ w ∈ words, 0 ≤ w) (h : TInv lines F t pat) {c : Nat} (hc : c < t.size)
    (ht : Trail F t pat fun i => i ≠ c) {x : Bool} {s e : Nat} {φ : List Int} {w : Int}
    (g : Gen F words x s e φ) (hw : 0 ≤ w) (hp : pat c = φ ++ [w]) (hnew : ∀ k, (t.node c).children k = none) :
    ∃ t' pat', F.addTrailing t (φ ++ [w]) c x = some t' ∧ TInv lines F t' pat' ∧ Trail F t' pat' (fun _ => True) ∧
      TExt t pat t' pat' ∧ (t'.node c).loc = (t.node c).loc ∧
      ∀ i, t.size ≤ i → i < t'.size → ∃ u y, pat' i = u ++ [y] ∧ y < 0 := by
  unfold Factory.addTrailing
  simp only [arity_ar, ar_snoc_word hw]
  by_cases hn : F.maxNt ≤ ar φ
  · rw [if_pos hn]
    refine ⟨t, pat, rfl, h, ?_, .refl _ _, rfl, fun i h1 h2 => absurd h2 (by omega)⟩
    intro i hi _ φ' w' e' hw' ha
    by_cases hic : i = c
    · subst hic
      rw [hp] at e'
      have := (List.append_inj' e' rfl).1
      subst this; omega
    · exact ht i hi hic φ' w' e' hw' ha
  · rw [if_neg hn]
    have hc0 : c ≠ 0 := by intro e'; rw [e', h.pat0] at hp; simp at hp
    obtain ⟨j, hj, hlj, hpj⟩ := h.link c hc hc0
    rw [hlj]
    simp only [Option.bind_eq_bind, Option.bind_some]
    -- the child of the suffix link
    obtain ⟨d, hd, hdlt, hdp⟩ : ∃ d, (t.node j).children (-((ar φ + if x then 0 else 1 : Nat) : Int)) = some (some d) ∧
        d < t.size ∧ pat d = suf (φ ++ [w] ++ [-((ar φ + 1 : Nat) : Int)]) := by
      by_cases hφ : φ = []
      · subst hφ
        have hx : x = false := by
          cases x with
          | false => rfl
          | true => obtain ⟨ψ, e', _⟩ := (g.shape hwords).1 rfl; cases e'
        subst hx
        have e0 : suf (pat c) = [] := by rw [hp]; simp [suf]; omega
        have hj0 : j = 0 := h.inj j hj 0 (by omega) (by rw [hpj, e0, h.pat0])
        subst hj0
        have hs := h.size
        refine ⟨1, ?_, by omega, ?_⟩
        · have : -((ar [] + if false = true then 0 else 1 : Nat) : Int) = -1 := by simp [ar]
          rw [this]; exact h.var0
        · rw [h.pat1]; simp [suf, ar]; omega
      · have hsuf : suf (φ ++ [w]) = suf φ ++ [w] := suf_snoc_word hw hφ
        have har := g.ar_suf hwords hφ
        have hjc : j ≠ c := by
          intro e'
          rw [e', hp, hsuf] at hpj
          have := congrArg List.length hpj
          have hlen : (suf φ).length < φ.length := by
            cases φ with
            | nil => exact absurd rfl hφ
            | cons a ψ => simp only [suf]; split <;> simp [shift]
          simp only [List.length_append] at this; omega
        rw [hp, hsuf] at hpj
        obtain ⟨d, hd⟩ := ht j hj hjc (suf φ) w hpj hw (by split at har <;> omega)
        have e1 : ar (suf φ) + 1 = ar φ + if x then 0 else 1 := by cases x <;> simp only [if_true, if_false, Bool.false_eq_true] at har ⊢ <;> omega
        obtain ⟨h1, h2⟩ := h.child j hj _ _ hd
        refine ⟨d, by rw [← e1]; exact hd, h1, ?_⟩
        rw [h2, hpj, g.suf_nt hwords hφ hw]
    have hgc : t.getChild j (-((ar φ + if x then 0 else 1 : Nat) : Int)) = (some d, t) := by
      rw [Trie.getChild, hd]
    rw [hgc]
    have hk : ∀ c', (t.node c).children (-((ar φ + 1 : Nat) : Int)) ≠ some (some c') := by
      intro c' e'; rw [hnew] at e'; cases e'
    have hcores : cores (pat c ++ [-((ar φ + 1 : Nat) : Int)]) = cores (pat c) := cores_snoc_nt (by omega) _
    have hcne : cores (pat c) ≠ [] := by rw [hp]; exact cores_snoc_ne hw _
    refine ⟨addNode t c (-((ar φ + 1 : Nat) : Int)) d (t.node c).loc, _, rfl,
      h.addNode hc hk hdlt (by rw [hp]; exact hdp) ?_ ?_, ?_, ext_addNode hk, loc_addNode hc, ?_⟩
    · intro _
      obtain ⟨ps, ho⟩ := h.occ c hc hcne
      exact ⟨(h.loc c hc hcne).congr hcores, ps, by rw [wcores, hcores]; exact ho⟩
    · intro h0; rw [ar_snoc_nt (by omega)] at h0; omega
    · have hx := ext_addNode (pat := pat) (j := d) (l := (t.node c).loc) (s := pat c ++ [-((ar φ + 1 : Nat) : Int)]) hk
      intro i hi _ φ' w' e' hw' ha
      rw [size_addNode] at hi
      by_cases hit : i = t.size
      · subst hit
        rw [upd, if_pos rfl] at e'
        have := (List.append_inj' e' rfl).2
        have : -((ar φ + 1 : Nat) : Int) = w' := by simpa using this
        omega
      · have hi' : i < t.size := by omega
        rw [hx.pat i hi'] at e'
        by_cases hic : i = c
        · subst hic
          rw [hp] at e'
          have := (List.append_inj' e' rfl).1
          subst this
          exact ⟨t.size, by rw [children_addNode hi']; simp⟩
        · obtain ⟨c', hc'⟩ := ht i hi' hic φ' w' e' hw' ha
          exact ⟨c', hx.child i hi' _ _ hc'⟩
    · intro i h1 h2
      rw [size_addNode] at h2
      have : i = t.size := by omega
      subst this
      exact ⟨pat c, _, by rw [upd, if_pos rfl], by omega⟩

end Cdec.Extract
