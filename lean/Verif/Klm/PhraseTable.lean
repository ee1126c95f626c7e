import Verif.Klm.PhraseGraph
import Verif.Klm.PhraseFilterSpec
/-!
# The table of the phrase filter and the graph of an n-gram

For every hash function.
-/
namespace Cdec.Klm.Phrase
open Filter (Txt)

variable {H : Type} [DecidableEq H]

/-- The hash of a list of words. -/
def keyOf (hw : Txt → H) (mix : H → H → H) (h0 : H) (q : List Txt) : H := (q.map hw).foldl mix h0

theorem keyOf_snoc (hw : Txt → H) (mix : H → H → H) (h0 : H) (q : List Txt) (w : Txt) :
    keyOf hw mix h0 (q ++ [w]) = mix (keyOf hw mix h0 q) (hw w) := by
  simp [keyOf]

/-- One list of the entry at a key. -/
def fld (sel : Rel → List Nat) (t : Table H) (k : H) : List Nat := ((t k).map sel).getD []

/-- One update of the table. -/
structure Ev (H : Type) where
  key : H
  first : Bool
  last : Bool

def evFrom (mix : H → H → H) (first : Bool) (h : H) : List H → List (Ev H)
  | [] => []
  | w :: ws => ⟨mix h w, first, ws.isEmpty⟩ :: evFrom mix first (mix h w) ws

def evs (mix : H → H → H) (h0 : H) (first : Bool) : List H → List (Ev H)
  | [] => []
  | w :: ws => evFrom mix first h0 (w :: ws) ++ evs mix h0 false ws

def step (id : Nat) (t : Table H) (e : Ev H) : Table H := t.bump id e.first e.last e.key

theorem addFrom_eq (mix : H → H → H) (id : Nat) (first : Bool) (ws : List H) (t : Table H) (h : H) :
    addFrom mix id first t h ws = (evFrom mix first h ws).foldl (step id) t := by
  induction ws generalizing t h with
  | nil => rfl
  | cons w ws ih => simp only [addFrom, evFrom, List.foldl_cons, ih]; rfl

theorem addSuffixes_eq (mix : H → H → H) (h0 : H) (id : Nat) (ws : List H) (first : Bool) (t : Table H) :
    addSuffixes mix h0 id first t ws = (evs mix h0 first ws).foldl (step id) t := by
  induction ws generalizing t first with
  | nil => rfl
  | cons w ws ih => simp only [addSuffixes, evs, List.foldl_append, ih, addFrom_eq]

theorem mem_evFrom (hw : Txt → H) (mix : H → H → H) (first : Bool) (ws : List Txt) (h : H) (e : Ev H) :
    e ∈ evFrom mix first h (ws.map hw) ↔
      ∃ q b, ws = q ++ b ∧ q ≠ [] ∧ e = ⟨(q.map hw).foldl mix h, first, b.isEmpty⟩ := by
  induction ws generalizing h with
  | nil =>
    simp only [List.map_nil, evFrom, List.not_mem_nil, false_iff]
    rintro ⟨q, b, hqb, hq, _⟩
    exact hq (List.append_eq_nil_iff.mp hqb.symm).1
  | cons w ws ih =>
    simp only [List.map_cons, evFrom, List.mem_cons, ih]
    constructor
    · rintro (rfl | ⟨q, b, rfl, hq, rfl⟩)
      · exact ⟨[w], ws, rfl, by simp, by simp⟩
      · exact ⟨w :: q, b, rfl, by simp, by simp⟩
    · rintro ⟨q, b, hqb, hq, rfl⟩
      cases q with
      | nil => exact absurd rfl hq
      | cons v q =>
        simp only [List.cons_append, List.cons.injEq] at hqb
        obtain ⟨rfl, rfl⟩ := hqb
        cases q with
        | nil => left; simp
        | cons v' q => right; exact ⟨v' :: q, b, rfl, by simp, by simp⟩

theorem mem_evs (hw : Txt → H) (mix : H → H → H) (h0 : H) (p : List Txt) (first : Bool) (e : Ev H) :
    e ∈ evs mix h0 first (p.map hw) ↔ ∃ a q b, p = a ++ q ++ b ∧ q ≠ [] ∧
      e = ⟨keyOf hw mix h0 q, first && a.isEmpty, b.isEmpty⟩ := by
  induction p generalizing first with
  | nil =>
    simp only [List.map_nil, evs, List.not_mem_nil, false_iff]
    rintro ⟨a, q, b, h, hq, _⟩
    exact hq (List.append_eq_nil_iff.mp (List.append_eq_nil_iff.mp h.symm).1).2
  | cons w ws ih =>
    simp only [List.map_cons, evs, List.mem_append, ih]
    rw [← List.map_cons, mem_evFrom]
    constructor
    · rintro (⟨q, b, h, hq, rfl⟩ | ⟨a, q, b, rfl, hq, rfl⟩)
      · exact ⟨[], q, b, by simpa using h, hq, by simp [keyOf]⟩
      · exact ⟨w :: a, q, b, by simp, hq, by simp⟩
    · rintro ⟨a, q, b, h, hq, rfl⟩
      cases a with
      | nil => left; exact ⟨q, b, by simpa using h, hq, by simp [keyOf]⟩
      | cons v a =>
        simp only [List.cons_append, List.cons.injEq] at h
        obtain ⟨rfl, rfl⟩ := h
        right; exact ⟨a, q, b, by simp, hq, by simp⟩

/-- Strictly increasing, with no element above `id`. -/
def Incr (id : Nat) (l : List Nat) : Prop := l.Pairwise (· < ·) ∧ ∀ x ∈ l, x ≤ id

theorem mem_append {l : List Nat} {id x : Nat} : x ∈ append l id ↔ x ∈ l ∨ x = id := by
  unfold append
  by_cases h : l = [] ∨ l.getLast? ≠ some id
  · rw [if_pos h]; simp
  · rw [if_neg h]
    have : l.getLast? = some id := by
      by_contra hc; exact h (Or.inr hc)
    constructor
    · exact Or.inl
    · rintro (h | rfl)
      · exact h
      · exact List.mem_of_getLast? this

theorem incr_append {l : List Nat} {id : Nat} (h : Incr id l) : Incr id (append l id) := by
  unfold append
  by_cases hc : l = [] ∨ l.getLast? ≠ some id
  · rw [if_pos hc]
    refine ⟨List.pairwise_append.mpr ⟨h.1, by simp, fun x hx y hy => ?_⟩, fun x hx => ?_⟩
    · rw [List.mem_singleton.mp hy]
      have hle := h.2 x hx
      by_contra hcon
      have hxe : x = id := by omega
      subst hxe
      rcases hc with rfl | hc
      · cases hx
      · apply hc
        obtain ⟨l', z, rfl⟩ : ∃ l' z, l = l' ++ [z] := by
          rcases List.eq_nil_or_concat l with rfl | ⟨l', z, e⟩
          · cases hx
          · exact ⟨l', z, by simpa using e⟩
        rcases List.mem_append.mp hx with hx' | hx'
        · have h1 := (List.pairwise_append.mp h.1).2.2 x hx' z (by simp)
          have h2 := h.2 z (by simp)
          omega
        · rw [List.mem_singleton.mp hx']; simp
    · rcases List.mem_append.mp hx with hx | hx
      · exact h.2 x hx
      · rw [List.mem_singleton.mp hx]
  · rw [if_neg hc]; exact h

/-- One of the four lists, with the updates that reach it. -/
structure Sel (sel : Rel → List Nat) (flag : Ev H → Bool) : Prop where
  bump : ∀ id (e : Ev H) r, sel (Phrase.bump id e.first e.last r) = if flag e then append (sel r) id else sel r
  zero : sel ⟨[], [], [], []⟩ = []

theorem selSub : Sel (H := H) Rel.substring (fun _ => true) := ⟨fun _ _ _ => rfl, rfl⟩
theorem selLeft : Sel (H := H) Rel.left (fun e => e.first) := ⟨fun _ _ _ => rfl, rfl⟩
theorem selRight : Sel (H := H) Rel.right (fun e => e.last) := ⟨fun _ _ _ => rfl, rfl⟩
theorem selPhrase : Sel (H := H) Rel.phrase (fun e => e.last && e.first) := ⟨fun _ _ _ => rfl, rfl⟩

theorem fld_step {sel : Rel → List Nat} {flag : Ev H → Bool} (hs : Sel sel flag) (id : Nat) (t : Table H) (e : Ev H)
    (k : H) : fld sel (step id t e) k = if k = e.key ∧ flag e then append (fld sel t k) id else fld sel t k := by
  unfold fld step Table.bump
  by_cases hk : k = e.key
  · subst hk
    simp only [if_true, true_and]
    rw [Option.map_some, Option.getD_some, hs.bump]
    have : sel ((t e.key).getD ⟨[], [], [], []⟩) = ((t e.key).map sel).getD [] := by
      cases t e.key with
      | none => exact hs.zero
      | some r => rfl
    rw [this]
  · simp [hk]

theorem mem_fold {sel : Rel → List Nat} {flag : Ev H → Bool} (hs : Sel sel flag) (id : Nat) (es : List (Ev H))
    (t : Table H) (k : H) (x : Nat) : x ∈ fld sel (es.foldl (step id) t) k ↔
      x ∈ fld sel t k ∨ (x = id ∧ ∃ e ∈ es, e.key = k ∧ flag e = true) := by
  induction es generalizing t with
  | nil => simp
  | cons e es ih =>
    rw [List.foldl_cons, ih, fld_step hs]
    by_cases h : k = e.key ∧ flag e = true
    · rw [if_pos h, mem_append]
      constructor
      · rintro ((h1 | h1) | ⟨h1, e', h2, h3⟩)
        · exact Or.inl h1
        · exact Or.inr ⟨h1, e, by simp, h.1.symm, h.2⟩
        · exact Or.inr ⟨h1, e', by simp [h2], h3⟩
      · rintro (h1 | ⟨h1, e', h2, h3⟩)
        · exact Or.inl (Or.inl h1)
        · exact Or.inl (Or.inr h1)
    · rw [if_neg h]
      constructor
      · rintro (h1 | ⟨h1, e', h2, h3⟩)
        · exact Or.inl h1
        · exact Or.inr ⟨h1, e', by simp [h2], h3⟩
      · rintro (h1 | ⟨h1, e', h2, h3⟩)
        · exact Or.inl h1
        · rcases List.mem_cons.mp h2 with rfl | h2
          · exact absurd ⟨h3.1.symm, h3.2⟩ h
          · exact Or.inr ⟨h1, e', h2, h3⟩

theorem incr_fold {sel : Rel → List Nat} {flag : Ev H → Bool} (hs : Sel sel flag) (id : Nat) (es : List (Ev H))
    (t : Table H) (k : H) (h : Incr id (fld sel t k)) : Incr id (fld sel (es.foldl (step id) t) k) := by
  induction es generalizing t with
  | nil => exact h
  | cons e es ih =>
    rw [List.foldl_cons]
    apply ih
    rw [fld_step hs]
    split
    · exact incr_append h
    · exact h

theorem none_fold (id : Nat) (es : List (Ev H)) (t : Table H) (k : H) :
    es.foldl (step id) t k = none ↔ t k = none ∧ ∀ e ∈ es, e.key ≠ k := by
  induction es generalizing t with
  | nil => simp
  | cons e es ih =>
    rw [List.foldl_cons, ih]
    have : step id t e k = none ↔ t k = none ∧ e.key ≠ k := by
      unfold step Table.bump
      by_cases hk : k = e.key
      · subst hk; simp
      · simp [hk, Ne.symm hk]
    rw [this]
    simp only [List.mem_cons, forall_eq_or_imp, and_assoc]

/-- The table holds the phrases of `A` (`A x p`: the sentence `x` has the phrase `p`). -/
structure TabInv (hw : Txt → H) (mix : H → H → H) (h0 : H) (t : Table H) (id : Nat) (A : Nat → List Txt → Prop) : Prop where
  sub : ∀ k x, x ∈ fld Rel.substring t k ↔ ∃ p q, A x p ∧ q ≠ [] ∧ q <:+: p ∧ keyOf hw mix h0 q = k
  left : ∀ k x, x ∈ fld Rel.left t k ↔ ∃ p q, A x p ∧ q ≠ [] ∧ q <+: p ∧ keyOf hw mix h0 q = k
  right : ∀ k x, x ∈ fld Rel.right t k ↔ ∃ p q, A x p ∧ q ≠ [] ∧ q <:+ p ∧ keyOf hw mix h0 q = k
  phrase : ∀ k x, x ∈ fld Rel.phrase t k ↔ ∃ q, A x q ∧ q ≠ [] ∧ keyOf hw mix h0 q = k
  none : ∀ k, t k = none ↔ ∀ x p q, A x p → q ≠ [] → q <:+: p → keyOf hw mix h0 q ≠ k
  incr : ∀ k, Incr id (fld Rel.substring t k) ∧ Incr id (fld Rel.left t k) ∧ Incr id (fld Rel.right t k) ∧
    Incr id (fld Rel.phrase t k)

theorem TabInv.congr {hw : Txt → H} {mix : H → H → H} {h0 : H} {t : Table H} {id id' : Nat} {A A' : Nat → List Txt → Prop}
    (h : TabInv hw mix h0 t id A) (hA : ∀ x p, A x p ↔ A' x p) (hid : id ≤ id') : TabInv hw mix h0 t id' A' := by
  obtain rfl : A = A' := by funext x p; exact propext (hA x p)
  refine ⟨h.sub, h.left, h.right, h.phrase, h.none, fun k => ?_⟩
  have hm : ∀ l, Incr id l → Incr id' l := fun l hl => ⟨hl.1, fun x hx => Nat.le_trans (hl.2 x hx) hid⟩
  obtain ⟨a, b, c, d⟩ := h.incr k
  exact ⟨hm _ a, hm _ b, hm _ c, hm _ d⟩

theorem tabInv_empty (hw : Txt → H) (mix : H → H → H) (h0 : H) :
    TabInv hw mix h0 (fun _ => Option.none) 0 (fun _ _ => False) :=
  ⟨by simp [fld], by simp [fld], by simp [fld], by simp [fld], by simp, by simp [fld, Incr]⟩

/-- `AddPhrase`. -/
theorem addPhrase_inv {hw : Txt → H} {mix : H → H → H} {h0 : H} {t : Table H} {id : Nat} {A : Nat → List Txt → Prop}
    (h : TabInv hw mix h0 t id A) (p : List Txt) :
    TabInv hw mix h0 (addPhrase mix h0 id t (p.map hw)) id (fun x q => A x q ∨ (x = id ∧ q = p)) := by
  unfold addPhrase
  rw [addSuffixes_eq]
  have hmem := fun e => mem_evs hw mix h0 p true e
  refine ⟨fun k x => ?_, fun k x => ?_, fun k x => ?_, fun k x => ?_, fun k => ?_, fun k => ?_⟩
  · rw [mem_fold selSub, h.sub]
    constructor
    · rintro (⟨p', q, h1, h2⟩ | ⟨rfl, e, he, rfl, _⟩)
      · exact ⟨p', q, Or.inl h1, h2⟩
      · obtain ⟨a, q, b, rfl, hq, rfl⟩ := (hmem e).mp he
        exact ⟨_, q, Or.inr ⟨rfl, rfl⟩, hq, ⟨a, b, rfl⟩, rfl⟩
    · rintro ⟨p', q, h1 | ⟨rfl, rfl⟩, hq, hi, rfl⟩
      · exact Or.inl ⟨p', q, h1, hq, hi, rfl⟩
      · obtain ⟨a, b, hab⟩ := hi
        exact Or.inr ⟨rfl, _, (hmem _).mpr ⟨a, q, b, hab.symm, hq, rfl⟩, rfl, rfl⟩
  · rw [mem_fold selLeft, h.left]
    constructor
    · rintro (⟨p', q, h1, h2⟩ | ⟨rfl, e, he, rfl, hf⟩)
      · exact ⟨p', q, Or.inl h1, h2⟩
      · obtain ⟨a, q, b, rfl, hq, rfl⟩ := (hmem e).mp he
        have ha : a = [] := by simpa using hf
        subst ha
        exact ⟨_, q, Or.inr ⟨rfl, rfl⟩, hq, ⟨b, rfl⟩, rfl⟩
    · rintro ⟨p', q, h1 | ⟨rfl, rfl⟩, hq, hi, rfl⟩
      · exact Or.inl ⟨p', q, h1, hq, hi, rfl⟩
      · obtain ⟨b, hb⟩ := hi
        exact Or.inr ⟨rfl, _, (hmem _).mpr ⟨[], q, b, hb.symm, hq, rfl⟩, rfl, rfl⟩
  · rw [mem_fold selRight, h.right]
    constructor
    · rintro (⟨p', q, h1, h2⟩ | ⟨rfl, e, he, rfl, hf⟩)
      · exact ⟨p', q, Or.inl h1, h2⟩
      · obtain ⟨a, q, b, rfl, hq, rfl⟩ := (hmem e).mp he
        have hb : b = [] := by simpa using hf
        subst hb
        exact ⟨_, q, Or.inr ⟨rfl, rfl⟩, hq, ⟨a, by simp⟩, rfl⟩
    · rintro ⟨p', q, h1 | ⟨rfl, rfl⟩, hq, hi, rfl⟩
      · exact Or.inl ⟨p', q, h1, hq, hi, rfl⟩
      · obtain ⟨a, ha⟩ := hi
        exact Or.inr ⟨rfl, _, (hmem _).mpr ⟨a, q, [], by simpa using ha.symm, hq, rfl⟩, rfl, rfl⟩
  · rw [mem_fold selPhrase, h.phrase]
    constructor
    · rintro (⟨q, h1, h2⟩ | ⟨rfl, e, he, rfl, hf⟩)
      · exact ⟨q, Or.inl h1, h2⟩
      · obtain ⟨a, q, b, rfl, hq, rfl⟩ := (hmem e).mp he
        obtain ⟨hb, ha⟩ : b = [] ∧ a = [] := by simpa using hf
        subst ha hb
        exact ⟨q, Or.inr ⟨rfl, by simp⟩, hq, rfl⟩
    · rintro ⟨q, h1 | ⟨rfl, rfl⟩, hq, rfl⟩
      · exact Or.inl ⟨q, h1, hq, rfl⟩
      · exact Or.inr ⟨rfl, _, (hmem _).mpr ⟨[], q, [], by simp, hq, rfl⟩, rfl, rfl⟩
  · rw [none_fold, h.none]
    constructor
    · rintro ⟨h1, h2⟩ x p' q (h3 | ⟨rfl, rfl⟩) hq hi
      · exact h1 x p' q h3 hq hi
      · obtain ⟨a, b, hab⟩ := hi
        exact h2 _ ((hmem _).mpr ⟨a, q, b, hab.symm, hq, rfl⟩)
    · intro h1
      refine ⟨fun x p' q h3 hq hi => h1 x p' q (Or.inl h3) hq hi, fun e he => ?_⟩
      obtain ⟨a, q, b, rfl, hq, rfl⟩ := (hmem e).mp he
      exact h1 id _ q (Or.inr ⟨rfl, rfl⟩) hq ⟨a, b, rfl⟩
  · obtain ⟨a, b, c, d⟩ := h.incr k
    exact ⟨incr_fold selSub _ _ _ _ a, incr_fold selLeft _ _ _ _ b, incr_fold selRight _ _ _ _ c,
      incr_fold selPhrase _ _ _ _ d⟩

/-! ## The graph -/

section Graph
variable {hw : Txt → H} {mix : H → H → H} {h0 : H} {t : Table H}

/-- The two loops of `BuildGraph` with the lists as parameters. -/
def gen (t : Table H) (mix : H → H → H) (src : Option Nat) (f g : Rel → List Nat) (h : H) (v : Nat) : List H → List Arc
  | [] => []
  | w :: ws =>
    match t (mix h w) with
    | none => []
    | some r => if ws = [] then [⟨src, v, f r⟩] else ⟨src, v, g r⟩ :: gen t mix src f g (mix h w) (v + 1) ws

theorem rightArcs_eq (ws : List H) (h : H) (v : Nat) :
    rightArcs t mix h v ws = gen t mix none Rel.substring Rel.right h v ws := by
  induction ws generalizing h v with
  | nil => rfl
  | cons w ws ih =>
    simp only [rightArcs, gen, ih]
    cases t (mix h w) <;> rfl

theorem phraseArcs_eq (src : Nat) (ws : List H) (h : H) (v : Nat) :
    phraseArcs t mix src h v ws = gen t mix (some src) Rel.left Rel.phrase h v ws := by
  induction ws generalizing h v with
  | nil => rfl
  | cons w ws ih =>
    simp only [phraseArcs, gen, ih]
    cases t (mix h w) <;> rfl

/-- The keys of all beginnings of `q` after `pre` are in the table. -/
def Present (hw : Txt → H) (mix : H → H → H) (h0 : H) (t : Table H) (pre q : List Txt) : Prop :=
  ∀ q', q' <+: q → q' ≠ [] → t (keyOf hw mix h0 (pre ++ q')) ≠ none

theorem mem_gen (src : Option Nat) (f g : Rel → List Nat) (off : Nat) (ws pre : List Txt) (a : Arc) :
    a ∈ gen t mix src f g (keyOf hw mix h0 pre) (off + pre.length) (ws.map hw) ↔
      ∃ q b, ws = q ++ b ∧ q ≠ [] ∧ Present hw mix h0 t pre q ∧
        a = ⟨src, off + pre.length + q.length - 1,
          if b = [] then fld f t (keyOf hw mix h0 (pre ++ q)) else fld g t (keyOf hw mix h0 (pre ++ q))⟩ := by
  induction ws generalizing pre with
  | nil =>
    simp only [List.map_nil, gen, List.not_mem_nil, false_iff]
    rintro ⟨q, b, h, hq, _⟩
    exact hq (List.append_eq_nil_iff.mp h.symm).1
  | cons w ws ih =>
    simp only [List.map_cons, gen]
    rw [← keyOf_snoc hw mix h0 pre w]
    have hlen : off + pre.length + 1 = off + (pre ++ [w]).length := by simp; omega
    have hone : ∀ q', q' <+: [w] → q' ≠ [] → q' = [w] := by
      intro q' hp hq
      cases q' with
      | nil => exact absurd rfl hq
      | cons v q' =>
        obtain ⟨c, hc⟩ := hp
        simp at hc
        simp [hc]
    cases hr : t (keyOf hw mix h0 (pre ++ [w])) with
    | none =>
      simp only [List.not_mem_nil, false_iff]
      rintro ⟨q, b, h, hq, hp, _⟩
      cases q with
      | nil => exact hq rfl
      | cons v q =>
        simp only [List.cons_append, List.cons.injEq] at h
        obtain ⟨rfl, _⟩ := h
        exact hp [w] ⟨q, rfl⟩ (by simp) hr
    | some r =>
      have hf : ∀ sel, fld sel t (keyOf hw mix h0 (pre ++ [w])) = sel r := by intro sel; simp [fld, hr]
      have hp1 : Present hw mix h0 t pre [w] := by
        intro q' h1 h2
        rw [hone q' h1 h2, hr]; simp
      simp only []
      cases ws with
      | nil =>
        simp only [List.map_nil, if_true, List.mem_singleton]
        constructor
        · rintro rfl
          exact ⟨[w], [], rfl, by simp, hp1, by simp [hf]⟩
        · rintro ⟨q, b, h, hq, hp, rfl⟩
          cases q with
          | nil => exact absurd rfl hq
          | cons v q =>
            simp only [List.cons_append, List.cons.injEq] at h
            obtain ⟨rfl, h⟩ := h
            obtain ⟨rfl, rfl⟩ := List.append_eq_nil_iff.mp h.symm
            simp [hf]
      | cons w' ws =>
        rw [if_neg (by simp), List.mem_cons, hlen, ih]
        constructor
        · rintro (rfl | ⟨q, b, h, hq, hp, rfl⟩)
          · refine ⟨[w], w' :: ws, rfl, by simp, hp1, by simp [hf]⟩
          · refine ⟨w :: q, b, by simp [h], by simp, fun q' h1 h2 => ?_, ?_⟩
            · cases q' with
              | nil => exact absurd rfl h2
              | cons v q' =>
                obtain ⟨c, hc⟩ := h1
                simp only [List.cons_append, List.cons.injEq] at hc
                obtain ⟨rfl, hc⟩ := hc
                cases q' with
                | nil => rw [hr]; simp
                | cons v' q' =>
                  have := hp (v' :: q') ⟨c, hc⟩ (by simp)
                  simpa using this
            · simp; omega
        · rintro ⟨q, b, h, hq, hp, rfl⟩
          cases q with
          | nil => exact absurd rfl hq
          | cons v q =>
            simp only [List.cons_append, List.cons.injEq] at h
            obtain ⟨rfl, h⟩ := h
            cases q with
            | nil =>
              left
              simp only [List.nil_append] at h
              subst h
              simp [hf]
            | cons v' q =>
              right
              refine ⟨v' :: q, b, by simp [h], by simp, fun q' h1 h2 => ?_, ?_⟩
              · have := hp (w :: q') (List.cons_prefix_cons.mpr ⟨rfl, h1⟩) (by simp)
                simpa using this
              · simp; omega

theorem mem_fromArcs (ws : List Txt) (src : Nat) (a : Arc) :
    a ∈ fromArcs t mix h0 src (ws.map hw) ↔ ∃ c d, ws = c ++ d ∧ d ≠ [] ∧
      a ∈ phraseArcs t mix (src + c.length) h0 (src + c.length + 1) (d.map hw) := by
  induction ws generalizing src with
  | nil =>
    simp only [List.map_nil, fromArcs, List.not_mem_nil, false_iff]
    rintro ⟨c, d, h, hd, _⟩
    exact hd (List.append_eq_nil_iff.mp h.symm).2
  | cons w ws ih =>
    simp only [List.map_cons, fromArcs, List.mem_append, ih]
    constructor
    · rintro (h | ⟨c, d, rfl, hd, h⟩)
      · exact ⟨[], w :: ws, rfl, by simp, by simpa using h⟩
      · refine ⟨w :: c, d, rfl, hd, ?_⟩
        rw [show src + (w :: c).length = src + 1 + c.length by simp; omega]; exact h
    · rintro ⟨c, d, h, hd, ha⟩
      cases c with
      | nil => left; simp only [List.nil_append] at h; subst h; simpa using ha
      | cons v c =>
        simp only [List.cons_append, List.cons.injEq] at h
        obtain ⟨rfl, rfl⟩ := h
        right
        refine ⟨c, d, rfl, hd, ?_⟩
        rw [show src + (w :: c).length = src + 1 + c.length by simp; omega] at ha; exact ha

/-- The arcs of the graph of the n-gram `g`. -/
theorem mem_buildGraph (g : List Txt) (a : Arc) :
    a ∈ buildGraph t mix h0 (g.map hw) ↔
      (∃ q b, g = q ++ b ∧ q ≠ [] ∧ Present hw mix h0 t [] q ∧
        a = ⟨none, q.length - 1, if b = [] then fld Rel.substring t (keyOf hw mix h0 q)
          else fld Rel.right t (keyOf hw mix h0 q)⟩) ∨
      (∃ c q b, g = c ++ q ++ b ∧ c ≠ [] ∧ q ≠ [] ∧ Present hw mix h0 t [] q ∧
        a = ⟨some (c.length - 1), c.length + q.length - 1, if b = [] then fld Rel.left t (keyOf hw mix h0 q)
          else fld Rel.phrase t (keyOf hw mix h0 q)⟩) := by
  unfold buildGraph
  rw [List.mem_append, rightArcs_eq]
  have h1 := mem_gen (hw := hw) (mix := mix) (h0 := h0) (t := t) none Rel.substring Rel.right 0 g [] a
  rw [show keyOf hw mix h0 [] = h0 from rfl] at h1
  simp only [List.length_nil, Nat.add_zero, Nat.zero_add, List.nil_append] at h1
  refine or_congr h1 ?_
  rw [← List.map_tail, mem_fromArcs]
  constructor
  · rintro ⟨c, d, h, hd, ha⟩
    cases g with
    | nil =>
      simp only [List.tail_nil] at h
      exact absurd (List.append_eq_nil_iff.mp h.symm).2 hd
    | cons w g =>
      simp only [List.tail_cons] at h
      subst h
      rw [phraseArcs_eq] at ha
      have h2 := mem_gen (hw := hw) (mix := mix) (h0 := h0) (t := t) (some (0 + c.length)) Rel.left Rel.phrase
        (0 + c.length + 1) d [] a
      rw [show keyOf hw mix h0 [] = h0 from rfl] at h2
      simp only [List.length_nil, Nat.add_zero, List.nil_append] at h2
      obtain ⟨q, b, rfl, hq, hp, rfl⟩ := h2.mp ha
      exact ⟨w :: c, q, b, by simp, by simp, hq, hp, by simp⟩
  · rintro ⟨c, q, b, rfl, hc, hq, hp, rfl⟩
    cases c with
    | nil => exact absurd rfl hc
    | cons w c =>
      refine ⟨c, q ++ b, by simp, by simp [hq], ?_⟩
      rw [phraseArcs_eq]
      have h2 := mem_gen (hw := hw) (mix := mix) (h0 := h0) (t := t) (some (0 + c.length)) Rel.left Rel.phrase
        (0 + c.length + 1) (q ++ b) []
      rw [show keyOf hw mix h0 [] = h0 from rfl] at h2
      simp only [List.length_nil, Nat.add_zero, List.nil_append] at h2
      exact (h2 _).mpr ⟨q, b, rfl, hq, hp, by simp⟩

theorem length_gen (src : Option Nat) (f g : Rel → List Nat) (ws : List H) (h : H) (v : Nat) :
    (gen t mix src f g h v ws).length ≤ ws.length := by
  induction ws generalizing h v with
  | nil => simp [gen]
  | cons w ws ih =>
    simp only [gen]
    split
    · simp
    · split
      · simp
      · have := ih (mix h w) (v + 1)
        simp only [List.length_cons]; omega

theorem length_fromArcs (ws : List H) (src : Nat) :
    2 * (fromArcs t mix h0 src ws).length ≤ (ws.length + 1) * ws.length := by
  induction ws generalizing src with
  | nil => simp [fromArcs]
  | cons w ws ih =>
    have h1 := ih (src + 1)
    have h2 := length_gen (t := t) (mix := mix) (some src) Rel.left Rel.phrase (w :: ws) h0 (src + 1)
    rw [← phraseArcs_eq] at h2
    simp only [fromArcs, List.length_append, List.length_cons] at h1 h2 ⊢
    have h3 : (ws.length + 1 + 1) * (ws.length + 1) = (ws.length + 1) * ws.length + 2 * (ws.length + 1) := by
      rw [Nat.add_mul, Nat.mul_add (ws.length + 1), Nat.add_mul (ws.length) 1 1]; omega
    omega

variable {id : Nat} {A : Nat → List Txt → Prop}

theorem graph_ok (h : TabInv hw mix h0 t id A) (g : List Txt) : Graph (buildGraph t mix h0 (g.map hw)) := by
  constructor
  · intro a ha u hu
    rcases (mem_buildGraph g a).mp ha with ⟨q, b, rfl, hq, hp, rfl⟩ | ⟨c, q, b, rfl, hc, hq, hp, rfl⟩
    · cases hu
    · simp only [Option.some.injEq] at hu
      have := List.length_pos_iff.mpr hc
      have := List.length_pos_iff.mpr hq
      simp only []; omega
  · intro a ha
    rcases (mem_buildGraph g a).mp ha with ⟨q, b, rfl, hq, hp, rfl⟩ | ⟨c, q, b, rfl, hc, hq, hp, rfl⟩
    · obtain ⟨h1, h2, h3, h4⟩ := h.incr (keyOf hw mix h0 q)
      simp only []; split
      · exact h1.1
      · exact h3.1
    · obtain ⟨h1, h2, h3, h4⟩ := h.incr (keyOf hw mix h0 q)
      simp only []; split
      · exact h2.1
      · exact h4.1

theorem graph_sents (h : TabInv hw mix h0 t id A) (g : List Txt) (a : Arc) (ha : a ∈ buildGraph t mix h0 (g.map hw))
    (x : Nat) (hx : x ∈ a.sents) : ∃ p, A x p := by
  rcases (mem_buildGraph g a).mp ha with ⟨q, b, rfl, hq, hp, rfl⟩ | ⟨c, q, b, rfl, hc, hq, hp, rfl⟩
  · simp only [] at hx
    split at hx
    · obtain ⟨p, _, h1, _⟩ := (h.sub _ _).mp hx; exact ⟨p, h1⟩
    · obtain ⟨p, _, h1, _⟩ := (h.right _ _).mp hx; exact ⟨p, h1⟩
  · simp only [] at hx
    split at hx
    · obtain ⟨p, _, h1, _⟩ := (h.left _ _).mp hx; exact ⟨p, h1⟩
    · obtain ⟨p, h1, _⟩ := (h.phrase _ _).mp hx; exact ⟨p, h1⟩

theorem present_of (h : TabInv hw mix h0 t id A) {x : Nat} {p q : List Txt} (hA : A x p) (hq : q <:+: p) :
    Present hw mix h0 t [] q := by
  intro q' h1 h2 h3
  rw [List.nil_append] at h3
  exact (h.none _).mp h3 x p q' hA h2 (h1.isInfix.trans hq) rfl

/-- From a vertex in the middle on, along the phrases that follow. -/
theorem reach_rest (h : TabInv hw mix h0 t id A) (g : List Txt) (x : Nat) : ∀ (qs : List (List Txt)) (g1 g2 : List Txt),
    g = g1 ++ g2 → g1 ≠ [] → g2 ≠ [] → (∀ p ∈ qs, A x p) → g2 <+: qs.flatten →
    Reach (buildGraph t mix h0 (g.map hw)) x (g1.length - 1) →
    Reach (buildGraph t mix h0 (g.map hw)) x (g.length - 1) := by
  intro qs
  induction qs with
  | nil => intro g1 g2 _ _ h2 _ h3 _; simp at h3; exact absurd h3 h2
  | cons p qs ih =>
    intro g1 g2 hg hg1 hg2 hA hpre hr
    have hAp := hA p (by simp)
    rw [List.flatten_cons] at hpre
    have arc : ∀ q b, g2 = q ++ b → q ≠ [] → Present hw mix h0 t [] q →
        x ∈ (if b = [] then fld Rel.left t (keyOf hw mix h0 q) else fld Rel.phrase t (keyOf hw mix h0 q)) →
        Reach (buildGraph t mix h0 (g.map hw)) x (g1.length + q.length - 1) := by
      intro q b e hq hp hx
      exact .step _ (g1.length - 1) ((mem_buildGraph g _).mpr (Or.inr ⟨g1, q, b, by rw [hg, e]; simp, hg1, hq, hp, rfl⟩))
        rfl hx hr
    by_cases hle : g2.length ≤ p.length
    · have hp' : g2 <+: p := List.prefix_of_prefix_length_le hpre (List.prefix_append _ _) hle
      have := arc g2 [] (by simp) hg2 (present_of h hAp hp'.isInfix) (by
        rw [if_pos rfl, h.left]; exact ⟨p, g2, hAp, hg2, hp', rfl⟩)
      rw [show g.length = g1.length + g2.length by rw [hg, List.length_append]]; exact this
    · have hp' : p <+: g2 := List.prefix_of_prefix_length_le (List.prefix_append _ _) hpre (by omega)
      obtain ⟨g3, rfl⟩ := hp'
      have hg3 : g3 ≠ [] := by rintro rfl; simp at hle
      have hpre3 : g3 <+: qs.flatten := (List.prefix_append_right_inj p).mp hpre
      by_cases hpn : p = []
      · subst hpn
        exact ih g1 g3 (by simpa using hg) hg1 hg3 (fun p hp => hA p (by simp [hp])) hpre3 hr
      · have := arc p g3 rfl hpn (present_of h hAp (List.infix_refl _)) (by
          rw [if_neg hg3, h.phrase]; exact ⟨p, hAp, hpn, rfl⟩)
        refine ih (g1 ++ p) g3 (by rw [hg]; simp) (by simp [hg1]) hg3 (fun p hp => hA p (by simp [hp])) hpre3 ?_
        rw [List.length_append]; exact this

/-- Nothing is lost, whatever the hash function. -/
theorem reach_of_covers (h : TabInv hw mix h0 t id A) (g : List Txt) (hg : g ≠ []) (x : Nat) : ∀ qs : List (List Txt),
    (∀ p ∈ qs, A x p) → g <:+: qs.flatten → Reach (buildGraph t mix h0 (g.map hw)) x (g.length - 1) := by
  intro qs
  induction qs with
  | nil => intro _ hi; simp at hi; exact absurd hi hg
  | cons p qs ih =>
    intro hA hi
    have hAp := hA p (by simp)
    have hA' : ∀ p ∈ qs, A x p := fun p hp => hA p (by simp [hp])
    obtain ⟨a, b, hab⟩ := hi
    rw [List.flatten_cons, List.append_assoc] at hab
    by_cases hle : p.length ≤ a.length
    · have hp' : p <+: a := List.prefix_of_prefix_length_le (l₃ := a ++ (g ++ b)) (by rw [hab]; exact List.prefix_append _ _)
        (List.prefix_append _ _) hle
      obtain ⟨a', rfl⟩ := hp'
      rw [List.append_assoc] at hab
      exact ih hA' ⟨a', b, by rw [List.append_assoc]; exact List.append_cancel_left hab⟩
    · have ha' : a <+: p := List.prefix_of_prefix_length_le (l₃ := a ++ (g ++ b)) (List.prefix_append _ _)
        (by rw [hab]; exact List.prefix_append _ _) (by omega)
      obtain ⟨p', rfl⟩ := ha'
      have hp' : p' ≠ [] := by rintro rfl; simp at hle
      rw [List.append_assoc] at hab
      have hab := List.append_cancel_left hab
      by_cases hle' : g.length ≤ p'.length
      · have hgp : g <+: p' := List.prefix_of_prefix_length_le (l₃ := g ++ b) (List.prefix_append _ _)
          (by rw [hab]; exact List.prefix_append _ _) hle'
        have hin : g <:+: a ++ p' := hgp.isInfix.trans (List.suffix_append a p').isInfix
        refine .start _ ((mem_buildGraph g _).mpr (Or.inl ⟨g, [], by simp, hg, present_of h hAp hin, rfl⟩)) rfl ?_
        rw [if_pos rfl, h.sub]
        exact ⟨_, g, hAp, hg, hin, rfl⟩
      · have hpg : p' <+: g := List.prefix_of_prefix_length_le (l₃ := g ++ b) (by rw [hab]; exact List.prefix_append _ _)
          (List.prefix_append _ _) (by omega)
        obtain ⟨g3, rfl⟩ := hpg
        have hg3 : g3 ≠ [] := by rintro rfl; simp at hle'
        rw [List.append_assoc] at hab
        have hab := List.append_cancel_left hab
        refine reach_rest h _ x qs p' g3 rfl hp' hg3 hA' ⟨b, hab⟩ ?_
        refine .start _ ((mem_buildGraph _ _).mpr (Or.inl ⟨p', g3, rfl, hp',
          present_of h hAp (List.suffix_append a p').isInfix, rfl⟩)) rfl ?_
        rw [if_neg hg3, h.right]
        exact ⟨_, p', hAp, hp', List.suffix_append a p', rfl⟩

/-- No two lists of words have the same hash. -/
def Distinct (hw : Txt → H) (mix : H → H → H) (h0 : H) : Prop :=
  ∀ p q : List Txt, p ≠ [] → q ≠ [] → keyOf hw mix h0 p = keyOf hw mix h0 q → p = q

theorem reach_sound (h : TabInv hw mix h0 t id A) (hd : Distinct hw mix h0) (g : List Txt) (x v : Nat)
    (hr : Reach (buildGraph t mix h0 (g.map hw)) x v) :
    ∃ c d, g = c ++ d ∧ c ≠ [] ∧ v = c.length - 1 ∧ ∃ qs : List (List Txt), (∀ q ∈ qs, A x q) ∧
      (if d = [] then c <:+: qs.flatten else c <:+ qs.flatten) := by
  induction hr with
  | start a ha hs hx =>
    rcases (mem_buildGraph g a).mp ha with ⟨q, b, rfl, hq, hp, rfl⟩ | ⟨c, q, b, rfl, hc, hq, hp, rfl⟩
    · refine ⟨q, b, rfl, hq, rfl, ?_⟩
      simp only [] at hx
      split at hx
      · obtain ⟨p, q', h1, h2, h3, h4⟩ := (h.sub _ _).mp hx
        obtain rfl := hd _ _ h2 hq h4
        rename_i hb
        exact ⟨[p], by simpa using h1, by rw [if_pos hb]; simpa using h3⟩
      · obtain ⟨p, q', h1, h2, h3, h4⟩ := (h.right _ _).mp hx
        obtain rfl := hd _ _ h2 hq h4
        rename_i hb
        exact ⟨[p], by simpa using h1, by rw [if_neg hb]; simpa using h3⟩
    · cases hs
  | step a u ha hs hx hu ih =>
    rcases (mem_buildGraph g a).mp ha with ⟨q, b, rfl, hq, hp, rfl⟩ | ⟨c, q, b, rfl, hc, hq, hp, rfl⟩
    · cases hs
    · simp only [Option.some.injEq] at hs
      obtain ⟨c', d', hcd, hc', rfl, qs, hqs, hsuf⟩ := ih
      have hlc := List.length_pos_iff.mpr hc
      have hlc' := List.length_pos_iff.mpr hc'
      have hlen : c.length = c'.length := by omega
      rw [List.append_assoc] at hcd
      obtain ⟨rfl, rfl⟩ := List.append_inj hcd hlen
      rw [if_neg (by simp [hq])] at hsuf
      obtain ⟨z, hz⟩ := hsuf
      refine ⟨c ++ q, b, by simp, by simp [hc], by simp, ?_⟩
      simp only [] at hx
      split at hx
      · rename_i hb
        obtain ⟨p, q', h1, h2, ⟨y, hy⟩, h4⟩ := (h.left _ _).mp hx
        obtain rfl := hd _ _ h2 hq h4
        refine ⟨qs ++ [p], ?_, ?_⟩
        · intro r hr; rcases List.mem_append.mp hr with hr | hr
          · exact hqs r hr
          · rw [List.mem_singleton.mp hr]; exact h1
        · rw [if_pos hb]; exact ⟨z, y, by simp [← hz, ← hy]⟩
      · rename_i hb
        obtain ⟨q', h1, h2, h4⟩ := (h.phrase _ _).mp hx
        obtain rfl := hd _ _ h2 hq h4
        refine ⟨qs ++ [q'], ?_, ?_⟩
        · intro r hr; rcases List.mem_append.mp hr with hr | hr
          · exact hqs r hr
          · rw [List.mem_singleton.mp hr]; exact h1
        · rw [if_neg hb]; exact ⟨z, by simp [← hz]⟩

/-- Without collisions the sentences with a path to the last vertex are those that cover the n-gram. -/
theorem reach_covers (h : TabInv hw mix h0 t id A) (hd : Distinct hw mix h0) (g : List Txt) (x : Nat)
    (hr : Reach (buildGraph t mix h0 (g.map hw)) x (g.length - 1)) :
    ∃ qs : List (List Txt), (∀ q ∈ qs, A x q) ∧ g <:+: qs.flatten := by
  obtain ⟨c, d, rfl, hc, hv, qs, hqs, hi⟩ := reach_sound h hd g x _ hr
  have : d = [] := by
    have h1 := List.length_pos_iff.mpr hc
    rw [List.length_append] at hv
    exact List.length_eq_zero_iff.mp (by omega)
  subst this
  rw [if_pos rfl] at hi
  exact ⟨qs, hqs, by simpa using hi⟩

end Graph
end Cdec.Klm.Phrase
