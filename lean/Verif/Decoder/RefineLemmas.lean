import Verif.Decoder.Refine
import Verif.Decoder.ParserPassive
import Verif.HG.InsideLemmas
import Verif.Decoder.ParserSem
import Mathlib.Tactic.ByContra
/-! The invariant of `RefineForest`. -/
namespace Cdec.Dec.Refine
open Cdec.HG Parser.Spec
variable {R φ : Type}

/-! ## Derivations by applications -/

/-- A tree of payloads that is a derivation of a node. -/
def Der {β : Type} (g : Hypergraph β) (v : Nat) (t : LTree β) : Prop := ∃ T, IsDeriv g v T ∧ Shows g T t

theorem app_iff {β : Type} {F : Hypergraph β} {e : Nat} {ts : List Nat} {x : β} : F.app e = some (ts, x) ↔ ∃ ed, F.edges[e]? = some ed ∧ ed.tails = ts ∧ ed.val = x := by
  unfold Hypergraph.app
  rw [Option.map_eq_some_iff]
  constructor
  · rintro ⟨ed, h1, h2⟩
    rw [Prod.mk.injEq] at h2
    exact ⟨ed, h1, h2⟩
  · rintro ⟨ed, h1, h2, h3⟩
    exact ⟨ed, h1, by rw [h2, h3]⟩

theorem der_forall {β : Type} {g : Hypergraph β} {ts : List Nat} {ch : List (LTree β)} :
    List.Forall₂ (Der g) ts ch ↔ ∃ Ts, List.Forall₂ (IsDeriv g) ts Ts ∧ List.Forall₂ (Shows g) Ts ch := by
  constructor
  · intro h
    induction h with
    | nil => exact ⟨[], .nil, .nil⟩
    | cons h _ ih =>
      obtain ⟨T, h1, h2⟩ := h
      obtain ⟨Ts, h3, h4⟩ := ih
      exact ⟨T :: Ts, .cons h1 h3, .cons h2 h4⟩
  · rintro ⟨Ts, h1, h2⟩
    induction h1 generalizing ch with
    | nil => cases h2; exact .nil
    | cons h _ ih =>
      cases h2 with
      | cons a b => exact .cons ⟨_, h, a⟩ (ih b)

theorem der_iff {β : Type} {g : Hypergraph β} {v : Nat} {b : β} {ch : List (LTree β)} :
    Der g v (.node b ch) ↔ ∃ ts, some (ts, b) ∈ g.apps v ∧ List.Forall₂ (Der g) ts ch := by
  constructor
  · rintro ⟨⟨e, Ts⟩, h1, h2⟩
    obtain ⟨he, hT⟩ := isDeriv_iff.1 h1
    obtain ⟨x, hx, rfl, hs⟩ := Parser.shows_iff.1 h2
    refine ⟨x.tails, List.mem_map.2 ⟨e, he, app_iff.2 ⟨x, hx, rfl, rfl⟩⟩, der_forall.2 ⟨Ts, ?_, hs⟩⟩
    unfold Hypergraph.tails at hT
    rw [hx] at hT
    exact hT
  · rintro ⟨ts, h1, h2⟩
    obtain ⟨e, he, ha⟩ := List.mem_map.1 h1
    obtain ⟨x, hx, rfl, rfl⟩ := app_iff.1 ha
    obtain ⟨Ts, h3, h4⟩ := der_forall.1 h2
    refine ⟨.node e Ts, isDeriv_iff.2 ⟨he, ?_⟩, Parser.shows_iff.2 ⟨x, hx, rfl, h4⟩⟩
    unfold Hypergraph.tails
    rw [hx]
    exact h3

/-! ## Fine rules -/

/-- The categories of a fine rule at the places where the coarse rule has categories. -/
def fineCats (f ff : List Int) : List Int := (ntPositions f).map fun p => ff.getD p 0

/-- The splits of the tails. -/
def Resolved (s2n : Nat → Int → Option Nat) (tails : List Nat) (cats : List Int) (ts : List Nat) : Prop :=
  List.Forall₂ (fun (p : Nat × Int) w => s2n p.1 p.2 = some w) (tails.zip cats) ts ∧ tails.length = cats.length

theorem tailLoop_spec (s2n : Nat → Int → Option Nat) (tails : List Nat) (ff : List Int) (ps : List Nat) : ∀ (k : Nat), tails.length = k + ps.length →
    ((tailLoop s2n tails ff ps k).length = ps.length → Resolved s2n (tails.drop k) (ps.map fun p => ff.getD p 0) (tailLoop s2n tails ff ps k)) ∧
    (∀ ts, Resolved s2n (tails.drop k) (ps.map fun p => ff.getD p 0) ts → tailLoop s2n tails ff ps k = ts) ∧
    (tailLoop s2n tails ff ps k).length ≤ ps.length := by
  induction ps with
  | nil =>
    intro k hk
    have : tails.drop k = [] := List.drop_eq_nil_iff.2 (by simp at hk; omega)
    refine ⟨fun _ => ⟨?_, by simp [this]⟩, ?_, by simp [tailLoop]⟩
    · rw [this]; exact .nil
    · rintro ts ⟨h, _⟩
      rw [this] at h
      cases h
      rfl
  | cons p ps ih =>
    intro k hk
    simp only [List.length_cons] at hk
    obtain ⟨i1, i2, i3⟩ := ih (k + 1) (by omega)
    have hkl : k < tails.length := by omega
    have hd : tails.drop k = tails.getD k 0 :: tails.drop (k + 1) := by
      rw [List.drop_eq_getElem_cons hkl, List.getD_eq_getElem?_getD, List.getElem?_eq_getElem hkl]; rfl
    rw [hd, List.map_cons]
    unfold tailLoop
    cases hs : s2n (tails.getD k 0) (ff.getD p 0) with
    | none =>
      refine ⟨by simp, ?_, by simp⟩
      rintro ts ⟨h, _⟩
      rw [List.zip_cons_cons] at h
      cases h with
      | cons a b => simp only [] at a; rw [hs] at a; simp at a
    | some v =>
      refine ⟨fun hl => ?_, ?_, by simpa using i3⟩
      · obtain ⟨h1, h2⟩ := i1 (by simpa using hl)
        exact ⟨.cons hs h1, by simpa using h2⟩
      · rintro ts ⟨h, hl⟩
        rw [List.zip_cons_cons] at h
        cases h with
        | @cons _ b _ l a c =>
          simp only [] at a
          rw [hs] at a
          cases a
          rw [i2 l ⟨c, by simpa using hl⟩]

theorem resolved_congr {s2n s2n' : Nat → Int → Option Nat} {tails : List Nat} {cats : List Int} {ts : List Nat} (h : ∀ t ∈ tails, ∀ c, s2n t c = s2n' t c) :
    Resolved s2n tails cats ts ↔ Resolved s2n' tails cats ts := by
  unfold Resolved
  refine and_congr_left fun _ => ?_
  have : ∀ (l : List (Nat × Int)) (ts : List Nat), (∀ p ∈ l, s2n p.1 p.2 = s2n' p.1 p.2) →
      (List.Forall₂ (fun (p : Nat × Int) w => s2n p.1 p.2 = some w) l ts ↔ List.Forall₂ (fun (p : Nat × Int) w => s2n' p.1 p.2 = some w) l ts) := by
    intro l
    induction l with
    | nil => intro ts _; cases ts <;> simp
    | cons p l ih =>
      intro ts hp
      cases ts with
      | nil => simp
      | cons w ts => rw [List.forall₂_cons, List.forall₂_cons, ih ts (fun q hq => hp q (by simp [hq])), hp p (by simp)]
  exact this _ _ fun p hp => h p.1 (List.of_mem_zip hp).1 p.2

/-- A fine rule for an edge of a node. -/
structure Job (R φ : Type) where
  v : Nat
  tails : List Nat
  x : RVal R φ
  fr : R

/-- The payload of the refined edge. -/
def Job.val (d : Job R φ) : RVal R φ := ⟨d.fr, d.x.i, d.x.j, d.x.cost⟩

/-- `ts` is the vector of tails of the refined edge. -/
def Job.Res (E : Rules R) (s2n : Nat → Int → Option Nat) (d : Job R φ) (ts : List Nat) : Prop := Resolved s2n d.tails (fineCats (E.f d.x.rule) (E.f d.fr)) ts

/-- After the jobs `done`, while node `cur` is refined. -/
structure Inv' (E : Rules R) (last cur : Nat) (done : Job R φ → Prop) (s : State R φ) : Prop where
  inv : Inv s.forest
  le : ∀ d, done d → d.v ≤ cur
  tl : ∀ d, done d → ∀ t ∈ d.tails, t < d.v
  lt : ∀ v c w, s.s2n v c = some w → w < s.forest.nodes.length
  cur : ∀ v c w, s.s2n v c = some w → v ≤ cur
  ord : ∀ v c w v' c' w', s.s2n v c = some w → s.s2n v' c' = some w' → v < v' → w < w'
  inj : ∀ v c v' c' w, s.s2n v c = some w → s.s2n v' c' = some w → v = v' ∧ c = c'
  surj : ∀ w < s.forest.nodes.length, ∃ v c, s.s2n v c = some w
  apps : ∀ v c w, s.s2n v c = some w → ∀ a, a ∈ s.forest.apps w ↔ ∃ d ts, done d ∧ d.v = v ∧ E.lhs d.fr = c ∧ d.Res E s.s2n ts ∧ a = some (ts, d.val)
  none : ∀ d ts, done d → d.Res E s.s2n ts → s.s2n d.v (E.lhs d.fr) ≠ none
  goal : s.goal = true ↔ ∃ c w, s.s2n last c = some w
  full : ∀ v c w, s.s2n v c = some w → s.forest.apps w ≠ []

theorem resolved_mem {s2n : Nat → Int → Option Nat} {tails : List Nat} {cats : List Int} {ts : List Nat} (h : Resolved s2n tails cats ts) :
    ∀ w ∈ ts, ∃ t ∈ tails, ∃ c, s2n t c = some w := by
  obtain ⟨h1, _⟩ := h
  intro w hw
  obtain ⟨p, hp, hpw⟩ : ∃ p ∈ tails.zip cats, s2n p.1 p.2 = some w := by
    clear * - h1 hw
    generalize tails.zip cats = l at h1
    induction h1 with
    | nil => simp at hw
    | cons a _ ih =>
      rcases List.mem_cons.1 hw with rfl | hw
      · exact ⟨_, by simp, a⟩
      · obtain ⟨p, hp, h⟩ := ih hw
        exact ⟨p, by simp [hp], h⟩
  exact ⟨p.1, (List.of_mem_zip hp).1, p.2, hpw⟩

theorem resolved_fun {s2n : Nat → Int → Option Nat} {tails : List Nat} {cats : List Int} {ts ts' : List Nat} (h : Resolved s2n tails cats ts) (h' : Resolved s2n tails cats ts') :
    ts = ts' := by
  obtain ⟨h1, _⟩ := h
  obtain ⟨h2, _⟩ := h'
  clear * - h1 h2
  generalize tails.zip cats = l at h1 h2
  induction h1 generalizing ts' with
  | nil => cases h2; rfl
  | cons a _ ih =>
    cases h2 with
    | cons b c =>
      rw [a] at b
      cases b
      rw [ih c]

theorem fineStep_inv {E : Rules R} {last cur : Nat} {done : Job R φ → Prop} {s : State R φ} (h : Inv' E last cur done s) (tails : List Nat) (x : RVal R φ) (fr : R)
    (ht : ∀ t ∈ tails, t < cur) (hl : tails.length = (ntPositions (E.f x.rule)).length) :
    Inv' E last cur (fun d => done d ∨ d = ⟨cur, tails, x, fr⟩) (fineStep E last cur tails x s fr) := by
  obtain ⟨t1, t2, _⟩ := tailLoop_spec s.s2n tails (E.f fr) (ntPositions (E.f x.rule)) 0 (by omega)
  rw [List.drop_zero] at t1 t2
  obtain ⟨tail, htail⟩ : ∃ tail, tail = tailLoop s.s2n tails (E.f fr) (ntPositions (E.f x.rule)) 0 := ⟨_, rfl⟩
  rw [← htail] at t1 t2
  have hle : ∀ d : Job R φ, (done d ∨ d = ⟨cur, tails, x, fr⟩) → d.v ≤ cur := by
    rintro d (hd | rfl)
    · exact h.le d hd
    · exact Nat.le_refl _
  have htl : ∀ d : Job R φ, (done d ∨ d = ⟨cur, tails, x, fr⟩) → ∀ t ∈ d.tails, t < d.v := by
    rintro d (hd | rfl)
    · exact h.tl d hd
    · exact ht
  unfold fineStep
  simp only [← htail]
  by_cases hlen : tail.length = (ntPositions (E.f x.rule)).length
  · rw [if_pos hlen]
    have hres : Job.Res E s.s2n (⟨cur, tails, x, fr⟩ : Job R φ) tail := t1 hlen
    have htlt : ∀ w ∈ tail, w < s.forest.nodes.length := by
      intro w hw
      obtain ⟨t, _, c, hc⟩ := resolved_mem hres w hw
      exact h.lt _ _ _ hc
    have hlen0 : (addEdge s.forest ⟨fr, x.i, x.j, x.cost⟩ tail).nodes.length = s.forest.nodes.length := by simp [addEdge, indexTails_length]
    cases hs : s.s2n cur (E.lhs fr) with
    | some w0 =>
      simp only []
      obtain ⟨g1, g2, g3, g4⟩ := grow_old h.inv ⟨fr, x.i, x.j, x.cost⟩ tail htlt w0 (h.lt _ _ _ hs)
      refine ⟨g1, hle, htl, ?_, h.cur, h.ord, h.inj, ?_, ?_, ?_, h.goal, ?_⟩
      · intro v c w hw; rw [g2]; exact h.lt v c w hw
      · intro w hw; rw [g2] at hw; exact h.surj w hw
      · intro v c w hw a
        simp only [g3]
        by_cases hww : w = w0
        · subst hww
          obtain ⟨rfl, rfl⟩ := h.inj _ _ _ _ _ hw hs
          rw [if_pos rfl, List.mem_append, h.apps _ _ _ hw, List.mem_singleton]
          constructor
          · rintro (⟨d, ts, h1, h2, h3, h4, h5⟩ | rfl)
            · exact ⟨d, ts, .inl h1, h2, h3, h4, h5⟩
            · exact ⟨⟨v, tails, x, fr⟩, tail, .inr rfl, rfl, rfl, hres, rfl⟩
          · rintro ⟨d, ts, h1 | rfl, h2, h3, h4, h5⟩
            · exact .inl ⟨d, ts, h1, h2, h3, h4, h5⟩
            · right; rw [h5, resolved_fun h4 hres]; rfl
        · rw [if_neg hww, h.apps _ _ _ hw]
          constructor
          · rintro ⟨d, ts, h1, h2⟩; exact ⟨d, ts, .inl h1, h2⟩
          · rintro ⟨d, ts, h1 | rfl, h2, h3, h4, h5⟩
            · exact ⟨d, ts, h1, h2, h3, h4, h5⟩
            · subst h2; subst h3
              rw [hs] at hw
              exact absurd (Option.some.inj hw).symm hww
      · rintro d ts (hd | rfl) hr
        · exact h.none d ts hd hr
        · show s.s2n cur (E.lhs fr) ≠ none
          rw [hs]; simp
      · intro v c w hw
        simp only [g3]
        split
        · simp
        · exact h.full v c w hw
    | none =>
      simp only []
      obtain ⟨g1, g2, g3, g4, g5⟩ := grow_new h.inv ⟨fr, x.i, x.j, x.cost⟩ tail htlt (E.lhs fr)
      rw [hlen0]
      obtain ⟨s2n', hs2n⟩ : ∃ s2n', s2n' = (fun a c => if a = cur ∧ c = E.lhs fr then some s.forest.nodes.length else s.s2n a c) := ⟨_, rfl⟩
      rw [← hs2n]
      have hn : ∀ v c w, s2n' v c = some w ↔ (v = cur ∧ c = E.lhs fr ∧ w = s.forest.nodes.length) ∨ s.s2n v c = some w := by
        intro v c w
        rw [hs2n]
        simp only []
        by_cases hvc : v = cur ∧ c = E.lhs fr
        · obtain ⟨rfl, rfl⟩ := hvc
          simp [hs, eq_comm]
        · rw [if_neg hvc]
          constructor
          · exact .inr
          · rintro (⟨h1, h2, _⟩ | h1)
            · exact absurd ⟨h1, h2⟩ hvc
            · exact h1
      have hsame : ∀ d : Job R φ, (done d ∨ d = ⟨cur, tails, x, fr⟩) → ∀ ts, d.Res E s2n' ts ↔ d.Res E s.s2n ts := by
        intro d hd ts
        apply resolved_congr
        intro t htd c
        have h1 := hle d hd
        have h2 := htl d hd t htd
        rw [hs2n]
        simp only []
        rw [if_neg (by omega)]
      refine ⟨g1, hle, htl, ?_, ?_, ?_, ?_, ?_, ?_, ?_, ?_, ?_⟩
      · intro v c w hw
        rw [g2]
        rcases (hn v c w).1 hw with ⟨_, _, rfl⟩ | hw
        · omega
        · have := h.lt v c w hw; omega
      · intro v c w hw
        rcases (hn v c w).1 hw with ⟨rfl, _⟩ | hw
        · exact Nat.le_refl _
        · exact h.cur v c w hw
      · intro v c w v' c' w' hw hw' hvv
        rcases (hn v c w).1 hw with ⟨rfl, rfl, rfl⟩ | hw
        · rcases (hn v' c' w').1 hw' with ⟨rfl, _⟩ | hw'
          · omega
          · have := h.cur _ _ _ hw'; omega
        · rcases (hn v' c' w').1 hw' with ⟨_, _, rfl⟩ | hw'
          · exact h.lt _ _ _ hw
          · exact h.ord _ _ _ _ _ _ hw hw' hvv
      · intro v c v' c' w hw hw'
        rcases (hn v c w).1 hw with ⟨rfl, rfl, rfl⟩ | hw
        · rcases (hn v' c' _).1 hw' with ⟨rfl, rfl, _⟩ | hw'
          · exact ⟨rfl, rfl⟩
          · have := h.lt _ _ _ hw'; omega
        · rcases (hn v' c' _).1 hw' with ⟨_, _, rfl⟩ | hw'
          · have := h.lt _ _ _ hw; omega
          · exact h.inj _ _ _ _ _ hw hw'
      · intro w hw
        rw [g2] at hw
        by_cases hww : w = s.forest.nodes.length
        · exact ⟨cur, E.lhs fr, (hn _ _ _).2 (.inl ⟨rfl, rfl, hww⟩)⟩
        · obtain ⟨v, c, hvc⟩ := h.surj w (by omega)
          exact ⟨v, c, (hn _ _ _).2 (.inr hvc)⟩
      · intro v c w hw a
        simp only [g3]
        rcases (hn v c w).1 hw with ⟨rfl, rfl, rfl⟩ | hw1
        · rw [if_pos rfl, List.mem_singleton]
          constructor
          · rintro rfl
            exact ⟨⟨v, tails, x, fr⟩, tail, .inr rfl, rfl, rfl, (hsame _ (.inr rfl) _).2 hres, rfl⟩
          · rintro ⟨d, ts, hd, h2, h3, h4, h5⟩
            rw [hsame d hd] at h4
            rcases hd with hd | rfl
            · exact absurd (h2 ▸ h3 ▸ hs) (h.none d ts hd h4)
            · rw [h5, resolved_fun h4 hres]; rfl
        · rw [if_neg (by have := h.lt _ _ _ hw1; omega), h.apps _ _ _ hw1]
          constructor
          · rintro ⟨d, ts, h1, h2, h3, h4, h5⟩; exact ⟨d, ts, .inl h1, h2, h3, (hsame d (.inl h1) ts).2 h4, h5⟩
          · rintro ⟨d, ts, hd, h2, h3, h4, h5⟩
            rw [hsame d hd] at h4
            rcases hd with hd | rfl
            · exact ⟨d, ts, hd, h2, h3, h4, h5⟩
            · subst h2; subst h3
              rw [hs] at hw1
              simp at hw1
      · intro d ts hd hr
        rw [hsame d hd] at hr
        rcases hd with hd | rfl
        · obtain ⟨w, hw⟩ := Option.ne_none_iff_exists'.1 (h.none d ts hd hr)
          show s2n' d.v (E.lhs d.fr) ≠ none
          rw [(hn _ _ _).2 (.inr hw)]; simp
        · show s2n' cur (E.lhs fr) ≠ none
          rw [(hn cur (E.lhs fr) _).2 (.inl ⟨rfl, rfl, rfl⟩)]; simp
      · rw [Bool.or_eq_true, h.goal, decide_eq_true_iff]
        constructor
        · rintro (⟨c, w, hw⟩ | rfl)
          · exact ⟨c, w, (hn _ _ _).2 (.inr hw)⟩
          · exact ⟨_, _, (hn _ _ _).2 (.inl ⟨rfl, rfl, rfl⟩)⟩
        · rintro ⟨c, w, hw⟩
          rcases (hn _ _ _).1 hw with ⟨rfl, _⟩ | hw
          · exact .inr rfl
          · exact .inl ⟨c, w, hw⟩
      · intro v c w hw
        simp only [g3]
        rcases (hn v c w).1 hw with ⟨_, _, rfl⟩ | hw
        · simp
        · rw [if_neg (by have := h.lt _ _ _ hw; omega)]
          exact h.full v c w hw
  · rw [if_neg hlen]
    have hno : ∀ ts, ¬ Job.Res E s.s2n (⟨cur, tails, x, fr⟩ : Job R φ) ts := by
      intro ts hr
      have := t2 ts hr
      apply hlen
      rw [this, ← hr.1.length_eq]
      have := hr.2
      simp only [fineCats, List.length_map] at this
      simp [fineCats, this]
    refine ⟨h.inv, hle, htl, h.lt, h.cur, h.ord, h.inj, h.surj, ?_, ?_, h.goal, h.full⟩
    · intro v c w hw a
      rw [h.apps v c w hw]
      constructor
      · rintro ⟨d, ts, h1, h2⟩; exact ⟨d, ts, .inl h1, h2⟩
      · rintro ⟨d, ts, h1 | rfl, h2, h3, h4, h5⟩
        · exact ⟨d, ts, h1, h2, h3, h4, h5⟩
        · exact absurd h4 (hno ts)
    · rintro d ts (hd | rfl) hr
      · exact h.none d ts hd hr
      · exact absurd hr (hno ts)

theorem Inv'.congr {E : Rules R} {last cur : Nat} {done done' : Job R φ → Prop} {s : State R φ} (h : Inv' E last cur done s) (hd : ∀ d, done d ↔ done' d) : Inv' E last cur done' s := by
  obtain rfl : done = done' := funext fun d => propext (hd d)
  exact h

theorem Inv'.next {E : Rules R} {last cur : Nat} {done : Job R φ → Prop} {s : State R φ} (h : Inv' E last cur done s) : Inv' E last (cur + 1) done s :=
  ⟨h.inv, fun d hd => Nat.le_succ_of_le (h.le d hd), h.tl, h.lt, fun v c w hw => Nat.le_succ_of_le (h.cur v c w hw), h.ord, h.inj, h.surj, h.apps, h.none, h.goal, h.full⟩

theorem fines_inv {E : Rules R} {last cur : Nat} (tails : List Nat) (x : RVal R φ) (ht : ∀ t ∈ tails, t < cur) (hl : tails.length = (ntPositions (E.f x.rule)).length) (frs : List R) :
    ∀ {done : Job R φ → Prop} {s : State R φ}, Inv' E last cur done s →
    Inv' E last cur (fun d => done d ∨ ∃ fr ∈ frs, d = ⟨cur, tails, x, fr⟩) (frs.foldl (fineStep E last cur tails x) s) := by
  induction frs with
  | nil => intro done s h; exact h.congr (by simp)
  | cons fr frs ih =>
    intro done s h
    refine (ih (fineStep_inv h tails x fr ht hl)).congr fun d => ?_
    simp only [List.mem_cons, exists_eq_or_imp, or_assoc]

/-- The jobs of an edge. -/
def EdgeJob (E : Rules R) (g : Hypergraph (RVal R φ)) (v e : Nat) (d : Job R φ) : Prop :=
  d.v = v ∧ g.app e = some (d.tails, d.x) ∧ ∃ frs, E.fine d.x.rule = some frs ∧ d.fr ∈ frs

/-- The jobs of a node. -/
def NodeJob (E : Rules R) (g : Hypergraph (RVal R φ)) (d : Job R φ) : Prop := ∃ e ∈ g.inE d.v, EdgeJob E g d.v e d

/-- What must hold of an edge of node `v`. -/
def Fit (E : Rules R) (g : Hypergraph (RVal R φ)) (v e : Nat) : Prop :=
  ∃ ed frs, g.edges[e]? = some ed ∧ E.fine ed.val.rule = some frs ∧ ed.tails.length = (ntPositions (E.f ed.val.rule)).length ∧ ∀ t ∈ ed.tails, t < v

theorem edges_inv {E : Rules R} {g : Hypergraph (RVal R φ)} {last cur : Nat} (es : List Nat) : ∀ {done : Job R φ → Prop} {s : State R φ}, Inv' E last cur done s → (∀ e ∈ es, Fit E g cur e) →
    ∃ s', es.foldlM (edgeStep E g last cur) s = some s' ∧ Inv' E last cur (fun d => done d ∨ ∃ e ∈ es, EdgeJob E g cur e d) s' := by
  induction es with
  | nil => intro done s h _; exact ⟨s, rfl, h.congr (by simp)⟩
  | cons e es ih =>
    intro done s h hf
    obtain ⟨ed, frs, h1, h2, h3, h4⟩ := hf e (by simp)
    obtain ⟨s', e1, e2⟩ := ih (fines_inv ed.tails ed.val h4 h3 frs h) (fun x hx => hf x (by simp [hx]))
    refine ⟨s', ?_, e2.congr fun d => ?_⟩
    · rw [List.foldlM_cons]
      have : edgeStep E g last cur s e = some (frs.foldl (fineStep E last cur ed.tails ed.val) s) := by unfold edgeStep; rw [h1]; simp only [h2]
      rw [this]
      exact e1
    · simp only [List.mem_cons, exists_eq_or_imp, or_assoc]
      refine or_congr_right (or_congr_left ?_)
      constructor
      · rintro ⟨fr, hfr, rfl⟩
        exact ⟨rfl, app_iff.2 ⟨ed, h1, rfl, rfl⟩, frs, h2, hfr⟩
      · rintro ⟨hv, ha, frs', hf', hm⟩
        obtain ⟨ed', h1', h5, h6⟩ := app_iff.1 ha
        rw [h1] at h1'
        cases h1'
        rw [← h6, h2] at hf'
        cases hf'
        refine ⟨d.fr, hm, ?_⟩
        cases d
        simp only [] at hv h5 h6
        subst hv; subst h5; subst h6; rfl

theorem nodes_inv {E : Rules R} {g : Hypergraph (RVal R φ)} {last : Nat} (n : Nat) : (∀ v < n, ∀ e ∈ g.inE v, Fit E g v e) →
    ∃ s', (List.range n).foldlM (fun s v => (g.inE v).foldlM (edgeStep E g last v) s) (⟨empty, fun _ _ => none, false⟩ : State R φ) = some s' ∧
      Inv' E last n (fun d => d.v < n ∧ NodeJob E g d) s' := by
  induction n with
  | zero =>
    intro _
    refine ⟨_, rfl, inv_empty, ?_, ?_, ?_, ?_, ?_, ?_, ?_, ?_, ?_, ?_, ?_⟩ <;> simp [empty]
  | succ n ih =>
    intro hf
    obtain ⟨s1, h1, h2⟩ := ih (fun v hv => hf v (by omega))
    obtain ⟨s2, h3, h4⟩ := edges_inv (g.inE n) h2 (hf n (by omega))
    refine ⟨s2, ?_, ?_⟩
    · rw [List.range_succ, List.foldlM_append, h1]
      simp only [Option.bind_eq_bind, Option.bind_some, List.foldlM_cons, List.foldlM_nil, h3]
      rfl
    · refine (h4.congr fun d => ?_).next
      constructor
      · rintro (⟨hd, hj⟩ | ⟨e, he, hj⟩)
        · exact ⟨by omega, hj⟩
        · obtain rfl : d.v = n := hj.1
          exact ⟨by omega, e, he, hj⟩
      · rintro ⟨hd, e, he, hj⟩
        by_cases hv : d.v = n
        · subst hv; exact .inr ⟨e, he, hj⟩
        · exact .inl ⟨by omega, e, he, hj⟩

/-- The whole of `RefineForest`. -/
theorem refine_inv {E : Rules R} {g : Hypergraph (RVal R φ)} (hf : ∀ v < g.nodes.length, ∀ e ∈ g.inE v, Fit E g v e) :
    ∃ s, refine E g = some (s.goal, s.forest) ∧ Inv' E (g.nodes.length - 1) g.nodes.length (NodeJob E g) s := by
  obtain ⟨s, h1, h2⟩ := nodes_inv (E := E) (last := g.nodes.length - 1) g.nodes.length hf
  refine ⟨s, by unfold refine; rw [h1]; rfl, h2.congr fun d => ?_⟩
  constructor
  · exact fun h => h.2
  · intro h
    refine ⟨?_, h⟩
    obtain ⟨e, he, _⟩ := h
    by_contra hv
    rw [inE_oob g d.v (by omega)] at he
    simp at he

end Cdec.Dec.Refine
