import Verif.Decoder.ParserLoop
import Verif.HG.InsideLemmas
/-! The finished chart and the parses of the lattice. -/
namespace Cdec.Dec.Parser
open Cdec.HG Spec
variable {ι R φ : Type}

theorem shows_iff {β : Type} {g : Hypergraph β} {e : Nat} {ch : List Tree} {b : β} {ts : List (LTree β)} :
    Shows g (.node e ch) (.node b ts) ↔ ∃ x, g.edges[e]? = some x ∧ x.val = b ∧ List.Forall₂ (Shows g) ch ts := by
  constructor
  · intro h
    cases h with
    | node h1 h2 => exact ⟨_, h1, rfl, h2⟩
  · rintro ⟨x, h1, rfl, h2⟩
    exact .node h1 h2

theorem mem_nodeExts {q : Passive R φ} {G : Gram ι R} {row : Row ι φ} {k m : Nat} {it : Item ι φ} :
    it ∈ nodeExts q G row k m ↔ ∃ y ∈ row k, ∃ v ∈ q.chart k m, ∃ g, G.extend y.g (q.cat v) = some g ∧ it = ⟨g, y.ants ++ [v], y.feats, y.steps ++ [.node v]⟩ := by
  unfold nodeExts
  rw [List.mem_flatMap]
  constructor
  · rintro ⟨y, hy, h⟩
    obtain ⟨v, hv, e⟩ := List.mem_filterMap.1 h
    unfold extNode at e
    obtain ⟨g, hg, e⟩ := Option.map_eq_some_iff.1 e
    exact ⟨y, hy, v, hv, g, hg, e.symm⟩
  · rintro ⟨y, hy, v, hv, g, hg, rfl⟩
    refine ⟨y, hy, List.mem_filterMap.2 ⟨v, hv, ?_⟩⟩
    unfold extNode
    rw [hg]
    rfl

variable [Add φ]

theorem mem_arcExts {p : Env ι R φ} {G : Gram ι R} {row : Row ι φ} {k m : Nat} {it : Item ι φ} :
    it ∈ arcExts p G row k m ↔ ∃ idx a, (p.lat.getD k [])[idx]? = some a ∧ m = k + a.len ∧ ∃ y ∈ row k, ∃ g, (if a.label = p.eps then some y.g else G.extend y.g a.label) = some g ∧
      it = ⟨g, y.ants, y.feats + a.feats, y.steps ++ [.arc k idx]⟩ := by
  unfold arcExts
  rw [List.mem_flatMap]
  constructor
  · rintro ⟨⟨a, idx⟩, ha, h⟩
    have ha' := List.mk_mem_zipIdx_iff_getElem?.1 ha
    simp only [] at h
    split at h
    · rename_i hm
      obtain ⟨y, hy, e⟩ := List.mem_filterMap.1 h
      refine ⟨idx, a, ha', hm, y, hy, ?_⟩
      unfold extTerm at e
      split at e
      · rename_i he
        exact ⟨y.g, by rw [if_pos he], (Option.some.inj e).symm⟩
      · rename_i he
        obtain ⟨g, hg, e⟩ := Option.map_eq_some_iff.1 e
        exact ⟨g, by rw [if_neg he]; exact hg, e.symm⟩
    · simp at h
  · rintro ⟨idx, a, ha, hm, y, hy, g, hg, rfl⟩
    refine ⟨(a, idx), List.mk_mem_zipIdx_iff_getElem?.2 ha, ?_⟩
    simp only []
    rw [if_pos hm]
    refine List.mem_filterMap.2 ⟨y, hy, ?_⟩
    unfold extTerm
    split
    · rename_i he
      rw [if_pos he] at hg
      rw [← Option.some.inj hg]
    · rename_i he
      rw [if_neg he] at hg
      rw [hg]
      rfl

theorem mem_rowStep {p : Env ι R φ} {q : Passive R φ} {G : Gram ι R} {row : Row ι φ} {i k m : Nat} (hik : i ≤ k) {it : Item ι φ} :
    it ∈ rowStep p q G row i k m ↔ G.has i (k + 1) = true ∧ ((m = k + 1 ∧ ∃ k', i ≤ k' ∧ k' < m ∧ it ∈ nodeExts q G row k' m) ∨ it ∈ arcExts p G row k m) := by
  unfold rowStep
  split
  · rename_i hh
    simp only [List.mem_append, hh, true_and]
    constructor
    · rintro ((h | h) | h)
      · split at h
        · rename_i hm
          obtain ⟨k', hk', h⟩ := List.mem_flatMap.1 h
          have := List.mem_range'_1.1 hk'
          exact .inl ⟨hm, k', by omega, by omega, h⟩
        · simp at h
      · exact .inr h
      · split at h
        · rename_i hm
          exact .inl ⟨hm, i, Nat.le_refl _, by omega, h⟩
        · simp at h
    · rintro (⟨hm, k', h1, h2, h⟩ | h)
      · by_cases hk : k' = i
        · subst hk
          right
          rw [if_pos hm]
          exact h
        · left
          left
          rw [if_pos hm]
          exact List.mem_flatMap.2 ⟨k', List.mem_range'_1.2 (by omega), h⟩
      · exact .inl (.inr h)
  · rename_i hh
    constructor
    · intro h; simp at h
    · rintro ⟨h, _⟩; exact absurd h hh

variable [Zero φ]

theorem mem_row {p : Env ι R φ} {q : Passive R φ} {G : Gram ι R} {i j : Nat} {row : Row ι φ} (h : RowInv p q G i j row) {m : Nat} {it : Item ι φ} :
    it ∈ row m ↔ (m = i ∧ G.has i i = true ∧ it = ⟨G.root, [], 0, []⟩) ∨
      ∃ k, i ≤ k ∧ k < j ∧ G.has i (k + 1) = true ∧ ((m = k + 1 ∧ ∃ k', i ≤ k' ∧ k' < m ∧ it ∈ nodeExts q G row k' m) ∨ it ∈ arcExts p G row k m) := by
  rw [h m, List.mem_append]
  have h1 : it ∈ seed G i m ↔ (m = i ∧ G.has i i = true ∧ it = ⟨G.root, [], 0, []⟩) := by
    unfold seed
    split
    · split
      · rename_i h1 h2; simp [h1, h2]
      · rename_i h1 h2; simp [h2]
    · rename_i h1; simp [h1]
  rw [h1]
  apply or_congr Iff.rfl
  rw [List.mem_flatMap]
  constructor
  · rintro ⟨k, hk, h⟩
    have := List.mem_range'_1.1 hk
    rw [mem_rowStep (by omega)] at h
    exact ⟨k, by omega, by omega, h⟩
  · rintro ⟨k, h1, h2, h⟩
    exact ⟨k, List.mem_range'_1.2 (by omega), (mem_rowStep h1).2 h⟩

theorem match_le {p : Env ι R φ} {G : Gram ι R} {i m : Nat} {sh sp α x} (h : Match p G i m sh sp α x) : i ≤ m := by
  induction h with
  | nil => exact Nat.le_refl _
  | eps => omega
  | word => omega
  | part => omega

/-- The categories and spans of nodes. -/
def Named (q : Passive R φ) (s : Int × Nat × Nat) (v : Nat) : Prop := q.nodemap s.2.1 s.2.2 s.1 = some v

section
variable {p : Env ι R φ} {u : List R} {s : State ι R φ}

theorem SInv.rowN (h : SInv p u (p.n + 1) 0 s) {gi : Nat} {G : Gram ι R} (hG : p.grams[gi]? = some G) {i : Nat} (hi : i ≤ p.n) : RowInv p s.psv G i p.n (s.act gi i) := by
  have := h.rows gi G hG i hi
  have e : lastDone p.n (p.n + 1) 0 i = p.n := by
    unfold lastDone
    rw [if_neg (by omega)]
    omega
  rwa [e] at this

/-- What holds when all cells are done: the forest has the applications of the rules, in any order, and the items are those that can be made. -/
structure FInv (p : Env ι R φ) (u : List R) (s : State ι R φ) : Prop where
  pinv : PInv p s.psv
  goalNone : s.psv.goalIdx = none
  placed : ∀ gi G, p.grams[gi]? = some G → ∀ a m, ∀ it ∈ s.act gi a m, Placed G it.g
  items : ∀ gi G, p.grams[gi]? = some G → ∀ i ≤ p.n, ∀ m it, it ∈ s.act gi i m ↔ (m = i ∧ G.has i i = true ∧ it = ⟨G.root, [], 0, []⟩) ∨
    ∃ k, i ≤ k ∧ k < p.n ∧ G.has i (k + 1) = true ∧ ((m = k + 1 ∧ ∃ k', i ≤ k' ∧ k' < m ∧ it ∈ nodeExts s.psv G (s.act gi i) k' m) ∨ it ∈ arcExts p G (s.act gi i) k m)
  nodup : ∀ gi G, p.grams[gi]? = some G → ∀ i ≤ p.n, ∀ m, ((s.act gi i m).map Item.steps).Nodup
  done : ∀ a b, a < b → b ≤ p.n → ∀ c, List.Perm (s.psv.at a b c) (appsOf p a b c (cellJobs p u s.psv s.act a b))
  empty : ∀ a b, ¬ (a < b ∧ b ≤ p.n) → s.psv.chart a b = [] ∧ ∀ c, s.psv.nodemap a b c = none

theorem FInv.named (h : FInv p u s) {a b : Nat} {c : Int} {v : Nat} (hv : s.psv.nodemap a b c = some v) :
    a < b ∧ b ≤ p.n ∧ c ≠ p.kGoal ∧ v ∈ s.psv.chart a b ∧ s.psv.cat v = c := by
  have hd : a < b ∧ b ≤ p.n := by
    by_contra hc
    rw [(h.empty a b hc).2 c] at hv
    simp at hv
  have hc : c ≠ p.kGoal := by
    rintro rfl
    rw [h.pinv.goal h.goalNone a b] at hv
    simp at hv
  have := (h.pinv.map_iff a b c v hc).1 hv
  exact ⟨hd.1, hd.2, hc, this.1, this.2⟩

theorem FInv.chart (h : FInv p u s) {a b v : Nat} (hv : v ∈ s.psv.chart a b) : s.psv.nodemap a b (s.psv.cat v) = some v :=
  (h.pinv.map_iff a b _ v (h.pinv.ne a b v hv)).2 ⟨hv, rfl⟩

theorem items_match (hok : Ok p) (h : FInv p u s) {gi : Nat} {G : Gram ι R} (hG : p.grams[gi]? = some G) {i : Nat} (hi : i ≤ p.n) (m : Nat) :
    ∀ it ∈ s.act gi i m, ∃ sp α, Match p G i m (it.steps.map Step.shape) sp α it.feats ∧ walk G G.root α = some it.g ∧ List.Forall₂ (Named s.psv) sp it.ants := by
  induction m using Nat.strongRecOn with
  | ind m ih =>
    intro it hit
    rcases (h.items _ _ hG _ hi _ _).1 hit with ⟨rfl, hh, rfl⟩ | ⟨k, hk1, hk2, hh, ⟨rfl, k', h1, h2, hx⟩ | hx⟩
    · exact ⟨[], [], .nil hi hh, rfl, .nil⟩
    · obtain ⟨y, hy, v, hv, g, hg, rfl⟩ := mem_nodeExts.1 hx
      obtain ⟨sp, α, m1, m2, m3⟩ := ih k' h2 y hy
      have hnm := h.named (h.chart hv)
      refine ⟨sp ++ [(s.psv.cat v, k', k + 1)], α ++ [s.psv.cat v], ?_, ?_, ?_⟩
      · rw [List.map_append]
        exact .part m1 hnm.1 hnm.2.1 hh
      · rw [walk_append, m2]
        exact hg
      · exact List.rel_append m3 (.cons (h.chart hv) .nil)
    · obtain ⟨idx, a, ha, rfl, y, hy, g, hg, rfl⟩ := mem_arcExts.1 hx
      have hlen := (hok.arcs k a (List.mem_of_getElem? ha)).1
      obtain ⟨sp, α, m1, m2, m3⟩ := ih k (by omega) y hy
      simp only [List.map_append]
      by_cases he : a.label = p.eps
      · rw [if_pos he] at hg
        refine ⟨sp, α, .eps m1 ha hh he, ?_, m3⟩
        rw [m2]
        exact hg
      · rw [if_neg he] at hg
        refine ⟨sp, α ++ [a.label], .word m1 ha hh he, ?_, m3⟩
        rw [walk_append, m2]
        exact hg

theorem match_items (hok : Ok p) (h : FInv p u s) {gi : Nat} {G : Gram ι R} (hG : p.grams[gi]? = some G) {i : Nat} (hi : i ≤ p.n) {m : Nat} {sh sp α x}
    (hm : Match p G i m sh sp α x) : ∀ g, walk G G.root α = some g → ∀ vs, List.Forall₂ (Named s.psv) sp vs →
    ∃ it ∈ s.act gi i m, it.g = g ∧ it.ants = vs ∧ it.feats = x ∧ it.steps.map Step.shape = sh := by
  induction hm with
  | nil h1 h2 =>
    intro g hg vs hvs
    refine ⟨⟨G.root, [], 0, []⟩, (h.items _ _ hG _ hi _ _).2 (.inl ⟨rfl, h2, rfl⟩), Option.some.inj hg, ?_, rfl, rfl⟩
    cases hvs
    rfl
  | @eps k idx a sh sp α x hm ha hh he ih =>
    intro g hg vs hvs
    obtain ⟨y, hy, rfl, rfl, rfl, rfl⟩ := ih g hg vs hvs
    have hlen := hok.arcs k a (List.mem_of_getElem? ha)
    refine ⟨⟨y.g, y.ants, y.feats + a.feats, y.steps ++ [.arc k idx]⟩, (h.items _ _ hG _ hi _ _).2 (.inr ⟨k, match_le hm, by omega, hh, .inr (mem_arcExts.2
      ⟨idx, a, ha, rfl, y, hy, y.g, by rw [if_pos he], rfl⟩)⟩), rfl, rfl, rfl, by simp [Step.shape]⟩
  | @word k idx a sh sp α x hm ha hh he ih =>
    intro g hg vs hvs
    rw [walk_append] at hg
    obtain ⟨g0, hg0, hg⟩ := Option.bind_eq_some_iff.1 hg
    obtain ⟨y, hy, rfl, rfl, rfl, rfl⟩ := ih g0 hg0 vs hvs
    have hlen := hok.arcs k a (List.mem_of_getElem? ha)
    refine ⟨⟨g, y.ants, y.feats + a.feats, y.steps ++ [.arc k idx]⟩, (h.items _ _ hG _ hi _ _).2 (.inr ⟨k, match_le hm, by omega, hh, .inr (mem_arcExts.2
      ⟨idx, a, ha, rfl, y, hy, g, by rw [if_neg he]; exact hg, rfl⟩)⟩), rfl, rfl, rfl, by simp [Step.shape]⟩
  | @part k m c sh sp α x hm hkm hmn hh ih =>
    intro g hg vs hvs
    rw [walk_append] at hg
    obtain ⟨g0, hg0, hg⟩ := Option.bind_eq_some_iff.1 hg
    obtain ⟨vs1, vs2, hv1, hv2, rfl⟩ : ∃ vs1 vs2, List.Forall₂ (Named s.psv) sp vs1 ∧ List.Forall₂ (Named s.psv) [(c, k, m)] vs2 ∧ vs = vs1 ++ vs2 := by
      refine ⟨vs.take sp.length, vs.drop sp.length, ?_, ?_, (List.take_append_drop _ _).symm⟩
      · have := List.forall₂_take sp.length hvs
        rwa [List.take_left] at this
      · have := List.forall₂_drop sp.length hvs
        rwa [List.drop_left] at this
    cases hv2 with
    | cons hv hnil =>
      cases hnil
      rename_i v
      obtain ⟨y, hy, rfl, rfl, rfl, rfl⟩ := ih g0 hg0 vs1 hv1
      have hnm := h.named hv
      have hkle := match_le hm
      refine ⟨⟨g, y.ants ++ [v], y.feats, y.steps ++ [.node v]⟩, (h.items _ _ hG _ hi _ _).2 (.inr ⟨m - 1, by omega, by omega, by rw [Nat.sub_add_cancel (by omega)]; exact hh, .inl
        ⟨by omega, k, hkle, hkm, mem_nodeExts.2 ⟨y, hy, v, hnm.2.2.2.1, g, by rw [hnm.2.2.2.2]; exact hg, rfl⟩⟩⟩), rfl, rfl, rfl, by simp [Step.shape]⟩

/-- The forest that the derivations are in agrees with the forest of the chart on the nodes of the chart. -/
def Agrees (s : State ι R φ) (F : Hypergraph (Val R φ)) : Prop := ∀ v < s.psv.forest.nodes.length, F.apps v = s.psv.forest.apps v

omit [Add φ] [Zero φ] in
theorem app_eq {F : Hypergraph (Val R φ)} {e : Nat} {ts : List Nat} {x : Val R φ} : F.app e = some (ts, x) ↔ ∃ ed, F.edges[e]? = some ed ∧ ed.tails = ts ∧ ed.val = x := by
  unfold Hypergraph.app
  rw [Option.map_eq_some_iff]
  constructor
  · rintro ⟨ed, h1, h2⟩
    rw [Prod.mk.injEq] at h2
    exact ⟨ed, h1, h2⟩
  · rintro ⟨ed, h1, h2, h3⟩
    exact ⟨ed, h1, by rw [h2, h3]⟩

/-- The edges of a node of the chart. -/
theorem edge_iff (h : FInv p u s) {F : Hypergraph (Val R φ)} (hF : Agrees s F) {i j : Nat} {c : Int} {v : Nat} (hv : s.psv.nodemap i j c = some v)
    {a : Option (App R φ)} : (∃ e ∈ F.inE v, F.app e = a) ↔ ∃ b ∈ cellJobs p u s.psv s.act i j, p.lhs b.r = c ∧ a = some (b.app p i j) := by
  have hnm := h.named hv
  have h1 := h.done i j (by omega) (by omega) c
  unfold Passive.at at h1
  rw [hv] at h1
  simp only [] at h1
  rw [← hF v (h.pinv.map_lt _ _ _ _ hv)] at h1
  have : (∃ e ∈ F.inE v, F.app e = a) ↔ a ∈ F.apps v := by
    unfold Hypergraph.apps
    rw [List.mem_map]
  rw [this, h1.mem_iff]
  unfold appsOf
  rw [List.mem_map]
  constructor
  · rintro ⟨b, hb, rfl⟩
    have := List.mem_filter.1 hb
    exact ⟨b, this.1, of_decide_eq_true this.2, rfl⟩
  · rintro ⟨b, hb, hc, rfl⟩
    exact ⟨b, List.mem_filter.2 ⟨hb, decide_eq_true hc⟩, rfl⟩

omit [Add φ] in
theorem mem_cellJobs {q : Passive R φ} {act : Nat → Nat → Row ι φ} {i j : Nat} {b : Job R φ} : b ∈ cellJobs p u q act i j ↔
    (∃ gi G, p.grams[gi]? = some G ∧ G.has i j = true ∧ ∃ it ∈ act gi i j, ∃ r ∈ G.rules it.g, b = ⟨r, it.ants, it.feats, it.steps.map Step.shape⟩) ∨
      ∃ v ∈ q.chart i j, ∃ r ∈ u, p.rhs r = q.cat v ∧ b = ⟨r, [v], 0, [none]⟩ := by
  unfold cellJobs
  rw [List.mem_append]
  apply or_congr
  · rw [List.mem_flatMap]
    constructor
    · rintro ⟨⟨G, gi⟩, hx, hb⟩
      have hG := List.mk_mem_zipIdx_iff_getElem?.1 hx
      unfold gramJobs at hb
      split at hb
      · rename_i hh
        obtain ⟨it, hit, hb⟩ := List.mem_flatMap.1 hb
        unfold itemJobs at hb
        obtain ⟨r, hr, e⟩ := List.mem_map.1 hb
        exact ⟨gi, G, hG, hh, it, hit, r, hr, e.symm⟩
      · simp at hb
    · rintro ⟨gi, G, hG, hh, it, hit, r, hr, rfl⟩
      refine ⟨(G, gi), List.mk_mem_zipIdx_iff_getElem?.2 hG, ?_⟩
      unfold gramJobs
      rw [if_pos hh]
      exact List.mem_flatMap.2 ⟨it, hit, List.mem_map.2 ⟨r, hr, rfl⟩⟩
  · rw [List.mem_flatMap]
    constructor
    · rintro ⟨v, hv, hb⟩
      unfold unJobs at hb
      obtain ⟨r, hr, e⟩ := List.mem_map.1 hb
      have := List.mem_filter.1 hr
      exact ⟨v, hv, r, this.1, of_decide_eq_true this.2, e.symm⟩
    · rintro ⟨v, hv, r, hr, hc, rfl⟩
      exact ⟨v, hv, List.mem_map.2 ⟨r, List.mem_filter.2 ⟨hr, decide_eq_true hc⟩, rfl⟩⟩

theorem deriv_parse (hok : Ok p) (h : FInv p u s) {F : Hypergraph (Val R φ)} (hF : Agrees s F) (T : Tree) :
    ∀ v c i j t, s.psv.nodemap i j c = some v → IsDeriv F v T → Shows F T t → Parse p u c i j t := by
  induction T using Tree.rec (motive_2 := fun ch => ∀ sp vs ts, List.Forall₂ (Named s.psv) sp vs → List.Forall₂ (IsDeriv F) vs ch → List.Forall₂ (Shows F) ch ts →
      List.Forall₂ (fun s t => Parse p u s.1 s.2.1 s.2.2 t) sp ts) with
  | node e ch ih =>
    rintro v c i j ⟨b, ts⟩ hv hd hs
    obtain ⟨he, hch⟩ := isDeriv_iff.1 hd
    obtain ⟨x, hx, rfl, hts⟩ := shows_iff.1 hs
    have happ : F.app e = some (x.tails, x.val) := app_eq.2 ⟨x, hx, rfl, rfl⟩
    have htl : F.tails e = x.tails := by
      unfold Hypergraph.tails
      rw [hx]
    rw [htl] at hch
    obtain ⟨b, hb, rfl, hb2⟩ := (edge_iff h hF hv).1 ⟨e, he, rfl⟩
    rw [happ] at hb2
    have hb3 : (x.tails, x.val) = b.app p i j := Option.some.inj hb2
    unfold Job.app mkApp at hb3
    rw [Prod.mk.injEq] at hb3
    have hnm := h.named hv
    rcases mem_cellJobs.1 hb with ⟨gi, G, hG, hh, it, hit, r, hr, rfl⟩ | ⟨w, hw, r, hr, hc, rfl⟩
    · obtain ⟨sp, α, m1, m2, m3⟩ := items_match hok h hG (by omega) j it hit
      rw [hb3.2]
      simp only [] at hb3 ⊢
      rw [hb3.1] at hch
      exact .rule (List.mem_of_getElem? hG) hnm.1 hnm.2.1 hh m1 m2 hr (ih sp _ ts m3 hch hts)
    · rw [hb3.2]
      simp only [] at hb3 ⊢
      rw [hb3.1] at hch
      have := ih [(s.psv.cat w, i, j)] _ ts (.cons (h.chart hw) .nil) hch hts
      cases this with
      | cons h1 h2 =>
        cases h2
        rw [← hc] at h1
        exact .unary hr h1
  | nil =>
    rename_i sp vs ts h1 h2 h3
    cases h2
    cases h1
    cases h3
    exact .nil
  | cons T ch ih1 ih2 =>
    rename_i sp vs ts h1 h2 h3
    cases h2 with
    | cons d1 d2 =>
      cases h1 with
      | cons n1 n2 =>
        cases h3 with
        | cons s1 s2 => exact .cons (ih1 _ _ _ _ _ n1 d1 s1) (ih2 _ _ _ n2 d2 s2)

theorem parse_deriv (hok : Ok p) (h : FInv p u s) {F : Hypergraph (Val R φ)} (hF : Agrees s F) (t : LTree (Val R φ)) :
    ∀ c i j, Parse p u c i j t → ∃ v T, s.psv.nodemap i j c = some v ∧ IsDeriv F v T ∧ Shows F T t := by
  induction t using LTree.rec (motive_2 := fun ts => ∀ sp, List.Forall₂ (fun s t => Parse p u s.1 s.2.1 s.2.2 t) sp ts →
      ∃ vs ch, List.Forall₂ (Named s.psv) sp vs ∧ List.Forall₂ (IsDeriv F) vs ch ∧ List.Forall₂ (Shows F) ch ts) with
  | node b ts ih =>
    intro c i j hp
    have key : ∀ bj : Job R φ, bj ∈ cellJobs p u s.psv s.act i j → i < j → j ≤ p.n → p.lhs bj.r = c → ∀ ch, List.Forall₂ (IsDeriv F) bj.ants ch → List.Forall₂ (Shows F) ch ts →
        b = ⟨bj.r, i, j, p.rfeats bj.r + bj.feats, bj.shape⟩ → ∃ v T, s.psv.nodemap i j c = some v ∧ IsDeriv F v T ∧ Shows F T (.node b ts) := by
      intro bj hb hij hjn hc ch hd hs hbb
      have hdone := h.done i j hij hjn c
      have hne : ∃ v, s.psv.nodemap i j c = some v := by
        cases hv : s.psv.nodemap i j c with
        | some v => exact ⟨v, rfl⟩
        | none =>
          unfold Passive.at at hdone
          rw [hv] at hdone
          simp only [] at hdone
          have : some (bj.app p i j) ∈ appsOf p i j c (cellJobs p u s.psv s.act i j) := by
            unfold appsOf
            exact List.mem_map.2 ⟨bj, List.mem_filter.2 ⟨hb, decide_eq_true hc⟩, rfl⟩
          rw [← hdone.mem_iff] at this
          simp at this
      obtain ⟨v, hv⟩ := hne
      obtain ⟨e, he, happ⟩ := (edge_iff h hF hv).2 ⟨bj, hb, hc, rfl⟩
      obtain ⟨ed, he1, he2, he3⟩ := app_eq.1 happ
      refine ⟨v, .node e ch, hv, isDeriv_iff.2 ⟨he, ?_⟩, shows_iff.2 ⟨ed, he1, he3.trans hbb.symm, hs⟩⟩
      have htl : F.tails e = ed.tails := by
        unfold Hypergraph.tails
        rw [he1]
      rw [htl, he2]
      exact hd
    cases hp with
    | rule hG hij hjn hh hm hw hr hf =>
      obtain ⟨gi, hgi⟩ := List.mem_iff_getElem?.1 hG
      obtain ⟨vs, ch, n1, n2, n3⟩ := ih _ hf
      obtain ⟨it, hit, rfl, rfl, rfl, rfl⟩ := match_items hok h hgi (by omega) hm _ hw vs n1
      exact key ⟨_, it.ants, it.feats, it.steps.map Step.shape⟩ (mem_cellJobs.2 (.inl ⟨gi, _, hgi, hh, it, hit, _, hr, rfl⟩)) hij hjn rfl ch n2 n3 rfl
    | @unary _ _ r t hr ht =>
      obtain ⟨vs, ch, n1, n2, n3⟩ := ih [(p.rhs r, i, j)] (.cons ht .nil)
      cases n1 with
      | cons nv nn =>
        cases nn
        have hnm := h.named nv
        simp only [] at hnm
        exact key ⟨r, _, 0, [none]⟩ (mem_cellJobs.2 (.inr ⟨_, hnm.2.2.2.1, r, hr, hnm.2.2.2.2.symm, rfl⟩)) hnm.1 hnm.2.1 rfl ch n2 n3 rfl
  | nil =>
    rename_i sp h1
    cases h1
    exact ⟨[], [], .nil, .nil, .nil⟩
  | cons t ts ih1 ih2 =>
    rename_i sp h1
    cases h1 with
    | cons a1 a2 =>
      obtain ⟨v, T, n1, n2, n3⟩ := ih1 _ _ _ a1
      obtain ⟨vs, ch, m1, m2, m3⟩ := ih2 _ a2
      exact ⟨v :: vs, T :: ch, .cons n1 m1, .cons n2 m2, .cons n3 m3⟩

end

end Cdec.Dec.Parser
