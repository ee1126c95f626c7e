import Verif.Extract.RuleCounts
import Verif.Props.C74
import Mathlib.Data.List.Induction
import Mathlib.Algebra.Order.Field.Basic
import Mathlib.Algebra.BigOperators.Group.List.Basic
import Mathlib.Tactic.FieldSimp
/-!
# C75: Each rule is written once, with the number of times it was extracted, its most frequent alignment and the number of occurrences of its source side
-/
namespace Cdec.Extract
open Spec RuleSpec

/-- The sum of the counts of the extracts with source side `s`. -/
def sourceTotal (s : List Int) (xs : List Extracted) : Rat := ((xs.filter fun x => decide (x.source = s)).map (·.count)).sum

/-- The number of extracts with the given sides. -/
def pairTotal (s t : List Int) (xs : List Extracted) : Nat := xs.countP fun x => decide (x.source = s ∧ x.target = t)

/-- The number of extracts with the given sides and alignment. -/
def alignTotal (s t : List Int) (al : List (Nat × Nat)) (xs : List Extracted) : Nat := xs.countP fun x => decide (x.source = s ∧ x.target = t ∧ x.alignment = al)

/-! ### The maps -/

structure CountInv (xs : List Extracted) (c : Counters) : Prop where
  sources : MapOf symLt c.sources (fun s => ∃ x ∈ xs, x.source = s) fun s r => r = sourceTotal s xs
  alignments : MapOf symLt c.alignments (fun s => ∃ x ∈ xs, x.source = s) fun s mt =>
    MapOf symLt mt (fun t => ∃ x ∈ xs, x.source = s ∧ x.target = t) fun t ma =>
      MapOf alignLt ma (fun al => ∃ x ∈ xs, x.source = s ∧ x.target = t ∧ x.alignment = al) fun al n => n = alignTotal s t al xs

theorem sourceTotal_append (s : List Int) (xs ys : List Extracted) : sourceTotal s (xs ++ ys) = sourceTotal s xs + sourceTotal s ys := by
  simp [sourceTotal, List.filter_append]

theorem sourceTotal_none {s : List Int} {xs : List Extracted} (h : ¬ ∃ x ∈ xs, x.source = s) : sourceTotal s xs = 0 := by
  unfold sourceTotal
  rw [List.filter_eq_nil_iff.2]
  · rfl
  · intro x hx; rw [decide_eq_true_eq]; exact fun e => h ⟨x, hx, e⟩

theorem mapOf_nil {α β : Type} (lt : α → α → Bool) (dom : α → Prop) (P : α → β → Prop) (h : ∀ k, ¬ dom k) : MapOf lt ([] : List (α × β)) dom P :=
  ⟨List.Pairwise.nil, fun k => ⟨fun hk => absurd hk (h k), fun ⟨_, hv⟩ => by cases hv⟩, fun x hx => by cases hx⟩

theorem MapOf.congr {α β : Type} {lt : α → α → Bool} {m : List (α × β)} {dom dom' : α → Prop} {P P' : α → β → Prop} (h : MapOf lt m dom P)
    (hd : ∀ k, dom' k ↔ dom k) (hp : ∀ k v, P k v → P' k v) : MapOf lt m dom' P' :=
  ⟨h.1, fun k => (hd k).trans (h.2.1 k), fun x hx => hp _ _ (h.2.2 x hx)⟩

theorem countInv (xs : List Extracted) : CountInv xs (xs.foldl Counters.add ⟨[], []⟩) := by
  induction xs using List.reverseRecOn with
  | nil => exact ⟨mapOf_nil _ _ _ (by simp), mapOf_nil _ _ _ (by simp)⟩
  | append_singleton xs e ih =>
    rw [List.foldl_append, List.foldl_cons, List.foldl_nil]
    generalize xs.foldl Counters.add ⟨[], []⟩ = c at ih ⊢
    obtain ⟨h1, h2⟩ := ih
    have ex : ∀ (p : Extracted → Prop), (∃ x ∈ xs ++ [e], p x) ↔ (∃ x ∈ xs, p x) ∨ p e := by
      intro p; simp [or_and_right, exists_or]
    have ta : ∀ s t al, alignTotal s t al (xs ++ [e]) = alignTotal s t al xs + if e.source = s ∧ e.target = t ∧ e.alignment = al then 1 else 0 := by
      intro s t al
      simp [alignTotal, List.countP_append, List.countP_cons]
    have t0 : ∀ s t al, (¬ ∃ x ∈ xs, x.source = s ∧ x.target = t ∧ x.alignment = al) → alignTotal s t al xs = 0 := by
      intro s t al h
      unfold alignTotal
      rw [List.countP_eq_zero]
      intro x hx
      rw [decide_eq_true_eq]
      exact fun e => h ⟨x, hx, e⟩
    have se : ∀ s, sourceTotal s [e] = if e.source = s then e.count else 0 := by
      intro s
      unfold sourceTotal
      by_cases h : e.source = s <;> simp [h]
    refine ⟨?_, ?_⟩
    · refine h1.alter symLt_strict e.source _ ?_ ?_ ?_ ?_
      · intro a; rw [ex, eq_comm (a := a)]
      · intro a v hne hv
        rw [sourceTotal_append, se, if_neg (fun e' => hne e'.symm), hv, add_zero]
      · intro v hv
        rw [sourceTotal_append, se, if_pos rfl, hv]; rfl
      · intro hd
        rw [sourceTotal_append, se, if_pos rfl, sourceTotal_none hd]; rfl
    · refine h2.alter symLt_strict e.source _ ?_ ?_ ?_ ?_
      · intro a; rw [ex, eq_comm (a := a)]
      · intro a v hne hv
        refine hv.congr ?_ ?_
        · intro t; rw [ex]
          constructor
          · rintro (h | ⟨h, _⟩)
            · exact h
            · exact absurd h.symm hne
          · exact Or.inl
        · intro t ma hma
          refine hma.congr ?_ ?_
          · intro al; rw [ex]
            constructor
            · rintro (h | ⟨h, _⟩)
              · exact h
              · exact absurd h.symm hne
            · exact Or.inl
          · intro al n hn
            rw [ta, if_neg (fun h => hne h.1.symm), hn]; rfl
      all_goals
        have inner : ∀ mt : List (List Int × List (List (Nat × Nat) × Nat)),
            (MapOf symLt mt (fun t => ∃ x ∈ xs, x.source = e.source ∧ x.target = t) fun t ma =>
              MapOf alignLt ma (fun al => ∃ x ∈ xs, x.source = e.source ∧ x.target = t ∧ x.alignment = al) fun al n => n = alignTotal e.source t al xs) →
            MapOf symLt (mapAlter symLt e.target (fun o => mapAlter alignLt e.alignment (fun o => o.getD 0 + 1) (o.getD [])) mt)
              (fun t => ∃ x ∈ xs ++ [e], x.source = e.source ∧ x.target = t) fun t ma =>
              MapOf alignLt ma (fun al => ∃ x ∈ xs ++ [e], x.source = e.source ∧ x.target = t ∧ x.alignment = al) fun al n => n = alignTotal e.source t al (xs ++ [e]) := by
          intro mt hmt
          have inner2 : ∀ ma : List (List (Nat × Nat) × Nat),
              (MapOf alignLt ma (fun al => ∃ x ∈ xs, x.source = e.source ∧ x.target = e.target ∧ x.alignment = al) fun al n => n = alignTotal e.source e.target al xs) →
              MapOf alignLt (mapAlter alignLt e.alignment (fun o => o.getD 0 + 1) ma)
                (fun al => ∃ x ∈ xs ++ [e], x.source = e.source ∧ x.target = e.target ∧ x.alignment = al) fun al n => n = alignTotal e.source e.target al (xs ++ [e]) := by
            intro ma hma
            refine hma.alter alignLt_strict e.alignment _ ?_ ?_ ?_ ?_
            · intro a; rw [ex, eq_comm (a := a)]; simp
            · intro a v hne hv
              rw [ta, if_neg (fun h => hne h.2.2.symm), hv]; rfl
            · intro v hv
              rw [ta, if_pos ⟨rfl, rfl, rfl⟩, hv]; rfl
            · intro hd
              rw [ta, if_pos ⟨rfl, rfl, rfl⟩, t0 _ _ _ hd]; rfl
          refine hmt.alter symLt_strict e.target _ ?_ ?_ ?_ ?_
          · intro a; rw [ex, eq_comm (a := a)]; simp
          · intro t ma hne hma
            refine hma.congr ?_ ?_
            · intro al; rw [ex]
              constructor
              · rintro (h | ⟨_, h, _⟩)
                · exact h
                · exact absurd h.symm hne
              · exact Or.inl
            · intro al n hn
              rw [ta, if_neg (fun h => hne h.2.1.symm), hn]; rfl
          · intro ma hma
            exact inner2 ma hma
          · intro hd
            refine inner2 [] (mapOf_nil _ _ _ ?_)
            rintro al ⟨x, hx, h1, h2, _⟩
            exact hd ⟨x, hx, h1, h2⟩
      · intro mt hmt
        exact inner mt hmt
      · intro hd
        refine inner [] (mapOf_nil _ _ _ ?_)
        rintro t ⟨x, hx, h1, _⟩
        exact hd ⟨x, hx, h1⟩

/-! ### The most frequent alignment -/

theorem bestAlignment_spec : ∀ l : List (List (Nat × Nat) × Nat), SortedMap alignLt l → (∀ e ∈ l, 0 < e.2) →
    let b := bestAlignment l
    b.2.2 = (l.map (·.2)).sum ∧ (l ≠ [] → (b.1, b.2.1) ∈ l ∧ ∀ e ∈ l, e.2 < b.2.1 ∨ (e.2 = b.2.1 ∧ (e.1 = b.1 ∨ alignLt b.1 e.1 = true))) ∧ (l = [] → b.2.1 = 0) := by
  intro l
  induction l using List.reverseRecOn with
  | nil => intro _ _; simp [bestAlignment]
  | append_singleton l e ih =>
    intro hs hp
    have hs' : SortedMap alignLt l := (List.pairwise_append.1 hs).1
    have hlast : ∀ x ∈ l, alignLt x.1 e.1 = true := fun x hx => (List.pairwise_append.1 hs).2.2 x hx e (List.mem_singleton_self e)
    obtain ⟨h1, h2, h3⟩ := ih hs' fun x hx => hp x (List.mem_append_left _ hx)
    have he := hp e (List.mem_append_right _ (List.mem_singleton_self e))
    simp only [bestAlignment] at h1 h2 h3 ⊢
    rw [List.foldl_append, List.foldl_cons, List.foldl_nil]
    generalize List.foldl (fun (s : List (Nat × Nat) × Nat × Nat) (e : List (Nat × Nat) × Nat) => (if e.2 > s.2.1 then e.1 else s.1, if e.2 > s.2.1 then e.2 else s.2.1, s.2.2 + e.2)) ([], 0, 0) l = b at h1 h2 h3 ⊢
    refine ⟨by simp [h1], ?_, by simp⟩
    intro _
    simp only []
    by_cases hgt : e.2 > b.2.1
    · rw [if_pos hgt, if_pos hgt]
      refine ⟨List.mem_append_right _ (List.mem_singleton_self e), ?_⟩
      intro x hx
      rw [List.mem_append, List.mem_singleton] at hx
      rcases hx with hx | rfl
      · have := (h2 (List.ne_nil_of_mem hx)).2 x hx
        left
        rcases this with h | ⟨h, _⟩ <;> omega
      · exact Or.inr ⟨rfl, Or.inl rfl⟩
    · rw [if_neg hgt, if_neg hgt]
      have hne : l ≠ [] := by intro h0; have := h3 h0; omega
      obtain ⟨g1, g2⟩ := h2 hne
      refine ⟨List.mem_append_left _ g1, ?_⟩
      intro x hx
      rw [List.mem_append, List.mem_singleton] at hx
      rcases hx with hx | rfl
      · exact g2 x hx
      · by_cases he' : x.2 = b.2.1
        · exact Or.inr ⟨he', Or.inr (hlast _ g1)⟩
        · left; omega

theorem sum_alignTotal (s t : List Int) (K : List (List (Nat × Nat))) (hK : K.Nodup) : ∀ xs : List Extracted, (∀ x ∈ xs, x.source = s → x.target = t → x.alignment ∈ K) →
    (K.map fun al => alignTotal s t al xs).sum = pairTotal s t xs
  | [], _ => by
    simp only [alignTotal, pairTotal, List.countP_nil]
    induction K with
    | nil => rfl
    | cons a K ih => rw [List.map_cons, List.sum_cons, ih (List.nodup_cons.1 hK).2 (by simp)]
  | x :: xs, h => by
    have ih := sum_alignTotal s t K hK xs fun y hy => h y (List.mem_cons_of_mem _ hy)
    have hx := h x List.mem_cons_self
    have e1 : ∀ al, alignTotal s t al (x :: xs) = alignTotal s t al xs + if x.source = s ∧ x.target = t ∧ x.alignment = al then 1 else 0 := by
      intro al; simp [alignTotal, List.countP_cons]
    have e2 : pairTotal s t (x :: xs) = pairTotal s t xs + if x.source = s ∧ x.target = t then 1 else 0 := by
      simp [pairTotal, List.countP_cons]
    have e3 : ∀ K : List (List (Nat × Nat)), (K.map fun al => alignTotal s t al (x :: xs)).sum =
        (K.map fun al => alignTotal s t al xs).sum + if x.source = s ∧ x.target = t then K.count x.alignment else 0 := by
      intro K
      induction K with
      | nil => simp
      | cons a K ih =>
        rw [List.map_cons, List.sum_cons, ih, List.map_cons, List.sum_cons, e1, List.count_cons]
        generalize (K.map fun al => alignTotal s t al xs).sum = A
        generalize K.count x.alignment = B
        by_cases hst : x.source = s ∧ x.target = t
        · by_cases ha : x.alignment = a
          · simp [hst, ha]; omega
          · have ha' : ¬ (a = x.alignment) := fun e => ha e.symm
            simp [hst, ha, ha']; omega
        · have : ¬ (x.source = s ∧ x.target = t ∧ x.alignment = a) := fun h => hst ⟨h.1, h.2.1⟩
          simp [hst, this]
    rw [e3, e2, ih]
    by_cases hst : x.source = s ∧ x.target = t
    · rw [if_pos hst, if_pos hst, List.count_eq_one_of_mem hK (hx hst.1 hst.2)]
    · rw [if_neg hst, if_neg hst]

theorem sorted_keys_nodup {α β : Type} {lt : α → α → Bool} (hlt : StrictTotal lt) {m : List (α × β)} (h : SortedMap lt m) : (m.map (·.1)).Nodup := by
  unfold List.Nodup
  rw [List.pairwise_map]
  refine h.imp ?_
  intro a b hab e
  rw [e, hlt.irrefl] at hab
  cases hab

/-- The rules given to the features are, in the order of their sides, the different pairs of sides extracted, each exactly once.  Each comes with the number of times
it was extracted, the sum of the counts of the extracts with its source side, the number of occurrences looked at, and the alignment it was extracted
with most often; of several such alignments the first in the order of the map. -/
theorem C75_rules (occs : List (List Extracted)) :
    (extractRules occs).Pairwise (fun a b => symLt a.source b.source = true ∨ (a.source = b.source ∧ symLt a.target b.target = true)) ∧
    (∀ s t, (∃ r ∈ extractRules occs, r.source = s ∧ r.target = t) ↔ ∃ x ∈ occs.flatten, x.source = s ∧ x.target = t) ∧
    ∀ r ∈ extractRules occs, r.pairCount = pairTotal r.source r.target occs.flatten ∧ r.sourceCount = sourceTotal r.source occs.flatten ∧
      r.samples = occs.length ∧ 0 < alignTotal r.source r.target r.alignment occs.flatten ∧
      ∀ al, 0 < alignTotal r.source r.target al occs.flatten →
        alignTotal r.source r.target al occs.flatten < alignTotal r.source r.target r.alignment occs.flatten ∨
        (alignTotal r.source r.target al occs.flatten = alignTotal r.source r.target r.alignment occs.flatten ∧ (al = r.alignment ∨ alignLt r.alignment al = true)) := by
  have hinv := countInv occs.flatten
  unfold extractRules
  generalize hc : occs.flatten.foldl Counters.add ⟨[], []⟩ = c at hinv ⊢
  generalize occs.flatten = xs at hinv
  obtain ⟨h1, h2⟩ := hinv
  simp only []
  refine ⟨?_, ?_, ?_⟩
  · rw [List.pairwise_flatMap]
    refine ⟨?_, ?_⟩
    · intro a ha
      rw [List.pairwise_map]
      exact (h2.2.2 a ha).1.imp fun {x y} hxy => Or.inr ⟨rfl, hxy⟩
    · refine h2.1.imp ?_
      intro a b hab x hx y hy
      obtain ⟨_, _, rfl⟩ := List.mem_map.1 hx
      obtain ⟨_, _, rfl⟩ := List.mem_map.1 hy
      exact Or.inl hab
  · intro s t
    constructor
    · rintro ⟨r, hr, rfl, rfl⟩
      obtain ⟨a, ha, hr⟩ := List.mem_flatMap.1 hr
      obtain ⟨b, hb, rfl⟩ := List.mem_map.1 hr
      exact ((h2.2.2 a ha).2.1 b.1).2 ⟨b.2, hb⟩
    · rintro ⟨x, hx, rfl, rfl⟩
      obtain ⟨mt, hmt⟩ := (h2.2.1 x.source).1 ⟨x, hx, rfl⟩
      obtain ⟨ma, hma⟩ := ((h2.2.2 _ hmt).2.1 x.target).1 ⟨x, hx, rfl, rfl⟩
      exact ⟨_, List.mem_flatMap.2 ⟨_, hmt, List.mem_map.2 ⟨_, hma, rfl⟩⟩, rfl, rfl⟩
  · intro r hr
    obtain ⟨a, ha, hr⟩ := List.mem_flatMap.1 hr
    obtain ⟨b, hb, rfl⟩ := List.mem_map.1 hr
    obtain ⟨g1, g2, g3⟩ := (h2.2.2 a ha).2.2 b hb
    have hmem : ∀ al, 0 < alignTotal a.1 b.1 al xs ↔ ∃ x ∈ xs, x.source = a.1 ∧ x.target = b.1 ∧ x.alignment = al := by
      intro al
      unfold alignTotal
      rw [List.countP_pos_iff]
      simp only [decide_eq_true_eq]
    have hpos : ∀ e ∈ b.2, 0 < e.2 := by
      intro e he
      rw [g3 e he, hmem]
      exact (g2 e.1).2 ⟨e.2, he⟩
    have hne : b.2 ≠ [] := by
      obtain ⟨x, hx, e1, e2⟩ := ((h2.2.2 a ha).2.1 b.1).2 ⟨b.2, hb⟩
      obtain ⟨n, hn⟩ := (g2 x.alignment).1 ⟨x, hx, e1, e2, rfl⟩
      exact List.ne_nil_of_mem hn
    obtain ⟨k1, k2, _⟩ := bestAlignment_spec b.2 g1 hpos
    obtain ⟨k3, k4⟩ := k2 hne
    have e3 := g3 _ k3
    simp only [] at e3
    refine ⟨?_, ?_, rfl, ?_, ?_⟩
    · simp only []
      rw [k1, ← sum_alignTotal a.1 b.1 (b.2.map (·.1)) (sorted_keys_nodup alignLt_strict g1) xs]
      · rw [List.map_map]
        congr 1
        exact List.map_congr_left fun e he => g3 e he
      · intro x hx e1 e2
        obtain ⟨n, hn⟩ := (g2 x.alignment).1 ⟨x, hx, e1, e2, rfl⟩
        exact List.mem_map.2 ⟨_, hn, rfl⟩
    · simp only []
      obtain ⟨v, hv⟩ := (h1.2.1 a.1).1 ((h2.2.1 a.1).2 ⟨a.2, ha⟩)
      cases hf : c.sources.find? (fun x => decide (x.1 = a.1)) with
      | none =>
        have := List.find?_eq_none.1 hf _ hv
        simp at this
      | some w =>
        have e1 := List.find?_some hf
        have e2 := h1.2.2 w (List.mem_of_find?_eq_some hf)
        simp only [decide_eq_true_eq] at e1
        rw [e1] at e2
        exact e2
    · simp only []
      rw [← e3]
      exact hpos _ k3
    · intro al hal
      simp only [] at hal ⊢
      obtain ⟨n, hn⟩ := (g2 al).1 ((hmem al).1 hal)
      have := k4 _ hn
      have e4 := g3 _ hn
      simp only [] at this e4
      rw [e3, e4] at this
      exact this

/-! ### The counts of one occurrence -/

/-- What is true of the counts of the extracts of one occurrence. -/
def GoodCounts (tight : Bool) (xs : List Extracted) : Prop :=
  ∀ s, (sourceTotal s xs = if ∃ x ∈ xs, x.source = s then 1 else 0) ∧ (tight = true → (xs.countP fun x => decide (x.source = s)) ≤ 1)

theorem good_nil (tight : Bool) : GoodCounts tight [] := fun s => ⟨by simp [sourceTotal], fun _ => by simp⟩

theorem good_append {tight : Bool} {a b : List Extracted} (ha : GoodCounts tight a) (hb : GoodCounts tight b) (hd : ∀ x ∈ a, ∀ y ∈ b, x.source ≠ y.source) :
    GoodCounts tight (a ++ b) := by
  intro s
  have hz : ∀ l : List Extracted, (¬ ∃ x ∈ l, x.source = s) → (l.countP fun x => decide (x.source = s)) = 0 := by
    intro l h
    rw [List.countP_eq_zero]
    intro x hx; rw [decide_eq_true_eq]; exact fun e => h ⟨x, hx, e⟩
  rw [sourceTotal_append, (ha s).1, (hb s).1, List.countP_append]
  by_cases h1 : ∃ x ∈ a, x.source = s
  · have h2 : ¬ ∃ x ∈ b, x.source = s := by
      obtain ⟨x, hx, e⟩ := h1
      rintro ⟨y, hy, e'⟩
      exact hd x hx y hy (e.trans e'.symm)
    have h3 : ∃ x ∈ a ++ b, x.source = s := by
      obtain ⟨x, hx, e⟩ := h1
      exact ⟨x, List.mem_append_left _ hx, e⟩
    rw [if_pos h1, if_neg h2, if_pos h3, hz b h2]
    exact ⟨by rw [add_zero], (ha s).2⟩
  · rw [if_neg h1, hz a h1, zero_add, Nat.zero_add]
    refine ⟨?_, (hb s).2⟩
    congr 1
    apply propext
    constructor
    · rintro ⟨x, hx, e⟩; exact ⟨x, List.mem_append_right _ hx, e⟩
    · rintro ⟨x, hx, e⟩
      rcases List.mem_append.1 hx with h | h
      · exact absurd ⟨x, h, e⟩ h1
      · exact ⟨x, h, e⟩

theorem sum_const (v : Rat) : ∀ l : List Rat, (∀ x ∈ l, x = v) → l.sum = l.length * v
  | [], _ => by simp
  | a :: l, h => by
    rw [List.sum_cons, sum_const v l fun x hx => h x (List.mem_cons_of_mem _ hx), h a List.mem_cons_self, List.length_cons]
    push_cast
    rw [add_mul, one_mul, add_comm]

theorem good_sound {E : XEnv} {phrase : List Int} {m c : Nat} {ms : List (Nat × Nat)} {L R : Bool} {b : List Extracted} (h : Sound E phrase m c ms L R b) :
    GoodCounts E.tight b ∧ ∀ x ∈ b, x.source = extendPhrase phrase L R := by
  rcases h with rfl | ⟨a, b', t, sg, tg, _, _, _, hbatch⟩
  · exact ⟨good_nil _, fun x hx => by cases hx⟩
  refine ⟨?_, hbatch.source⟩
  intro s
  obtain ⟨x0, hx0⟩ := List.exists_mem_of_ne_nil _ hbatch.ne
  refine ⟨?_, fun ht => Nat.le_trans List.countP_le_length (Nat.le_of_eq (hbatch.tight ht))⟩
  by_cases hs : s = extendPhrase phrase L R
  · rw [if_pos ⟨x0, hx0, by rw [hs]; exact hbatch.source x0 hx0⟩]
    have hf : (b.filter fun x => decide (x.source = s)) = b := by
      rw [List.filter_eq_self]
      intro x hx
      rw [decide_eq_true_eq, hs]
      exact hbatch.source x hx
    unfold sourceTotal
    rw [hf, sum_const (1 / (b.length : Rat))]
    · rw [List.length_map]
      have : (b.length : Rat) ≠ 0 := by
        have := List.length_pos_of_mem hx0
        exact_mod_cast (by omega : b.length ≠ 0)
      field_simp
    · intro v hv
      obtain ⟨x, hx, rfl⟩ := List.mem_map.1 hv
      exact hbatch.count x hx
  · have hno : ¬ ∃ x ∈ b, x.source = s := by
      rintro ⟨x, hx, e⟩
      exact hs (e.symm.trans (hbatch.source x hx))
    rw [if_neg hno, sourceTotal_none hno]

theorem extend_inj {phrase : List Int} (hp : ∃ s ss, phrase = s :: ss ∧ 0 ≤ s) {L R L' R' : Bool} (h : extendPhrase phrase L R = extendPhrase phrase L' R') : L = L' ∧ R = R' := by
  obtain ⟨s, ss, rfl, hs⟩ := hp
  have h' := congrArg shape h
  rw [shape_extend, shape_extend] at h'
  have hsh : shape (s :: ss) = some s :: shape ss := by
    unfold shape
    rw [List.map_cons, if_neg (by omega)]
  rw [hsh] at h'
  have hlen := congrArg List.length h'
  cases L <;> cases L' <;> cases R <;> cases R' <;> simp at h' hlen ⊢

theorem occurrence_counts {E : XEnv} (hE : ∀ l ∈ E.links, l.1 < E.src.length ∧ l.2 < E.tgt.length) (hmin : 1 ≤ E.minGap) {junk : Int}
    {phrase : List Int} {ms : List (Nat × Nat)} (hocc : Occurs E.src E.minGap phrase ms) (hlim : Within E phrase ms) {xs : List Extracted}
    (hxs : extractAlignments E junk phrase (ms.map (·.1)) = some xs) : GoodCounts E.tight xs := by
  obtain ⟨m, c, ms, rfl⟩ := occurs_cons hocc
  obtain ⟨L, R, b1, b2, b3, b4, h1, h2, _⟩ := extractAlignments_sound hE hmin junk hocc hlim.1 (by have := hlim.2.1; simp at this; exact this) hlim.2.2
  rw [hxs] at h1
  rw [Option.some.inj h1]
  obtain ⟨g1, s1⟩ := good_sound h2.base
  obtain ⟨g2, s2⟩ := good_sound h2.right
  obtain ⟨g3, s3⟩ := good_sound h2.left
  obtain ⟨g4, s4⟩ := good_sound h2.both
  have hp := occurs_head hocc
  have r2 : ∀ x ∈ b2, R = false := fun x hx => h2.right' (List.ne_nil_of_mem hx)
  have r3 : ∀ x ∈ b3, L = false := fun x hx => h2.left' (List.ne_nil_of_mem hx)
  have r4 : ∀ x ∈ b4, L = false ∧ R = false := fun x hx => h2.both' (List.ne_nil_of_mem hx)
  refine good_append (good_append (good_append g1 g2 ?_) g3 ?_) g4 ?_
  · intro x hx y hy e
    rw [s1 x hx, s2 y hy] at e
    have := (extend_inj hp e).2
    rw [r2 y hy] at this; cases this
  · intro x hx y hy e
    rw [s3 y hy] at e
    rcases List.mem_append.1 hx with hx | hx
    · rw [s1 x hx] at e
      have := (extend_inj hp e).1
      rw [r3 y hy] at this; cases this
    · rw [s2 x hx] at e
      have := (extend_inj hp e).1
      rw [r3 y hy] at this; cases this
  · intro x hx y hy e
    rw [s4 y hy] at e
    obtain ⟨rl, rr⟩ := r4 y hy
    rcases List.mem_append.1 hx with hx | hx
    · rcases List.mem_append.1 hx with hx | hx
      · rw [s1 x hx] at e
        have := (extend_inj hp e).1
        rw [rl] at this; cases this
      · rw [s2 x hx] at e
        have := (extend_inj hp e).1
        rw [rl] at this; cases this
    · rw [s3 x hx] at e
      have := (extend_inj hp e).2
      rw [rr] at this; cases this

/-- An occurrence of the phrase in a sentence pair, within the limits, and what is extracted from it. -/
structure Looked (phrase : List Int) where
  env : XEnv
  junk : Int
  chunks : List (Nat × Nat)
  extracts : List Extracted
  links : ∀ l ∈ env.links, l.1 < env.src.length ∧ l.2 < env.tgt.length
  minGap : 1 ≤ env.minGap
  occurs : Occurs env.src env.minGap phrase chunks
  within : Within env phrase chunks
  result : extractAlignments env junk phrase (chunks.map (·.1)) = some extracts

/-- The source count of a rule is the number of the occurrences from which a rule with its source side is extracted.  With tight phrases the rule
itself is extracted at most once from each, so that the two conditional probabilities computed from the counts are between zero and one. -/
theorem C75_source_count (phrase : List Int) (os : List (Looked phrase)) :
    ∀ r ∈ extractRules (os.map (·.extracts)),
      r.sourceCount = ((os.countP fun o => decide (∃ x ∈ o.extracts, x.source = r.source) : Nat) : Rat) ∧ 0 < r.sourceCount ∧ r.sourceCount ≤ (r.samples : Rat) ∧
      0 < r.pairCount ∧ ((∀ o ∈ os, o.env.tight = true) →
        r.pairCount = os.countP (fun o => decide (∃ x ∈ o.extracts, x.source = r.source ∧ x.target = r.target)) ∧ (r.pairCount : Rat) ≤ r.sourceCount) := by
  obtain ⟨_, hdom, hval⟩ := C75_rules (os.map (·.extracts))
  intro r hr
  obtain ⟨hpair, hsrc, hsam, _, _⟩ := hval r hr
  have hgood : ∀ o ∈ os, GoodCounts o.env.tight o.extracts := fun o _ => occurrence_counts o.links o.minGap o.occurs o.within o.result
  obtain ⟨x, hx, e1, e2⟩ := (hdom r.source r.target).1 ⟨r, hr, rfl, rfl⟩
  have hsum : ∀ os : List (Looked phrase), (∀ o ∈ os, GoodCounts o.env.tight o.extracts) →
      sourceTotal r.source (os.map (·.extracts)).flatten = ((os.countP fun o => decide (∃ x ∈ o.extracts, x.source = r.source) : Nat) : Rat) := by
    intro os
    induction os with
    | nil => intro _; simp [sourceTotal]
    | cons o os ih =>
      intro h
      rw [List.map_cons, List.flatten_cons, sourceTotal_append, ih fun o ho => h o (List.mem_cons_of_mem _ ho), (h o List.mem_cons_self r.source).1, List.countP_cons]
      by_cases he : ∃ x ∈ o.extracts, x.source = r.source
      · rw [if_pos he, if_pos (by simpa using he)]; push_cast; rw [add_comm]
      · rw [if_neg he, if_neg (by simpa using he)]; push_cast; rw [zero_add, add_zero]
  have hs := hsrc.trans (hsum os hgood)
  obtain ⟨o0, ho0, hxo⟩ : ∃ o ∈ os, x ∈ o.extracts := by
    obtain ⟨l, hl, hx⟩ := List.mem_flatten.1 hx
    obtain ⟨o, ho, rfl⟩ := List.mem_map.1 hl
    exact ⟨o, ho, hx⟩
  refine ⟨hs, ?_, ?_, ?_, ?_⟩
  · rw [hs]
    have : 0 < os.countP fun o => decide (∃ x ∈ o.extracts, x.source = r.source) :=
      List.countP_pos_iff.2 ⟨o0, ho0, by simpa using ⟨x, hxo, e1⟩⟩
    exact_mod_cast this
  · rw [hs, hsam, List.length_map]
    exact_mod_cast List.countP_le_length
  · rw [hpair]
    exact List.countP_pos_iff.2 ⟨x, hx, by simpa using ⟨e1, e2⟩⟩
  · intro ht
    have hp : ∀ os : List (Looked phrase), (∀ o ∈ os, GoodCounts true o.extracts) →
        pairTotal r.source r.target (os.map (·.extracts)).flatten = os.countP (fun o => decide (∃ x ∈ o.extracts, x.source = r.source ∧ x.target = r.target)) := by
      intro os
      induction os with
      | nil => intro _; simp [pairTotal]
      | cons o os ih =>
        intro h
        have hle := (h o List.mem_cons_self r.source).2 rfl
        have ih' := ih fun o ho => h o (List.mem_cons_of_mem _ ho)
        unfold pairTotal at ih' ⊢
        rw [List.map_cons, List.flatten_cons, List.countP_append, ih', List.countP_cons, Nat.add_comm]
        congr 1
        have hle' : (o.extracts.countP fun x => decide (x.source = r.source ∧ x.target = r.target)) ≤ 1 := by
          refine Nat.le_trans (List.countP_mono_left ?_) hle
          intro x _ hx
          rw [decide_eq_true_eq] at hx ⊢
          exact hx.1
        by_cases he : ∃ x ∈ o.extracts, x.source = r.source ∧ x.target = r.target
        · rw [if_pos (by rw [decide_eq_true_eq]; exact he)]
          have : 0 < (o.extracts.countP fun x => decide (x.source = r.source ∧ x.target = r.target)) := by
            obtain ⟨y, hy, e⟩ := he
            exact List.countP_pos_iff.2 ⟨y, hy, by rw [decide_eq_true_eq]; exact e⟩
          omega
        · rw [if_neg (by rw [decide_eq_true_eq]; exact he), List.countP_eq_zero]
          intro y hy
          rw [decide_eq_true_eq]
          exact fun e => he ⟨y, hy, e⟩
    have hp' := hpair.trans (hp os fun o ho => by have := hgood o ho; rwa [ht o ho] at this)
    refine ⟨hp', ?_⟩
    rw [hp', hs]
    have : os.countP (fun o => decide (∃ x ∈ o.extracts, x.source = r.source ∧ x.target = r.target)) ≤ os.countP fun o => decide (∃ x ∈ o.extracts, x.source = r.source) := by
      refine List.countP_mono_left ?_
      intro o _ h
      rw [decide_eq_true_eq] at h ⊢
      obtain ⟨y, hy, e, _⟩ := h
      exact ⟨y, hy, e⟩
    exact_mod_cast this

/-- Two occurrences of the same word, whose sentences differ in order. -/
def twoExtracts : List (List Extracted) :=
  [(extractAlignments swapEnv 0 [10] [0]).getD [], (extractAlignments ⟨[10, 11], [21, 20], [(0, 1), (1, 0)], 5, 1, 2, 5, true, false, false⟩ 0 [10] [0]).getD []]

/-- Non-vacuity: from the first are extracted `10 → 20` and `10 X → 20 X`, from the second `10 → 20` and `10 X → X 20`. -/
example : (extractRules twoExtracts).map (fun r => (r.source, r.target, r.alignment, r.pairCount)) =
      [([10], [20], [(0, 0)], 2), ([10, -1], [-1, 20], [(0, 1)], 1), ([10, -1], [20, -1], [(0, 0)], 1)] ∧
    (extractRules twoExtracts).map (fun r => (r.sourceCount, r.samples)) = [(2, 2), (2, 2), (2, 2)] := by decide +kernel

/-- Non-vacuity: occurrences of the kind the second theorem speaks of, with tight phrases. -/
example : ∃ o : Looked [10], o.env.tight = true ∧ o.extracts.length = 2 :=
  ⟨⟨⟨[10, 11], [21, 20], [(0, 1), (1, 0)], 5, 1, 2, 5, true, true, true⟩, 0, [(0, 1)], _, by decide, by decide,
    Occurs.last 0 [10] (by decide) (by decide) (by decide), by unfold Within; decide, rfl⟩, rfl, by decide⟩

/-- Without tight phrases the same rule can be extracted more often than there are occurrences: the estimate of the probability of the target side
given the source side, `pairCount / samples`, is then more than one.  Here `10 X → 20 X` is extracted twice from the one occurrence of `10`. -/
theorem C75_loose_fails : ∃ o : Looked [10], ∃ r ∈ extractRules [o.extracts], r.samples < r.pairCount := by
  refine ⟨⟨exampleEnv, 0, [(0, 1)], _, by decide, by decide, Occurs.last 0 [10] (by decide) (by decide) (by decide), by unfold Within; decide, rfl⟩, ?_⟩
  decide

end Cdec.Extract
