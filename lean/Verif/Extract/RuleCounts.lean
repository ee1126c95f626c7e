import Verif.Extract.RuleExtract
/-!
# Counting the extracted rules

Models `RuleExtractor::ExtractRules`, extractor/rule_extractor.cc:76-121.  A `std::map` is a list of pairs sorted by key.  The counts that the code
keeps as `double` are rational numbers here.
-/
namespace Cdec.Extract

/-- `m[k] = f(m[k])` for a `std::map`; `f none` is what an absent entry becomes. -/
def mapAlter {α β : Type} (lt : α → α → Bool) (k : α) (f : Option β → β) : List (α × β) → List (α × β)
  | [] => [(k, f none)]
  | (a, b) :: l => if lt k a then (k, f none) :: (a, b) :: l else if lt a k then (a, b) :: mapAlter lt k f l else (a, f (some b)) :: l

/-- `operator<` of `std::vector`. -/
def lexLt {α : Type} (lt : α → α → Bool) : List α → List α → Bool
  | _, [] => false
  | [], _ :: _ => true
  | a :: l, b :: r => lt a b || (!lt b a && lexLt lt l r)

/-- `Phrase::operator<`, phrase.cc:37-39. -/
def symLt (a b : List Int) : Bool := lexLt (fun x y => decide (x < y)) a b

/-- `operator<` of a `PhraseAlignment`, a vector of pairs. -/
def alignLt (a b : List (Nat × Nat)) : Bool := lexLt (fun x y => decide (x.1 < y.1) || (decide (x.1 = y.1) && decide (x.2 < y.2))) a b

/-- The two maps of rule_extractor.cc:82-83. -/
structure Counters where
  sources : List (List Int × Rat)
  alignments : List (List Int × List (List Int × List (List (Nat × Nat) × Nat)))

/-- rule_extractor.cc:88-91. -/
def Counters.add (c : Counters) (e : Extracted) : Counters where
  sources := mapAlter symLt e.source (fun o => o.getD 0 + e.count) c.sources
  alignments := mapAlter symLt e.source (fun o => mapAlter symLt e.target (fun o => mapAlter alignLt e.alignment (fun o => o.getD 0 + 1) (o.getD [])) (o.getD [])) c.alignments

/-- rule_extractor.cc:103-111: the most frequent alignment, its count and the number of extracts. -/
def bestAlignment (l : List (List (Nat × Nat) × Nat)) : List (Nat × Nat) × Nat × Nat :=
  l.foldl (fun s e => (if e.2 > s.2.1 then e.1 else s.1, if e.2 > s.2.1 then e.2 else s.2.1, s.2.2 + e.2)) ([], 0, 0)

/-- What a rule is built from, rule_extractor.cc:113-117: the context of the features and the alignment. -/
structure RuleOut where
  source : List Int
  target : List Int
  alignment : List (Nat × Nat)
  sourceCount : Rat
  pairCount : Nat
  samples : Nat

/-- `ExtractRules`, rule_extractor.cc:76-121, given the extracts of each occurrence. -/
def extractRules (occs : List (List Extracted)) : List RuleOut :=
  let c := occs.flatten.foldl Counters.add ⟨[], []⟩
  c.alignments.flatMap fun s => s.2.map fun t =>
    let b := bestAlignment t.2
    ⟨s.1, t.1, b.1, ((c.sources.find? fun x => decide (x.1 = s.1)).map (·.2)).getD 0, b.2.2, occs.length⟩

/-! ### Lemmas on maps -/

/-- A strict total order. -/
structure StrictTotal {α : Type} (lt : α → α → Bool) : Prop where
  irrefl : ∀ a, lt a a = false
  trans : ∀ a b c, lt a b = true → lt b c = true → lt a c = true
  total : ∀ a b, lt a b = false → lt b a = false → a = b

theorem lexLt_strict {α : Type} {lt : α → α → Bool} (h : StrictTotal lt) : StrictTotal (lexLt lt) := by
  refine ⟨?_, ?_, ?_⟩
  · intro a
    induction a with
    | nil => rfl
    | cons x a ih => simp [lexLt, h.irrefl, ih]
  · intro a
    induction a with
    | nil =>
      intro b c h1 h2
      cases b with
      | nil => simp [lexLt] at h1
      | cons y b => cases c with
        | nil => simp [lexLt] at h2
        | cons z c => rfl
    | cons x a ih =>
      intro b c h1 h2
      cases b with
      | nil => simp [lexLt] at h1
      | cons y b => cases c with
        | nil => simp [lexLt] at h2
        | cons z c =>
          simp only [lexLt, Bool.or_eq_true, Bool.and_eq_true, Bool.not_eq_true'] at h1 h2 ⊢
          rcases h1 with h1 | ⟨h1, h1'⟩
          · rcases h2 with h2 | ⟨h2, h2'⟩
            · exact Or.inl (h.trans _ _ _ h1 h2)
            · cases hyz : lt y z with
              | true => exact Or.inl (h.trans _ _ _ h1 hyz)
              | false => rw [h.total _ _ hyz h2] at h1; exact Or.inl h1
          · rcases h2 with h2 | ⟨h2, h2'⟩
            · cases hxy : lt x y with
              | true => exact Or.inl (h.trans _ _ _ hxy h2)
              | false => rw [h.total _ _ hxy h1]; exact Or.inl h2
            · cases hxz : lt x z with
              | true => exact Or.inl rfl
              | false =>
                refine Or.inr ⟨?_, ih b c h1' h2'⟩
                cases hzx : lt z x with
                | false => rfl
                | true =>
                  exfalso
                  cases hxy : lt x y with
                  | true => have := h.trans _ _ _ hzx hxy; rw [h2] at this; cases this
                  | false => rw [h.total _ _ hxy h1] at hzx; rw [h2] at hzx; cases hzx
  · intro a
    induction a with
    | nil => intro b h1 h2; cases b with
      | nil => rfl
      | cons y b => simp [lexLt] at h1
    | cons x a ih =>
      intro b h1 h2
      cases b with
      | nil => simp [lexLt] at h2
      | cons y b =>
        simp only [lexLt, Bool.or_eq_false_iff, Bool.and_eq_false_iff, Bool.not_eq_false'] at h1 h2
        have e := h.total _ _ h1.1 h2.1
        subst e
        rw [ih b (h1.2.resolve_left (by rw [h.irrefl]; simp)) (h2.2.resolve_left (by rw [h.irrefl]; simp))]

theorem symLt_strict : StrictTotal symLt :=
  lexLt_strict ⟨by simp, by simp only [decide_eq_true_eq]; intro a b c; omega, by simp only [decide_eq_false_iff_not]; intro a b; omega⟩

theorem alignLt_strict : StrictTotal alignLt := by
  refine lexLt_strict ⟨by simp, ?_, ?_⟩
  · intro a b c
    simp only [Bool.or_eq_true, Bool.and_eq_true, decide_eq_true_eq]
    omega
  · intro a b
    simp only [Bool.or_eq_false_iff, Bool.and_eq_false_iff, decide_eq_false_iff_not]
    intro h1 h2
    refine Prod.ext ?_ ?_ <;> omega

def SortedMap {α β : Type} (lt : α → α → Bool) (m : List (α × β)) : Prop := m.Pairwise fun a b => lt a.1 b.1 = true

theorem mapAlter_mem {α β : Type} {lt : α → α → Bool} (h : StrictTotal lt) (k : α) (f : Option β → β) : ∀ m : List (α × β), SortedMap lt m →
    SortedMap lt (mapAlter lt k f m) ∧ (∀ x ∈ mapAlter lt k f m, (x.1 ≠ k ∧ x ∈ m) ∨ (x.1 = k ∧ ((∃ v, (k, v) ∈ m ∧ x.2 = f (some v)) ∨ ((∀ v, (k, v) ∉ m) ∧ x.2 = f none)))) ∧
      (∀ x ∈ m, x.1 ≠ k → x ∈ mapAlter lt k f m) ∧ ∃ v, (k, v) ∈ mapAlter lt k f m
  | [], _ => by simp [mapAlter, SortedMap]
  | (a, b) :: l, hs => by
    unfold SortedMap at hs
    rw [List.pairwise_cons] at hs
    obtain ⟨h1, h2, h3, h4⟩ := mapAlter_mem h k f l hs.2
    unfold mapAlter
    cases hka : lt k a with
    | true =>
      rw [if_pos rfl]
      have hne : ∀ x ∈ (a, b) :: l, lt k x.1 = true := by
        intro x hx
        rw [List.mem_cons] at hx
        rcases hx with rfl | hx
        · exact hka
        · exact h.trans _ _ _ hka (hs.1 x hx)
      have hne' : ∀ x ∈ (a, b) :: l, x.1 ≠ k := by
        intro x hx e
        have := hne x hx
        rw [e, h.irrefl] at this
        cases this
      refine ⟨?_, ?_, fun x hx _ => List.mem_cons_of_mem _ hx, ⟨_, List.mem_cons_self⟩⟩
      · unfold SortedMap
        exact List.pairwise_cons.2 ⟨hne, List.pairwise_cons.2 hs⟩
      · intro x hx
        rw [List.mem_cons] at hx
        rcases hx with rfl | hx
        · exact Or.inr ⟨rfl, Or.inr ⟨fun v hv => hne' _ hv rfl, rfl⟩⟩
        · exact Or.inl ⟨hne' x hx, hx⟩
    | false =>
      rw [if_neg (by simp)]
      cases hak : lt a k with
      | true =>
        rw [if_pos rfl]
        have hane : a ≠ k := by rintro rfl; rw [h.irrefl] at hak; cases hak
        refine ⟨?_, ?_, ?_, ?_⟩
        · unfold SortedMap at h1 ⊢
          refine List.pairwise_cons.2 ⟨?_, h1⟩
          intro x hx
          rcases h2 x hx with ⟨_, hx⟩ | ⟨e, _⟩
          · exact hs.1 x hx
          · simp only []; rw [e]; exact hak
        · intro x hx
          rw [List.mem_cons] at hx
          rcases hx with rfl | hx
          · exact Or.inl ⟨hane, List.mem_cons_self⟩
          · rcases h2 x hx with ⟨e, hx⟩ | ⟨e, ⟨v, hv, hx⟩ | ⟨hv, hx⟩⟩
            · exact Or.inl ⟨e, List.mem_cons_of_mem _ hx⟩
            · exact Or.inr ⟨e, Or.inl ⟨v, List.mem_cons_of_mem _ hv, hx⟩⟩
            · refine Or.inr ⟨e, Or.inr ⟨?_, hx⟩⟩
              intro v hv'
              rw [List.mem_cons] at hv'
              rcases hv' with e' | hv'
              · cases e'; exact hane rfl
              · exact hv v hv'
        · intro x hx hne
          rw [List.mem_cons] at hx
          rcases hx with rfl | hx
          · exact List.mem_cons_self
          · exact List.mem_cons_of_mem _ (h3 x hx hne)
        · obtain ⟨v, hv⟩ := h4
          exact ⟨v, List.mem_cons_of_mem _ hv⟩
      | false =>
        rw [if_neg (by simp)]
        have e := h.total _ _ hka hak
        subst e
        refine ⟨List.pairwise_cons.2 hs, ?_, ?_, ⟨_, List.mem_cons_self⟩⟩
        · intro x hx
          rw [List.mem_cons] at hx
          rcases hx with rfl | hx
          · exact Or.inr ⟨rfl, Or.inl ⟨b, List.mem_cons_self, rfl⟩⟩
          · refine Or.inl ⟨?_, List.mem_cons_of_mem _ hx⟩
            intro e
            have := hs.1 x hx
            simp only [] at this
            rw [e, h.irrefl] at this
            cases this
        · intro x hx hne
          rw [List.mem_cons] at hx
          rcases hx with rfl | hx
          · exact absurd rfl hne
          · exact List.mem_cons_of_mem _ hx

/-- A sorted map with keys `dom` whose values satisfy `P`. -/
def MapOf {α β : Type} (lt : α → α → Bool) (m : List (α × β)) (dom : α → Prop) (P : α → β → Prop) : Prop :=
  SortedMap lt m ∧ (∀ k, dom k ↔ ∃ v, (k, v) ∈ m) ∧ ∀ x ∈ m, P x.1 x.2

theorem MapOf.alter {α β : Type} {lt : α → α → Bool} (h : StrictTotal lt) {m : List (α × β)} {dom dom' : α → Prop} {P P' : α → β → Prop} (hm : MapOf lt m dom P)
    (k : α) (f : Option β → β) (hd : ∀ a, dom' a ↔ dom a ∨ a = k) (h1 : ∀ a v, a ≠ k → P a v → P' a v) (h2 : ∀ v, P k v → P' k (f (some v))) (h3 : ¬ dom k → P' k (f none)) :
    MapOf lt (mapAlter lt k f m) dom' P' := by
  obtain ⟨hs, hdm, hp⟩ := hm
  obtain ⟨g1, g2, g3, g4⟩ := mapAlter_mem h k f m hs
  refine ⟨g1, ?_, ?_⟩
  · intro a
    rw [hd]
    constructor
    · rintro (ha | rfl)
      · by_cases e : a = k
        · subst e; exact g4
        · obtain ⟨v, hv⟩ := (hdm a).1 ha
          exact ⟨v, g3 _ hv e⟩
      · exact g4
    · rintro ⟨v, hv⟩
      rcases g2 _ hv with ⟨_, hv⟩ | ⟨e, _⟩
      · exact Or.inl ((hdm a).2 ⟨v, hv⟩)
      · exact Or.inr e
  · intro x hx
    rcases g2 x hx with ⟨e, hx⟩ | ⟨e, ⟨v, hv, hx⟩ | ⟨hv, hx⟩⟩
    · exact h1 _ _ e (hp x hx)
    · rw [e, hx]; exact h2 v (hp _ hv)
    · rw [e, hx]; exact h3 fun hk => by obtain ⟨v, hv'⟩ := (hdm k).1 hk; exact hv v hv'

end Cdec.Extract
