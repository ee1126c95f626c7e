import Verif.Extract.SuffixInitLemmas
/-!
# Lemmas: binary search in the suffix array and longest common prefixes
-/
namespace Cdec.Extract

/-- The test of the binary search: the suffix at rank `r` is below `w` at `offset`. -/
def below (data sa : List Nat) (w offset r : Nat) : Prop :=
  sa.getD r 0 + offset ≥ data.length ∨ data.getD (sa.getD r 0 + offset) 0 < w

theorem lookupLoop_spec (data sa : List Nat) (w offset lo0 hi0 : Nat)
    (mono : ∀ r r', lo0 ≤ r → r < r' → r' < hi0 → below data sa w offset r' → below data sa w offset r) :
    ∀ fuel lo hi res, hi - lo ≤ fuel → lo0 ≤ lo → lo ≤ hi → hi ≤ hi0 → res = hi →
      (∀ r, lo0 ≤ r → r < lo → below data sa w offset r) →
      (∀ r, hi ≤ r → r < hi0 → ¬ below data sa w offset r) →
      lo0 ≤ lookupLoop data sa w offset fuel lo hi res ∧ lookupLoop data sa w offset fuel lo hi res ≤ hi0 ∧
      ∀ r, lo0 ≤ r → r < hi0 → (below data sa w offset r ↔ r < lookupLoop data sa w offset fuel lo hi res) := by
  intro fuel
  induction fuel with
  | zero =>
    intro lo hi res h1 h2 h3 h4 h5 h6 h7
    have : lo = hi := by omega
    subst this
    simp only [lookupLoop]
    refine ⟨by omega, by omega, fun r h8 h9 => ⟨fun hb => ?_, fun hb => h6 r h8 (by omega)⟩⟩
    by_contra hc
    exact h7 r (by omega) h9 hb
  | succ fuel ih =>
    intro lo hi res h1 h2 h3 h4 h5 h6 h7
    unfold lookupLoop
    by_cases hlt : lo < hi
    · rw [if_pos hlt]
      simp only []
      have hm : lo ≤ lo + (hi - lo) / 2 ∧ lo + (hi - lo) / 2 < hi := by omega
      generalize lo + (hi - lo) / 2 = mid at hm
      split_ifs with hb
      · have hb' : below data sa w offset mid := hb
        refine ih (mid + 1) hi res (by omega) (by omega) (by omega) h4 h5 ?_ h7
        intro r h8 h9
        by_cases hr : r = mid
        · rw [hr]; exact hb'
        · exact mono r mid h8 (by omega) (by omega) hb'
      · have hb' : ¬ below data sa w offset mid := hb
        refine ih lo mid mid (by omega) h2 (by omega) (by omega) rfl h6 ?_
        intro r h8 h9 hbr
        by_cases hr : r = mid
        · exact hb' (by rw [← hr]; exact hbr)
        · exact hb' (mono mid r (by omega) (by omega) h9 hbr)
    · rw [if_neg hlt]
      have : lo = hi := by omega
      subst this
      refine ⟨by omega, by omega, fun r h8 h9 => ⟨fun hb => ?_, fun hb => h6 r h8 (by omega)⟩⟩
      by_contra hc
      exact h7 r (by omega) h9 hb

theorem lookupRangeStart_spec (data sa : List Nat) (w offset lo hi : Nat) (hle : lo ≤ hi)
    (mono : ∀ r r', lo ≤ r → r < r' → r' < hi → below data sa w offset r' → below data sa w offset r) :
    lo ≤ lookupRangeStart data sa lo hi w offset ∧ lookupRangeStart data sa lo hi w offset ≤ hi ∧
      ∀ r, lo ≤ r → r < hi → (below data sa w offset r ↔ r < lookupRangeStart data sa lo hi w offset) :=
  lookupLoop_spec data sa w offset lo hi mono (hi - lo) lo hi hi (Nat.le_refl _) (Nat.le_refl _) hle (Nat.le_refl _) rfl
    (fun r h1 h2 => absurd h2 (by omega)) (fun r h1 h2 => absurd h2 (by omega))

theorem lt_of_append_lt {a b c : List Nat} (h : a ++ b < a ++ c) : b < c := by
  induction a with
  | nil => simpa using h
  | cons x xs ih =>
    rw [List.cons_append, List.cons_append] at h
    exact ih (by simpa using h)

/-- In a sorted list the elements below `w` come first. -/
theorem sorted_countP {L : List Nat} (h : L.Pairwise (· ≤ ·)) (w r x : Nat) (hr : L[r]? = some x) :
    x < w ↔ r < L.countP (· < w) := by
  induction L generalizing r with
  | nil => simp at hr
  | cons y ys ih =>
    rw [List.pairwise_cons] at h
    cases r with
    | zero =>
      simp only [List.getElem?_cons_zero, Option.some.injEq] at hr
      subst hr
      rw [List.countP_cons]
      by_cases hy : y < w
      · simp [hy]
      · have : ys.countP (· < w) = 0 := by
          rw [List.countP_eq_zero]
          intro z hz
          have := h.1 z hz
          simp; omega
        simp [hy, this]
    | succ r =>
      simp only [List.getElem?_cons_succ] at hr
      rw [List.countP_cons, ih h.2 r hr]
      by_cases hy : y < w
      · simp [hy]
      · have h0 : ys.countP (· < w) = 0 := by
          rw [List.countP_eq_zero]
          intro z hz
          have := h.1 z hz
          simp; omega
        have hyx := h.1 x (List.mem_of_getElem? hr)
        simp [hy, h0]

/-- What the constructor guarantees, as needed by the queries. -/
structure SAOK (data : List Nat) (V : Nat) (s : SuffixArray) : Prop where
  perm : s.sa.Perm (List.range (data.length + 1))
  sorted : s.sa.Pairwise (fun p q => data.drop p < data.drop q)
  ws : s.wordStart = (List.range (V + 1)).map (cnt (data ++ [0]))

theorem SAOK.length {data : List Nat} {V : Nat} {s : SuffixArray} (h : SAOK data V s) :
    s.sa.length = data.length + 1 := by rw [h.perm.length_eq, List.length_range]

theorem SAOK.get {data : List Nat} {V : Nat} {s : SuffixArray} (h : SAOK data V s) {r : Nat}
    (hr : r < data.length + 1) : s.sa[r]? = some (s.sa.getD r 0) ∧ s.sa.getD r 0 ≤ data.length := by
  have hl := h.length
  have e : s.sa[r]? = some (s.sa.getD r 0) := by
    rw [List.getD_eq_getElem?_getD, List.getElem?_eq_getElem (by omega)]; rfl
  refine ⟨e, ?_⟩
  have := h.perm.mem_iff.1 (List.mem_of_getElem? e)
  have := List.mem_range.1 this
  omega

theorem SAOK.lt {data : List Nat} {V : Nat} {s : SuffixArray} (h : SAOK data V s) {r r' : Nat}
    (hrr : r < r') (hr : r' < data.length + 1) : data.drop (s.sa.getD r 0) < data.drop (s.sa.getD r' 0) := by
  have hl := h.length
  have := List.pairwise_iff_getElem.1 h.sorted r r' (by omega) (by omega) hrr
  rw [List.getD_eq_getElem?_getD, List.getD_eq_getElem?_getD, List.getElem?_eq_getElem (by omega),
    List.getElem?_eq_getElem (by omega)]
  exact this

theorem SAOK.exists_rank {data : List Nat} {V : Nat} {s : SuffixArray} (h : SAOK data V s) {p : Nat}
    (hp : p ≤ data.length) : ∃ r, r < data.length + 1 ∧ s.sa.getD r 0 = p := by
  have : p ∈ s.sa := h.perm.mem_iff.2 (List.mem_range.2 (by omega))
  obtain ⟨r, hr, e⟩ := List.getElem_of_mem this
  exact ⟨r, by rw [← h.length]; exact hr, by rw [List.getD_eq_getElem?_getD, List.getElem?_eq_getElem hr]; exact e⟩

/-- The first word of the suffix at rank `r` in the text with the null word appended. -/
theorem SAOK.first {data : List Nat} {V : Nat} {s : SuffixArray} (h : SAOK data V s) (hpos : ∀ w ∈ data, 0 < w)
    (w r : Nat) (hr : r < data.length + 1) :
    (data ++ [0]).getD (s.sa.getD r 0) 0 < w ↔ r < cnt (data ++ [0]) w := by
  have hl := h.length
  have hperm : (s.sa.map fun p => (data ++ [0]).getD p 0).Perm (data ++ [0]) := by
    have h1 := h.perm.map (fun p => (data ++ [0]).getD p 0)
    have h2 : (List.range (data.length + 1)).map (fun p => (data ++ [0]).getD p 0) = data ++ [0] := by
      apply List.ext_getElem
      · simp
      · intro i h3 h4
        simp only [List.getElem_map, List.getElem_range]
        rw [List.getD_eq_getElem?_getD, List.getElem?_eq_getElem h4]; rfl
    rwa [h2] at h1
  have hfirst : ∀ p q, p ≤ data.length → q ≤ data.length → data.drop p < data.drop q →
      (data ++ [0]).getD p 0 ≤ (data ++ [0]).getD q 0 := by
    intro p q hp hq hlt
    by_cases hp' : p < data.length
    · by_cases hq' : q < data.length
      · rw [List.getD_eq_getElem?_getD, List.getD_eq_getElem?_getD, List.getElem?_append_left hp',
          List.getElem?_append_left hq', List.getElem?_eq_getElem hp', List.getElem?_eq_getElem hq']
        rw [List.drop_eq_getElem_cons hp', List.drop_eq_getElem_cons hq', List.cons_lt_cons_iff] at hlt
        simp only [Option.getD_some]
        omega
      · rw [List.drop_of_length_le (by omega : data.length ≤ q)] at hlt
        exact absurd hlt (List.not_lt_nil _)
    · have : p = data.length := by omega
      subst this
      have h0 : (data ++ [0]).getD data.length 0 = 0 := by simp [List.getD_eq_getElem?_getD]
      omega
  have hsorted : (s.sa.map fun p => (data ++ [0]).getD p 0).Pairwise (· ≤ ·) := by
    rw [List.pairwise_map]
    refine h.sorted.imp_of_mem ?_
    intro p q hp hq hlt
    have h1 := List.mem_range.1 (h.perm.mem_iff.1 hp)
    have h2 := List.mem_range.1 (h.perm.mem_iff.1 hq)
    exact hfirst p q (by omega) (by omega) hlt
  have := sorted_countP hsorted w r ((data ++ [0]).getD (s.sa.getD r 0) 0) (by
    rw [List.getElem?_map, (h.get hr).1]; rfl)
  rw [this, hperm.countP_eq]; rfl

theorem prefix_concat (l : List Nat) (ids : List Nat) (w : Nat) :
    ids ++ [w] <+: l ↔ ids <+: l ∧ l[ids.length]? = some w := by
  induction ids generalizing l with
  | nil => cases l <;> simp [eq_comm]
  | cons x xs ih =>
    cases l with
    | nil => simp
    | cons y ys => simp [ih ys, and_assoc]

/-- Location of the words found so far. -/
structure LocOK (data : List Nat) (s : SuffixArray) (ids : List Nat) (loc : Nat × Nat) : Prop where
  le : loc.1 ≤ loc.2
  hi : loc.2 ≤ data.length + 1
  iff : ∀ r, r < data.length + 1 → (loc.1 ≤ r ∧ r < loc.2 ↔ ids <+: data.drop (s.sa.getD r 0))

theorem lookup_step {data : List Nat} {V : Nat} {s : SuffixArray} (h : SAOK data V s) (hpos : ∀ w ∈ data, 0 < w)
    {ids : List Nat} {loc : Nat × Nat} (ok : LocOK data s ids loc) {w : Nat} (hw0 : 0 < w) (hw : w < V) :
    LocOK data s (ids ++ [w]) (lookup data s loc.1 loc.2 (some w) ids.length) := by
  have hdrop : ∀ r, (data.drop (s.sa.getD r 0))[ids.length]? = data[s.sa.getD r 0 + ids.length]? := by
    intro r; rw [List.getElem?_drop]
  by_cases h0 : ids = []
  · subst h0
    simp only [lookup, List.length_nil, if_true, List.nil_append]
    have hg : ∀ v, v ≤ V → s.wordStart.getD v 0 = cnt (data ++ [0]) v := by
      intro v hv
      rw [h.ws, List.getD_eq_getElem?_getD, List.getElem?_map, List.getElem?_range (by omega)]; rfl
    rw [hg w (by omega), hg (w + 1) (by omega)]
    refine ⟨cnt_mono _ (by omega), ?_, ?_⟩
    · have := cnt_le (data ++ [0]) (w + 1)
      simpa using this
    · intro r hr
      simp only []
      have h1 := h.first hpos w r hr
      have h2 := h.first hpos (w + 1) r hr
      have h3 := prefix_concat (data.drop (s.sa.getD r 0)) [] w
      simp only [List.nil_append, List.nil_prefix, true_and, List.length_nil] at h3
      rw [h3, List.getElem?_drop, Nat.add_zero (s.sa.getD r 0)]
      have hle := (h.get hr).2
      have : (data ++ [0]).getD (s.sa.getD r 0) 0 = w ↔ data[s.sa.getD r 0]? = some w := by
        by_cases hlt : s.sa.getD r 0 < data.length
        · rw [List.getD_eq_getElem?_getD (l := data ++ [0]), List.getElem?_append_left hlt,
            List.getElem?_eq_getElem hlt]
          simp
        · have he : s.sa.getD r 0 = data.length := by omega
          rw [he]
          simp [List.getD_eq_getElem?_getD]; omega
      rw [← this]
      omega
  · have hlen : ids.length ≠ 0 := by simpa using h0
    simp only [lookup, hlen, if_false]
    have hbelow : ∀ v r, below data s.sa v ids.length r ↔
        ∀ x, (data.drop (s.sa.getD r 0))[ids.length]? = some x → x < v := by
      intro v r
      rw [hdrop]
      unfold below
      by_cases hlt : s.sa.getD r 0 + ids.length < data.length
      · rw [List.getD_eq_getElem?_getD (l := data), List.getElem?_eq_getElem hlt]
        simp only [Option.getD_some, Option.some.injEq, forall_eq']
        constructor
        · rintro (h | h)
          · omega
          · exact h
        · exact Or.inr
      · rw [List.getElem?_eq_none (by omega)]
        exact ⟨fun _ x hx => (by cases hx), fun _ => Or.inl (by omega)⟩
    have mono : ∀ v r r', loc.1 ≤ r → r < r' → r' < loc.2 → below data s.sa v ids.length r' →
        below data s.sa v ids.length r := by
      intro v r r' h1 h2 h3 hb
      have hhi := ok.hi
      rw [hbelow] at hb ⊢
      obtain ⟨t, ht⟩ := (ok.iff r (by omega)).1 ⟨h1, by omega⟩
      obtain ⟨t', ht'⟩ := (ok.iff r' (by omega)).1 ⟨by omega, h3⟩
      have hlt := h.lt h2 (by omega)
      rw [← ht, ← ht'] at hlt
      have hlt' := lt_of_append_lt hlt
      rw [← ht'] at hb
      rw [← ht]
      intro x hx
      rw [List.getElem?_append_right (Nat.le_refl _), Nat.sub_self] at hx hb
      cases t with
      | nil => simp at hx
      | cons y ys =>
        simp only [List.getElem?_cons_zero, Option.some.injEq] at hx
        subst hx
        cases t' with
        | nil => exact absurd hlt' (List.not_lt_nil _)
        | cons z zs =>
          have := hb z rfl
          rw [List.cons_lt_cons_iff] at hlt'
          omega
    have hle := ok.le
    have hhi := ok.hi
    obtain ⟨a1, a2, a3⟩ := lookupRangeStart_spec data s.sa w ids.length loc.1 loc.2 ok.le (mono w)
    obtain ⟨b1, b2, b3⟩ := lookupRangeStart_spec data s.sa (w + 1) ids.length loc.1 loc.2 ok.le (mono (w + 1))
    generalize lookupRangeStart data s.sa loc.1 loc.2 w ids.length = x at a1 a2 a3
    generalize lookupRangeStart data s.sa loc.1 loc.2 (w + 1) ids.length = y at b1 b2 b3
    refine ⟨?_, by simp only []; omega, ?_⟩
    · simp only []
      by_contra hc
      have e1 := (b3 y b1 (by omega))
      have e2 := (a3 y b1 (by omega))
      have h1 : below data s.sa w ids.length y := e2.2 (by omega)
      have h2 : below data s.sa (w + 1) ids.length y := by
        rw [hbelow] at h1 ⊢
        intro z hz
        have := h1 z hz; omega
      have := e1.1 h2
      omega
    · intro r hr
      simp only []
      rw [prefix_concat, ← ok.iff r hr]
      constructor
      · rintro ⟨h1, h2⟩
        refine ⟨⟨by omega, by omega⟩, ?_⟩
        have hb := (b3 r (by omega) (by omega)).2 h2
        have ha : ¬ below data s.sa w ids.length r := fun hh => by
          have := (a3 r (by omega) (by omega)).1 hh; omega
        rw [hbelow] at ha hb
        cases hz : (data.drop (s.sa.getD r 0))[ids.length]? with
        | none => exact absurd (fun x hx => by rw [hz] at hx; cases hx) ha
        | some z =>
          have h3 := hb z hz
          have h4 : ¬ z < w := fun hlt => ha (fun x hx => by
            rw [hz] at hx; cases hx; exact hlt)
          rw [show z = w by omega]
      · rintro ⟨⟨h1, h2⟩, h3⟩
        constructor
        · by_contra hc
          have := (a3 r h1 h2).2 (by omega)
          rw [hbelow] at this
          have := this w h3; omega
        · refine (b3 r h1 h2).1 ?_
          rw [hbelow]
          intro x hx
          rw [h3] at hx
          cases hx; omega

theorem findFrom_none (data : List Nat) (s : SuffixArray) (ws : List (Option Nat)) (k a : Nat) (hk : 0 < k) :
    (findFrom data s ws k (a, a)).1 = (findFrom data s ws k (a, a)).2 := by
  induction ws generalizing k a with
  | nil => rfl
  | cons w ws ih =>
    rw [findFrom]
    have : ∃ b, lookup data s a a w k = (b, b) := by
      cases w with
      | none => exact ⟨0, rfl⟩
      | some w =>
        refine ⟨a, ?_⟩
        simp only [lookup, show k ≠ 0 by omega, if_false, lookupRangeStart, Nat.sub_self, lookupLoop]
    obtain ⟨b, hb⟩ := this
    simp only [hb]
    exact ih (k + 1) b (by omega)

theorem findFrom_spec {data : List Nat} {V : Nat} {s : SuffixArray} (h : SAOK data V s) (hpos : ∀ w ∈ data, 0 < w) :
    ∀ (ws : List (Option Nat)) (ids : List Nat) (loc : Nat × Nat), LocOK data s ids loc →
      (∀ w ∈ ws, ∀ i, w = some i → 0 < i ∧ i < V) →
      (findFrom data s ws ids.length loc).1 ≤ (findFrom data s ws ids.length loc).2 ∧
      (findFrom data s ws ids.length loc).2 ≤ data.length + 1 ∧
      ∀ r, r < data.length + 1 → ((findFrom data s ws ids.length loc).1 ≤ r ∧ r < (findFrom data s ws ids.length loc).2 ↔
        ∃ js, ws = js.map some ∧ ids ++ js <+: data.drop (s.sa.getD r 0)) := by
  intro ws
  induction ws with
  | nil =>
    intro ids loc ok _
    refine ⟨ok.le, ok.hi, fun r hr => ?_⟩
    rw [findFrom, ok.iff r hr]
    constructor
    · intro h'; exact ⟨[], rfl, by simpa using h'⟩
    · rintro ⟨js, e, h'⟩
      have : js = [] := by simpa using e.symm
      subst this; simpa using h'
  | cons w ws ih =>
    intro ids loc ok hws
    rw [findFrom]
    cases w with
    | none =>
      have he := findFrom_none data s ws (ids.length + 1) 0 (by omega)
      have hl : lookup data s loc.1 loc.2 none ids.length = (0, 0) := rfl
      rw [hl]
      have hb : (findFrom data s ws (ids.length + 1) (0, 0)).2 ≤ data.length + 1 := by
        have gen : ∀ (ws : List (Option Nat)) k, 0 < k → findFrom data s ws k (0, 0) = (0, 0) := by
          intro ws
          induction ws with
          | nil => intro k _; rfl
          | cons w ws ih' =>
            intro k hk
            rw [findFrom]
            have : lookup data s 0 0 w k = (0, 0) := by
              cases w with
              | none => rfl
              | some w => simp only [lookup, show k ≠ 0 by omega, if_false, lookupRangeStart, Nat.sub_self, lookupLoop]
            simp only [this]
            exact ih' (k + 1) (by omega)
        rw [gen ws _ (by omega)]; omega
      refine ⟨by omega, hb, fun r hr => ⟨fun h' => by omega, ?_⟩⟩
      rintro ⟨js, e, _⟩
      cases js with
      | nil => simp at e
      | cons j js => simp at e
    | some w =>
      have hw := hws (some w) (by simp) w rfl
      have ok' := lookup_step h hpos ok hw.1 hw.2
      have := ih (ids ++ [w]) _ ok' (fun x hx => hws x (List.mem_cons_of_mem _ hx))
      rw [List.length_append, List.length_singleton] at this
      refine ⟨this.1, this.2.1, fun r hr => ?_⟩
      rw [this.2.2 r hr]
      constructor
      · rintro ⟨js, e, hp⟩
        exact ⟨w :: js, by simp [e], by simpa using hp⟩
      · rintro ⟨js, e, hp⟩
        cases js with
        | nil => simp at e
        | cons j js =>
          simp only [List.map_cons, List.cons.injEq, Option.some.injEq] at e
          obtain ⟨rfl, e⟩ := e
          exact ⟨js, e, by simpa using hp⟩

end Cdec.Extract
