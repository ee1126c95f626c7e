import Verif.Decoder.PhraseBasedForest
/-! The loop of the phrase-based translator. -/
namespace Cdec.Dec.PB
open Cdec.HG Spec
variable {R : Type} {x : Ctx R}

/-- The invariant of the loop. -/
def LInv (x : Ctx R) (P : List Key) (m : Vars R) : Prop := QInv x P m.q m.ucs ∧ ∃ tags, FInv x P m.forest m.c tags

/-- The states that start after a coverage. -/
def startsOf (dist : Nat) (cov : Coverage) : List State :=
  ((List.range' cov.gap (min cov.bits.length (cov.gap + dist + 1) - cov.gap)).filter fun i => !cov.bits.getD i false).map fun i => ⟨cov, i, i, []⟩

theorem enqueue_eq (dist : Nat) (cov : Coverage) (m : Vars R) :
    enqueue dist cov m = ⟨m.forest, m.c, if cov.bits ∈ m.ucs then m.ucs else cov.bits :: m.ucs, m.q ++ if cov.bits ∈ m.ucs then [] else startsOf dist cov⟩ := by
  unfold enqueue startsOf
  split
  · simp
  · rfl

theorem mem_startsOf {cov : Coverage} (hl : cov.bits.length = x.n) (hg : IsGap cov.bits cov.gap) (t : State) :
    t ∈ startsOf x.dist cov ↔ ∃ i, t = ⟨cov, i, i, []⟩ ∧ Start x cov.bits i := by
  unfold startsOf
  simp only [List.mem_map, List.mem_filter, List.mem_range'_1, Bool.not_eq_true']
  constructor
  · rintro ⟨i, ⟨⟨h1, h2⟩, h3⟩, rfl⟩
    exact ⟨i, rfl, cov.gap, hg, by omega, by omega, h3⟩
  · rintro ⟨i, rfl, g, g1, g2, g3, g4⟩
    have := hg.unique g1
    subst this
    refine ⟨i, ⟨⟨?_, ?_⟩, g4⟩, rfl⟩
    · by_contra hc
      have := hg.lo i (by omega)
      rw [g4] at this
      simp at this
    · have : cov.gap ≤ i := by
        by_contra hc
        have := hg.lo i (by omega)
        rw [g4] at this
        simp at this
      omega

theorem startsOf_ok (hf : Fst.Ok x.fst) {cov : Coverage} (hl : cov.bits.length = x.n) (hg : IsGap cov.bits cov.gap) :
    (∀ t ∈ startsOf x.dist cov, SOk x t ∧ t.key = (cov.bits, t.i, t.i)) ∧ ((startsOf x.dist cov).map State.key).Nodup ∧
      ∀ i, Start x cov.bits i → (cov.bits, i, i) ∈ (startsOf x.dist cov).map State.key := by
  refine ⟨?_, ?_, ?_⟩
  · intro t ht
    obtain ⟨i, rfl, hi⟩ := (mem_startsOf hl hg t).1 ht
    refine ⟨⟨hl, hg, Nat.le_refl _, ?_, hi, (words_self _ _).symm, hf.root.1, ?_⟩, rfl⟩
    · obtain ⟨_, _, _, h, _⟩ := hi
      exact Nat.le_of_lt h
    · intro p h1 h2
      simp only at h1 h2
      omega
  · unfold startsOf
    rw [List.map_map]
    refine List.Nodup.map_on ?_ ((List.nodup_range' (step := 1)).filter _)
    intro a _ b _ hab
    simp only [Function.comp, State.key, Prod.mk.injEq] at hab
    exact hab.2.1
  · intro i hi
    exact List.mem_map.2 ⟨⟨cov, i, i, []⟩, (mem_startsOf hl hg _).2 ⟨i, rfl, hi⟩, rfl⟩

theorem arcsOf_text {s : State} (hj : s.j < x.n) :
    arcsOf x.env s = if x.fst.has (s.path ++ [x.ws[s.j]]) && !s.cov.collides s.i (s.j + 1) then [⟨s.cov, s.i, s.j + 1, s.path ++ [x.ws[s.j]]⟩] else [] := by
  unfold arcsOf
  have : x.env.lat.getD s.j [] = [(x.ws[s.j], 1)] := by
    show (textLattice x.ws).getD s.j [] = _
    unfold textLattice
    rw [List.getD_eq_getElem?_getD, List.getElem?_map, List.getElem?_eq_getElem hj]
    rfl
  rw [this]
  have henv : x.env.fst = x.fst := rfl
  rw [henv]
  cases h : (x.fst.has (s.path ++ [x.ws[s.j]]) && !s.cov.collides s.i (s.j + 1)) <;> simp only [List.filterMap_cons, List.filterMap_nil, h, Bool.false_eq_true, if_false, if_true]

/-- The states that extend a state by a word. -/
theorem exts_ok {s : State} (hs : SOk x s) {ex : List State} (he : ex = if s.j = x.n then [] else arcsOf x.env s) :
    (∀ t ∈ ex, SOk x t ∧ t.key = (s.cov.bits, s.i, s.j + 1)) ∧ (ex.map State.key).Nodup ∧
      (s.j < x.n → x.fst.has (words x.ws s.i (s.j + 1)) = true → bit s.cov.bits s.j = false → (s.cov.bits, s.i, s.j + 1) ∈ ex.map State.key) := by
  subst he
  by_cases hj : s.j = x.n
  · rw [if_pos hj]
    simp [hj]
  · rw [if_neg hj]
    have hlt : s.j < x.n := by have := hs.jn; omega
    rw [arcsOf_text hlt]
    have hw := words_succ x.ws s.i s.j hs.ij hlt
    have hp : s.path ++ [x.ws[s.j]] = words x.ws s.i (s.j + 1) := by rw [hw, hs.path]
    have hfree : Free s.cov.bits s.i (s.j + 1) ↔ bit s.cov.bits s.j = false := by
      constructor
      · intro h
        exact h s.j hs.ij (by omega)
      · intro h p h1 h2
        by_cases hpj : p = s.j
        · rw [hpj]; exact h
        · exact hs.free p h1 (by omega)
    rw [hp]
    split
    · rename_i h
      rw [Bool.and_eq_true, Bool.not_eq_true', collides_iff] at h
      refine ⟨?_, by simp, ?_⟩
      · intro t ht
        rw [List.mem_singleton.1 ht]
        exact ⟨⟨hs.len, hs.gap, by have := hs.ij; simp only; omega, hlt, hs.start, rfl, h.1, h.2⟩, rfl⟩
      · intro _ _ _
        simp [State.key]
    · rename_i h
      refine ⟨by simp, by simp, ?_⟩
      intro _ h2 h3
      exfalso
      apply h
      rw [Bool.and_eq_true, Bool.not_eq_true', collides_iff]
      exact ⟨h2, hfree.2 h3⟩

theorem data_eq {s : State} (hs : SOk x s) : x.env.fst.data s.path = x.rules s.i s.j := by
  show x.fst.data s.path = x.fst.data (words x.ws s.i s.j)
  rw [hs.path]

theorem lat_length : x.env.lat.length = x.n := by
  show (textLattice x.ws).length = x.ws.length
  simp [textLattice]

/-- One iteration of the loop keeps the invariant. -/
theorem LInv.step (hf : Fst.Ok x.fst) {P : List Key} {m : Vars R} (h : LInv x P m) {s : State} {q : List State} (hq : m.q = s :: q) :
    ∃ m', stepOne x.env s ⟨m.forest, m.c, m.ucs, q⟩ = some m' ∧ LInv x (P ++ [s.key]) m' := by
  obtain ⟨hQ, tags, hF⟩ := h
  rw [hq] at hQ
  have hs := hQ.qok s (by simp)
  obtain ⟨e1, e2, e3⟩ := exts_ok hs rfl
  have hkP : s.key ∉ P := by
    have h2 := hQ.nodup
    rw [List.map_cons, List.nodup_append] at h2
    exact fun hk => h2.2.2 _ hk s.key (by simp) rfl
  have hcovtag : ∀ b ∈ m.ucs, b ≠ x.none → Tag.cov b ∈ tags := by
    intro b hb hne
    rcases (hQ.seen b).1 hb with h1 | h1
    · exact absurd h1 hne
    · exact (hF.mem_cov b).2 h1
  have hkn : ∀ k' ∈ P, x.hasData k' = true → k'.1 ≠ x.none → Tag.cov k'.1 ∈ tags := by
    intro k' h1 _ h3
    exact hcovtag _ (hQ.known k' (List.mem_append_left _ h1)) h3
  have fin : ∀ m1 : Vars R, m1.q ++ (if s.j = x.n then [] else arcsOf x.env s) = m1.q ++ (if s.j = x.n then [] else arcsOf x.env s) →
      (if s.j = x.env.lat.length then some m1 else some (⟨m1.forest, m1.c, m1.ucs, m1.q ++ arcsOf x.env s⟩ : Vars R)) =
        some ⟨m1.forest, m1.c, m1.ucs, m1.q ++ if s.j = x.n then [] else arcsOf x.env s⟩ := by
    intro m1 _
    rw [lat_length]
    split <;> simp
  unfold stepOne
  cases hd : x.rules s.i s.j with
  | nil =>
    rw [data_eq hs, hd]
    simp only []
    rw [fin _ rfl]
    have hnd : x.hasData s.key = false := by simp [Ctx.hasData, State.key, hd]
    refine ⟨_, rfl, ?_, tags, hF.skip hnd⟩
    have := QInv.step (st := []) (ucs' := m.ucs) hf hQ (by simp [hnd]) (by simp) (by simp) (by simp [hnd]) e1 e2 e3
    simpa using this
  | cons r rs =>
    have hdata : x.hasData s.key = true := by simp [Ctx.hasData, State.key, hd]
    have hlt := hasData_lt hf hdata
    have hcov : s.cov.cover s.i s.j = ⟨out s.key, (s.cov.cover s.i s.j).gap⟩ := rfl
    have hgap := cover_gap hs.gap hs.free hlt (by rw [hs.len]; exact hs.jn)
    have hol : (s.cov.cover s.i s.j).bits.length = x.n := hs.out_len
    have hout : out s.key ≠ x.none := setBits_ne_empty hlt (by show s.j ≤ s.cov.bits.length; rw [hs.len]; exact hs.jn)
    obtain ⟨t1, t2, t3⟩ := startsOf_ok hf hol hgap
    have hbits : (s.cov.cover s.i s.j).bits = out s.key := rfl
    have hbu : s.cov.bits ∈ m.ucs := hQ.known s.key (by simp)
    rw [data_eq hs, hd]
    simp only []
    have hQ' : QInv x (P ++ [s.key]) (q ++ (if out s.key ∈ m.ucs then [] else startsOf x.dist (s.cov.cover s.i s.j)) ++ if s.j = x.n then [] else arcsOf x.env s)
        (if out s.key ∈ m.ucs then m.ucs else out s.key :: m.ucs) := by
      refine QInv.step hf hQ ?_ ?_ ?_ ?_ e1 e2 e3
      · intro C
        split
        · rename_i h
          constructor
          · exact .inl
          · rintro (h1 | ⟨_, rfl⟩)
            · exact h1
            · exact h
        · rw [List.mem_cons]
          constructor
          · rintro (rfl | h1)
            · exact .inr ⟨hdata, rfl⟩
            · exact .inl h1
          · rintro (h1 | ⟨_, rfl⟩)
            · exact .inr h1
            · exact .inl rfl
      · intro t ht
        split at ht
        · simp at ht
        · rename_i h
          obtain ⟨a, b⟩ := t1 t ht
          exact ⟨a, b, hdata, h⟩
      · split
        · simp
        · exact t2
      · intro _ ho i hi
        rw [if_neg ho]
        exact t3 i hi
    have huse : ∃ g c tags', useData x.env s ⟨m.forest, m.c, m.ucs, q⟩ =
        some ⟨g, c, if out s.key ∈ m.ucs then m.ucs else out s.key :: m.ucs, q ++ if out s.key ∈ m.ucs then [] else startsOf x.dist (s.cov.cover s.i s.j)⟩ ∧
        FInv x (P ++ [s.key]) g c tags' := by
      unfold useData
      simp only [enqueue_eq, data_eq hs, hbits]
      by_cases hb : s.cov.bits = x.none
      · have hc : m.c s.cov.bits = some 0 := by rw [hF.map, if_pos hb]
        rw [hc]
        exact ⟨_, _, _, rfl, hF.first hdata hb hout hkn (hQ.fresh hf hb hdata) _⟩
      · have hkk := hcovtag _ hbu hb
        have hc : m.c s.cov.bits = some (tags.idxOf (.cov s.cov.bits) + 1) := by rw [hF.map, if_neg hb, if_pos hkk]
        rw [hc]
        simp only []
        by_cases hC : Tag.cov (out s.key) ∈ tags
        · have hc2 : m.c (out s.key) = some (tags.idxOf (.cov (out s.key)) + 1) := by rw [hF.map, if_neg hout, if_pos hC]
          rw [hc2]
          exact ⟨_, _, _, rfl, hF.nextOld hdata hb hkn hkk hkP hC _⟩
        · have hc2 : m.c (out s.key) = none := by rw [hF.map, if_neg hout, if_neg hC]
          rw [hc2]
          exact ⟨_, _, _, rfl, hF.nextNew hdata hb hout hkn hkk hkP hC _⟩
    obtain ⟨g, c, tags', hu1, hu2⟩ := huse
    rw [hu1]
    simp only []
    rw [fin _ rfl]
    exact ⟨_, rfl, hQ', tags', hu2⟩

/-- The names that are possible. -/
def allKeys (n : Nat) : List Key := (allBits n).flatMap fun b => (List.range (n + 1)).flatMap fun i => (List.range (n + 1)).map fun j => (b, i, j)

theorem mem_allKeys {s : State} (hs : SOk x s) : s.key ∈ allKeys x.n := by
  unfold allKeys
  simp only [List.mem_flatMap, List.mem_map, List.mem_range]
  refine ⟨s.cov.bits, hs.len ▸ mem_allBits _, s.i, ?_, s.j, ?_, rfl⟩
  · have := hs.ij
    have := hs.jn
    omega
  · have := hs.jn
    omega

theorem LInv.length_le {P : List Key} {m : Vars R} (h : LInv x P m) : P.length ≤ (allKeys x.n).length := by
  have hnd : P.Nodup := (List.nodup_append.1 h.1.nodup).1
  refine (List.subperm_of_subset hnd ?_).length_le
  intro k hk
  obtain ⟨s, hs, rfl⟩ := h.1.pok k hk
  exact mem_allKeys hs

/-- The loop ends with an empty queue. -/
theorem mainLoop_ends (hf : Fst.Ok x.fst) (N : Nat) : ∀ (P : List Key) (m : Vars R), LInv x P m → (allKeys x.n).length - P.length ≤ N →
    ∃ P' m', LInv x P' m' ∧ m'.q = [] ∧ ∀ fuel, N + 1 ≤ fuel → mainLoop x.env fuel m = some m' := by
  induction N with
  | zero =>
    intro P m h hN
    cases hq : m.q with
    | nil =>
      refine ⟨P, m, h, hq, fun fuel hfu => ?_⟩
      obtain ⟨f, rfl⟩ : ∃ f, fuel = f + 1 := ⟨fuel - 1, by omega⟩
      rw [mainLoop, hq]
    | cons s q =>
      obtain ⟨m', _, h2⟩ := h.step hf hq
      have := h2.length_le
      rw [List.length_append, List.length_singleton] at this
      omega
  | succ N ih =>
    intro P m h hN
    cases hq : m.q with
    | nil =>
      refine ⟨P, m, h, hq, fun fuel hfu => ?_⟩
      obtain ⟨f, rfl⟩ : ∃ f, fuel = f + 1 := ⟨fuel - 1, by omega⟩
      rw [mainLoop, hq]
    | cons s q =>
      obtain ⟨m1, h1, h2⟩ := h.step hf hq
      obtain ⟨P', m', h3, h4, h5⟩ := ih _ m1 h2 (by rw [List.length_append, List.length_singleton]; omega)
      refine ⟨P', m', h3, h4, fun fuel hfu => ?_⟩
      obtain ⟨f, rfl⟩ : ∃ f, fuel = f + 1 := ⟨fuel - 1, by omega⟩
      rw [mainLoop, hq]
      simp only [h1]
      exact h5 f (by omega)

theorem none_gap : IsGap x.none 0 := ⟨fun p hp => by omega, Nat.zero_le _, bit_replicate_false _ _⟩

theorem start_inv (hf : Fst.Ok x.fst) : LInv x [] (start x.env) := by
  have hl : (⟨x.none, 0⟩ : Coverage).bits.length = x.n := by simp [Ctx.none]
  obtain ⟨t1, t2, t3⟩ := startsOf_ok (cov := ⟨x.none, 0⟩) hf hl none_gap
  have hst : start x.env = ⟨empty, setC (fun _ => none) x.none 0, [x.none], startsOf x.dist ⟨x.none, 0⟩⟩ := by
    unfold start
    simp only [enqueue_eq, lat_length]
    simp only [List.not_mem_nil, if_false, List.nil_append]
    rfl
  rw [hst]
  refine ⟨⟨fun s hs => (t1 s hs).1, by simp, by simpa using t2, by simp, ?_, ?_, by simp, ?_, ?_⟩, [], ?_⟩
  · intro k hk
    rw [List.nil_append] at hk
    obtain ⟨t, ht, rfl⟩ := List.mem_map.1 hk
    rw [(t1 t ht).2]
    simp
  · intro C hC i hi
    rw [List.mem_singleton.1 hC] at hi ⊢
    exact List.mem_append_right _ (t3 i hi)
  · intro b i j hk hij
    rw [List.nil_append] at hk
    obtain ⟨t, ht, e⟩ := List.mem_map.1 hk
    rw [(t1 t ht).2] at e
    simp only [Prod.mk.injEq] at e
    omega
  · refine ⟨startsOf x.dist ⟨x.none, 0⟩, [], 0, by simp, ?_, by simp, by simp⟩
    intro s hs
    have := (t1 s hs).2
    simp only [State.key, Prod.mk.injEq] at this
    unfold AtLevel
    rw [if_pos this.1]
    omega
  · refine ⟨inv_empty, rfl, by simp, by simp, by simp, ?_, by simp, by simp⟩
    intro C
    unfold setC
    simp

/-- The loop of `Translate`. -/
theorem loop_spec (hf : Fst.Ok x.fst) : ∃ P m F, LInv x P m ∧ m.q = [] ∧ ∀ fuel, F ≤ fuel → mainLoop x.env fuel (start x.env) = some m := by
  obtain ⟨P, m, h1, h2, h3⟩ := mainLoop_ends hf _ [] _ (start_inv hf) (Nat.le_refl _)
  exact ⟨P, m, _, h1, h2, h3⟩

end Cdec.Dec.PB
