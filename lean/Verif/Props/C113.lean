import Verif.Train.CandidatesLemmas
/-!
# C113: sets of candidates lose nothing and have no duplicates, and survive a file

`Represents x y` (CandidatesSpec): the same translation, the same features in the same order, and values that agree in
about the first twenty bits of the mantissa.
-/
namespace Cdec.Train.Candidates

theorem fine_of {c : Cand} (hb : c.Bits) (hn : c.NoNan) : Fine c.feats := fun x hx => ⟨hb x hx, hn x hx⟩

/-- **C113 (a history of additions).**  However often lists of candidates are added, whatever the hash function and the
order of iteration: every candidate in the set is one of those added, none is in the set twice, and every candidate that
was ever added is represented by one in the set. -/
theorem C113_history (combine : Nat → Nat → Nat) (order : List Cand → List Cand) (ho : ∀ l, (order l).Perm l)
    (lists : List (List Cand)) (hb : ∀ l ∈ lists, ∀ c ∈ l, c.Bits) (hn : ∀ l ∈ lists, ∀ c ∈ l, c.NoNan) :
    (lists.foldl (add combine order) []).Subperm lists.flatten ∧
    ((lists.foldl (add combine order) []).map fun c => (c.words, c.feats)).Nodup ∧
    ∀ l ∈ lists, ∀ x ∈ l, ∃ y ∈ lists.foldl (add combine order) [], Represents x y := by
  suffices H : ∀ (lists : List (List Cand)) (u seen : List Cand), (∀ l ∈ lists, ∀ c ∈ l, Fine c.feats) → (∀ c ∈ seen, Fine c.feats) →
      (u.map key).Nodup → u.Subperm seen → (∀ x ∈ seen, ∃ y ∈ u, same x y = true) →
      (lists.foldl (add combine order) u).Subperm (seen ++ lists.flatten) ∧ ((lists.foldl (add combine order) u).map key).Nodup ∧
      ∀ x ∈ seen ++ lists.flatten, ∃ y ∈ lists.foldl (add combine order) u, same x y = true by
    have hf : ∀ l ∈ lists, ∀ c ∈ l, Fine c.feats := fun l hl c hc => fine_of (hb l hl c hc) (hn l hl c hc)
    obtain ⟨h1, h2, h3⟩ := H lists [] [] hf (by simp) (by simp) (by simp) (by simp)
    refine ⟨by simpa using h1, h2, fun l hl x hx => ?_⟩
    obtain ⟨y, hy, hs⟩ := h3 x (by simpa using ⟨l, hl, hx⟩)
    have hyf : Fine y.feats := by
      have := h1.subset hy
      simp only [List.nil_append, List.mem_flatten] at this
      obtain ⟨l', hl', hy'⟩ := this
      exact hf l' hl' y hy'
    unfold same at hs
    simp only [Bool.and_eq_true, decide_eq_true_eq] at hs
    exact ⟨y, hy, hs.1, approxEquals_close (hf l hl x hx) hyf hs.2⟩
  intro lists
  induction lists with
  | nil => intro u seen _ _ h1 h2 h3; exact ⟨by simpa using h2, h1, by simpa using h3⟩
  | cons l lists ih =>
    intro u seen hl hseen h1 h2 h3
    rw [List.foldl_cons]
    have hul : ∀ c ∈ u ++ l, Fine c.feats := fun c hc => by
      rcases List.mem_append.mp hc with hc | hc
      · exact hseen c (h2.subset hc)
      · exact hl l (by simp) c hc
    obtain ⟨g1, g2, g3⟩ := dedup_spec combine order ho (u ++ l) hul
    have := ih (add combine order u l) (seen ++ l) (fun m hm => hl m (by simp [hm]))
      (fun c hc => by
        rcases List.mem_append.mp hc with hc | hc
        · exact hseen c hc
        · exact hl l (by simp) c hc) g1 (g2.trans ((List.subperm_append_right l).mpr h2))
      (fun x hx => by
        rcases List.mem_append.mp hx with hx | hx
        · obtain ⟨y, hy, hs⟩ := h3 x hx
          obtain ⟨z, hz, hs'⟩ := g3 y (by simp [hy])
          exact ⟨z, hz, same_trans hs hs'⟩
        · exact g3 x (by simp [hx]))
    simpa using this

/-- **C113 (files).**  Candidates with features are read from the file as they were written, up to the ten digits of the
numbers; statistics without a name get the name NULL. -/
theorem C113_file_partial (T : Text) (cs : List Cand) (h : ∀ c ∈ cs, Storable T c) (hf : ∀ c ∈ cs, c.feats ≠ []) :
    readFile T (writeFile T cs) = some (cs.map (stored T)) := by
  have hs : ∀ cs : List Cand, (∀ c ∈ cs, Storable T c) → (∀ c ∈ cs, c.feats ≠ []) →
      (Weights.splitLines (writeFile T cs)).2 = [] ∧ readLines T (Weights.splitLines (writeFile T cs)).1 = some (cs.map (stored T)) := by
    intro cs h hf
    induction cs with
    | nil => exact ⟨rfl, rfl⟩
    | cons c cs ih =>
      obtain ⟨i1, i2⟩ := ih (fun d hd => h d (by simp [hd])) (fun d hd => hf d (by simp [hd]))
      have hc := h c (by simp)
      have e : writeFile T (c :: cs) = candText T c ++ writeFile T cs := rfl
      obtain ⟨r1, r2⟩ := read_cand T c hc (hf c (by simp))
      rw [e, splitLines_cand T c hc]
      refine ⟨i1, ?_⟩
      simp only [readLines, r1, r2, i2, decode_encode T c hc]
      rfl
  obtain ⟨h1, h2⟩ := hs cs h hf
  unfold readFile
  simp only [h1, if_true, List.append_nil, h2]

/-- A candidate without features cannot be read back: the program exits. -/
theorem C113_empty_features_fails (T : Text) (c : Cand) (h : Storable T c) (hf : c.feats = []) : readFile T (writeFile T [c]) = none := by
  have e : writeFile T [c] = candText T c ++ [] := rfl
  unfold readFile
  rw [e, splitLines_cand T c h, hf]
  rfl

/-- `boost::hash_combine` for 64 bits. -/
def boostCombine (seed v : Nat) : Nat := seed ^^^ ((v + 0x9e3779b9 + seed * 64 + seed / 4) % 2 ^ 64)

/-- A candidate with one word. -/
def one (feats : List (Nat × Nat)) : Cand := ⟨[5], feats, ⟨[], []⟩⟩

/-- The same features in another order (which depends on how the vector was built) are not recognised: the candidate is
in the set twice. -/
theorem C113_order_fails :
    dedup boostCombine id [one [(1, 0x3ff0000000000000), (2, 0x4000000000000000)], one [(2, 0x4000000000000000), (1, 0x3ff0000000000000)]] =
      [one [(2, 0x4000000000000000), (1, 0x3ff0000000000000)], one [(1, 0x3ff0000000000000), (2, 0x4000000000000000)]] := by
  decide +kernel

/-- Rounding keeps a bit by mistake: 1 and 1 + 2^-51 are different although 1 and 1 + 2^-52, and even 1 and 1 + 2^-22, are
the same. -/
theorem C113_bit_fails :
    (dedup boostCombine id [one [(1, 0x3ff0000000000000)], one [(1, 0x3ff0000000000002)]]).length = 2 ∧
    (dedup boostCombine id [one [(1, 0x3ff0000000000000)], one [(1, 0x3ff0000000000001)]]).length = 1 ∧
    (dedup boostCombine id [one [(1, 0x3ff0000000000000)], one [(1, 0x3ff0000040000000)]]).length = 1 := by
  decide +kernel

/-- The hash code is that of the value cut off, not rounded: values that are neighbours, and equal in the comparison, are
kept as different. -/
theorem C113_hash_fails :
    same (one [(1, 0x3fefffffffffffff)]) (one [(1, 0x3ff0000000000000)]) = true ∧
    (dedup boostCombine id [one [(1, 0x3fefffffffffffff)], one [(1, 0x3ff0000000000000)]]).length = 2 := by
  decide +kernel

/-- A dictionary and formats for the example: the number itself as one byte. -/
def exText : Text where
  word := fun w => [UInt8.ofNat (w + 97)]
  wordId := fun s => (s.headD 0).toNat - 97
  feat := fun w => [UInt8.ofNat (w + 65), 61]
  featId := fun s => (s.headD 0).toNat - 65
  render := fun v => [UInt8.ofNat (v % 10 + 48)]
  strtod := fun s => (s.headD 0).toNat - 48
  renderF := fun v => [UInt8.ofNat (v % 10 + 48)]
  readF := fun s => some ((s.headD 0).toNat - 48)

/-- Non-vacuity: a candidate with two words, two features (whose names contain `=`) and statistics. -/
def exCand : Cand := ⟨[1, 2], [(3, 7), (4, 8)], ⟨[66], [1, 2]⟩⟩

example : Storable exText exCand ∧ exCand.feats ≠ [] ∧ exCand.Bits ∧ exCand.NoNan := by
  refine ⟨⟨?_, ?_, ?_, ?_, ?_, ?_⟩, ?_, ?_, ?_⟩
  · decide
  · decide
  · decide
  · decide
  · decide
  · decide
  · decide
  · unfold Cand.Bits; decide
  · unfold Cand.NoNan; decide

example : readFile exText (writeFile exText [exCand, exCand]) = some [exCand, exCand] := by decide +kernel

example : ∀ l : List Cand, (List.reverse l).Perm l := List.reverse_perm

example : (List.foldl (add boostCombine List.reverse) [] [[one [(1, 0x3ff0000000000000)], one [(1, 0x3ff0000000000001)]],
    [one [(1, 0x4000000000000000)]], [one [(1, 0x3ff0000000000000)]]]).length = 2 := by decide +kernel

end Cdec.Train.Candidates
