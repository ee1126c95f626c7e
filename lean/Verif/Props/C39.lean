import Verif.Extract.SuffixLookupLemmas
import Verif.Props.C40
/-!
# C39: Suffix-array lookup returns exactly the occurrences
-/
namespace Cdec.Extract

theorem saok_of_build {lines : List (List String)} (h : ∀ l ∈ lines, "__NULL__" ∉ l) {rnd : Nat → Nat}
    {s : SuffixArray}
    (hs : buildSuffixArray (createDataArray lines).data (createDataArray lines).id2word.length rnd = some s) :
    SAOK (createDataArray lines).data (createDataArray lines).id2word.length s := by
  obtain ⟨ok, _⟩ := createDataArray_fields lines
  have hpos : 0 < (createDataArray lines).id2word.length := (List.getElem?_eq_some_iff.1 ok.null).1
  obtain ⟨s', e, h1, h2, h3⟩ := build_spec (createDataArray lines).data (createDataArray lines).id2word.length rnd hpos
    (data_words lines h)
  rw [hs] at e
  cases e
  exact ⟨h1, h2, h3⟩

/-- Words are equal iff their numbers are. -/
theorem prefix_ids {d : DataArray} (ok : WordsOK d) : ∀ (phrase : List String) (ids : List Nat) (xs : List Nat)
    (ws : List String), phrase.map d.word2id = ids.map some → xs.map (d.id2word[·]?) = ws.map some →
    (ids <+: xs ↔ phrase <+: ws) := by
  intro phrase
  induction phrase with
  | nil =>
    intro ids xs ws h1 _
    have : ids = [] := by simpa using h1.symm
    subst this; simp
  | cons w phrase ih =>
    intro ids xs ws h1 h2
    cases ids with
    | nil => simp at h1
    | cons i ids =>
      simp only [List.map_cons, List.cons.injEq] at h1
      cases xs with
      | nil =>
        have : ws = [] := by simpa using h2.symm
        subst this; simp
      | cons x xs =>
        cases ws with
        | nil => simp at h2
        | cons y ws =>
          simp only [List.map_cons, List.cons.injEq] at h2
          rw [List.cons_prefix_cons, List.cons_prefix_cons, ih ids xs ws h1.2 h2.2]
          have e1 := (ok.iff w i).1 h1.1
          constructor
          · rintro ⟨rfl, h⟩
            rw [e1] at h2
            exact ⟨Option.some.inj h2.1, h⟩
          · rintro ⟨rfl, h⟩
            have := (ok.iff w x).2 h2.1
            rw [h1.1] at this
            exact ⟨Option.some.inj this, h⟩

/-- For every corpus, every choice of pivots during construction and every nonempty phrase of ordinary words, the
range of ranks returned lies in the suffix array and holds exactly the positions at which the phrase occurs in the
text. -/
theorem C39_lookup (lines : List (List String)) (h : ∀ l ∈ lines, "__NULL__" ∉ l) (rnd : Nat → Nat) (s : SuffixArray)
    (hs : buildSuffixArray (createDataArray lines).data (createDataArray lines).id2word.length rnd = some s)
    (phrase : List String) (hne : phrase ≠ []) (hn : "__NULL__" ∉ phrase) :
    let loc := findPhrase (createDataArray lines).data s (phrase.map (createDataArray lines).word2id)
    loc.1 ≤ loc.2 ∧ loc.2 ≤ s.sa.length ∧
    ∀ p, (∃ r, loc.1 ≤ r ∧ r < loc.2 ∧ s.sa[r]? = some p) ↔
      phrase <+: (lines.flatMap (· ++ ["__END_OF_LINE__"])).drop p := by
  obtain ⟨ok, dec, _⟩ := createDataArray_fields lines
  have sok := saok_of_build h hs
  have hdl : (createDataArray lines).data.length = (textOf lines).length := by
    have := congrArg List.length dec; simpa using this
  have hl := sok.length
  have spec := findFrom_spec sok (fun w hw => (data_words lines h w hw).1)
    (phrase.map (createDataArray lines).word2id) [] (0, s.sa.length)
    ⟨Nat.zero_le _, by simp only []; omega, fun r hr => by simp; omega⟩ (by
      intro w hw i hi
      obtain ⟨x, hx, e⟩ := List.mem_map.1 hw
      rw [hi] at e
      have e' := (ok.iff x i).1 e
      refine ⟨?_, (List.getElem?_eq_some_iff.1 e').1⟩
      rcases Nat.eq_zero_or_pos i with rfl | hp
      · rw [ok.null] at e'
        exact absurd (Option.some.inj e') (fun e => hn (by rw [show "__NULL__" = x from e]; exact hx))
      · exact hp)
  simp only [List.length_nil, List.nil_append] at spec
  intro loc
  change loc.1 ≤ loc.2 ∧ loc.2 ≤ _ ∧ ∀ r, r < _ → (loc.1 ≤ r ∧ r < loc.2 ↔ _) at spec
  obtain ⟨a1, a2, a3⟩ := spec
  have occ : ∀ p, (∃ js : List Nat, phrase.map (createDataArray lines).word2id = js.map some ∧
      js <+: (createDataArray lines).data.drop p) ↔ phrase <+: (textOf lines).drop p := by
    intro p
    have hd : ((createDataArray lines).data.drop p).map ((createDataArray lines).id2word[·]?) =
        ((textOf lines).drop p).map some := by
      rw [List.map_drop, dec, List.map_drop]
    constructor
    · rintro ⟨js, e, hp⟩
      exact (prefix_ids ok phrase js _ _ e hd).1 hp
    · intro hp
      have : ∀ ws : List String, (∀ w ∈ ws, w ∈ textOf lines) →
          ∃ js : List Nat, ws.map (createDataArray lines).word2id = js.map some := by
        intro ws
        induction ws with
        | nil => intro _; exact ⟨[], rfl⟩
        | cons w ws ih =>
          intro hall
          obtain ⟨js, e⟩ := ih (fun x hx => hall x (List.mem_cons_of_mem _ hx))
          have hm : some w ∈ (textOf lines).map some := List.mem_map_of_mem (hall w (by simp))
          rw [← dec] at hm
          obtain ⟨j, _, hj⟩ := List.mem_map.1 hm
          exact ⟨j :: js, by simp [e, (ok.iff w j).2 hj]⟩
      obtain ⟨js, e⟩ := this phrase (fun w hw => List.mem_of_mem_drop (hp.subset hw))
      exact ⟨js, e, (prefix_ids ok phrase js _ _ e hd).2 hp⟩
  refine ⟨a1, by omega, fun p => ?_⟩
  show _ ↔ phrase <+: (textOf lines).drop p
  constructor
  · rintro ⟨r, h1, h2, h3⟩
    have hp : s.sa.getD r 0 = p := by rw [List.getD_eq_getElem?_getD, h3]; rfl
    have := (a3 r (by omega)).1 ⟨h1, h2⟩
    rw [hp] at this
    exact (occ p).1 this
  · intro hp
    have hpl : p ≤ (createDataArray lines).data.length := by
      by_contra hc
      rw [List.drop_of_length_le (by omega)] at hp
      exact hne (by simpa using hp)
    obtain ⟨r, hr, hrp⟩ := sok.exists_rank hpl
    have := (a3 r hr).2 (by rw [hrp]; exact (occ p).2 hp)
    exact ⟨r, this.1, this.2, by rw [(sok.get hr).1, hrp]⟩

/-- Looking up the reserved word itself reports the end of the text. -/
theorem C39_null_phrase_fails : ∃ (lines : List (List String)) (s : SuffixArray),
    (∀ l ∈ lines, "__NULL__" ∉ l) ∧
    buildSuffixArray (createDataArray lines).data (createDataArray lines).id2word.length (fun _ => 0) = some s ∧
    findPhrase (createDataArray lines).data s [(createDataArray lines).word2id "__NULL__"] = (0, 1) ∧
    s.sa[0]? = some 2 ∧ ¬ ["__NULL__"] <+: (lines.flatMap (· ++ ["__END_OF_LINE__"])).drop 2 :=
  ⟨[["a"]], ⟨[2, 1, 0], [0, 1, 2, 3]⟩, by decide +kernel⟩

example : (∀ l ∈ [["a", "b", "a", "b"], ["b", "a", "b"]], "__NULL__" ∉ l) ∧ "__NULL__" ∉ ["a", "b"] ∧
    buildSuffixArray (createDataArray [["a", "b", "a", "b"], ["b", "a", "b"]]).data
      (createDataArray [["a", "b", "a", "b"], ["b", "a", "b"]]).id2word.length (fun k => k) =
      some ⟨[9, 8, 4, 6, 2, 0, 7, 3, 5, 1], [0, 1, 3, 6, 10]⟩ ∧
    findPhrase (createDataArray [["a", "b", "a", "b"], ["b", "a", "b"]]).data
      ⟨[9, 8, 4, 6, 2, 0, 7, 3, 5, 1], [0, 1, 3, 6, 10]⟩
      (["a", "b"].map (createDataArray [["a", "b", "a", "b"], ["b", "a", "b"]]).word2id) = (3, 6) := by decide +kernel

end Cdec.Extract
