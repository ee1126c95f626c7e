import Verif.Decoder.PhraseBasedFinal
/-! # C71: the phrase-based translator's forest holds the translations -/
namespace Cdec.Dec.PB
open Cdec.HG Spec
open Cdec.Dec.Parser.Spec (LTree Shows)
variable {R : Type}

/-! ### The phrase table -/

theorem load_append (ps : List (List Int × R)) (q : List Int × R) : Fst.load (ps ++ [q]) = (Fst.load ps).addPhrase q.1 q.2 := by
  unfold Fst.load
  rw [List.foldl_append]
  rfl

theorem load_spec (ps : List (List Int × R)) : (∀ p, (Fst.load ps).data p = ps.filterMap fun q => if q.1 = p then some q.2 else none) ∧
    (∀ p, (Fst.load ps).has p = true ↔ p = [] ∨ ∃ q ∈ ps, p <+: q.1) ∧ (Fst.load ps).pass = [] := by
  induction ps using List.reverseRecOn with
  | nil => exact ⟨fun p => rfl, fun p => by simp [Fst.load, Fst.empty], rfl⟩
  | append_singleton ps q ih =>
    rw [load_append]
    refine ⟨fun p => ?_, fun p => ?_, ih.2.2⟩
    · simp only [Fst.addPhrase, List.filterMap_append, ih.1 p]
      by_cases h : p = q.1
      · subst h
        simp
      · have : ¬ q.1 = p := fun e => h e.symm
        simp [h, this]
    · simp only [Fst.addPhrase, Bool.or_eq_true, ih.2.1 p, List.isPrefixOf_iff_prefix]
      constructor
      · rintro ((rfl | ⟨x, hx, h⟩) | h)
        · exact .inl rfl
        · exact .inr ⟨x, by simp [hx], h⟩
        · exact .inr ⟨q, by simp, h⟩
      · rintro (rfl | ⟨x, hx, h⟩)
        · exact .inl (.inl rfl)
        · rcases List.mem_append.1 hx with hx | hx
          · exact .inl (.inr ⟨x, hx, h⟩)
          · rw [List.mem_singleton.1 hx] at h
            exact .inr h

theorem addPass_data (mk : Int → R) (t : Fst R) (w : Int) (p : List Int) : (t.addPass mk w).data p = if p = [w] ∧ t.data p = [] then [mk w] else t.data p := by
  unfold Fst.addPass
  cases h : t.data [w] with
  | nil =>
    simp only
    by_cases hp : p = [w]
    · subst hp; simp [h]
    · simp [hp]
  | cons a l =>
    simp only
    rw [if_neg]
    rintro ⟨rfl, h'⟩
    rw [h] at h'
    simp at h'

theorem addPass_has (mk : Int → R) (t : Fst R) (w : Int) (p : List Int) : (t.addPass mk w).has p = (t.has p || decide (p = [w])) := by
  unfold Fst.addPass
  cases h : t.data [w] <;> rfl

theorem addPasses_spec (mk : Int → R) (ls : List Int) : ∀ t : Fst R,
    (∀ p, (ls.foldl (Fst.addPass mk) t).data p = match p with | [w] => if w ∈ ls ∧ t.data [w] = [] then [mk w] else t.data [w] | p => t.data p) ∧
    (∀ p, (ls.foldl (Fst.addPass mk) t).has p = true ↔ t.has p = true ∨ ∃ w ∈ ls, p = [w]) := by
  induction ls with
  | nil =>
    intro t
    refine ⟨?_, by simp⟩
    intro p
    simp only [List.foldl_nil, List.not_mem_nil, false_and, if_false]
    split <;> rfl
  | cons a ls ih =>
    intro t
    rw [List.foldl_cons]
    obtain ⟨h1, h2⟩ := ih (t.addPass mk a)
    refine ⟨?_, ?_⟩
    · intro p
      rw [h1 p]
      split
      · rename_i w
        rw [addPass_data]
        by_cases hw : w = a
        · subst hw
          by_cases hd : t.data [w] = []
          · simp [hd]
          · simp [hd]
        · simp [hw]
      · rename_i hp
        rw [addPass_data, if_neg]
        rintro ⟨h, _⟩
        exact hp a h
    · intro p
      rw [h2 p, addPass_has, Bool.or_eq_true, decide_eq_true_eq]
      simp only [List.mem_cons, exists_eq_or_imp]
      tauto

theorem withPass_ok (mk : Int → R) (lat : List (List (Int × Nat))) {t : Fst R} (ht : Fst.Ok t) : Fst.Ok (withPass mk lat t) := by
  obtain ⟨h1, h2⟩ := addPasses_spec mk (lat.flatMap fun as => as.map Prod.fst) t
  refine ⟨?_, ?_, ?_⟩
  · intro p w h
    unfold withPass at h ⊢
    rw [h2] at h ⊢
    rcases h with h | ⟨v, _, h⟩
    · exact .inl (ht.pre p w h)
    · have : p = [] := by
        have := congrArg List.length h
        simp at this
        exact this
      rw [this]
      exact .inl ht.root.1
  · intro p h
    unfold withPass at h ⊢
    rw [h1] at h
    rw [h2]
    split at h
    · rename_i w
      split at h
      · rename_i hc
        exact .inr ⟨w, hc.1, rfl⟩
      · exact .inl (ht.data _ h)
    · exact .inl (ht.data _ h)
  · unfold withPass
    refine ⟨(h2 []).2 (.inl ht.root.1), ?_⟩
    rw [h1]
    exact ht.root.2

/-- C71.  A phrase table loaded from a list of phrase pairs without an empty source side is a proper table, and its translations of
a phrase are the ones listed, in order.  With pass-through rules the words of the input without a translation of their own get
one, and nothing else changes. -/
theorem C71_table (ps : List (List Int × R)) (hne : ∀ q ∈ ps, q.1 ≠ []) (mk : Int → R) (lat : List (List (Int × Nat))) :
    Fst.Ok (Fst.load ps) ∧ (∀ p, (Fst.load ps).data p = ps.filterMap fun q => if q.1 = p then some q.2 else none) ∧
    Fst.Ok (withPass mk lat (Fst.load ps)) ∧
    ∀ p, (withPass mk lat (Fst.load ps)).data p = match p with
      | [w] => if (∃ as ∈ lat, ∃ a ∈ as, a.1 = w) ∧ (Fst.load ps).data [w] = [] then [mk w] else (Fst.load ps).data [w]
      | p => (Fst.load ps).data p := by
  obtain ⟨h1, h2, _⟩ := load_spec ps
  have hok : Fst.Ok (Fst.load ps) := by
    refine ⟨?_, ?_, ?_⟩
    · intro p w h
      rw [h2] at h ⊢
      rcases h with h | ⟨q, hq, h⟩
      · simp at h
      · exact .inr ⟨q, hq, (List.prefix_append p [w]).trans h⟩
    · intro p h
      rw [h1] at h
      rw [h2]
      obtain ⟨r, hr⟩ := List.exists_mem_of_ne_nil _ h
      obtain ⟨q, hq, e⟩ := List.mem_filterMap.1 hr
      split at e
      · rename_i hp
        exact .inr ⟨q, hq, hp ▸ List.prefix_refl _⟩
      · simp at e
    · refine ⟨(h2 []).2 (.inl rfl), ?_⟩
      rw [h1, List.filterMap_eq_nil_iff]
      intro q hq
      rw [if_neg (hne q hq)]
  refine ⟨hok, h1, withPass_ok mk lat hok, ?_⟩
  intro p
  unfold withPass
  rw [(addPasses_spec mk _ _).1 p]
  split
  · rename_i w
    have : w ∈ (lat.flatMap fun as => as.map Prod.fst) ↔ ∃ as ∈ lat, ∃ a ∈ as, a.1 = w := by
      simp only [List.mem_flatMap, List.mem_map]
    simp only [this]
  · rfl

/-! ### Translation -/

/-- C71.  For a text input `ws` and a proper phrase table `Translate` ends; it returns true exactly if the input has a translation
within the distortion limit, and then the derivations in the forest show exactly the translations of the input. -/
theorem C71_translations (ws : List Int) (t : Fst R) (ht : Fst.Ok t) (dist : Nat) (catX catGoal : Int) : ∃ ok g F,
    (∀ fuel, F ≤ fuel → translate ⟨textLattice ws, t, dist, catX, catGoal⟩ fuel = some (ok, g)) ∧
    (ok = true ↔ ∃ l, Translation (fun i j => t.data (words ws i j)) ws.length dist l) ∧
    (ok = true → WF g ∧ 0 < g.nodes.length ∧
      ∀ s, (∃ T, IsDeriv g g.goal T ∧ Shows g T s) ↔ ∃ l, Translation (fun i j => t.data (words ws i j)) ws.length dist l ∧ s = goalTree l) := by
  obtain ⟨ok, g, F, h1, h2, h3⟩ := translate_core (x := ⟨ws, t, dist, catX, catGoal⟩) ht
  exact ⟨ok, g, F, h1, h2, fun h => ⟨(h3 h).1, (h3 h).2.1, (h3 h).2.2.1⟩⟩

/-- C71.  When no phrase has the same rule twice, no translation is in the forest twice, and different translations have different trees. -/
theorem C71_once (ws : List Int) (t : Fst R) (ht : Fst.Ok t) (hnd : ∀ p, (t.data p).Nodup) (dist : Nat) (catX catGoal : Int) : ∃ ok g F,
    (∀ fuel, F ≤ fuel → translate ⟨textLattice ws, t, dist, catX, catGoal⟩ fuel = some (ok, g)) ∧
    (ok = true → ∀ T T' s, IsDeriv g g.goal T → IsDeriv g g.goal T' → Shows g T s → Shows g T' s → T = T') ∧
    ∀ l l' : List (Phrase R), l ≠ [] → l' ≠ [] → goalTree l = goalTree l' → l = l' := by
  obtain ⟨ok, g, F, h1, h2, h3⟩ := translate_core (x := ⟨ws, t, dist, catX, catGoal⟩) ht
  refine ⟨ok, g, F, h1, fun h => (h3 h).2.2.2 fun i j => hnd _, ?_⟩
  intro l l' hl hl' e
  simp only [goalTree, LTree.node.injEq, List.cons.injEq, and_true, true_and] at e
  exact tree_inj l l' hl hl' e

theorem words_one (ws : List Int) (i : Nat) (hi : i < ws.length) : words ws i (i + 1) = [ws[i]] := by
  unfold words
  rw [List.drop_eq_getElem_cons hi, Nat.add_sub_cancel_left, List.take_succ_cons, List.take_zero]

/-- C71.  With pass-through rules every input of at least one word has a translation, whatever the distortion limit. -/
theorem C71_pass_through_always (ws : List Int) (hws : ws ≠ []) (t : Fst R) (ht : Fst.Ok t) (mk : Int → R) (dist : Nat) (catX catGoal : Int) :
    ∃ g F, ∀ fuel, F ≤ fuel → (translatePass mk (textLattice ws) dist catX catGoal fuel t).1 = some (true, g) := by
  obtain ⟨ok, g, F, h1, h2, _⟩ := C71_translations ws (withPass mk (textLattice ws) t) (withPass_ok mk _ ht) dist catX catGoal
  have : ok = true := by
    rw [h2]
    have hd : ∀ i (hi : i < ws.length), ∃ r, r ∈ (withPass mk (textLattice ws) t).data (words ws i (i + 1)) := by
      intro i hi
      apply List.exists_mem_of_ne_nil
      rw [words_one ws i hi]
      unfold withPass
      rw [(addPasses_spec mk _ _).1]
      have hm : ws[i] ∈ ((textLattice ws).flatMap fun as => as.map Prod.fst) := by
        simp [textLattice, List.mem_flatMap]
      by_cases hz : t.data [ws[i]] = []
      · simp [hm, hz]
      · simp [hz]
    have hd' : ∃ f : Nat → R, ∀ i, i < ws.length → f i ∈ (withPass mk (textLattice ws) t).data (words ws i (i + 1)) := by
      classical
      exact ⟨fun i => if hi : i < ws.length then (hd i hi).choose else mk 0, fun i hi => by
        beta_reduce
        rw [dif_pos hi]
        exact (hd i hi).choose_spec⟩
    obtain ⟨f, hf⟩ := hd'
    have cov : ∀ k p, Covered (((List.range ws.length).map fun i => (⟨i, i + 1, f i⟩ : Phrase R)).take k) p ↔ p < k ∧ p < ws.length := by
      intro k p
      unfold Covered
      rw [← List.map_take, List.take_range]
      constructor
      · rintro ⟨s, hs, h3, h4⟩
        obtain ⟨i, hi, rfl⟩ := List.mem_map.1 hs
        rw [List.mem_range] at hi
        simp only at h3 h4
        omega
      · rintro ⟨h3, h4⟩
        exact ⟨⟨p, p + 1, f p⟩, List.mem_map.2 ⟨p, by rw [List.mem_range]; omega, rfl⟩, Nat.le_refl _, Nat.lt_succ_self _⟩
    refine ⟨(List.range ws.length).map fun i => ⟨i, i + 1, f i⟩, ?_, ?_, ?_, ?_, ?_⟩
    · simpa using hws
    · intro s hs
      obtain ⟨i, hi, rfl⟩ := List.mem_map.1 hs
      rw [List.mem_range] at hi
      exact ⟨Nat.lt_succ_self _, hi, hf i hi⟩
    · intro k hk p h3 h4
      rw [cov]
      simp only [List.getElem_map, List.getElem_range] at h3 h4
      omega
    · intro k hk
      simp only [List.length_map, List.length_range] at hk
      refine ⟨k, fun p hp => (cov k p).2 ⟨hp, by omega⟩, ?_, ?_⟩
      · rw [cov]; omega
      · simp only [List.getElem_map, List.getElem_range]
        omega
    · intro p hp
      have := (cov ws.length p).2 ⟨hp, hp⟩
      rwa [List.take_of_length_le (by simp)] at this
  subst this
  exact ⟨g, F, h1⟩

/-! ### Lattices -/

/-- C71.  On lattices the forest can miss translations: of two arcs between the same positions, each with a translation of its own, only
the second is in the forest. -/
theorem C71_lattice_alternatives_fails :
    ∃ (lat : List (List (Int × Nat))) (ps : List (List Int × Nat)) (g : Hypergraph (Val Nat)), lat = [[(1, 1), (2, 1)]] ∧ ps = [([1], 10), ([2], 20)] ∧
      translate ⟨lat, Fst.load ps, 0, -1, -2⟩ 100 = some (true, g) ∧ (Fst.load ps).data [1] = [10] ∧
      (g.edges.map Edge.val) = [.phrase 20 0 1, .goal] := by
  refine ⟨_, _, ((translate ⟨[[(1, 1), (2, 1)]], Fst.load [([1], 10), ([2], 20)], 0, -1, -2⟩ 100).getD (false, empty)).2, rfl, rfl, ?_, by decide, by decide⟩
  have h : ((translate ⟨[[(1, 1), (2, 1)]], Fst.load [([1], 10), ([2], 20)], 0, -1, -2⟩ 100).map Prod.fst) = some true := by decide
  obtain ⟨x, hx, e⟩ := Option.map_eq_some_iff.1 h
  rw [hx]
  simp [← e]

/-! ### A case -/

/-- A table with phrases of one and two words. -/
def exPs : List (List Int × Nat) := [([1], 10), ([2], 20), ([2], 21), ([1, 2], 12), ([3], 30)]

example : (∀ q ∈ exPs, q.1 ≠ []) ∧ Fst.Ok (Fst.load exPs) := ⟨by decide, (C71_table exPs (by decide) (fun _ => 0) []).1⟩

/-- The sentence "1 2 3" with distortion limit 1: a translation that starts with the second word. -/
example : Translation (fun i j => (Fst.load exPs).data (words [1, 2, 3] i j)) 3 1 [⟨1, 2, 21⟩, ⟨0, 1, 10⟩, ⟨2, 3, 30⟩] := by
  refine ⟨by simp, ?_, ?_, ?_, ?_⟩
  · decide
  · intro k hk p h1 h2
    simp only [List.length_cons, List.length_nil] at hk
    unfold Covered
    match k, hk with
    | 0, _ => simp
    | 1, _ =>
      simp at h1 h2 ⊢
      omega
    | 2, _ =>
      simp at h1 h2 ⊢
      omega
  · intro k hk
    simp only [List.length_cons, List.length_nil] at hk
    unfold Covered
    match k, hk with
    | 0, _ => exact ⟨0, by simp, by simp, by simp⟩
    | 1, _ => exact ⟨0, by simp, by simp, by simp⟩
    | 2, _ => exact ⟨2, by intro p hp; simp; omega, by simp, by simp⟩
  · intro p hp
    unfold Covered
    simp
    omega

example : (translate ⟨textLattice [1, 2, 3], Fst.load exPs, 1, -1, -2⟩ 100).map (fun r => (r.1, r.2.edges.length)) = some (true, 17) := by decide +kernel

end Cdec.Dec.PB
