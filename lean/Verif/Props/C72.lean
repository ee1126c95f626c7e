import Verif.Props.C71
/-! # C72: when the phrase table survives a sentence -/
namespace Cdec.Dec.PB
open Cdec.HG Spec
variable {R : Type}

/-- The words that are remembered. -/
theorem addPasses_pass (mk : Int → R) (ls : List Int) : ∀ (t : Fst R) (w : Int), w ∈ (ls.foldl (Fst.addPass mk) t).pass ↔ w ∈ t.pass ∨ (w ∈ ls ∧ t.data [w] = []) := by
  induction ls with
  | nil => intro t w; simp
  | cons a ls ih =>
    intro t w
    rw [List.foldl_cons, ih, addPass_data]
    have hp : w ∈ (t.addPass mk a).pass ↔ w ∈ t.pass ∨ (w = a ∧ t.data [w] = []) := by
      unfold Fst.addPass
      cases h : t.data [a] with
      | nil =>
        simp only [List.mem_append, List.mem_singleton]
        constructor
        · rintro (h1 | rfl)
          · exact .inl h1
          · exact .inr ⟨rfl, h⟩
        · rintro (h1 | ⟨h1, _⟩)
          · exact .inl h1
          · exact .inr h1
      | cons b l =>
        simp only
        constructor
        · exact .inl
        · rintro (h1 | ⟨rfl, h1⟩)
          · exact h1
          · rw [h] at h1; simp at h1
    rw [hp]
    by_cases hw : w = a
    · subst hw
      by_cases hd : t.data [w] = [] <;> simp [hd]
    · simp [hw]

theorem eraseWords_spec (ls : List Int) : ∀ t : Fst R, (∀ p, (ls.foldl Fst.eraseWord t).has p = true ↔ t.has p = true ∧ ∀ w ∈ ls, p.head? ≠ some w) ∧
    (∀ p, (ls.foldl Fst.eraseWord t).data p = if ∃ w ∈ ls, p.head? = some w then [] else t.data p) := by
  induction ls with
  | nil => intro t; simp
  | cons a ls ih =>
    intro t
    rw [List.foldl_cons]
    obtain ⟨h1, h2⟩ := ih (t.eraseWord a)
    refine ⟨?_, ?_⟩
    · intro p
      rw [h1]
      simp only [Fst.eraseWord, Bool.and_eq_true, decide_eq_true_eq, List.mem_cons, forall_eq_or_imp, and_assoc]
    · intro p
      rw [h2]
      simp only [Fst.eraseWord, List.mem_cons, exists_eq_or_imp]
      by_cases ha : p.head? = some a
      · simp [ha]
      · simp [ha]

/-- C72.  After a call of `Translate` with pass-through rules the phrase table is as before exactly if every label of the input had a
translation of its own or begins no phrase at all. -/
theorem C72_restored_iff (t : Fst R) (ht : Fst.Ok t) (hp : t.pass = []) (mk : Int → R) (lat : List (List (Int × Nat))) (dist : Nat) (catX catGoal : Int) (fuel : Nat) :
    (translatePass mk lat dist catX catGoal fuel t).2 = t ↔ ∀ as ∈ lat, ∀ a ∈ as, t.data [a.1] ≠ [] ∨ ∀ p, t.has (a.1 :: p) = false := by
  have key : (translatePass mk lat dist catX catGoal fuel t).2 = t ↔
      ∀ w ∈ (lat.flatMap fun as => as.map Prod.fst), t.data [w] ≠ [] ∨ ∀ p, t.has (w :: p) = false := by
    unfold translatePass withPass Fst.clearPass
    simp only
    generalize (lat.flatMap fun as => as.map Prod.fst) = ls
    obtain ⟨d1, d2⟩ := addPasses_spec mk ls t
    have hps := addPasses_pass mk ls t
    simp only [hp, List.not_mem_nil, false_or] at hps
    generalize ls.foldl (Fst.addPass mk) t = t1 at d1 d2 hps
    obtain ⟨e1, e2⟩ := eraseWords_spec t1.pass t1
    generalize t1.pass.foldl Fst.eraseWord t1 = t2 at e1 e2
    constructor
    · intro h w hw
      by_cases hd : t.data [w] = []
      · right
        intro p
        rw [← h]
        simp only
        rw [Bool.eq_false_iff]
        intro hh
        exact ((e1 _).1 hh).2 w ((hps w).2 ⟨hw, hd⟩) rfl
      · exact .inl hd
    · intro h
      obtain ⟨th, td, tp⟩ := t
      simp only at hp
      subst hp
      congr 1
      · funext p
        rw [Bool.eq_iff_iff, e1, d2]
        constructor
        · rintro ⟨h3 | ⟨w, hw, rfl⟩, h4⟩
          · exact h3
          · rcases h w hw with h5 | h5
            · exact ht.data _ h5
            · have : td [w] = [] := by
                by_contra hc
                have := ht.data [w] hc
                rw [h5 []] at this
                simp at this
              exact absurd rfl (h4 w ((hps w).2 ⟨hw, this⟩))
        · intro h3
          refine ⟨.inl h3, ?_⟩
          intro w hw he
          obtain ⟨hw1, hw2⟩ := (hps w).1 hw
          cases p with
          | nil => simp at he
          | cons b p =>
            simp only [List.head?_cons, Option.some.injEq] at he
            subst he
            rcases h b hw1 with h5 | h5
            · exact h5 hw2
            · have h6 : th (b :: p) = false := h5 p
              have h7 : th (b :: p) = true := h3
              rw [h6] at h7
              simp at h7
      · funext p
        rw [e2]
        by_cases hc : ∃ w ∈ t1.pass, p.head? = some w
        · rw [if_pos hc]
          obtain ⟨w, hw, he⟩ := hc
          obtain ⟨hw1, hw2⟩ := (hps w).1 hw
          cases p with
          | nil => simp at he
          | cons b p =>
            simp only [List.head?_cons, Option.some.injEq] at he
            subst he
            rcases h b hw1 with h5 | h5
            · exact absurd hw2 h5
            · by_contra hc
              have := ht.data (b :: p) (fun e => hc e.symm)
              rw [h5 p] at this
              simp at this
        · rw [if_neg hc, d1]
          split
          · rename_i w
            rw [if_neg]
            rintro ⟨h3, h4⟩
            exact hc ⟨w, (hps w).2 ⟨h3, h4⟩, rfl⟩
          · rfl
  rw [key]
  simp only [List.mem_flatMap, List.mem_map]
  constructor
  · intro h as ha a haa
    exact h a.1 ⟨as, ha, a, haa, rfl⟩
  · rintro h w ⟨as, ha, a, haa, rfl⟩
    exact h as ha a haa

/-- The condition of the theorem above is met. -/
example : ∀ as ∈ textLattice [1, 7], ∀ a ∈ as, (Fst.load exPs).data [a.1] ≠ [] ∨ ∀ p, (Fst.load exPs).has (a.1 :: p) = false := by
  intro as ha a haa
  simp only [textLattice, List.map_cons, List.map_nil, List.mem_cons, List.not_mem_nil, or_false] at ha
  rcases ha with rfl | rfl
  · simp only [List.mem_singleton] at haa
    subst haa
    exact .inl (by decide)
  · simp only [List.mem_singleton] at haa
    subst haa
    right
    intro p
    simp [Fst.load, exPs, Fst.addPhrase, Fst.empty, List.isPrefixOf]

/-- C72.  The table does not survive in general: after translating the sentence "1" the phrase "1 2" has gone, so that the forest for the
sentence "1 2" no longer has the translation that it would have had. -/
theorem C72_phrase_lost_fails : ∃ (t t' : Fst Nat), t = Fst.load [([1, 2], 12)] ∧ t' = (translatePass (fun _ => 0) (textLattice [1]) 0 (-1) (-2) 100 t).2 ∧
    t.data [1, 2] = [12] ∧ t'.data [1, 2] = [] ∧
    ((translatePass (fun _ => 0) (textLattice [1, 2]) 0 (-1) (-2) 100 t).1.map fun r => (r.1, r.2.edges.any fun e => decide (e.val = .phrase 12 0 2))) = some (true, true) ∧
    ((translatePass (fun _ => 0) (textLattice [1, 2]) 0 (-1) (-2) 100 t').1.map fun r => (r.1, r.2.edges.any fun e => decide (e.val = .phrase 12 0 2))) = some (true, false) := by
  refine ⟨_, _, rfl, rfl, ?_, ?_, ?_, ?_⟩ <;> decide +kernel

end Cdec.Dec.PB
