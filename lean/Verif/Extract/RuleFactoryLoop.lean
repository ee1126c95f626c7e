import Verif.Extract.RuleFactoryStep
/-!
# Lemmas for the rule factory: the loop
-/
namespace Cdec.Extract
open Spec

variable {lines : List (List String)} {F : Factory} {words : List Int} {rnd : Nat → Nat} {t : Trie}
  {pat : Nat → List Int}

/-- The nodes and calls that an iteration for the pattern `s` adds. -/
def Added (lines : List (List String)) (F : Factory) (t : Trie) (pat : Nat → List Int) (t' : Trie)
    (pat' : Nat → List Int) (x : Bool) (s : List Int) (calls : List Call) : Prop :=
  (calls = [] ∧ ∀ i, t.size ≤ i → i < t'.size → (∃ u y, pat' i = u ++ [y] ∧ y < 0) ∨ (x = true ∧ pat' i = s)) ∨
  (x = false ∧ Occ lines F.I s ∧ (∃ l, calls = [(s, l)] ∧ NodeLoc lines F.I s l) ∧ (∀ i < t.size, pat i ≠ s) ∧
    (∃ i < t'.size, pat' i = s) ∧ ∀ i, t.size ≤ i → i < t'.size → pat' i = s ∨ ∃ u y, pat' i = u ++ [y] ∧ y < 0)

theorem step_spec (S : Setting lines F words rnd) (h : TInv lines F t pat) (ht : Trail F t pat fun _ => True)
    {x : Bool} {s e : Nat} {φ : List Int} {id : Nat} {w : Int} (g : Gen F words x s e φ) (hid : id < t.size)
    (hp : pat id = φ) (hw : words[e]? = some w)
    (hs : φ ≠ [] → Occ lines F.I (suf φ ++ [w]) → ∀ j < t.size, pat j = suf φ → ∃ c, (t.node j).children w = some (some c)) :
    ∃ t' new calls pat', F.step words t ⟨s, e, φ, some id, x⟩ = some (t', new, calls) ∧ TInv lines F t' pat' ∧
      Trail F t' pat' (fun _ => True) ∧ TExt t pat t' pat' ∧
      (∀ τ ∈ new, StOk F words t' pat' τ ∧ key τ.startsX τ.phrase = key x φ + 2) ∧
      (Occ lines F.I (φ ++ [w]) → (∃ c, (t'.node id).children w = some (some c)) ∧
        ∀ b, Next F words (x, s, e, φ) b → ∃ τ ∈ new, τ.abs = b) ∧
      (new.map (weight words.length)).sum < 3 ^ (words.length - e) ∧
      Added lines F t pat t' pat' x (φ ++ [w]) calls := by
  have hw0 := word_nonneg S.wordsPos hw
  have hpos : 0 < 3 ^ (words.length - e) := Nat.pow_pos (by omega)
  have hsz := h.size
  have hφ0 : id ≠ 0 → φ ≠ [] := by
    intro h0 e'; apply h0; apply h.inj id hid 0 (by omega); rw [hp, e', h.pat0]
  -- nothing to find
  have nothing : ∀ t1, TInv lines F t1 pat → Trail F t1 pat (fun _ => True) → TExt t pat t1 pat → t1.size = t.size →
      ¬ Occ lines F.I (φ ++ [w]) →
      ∃ t' new calls pat', some ((if (t1.node id).children w = none then t1.addChild id w none else t1), ([] : List FState),
        ([] : List Call)) = some (t', new, calls) ∧ TInv lines F t' pat' ∧
      Trail F t' pat' (fun _ => True) ∧ TExt t pat t' pat' ∧
      (∀ τ ∈ new, StOk F words t' pat' τ ∧ key τ.startsX τ.phrase = key x φ + 2) ∧
      (Occ lines F.I (φ ++ [w]) → (∃ c, (t'.node id).children w = some (some c)) ∧
        ∀ b, Next F words (x, s, e, φ) b → ∃ τ ∈ new, τ.abs = b) ∧
      (new.map (weight words.length)).sum < 3 ^ (words.length - e) ∧
      Added lines F t pat t' pat' x (φ ++ [w]) calls := by
    intro t1 h1 ht1 hx1 hs1 hno
    by_cases hn : (t1.node id).children w = none
    · have hk : ∀ c, (t1.node id).children w ≠ some (some c) := by intro c e'; rw [hn] at e'; cases e'
      rw [if_pos hn]
      refine ⟨_, _, _, pat, rfl, h1.addNull (by omega) hk (by rw [hp]; exact hno),
        ht1.ext (ext_addNull hk) rfl (fun _ h => h), hx1.trans (ext_addNull hk), ?_, fun ho => absurd ho hno, hpos, ?_⟩
      · intro τ hτ; cases hτ
      · left; refine ⟨rfl, ?_⟩
        intro i h2 h3; rw [size_addChild] at h3; omega
    · rw [if_neg hn]
      refine ⟨_, _, _, pat, rfl, h1, ht1, hx1, ?_, fun ho => absurd ho hno, hpos, ?_⟩
      · intro τ hτ; cases hτ
      · left; refine ⟨rfl, ?_⟩
        intro i h2 h3; omega
  -- something may be found
  have found : (t.node id).children w ≠ some none →
      (∀ j, (t.node id).suffixLink = some j → ∃ c, (t.node j).children w = some (some c)) →
      ∃ t' new calls pat', (match (t.node id).children w with
        | some child => do
          let c ← child
          let e' := F.extendState words.length t ⟨s, e, φ, some id, x⟩ (φ ++ [w]) c
          some (e'.2, e'.1, [])
        | none => do
          match ← F.newNode t ⟨s, e, φ, some id, x⟩ id w with
          | none => some (t, [], [])
          | some (c, t, calls) =>
            let e' := F.extendState words.length t ⟨s, e, φ, some id, x⟩ (φ ++ [w]) c
            some (e'.2, e'.1, calls)) = some (t', new, calls) ∧ TInv lines F t' pat' ∧
      Trail F t' pat' (fun _ => True) ∧ TExt t pat t' pat' ∧
      (∀ τ ∈ new, StOk F words t' pat' τ ∧ key τ.startsX τ.phrase = key x φ + 2) ∧
      (Occ lines F.I (φ ++ [w]) → (∃ c, (t'.node id).children w = some (some c)) ∧
        ∀ b, Next F words (x, s, e, φ) b → ∃ τ ∈ new, τ.abs = b) ∧
      (new.map (weight words.length)).sum < 3 ^ (words.length - e) ∧
      Added lines F t pat t' pat' x (φ ++ [w]) calls := by
    intro hnn hlink
    cases hc : (t.node id).children w with
    | some child =>
      cases child with
      | none => exact absurd hc hnn
      | some c =>
        obtain ⟨h1, h2⟩ := h.child id hid w c hc
        obtain ⟨L, e1, a1, a2, a3⟩ := extend_spec (st := ⟨s, e, φ, some id, x⟩) S.wordsPos h ht h1 g hw (by rw [h2, hp])
        refine ⟨t, L, [], pat, ?_, h, ht, .refl _ _, a1, fun _ => ⟨⟨c, hc⟩, a2⟩, a3, ?_⟩
        · simp only [Option.bind_eq_bind, Option.bind_some]
          simp only [] at e1
          rw [e1]
        · left; exact ⟨rfl, fun i h2 h3 => absurd h3 (by omega)⟩
    | none =>
      rcases newNode_spec S h ht hid g hw hp hc hlink with
        ⟨c, t', pat', calls, e1, b1, b2, b3, b4, b5, b6, b7, b8⟩ | ⟨e1, hno⟩
      · have hid' : id < t'.size := Nat.lt_of_lt_of_le hid b3.size
        obtain ⟨h1, h2⟩ := b1.child id hid' w c b4
        obtain ⟨L, e2, a1, a2, a3⟩ := extend_spec (st := ⟨s, e, φ, some id, x⟩) S.wordsPos b1 b2 h1 g hw
          (by rw [h2, b3.pat id hid, hp])
        refine ⟨t', L, calls, pat', ?_, b1, b2, b3, a1, fun _ => ⟨⟨c, b4⟩, a2⟩, a3, ?_⟩
        · simp only [Option.bind_eq_bind, e1, Option.bind_some]
          simp only [] at e2
          rw [e2]
        · rcases b6 with ⟨hx, rfl⟩ | ⟨hx, l, rfl, hl⟩
          · left
            refine ⟨rfl, fun i h3 h4 => ?_⟩
            rcases b8 i h3 h4 with h5 | h5
            · exact Or.inr ⟨hx, h5⟩
            · exact Or.inl h5
          · right
            exact ⟨hx, b5, ⟨l, rfl, hl⟩, b7, ⟨c, h1, by rw [h2, b3.pat id hid, hp]⟩, b8⟩
      · refine ⟨t, [], [], pat, ?_, h, ht, .refl _ _, ?_, fun ho => absurd ho hno, hpos, ?_⟩
        · simp only [Option.bind_eq_bind, e1, Option.bind_some]
        · intro τ hτ; cases hτ
        · left; exact ⟨rfl, fun i h2 h3 => absurd h3 (by omega)⟩
  unfold Factory.step
  simp only [Option.bind_eq_bind, Option.bind_some, hw]
  unfold cannotHaveMatchings
  by_cases hnull : (t.node id).children w = some none
  · rw [if_pos hnull]
    exact nothing t h ht (.refl _ _) rfl (by rw [← hp]; exact h.null id hid w hnull)
  · rw [if_neg hnull]
    by_cases h0 : id = 0
    · have hl : (t.node id).suffixLink = none := by rw [h0]; exact h.root
      rw [hl]
      simp only [Bool.false_eq_true, if_false]
      exact found hnull (fun j hj => by rw [hl] at hj; cases hj)
    · obtain ⟨j, hj, hl, hpj⟩ := h.link id hid h0
      rw [hl]
      rw [hp] at hpj
      have hφ := hφ0 h0
      have hoc : Occ lines F.I (pat j ++ [w]) → ∃ c, (t.node j).children w = some (some c) := by
        intro ho; rw [hpj] at ho; exact hs hφ ho j hj hpj
      obtain ⟨p1, p2, p3, p4, p5, p6, p7⟩ := probe h ht hj hoc
      cases hr : (t.getChild j w).1 with
      | none =>
        simp only [hr, Option.isNone_none, if_true]
        refine nothing _ p1 p2 p3 p4 ?_
        intro ho
        apply p6 hr
        rw [hpj, ← suf_snoc_word hw0 hφ]
        cases φ with
        | nil => exact absurd rfl hφ
        | cons a ψ =>
          refine Occ.suf (cores_snoc_ne hw0 ψ) ?_ ho
          intro ha
          have hsh := g.shape S.wordsPos
          cases x with
          | true =>
            obtain ⟨ψ', e', hlow⟩ := hsh.1 rfl
            cases e'
            intro y hy hy0
            rcases List.mem_append.1 hy with h' | h'
            · exact hlow y h' hy0
            · rw [List.mem_singleton.1 h'] at hy0; omega
          | false =>
            rcases hsh.2 rfl with ⟨e', _⟩ | ⟨a', ψ', e', ha'⟩
            · cases e'
            · cases e'; omega
      | some c =>
        obtain ⟨q1, q2⟩ := p7 c hr
        simp only [hr, Option.isNone_some, Bool.false_eq_true, if_false]
        rw [q2]
        exact found hnull (fun j' hj' => by rw [hl] at hj'; cases hj'; exact ⟨c, q1⟩)

/-! ## The loop -/

/-- Invariant of the loop: `Q` is the queue, `D` the states treated so far and `C` the calls made so far. -/
structure LInv (lines : List (List String)) (F : Factory) (words : List Int) (t : Trie) (pat : Nat → List Int)
    (Q : List FState) (D : Abs → Prop) (C : List Call) : Prop where
  tinv : TInv lines F t pat
  trail : Trail F t pat fun _ => True
  ok : ∀ τ ∈ Q, StOk F words t pat τ
  sorted : Q.Pairwise fun a b => key a.startsX a.phrase ≤ key b.startsX b.phrase
  close : ∀ a ∈ Q, ∀ b ∈ Q, key b.startsX b.phrase ≤ key a.startsX a.phrase + 2
  initW : ∀ i < words.length, D (false, i, i, []) ∨ ∃ τ ∈ Q, τ.abs = (false, i, i, [])
  initX : ∀ i < words.length, F.I.gap ≤ i → D (true, i - F.I.gap, i, [-1]) ∨ ∃ τ ∈ Q, τ.abs = (true, i - F.I.gap, i, [-1])
  next : ∀ x s e φ w, D (x, s, e, φ) → words[e]? = some w → Occ lines F.I (φ ++ [w]) →
    ∀ b, Next F words (x, s, e, φ) b → D b ∨ ∃ τ ∈ Q, τ.abs = b
  done : ∀ x s e φ w, D (x, s, e, φ) → words[e]? = some w → Occ lines F.I (φ ++ [w]) →
    ∃ i < t.size, pat i = φ ∧ ∃ c, (t.node i).children w = some (some c)
  calls : ∀ c ∈ C, NodeLoc lines F.I c.1 c.2 ∧ Occ lines F.I c.1 ∧ (∃ i < t.size, pat i = c.1) ∧
    ∃ s e φ w, Gen F words false s e φ ∧ words[e]? = some w ∧ c.1 = φ ++ [w]
  nodup : (C.map Prod.fst).Nodup
  nodes : ∀ i < t.size, ∀ φ w, pat i = φ ++ [w] → 0 ≤ w → 0 ≤ φ.headD 0 → pat i ∈ C.map Prod.fst

/-- Whatever comes before the front of the queue has been treated, or cannot occur. -/
theorem LInv.treated (S : Setting lines F words rnd) {Q : List FState} {D : Abs → Prop} {C : List Call}
    (h : LInv lines F words t pat Q D C) (K : Nat) (hK : ∀ τ ∈ Q, K ≤ key τ.startsX τ.phrase) {x : Bool} {s e : Nat}
    {φ : List Int} (g : Gen F words x s e φ) : key x φ < K → ∀ w, words[e]? = some w → Occ lines F.I (φ ++ [w]) →
      D (x, s, e, φ) := by
  have inQ : ∀ a : Abs, key a.1 a.2.2.2 < K → ¬ ∃ τ ∈ Q, τ.abs = a := by
    rintro a ha ⟨τ, hτ, rfl⟩
    exact absurd (hK τ hτ) (by simpa [FState.abs] using ha)
  induction g with
  | word i hi => intro hk w hw ho; exact (h.initW i hi).resolve_right (inQ _ hk)
  | xword i hg hi => intro hk w hw ho; exact (h.initX i hi hg).resolve_right (inQ _ hk)
  | @next x s e φ w g hw h1 h2 h3 ih =>
    intro hk v hv ho
    have hw0 := word_nonneg S.wordsPos hw
    have ho' : Occ lines F.I (φ ++ [w]) := ho.init (word_nonneg S.wordsPos hv) (cores_snoc_ne hw0 _)
    have hd := ih (by rw [key_next _ _ hw0] at hk; omega) w hw ho'
    exact (h.next x s e φ w hd hw ho' _ (.next hw h1 h2 h3)).resolve_right (inQ _ hk)
  | @gap x s e φ w i g hw h1 h2 h3 h4 h5 h6 h7 ih =>
    intro hk v hv ho
    have hw0 := word_nonneg S.wordsPos hw
    have ho' : Occ lines F.I (φ ++ [w]) := by
      have := ho.init (word_nonneg S.wordsPos hv) (by rw [cores_snoc_nt (by omega)]; exact cores_snoc_ne hw0 _)
      obtain ⟨ps, hps⟩ := this
      rw [wcores, cores_snoc_nt (by omega)] at hps
      exact ⟨ps, hps⟩
    have hd := ih (by rw [key_nt _ _ (by omega), key_next _ _ hw0] at hk; omega) w hw ho'
    exact (h.next x s e φ w hd hw ho' _ (.gap hw h1 h2 h3 h4 h5 h6 h7)).resolve_right (inQ _ hk)

/-- What holds at the end. -/
theorem loop_spec' (S : Setting lines F words rnd) : ∀ (fuel : Nat) (t : Trie) (pat : Nat → List Int) (Q : List FState)
    (D : Abs → Prop) (C : List Call), LInv lines F words t pat Q D C → (Q.map (weight words.length)).sum ≤ fuel →
    ∃ R t' pat' D', F.loop words fuel t Q = some R ∧ LInv lines F words t' pat' [] D' (C ++ R) := by
  intro fuel
  induction fuel with
  | zero =>
    intro t pat Q D C h hf
    cases Q with
    | nil => exact ⟨[], t, pat, D, rfl, by rw [List.append_nil]; exact h⟩
    | cons st Q =>
      simp only [List.map_cons, List.sum_cons, weight] at hf
      have : 0 < 3 ^ (words.length - st.stop) := Nat.pow_pos (by omega)
      omega
  | succ fuel ih =>
    intro t pat Q D C h hf
    cases Q with
    | nil => exact ⟨[], t, pat, D, by rw [Factory.loop], by rw [List.append_nil]; exact h⟩
    | cons st Q =>
      obtain ⟨g, id, hid, hnode, hp⟩ := h.ok st List.mem_cons_self
      obtain ⟨s, e, φ, nd, x⟩ := st
      simp only at g hnode hp
      subst hnode
      obtain ⟨w, hw⟩ : ∃ w, words[e]? = some w := ⟨_, List.getElem?_eq_getElem g.bounds.2⟩
      have hw0 := word_nonneg S.wordsPos hw
      have hsorted := List.pairwise_cons.1 h.sorted
      have hK : ∀ τ ∈ (⟨s, e, φ, some id, x⟩ : FState) :: Q, key x φ ≤ key τ.startsX τ.phrase := by
        intro τ hτ
        rcases List.mem_cons.1 hτ with rfl | hτ
        · exact Nat.le_refl _
        · exact hsorted.1 τ hτ
      have hs : φ ≠ [] → Occ lines F.I (suf φ ++ [w]) → ∀ j < t.size, pat j = suf φ →
          ∃ c, (t.node j).children w = some (some c) := by
        intro hφ ho j hj hpj
        obtain ⟨x', s', _, g', hk⟩ := g.suffix S.wordsPos hφ
        have hd := h.treated S (key x φ) hK g' hk w hw ho
        obtain ⟨i, hi, e1, c, hc⟩ := h.done x' s' e (suf φ) w hd hw ho
        have : i = j := h.tinv.inj i hi j hj (by rw [e1, hpj])
        subst this
        exact ⟨c, hc⟩
      obtain ⟨t', new, calls, pat', e1, a1, a2, a3, a4, a5, a6, a7⟩ := step_spec S h.tinv h.trail g hid hp hw hs
      have hinv : LInv lines F words t' pat' (Q ++ new) (fun b => D b ∨ b = (x, s, e, φ)) (C ++ calls) := by
        refine ⟨a1, a2, ?_, ?_, ?_, ?_, ?_, ?_, ?_, ?_, ?_, ?_⟩
        · intro τ hτ
          rcases List.mem_append.1 hτ with hτ | hτ
          · exact (h.ok τ (List.mem_cons_of_mem _ hτ)).ext a3
          · exact (a4 τ hτ).1
        · rw [List.pairwise_append]
          refine ⟨hsorted.2, ?_, ?_⟩
          · refine List.Pairwise.imp_of_mem (R := fun _ _ => True) ?_ (List.pairwise_of_forall (by simp))
            intro a b ha hb _
            rw [(a4 a ha).2, (a4 b hb).2]
          · intro a ha b hb
            rw [(a4 b hb).2]
            exact h.close ⟨s, e, φ, some id, x⟩ List.mem_cons_self a (List.mem_cons_of_mem _ ha)
        · intro a ha b hb
          have hlow : ∀ a ∈ Q ++ new, key x φ ≤ key a.startsX a.phrase := by
            intro a ha
            rcases List.mem_append.1 ha with ha | ha
            · exact hsorted.1 a ha
            · rw [(a4 a ha).2]; omega
          have hup : ∀ a ∈ Q ++ new, key a.startsX a.phrase ≤ key x φ + 2 := by
            intro a ha
            rcases List.mem_append.1 ha with ha | ha
            · exact h.close ⟨s, e, φ, some id, x⟩ List.mem_cons_self a (List.mem_cons_of_mem _ ha)
            · rw [(a4 a ha).2]
          have := hlow a ha
          have := hup b hb
          omega
        · intro i hi
          rcases h.initW i hi with h' | ⟨τ, hτ, e'⟩
          · exact Or.inl (Or.inl h')
          · rcases List.mem_cons.1 hτ with rfl | hτ
            · exact Or.inl (Or.inr e'.symm)
            · exact Or.inr ⟨τ, List.mem_append_left _ hτ, e'⟩
        · intro i hi hg
          rcases h.initX i hi hg with h' | ⟨τ, hτ, e'⟩
          · exact Or.inl (Or.inl h')
          · rcases List.mem_cons.1 hτ with rfl | hτ
            · exact Or.inl (Or.inr e'.symm)
            · exact Or.inr ⟨τ, List.mem_append_left _ hτ, e'⟩
        · intro x' s' e' φ' w' hd hw' ho b hb
          rcases hd with hd | hd
          · rcases h.next x' s' e' φ' w' hd hw' ho b hb with h' | ⟨τ, hτ, e''⟩
            · exact Or.inl (Or.inl h')
            · rcases List.mem_cons.1 hτ with rfl | hτ
              · exact Or.inl (Or.inr e''.symm)
              · exact Or.inr ⟨τ, List.mem_append_left _ hτ, e''⟩
          · cases hd
            rw [hw] at hw'; cases hw'
            obtain ⟨τ, hτ, e''⟩ := (a5 ho).2 b hb
            exact Or.inr ⟨τ, List.mem_append_right _ hτ, e''⟩
        · intro x' s' e' φ' w' hd hw' ho
          rcases hd with hd | hd
          · obtain ⟨i, hi, e2, c, hc⟩ := h.done x' s' e' φ' w' hd hw' ho
            exact ⟨i, Nat.lt_of_lt_of_le hi a3.size, by rw [a3.pat i hi]; exact e2, c, a3.child i hi _ _ hc⟩
          · cases hd
            rw [hw] at hw'; cases hw'
            exact ⟨id, Nat.lt_of_lt_of_le hid a3.size, by rw [a3.pat id hid]; exact hp, (a5 ho).1⟩
        · intro c hc
          rcases List.mem_append.1 hc with hc | hc
          · obtain ⟨b1, b2, ⟨i, hi, b3⟩, b4⟩ := h.calls c hc
            exact ⟨b1, b2, ⟨i, Nat.lt_of_lt_of_le hi a3.size, by rw [a3.pat i hi]; exact b3⟩, b4⟩
          · rcases a7 with ⟨rfl, _⟩ | ⟨hx, ho, ⟨l, rfl, hl⟩, _, hex, _⟩
            · cases hc
            · rw [List.mem_singleton.1 hc]
              subst hx
              exact ⟨hl, ho, hex, s, e, φ, w, g, hw, rfl⟩
        · rw [List.map_append, List.nodup_append]
          rcases a7 with ⟨rfl, _⟩ | ⟨hx, ho, ⟨l, rfl, hl⟩, hfresh, hex, _⟩
          · exact ⟨h.nodup, by simp, by simp⟩
          · refine ⟨h.nodup, by simp, ?_⟩
            intro a ha b hb hab
            have hb : b = φ ++ [w] := by simpa using hb
            subst hab
            obtain ⟨c, hc, rfl⟩ := List.mem_map.1 ha
            obtain ⟨_, _, ⟨i, hi, b3⟩, _⟩ := h.calls c hc
            exact hfresh i hi (by rw [b3, hb])
        · intro i hi φ' w' e' hw' hh
          rw [List.map_append, List.mem_append]
          by_cases hit : i < t.size
          · left
            rw [a3.pat i hit] at e' ⊢
            exact h.nodes i hit φ' w' e' hw' hh
          · rcases a7 with ⟨rfl, hn⟩ | ⟨hx, ho, ⟨l, rfl, hl⟩, hfresh, hex, hn⟩
            · rcases hn i (by omega) hi with ⟨u, y, e2, hy⟩ | ⟨hx, e2⟩
              · rw [e2] at e'
                have := (List.append_inj' e' rfl).2
                have : y = w' := by simpa using this
                omega
              · rw [e2] at e'
                have := (List.append_inj' e' rfl).1
                subst this
                subst hx
                obtain ⟨ψ, rfl, _⟩ := (g.shape S.wordsPos).1 rfl
                simp at hh
            · rcases hn i (by omega) hi with e2 | ⟨u, y, e2, hy⟩
              · right; rw [e2]; simp
              · rw [e2] at e'
                have := (List.append_inj' e' rfl).2
                have : y = w' := by simpa using this
                omega
      have hsum : ((Q ++ new).map (weight words.length)).sum ≤ fuel := by
        rw [List.map_append, List.sum_append]
        simp only [List.map_cons, List.sum_cons] at hf
        have : weight words.length ⟨s, e, φ, some id, x⟩ = 3 ^ (words.length - e) := rfl
        omega
      obtain ⟨R, t'', pat'', D'', e2, hfin⟩ := ih t' pat' (Q ++ new) _ (C ++ calls) hinv hsum
      refine ⟨calls ++ R, t'', pat'', D'', ?_, by rw [← List.append_assoc]; exact hfin⟩
      rw [Factory.loop]
      simp only [Option.bind_eq_bind, e1, Option.bind_some, e2]

/-! ## The beginning and the end -/

theorem tinv_init : TInv lines F F.initTrie (fun i => if i = 0 then [] else [-1]) := by
  have two : ∀ i, i < 2 → i = 0 ∨ i = 1 := by intro i hi; omega
  refine ⟨Nat.le_refl _, rfl, rfl, ?_, ?_, ?_, rfl, ?_, ?_, ?_, ?_, ?_, rfl⟩
  · intro i hi j hj e
    rcases two i hi with rfl | rfl <;> rcases two j hj with rfl | rfl <;> simp_all
  · intro i hi k c hc
    rcases two i hi with rfl | rfl
    · simp only [Factory.initTrie, if_true] at hc
      split at hc
      · rename_i hk
        cases hc
        subst hk
        exact ⟨by simp [Factory.initTrie], rfl⟩
      · cases hc
    · simp [Factory.initTrie] at hc
  · intro c hc h0
    rcases two c hc with rfl | rfl
    · exact absurd rfl h0
    · exact ⟨0, by simp [Factory.initTrie], -1, rfl⟩
  · intro i hi h0
    rcases two i hi with rfl | rfl
    · exact absurd rfl h0
    · exact ⟨0, by simp [Factory.initTrie], rfl, rfl⟩
  · intro i hi h
    rcases two i hi with rfl | rfl <;> exact absurd (by decide) h
  · intro i hi h
    rcases two i hi with rfl | rfl <;> exact absurd (by decide) h
  · intro i hi h
    rcases two i hi with rfl | rfl
    · rfl
    · exact absurd h (by decide)
  · intro i hi k hk
    rcases two i hi with rfl | rfl
    · simp only [Factory.initTrie, if_true] at hk
      split at hk <;> cases hk
    · simp [Factory.initTrie] at hk

theorem linv_init : LInv lines F words F.initTrie (fun i => if i = 0 then [] else [-1]) (F.initQueue words.length)
    (fun _ => False) [] := by
  have mem : ∀ τ ∈ F.initQueue words.length, (∃ i < words.length, τ = ⟨i, i, [], some 0, false⟩) ∨
      ∃ i < words.length, F.I.gap ≤ i ∧ τ = ⟨i - F.I.gap, i, [-1], some 1, true⟩ := by
    intro τ hτ
    rcases List.mem_append.1 hτ with hτ | hτ
    · obtain ⟨i, hi, rfl⟩ := List.mem_map.1 hτ
      exact Or.inl ⟨i, List.mem_range.1 hi, rfl⟩
    · obtain ⟨i, hi, rfl⟩ := List.mem_map.1 hτ
      rw [List.mem_range'_1] at hi
      exact Or.inr ⟨i, by omega, hi.1, rfl⟩
  have hkey : ∀ τ ∈ F.initQueue words.length, key τ.startsX τ.phrase ≤ 1 := by
    intro τ hτ
    rcases mem τ hτ with ⟨i, _, rfl⟩ | ⟨i, _, _, rfl⟩ <;> simp [key]
  refine ⟨tinv_init, ?_, ?_, ?_, ?_, ?_, ?_, ?_, ?_, ?_, ?_, ?_⟩
  · intro i hi _ φ w e hw
    by_cases h0 : i = 0
    · simp [h0] at e
    · simp only [if_neg h0] at e
      have := List.append_inj' (s₁ := []) (t₁ := [-1]) e rfl
      have : -1 = w := by simpa using this.2
      omega
  · intro τ hτ
    rcases mem τ hτ with ⟨i, h, rfl⟩ | ⟨i, h, hg, rfl⟩
    · exact ⟨.word i h, 0, by simp [Factory.initTrie], rfl, rfl⟩
    · exact ⟨.xword i hg h, 1, by simp [Factory.initTrie], rfl, rfl⟩
  · unfold Factory.initQueue
    rw [List.pairwise_append]
    refine ⟨?_, ?_, ?_⟩
    · rw [List.pairwise_map]; exact List.pairwise_of_forall (by intros; exact Nat.le_refl _)
    · rw [List.pairwise_map]; exact List.pairwise_of_forall (by intros; exact Nat.le_refl _)
    · intro a ha b hb
      obtain ⟨i, _, rfl⟩ := List.mem_map.1 ha
      simp [key]
  · intro a ha b hb
    have := hkey b hb
    omega
  · intro i hi
    exact Or.inr ⟨_, List.mem_append_left _ (List.mem_map.2 ⟨i, List.mem_range.2 hi, rfl⟩), rfl⟩
  · intro i hi hg
    exact Or.inr ⟨_, List.mem_append_right _ (List.mem_map.2 ⟨i, by rw [List.mem_range'_1]; omega, rfl⟩), rfl⟩
  · intro x s e φ w h; exact h.elim
  · intro x s e φ w h; exact h.elim
  · intro c hc; cases hc
  · exact List.nodup_nil
  · intro i hi φ w e hw _
    by_cases h0 : i = 0
    · simp [h0] at e
    · simp only [if_neg h0] at e
      have := List.append_inj' (s₁ := []) (t₁ := [-1]) e rfl
      have : -1 = w := by simpa using this.2
      omega

theorem initQueue_weight (n : Nat) : ((F.initQueue n).map (weight n)).sum ≤ 3 ^ (n + 1) := by
  unfold Factory.initQueue
  rw [List.map_append, List.sum_append, List.map_map, List.map_map, List.range_eq_range']
  have h1 := sum_range' n n 0 (by omega)
  have e1 : (weight n ∘ fun i => (⟨i, i, [], some 0, false⟩ : FState)) = fun i => 3 ^ (n - i) := rfl
  have e2 : (weight n ∘ fun i => (⟨i - F.I.gap, i, [-1], some 1, true⟩ : FState)) = fun i => 3 ^ (n - i) := rfl
  rw [e1, e2]
  by_cases hg : F.I.gap ≤ n
  · have h2 := sum_range' n (n - F.I.gap) F.I.gap (by omega)
    have h3 : 3 ^ (n - F.I.gap + 1) ≤ 3 ^ (n + 1) := Nat.pow_le_pow_right (by omega) (by omega)
    omega
  · have : n - F.I.gap = 0 := by omega
    rw [this]
    simp only [List.range'_zero, List.map_nil, List.sum_nil]
    omega

/-- The calls made for a sentence. -/
theorem calls_spec (S : Setting lines F words rnd) (hch : F.maxChunks = F.maxNt + 1) (fuel : Nat)
    (hf : 3 ^ (words.length + 1) ≤ fuel) :
    ∃ cs, F.calls words fuel = some cs ∧ (cs.map Prod.fst).Nodup ∧
      (∀ s, (∃ l, (s, l) ∈ cs) ↔ PatternOf words F.I.gap F.I.span F.maxNt F.maxSym s ∧
        ∃ ps, OccursAt lines F.I.gap F.I.span (F.I.wordChunks s) ps) ∧
      ∀ s l, (s, l) ∈ cs → (F.I.matchesOf l).Nodup ∧
        ∀ ps, ps ∈ F.I.matchesOf l ↔ OccursAt lines F.I.gap F.I.span (F.I.wordChunks s) ps := by
  obtain ⟨R, t', pat', D, e, h⟩ := loop_spec' S fuel F.initTrie _ (F.initQueue words.length) _ [] linv_init
    (Nat.le_trans (initQueue_weight _) hf)
  rw [List.nil_append] at h
  have hc : ∀ {p e φ w}, Gen F words false p e φ → words[e]? = some w →
      wcores F.I (φ ++ [w]) = F.I.wordChunks (φ ++ [w]) := by
    intro p e φ w g hw
    rw [wcores, Intersector.wordChunks, cores_eq (g.chunks_ne' S.wordsPos (word_nonneg S.wordsPos hw))]
  refine ⟨R, e, h.nodup, ?_, ?_⟩
  · intro s
    rw [pattern_iff S.wordsPos hch]
    constructor
    · rintro ⟨l, hl⟩
      obtain ⟨_, ⟨ps, ho⟩, _, p, e, φ, w, g, hw, e'⟩ := h.calls _ hl
      simp only at e' ho
      subst e'
      rw [hc g hw] at ho
      exact ⟨⟨p, e, φ, w, g, hw, rfl⟩, ps, ho⟩
    · rintro ⟨⟨p, e, φ, w, g, hw, rfl⟩, ps, ho⟩
      have ho : Occ lines F.I (φ ++ [w]) := ⟨ps, by rw [hc g hw]; exact ho⟩
      have hd := h.treated S (key false φ + 1) (by intro τ hτ; cases hτ) g (by omega) w hw ho
      obtain ⟨i, hi, hp, c, hcc⟩ := h.done _ _ _ _ w hd hw ho
      obtain ⟨h1, h2⟩ := h.tinv.child i hi w c hcc
      rw [hp] at h2
      have hhead : 0 ≤ φ.headD 0 := by
        rcases (g.shape S.wordsPos).2 rfl with ⟨rfl, _⟩ | ⟨a, ψ, rfl, ha⟩
        · exact Int.le_refl _
        · exact ha
      have := h.nodes c h1 φ w h2 (word_nonneg S.wordsPos hw) hhead
      rw [h2] at this
      obtain ⟨⟨s', l⟩, hm, e'⟩ := List.mem_map.1 this
      simp only at e'
      subst e'
      exact ⟨l, hm⟩
  · intro s l hl
    obtain ⟨hn, _, _, p, e, φ, w, g, hw, e'⟩ := h.calls _ hl
    simp only at e' hn
    subst e'
    refine ⟨hn.nodup, fun ps => ?_⟩
    rw [hn.mem, hc g hw]

end Cdec.Extract
