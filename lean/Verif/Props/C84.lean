import Verif.Align.FastAlignLemmas
import Mathlib.Data.List.Forall2
import Mathlib.Algebra.BigOperators.Field
/-!
# C84: Training the word aligner never makes the corpus less likely, and prints the most probable links
-/
namespace Cdec.Align
open Cdec.Sparse FaSpec

/-! ## EM -/

theorem jensen {α : Type} (l : List α) (p r : α → ℝ) (hp : ∀ a ∈ l, 0 ≤ p a) (h1 : (l.map p).sum = 1) (hr : ∀ a ∈ l, 0 < r a)
    (hR : 0 < (l.map fun a => p a * r a).sum) :
    (l.map fun a => p a * Real.log (r a)).sum ≤ Real.log (l.map fun a => p a * r a).sum := by
  set R := (l.map fun a => p a * r a).sum with hRdef
  have key : ∀ l' : List α, (∀ a ∈ l', a ∈ l) → (l'.map fun a => p a * Real.log (r a)).sum ≤
      (l'.map p).sum * Real.log R + ((l'.map fun a => p a * r a).sum / R - (l'.map p).sum) := by
    intro l'
    induction l' with
    | nil => intro _; simp
    | cons a l' ih =>
      intro h
      have ih := ih fun b hb => h b (List.mem_cons_of_mem _ hb)
      have ha := h a List.mem_cons_self
      have hl : Real.log (r a) ≤ Real.log R + (r a / R - 1) := by
        have := Real.log_le_sub_one_of_pos (div_pos (hr a ha) hR)
        rw [Real.log_div (hr a ha).ne' hR.ne'] at this
        linarith
      have := mul_le_mul_of_nonneg_left hl (hp a ha)
      simp only [List.map_cons, List.sum_cons, add_div]
      have e : p a * r a / R = p a * (r a / R) := mul_div_assoc ..
      rw [e]
      nlinarith
  have := key l fun _ h => h
  rw [h1, ← hRdef, div_self hR.ne'] at this
  linarith

theorem sum_map_div {α : Type} (f : α → ℝ) (x : ℝ) (l : List α) : (l.map fun a => f a / x).sum = (l.map f).sum / x := by
  induction l with
  | nil => simp
  | cons a l ih => simp [ih, add_div]

theorem sum_map_le {α : Type} (f g : α → ℝ) : ∀ (l : List α), (∀ a ∈ l, f a ≤ g a) → (l.map f).sum ≤ (l.map g).sum
  | [], _ => le_refl _
  | a :: l, h => by
    simp only [List.map_cons, List.sum_cons]
    exact add_le_add (h a List.mem_cons_self) (sum_map_le f g l fun b hb => h b (List.mem_cons_of_mem _ hb))

theorem sum_map_sub {α : Type} (f g : α → ℝ) (l : List α) : (l.map fun a => f a - g a).sum = (l.map f).sum - (l.map g).sum := by
  induction l with
  | nil => simp
  | cons a l ih => simp only [List.map_cons, List.sum_cons, ih]; ring

variable {o : FaOpts} {corpus : List Pair} {θ θ' : Nat → Nat → ℝ}

theorem token_gain (ok : o.Ok) {s : Pair} (h : PosOn o θ s) (h' : PosOn o θ' s) {j : Nat} (hj : j < s.2.length) :
    ((tokenAdds o θ s j).map fun p => p.2 * Real.log (θ' p.1.1 p.1.2 / θ p.1.1 p.1.2)).sum ≤
      Real.log (wordProb o θ' s j) - Real.log (wordProb o θ s j) := by
  have w := wordProb_pos ok h.1 hj (h.at hj)
  have w' := wordProb_pos ok h'.1 hj (h'.at hj)
  rw [tokenAdds, List.map_map]
  have hsum : ((places o s.1).map fun c => cellProb o θ s j c / wordProb o θ s j *
      (θ' c.2 (s.2.getD j 0) / θ c.2 (s.2.getD j 0))).sum = wordProb o θ' s j / wordProb o θ s j := by
    rw [show wordProb o θ' s j = ((places o s.1).map fun c => cellProb o θ' s j c).sum from rfl, ← sum_map_div]
    congr 1
    apply List.map_congr_left
    intro c hc
    have := (h.at hj c hc).ne'
    rw [cellProb, cellProb]
    field_simp
  rw [← Real.log_div w'.ne' w.ne', ← hsum]
  refine jensen (places o s.1) (fun c => cellProb o θ s j c / wordProb o θ s j)
    (fun c => θ' c.2 (s.2.getD j 0) / θ c.2 (s.2.getD j 0)) ?_ ?_ ?_ ?_
  · intro c hc
    exact (div_pos (mul_pos (prior_eq ok hj (List.length_pos_iff.2 h.1)).2 (h.at hj c hc)) w).le
  · rw [sum_map_div]
    exact div_self w.ne'
  · intro c hc
    exact div_pos (h'.at hj c hc) (h.at hj c hc)
  · rw [hsum]; exact div_pos w' w

theorem corpus_gain (ok : o.Ok) (h : ∀ s ∈ corpus, PosOn o θ s) (h' : ∀ s ∈ corpus, PosOn o θ' s) :
    ((adds o θ corpus).map fun p => p.2 * Real.log (θ' p.1.1 p.1.2 / θ p.1.1 p.1.2)).sum ≤
      logLik o θ' corpus - logLik o θ corpus := by
  rw [adds, sum_flatMap, logLik, logLik, ← sum_map_sub]
  apply sum_map_le
  intro s hs
  rw [pairAdds, sum_flatMap, ← sum_map_sub]
  apply sum_map_le
  intro j hj
  exact token_gain ok (h s hs) (h' s hs) (List.mem_range.1 hj)

/-- The source words of the corpus and the null word. -/
def sources (o : FaOpts) (corpus : List Pair) : Finset Nat := insert o.null (corpus.flatMap Prod.fst).toFinset

theorem cooccur_source {e f : Nat} (h : Cooccur o corpus e f) : e ∈ sources o corpus := by
  obtain ⟨s, hs, _, h | ⟨_, rfl⟩⟩ := h
  · exact Finset.mem_insert_of_mem (List.mem_toFinset.2 (List.mem_flatMap.2 ⟨s, hs, h⟩))
  · exact Finset.mem_insert_self _ _

theorem regroup (h : Nat → Nat → ℝ) (E F : Finset Nat) : ∀ (l : List ((Nat × Nat) × ℝ)),
    (∀ p ∈ l, p.1.1 ∈ E ∧ p.1.2 ∈ F) → (l.map fun p => p.2 * h p.1.1 p.1.2).sum =
      ∑ e ∈ E, ∑ f ∈ F, (l.map fun p => if p.1 = (e, f) then p.2 else 0).sum * h e f
  | [], _ => by simp
  | p :: l, hl => by
    obtain ⟨⟨e, f⟩, x⟩ := p
    obtain ⟨he, hf⟩ := hl _ List.mem_cons_self
    simp only [] at he hf
    rw [List.map_cons, List.sum_cons, regroup h E F l fun q hq => hl q (List.mem_cons_of_mem _ hq)]
    simp only [List.map_cons, List.sum_cons, add_mul, Finset.sum_add_distrib]
    congr 1
    rw [Finset.sum_eq_single_of_mem e he, Finset.sum_eq_single_of_mem f hf]
    · simp
    · intro f' _ hne
      rw [if_neg (by rintro ⟨⟩; exact hne rfl), zero_mul]
    · intro e' _ hne
      apply Finset.sum_eq_zero
      intro f' _
      rw [if_neg (by rintro ⟨⟩; exact hne rfl), zero_mul]

open Classical in
/-- What holds of the translation probabilities before and after each iteration: positive where needed, and at most one in
total over the words seen with a source word. -/
structure Theta (o : FaOpts) (corpus : List Pair) (θ : Nat → Nat → ℝ) : Prop where
  pos : ∀ s ∈ corpus, PosOn o θ s
  sub : ∀ e, ∑ f ∈ targets corpus, (if Cooccur o corpus e f then θ e f else 0) ≤ 1

theorem Theta.gt (h : Theta o corpus θ) {e f : Nat} (hc : Cooccur o corpus e f) : 0 < θ e f := by
  obtain ⟨s, hs, hf, he⟩ := hc
  obtain ⟨c, hc, rfl⟩ := mem_places he
  exact (h.pos s hs).2.2 f hf c hc

/-- Total expected count of a source word. -/
theorem ctot_pos (ok : o.Ok) (h : Theta o corpus θ) {e f : Nat} (hc : Cooccur o corpus e f) :
    0 < ∑ f' ∈ targets corpus, expCount o θ corpus e f' :=
  Finset.sum_pos' (fun f' _ => (expCount_pos ok h.pos e f').2)
    ⟨f, cooccur_target hc, (expCount_pos ok h.pos e f).1.2 hc⟩

theorem expCount_zero (ok : o.Ok) (h : Theta o corpus θ) {e f : Nat} (hc : ¬ Cooccur o corpus e f) :
    expCount o θ corpus e f = 0 := by
  have := expCount_pos ok h.pos e f
  exact le_antisymm (not_lt.1 fun hp => hc (this.1.1 hp)) this.2

theorem Theta.step (ok : o.Ok) (h : Theta o corpus θ) (r : EmResult o corpus θ θ') : Theta o corpus θ' := by
  refine ⟨fun s hs => ⟨(h.pos s hs).1, (h.pos s hs).2.1, fun f hf c hc => ?_⟩, fun e => ?_⟩
  · have hco : Cooccur o corpus c.2 f := ⟨s, hs, hf, (places_mem hc).2⟩
    rw [r.mstep _ _ hco]
    exact div_pos ((expCount_pos ok h.pos _ _).1.2 hco) (ctot_pos ok h hco)
  · have : ∀ f ∈ targets corpus, (open Classical in if Cooccur o corpus e f then θ' e f else 0) =
        expCount o θ corpus e f / ∑ f' ∈ targets corpus, expCount o θ corpus e f' := by
      intro f _
      split
      · rename_i hc; exact r.mstep e f hc
      · rename_i hc; rw [expCount_zero ok h hc, zero_div]
    rw [Finset.sum_congr rfl this, ← Finset.sum_div]
    exact div_self_le_one _

/-- One iteration does not lower the likelihood. -/
theorem em_monotone (ok : o.Ok) (h : Theta o corpus θ) (r : EmResult o corpus θ θ') :
    logLik o θ corpus ≤ logLik o θ' corpus := by
  classical
  have h' := h.step ok r
  have g := corpus_gain ok h.pos h'.pos
  have low : 0 ≤ ((adds o θ corpus).map fun p => p.2 * Real.log (θ' p.1.1 p.1.2 / θ p.1.1 p.1.2)).sum := by
    have l1 : ((adds o θ corpus).map fun p => p.2 * (1 - θ p.1.1 p.1.2 / θ' p.1.1 p.1.2)).sum ≤
        ((adds o θ corpus).map fun p => p.2 * Real.log (θ' p.1.1 p.1.2 / θ p.1.1 p.1.2)).sum := by
      apply sum_map_le
      intro p hp
      obtain ⟨hc, hx⟩ := adds_mem ok h.pos hp
      apply mul_le_mul_of_nonneg_left _ hx.le
      have h1 := h.gt hc
      have h2 := h'.gt hc
      have := Real.log_le_sub_one_of_pos (div_pos h1 h2)
      rw [Real.log_div h1.ne' h2.ne'] at this
      rw [Real.log_div h2.ne' h1.ne']
      linarith
    refine le_trans ?_ l1
    rw [regroup (fun e f => 1 - θ e f / θ' e f) (sources o corpus) (targets corpus) (adds o θ corpus) (by
      intro p hp
      have := (adds_mem ok h.pos hp).1
      exact ⟨cooccur_source this, cooccur_target this⟩)]
    apply Finset.sum_nonneg
    intro e _
    simp only [adds_sum]
    have e1 : ∀ f ∈ targets corpus, expCount o θ corpus e f * (1 - θ e f / θ' e f) = expCount o θ corpus e f -
        (∑ f' ∈ targets corpus, expCount o θ corpus e f') * if Cooccur o corpus e f then θ e f else 0 := by
      intro f _
      by_cases hc : Cooccur o corpus e f
      · rw [if_pos hc, r.mstep e f hc]
        have c1 := (expCount_pos ok h.pos e f).1.2 hc
        have c2 := ctot_pos ok h hc
        field_simp
      · rw [if_neg hc, expCount_zero ok h hc]; simp
    rw [Finset.sum_congr rfl e1, Finset.sum_sub_distrib, ← Finset.mul_sum]
    have nn : 0 ≤ ∑ f' ∈ targets corpus, expCount o θ corpus e f' :=
      Finset.sum_nonneg fun f' _ => (expCount_pos ok h.pos e f').2
    have := h.sub e
    nlinarith
  linarith

/-- The initial table: every probability is `eps`. -/
theorem theta_init (ok : o.Ok) (hne : ∀ s ∈ corpus, s.1 ≠ [] ∧ s.2 ≠ [])
    (hsize : ((corpus.flatMap Prod.snd).length : ℝ) * o.eps ≤ 1) : Theta o corpus (o.theta {}) := by
  have he : ∀ e f, o.theta {} e f = o.eps := by
    intro e f; simp [FaOpts.theta, TTable.prob]
  refine ⟨fun s hs => ⟨(hne s hs).1, (hne s hs).2, fun f _ c _ => by rw [he]; exact ok.eps⟩, fun e => ?_⟩
  refine le_trans (Finset.sum_le_card_nsmul _ _ o.eps ?_) ?_
  · intro f _
    split
    · rw [he]
    · exact ok.eps.le
  · rw [nsmul_eq_mul]
    refine le_trans (mul_le_mul_of_nonneg_right ?_ ok.eps.le) hsize
    exact_mod_cast List.toFinset_card_le _

/-! ## Links -/

theorem fold_best (θ : Nat → Nat → ℝ) (s : Pair) (j : Nat) (w : Nat × Nat → ℝ) :
    ∀ (rest l : List (Nat × Nat)) (c : Nat × Nat) (r : List (Nat × Nat)),
    (∀ d ∈ l, w d < w c) → (∀ d ∈ r, w d ≤ w c) →
    ∃ l' c' r', l ++ c :: r ++ rest = l' ++ c' :: r' ∧ (∀ d ∈ l', w d < w c') ∧ (∀ d ∈ r', w d ≤ w c') ∧
      rest.foldl (fun b d => open Classical in if w d > b.2 then ((d.1 : Int), w d) else b) ((c.1 : Int), w c) =
        ((c'.1 : Int), w c')
  | [], l, c, r, hl, hr => ⟨l, c, r, by simp, hl, hr, rfl⟩
  | d :: rest, l, c, r, hl, hr => by
    rw [List.foldl_cons]
    by_cases h : w d > w c
    · rw [if_pos h]
      obtain ⟨l', c', r', e, h1, h2, h3⟩ := fold_best θ s j w rest (l ++ c :: r) d [] (by
        intro x hx
        rcases List.mem_append.1 hx with hx | hx
        · exact (hl x hx).trans h
        · rcases List.mem_cons.1 hx with rfl | hx
          · exact h
          · exact (hr x hx).trans_lt h) (by simp)
      exact ⟨l', c', r', by rw [← e]; simp, h1, h2, h3⟩
    · rw [if_neg h]
      obtain ⟨l', c', r', e, h1, h2, h3⟩ := fold_best θ s j w rest l c (r ++ [d]) hl (by
        intro x hx
        rcases List.mem_append.1 hx with hx | hx
        · exact hr x hx
        · rw [List.mem_singleton.1 hx]; exact not_lt.1 h)
      exact ⟨l', c', r', by rw [← e]; simp, h1, h2, h3⟩

theorem foldl_map_cells (w : Nat × Nat → ℝ) (l : List (Nat × Nat)) (b : Int × ℝ) :
    (l.map fun c => (c.1, c.2, w c)).foldl (fun (b : Int × ℝ) (c : Nat × Nat × ℝ) =>
      open Classical in if c.2.2 > b.2 then ((c.1 : Int), c.2.2) else b) b =
    l.foldl (fun b d => open Classical in if w d > b.2 then ((d.1 : Int), w d) else b) b := by
  rw [List.foldl_map]

theorem bestCell_spec (ok : o.Ok) {s : Pair} (h : PosOn o θ s) {j : Nat} (hj : j < s.2.length) :
    ∃ a, BestPlace o θ s j a ∧
      (bestCell o.useNull ((places o s.1).map fun c => (c.1, c.2, cellProb o θ s j c))).1 = (a : Int) := by
  have hpos : ∀ c ∈ places o s.1, 0 < cellProb o θ s j c := fun c hc =>
    mul_pos (prior_eq ok hj (List.length_pos_iff.2 h.1)).2 (h.at hj c hc)
  obtain ⟨x, hx⟩ := List.exists_mem_of_ne_nil _ h.1
  obtain ⟨c0, hc0, _⟩ := mem_places (o := o) (Or.inl hx)
  cases hp : places o s.1 with
  | nil => rw [hp] at hc0; cases hc0
  | cons c rest =>
    obtain ⟨l', c', r', e, h1, h2, h3⟩ := fold_best θ s j (cellProb o θ s j) rest [] c [] (by simp) (by simp)
    refine ⟨c'.1, ⟨l', c', r', by rw [hp]; simpa using e, rfl, h1, h2⟩, ?_⟩
    cases hn : o.useNull with
    | true =>
      have hc1 : c.1 = 0 := by
        unfold places at hp
        rw [hn] at hp
        simp only [if_true, List.cons_append, List.nil_append, List.cons.injEq] at hp
        rw [← hp.1]
      unfold bestCell
      simp only [List.map_cons]
      rw [foldl_map_cells]
      have : ((0 : Int), cellProb o θ s j c) = ((c.1 : Int), cellProb o θ s j c) := by rw [hc1]; rfl
      rw [this, h3]
    | false =>
      unfold bestCell
      simp only [List.map_cons]
      rw [← List.map_cons (f := fun c => (c.1, c.2, cellProb o θ s j c)), foldl_map_cells, List.foldl_cons]
      have : cellProb o θ s j c > -1 := by
        have := hpos c (by rw [hp]; exact List.mem_cons_self)
        linarith
      rw [if_pos this, h3]

/-- The best place is also what the aligner of test sets takes. -/
theorem testLink_eq (ok : o.Ok) {s : Pair} (h : PosOn o θ s) {j : Nat} (hj : j < s.2.length) :
    o.testLink ((places o s.1).map fun c => (c.1, c.2, cellProb o θ s j c)) j =
      o.link ((places o s.1).map fun c => (c.1, c.2, cellProb o θ s j c)) j := by
  have hpos : ∀ c ∈ places o s.1, 0 < cellProb o θ s j c := fun c hc =>
    mul_pos (prior_eq ok hj (List.length_pos_iff.2 h.1)).2 (h.at hj c hc)
  have key : ∀ (l : List (Nat × Nat × ℝ)) (a : Nat) (x : ℝ),
      ∃ b y, l.foldl (fun b c => open Classical in if c.2.2 > b.2 then (c.1, c.2.2) else b) (a, x) = (b, y) ∧
      l.foldl (fun (b : Int × ℝ) (c : Nat × Nat × ℝ) => open Classical in if c.2.2 > b.2 then ((c.1 : Int), c.2.2) else b)
        ((a : Int), x) = ((b : Int), y) := by
    intro l
    induction l with
    | nil => intro a x; exact ⟨a, x, rfl, rfl⟩
    | cons c l ih =>
      intro a x
      rw [List.foldl_cons, List.foldl_cons]
      by_cases hx : c.2.2 > x
      · simp only [if_pos hx]; exact ih _ _
      · simp only [if_neg hx]; exact ih _ _
  have fin : ∀ (b : Nat), (if b > 0 then [(b - 1, j)] else []) = if (b : Int) > 0 then [((b : Int).toNat - 1, j)] else [] := by
    intro b
    by_cases hb : b > 0
    · rw [if_pos hb, if_pos (by omega)]; simp
    · rw [if_neg hb, if_neg (by omega)]
  obtain ⟨x, hx⟩ := List.exists_mem_of_ne_nil _ h.1
  obtain ⟨c0, hc0, _⟩ := mem_places (o := o) (Or.inl hx)
  cases hp : places o s.1 with
  | nil => rw [hp] at hc0; cases hc0
  | cons c rest =>
    have hc := hpos c (by rw [hp]; exact List.mem_cons_self)
    unfold FaOpts.testLink FaOpts.link bestCell
    cases hn : o.useNull with
    | true =>
      simp only [List.map_cons]
      obtain ⟨b, y, e1, e2⟩ := key (rest.map fun c => (c.1, c.2, cellProb o θ s j c)) 0 (cellProb o θ s j c)
      rw [e1]
      have e2 : _ = ((b : Int), y) := e2
      simp only [Nat.cast_zero] at e2
      rw [e2]
      exact fin b
    | false =>
      simp only [List.map_cons, List.foldl_cons]
      have g1 : cellProb o θ s j c > 0 := hc
      have g2 : cellProb o θ s j c > -1 := by linarith
      simp only [if_pos g1, if_pos g2]
      obtain ⟨b, y, e1, e2⟩ := key (rest.map fun c => (c.1, c.2, cellProb o θ s j c)) c.1 (cellProb o θ s j c)
      rw [e1, e2]
      exact fin b

/-- The links of a pair are right: one for each target word whose best place is a source word. -/
def GoodLinks (o : FaOpts) (θ : Nat → Nat → ℝ) (s : Pair) (links : List (Nat × Nat)) : Prop :=
  ∃ best : Nat → Nat, (∀ j < s.2.length, BestPlace o θ s j (best j)) ∧
    links = ((List.range s.2.length).filter fun j => best j ≠ 0).map fun j => (best j - 1, j)

theorem finalTokens_spec (ok : o.Ok) {s : Pair} {t : TTable ℝ} (h : PosOn o (o.theta t) s) : ∀ (js : List Nat),
    (∀ j ∈ js, j < s.2.length) → ∀ (a : List (Nat × Nat)) (x : ℝ),
    (js.map fun j => (s.2.getD j 0, j)).foldlM (fun (a : List (Nat × Nat) × ℝ) fj =>
      (o.probs t s fj.2 fj.1).map fun ps => (a.1 ++ o.link ps fj.2, a.2 + Real.log (total ps))) (a, x) =
    some (a ++ js.flatMap fun j => o.link ((places o s.1).map fun c => (c.1, c.2, cellProb o (o.theta t) s j c)) j,
      x + (js.map fun j => Real.log (wordProb o (o.theta t) s j)).sum)
  | [], _, a, x => by simp
  | j :: js, hj, a, x => by
    rw [List.map_cons, List.foldlM_cons]
    simp only [probs_eq ok t h.1 (hj j List.mem_cons_self), Option.map_some, Option.bind_eq_bind, Option.bind_some, total_probs]
    rw [finalTokens_spec ok h js fun j hh => hj j (List.mem_cons_of_mem _ hh)]
    simp only [List.flatMap_cons, List.map_cons, List.sum_cons, List.append_assoc, add_assoc]

theorem finalPair_spec (ok : o.Ok) {s : Pair} {t : TTable ℝ} (h : PosOn o (o.theta t) s) (al : List (List (Nat × Nat))) (x : ℝ) :
    ∃ links, o.finalPair t (al, x) s =
      some (al ++ [links], x + ((List.range s.2.length).map fun j => Real.log (wordProb o (o.theta t) s j)).sum) ∧
      GoodLinks o (o.theta t) s links := by
  rw [FaOpts.finalPair, if_neg (by rintro (hh | hh); exacts [h.1 hh, h.2.1 hh]), zipIdx_eq,
    finalTokens_spec ok h (List.range s.2.length) (fun j hh => List.mem_range.1 hh)]
  refine ⟨_, rfl, ?_⟩
  have hb : ∀ j, ∃ a, j < s.2.length → BestPlace o (o.theta t) s j a ∧
      (bestCell o.useNull ((places o s.1).map fun c => (c.1, c.2, cellProb o (o.theta t) s j c))).1 = (a : Int) := by
    intro j
    by_cases hj : j < s.2.length
    · obtain ⟨a, ha⟩ := bestCell_spec ok h hj
      exact ⟨a, fun _ => ha⟩
    · exact ⟨0, fun hh => absurd hh hj⟩
  choose best hbest using hb
  refine ⟨best, fun j hj => (hbest j hj).1, ?_⟩
  rw [List.nil_append]
  have : ∀ (js : List Nat), (∀ j ∈ js, j < s.2.length) →
      (js.flatMap fun j => o.link ((places o s.1).map fun c => (c.1, c.2, cellProb o (o.theta t) s j c)) j) =
      (js.filter fun j => best j ≠ 0).map fun j => (best j - 1, j) := by
    intro js
    induction js with
    | nil => intro _; rfl
    | cons j js ih =>
      intro hj
      rw [List.flatMap_cons, ih fun j hh => hj j (List.mem_cons_of_mem _ hh), List.filter_cons]
      have := (hbest j (hj j List.mem_cons_self)).2
      unfold FaOpts.link
      rw [this]
      by_cases hz : best j = 0
      · simp [hz]
      · have : ((best j : Nat) : Int) > 0 := by omega
        simp [hz, Nat.pos_of_ne_zero hz]
  exact this _ fun j hh => List.mem_range.1 hh

theorem finalCorpus_spec (ok : o.Ok) {t : TTable ℝ} : ∀ (corpus : List Pair), (∀ s ∈ corpus, PosOn o (o.theta t) s) →
    ∀ (al : List (List (Nat × Nat))) (x : ℝ), ∃ al', corpus.foldlM (o.finalPair t) (al, x) =
      some (al ++ al', x + logLik o (o.theta t) corpus) ∧ List.Forall₂ (GoodLinks o (o.theta t)) corpus al'
  | [], _, al, x => ⟨[], by simp [logLik], .nil⟩
  | s :: corpus, h, al, x => by
    obtain ⟨links, h1, h2⟩ := finalPair_spec ok (h s List.mem_cons_self) al x
    obtain ⟨al', h3, h4⟩ := finalCorpus_spec ok corpus (fun s hs => h s (List.mem_cons_of_mem _ hs)) (al ++ [links])
      (x + ((List.range s.2.length).map fun j => Real.log (wordProb o (o.theta t) s j)).sum)
    refine ⟨links :: al', ?_, .cons h2 h4⟩
    rw [List.foldlM_cons, h1]
    simp only [Option.bind_eq_bind, Option.bind_some, h3, logLik, List.map_cons, List.sum_cons, add_assoc, List.append_assoc,
      List.cons_append, List.nil_append]

/-! ## Training -/

theorem train_spec (ok : o.Ok) : ∀ (k : Nat) (t : TTable ℝ), t.counts = [] → Theta o corpus (o.theta t) →
    ∃ (T : Nat → TTable ℝ) (al : List (List (Nat × Nat))), T 0 = t ∧
      (∀ i < k, o.emStep corpus (T i) = some (T (i + 1), logLik o (o.theta (T i)) corpus) ∧
        EmResult o corpus (o.theta (T i)) (o.theta (T (i + 1)))) ∧
      (∀ i ≤ k, Theta o corpus (o.theta (T i))) ∧
      o.train corpus (k + 1) t = some ((List.range (k + 1)).map fun i => logLik o (o.theta (T i)) corpus, al) ∧
      List.Forall₂ (GoodLinks o (o.theta (T k))) corpus al
  | 0, t, _, h => by
    obtain ⟨al, h1, h2⟩ := finalCorpus_spec ok corpus h.pos [] 0
    refine ⟨fun _ => t, al, rfl, by intro i hi; omega, fun _ _ => h, ?_, h2⟩
    rw [FaOpts.train, h1]
    simp
  | k + 1, t, hc, h => by
    obtain ⟨t1, h1, h2, h3⟩ := emStep_spec ok hc h.pos
    obtain ⟨T, al, r0, r1, r2, r3, r4⟩ := train_spec ok k t1 h2 (h.step ok h3)
    refine ⟨fun i => Nat.casesOn i t T, al, rfl, ?_, ?_, ?_, r4⟩
    · intro i hi
      cases i with
      | zero =>
        simp only [r0]
        exact ⟨h1, h3⟩
      | succ i => exact r1 i (by omega)
    · intro i hi
      cases i with
      | zero => exact h
      | succ i => exact r2 i (by omega)
    · rw [FaOpts.train, h1]
      simp only [Option.bind_eq_bind, Option.bind_some, r3]
      rw [List.range_succ_eq_map (n := k + 1), List.map_cons, List.map_map]
      rfl

/-- C84.  Training a corpus of non-empty sentence pairs (of at most `1 / eps` target words) for `k + 1` iterations goes
through tables `T 0` (empty) to `T k`: the likelihoods reported are those of the corpus under the tables and never go down,
each table holds the expected counts under the one before, normalised per source word, and the alignments printed are those of
the last table. -/
theorem C84_train (ok : o.Ok) (hne : ∀ s ∈ corpus, s.1 ≠ [] ∧ s.2 ≠ [])
    (hsize : ((corpus.flatMap Prod.snd).length : ℝ) * o.eps ≤ 1) (k : Nat) :
    ∃ (T : Nat → TTable ℝ) (al : List (List (Nat × Nat))), T 0 = {} ∧
      o.train corpus (k + 1) {} = some ((List.range (k + 1)).map fun i => logLik o (o.theta (T i)) corpus, al) ∧
      (∀ i < k, logLik o (o.theta (T i)) corpus ≤ logLik o (o.theta (T (i + 1))) corpus) ∧
      (∀ i < k, ∀ e f, Cooccur o corpus e f → o.theta (T (i + 1)) e f =
        expCount o (o.theta (T i)) corpus e f / ∑ f' ∈ targets corpus, expCount o (o.theta (T i)) corpus e f') ∧
      List.Forall₂ (GoodLinks o (o.theta (T k))) corpus al := by
  obtain ⟨T, al, r0, r1, r2, r3, r4⟩ := train_spec ok k {} rfl (theta_init ok hne hsize)
  refine ⟨T, al, r0, r3, ?_, ?_, r4⟩
  · intro i hi
    exact em_monotone ok (r2 i (by omega)) (r1 i hi).2
  · intro i hi
    exact (r1 i hi).2.mstep

/-- C84, alone for an iteration on any table whose probabilities are positive and sum to at most one: it ends, and the new
likelihood is at least the old one. -/
theorem C84_iteration (ok : o.Ok) (t : TTable ℝ) (hc : t.counts = []) (h : Theta o corpus (o.theta t)) :
    ∃ t', o.emStep corpus t = some (t', logLik o (o.theta t) corpus) ∧ Theta o corpus (o.theta t') ∧
      logLik o (o.theta t) corpus ≤ logLik o (o.theta t') corpus := by
  obtain ⟨t', h1, _, h3⟩ := emStep_spec ok hc h.pos
  exact ⟨t', h1, h.step ok h3, em_monotone ok h h3⟩

/-- C84, aligning a test set.  With the same table and positive probabilities, a target word gets the same link as in
training. -/
theorem C84_test (ok : o.Ok) (t : TTable ℝ) {s : Pair} (h : PosOn o (o.theta t) s) {j : Nat} (hj : j < s.2.length) :
    ∃ ps, o.probs t s j (s.2.getD j 0) = some ps ∧ o.testLink ps j = o.link ps j ∧
      ∃ a, BestPlace o (o.theta t) s j a ∧ o.link ps j = if a = 0 then [] else [(a - 1, j)] := by
  refine ⟨_, probs_eq ok t h.1 hj, testLink_eq ok h hj, ?_⟩
  obtain ⟨a, ha, e⟩ := bestCell_spec ok h hj
  refine ⟨a, ha, ?_⟩
  unfold FaOpts.link
  rw [e]
  by_cases hz : a = 0
  · simp [hz]
  · simp [hz, Nat.pos_of_ne_zero hz]

/-- An empty side stops training. -/
theorem C84_empty (s : Pair) (hs : s.1 = [] ∨ s.2 = []) (rest : List Pair) (k : Nat)
    (t : TTable ℝ) : o.train (s :: rest) (k + 1) t = none := by
  cases k with
  | zero => rw [FaOpts.train, List.foldlM_cons, FaOpts.finalPair, if_pos hs]; rfl
  | succ k => rw [FaOpts.train, FaOpts.emStep, List.foldlM_cons, FaOpts.pair, if_pos hs]; rfl

/-- The default options with the diagonal prior, two pairs. -/
example : ∃ o : FaOpts, o.Ok ∧ o.favorDiagonal = true ∧
    (∀ s ∈ ([([1, 2], [3]), ([2], [3, 4, 4])] : List Pair), s.1 ≠ [] ∧ s.2 ≠ []) ∧
    (((([([1, 2], [3]), ([2], [3, 4, 4])] : List Pair).flatMap Prod.snd).length : ℝ) * o.eps ≤ 1) := by
  refine ⟨⟨true, 0, true, 0.08, 4, 1e-9⟩, ⟨fun _ => ⟨?_, ?_, ?_⟩, ?_⟩, rfl, by decide, ?_⟩ <;> norm_num

end Cdec.Align
