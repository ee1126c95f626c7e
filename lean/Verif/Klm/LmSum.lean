import Verif.Klm.LmModel
/-!
The probabilities of a model sum to one.
-/
namespace Cdec.Klm.Builder

/-- The entry of a model for some words. -/
def LmSpec.lookup (out : Nat → List OutRec) (g : Gram) : Option OutRec := (out (g.length - 1)).find? fun r => r.words = g

/-- The probability of a word after some words, as an ARPA file is read: that of the longest n-gram in the model, times the
back-offs of the contexts that were too long. -/
def LmSpec.query (out : Nat → List OutRec) : List Nat → Nat → Rat
  | [], w => ((LmSpec.lookup out [w]).map (·.prob)).getD 0
  | x :: h, w =>
    match LmSpec.lookup out (x :: h ++ [w]) with
    | some r => r.prob
    | none => ((LmSpec.lookup out (x :: h)).map (·.backoff)).getD 1 * LmSpec.query out h w

open LmSpec

section
variable {N : Nat} {interp : Bool} {prune : Nat → Nat} {d : Nat → Discount} {A ctx : Nat → List AdjRec} {suf : Nat → List UnRec}

theorem sum_filter_zero {α : Type} (f : α → Rat) (p : α → Bool) (l : List α) (h : ∀ r ∈ l, p r = false → f r = 0) :
    ((l.filter p).map f).sum = (l.map f).sum := by
  induction l with
  | nil => rfl
  | cons x xs ih =>
    have ih := ih fun r hr => h r (by simp [hr])
    by_cases hp : p x = true
    · rw [List.filter_cons_of_pos hp, List.map_cons, List.map_cons, List.sum_cons, List.sum_cons, ih]
    · rw [List.filter_cons_of_neg hp, List.map_cons, List.sum_cons, ih, h x (by simp) (by simpa using hp), zero_add]

/-- The unigrams without `<s>`. -/
def noBosRecs (A0 : List AdjRec) : List AdjRec := A0.filter fun r => decide (r.words ≠ [kBOS])

/-- The last word of a record. -/
def lastWord (r : AdjRec) : Nat := r.words.getLast?.getD 0

theorem vocab_perm (hN : 1 ≤ N) (hA : AdjCons N prune A) {V : List Nat} (hV : V.Nodup)
    (hm : ∀ w, w ∈ V ↔ w ≠ kBOS ∧ ∃ r ∈ A 0, r.words = [w]) : V.Perm ((noBosRecs (A 0)).map lastWord) := by
  have hw : ∀ r ∈ A 0, r.words = [lastWord r] := by
    intro r hr
    have := hA.len 0 hN r hr
    unfold lastWord
    cases hx : r.words with
    | nil => rw [hx] at this; simp at this
    | cons x xs => rw [hx] at this; simp at this; subst this; simp
  refine (List.perm_ext_iff_of_nodup hV ?_).2 ?_
  · have h1 := (hA.nodup 0 hN).sublist ((List.filter_sublist (p := fun r => decide (r.words ≠ [kBOS])) (l := A 0)).map (·.words))
    rw [List.Nodup, List.pairwise_map] at h1 ⊢
    refine List.Pairwise.imp_of_mem ?_ h1
    intro a b ha hb hne e
    apply hne
    rw [hw a (List.mem_filter.1 ha).1, hw b (List.mem_filter.1 hb).1, e]
  · intro w
    rw [hm, List.mem_map]
    constructor
    · rintro ⟨h1, r, hr, h2⟩
      refine ⟨r, List.mem_filter.2 ⟨hr, ?_⟩, ?_⟩
      · simp [h2, h1]
      · unfold lastWord; rw [h2]; simp
    · rintro ⟨r, hr, rfl⟩
      obtain ⟨hr, hb⟩ := List.mem_filter.1 hr
      refine ⟨?_, r, hr, hw r hr⟩
      intro e
      have := hw r hr
      rw [e] at this
      simp [this] at hb

theorem noBos_length (hN : 1 ≤ N) (hA : AdjCons N prune A) : (noBosRecs (A 0)).length = (A 0).length - 1 ∧ 2 ≤ (A 0).length := by
  have h1 := List.length_eq_countP_add_countP (l := A 0) (fun r => decide (r.words ≠ [kBOS]))
  have h2 : (A 0).countP (fun r => decide ¬ (decide (r.words ≠ [kBOS]) = true)) = 1 := by
    have : ((A 0).map (·.words)).count [kBOS] = 1 := by
      refine List.count_eq_one_of_mem (hA.nodup 0 hN) ?_
      exact List.mem_map.2 ⟨_, hA.bos, rfl⟩
    rw [← this]
    unfold List.count
    rw [List.countP_map]
    congr 1
    funext r
    rw [Bool.eq_iff_iff]
    simp
  rw [h2, List.countP_eq_length_filter] at h1
  refine ⟨?_, ?_⟩
  · unfold noBosRecs; omega
  · obtain ⟨rs, hrs⟩ := hA.unk
    have hb := hA.bos
    rw [hrs] at hb ⊢
    rcases List.mem_cons.1 hb with h | h
    · simp [kBOS, kUNK] at h
    · have := List.length_pos_of_mem h
      simp; omega

/-- What a unigram gets in addition to its discounted count. -/
def uniExtra (interp : Bool) (γ u : Rat) (r : AdjRec) : Rat := if interp then γ * u else if r.words = [kUNK] then γ else 0

theorem withCtx_nil (hA : AdjCons N prune A) (hN : 1 ≤ N) : withCtx (A 0) [] = A 0 := by
  unfold withCtx
  refine List.filter_eq_self.2 fun r hr => ?_
  have := hA.len 0 hN r hr
  unfold AdjRec.context
  cases hx : r.words with
  | nil => simp
  | cons x xs => rw [hx] at this; simp at this; subst this; simp

theorem ctx_nil (hA : AdjCons N prune A) (hN : 1 ≤ N) {r : AdjRec} (hr : r ∈ A 0) : r.context = [] := by
  have := hA.len 0 hN r hr
  unfold AdjRec.context
  cases hx : r.words with
  | nil => simp
  | cons x xs => rw [hx] at this; simp at this; subst this; simp

theorem prob_uni (hN : 1 ≤ N) (hA : AdjCons N prune A) (hE : EstRun N interp d A ctx suf) (hd : (d 0).amount 0 = 0) (u : Rat)
    {r : AdjRec} (hr : r ∈ A 0) :
    interpProb suf u r.words =
      (d 0).apply r.count / denOf (A 0) [] + uniExtra interp (gammaOf (d 0) (A 0) []) u r := by
  have hJ := jointInput hA hE
  have htail : r.words.tail = [] := by
    have := hA.len 0 hN r hr
    cases hx : r.words with
    | nil => rfl
    | cons x xs => rw [hx] at this; simp at this; simp [this]
  cases hi : interp with
  | true =>
    rw [hi] at hE
    have hmem : (⟨r.words, (d 0).apply r.count / denOf (A 0) r.context, gammaOf (d 0) (A 0) r.context⟩ : UnRec) ∈ suf 0 := by
      rw [hE.suf0, mergeRight_eq (hE.ctxSorted hA hN) true (d 0) 0 (by simp), hE.ctx0]
      exact List.mem_map.2 ⟨r, List.mem_filter.2 ⟨hr, (hA.keep_iff hN hr).2 (hA.uni r hr)⟩, rfl⟩
    have := interpProb_eq hJ u hN hmem
    simp only at this
    rw [this, htail, ctx_nil hA hN hr]
    unfold uniExtra
    rw [if_pos rfl]
    rfl
  | false =>
    rw [hi] at hE
    obtain ⟨rs, hrs⟩ := hA.unk
    have hs := ctxGroups_spec (A 0) (hE.ctx0 ▸ hE.ctxSorted hA hN)
    cases hg : ctxGroups (A 0) with
    | nil => rw [hg, hrs] at hs; simp at hs
    | cons G gs =>
      have hGm : G ∈ ctxGroups (A 0) := by rw [hg]; simp
      have hG : withCtx (A 0) (headCtx G) = G := withCtx_of_mem (hE.ctx0 ▸ hE.ctxSorted hA hN) hGm
      have hGc : headCtx G = [] := by
        obtain ⟨hne, hc⟩ := hs.2.1 G hGm
        obtain ⟨q, qs, rfl⟩ := List.exists_cons_of_ne_nil hne
        have hq : q ∈ A 0 := by rw [← hs.1, hg]; simp
        rw [← hc q (by simp)]
        exact ctx_nil hA hN hq
      rw [hGc] at hG
      have hsuf : suf 0 = ⟨[kUNK], gammaOf (d 0) (A 0) [], 0⟩ ::
          rs.map fun q => ⟨q.words, (d 0).apply q.count / denOf (A 0) [], 0⟩ := by
        rw [hE.suf0, hE.ctx0]
        unfold mergeRight
        rw [if_pos ⟨rfl, rfl⟩]
        unfold addRight
        rw [hg]
        unfold gammaOf denOf
        rw [hG]
        rw [hrs]
        rfl
      have hnd := hA.nodup 0 hN
      rw [hrs] at hr hnd
      simp only [List.map_cons, List.nodup_cons] at hnd
      unfold uniExtra
      simp only [Bool.false_eq_true, if_false]
      rcases List.mem_cons.1 hr with rfl | hr
      · have hmem : (⟨[kUNK], gammaOf (d 0) (A 0) [], 0⟩ : UnRec) ∈ suf 0 := by rw [hsuf]; simp
        have := interpProb_eq hJ u hN hmem
        simp only at this ⊢
        rw [this]
        have h0 : (d 0).apply 0 = 0 := by unfold Discount.apply Discount.get; simp [hd]
        rw [h0]
        simp
      · have hmem : (⟨r.words, (d 0).apply r.count / denOf (A 0) [], 0⟩ : UnRec) ∈ suf 0 := by
          rw [hsuf]
          exact List.mem_cons_of_mem _ (List.mem_map.2 ⟨r, hr, rfl⟩)
        have := interpProb_eq hJ u hN hmem
        simp only at this
        rw [this, if_neg]
        · simp
        · intro e
          exact hnd.1 (List.mem_map.2 ⟨r, hr, e⟩)

theorem den_uni (hA : AdjCons N prune A) (hN : 1 ≤ N) : denOf (A 0) [] ≠ 0 := by
  unfold denOf
  rw [withCtx_nil hA hN]
  have := hA.total
  exact_mod_cast (by omega : ((A 0).map (·.count)).sum ≠ 0)

theorem den_nonneg (recs : List AdjRec) (h : Gram) : 0 ≤ denOf recs h := by unfold denOf; exact_mod_cast Nat.zero_le _

theorem gamma_nonneg {dd : Discount} (hd : DiscountOk dd) (recs : List AdjRec) (h : Gram) : 0 ≤ gammaOf dd recs h := by
  rw [gammaOf_eq hd.zero]
  refine div_nonneg (List.sum_nonneg ?_) (den_nonneg _ _)
  intro x hx
  obtain ⟨r, _, rfl⟩ := List.mem_map.1 hx
  unfold toBackoff
  split
  · exact_mod_cast Nat.zero_le _
  · exact hd.get_nonneg _

/-- The uniform probability, which unigrams back off to. -/
def uniform (A : Nat → List AdjRec) : Rat := 1 / (((A 0).length - 1 : Nat) : Rat)

theorem uni_sum (hN : 1 ≤ N) (hA : AdjCons N prune A) (hE : EstRun N interp d A ctx suf) (hd : (d 0).amount 0 = 0)
    {V : List Nat} (hV : V.Nodup) (hm : ∀ w, w ∈ V ↔ w ≠ kBOS ∧ ∃ r ∈ A 0, r.words = [w]) :
    (V.map fun w => interpProb suf (uniform A) [w]).sum = 1 := by
  rw [((vocab_perm hN hA hV hm).map _).sum_eq, List.map_map]
  have hw : ∀ r ∈ A 0, [lastWord r] = r.words := by
    intro r hr
    have := hA.len 0 hN r hr
    unfold lastWord
    cases hx : r.words with
    | nil => rw [hx] at this; simp at this
    | cons x xs => rw [hx] at this; simp at this; subst this; simp
  have h1 : (noBosRecs (A 0)).map ((fun w => interpProb suf (uniform A) [w]) ∘ lastWord) =
      (noBosRecs (A 0)).map fun r => (d 0).apply r.count / denOf (A 0) [] + uniExtra interp (gammaOf (d 0) (A 0) []) (uniform A) r := by
    apply List.map_congr_left
    intro r hr
    have hr := (List.mem_filter.1 hr).1
    simp only [Function.comp]
    rw [hw r hr]
    exact prob_uni hN hA hE hd _ hr
  rw [h1, List.sum_map_add]
  have hmass := mass_eq (d := d 0) hd (den_uni hA hN) (fun r hr _ => hA.uni r hr)
  rw [withCtx_nil hA hN, List.filter_eq_self.2 fun r hr => (hA.keep_iff hN hr).2 (hA.uni r hr)] at hmass
  have hbos : ∀ r ∈ A 0, decide (r.words ≠ [kBOS]) = false → r = ⟨[kBOS], 0, false⟩ := by
    intro r hr hb
    have hb : r.words = [kBOS] := by simpa using hb
    have := hA.sorted0
    by_contra hne
    have hsym := List.Pairwise.forall_of_forall_of_flip (R := fun a b : AdjRec => a = b ∨ a.words ≠ b.words) (l := A 0)
      (fun x _ => Or.inl rfl) (this.imp fun h => Or.inr fun e => by simp [e] at h)
      (this.imp fun {a b} h => Or.inr fun e => by simp [e] at h)
    rcases hsym hr hA.bos with h | h
    · exact hne h
    · exact h hb
  have hap : (d 0).apply 0 = 0 := by unfold Discount.apply Discount.get; simp [hd]
  have hs1 : ((noBosRecs (A 0)).map fun r => (d 0).apply r.count / denOf (A 0) []).sum =
      ((A 0).map fun r => (d 0).apply r.count / denOf (A 0) []).sum := by
    refine sum_filter_zero _ _ _ ?_
    intro r hr hb
    rw [hbos r hr hb]
    simp [hap]
  have hs2 : ((noBosRecs (A 0)).map (uniExtra interp (gammaOf (d 0) (A 0) []) (uniform A))).sum = gammaOf (d 0) (A 0) [] := by
    cases hi : interp with
    | true =>
      obtain ⟨hl, h2⟩ := noBos_length hN hA
      have : (noBosRecs (A 0)).map (uniExtra true (gammaOf (d 0) (A 0) []) (uniform A)) =
          (noBosRecs (A 0)).map fun _ => gammaOf (d 0) (A 0) [] * uniform A := List.map_congr_left fun r _ => rfl
      rw [this, List.map_const', List.sum_replicate, hl, nsmul_eq_mul]
      unfold uniform
      have : (((A 0).length - 1 : Nat) : Rat) ≠ 0 := by exact_mod_cast (by omega : (A 0).length - 1 ≠ 0)
      field_simp
    | false =>
      unfold noBosRecs
      rw [sum_filter_zero]
      · obtain ⟨rs, hrs⟩ := hA.unk
        have hnd := hA.nodup 0 hN
        rw [hrs] at hnd
        simp only [List.map_cons, List.nodup_cons] at hnd
        obtain ⟨γ, hγ⟩ : ∃ γ, γ = gammaOf (d 0) (A 0) [] := ⟨_, rfl⟩
        rw [← hγ, hrs, List.map_cons, List.sum_cons]
        have hz : (rs.map (uniExtra false γ (uniform A))).sum = 0 := by
          refine List.sum_eq_zero ?_
          intro x hx
          obtain ⟨r, hr, rfl⟩ := List.mem_map.1 hx
          unfold uniExtra
          simp only [Bool.false_eq_true, if_false]
          rw [if_neg]
          intro e
          exact hnd.1 (List.mem_map.2 ⟨r, hr, e⟩)
        rw [hz]
        simp [uniExtra]
      · intro r hr hb
        rw [hbos r hr hb]
        simp [uniExtra, kBOS, kUNK]
  have hs2' : ((noBosRecs (A 0)).map fun r => uniExtra interp (gammaOf (d 0) (A 0) []) (uniform A) r).sum = gammaOf (d 0) (A 0) [] := hs2
  rw [hs1, hs2']
  exact hmass

theorem den_pos (hA : AdjCons N prune A) (hE : EstRun N interp d A ctx suf) {i : Nat} (hi : i < N) (h1 : 1 ≤ i) {q : AdjRec}
    (hq : q ∈ A i) : denOf (ctx i) q.context ≠ 0 := by
  unfold denOf
  have hm : q ∈ withCtx (ctx i) q.context := List.mem_filter.2 ⟨(hE.mem hi q).2 hq, by simp⟩
  have h0 := hA.pos i h1 hi q hq
  have : q.count ≤ ((withCtx (ctx i) q.context).map (·.count)).sum :=
    List.le_sum_of_mem (List.mem_map.2 ⟨q, hm, rfl⟩)
  exact_mod_cast (by omega : ((withCtx (ctx i) q.context).map (·.count)).sum ≠ 0)

/-- The probability of a longer n-gram. -/
theorem prob_step (hA : AdjCons N prune A) (hE : EstRun N interp d A ctx suf) (u : Rat) {i : Nat} (hi : i < N) (h1 : 1 ≤ i)
    {r : AdjRec} (hr : r ∈ A i) (hk : r.marked = false) :
    interpProb suf u r.words = (d i).apply r.count / denOf (ctx i) r.context +
      gammaOf (d i) (ctx i) r.context * interpProb suf u r.words.tail := by
  have hmem : (⟨r.words, (d i).apply r.count / denOf (ctx i) r.context, gammaOf (d i) (ctx i) r.context⟩ : UnRec) ∈ suf i := by
    rw [(hE.perm hi).mem_iff, mergeRight_eq (hE.ctxSorted hA hi) interp (d i) i (by omega)]
    exact List.mem_map.2 ⟨r, List.mem_filter.2 ⟨(hE.mem hi r).2 hr, (hA.keep_iff hi hr).2 hk⟩, rfl⟩
  exact interpProb_eq (jointInput hA hE) u hi hmem

theorem prob_range (hN : 1 ≤ N) (hA : AdjCons N prune A) (hE : EstRun N interp d A ctx suf) (hd : ∀ i < N, DiscountOk (d i)) :
    ∀ i, i < N → ∀ r ∈ A i, r.marked = false → r.words ≠ [kBOS] →
      0 ≤ interpProb suf (uniform A) r.words ∧ interpProb suf (uniform A) r.words ≤ 1 := by
  intro i
  induction i with
  | zero =>
    intro _ r hr _ hb
    have hnn : ∀ q ∈ A 0, 0 ≤ interpProb suf (uniform A) q.words := by
      intro q hq
      rw [prob_uni hN hA hE (hd 0 hN).zero _ hq]
      have g0 := gamma_nonneg (hd 0 hN) (A 0) []
      refine add_nonneg (div_nonneg ((hd 0 hN).apply_nonneg _) (den_nonneg _ _)) ?_
      unfold uniExtra uniform
      split
      · exact mul_nonneg g0 (div_nonneg zero_le_one (by exact_mod_cast Nat.zero_le _))
      · split
        · exact g0
        · exact le_refl _
    refine ⟨hnn r hr, ?_⟩
    have hw : ∀ q ∈ A 0, q.words = [lastWord q] := by
      intro r hr
      have := hA.len 0 hN r hr
      unfold lastWord
      cases hx : r.words with
      | nil => rw [hx] at this; simp at this
      | cons x xs => rw [hx] at this; simp at this; subst this; simp
    obtain ⟨V, hV⟩ : ∃ V, V = (noBosRecs (A 0)).map lastWord := ⟨_, rfl⟩
    have hVn : V.Nodup := by
      have h1 := (hA.nodup 0 hN).sublist ((List.filter_sublist (p := fun r => decide (r.words ≠ [kBOS])) (l := A 0)).map (·.words))
      rw [hV, List.Nodup, List.pairwise_map]
      rw [List.Nodup, List.pairwise_map] at h1
      refine List.Pairwise.imp_of_mem ?_ h1
      intro a b ha hb hne e
      apply hne
      rw [hw a (List.mem_filter.1 ha).1, hw b (List.mem_filter.1 hb).1, e]
    have hVm : ∀ w, w ∈ V ↔ w ≠ kBOS ∧ ∃ r ∈ A 0, r.words = [w] := by
      intro w
      rw [hV, List.mem_map]
      constructor
      · rintro ⟨r, hr, rfl⟩
        obtain ⟨hr, hb⟩ := List.mem_filter.1 hr
        refine ⟨?_, r, hr, hw r hr⟩
        intro e
        have := hw r hr
        rw [e] at this
        simp [this] at hb
      · rintro ⟨h1, r, hr, h2⟩
        refine ⟨r, List.mem_filter.2 ⟨hr, ?_⟩, ?_⟩
        · simp [h2, h1]
        · unfold lastWord; rw [h2]; simp
    have hs := uni_sum hN hA hE (hd 0 hN).zero hVn hVm
    rw [← hs, hw r hr]
    refine List.single_le_sum ?_ _ (List.mem_map.2 ⟨lastWord r, ?_, rfl⟩)
    · intro x hx
      obtain ⟨w, hw', rfl⟩ := List.mem_map.1 hx
      obtain ⟨_, q, hq, hqw⟩ := (hVm w).1 hw'
      rw [← hqw]; exact hnn q hq
    · rw [hV]
      exact List.mem_map.2 ⟨r, List.mem_filter.2 ⟨hr, by simpa using hb⟩, rfl⟩
  | succ i ih =>
    intro hi r hr hk _
    obtain ⟨q, hq, hqk, hqw⟩ := hA.suffix i hi r hr hk
    have hqb : q.words ≠ [kBOS] := by
      intro e
      have := hA.noBos (i + 1) (by omega) hi r hr
      apply this
      rw [e] at hqw
      have hl := hA.len (i + 1) hi r hr
      cases hx : r.words with
      | nil => rw [hx] at hl; simp at hl
      | cons x xs => rw [hx] at hqw; simp at hqw; rw [← hqw]; simp
    obtain ⟨p1, p2⟩ := ih (by omega) q hq hqk hqb
    rw [prob_step hA hE _ hi (by omega) hr hk, ← hqw]
    have hdk := hd (i + 1) hi
    have g0 := gamma_nonneg hdk (ctx (i + 1)) r.context
    have a0 : 0 ≤ (d (i + 1)).apply r.count / denOf (ctx (i + 1)) r.context := div_nonneg (hdk.apply_nonneg _) (den_nonneg _ _)
    refine ⟨add_nonneg a0 (mul_nonneg g0 p1), ?_⟩
    have hmass := mass_eq (d := d (i + 1)) hdk.zero (den_pos hA hE hi (by omega) hr)
      (fun q hq hkq => (hA.keep_iff hi ((hE.mem hi q).1 hq)).1 hkq)
    have hle : (d (i + 1)).apply r.count / denOf (ctx (i + 1)) r.context ≤
        (((withCtx (ctx (i + 1)) r.context).filter (·.keep)).map fun q => (d (i + 1)).apply q.count / denOf (ctx (i + 1)) r.context).sum := by
      refine List.single_le_sum ?_ _ (List.mem_map.2 ⟨r, List.mem_filter.2 ⟨List.mem_filter.2 ⟨(hE.mem hi r).2 hr, by simp⟩, (hA.keep_iff hi hr).2 hk⟩, rfl⟩)
      intro x hx
      obtain ⟨q, _, rfl⟩ := List.mem_map.1 hx
      exact div_nonneg (hdk.apply_nonneg _) (den_nonneg _ _)
    have := mul_le_of_le_one_right g0 p2
    linarith

theorem lookup_some (hA : AdjCons N prune A) (hE : EstRun N interp d A ctx suf) {out : Nat → List OutRec} {u : Rat}
    (ho : ∀ i < N, out i = (suf i).map (outOf N suf (csOf d ctx) u i)) {i : Nat} (hi : i < N) {r : AdjRec} (hr : r ∈ A i)
    (hk : r.marked = false) :
    lookup out r.words = some ⟨r.words, min 1 (interpProb suf u r.words), backoffOf N (csOf d ctx) i r.words⟩ := by
  unfold lookup
  rw [hA.len i hi r hr, Nat.add_sub_cancel, ho i hi, List.find?_map]
  obtain ⟨v, hv, hvw⟩ := List.mem_map.1 ((mem_suf hA hE hi r.words).2 ⟨r, hr, hk, rfl⟩)
  have := find_unique (suf_sorted hA hE hi) hv
  rw [hvw] at this
  have e : ((fun q : OutRec => decide (q.words = r.words)) ∘ outOf N suf (csOf d ctx) u i) = fun q => decide (q.words = r.words) := rfl
  rw [e, this]
  simp [outOf, hvw]

theorem lookup_none (hA : AdjCons N prune A) (hE : EstRun N interp d A ctx suf) {out : Nat → List OutRec} {u : Rat}
    (ho : ∀ i < N, out i = (suf i).map (outOf N suf (csOf d ctx) u i)) {i : Nat} (hi : i < N) {g : Gram} (hl : g.length = i + 1)
    (hk : ¬ ∃ r ∈ A i, r.marked = false ∧ r.words = g) : lookup out g = none := by
  unfold lookup
  rw [hl, Nat.add_sub_cancel, ho i hi, List.find?_map]
  rw [← mem_suf hA hE hi] at hk
  rw [List.find?_eq_none.2]
  · rfl
  · intro x hx
    simp only [Function.comp, outOf, decide_eq_true_eq]
    intro e
    exact hk (List.mem_map.2 ⟨x, hx, of_decide_eq_true e⟩)

theorem query_eq (hN : 1 ≤ N) (hA : AdjCons N prune A) (hE : EstRun N interp d A ctx suf) (hd : ∀ i < N, DiscountOk (d i))
    {out : Nat → List OutRec} (ho : ∀ i < N, out i = (suf i).map (outOf N suf (csOf d ctx) (uniform A) i)) {h : Gram} {w : Nat}
    (hi : h.length < N) {r : AdjRec} (hr : r ∈ A h.length) (hk : r.marked = false) (hw : r.words = h ++ [w]) (hb : w ≠ kBOS) :
    query out h w = interpProb suf (uniform A) r.words := by
  have hrange := prob_range hN hA hE hd _ hi r hr hk (by
    rw [hw]
    intro e
    cases h with
    | nil => simp at e; exact hb e
    | cons x xs => simp at e)
  have hl := lookup_some hA hE ho hi hr hk
  rw [hw] at hl
  cases h with
  | nil =>
    rw [query]
    rw [List.nil_append] at hl
    rw [hl, ← List.nil_append [w], ← hw]
    simp [hrange.2]
  | cons x xs =>
    rw [query, hl, ← hw]
    simp [hrange.2]

/-- After every context of fewer than `N` words the probabilities of the words of the vocabulary sum to one. -/
theorem query_sum (hN : 1 ≤ N) (hA : AdjCons N prune A) (hE : EstRun N interp d A ctx suf) (hd : ∀ i < N, DiscountOk (d i))
    {out : Nat → List OutRec} (ho : ∀ i < N, out i = (suf i).map (outOf N suf (csOf d ctx) (uniform A) i))
    {V : List Nat} (hV : V.Nodup) (hm : ∀ w, w ∈ V ↔ w ≠ kBOS ∧ ∃ r ∈ A 0, r.words = [w]) :
    ∀ h : Gram, h.length < N → (V.map (query out h)).sum = 1 := by
  intro h
  induction h with
  | nil =>
    intro _
    rw [← uni_sum hN hA hE (hd 0 hN).zero hV hm]
    congr 1
    apply List.map_congr_left
    intro w hw
    obtain ⟨hb, r, hr, hrw⟩ := (hm w).1 hw
    rw [query_eq hN hA hE hd ho (h := []) hN hr (hA.uni r hr) hrw hb, hrw]
  | cons x h ih =>
    intro hl
    have hl : h.length + 1 < N := by simpa using hl
    have ih := ih (by omega)
    have hq : ∀ w, query out (x :: h) w = match lookup out (x :: h ++ [w]) with
        | some r => r.prob
        | none => ((lookup out (x :: h)).map (·.backoff)).getD 1 * query out h w := fun w => rfl
    by_cases hctx : ∃ q ∈ A (h.length + 1), q.context = x :: h
    · -- some longer n-gram begins with the context
      obtain ⟨q, hqA, hqc⟩ := hctx
      have hden := den_pos hA hE hl (by omega) hqA
      rw [hqc] at hden
      have hkeepm : ∀ r ∈ ctx (h.length + 1), r.keep = true → r.marked = false :=
        fun r hr hk => (hA.keep_iff hl ((hE.mem hl r).1 hr)).1 hk
      have hmass := mass_eq (d := d (h.length + 1)) (hd _ hl).zero hden hkeepm
      obtain ⟨γ, hγ⟩ : ∃ γ, γ = gammaOf (d (h.length + 1)) (ctx (h.length + 1)) (x :: h) := ⟨_, rfl⟩
      obtain ⟨K, hK⟩ : ∃ K, K = (withCtx (ctx (h.length + 1)) (x :: h)).filter (·.keep) := ⟨_, rfl⟩
      rw [← hγ, ← hK] at hmass
      have hKm : ∀ r ∈ K, r ∈ A (h.length + 1) ∧ r.marked = false ∧ r.words = x :: h ++ [lastWord r] := by
        intro r hr
        rw [hK] at hr
        obtain ⟨hr1, hr2⟩ := List.mem_filter.1 hr
        obtain ⟨hr1, hr3⟩ := List.mem_filter.1 hr1
        have hrA := (hE.mem hl r).1 hr1
        refine ⟨hrA, hkeepm r hr1 hr2, ?_⟩
        have hr3 : r.words.dropLast = x :: h := of_decide_eq_true hr3
        have hne : r.words ≠ [] := by
          intro e
          have := hA.len _ hl r hrA
          rw [e] at this; simp at this
        unfold lastWord
        rw [List.getLast?_eq_some_getLast hne, Option.getD_some, ← hr3, List.dropLast_concat_getLast hne]
      -- the back-off of the context is γ
      have hback : ((lookup out (x :: h)).map (·.backoff)).getD 1 = γ := by
        by_cases hin : ∃ r ∈ A h.length, r.marked = false ∧ r.words = x :: h
        · obtain ⟨r, hr, hrk, hrw⟩ := hin
          rw [← hrw, lookup_some hA hE ho (by omega) hr hrk]
          simp only [Option.map_some, Option.getD_some]
          unfold backoffOf
          have hic := hA.ctxOnly _ hl q hqA
          rw [hrw, ← hqc, if_pos hic, findBackoff_csOf hA hE hl ⟨q, hqA, rfl⟩, hγ, hqc]
        · rw [lookup_none hA hE ho (i := h.length) (by omega) (by simp) hin]
          have hKn : K = [] := by
            cases hKc : K with
            | nil => rfl
            | cons r rs =>
              exfalso
              obtain ⟨h1, h2, h3⟩ := hKm r (by simp [hKc])
              obtain ⟨q', hq', hqk', hqw'⟩ := hA.prefix' _ hl r h1 h2
              exact hin ⟨q', hq', hqk', by rw [hqw', h3, List.dropLast_concat]⟩
          rw [hKn] at hmass
          simp at hmass
          simp [hmass]
      -- every word: backed off, plus what its n-gram has
      have hdiff : ∀ w ∈ V, ¬ (w ∈ K.map lastWord) → query out (x :: h) w - γ * query out h w = 0 := by
        intro w _ hnw
        rw [hq w, lookup_none hA hE ho (i := h.length + 1) hl (by simp), hback, sub_self]
        rintro ⟨r, hr, hrk, hrw⟩
        apply hnw
        refine List.mem_map.2 ⟨r, ?_, ?_⟩
        · rw [hK]
          refine List.mem_filter.2 ⟨List.mem_filter.2 ⟨(hE.mem hl r).2 hr, ?_⟩, (hA.keep_iff hl hr).2 hrk⟩
          unfold AdjRec.context
          rw [hrw, List.dropLast_concat]
          simp
        · unfold lastWord
          rw [hrw, List.getLast?_concat]; rfl
      have hvoc : ∀ r ∈ K, lastWord r ∈ V := by
        intro r hr
        obtain ⟨h1, h2, h3⟩ := hKm r hr
        rw [hm]
        refine ⟨?_, ?_⟩
        · intro e
          refine hA.noBos _ (by omega) hl r h1 ?_
          rw [h3, e, List.getLast?_concat]
        · -- the last word of an n-gram is a unigram
          have aux : ∀ i, i < N → ∀ r ∈ A i, r.marked = false → ∀ w, r.words.getLast? = some w → ∃ r ∈ A 0, r.words = [w] := by
            intro i
            induction i with
            | zero =>
              intro h0 r hr _ w hw
              refine ⟨r, hr, ?_⟩
              have := hA.len 0 h0 r hr
              cases hx : r.words with
              | nil => rw [hx] at this; simp at this
              | cons y ys => rw [hx] at this hw; simp at this; subst this; simp at hw; rw [hw]
            | succ i ihi =>
              intro hi r hr hrk w hw
              obtain ⟨q', hq', hqk', hqw'⟩ := hA.suffix i hi r hr hrk
              refine ihi (by omega) q' hq' hqk' w ?_
              have := hA.len (i + 1) hi r hr
              rw [hqw', ← hw]
              cases hx : r.words with
              | nil => rfl
              | cons y ys =>
                cases ys with
                | nil => rw [hx] at this; simp at this
                | cons z zs => simp
          exact aux _ hl r h1 h2 _ (by rw [h3, List.getLast?_concat])
      have hKnd : (K.map lastWord).Nodup := by
        have h1 : (K.map (·.words)).Nodup := by
          rw [hK]
          exact (ctx_nodup hA hE hl).sublist ((List.filter_sublist.trans List.filter_sublist).map _)
        rw [List.Nodup, List.pairwise_map] at h1 ⊢
        refine List.Pairwise.imp_of_mem ?_ h1
        intro a b ha hb hne e
        apply hne
        rw [(hKm a ha).2.2, (hKm b hb).2.2, e]
      have hperm : (V.filter fun w => decide (w ∈ K.map lastWord)).Perm (K.map lastWord) := by
        refine (List.perm_ext_iff_of_nodup (hV.filter _) hKnd).2 fun w => ?_
        rw [List.mem_filter, decide_eq_true_eq]
        refine ⟨fun h => h.2, fun h => ⟨?_, h⟩⟩
        obtain ⟨r, hr, rfl⟩ := List.mem_map.1 h
        exact hvoc r hr
      have hval : ∀ r ∈ K, query out (x :: h) (lastWord r) - γ * query out h (lastWord r) =
          (d (h.length + 1)).apply r.count / denOf (ctx (h.length + 1)) (x :: h) := by
        intro r hr
        obtain ⟨h1, h2, h3⟩ := hKm r hr
        have hb := ((hm _).1 (hvoc r hr)).1
        obtain ⟨q', hq', hqk', hqw'⟩ := hA.suffix _ hl r h1 h2
        have e1 := query_eq hN hA hE hd ho (h := x :: h) (by simpa using hl) (r := r) (by simpa using h1) h2 h3 hb
        have e2 := query_eq hN hA hE hd ho (h := h) (w := lastWord r) (by omega) hq' hqk' (by rw [hqw', h3]; simp) hb
        have hc : r.context = x :: h := by unfold AdjRec.context; rw [h3, List.dropLast_concat]
        rw [e1, e2, prob_step hA hE _ hl (by omega) h1 h2, hqw', hc, ← hγ]
        ring
      have hsplit : (V.map (query out (x :: h))).sum =
          (V.map fun w => γ * query out h w).sum + (V.map fun w => query out (x :: h) w - γ * query out h w).sum := by
        rw [← List.sum_map_add]
        congr 1
        apply List.map_congr_left
        intro w _
        ring
      rw [hsplit, List.sum_map_mul_left, ih, mul_one]
      rw [← sum_filter_zero _ (fun w => decide (w ∈ K.map lastWord)) V (fun w hw hd => hdiff w hw (by simpa using hd))]
      rw [(hperm.map _).sum_eq, List.map_map, add_comm]
      have e3 : K.map ((fun w => query out (x :: h) w - γ * query out h w) ∘ lastWord) =
          K.map fun r => (d (h.length + 1)).apply r.count / denOf (ctx (h.length + 1)) (x :: h) :=
        List.map_congr_left fun r hr => hval r hr
      rw [e3]
      exact hmass
    · have hback : ((lookup out (x :: h)).map (·.backoff)).getD 1 = 1 := by
        by_cases hin : ∃ r ∈ A h.length, r.marked = false ∧ r.words = x :: h
        · obtain ⟨r, hr, hrk, hrw⟩ := hin
          rw [← hrw, lookup_some hA hE ho (by omega) hr hrk]
          simp only [Option.map_some, Option.getD_some]
          unfold backoffOf
          rw [if_neg]
          intro hc
          obtain ⟨q, hq, hqc⟩ := hA.ctx _ hl r hr hrk hc
          exact hctx ⟨q, hq, hqc.trans hrw⟩
        · rw [lookup_none hA hE ho (i := h.length) (by omega) (by simp) hin]
          rfl
      rw [← ih]
      congr 1
      apply List.map_congr_left
      intro w _
      rw [hq w, lookup_none hA hE ho (i := h.length + 1) hl (by simp), hback, one_mul]
      rintro ⟨r, hr, _, hrw⟩
      apply hctx
      refine ⟨r, hr, ?_⟩
      unfold AdjRec.context
      rw [hrw, List.dropLast_concat]

end

end Cdec.Klm.Builder
