import Verif.Klm.HashedBuild
import Verif.Klm.NGramLemmas
/-!
# Lemmas on building the tables
-/

namespace Cdec.Klm.LM
open Search

variable {K : Type} [AddCommGroup K] [DecidableEq K] {s s' : Search K}

theorem get_none_of_long (s : Search K) {g : List Word} (h2 : 2 ≤ g.length) (h : s.order ≤ g.length) :
    s.get g = none := by
  match g, h2 with
  | a :: b :: t, _ =>
    simp only [get_cons2]
    rw [if_neg (by simp at h; omega)]

theorem get_upd (s : Search K) (g : List Word) (hg : g ≠ []) (f : Entry K → Entry K) (x : List Word) :
    (s.upd g f).get x = if x = g then (s.get x).map f else s.get x := by
  match g, hg with
  | [w], _ =>
    match x with
    | [] => simp [Search.upd, Search.get]
    | [y] =>
      by_cases h : y = w <;> simp [Search.upd, Search.get, h]
    | a :: b :: t =>
      by_cases ho : t.length + 2 < s.order <;> simp [Search.upd, Search.get, ho]
  | c :: d :: t, _ =>
    match x with
    | [] => simp [Search.upd, Search.get]
    | [y] => simp [Search.upd, Search.get]
    | a :: b :: u =>
      simp only [Search.upd, Search.get]
      by_cases h : a :: b :: u = c :: d :: t
      · have hl : u.length = t.length := by simp_all
        rw [if_pos h, if_pos ⟨hl, h⟩]
        by_cases ho : u.length + 2 < s.order <;> simp [ho]
      · rw [if_neg h, if_neg (fun hc => h hc.2)]
        by_cases ho : u.length + 2 < s.order <;> simp [ho]

@[simp] theorem upd_order (s : Search K) (g : List Word) (f : Entry K → Entry K) :
    (s.upd g f).order = s.order := by
  unfold Search.upd; split <;> rfl

@[simp] theorem upd_long (s : Search K) (g : List Word) (f : Entry K → Entry K) :
    (s.upd g f).long = s.long := by
  unfold Search.upd; split <;> rfl

theorem get_ins (s : Search K) (g : List Word) (h2 : 2 ≤ g.length) (ho : g.length < s.order)
    (e : Entry K) (x : List Word) : (s.ins g e).get x = if x = g then some e else s.get x := by
  match g, h2 with
  | c :: d :: t, _ =>
    match x with
    | [] => simp [Search.ins, Search.get]
    | [y] => simp [Search.ins, Search.get]
    | a :: b :: u =>
      simp only [Search.ins, Search.get]
      by_cases h : a :: b :: u = c :: d :: t
      · have hl : u.length = t.length := by simp_all
        have ho' : u.length + 2 < s.order := by simp at ho; omega
        rw [if_pos h, if_pos ⟨by simp [hl], h⟩]
        simp [ho']
      · rw [if_neg h, if_neg (fun hc => h hc.2)]
        by_cases ho : u.length + 2 < s.order <;> simp [ho]

theorem ctxEntry_get (s : Search K) (c : List Word) (h : c.length < s.order) :
    ctxEntry s c = s.get c := by
  match c with
  | [] => rfl
  | [w] => rfl
  | a :: b :: t =>
    simp only [ctxEntry, Search.get]
    rw [if_pos (by simpa using h)]

/-- The tables `s'` come from `s` by updates that do not touch back-offs and do not take back
marks. -/
structure Upg (s s' : Search K) : Prop where
  order : s'.order = s.order
  long : s'.long = s.long
  fwd : ∀ g e, s.get g = some e → ∃ e', s'.get g = some e' ∧ e'.bo = e.bo ∧
    (e.ext = true → e'.ext = true) ∧ (e.indep = false → e'.indep = false)
  none : ∀ g, s.get g = none → s'.get g = none

theorem Upg.rfl (s : Search K) : Upg s s := ⟨Eq.refl _, Eq.refl _, fun _ e h => ⟨e, h, Eq.refl _, id, id⟩, fun _ h => h⟩

theorem Upg.trans {s1 s2 s3 : Search K} (a : Upg s1 s2) (b : Upg s2 s3) : Upg s1 s3 := by
  refine ⟨b.order.trans a.order, b.long.trans a.long, ?_, fun g h => b.none g (a.none g h)⟩
  intro g e h
  obtain ⟨e1, h1, h2, h3, h4⟩ := a.fwd g e h
  obtain ⟨e2, k1, k2, k3, k4⟩ := b.fwd g e1 h1
  exact ⟨e2, k1, k2.trans h2, fun h => k3 (h3 h), fun h => k4 (h4 h)⟩

theorem Upg.bwd (u : Upg s s') {g : List Word} {e' : Entry K} (h : s'.get g = some e') :
    ∃ e, s.get g = some e ∧ e'.bo = e.bo ∧
      (e.ext = true → e'.ext = true) ∧ (e.indep = false → e'.indep = false) := by
  cases hg : s.get g with
  | none => rw [u.none g hg] at h; simp at h
  | some e =>
    obtain ⟨e1, h1, h2, h3, h4⟩ := u.fwd g e hg
    rw [h] at h1
    cases h1
    exact ⟨e, Eq.refl _, h2, h3, h4⟩

theorem Upg.bo (u : Upg s s') (g : List Word) : s'.boOf g = s.boOf g := by
  unfold Search.boOf
  cases hg : s.get g with
  | none => rw [u.none g hg]
  | some e =>
    obtain ⟨e1, h1, h2, _⟩ := u.fwd g e hg
    simp [h1, h2]

theorem upg_upd (s : Search K) (g : List Word) (hg : g ≠ []) (f : Entry K → Entry K)
    (hf : ∀ e, (f e).bo = e.bo ∧ (e.ext = true → (f e).ext = true) ∧
      (e.indep = false → (f e).indep = false)) : Upg s (s.upd g f) := by
  refine ⟨upd_order _ _ _, upd_long _ _ _, ?_, ?_⟩
  · intro x e h
    rw [get_upd s g hg]
    by_cases hx : x = g
    · rw [if_pos hx, h]
      exact ⟨f e, Eq.refl _, hf e⟩
    · rw [if_neg hx]
      exact ⟨e, h, Eq.refl _, id, id⟩
  · intro x h
    rw [get_upd s g hg]
    by_cases hx : x = g
    · rw [if_pos hx, h]; rfl
    · rw [if_neg hx]; exact h

theorem upg_setExt (s : Search K) (g : List Word) (hg : g ≠ []) : Upg s (s.setExt g) :=
  upg_upd s g hg _ (fun _ => ⟨Eq.refl _, fun _ => Eq.refl _, id⟩)

theorem get_setExt (s : Search K) (g : List Word) (hg : g ≠ []) (x : List Word) :
    (s.setExt g).get x =
      if x = g then (s.get x).map (fun e => { e with ext := true }) else s.get x :=
  get_upd s g hg _ x

theorem take_inj_length {ng : List Word} {j k : Nat} (hj : j ≤ ng.length) (hk : k ≤ ng.length)
    (h : ng.take j = ng.take k) : j = k := by
  have := congrArg List.length h
  simp only [List.length_take] at this
  omega

/-- `FindLower`. -/
theorem findLower_spec (ng : List Word) (k : Nat) : ∀ (s : Search K), 1 ≤ k → k ≤ ng.length →
    k < s.order →
    let r := findLower s ng k
    1 ≤ r.2 ∧ r.2 ≤ k ∧ r.1.order = s.order ∧ r.1.long = s.long ∧
      (∃ e, s.get (ng.take r.2) = some e) ∧
      (∀ j, r.2 < j → j ≤ k → s.get (ng.take j) = none ∧
        r.1.get (ng.take j) = some ⟨0, 0, 0, false, true⟩) ∧
      (∀ g, (∀ j, r.2 < j → j ≤ k → g ≠ ng.take j) → r.1.get g = s.get g) := by
  induction k with
  | zero => intro s h; omega
  | succ k ih =>
    intro s _ hl ho
    cases k with
    | zero =>
      refine ⟨le_refl _, le_refl _, rfl, rfl, ?_, fun j h1 h2 => ?_, fun g _ => rfl⟩
      · match ng, hl with
        | x :: t, _ => exact ⟨s.uni x, by simp [findLower, Search.get]⟩
      · simp only [findLower] at h1; omega
    | succ k =>
      have hlen : (ng.take (k + 2)).length = k + 2 := by rw [List.length_take]; omega
      have hget : s.get (ng.take (k + 2)) = s.mid k (ng.take (k + 2)) := by
        rw [← ctxEntry_get s _ (by rw [hlen]; exact ho)]
        match hc : ng.take (k + 2), hlen with
        | a :: b :: t, hlen =>
          have : t.length = k := by simpa using hlen
          simp only [ctxEntry, this]
      cases hm : s.mid k (ng.take (k + 2)) with
      | some e =>
        have hf : findLower s ng (k + 1 + 1) = (s, k + 2) := by
          simp only [findLower, hm]
        rw [hf]
        refine ⟨by simp, le_refl _, rfl, rfl, ⟨e, by rw [hget, hm]⟩, fun j h1 h2 => ?_, fun g _ => rfl⟩
        simp only [] at h1; omega
      | none =>
        have hf : findLower s ng (k + 1 + 1) =
            findLower (s.ins (ng.take (k + 2)) ⟨0, 0, 0, false, true⟩) ng (k + 1) := by
          rw [findLower, hm]
        rw [hf]
        have hins := get_ins s (ng.take (k + 2)) (by omega) (by omega) (⟨0, 0, 0, false, true⟩ : Entry K)
        obtain ⟨h1, h2, h3, h4, ⟨e, h5⟩, h6, h7⟩ :=
          ih (s.ins (ng.take (k + 2)) ⟨0, 0, 0, false, true⟩) (by omega) (by omega)
            (by simp only [Search.ins]; omega)
        generalize findLower (s.ins (ng.take (k + 2)) ⟨0, 0, 0, false, true⟩) ng (k + 1) = r at *
        have hne : ∀ j, j ≤ k + 1 → ng.take j ≠ ng.take (k + 2) := by
          intro j hj hc
          have := take_inj_length (by omega) (by omega) hc
          omega
        refine ⟨h1, by omega, h3, h4, ⟨e, ?_⟩, ?_, ?_⟩
        · rw [hins, if_neg (hne _ h2)] at h5; exact h5
        · intro j hj1 hj2
          by_cases hjk : j = k + 2
          · subst hjk
            refine ⟨by rw [hget, hm], ?_⟩
            rw [h7 _ (fun i _ hi2 hc => hne i hi2 hc.symm), hins, if_pos rfl]
          · have := h6 j hj1 (by omega)
            rw [hins, if_neg (hne j (by omega))] at this
            exact this
        · intro g hg
          rw [h7 g (fun j a b => hg j a (by omega)), hins, if_neg (hg (k + 2) (by omega) (le_refl _))]

/-- The loop of `AdjustLower`. -/
theorem fillBlanks_spec (ng : List Word) (T : Nat → K) (m : Nat) : ∀ (s : Search K) (b : Nat),
    1 ≤ b → b + m < ng.length → b + m < s.order →
    (∀ j, b ≤ j → j < b + m → T (j + 1) = T j + s.boOf (ng.tail.take j)) →
    let s' := fillBlanks s ng (T b) b m
    Upg s s' ∧
      (∀ g e', s'.get g = some e' → (∀ k, b < k → k ≤ b + m → g ≠ ng.take k) →
        ∃ e, s.get g = some e ∧ e'.prob = e.prob) ∧
      (∀ k, b < k → k ≤ b + m → ∀ e', s'.get (ng.take k) = some e' → e'.prob = T k) ∧
      (∀ j, b ≤ j → j < b + m → ∀ e', s'.get (ng.tail.take j) = some e' → e'.ext = true) := by
  induction m with
  | zero =>
    intro s b _ _ _ _
    exact ⟨Upg.rfl s, fun g e' h _ => ⟨e', h, rfl⟩, fun k h1 h2 => by omega,
      fun j h1 h2 => by omega⟩
  | succ m ih =>
    intro s b hb hl ho hT
    have hcl : (ng.tail.take b).length = b := by
      rw [List.length_take, List.length_tail]; omega
    have hcne : ng.tail.take b ≠ [] := by
      intro h; rw [h] at hcl; simp at hcl; omega
    have htne : ng.take (b + 1) ≠ [] := by
      intro h
      have := congrArg List.length h
      rw [List.length_take, List.length_nil] at this; omega
    have hctx := ctxEntry_get s (ng.tail.take b) (by omega)
    -- one step
    obtain ⟨s1, hs1, hu1, hp1, hx1⟩ : ∃ s1 : Search K,
        fillBlanks s ng (T b) b (m + 1) =
          fillBlanks (s1.upd (ng.take (b + 1)) (fun e => { e with prob := T (b + 1), rest := T (b + 1) }))
            ng (T (b + 1)) (b + 1) m ∧ Upg s s1 ∧
        (∀ g e', s1.get g = some e' → ∃ e, s.get g = some e ∧ e'.prob = e.prob) ∧
        (∀ e', s1.get (ng.tail.take b) = some e' → e'.ext = true) := by
      have hTb := hT b (le_refl _) (by omega)
      cases hc : s.get (ng.tail.take b) with
      | none =>
        refine ⟨s, ?_, Upg.rfl s, fun g e' h => ⟨e', h, rfl⟩, fun e' h => by rw [hc] at h; simp at h⟩
        rw [hTb]
        unfold Search.boOf
        rw [hc]
        simp only [fillBlanks, hctx, hc, Option.map_none, Option.getD_none, add_zero]
      | some e =>
        refine ⟨s.setExt (ng.tail.take b), ?_, upg_setExt s _ hcne, ?_, ?_⟩
        · rw [hTb]
          unfold Search.boOf
          rw [hc]
          simp only [fillBlanks, hctx, hc, Option.map_some, Option.getD_some]
        · intro g e' h
          rw [get_setExt s _ hcne] at h
          by_cases hg : g = ng.tail.take b
          · rw [if_pos hg] at h
            cases hgg : s.get g with
            | none => rw [hgg] at h; simp at h
            | some e0 => rw [hgg] at h; simp at h; exact ⟨e0, rfl, by rw [← h]⟩
          · rw [if_neg hg] at h; exact ⟨e', h, rfl⟩
        · intro e' h
          rw [get_setExt s _ hcne, if_pos rfl, hc] at h
          simp at h; rw [← h]
    rw [hs1]
    have hu2 : Upg s1 (s1.upd (ng.take (b + 1))
        (fun e => { e with prob := T (b + 1), rest := T (b + 1) })) :=
      upg_upd s1 _ htne _ (fun _ => ⟨rfl, id, id⟩)
    have hgu := get_upd s1 (ng.take (b + 1)) htne (fun e => { e with prob := T (b + 1), rest := T (b + 1) })
    generalize s1.upd (ng.take (b + 1)) (fun e => { e with prob := T (b + 1), rest := T (b + 1) }) = s2
      at hu2 hgu ⊢
    obtain ⟨r1, r2, r3, r4⟩ := ih s2 (b + 1) (by omega) (by omega)
      (by rw [hu2.order, hu1.order]; omega)
      (fun j h1 h2 => by rw [hT j (by omega) (by omega), hu2.bo, hu1.bo])
    generalize fillBlanks s2 ng (T (b + 1)) (b + 1) m = s3 at r1 r2 r3 r4 ⊢
    refine ⟨(hu1.trans hu2).trans r1, ?_, ?_, ?_⟩
    · intro g e' h hk
      obtain ⟨e2, h2, h3⟩ := r2 g e' h (fun k a b => hk k (by omega) (by omega))
      rw [hgu, if_neg (hk (b + 1) (by omega) (by omega))] at h2
      obtain ⟨e1, h4, h5⟩ := hp1 g e2 h2
      exact ⟨e1, h4, h3.trans h5⟩
    · intro k h1 h2 e' h
      by_cases hkb : k = b + 1
      · subst hkb
        obtain ⟨e2, h3, h4⟩ := r2 _ e' h (fun i a b hc => by
          have := take_inj_length (by omega) (by omega) hc; omega)
        rw [hgu, if_pos rfl] at h3
        rw [h4]
        cases hg1 : s1.get (ng.take (b + 1)) with
        | none => rw [hg1] at h3; simp at h3
        | some e1 => rw [hg1] at h3; simp at h3; rw [← h3]
      · exact r3 k (by omega) (by omega) e' h
    · intro j h1 h2 e' h
      by_cases hjb : j = b
      · subst hjb
        obtain ⟨e2, k1, _, k3, _⟩ := (hu2.trans r1).bwd h
        exact k3 (hx1 e2 k1)
      · exact r4 j (by omega) (by omega) e' h

theorem markExtends_spec (ng : List Word) (s : Search K) (b : Nat) (hb : 1 ≤ b) (m : Nat) :
    b + m ≤ ng.length + 1 →
    let s' := markExtends s ng b m
    Upg s s' ∧ (∀ g e', s'.get g = some e' → ∃ e, s.get g = some e ∧ e'.prob = e.prob) ∧
      (∀ j, b ≤ j → j < b + m → ∀ e', s'.get (ng.take j) = some e' → e'.indep = false) := by
  induction m with
  | zero =>
    intro _
    exact ⟨Upg.rfl s, fun g e' h => ⟨e', h, rfl⟩, fun j h1 h2 => by omega⟩
  | succ m ih =>
    intro hl
    obtain ⟨r1, r2, r3⟩ := ih (by omega)
    simp only [markExtends]
    generalize markExtends s ng b m = s1 at r1 r2 r3 ⊢
    have htne : ng.take (b + m) ≠ [] := by
      intro h
      have := congrArg List.length h
      rw [List.length_take, List.length_nil] at this; omega
    have hu := upg_upd s1 (ng.take (b + m)) htne (fun e => { e with indep := false })
      (fun _ => ⟨rfl, id, fun _ => rfl⟩)
    have hg := get_upd s1 (ng.take (b + m)) htne (fun e => { e with indep := false })
    refine ⟨r1.trans hu, ?_, ?_⟩
    · intro g e' h
      rw [hg] at h
      by_cases hx : g = ng.take (b + m)
      · rw [if_pos hx] at h
        cases h1 : s1.get g with
        | none => rw [h1] at h; simp at h
        | some e1 =>
          rw [h1] at h; simp at h
          obtain ⟨e, k1, k2⟩ := r2 g e1 h1
          exact ⟨e, k1, by rw [← h]; exact k2⟩
      · rw [if_neg hx] at h; exact r2 g e' h
    · intro j h1 h2 e' h
      by_cases hj : j = b + m
      · subst hj
        rw [hg, if_pos rfl] at h
        cases h1 : s1.get (ng.take (b + m)) with
        | none => rw [h1] at h; simp at h
        | some e1 => rw [h1] at h; simp at h; rw [← h]
      · obtain ⟨e1, k1, _, _, k4⟩ := hu.bwd h
        exact k4 (r3 j h1 (by omega) e1 k1)

end Cdec.Klm.LM
