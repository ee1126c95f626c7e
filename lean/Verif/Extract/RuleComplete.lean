import Verif.Extract.RuleMain
/-!
# The extracts of one occurrence: which rules are found
-/
namespace Cdec.Extract
open Spec RuleSpec

theorem find_down (p : Nat → Bool) : ∀ n a, a < n → p a = true → (∀ q, a < q → q < n → p q = false) → ((List.range n).reverse).find? p = some a
  | 0, _, h, _, _ => by omega
  | n + 1, a, h, hp, hq => by
    rw [List.range_succ, List.reverse_append, List.reverse_singleton, List.singleton_append, List.find?_cons]
    by_cases e : a = n
    · subst e; rw [hp]
    · rw [hq n (by omega) (by omega)]
      exact find_down p n a (by omega) hp fun q h1 h2 => hq q h1 (by omega)

theorem find_up (p : Nat → Bool) : ∀ k s a, s ≤ a → a < s + k → p a = true → (∀ q, s ≤ q → q < a → p q = false) → (List.range' s k).find? p = some a
  | 0, _, _, h, h', _, _ => by omega
  | k + 1, s, a, h, h', hp, hq => by
    rw [List.range'_succ, List.find?_cons]
    by_cases e : a = s
    · subst e; rw [hp]
    · rw [hq s (by omega) (by omega)]
      exact find_up p k (s + 1) a (by omega) (by omega) hp fun q h1 h2 => hq q (by omega) h2

theorem extendLow_exact {E : XEnv} (hE : LinksOK E) (hmin : 1 ≤ E.minGap) {m a : Nat} (hm : m ≤ E.src.length) (h : NearestLow E m a) : extendLow E false true m = some (a : Int) := by
  obtain ⟨h1, h2⟩ := h
  unfold extendLow
  rw [if_pos rfl, if_neg (by simp; omega)]
  simp only []
  by_cases ht : E.tight = true
  · rw [if_pos ht] at h2
    rw [if_pos ht, find_down _ _ a (by omega)]
    · rfl
    · rw [decide_eq_true_eq]
      exact (sourceLow_iff hE (by omega)).2 h2.1
    · intro q h3 h4
      rw [decide_eq_false_iff_not]
      intro h5
      exact h2.2 q h3 (by omega) ((sourceLow_iff hE (by omega)).1 h5)
  · rw [if_neg ht] at h2
    rw [if_neg ht]
    congr 1
    omega

theorem extendHigh_exact {E : XEnv} (hE : LinksOK E) (hmin : 1 ≤ E.minGap) {e b : Nat} (h : NearestHigh E e b) : extendHigh E false true e = some (b : Int) := by
  obtain ⟨h1, h1', h2⟩ := h
  unfold extendHigh
  rw [if_pos rfl, if_neg (by simp; omega)]
  simp only []
  by_cases ht : E.tight = true
  · rw [if_pos ht] at h2
    rw [if_pos ht, find_up _ _ _ b (by omega) (by omega)]
    · rfl
    · rw [decide_eq_true_eq]
      exact (sourceLow_iff hE (by omega)).2 h2.1
    · intro q h3 h4
      rw [decide_eq_false_iff_not]
      intro h5
      exact h2.2 q h4 (by omega) ((sourceLow_iff hE (by omega)).1 h5)
  · rw [if_neg ht] at h2
    rw [if_neg ht, h2]

/-- A span that no link leaves is found as it is. -/
theorem findFixPoint_exact (P : FixParams) (links : List (Nat × Nat)) (hr : ∀ l ∈ links, l.1 < P.slen ∧ l.2 < P.tlen) (sl sh : Int) (h0 : 0 ≤ sl) (h2 : sh ≤ P.slen)
    (c d : Int) (hcon : Consistent links sl sh c d) (hl : ∃ l ∈ links, sl ≤ l.1 ∧ (l.1 : Int) < sh) (hsp : d - c ≤ P.maxSpan) :
    ∃ tl th, findFixPoint P (getLinksSpans P.slen P.tlen links) (P.slen + 1) sl sh (-1, -1) = some (some ⟨tl, th, sl, sh⟩) := by
  obtain ⟨hs, ht⟩ := getLinksSpans_ok P.slen P.tlen links hr
  generalize getLinksSpans P.slen P.tlen links = S at hs ht ⊢
  unfold findFixPoint
  simp only []
  have hu := findProjection_hull hs sl sh h0 h2 (-1, -1) (Or.inl rfl)
  generalize findProjection sl sh S.sourceLow S.sourceHigh (-1, -1) = t at hu ⊢
  obtain ⟨l, hl, h3, h4⟩ := hl
  have hc := hu.cover l.1 ((mem_words h0 _).2 ⟨h3, h4⟩) l.2 hl
  have hne := hc.1
  rw [if_neg hne]
  have het : extendTarget P (-1, -1) t = some t := by simp [extendTarget]
  rw [het]
  simp only []
  have htr : 0 ≤ t.1 ∧ t.1 < t.2 := by
    rcases hu.valid with h | h
    · rw [h] at hne; simp at hne
    · exact h
  have htr2 : 0 ≤ t.1 ∧ t.2 ≤ P.tlen := by
    refine hu.least 0 P.tlen (by simp) ?_ hne
    intro i _ j hij
    have := hr _ hij
    simp only [] at this
    omega
  have e1 := hu.least c d (by simp) (by
    intro i hi j hij
    rw [mem_words h0] at hi
    exact (hcon _ hij).1 (by simp only []; omega)) hne
  rw [if_neg (by omega)]
  have hb := findProjection_hull ht t.1 t.2 htr.1 htr2.2 (-1, -1) (Or.inl rfl)
  generalize findProjection t.1 t.2 S.targetLow S.targetHigh (-1, -1) = b at hb ⊢
  have hbne : b.1 ≠ -1 := (hb.cover l.2 ((mem_words htr.1 _).2 hc.2) l.1 hl).1
  have e2 := hb.least sl sh (by simp) (by
    intro j hj i hij
    rw [mem_words htr.1] at hj
    exact (hcon _ hij).2 (by simp only []; omega)) hbne
  rw [fixLoop]
  simp only []
  have f1 : min b.1 sl = sl := by omega
  have f2 : max b.2 sh = sh := by omega
  rw [f1, f2, if_pos ⟨rfl, rfl⟩]
  exact ⟨_, _, rfl⟩

/-- What is needed of a source span for it to be found unchanged. -/
def Closed (E : XEnv) (s : Nat × Nat) : Prop :=
  s.1 ≤ s.2 ∧ s.2 ≤ E.src.length ∧ (∃ l ∈ E.links, s.1 ≤ l.1 ∧ l.1 < s.2) ∧ ∃ u : Nat × Nat, Consistent E.links s.1 s.2 u.1 u.2 ∧ (u.2 : Int) - u.1 ≤ E.maxSpan

theorem closed_found {E : XEnv} (hE : LinksOK E) {s : Nat × Nat} (h : Closed E s) (minS minT mx : Int) (lo hi arb : Bool) :
    ∃ t : Nat × Nat, findFixPoint (E.fixParams minS minT mx lo hi arb) E.spans (E.src.length + 1) s.1 s.2 (-1, -1) = some (some ⟨t.1, t.2, s.1, s.2⟩) ∧
      (t.2 : Int) - t.1 ≤ E.maxSpan ∧ ((E.tight = true → SrcAligned E s.1 ∧ SrcAligned E (s.2 - 1)) → Found E s t) := by
  obtain ⟨h1, h2, ⟨l, hl, h3, h4⟩, u, hu, hsp⟩ := h
  obtain ⟨tl, th, e⟩ := findFixPoint_exact (E.fixParams minS minT mx lo hi arb) E.links hE s.1 s.2 (by omega) (by simp only [XEnv.fixParams]; omega) u.1 u.2 hu
    ⟨l, hl, by omega, by omega⟩ hsp
  obtain ⟨a, b, c, d, e', g1, g2, g3, g4, g5, g6, g7, g8, g9, _⟩ := fix_found hE h1 h2 e
  cases e'
  exact ⟨(c, d), e, g6, fun htight => ⟨g8, g9, ⟨g4, g5⟩, htight⟩⟩

theorem pair_lt {E : XEnv} {s t : Nat × Nat} (h : Pair E s t) : s.1 < s.2 ∧ t.1 < t.2 := by
  obtain ⟨l, hl, h1, h2⟩ := h.linked
  have := (h.consistent l hl).1 ⟨by omega, by omega⟩
  omega

theorem pair_closed {E : XEnv} {s t : Nat × Nat} (h : Pair E s t) (hs : s.2 ≤ E.src.length) (hw : (t.2 : Int) - t.1 ≤ E.maxSpan) : Closed E s :=
  ⟨Nat.le_of_lt (pair_lt h).1, hs, h.linked, t, h.consistent, hw⟩

/-- A pair of spans is a choice of free words around the pair that is found. -/
theorem Found.choice {E : XEnv} {s t u : Nat × Nat} (h : Found E s t) (hp : Pair E s u) : u.1 ≤ t.1 ∧ t.2 ≤ u.2 ∧ Free E u.1 t.1 ∧ Free E t.2 u.2 := by
  obtain ⟨⟨l, hl, e1, e2, e3⟩, ⟨r, hr, e4, e5, e6⟩⟩ := h.edges
  have hu := (pair_lt hp).2
  have a1 := (hp.consistent l hl).1 ⟨e1, e2⟩
  have a2 := (hp.consistent r hr).1 ⟨e4, e5⟩
  have key : ∀ l ∈ E.links, u.1 ≤ l.2 → l.2 < u.2 → t.1 ≤ l.2 ∧ l.2 < t.2 := by
    intro l hl h1 h2
    have := (h.consistent l hl).1 ((hp.consistent l hl).2 ⟨by omega, by omega⟩)
    omega
  have hr' := h.range
  refine ⟨by omega, by omega, ?_, ?_⟩
  · intro p h1 h2
    refine ⟨?_, ?_⟩
    · cases ht : E.tight with
      | false => rfl
      | true =>
        obtain ⟨_, _, ⟨x, hx, ex⟩, _⟩ := hp.tight ht
        have := key x hx (by omega) (by omega)
        omega
    · intro x hx ex
      have := key x hx (by omega) (by omega)
      omega
  · intro p h1 h2
    refine ⟨?_, ?_⟩
    · cases ht : E.tight with
      | false => rfl
      | true =>
        obtain ⟨_, _, _, ⟨x, hx, ex⟩⟩ := hp.tight ht
        have := key x hx (by omega) (by omega)
        omega
    · intro x hx ex
      have := key x hx (by omega) (by omega)
      omega

theorem rule_choice {E : XEnv} {source target : List Int} {al : List (Nat × Nat)} {s t t0 : Nat × Nat} {sg tg tg0 : List (Nat × Nat)}
    (hr : IsRule E source target al s t sg tg) (hf : Found E s t0) (hlen : sg.length = tg0.length)
    (hg : ∀ (k : Nat) g u, sg[k]? = some g → tg0[k]? = some u → Found E g u) : IsChoice E tg0 t0.1 t0.2 ⟨t.1, t.2, tg⟩ := by
  obtain ⟨c1, c2, c3, c4⟩ := hf.choice hr.pair
  refine ⟨⟨c1, c2, hr.target_gaps.2, hr.span.2⟩, ⟨c3, c4⟩, ?_, ?_, hr.target_gaps.1⟩
  · simp only []; rw [← hr.length, hlen]
  · intro k g g' e e'
    simp only [] at e'
    have hk : k < sg.length := by have := (List.getElem?_eq_some_iff.1 e).1; omega
    exact (hg k _ _ (List.getElem?_eq_getElem hk) e).choice (hr.gap_pairs k _ _ (List.getElem?_eq_getElem hk) e')

/-- A batch contains every rule for its source span and gaps. -/
theorem batch_rule {E : XEnv} {source : List Int} {s t0 : Nat × Nat} {sg tg0 : List (Nat × Nat)} {xs : List Extracted} (hb : Batch E source s t0 sg tg0 xs)
    (hf : Found E s t0) (hlen : sg.length = tg0.length) (hg : ∀ (k : Nat) g u, sg[k]? = some g → tg0[k]? = some u → Found E g u)
    {src target : List Int} {al : List (Nat × Nat)} {t : Nat × Nat} {tg : List (Nat × Nat)} (hr : IsRule E src target al s t sg tg) :
    ∃ x ∈ xs, x.source = src ∧ x.target = target ∧ ∀ ij, ij ∈ x.alignment ↔ ij ∈ al := by
  obtain ⟨x, hx, e, hx'⟩ := hb.complete _ (rule_choice hr hf hlen hg)
  refine ⟨x, hx, ?_, ?_, ?_⟩
  · rw [hx'.source_eq, hr.source_eq]
  · rw [e, hr.target_eq]
  · rintro ⟨i, j⟩
    rw [hx'.links, hr.links]

theorem checkGaps_exact {E : XEnv} (hE : LinksOK E) : ∀ gs : List (Nat × Nat), (∀ g ∈ gs, Closed E g ∧ (E.tight = true → SrcAligned E g.1 ∧ SrcAligned E (g.2 - 1))) →
    ∃ r tg, (castGaps gs).mapM (checkGap E.gapParams E.spans) = some r ∧ r.map (·.1) = castGaps gs ∧ r.map (·.2) = castGaps tg ∧ gs.length = tg.length ∧
      ∀ (k : Nat) g u, gs[k]? = some g → tg[k]? = some u → Found E g u
  | [], _ => ⟨[], [], by simp [castGaps], rfl, rfl, rfl, by simp⟩
  | g :: gs, h => by
    obtain ⟨r, tg, h1, h2, h3, h4, h5⟩ := checkGaps_exact hE gs fun g' hg' => h g' (List.mem_cons_of_mem _ hg')
    obtain ⟨c1, c2⟩ := h g List.mem_cons_self
    obtain ⟨t, e, _, hf⟩ := closed_found hE c1 0 0 0 false false false
    have ec : checkGap E.gapParams E.spans ((g.1 : Int), (g.2 : Int)) = some (((g.1 : Int), (g.2 : Int)), ((t.1 : Int), (t.2 : Int))) := by
      have e' : findFixPoint ⟨E.gapParams.slen, E.gapParams.tlen, E.gapParams.maxSpan, 0, 0, 0, false, false, false⟩ E.spans (E.gapParams.slen + 1) (g.1 : Int) (g.2 : Int) (-1, -1) =
        some (some ⟨t.1, t.2, g.1, g.2⟩) := e
      unfold checkGap
      rw [e']
    refine ⟨(((g.1 : Int), (g.2 : Int)), ((t.1 : Int), (t.2 : Int))) :: r, t :: tg, ?_, ?_, ?_, by simp [h4], ?_⟩
    · have : castGaps (g :: gs) = ((g.1 : Int), (g.2 : Int)) :: castGaps gs := rfl
      rw [this, List.mapM_cons, ec, h1]
      rfl
    · rw [List.map_cons, h2]; rfl
    · rw [List.map_cons, h3]; rfl
    · intro k g' u hg hu
      cases k with
      | zero =>
        simp only [List.getElem?_cons_zero, Option.some.injEq] at hg hu
        subst hg hu
        exact hf c2
      | succ k => exact h5 k g' u (by simpa using hg) (by simpa using hu)

theorem getGaps_exact {E : XEnv} (hE : LinksOK E) {m c e : Nat} {ms : List (Nat × Nat)} (n : Nat)
    (h : ∀ g ∈ natGaps ((m, c) :: ms), Closed E g ∧ (E.tight = true → SrcAligned E g.1 ∧ SrcAligned E (g.2 - 1))) :
    ∃ tg met, getGaps E.gapParams E.spans ((m, c) :: ms) 0 m e m e n = some (castGaps (natGaps ((m, c) :: ms)), castGaps tg, n, met) ∧
      (natGaps ((m, c) :: ms)).length = tg.length ∧ (∀ (k : Nat) g u, (natGaps ((m, c) :: ms))[k]? = some g → tg[k]? = some u → Found E g u) ∧
      (m < e → e ≤ E.src.length → (E.tight = true → SrcAligned E m ∧ SrcAligned E (e - 1)) → met = true) := by
  obtain ⟨r, tg, h1, h2, h3, h4, h5⟩ := checkGaps_exact hE _ h
  refine ⟨tg, (!(E.gapParams.tight && decide (E.spans.sourceLow.getD (m : Int).toNat (-1) = -1))) &&
    (!(E.gapParams.tight && decide (E.spans.sourceLow.getD ((e : Int) - 1).toNat (-1) = -1))), ?_, h4, h5, ?_⟩
  · simp only [getGaps, bind, Option.bind, outerGap, Int.lt_irrefl, decide_false, Bool.false_eq_true, if_false, List.nil_append, List.append_nil, innerGaps_eq, h1, h2, h3, pure]
  · intro hm he ht
    cases htt : E.tight with
    | false => simp [XEnv.gapParams, htt]
    | true =>
      obtain ⟨t1, t2⟩ := ht htt
      have t1 := (sourceLow_iff hE (by omega)).2 t1
      have t2 := (sourceLow_iff hE (by omega)).2 t2
      have e1 : ((e : Int) - 1).toNat = e - 1 := by omega
      simp only [XEnv.gapParams, htt, Int.toNat_natCast, e1, Bool.true_and, Bool.and_eq_true, Bool.not_eq_true', decide_eq_false_iff_not]
      exact ⟨t1, t2⟩

theorem edgeGap_exact {E : XEnv} (hE : LinksOK E) {extend : Bool} {edge a b : Nat} (he : edge < E.src.length)
    (h : extend = true → Closed E (a, b) ∧ (E.tight = true → SrcAligned E edge ∧ SrcAligned E a ∧ SrcAligned E (b - 1))) :
    ∃ tl, edgeGap E extend edge a b = some (castGaps tl) ∧ (if extend then [(a, b)] else []).length = tl.length ∧
      ∀ (k : Nat) g u, (if extend then [(a, b)] else [])[k]? = some g → tl[k]? = some u → Found E g u := by
  unfold edgeGap
  cases extend with
  | false => exact ⟨[], by simp [castGaps], rfl, by simp⟩
  | true =>
    obtain ⟨h1, h2⟩ := h rfl
    obtain ⟨t, e, _, hf⟩ := closed_found hE h1 0 0 0 false false false
    simp only [] at e
    refine ⟨[t], ?_, rfl, ?_⟩
    · rw [if_pos rfl, if_neg, e]
      · rfl
      · cases htt : E.tight with
        | false => simp
        | true =>
          rw [Bool.true_and, decide_eq_true_eq, Int.toNat_natCast]
          exact (sourceLow_iff hE he).2 (h2 htt).1
    · intro k g u hg hu
      cases k with
      | succ k => simp at hg
      | zero =>
        simp only [if_true, List.getElem?_cons_zero, Option.some.injEq] at hg hu
        subst hg hu
        exact hf fun ht => (h2 ht).2

theorem readLow_ne {E : XEnv} (hE : LinksOK E) {junk p : Int} {q : Nat} (hp : p = q) (hq : q < E.src.length) (h : SrcAligned E q) : readLow E junk p ≠ -1 := by
  subst hp
  unfold readLow
  rw [if_pos ⟨by omega, by omega⟩, Int.toNat_natCast]
  exact (sourceLow_iff hE hq).2 h

/-- The extended phrase, with the nearest gaps at the ends. -/
theorem extremities_exact {E : XEnv} (hE : LinksOK E) (hmin : 1 ≤ E.minGap) (hnt2 : E.maxNT ≤ 2) (junk : Int) {phrase : List Int} {m c : Nat} {ms : List (Nat × Nat)}
    (hocc : Occurs E.src E.minGap phrase ((m, c) :: ms)) {tg0 : List (Nat × Nat)} (hlen0 : (natGaps ((m, c) :: ms)).length = tg0.length)
    (hf0 : ∀ (k : Nat) g u, (natGaps ((m, c) :: ms))[k]? = some g → tg0[k]? = some u → Found E g u) (left right : Bool) {a b : Nat}
    (ha : if left then NearestLow E m a else a = m) (hb : if right then NearestHigh E (chunksEnd ((m, c) :: ms)) b else b = chunksEnd ((m, c) :: ms))
    {source target : List Int} {al : List (Nat × Nat)} {t : Nat × Nat} {sg tg : List (Nat × Nat)} (hr : IsRule E source target al (a, b) t sg tg)
    (hsg : sg = (if left then [(a, m)] else []) ++ natGaps ((m, c) :: ms) ++ if right then [(chunksEnd ((m, c) :: ms), b)] else []) :
    ∃ xs, extremities E junk ((m, c) :: ms) (extendPhrase phrase false false) m (chunksEnd ((m, c) :: ms)) (castGaps tg0) false false left right = some xs ∧
      ∃ x ∈ xs, x.source = source ∧ x.target = target ∧ ∀ ij, ij ∈ x.alignment ↔ ij ∈ al := by
  have hmlt := chain_lt ms m c (occurs_chain hocc)
  have hend := occurs_end hocc
  have hrs := hr.source_gaps
  have hrsp := hr.span
  have hrt := hr.target_gaps
  generalize he : chunksEnd ((m, c) :: ms) = e at *
  have ham : a ≤ m ∧ (left = true → (a : Int) + E.minGap ≤ m) := by
    cases left with
    | false => simp at ha; exact ⟨by omega, by simp⟩
    | true => simp only [if_true] at ha; have := ha.1; exact ⟨by omega, fun _ => this⟩
  have hbe : e ≤ b ∧ (right = true → (e : Int) + E.minGap ≤ b) ∧ b ≤ E.src.length := by
    cases right with
    | false => simp at hb; exact ⟨by omega, by simp, by omega⟩
    | true => simp only [if_true] at hb; have := hb.1; exact ⟨by omega, fun _ => this, hb.2.1⟩
  -- the pairs
  have hpair : ∀ g ∈ sg, ∃ u, Pair E g u ∧ (u.2 : Int) - u.1 ≤ E.maxSpan := by
    intro g hg
    obtain ⟨k, hk, rfl⟩ := List.mem_iff_getElem.1 hg
    have hk' : k < tg.length := by have := hr.length; omega
    refine ⟨tg[k], hr.gap_pairs k _ _ (List.getElem?_eq_getElem hk) (List.getElem?_eq_getElem hk'), ?_⟩
    have := hrt.1.2.1 _ (List.getElem_mem hk')
    omega
  have hL : left = true → Closed E (a, m) ∧ (E.tight = true → SrcAligned E a ∧ SrcAligned E (m - 1)) := by
    intro hl
    obtain ⟨u, hu, hw⟩ := hpair (a, m) (by rw [hsg, hl]; simp)
    exact ⟨pair_closed hu (by simp only []; omega) hw, fun ht => ⟨(hu.tight ht).1, (hu.tight ht).2.1⟩⟩
  have hR : right = true → Closed E (e, b) ∧ (E.tight = true → SrcAligned E e ∧ SrcAligned E (b - 1)) := by
    intro hl
    obtain ⟨u, hu, hw⟩ := hpair (e, b) (by rw [hsg, hl]; simp)
    exact ⟨pair_closed hu (by simp only []; omega) hw, fun ht => ⟨(hu.tight ht).1, (hu.tight ht).2.1⟩⟩
  unfold extremities
  simp only []
  generalize hdl : (if left = true then (1 : Int) else 0) = dl
  generalize hdr : (if right = true then (1 : Int) else 0) = dr
  rw [if_neg]
  swap
  · rw [Bool.and_eq_true, Bool.or_eq_true, decide_eq_true_eq, decide_eq_true_eq, not_and, not_or]
    intro ht
    have hp := hr.pair.tight ht
    constructor
    · cases left with
      | true => exact readLow_ne hE (q := m - 1) (by have := ham.2 rfl; simp at hdl; omega) (by omega) ((hL rfl).2 ht).2
      | false =>
        simp only [Bool.false_eq_true, if_false] at ha
        exact readLow_ne hE (q := m) (by simp at hdl; omega) (by omega) (ha ▸ hp.1)
    · cases right with
      | true => exact readLow_ne hE (q := e) (by simp at hdr; omega) (by have := hbe.2.1 rfl; omega) ((hR rfl).2 ht).1
      | false =>
        simp only [Bool.false_eq_true, if_false] at hb
        exact readLow_ne hE (q := e - 1) (by simp at hdr; omega) (by omega) (hb ▸ hp.2.1)
  have hxl : extendLow E false left m = some (a : Int) := by
    cases left with
    | true => exact extendLow_exact hE hmin (by omega) ha
    | false => simp only [Bool.false_eq_true, if_false] at ha; rw [ha]; rfl
  have hxh : extendHigh E false right e = some (b : Int) := by
    cases right with
    | true => exact extendHigh_exact hE hmin hb
    | false => simp only [Bool.false_eq_true, if_false] at hb; rw [hb]; rfl
  rw [hxl, hxh]
  simp only []
  have hsl : (extendPhrase phrase left right).length = (extendPhrase phrase false false).length + ((if left = true then 1 else 0) + if right = true then 1 else 0) := by
    rw [extendPhrase_length, extendPhrase_length]; simp; omega
  have hsrc : source = extendPhrase phrase left right := by
    obtain ⟨_, hside⟩ := side_source left right a b m c ms (occurs_chain hocc) (by cases left <;> simp at ha ⊢ <;> [exact ha; (have := ham.2 rfl; omega)])
      (by rw [he]; cases right <;> simp at hb ⊢ <;> [exact hb; (have := hbe.2.1 rfl; omega)])
    rw [hr.source_eq, hsg, ← source_syms hocc left right, ← hside, he]
  have hsy : (extendPhrase phrase left right).length ≤ E.maxSymbols := by rw [← hsrc]; exact hr.symbols
  have e1 : ((if left = true then 1 else 0 : Nat) : Int) = dl := by rw [← hdl]; split <;> rfl
  have e2 : ((if right = true then 1 else 0 : Nat) : Int) = dr := by rw [← hdr]; split <;> rfl
  have hsglen : (sg.length : Int) = tg0.length + (dl + dr) := by
    rw [hsg, ← hlen0, List.length_append, List.length_append, ← e1, ← e2]
    cases left <;> cases right <;> simp <;> omega
  have hntr := hr.nonterminals
  have e0 : (castGaps tg0).length = tg0.length := by simp [castGaps]
  rw [if_neg (by rw [e0]; omega)]
  obtain ⟨t0, hfix, hw0, hfound⟩ := closed_found hE (pair_closed hr.pair hbe.2.2 hrsp.2) 1 1 (dl + dr) left right true
  have hfound := hfound fun ht => ⟨(hr.pair.tight ht).1, (hr.pair.tight ht).2.1⟩
  simp only [] at hfix
  rw [hfix]
  simp only []
  obtain ⟨tl, g1, g2, g3⟩ := edgeGap_exact hE (extend := left) (edge := a) (a := a) (b := m) (by omega) (fun h => ⟨(hL h).1, fun ht => ⟨((hL h).2 ht).1, (hL h).2 ht⟩⟩)
  obtain ⟨tr, g4, g5, g6⟩ := edgeGap_exact hE (extend := right) (edge := b - 1) (a := e) (b := b) (by omega) (fun h => ⟨(hR h).1, fun ht => ⟨((hR h).2 ht).2, (hR h).2 ht⟩⟩)
  rw [show ((b : Int) - 1) = ((b - 1 : Nat) : Int) by omega, g1, g4]
  simp only []
  rw [extend_extend phrase false false left right (fun _ => rfl) (fun _ => rfl), ← castGaps_append, ← castGaps_append, Bool.or_false, Bool.false_or, Bool.false_or]
  have hl3 : sg.length = (tl ++ tg0 ++ tr).length := by
    rw [hsg]; simp only [List.length_append, g2, g5, hlen0]
  have hf3 : ∀ (k : Nat) g u, sg[k]? = some g → (tl ++ tg0 ++ tr)[k]? = some u → Found E g u := by
    rw [hsg]; exact append_found g2 hlen0 g3 hf0 g6
  obtain ⟨xs, hxs, hbatch⟩ := addExtracts_batch hE hocc left right a b
    (by cases left <;> simp at ha ⊢ <;> [exact ha; (have := ham.2 rfl; omega)])
    (by rw [he]; cases right <;> simp at hb ⊢ <;> [exact hb; (have := hbe.2.1 rfl; omega)]) hbe.2.2 sg (tl ++ tg0 ++ tr) (by rw [he]; exact hsg) hl3
    (by omega) t0 hfound hf3 hrsp.1 hw0 hntr hsy hr.min_gap
  exact ⟨xs, hxs, batch_rule hbatch hfound hl3 hf3 hr⟩

theorem occurs_within {src : List Int} {mg : Int} {phrase : List Int} {ms : List (Nat × Nat)} (h : Occurs src mg phrase ms) : ∀ m ∈ ms, m.1 + m.2 ≤ src.length := by
  have key : ∀ (m : Nat) (w : List Int), w ≠ [] → (src.drop m).take w.length = w → m + w.length ≤ src.length := by
    intro m w h1 h2
    have h3 := congrArg List.length h2
    have h4 := List.length_pos_iff.2 h1
    rw [List.length_take, List.length_drop] at h3
    omega
  induction h with
  | last m w h1 h2 h3 => intro x hx; rw [List.mem_singleton] at hx; subst hx; exact key m w h1 h3
  | cons m w x rest m' c' ms h1 h2 h3 h4 h5 h6 h7 ih =>
    intro y hy
    rw [List.mem_cons] at hy
    rcases hy with rfl | hy
    · exact key m w h1 h3
    · exact ih y hy

theorem checkAligned_iff {E : XEnv} (hE : LinksOK E) {ms : List (Nat × Nat)} (hin : ∀ m ∈ ms, m.1 + m.2 ≤ E.src.length) :
    checkAlignedTerminals E ms = true ↔ AlignedOK E ms := by
  have key : ∀ m ∈ ms, ((List.range m.2).any (fun j => decide (E.spans.sourceLow.getD (m.1 + j) (-1) ≠ -1)) = true ↔ ∃ p, m.1 ≤ p ∧ p < m.1 + m.2 ∧ SrcAligned E p) := by
    intro m hm
    have := hin m hm
    rw [List.any_eq_true]
    constructor
    · rintro ⟨j, hj, h⟩
      rw [List.mem_range] at hj
      rw [decide_eq_true_eq] at h
      exact ⟨m.1 + j, by omega, by omega, (sourceLow_iff hE (by omega)).1 h⟩
    · rintro ⟨p, h1, h2, h3⟩
      refine ⟨p - m.1, List.mem_range.2 (by omega), ?_⟩
      rw [decide_eq_true_eq, show m.1 + (p - m.1) = p by omega]
      exact (sourceLow_iff hE (by omega)).2 h3
  have h0 : ∀ q : Nat × Nat → Bool, ms.countP q ≠ 0 ↔ ∃ m ∈ ms, q m = true := by
    intro q
    rw [← List.countP_pos_iff]
    omega
  unfold checkAlignedTerminals AlignedOK
  simp only [Bool.or_eq_true, Bool.and_eq_true, decide_eq_true_eq, Bool.not_eq_true', h0, List.countP_eq_length]
  cases E.alignedTerminal <;> cases E.alignedChunks
  · simp
  · simp
  · simp only [Bool.true_eq_false, false_or, true_or, and_true, true_implies, Bool.false_eq_true, false_implies]
    exact exists_congr fun m => and_congr_right fun hm => key m hm
  · simp only [Bool.true_eq_false, false_or, true_implies]
    exact and_congr (exists_congr fun m => and_congr_right fun hm => key m hm) (forall_congr' fun m => forall_congr' fun hm => key m hm)

theorem checkTight_of {E : XEnv} (hE : LinksOK E) {ms : List (Nat × Nat)} (hin : ∀ g ∈ natGaps ms, g.1 < g.2 ∧ g.2 ≤ E.src.length)
    (h : E.tight = true → ∀ g ∈ natGaps ms, SrcAligned E g.1 ∧ SrcAligned E (g.2 - 1)) : checkTightPhrases E ms = true := by
  unfold checkTightPhrases
  cases ht : E.tight with
  | false => rfl
  | true =>
    rw [innerGaps_eq]
    simp only [Bool.not_true, Bool.false_or, List.all_eq_true, Bool.and_eq_true, decide_eq_true_eq]
    intro g hg
    rw [castGaps, List.mem_map] at hg
    obtain ⟨g, hg, rfl⟩ := hg
    have b := hin g hg
    obtain ⟨t1, t2⟩ := h ht g hg
    simp only [Int.toNat_natCast]
    rw [show ((g.2 : Int) - 1).toNat = g.2 - 1 by omega]
    exact ⟨(sourceLow_iff hE (by omega)).2 t1, (sourceLow_iff hE (by omega)).2 t2⟩

/-- The words that the extractor reads outside the sentence do not matter. -/
theorem extremities_junk {E : XEnv} (hmin : 1 ≤ E.minGap) (j1 j2 : Int) (ms : List (Nat × Nat)) (source : List Int) (a b : Nat) (hab : a < b) (hb : b ≤ E.src.length)
    (tg : List (Int × Int)) (sx ex left right : Bool) :
    extremities E j1 ms source a b tg sx ex left right = extremities E j2 ms source a b tg sx ex left right := by
  have hl : readLow E j1 ((a : Int) - if left = true then 1 else 0) = readLow E j2 ((a : Int) - if left = true then 1 else 0) ∨ extendLow E sx left a = none := by
    cases left with
    | false => left; unfold readLow; simp only [Bool.false_eq_true, if_false]; rw [if_pos (by omega), if_pos (by omega)]
    | true =>
      by_cases h : a = 0
      · right; subst h; unfold extendLow; rw [if_pos rfl, if_pos (by simp; omega)]
      · left; unfold readLow; simp only [if_true]; rw [if_pos (by omega), if_pos (by omega)]
  have hr : readLow E j1 ((b : Int) + (if right = true then 1 else 0) - 1) = readLow E j2 ((b : Int) + (if right = true then 1 else 0) - 1) ∨ extendHigh E ex right b = none := by
    cases right with
    | false => left; unfold readLow; simp only [Bool.false_eq_true, if_false]; rw [if_pos (by omega), if_pos (by omega)]
    | true =>
      by_cases h : b = E.src.length
      · right; subst h; unfold extendHigh; rw [if_pos rfl, if_pos (by simp; omega)]
      · left; unfold readLow; simp only [if_true]; rw [if_pos (by omega), if_pos (by omega)]
  unfold extremities
  simp only []
  rcases hl with hl | hl
  · rcases hr with hr | hr
    · rw [hl, hr]
    · rw [hr]
      cases extendLow E sx left a <;> simp
  · rw [hl]
    simp

theorem extractAlignments_junk {E : XEnv} (hE : LinksOK E) (hmin : 1 ≤ E.minGap) (j1 j2 : Int) {phrase : List Int} {m c : Nat} {ms : List (Nat × Nat)}
    (hocc : Occurs E.src E.minGap phrase ((m, c) :: ms)) :
    extractAlignments E j1 phrase (((m, c) :: ms).map (·.1)) = extractAlignments E j2 phrase (((m, c) :: ms).map (·.1)) := by
  have hend := occurs_end hocc
  have hml := chain_lt ms m c (occurs_chain hocc)
  unfold extractAlignments
  rw [occurs_zip hocc]
  simp only []
  have e1 : (((((m, c) :: ms).headD (0, 0)).1 : Nat) : Int) = (m : Int) := rfl
  have e2 : (((((m, c) :: ms).getLastD (0, 0)).1 : Nat) : Int) + ((((m, c) :: ms).getLastD (0, 0)).2 : Nat) = ((chunksEnd ((m, c) :: ms) : Nat) : Int) := by
    unfold chunksEnd; push_cast; rfl
  rw [e1, e2]
  split
  · rfl
  · split
    · rfl
    · rfl
    · rename_i r hfix
      obtain ⟨a, b, c', d', rfl, g1, g2, g3, _⟩ := fix_found hE (Nat.le_of_lt hml) hend hfix
      simp only []
      have key := fun source tg sx ex left right => extremities_junk hmin j1 j2 ((m, c) :: ms) source a b (by omega) g3 tg sx ex left right
      simp only [key]

/-- Every rule for the occurrence itself, or with the nearest nonterminals at its ends, is extracted. -/
theorem extractAlignments_complete {E : XEnv} (hE : LinksOK E) (hmin : 1 ≤ E.minGap) (hnt2 : E.maxNT ≤ 2) (junk : Int) {phrase : List Int} {m c : Nat} {ms : List (Nat × Nat)}
    (hocc : Occurs E.src E.minGap phrase ((m, c) :: ms)) (hal : AlignedOK E ((m, c) :: ms)) (left right : Bool) {a b : Nat}
    (ha : if left then NearestLow E m a else a = m) (hb : if right then NearestHigh E (chunksEnd ((m, c) :: ms)) b else b = chunksEnd ((m, c) :: ms))
    (hcl : left = true ∨ right = true → Closed E (m, chunksEnd ((m, c) :: ms)))
    {source target : List Int} {al : List (Nat × Nat)} {t : Nat × Nat} {sg tg : List (Nat × Nat)} (hr : IsRule E source target al (a, b) t sg tg)
    (hsg : sg = (if left then [(a, m)] else []) ++ natGaps ((m, c) :: ms) ++ if right then [(chunksEnd ((m, c) :: ms), b)] else [])
    (xs : List Extracted) (hxs : extractAlignments E junk phrase (((m, c) :: ms).map (·.1)) = some xs) :
    ∃ x ∈ xs, x.source = source ∧ x.target = target ∧ ∀ ij, ij ∈ x.alignment ↔ ij ∈ al := by
  have hmlt := chain_lt ms m c (occurs_chain hocc)
  have hend := occurs_end hocc
  have hrt := hr.target_gaps
  have hrsp := hr.span
  have hin : ∀ g ∈ natGaps ((m, c) :: ms), g.1 < g.2 ∧ g.2 ≤ E.src.length := by
    intro g hg
    have := (natGaps_inOrder [] (chunksEnd ((m, c) :: ms)) m c ms m (occurs_chain hocc) (Nat.le_refl _) (Nat.le_refl _)).mem g (by simpa using hg)
    omega
  have hpair : ∀ g ∈ sg, ∃ u, Pair E g u ∧ (u.2 : Int) - u.1 ≤ E.maxSpan := by
    intro g hg
    obtain ⟨k, hk, rfl⟩ := List.mem_iff_getElem.1 hg
    have hk' : k < tg.length := by have := hr.length; omega
    refine ⟨tg[k], hr.gap_pairs k _ _ (List.getElem?_eq_getElem hk) (List.getElem?_eq_getElem hk'), ?_⟩
    have := hrt.1.2.1 _ (List.getElem_mem hk')
    omega
  have hgaps : ∀ g ∈ natGaps ((m, c) :: ms), Closed E g ∧ (E.tight = true → SrcAligned E g.1 ∧ SrcAligned E (g.2 - 1)) := by
    intro g hg
    obtain ⟨u, hu, hw⟩ := hpair g (by rw [hsg]; simp [hg])
    exact ⟨pair_closed hu (hin g hg).2 hw, fun ht => ⟨(hu.tight ht).1, (hu.tight ht).2.1⟩⟩
  have hclosed : Closed E (m, chunksEnd ((m, c) :: ms)) := by
    cases left with
    | true => exact hcl (Or.inl rfl)
    | false =>
      cases right with
      | true => exact hcl (Or.inr rfl)
      | false =>
        simp only [Bool.false_eq_true, if_false] at ha hb
        rw [← hb, ← ha]
        exact pair_closed hr.pair (by simp only []; omega) hrsp.2
  unfold extractAlignments at hxs
  rw [occurs_zip hocc] at hxs
  simp only [] at hxs
  rw [(checkAligned_iff hE (occurs_within hocc)).2 hal, checkTight_of hE hin fun ht g hg => (hgaps g hg).2 ht] at hxs
  rw [if_neg (by simp)] at hxs
  have e1 : (((((m, c) :: ms).headD (0, 0)).1 : Nat) : Int) = (m : Int) := rfl
  have e2 : (((((m, c) :: ms).getLastD (0, 0)).1 : Nat) : Int) + ((((m, c) :: ms).getLastD (0, 0)).2 : Nat) = ((chunksEnd ((m, c) :: ms) : Nat) : Int) := by
    unfold chunksEnd; push_cast; rfl
  rw [e1, e2] at hxs
  obtain ⟨t0, hfix, hw0, hfound⟩ := closed_found hE hclosed E.minGap 0 ((E.maxNT : Int) - (((m, c) :: ms).map (·.1)).length + 1) true true false
  simp only [] at hfix
  rw [hfix] at hxs
  simp only [] at hxs
  obtain ⟨tg0, met, hgg, hlen0, hf0, hmet⟩ := getGaps_exact hE (e := chunksEnd ((m, c) :: ms)) phrase.length hgaps
  rw [hgg] at hxs
  simp only [ne_eq, not_true_eq_false, decide_false] at hxs
  generalize hfirst : (if met = true then addExtracts E (extendPhrase phrase false false) (sourceIndexes ((m, c) :: ms) (if false = true then 1 else 0) fun _ => none)
    (castGaps tg0) t0.1 t0.2 else some []) = first at hxs
  cases first with
  | none => simp at hxs
  | some first =>
    simp only [] at hxs
    have hsrclen : source.length = (if left then 1 else 0) + phrase.length + if right then 1 else 0 := by
      obtain ⟨_, hside⟩ := side_source left right a b m c ms (occurs_chain hocc)
        (by cases left <;> simp at ha ⊢ <;> [exact ha; (have := ha.1; omega)])
        (by cases right <;> simp at hb ⊢ <;> [exact hb; (have := hb.1; omega)])
      rw [hr.source_eq, hsg, hside, source_syms hocc left right, extendPhrase_length]
    by_cases hb0 : left = false ∧ right = false
    · obtain ⟨rfl, rfl⟩ := hb0
      simp only [Bool.false_eq_true, if_false, List.nil_append, List.append_nil] at ha hb hsg
      subst ha hb
      have ht := fun h => hr.pair.tight h
      have hF := hfound fun h => ⟨(ht h).1, (ht h).2.1⟩
      rw [hmet hmlt hend fun h => ⟨(ht h).1, (ht h).2.1⟩, if_pos rfl] at hfirst
      obtain ⟨ys, hys, hbatch⟩ := addExtracts_batch hE hocc false false _ _ (by simp) (by simp) hend sg tg0 (by simp [hsg]) (by rw [hsg]; exact hlen0)
        (by have := hr.nonterminals; omega) t0 hF (by rw [hsg]; exact hf0) hrsp.1 hw0 hr.nonterminals (by rw [extendPhrase_length]; have := hr.symbols; simp at hsrclen ⊢; omega) hr.min_gap
      rw [hys] at hfirst
      cases hfirst
      obtain ⟨x, hx, h1⟩ := batch_rule hbatch hF (by rw [hsg]; exact hlen0) (by rw [hsg]; exact hf0) hr
      split at hxs
      · cases hxs; exact ⟨x, hx, h1⟩
      · split at hxs
        · cases hxs; exact ⟨x, by simp [hx], h1⟩
        · cases hxs
    · obtain ⟨ys, hys, x, hx, h1⟩ := extremities_exact hE hmin hnt2 junk hocc hlen0 hf0 left right ha hb hr hsg
      have hntr := hr.nonterminals
      have hsyr := hr.symbols
      have hsgl : sg.length = (if left then 1 else 0) + (natGaps ((m, c) :: ms)).length + if right then 1 else 0 := by
        rw [hsg]; cases left <;> cases right <;> simp <;> omega
      have hab : (chunksEnd ((m, c) :: ms) : Int) - m + E.minGap ≤ b - a := by
        cases left <;> cases right <;> simp at ha hb hb0
        · have := hb.1; omega
        · have := ha.1; omega
        · have := hb.1; have := ha.1; omega
      rw [if_neg] at hxs
      swap
      · rw [extendPhrase_length]
        have : (castGaps (natGaps ((m, c) :: ms))).length = (natGaps ((m, c) :: ms)).length := by simp [castGaps]
        rw [this]
        simp only [Bool.false_eq_true, if_false]
        have hone : 1 ≤ (if left = true then 1 else 0) + if right = true then 1 else 0 := by
          cases left <;> cases right <;> simp at hb0 ⊢
        omega
      split at hxs
      swap
      · cases hxs
      rename_i y1 y2 y3 h2 h3 h4
      cases hxs
      cases left <;> cases right <;> simp at hb0
      · rw [hys] at h2; cases h2; exact ⟨x, by simp [hx], h1⟩
      · rw [hys] at h3; cases h3; exact ⟨x, by simp [hx], h1⟩
      · rw [hys] at h4; cases h4; exact ⟨x, by simp [hx], h1⟩

end Cdec.Extract
