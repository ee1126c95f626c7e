import Verif.Extract.SuffixSortLemmas
import Mathlib.Data.List.Perm.Basic
import Mathlib.Data.List.Nodup
/-!
# Lemmas: initial bucket sort and the whole construction
-/
namespace Cdec.Extract

/-- Number of positions of the text holding a word below `w`. -/
def cnt (text : List Nat) (w : Nat) : Nat := text.countP (· < w)

theorem cnt_succ (text : List Nat) (w : Nat) : cnt text (w + 1) = cnt text w + text.count w := by
  induction text with
  | nil => rfl
  | cons x xs ih =>
    simp only [cnt, List.countP_cons, List.count_cons] at ih ⊢
    rw [ih]
    by_cases h : x = w
    · subst h; simp; omega
    · have : (x < w + 1) ↔ x < w := by omega
      simp [this, h]; omega

theorem cnt_mono (text : List Nat) {v w : Nat} (h : v ≤ w) : cnt text v ≤ cnt text w := by
  induction w with
  | zero => rw [show v = 0 by omega]
  | succ w ih =>
    by_cases h' : v = w + 1
    · rw [h']
    · have := ih (by omega)
      rw [cnt_succ]; omega

theorem cnt_zero (text : List Nat) : cnt text 0 = 0 := by simp [cnt]

theorem cnt_all (text : List Nat) (V : Nat) (h : ∀ w ∈ text, w < V) : cnt text V = text.length := by
  simp only [cnt, List.countP_eq_length]
  simpa using h

theorem cnt_le (text : List Nat) (w : Nat) : cnt text w ≤ text.length := List.countP_le_length

theorem countWords_eq (text : List Nat) (w : Nat) : countWords text w = text.count w := by
  have gen : ∀ (ws : Nat → Nat), text.foldl (fun ws w => upd ws w (ws w + 1)) ws w = ws w + text.count w := by
    induction text with
    | nil => intro ws; rfl
    | cons x xs ih =>
      intro ws
      rw [List.foldl_cons, ih, List.count_cons]
      by_cases h : w = x
      · subst h; rw [upd_same]; simp; omega
      · rw [upd_ne _ _ h]
        have : ¬ x = w := fun e => h e.symm
        simp [this]
  rw [countWords, gen]; simp

theorem prefixSums_eq (text : List Nat) (m i : Nat) (hi : i < m) :
    prefixSums m (countWords text) i = cnt text (i + 1) := by
  have gen : ∀ k, (∀ i, i ≤ k → (List.range' 1 k).foldl (fun ws i => upd ws i (ws i + ws (i - 1))) (countWords text) i =
      cnt text (i + 1)) ∧
      (∀ i, k < i → (List.range' 1 k).foldl (fun ws i => upd ws i (ws i + ws (i - 1))) (countWords text) i =
        text.count i) := by
    intro k
    induction k with
    | zero =>
      refine ⟨fun i hi => ?_, fun i hi => by simp [countWords_eq]⟩
      have : i = 0 := by omega
      subst this
      simp only [List.range'_zero, List.foldl_nil, countWords_eq]
      rw [cnt_succ, cnt_zero]; omega
    | succ k ih =>
      obtain ⟨h1, h2⟩ := ih
      refine ⟨fun i hi => ?_, fun i hi => ?_⟩
      · rw [List.range'_concat, List.foldl_append]
        simp only [List.foldl_cons, List.foldl_nil, Nat.one_mul]
        by_cases h : i = 1 + k
        · subst h
          rw [upd_same, h2 _ (by omega), h1 _ (by omega), cnt_succ text (1 + k), Nat.add_sub_cancel_left,
            Nat.add_comm k 1]
          omega
        · rw [upd_ne _ _ h, h1 i (by omega)]
      · rw [List.range'_concat, List.foldl_append]
        simp only [List.foldl_cons, List.foldl_nil, Nat.one_mul]
        rw [upd_ne _ _ (by omega), h2 i (by omega)]
  exact (gen (m - 1)).1 i (by omega)

/-- State of the placement loop after `k` positions. -/
structure PlaceInv (text : List Nat) (V k : Nat) (ws : Nat → Nat) (sa : Nat → Int) : Prop where
  wsEq : ∀ w, w ≤ V → ws w + (text.take k).count w = cnt text (w + 1)
  mem : ∀ w r, w < V → ws w ≤ r → r < cnt text (w + 1) → ∃ p : Nat, p < k ∧ text[p]? = some w ∧ sa r = p
  desc : ∀ w r r', w < V → ws w ≤ r → r < r' → r' < cnt text (w + 1) → sa r' < sa r
  all : ∀ (p : Nat) w, p < k → text[p]? = some w → ∃ r, ws w ≤ r ∧ r < cnt text (w + 1) ∧ sa r = p

theorem place_inv (text : List Nat) (V : Nat) (hV : ∀ w ∈ text, w < V) (sa0 : Nat → Int) (k : Nat)
    (hk : k ≤ text.length) :
    PlaceInv text V k
      ((text.zipIdx.take k).foldl placeStep (prefixSums (V + 1) (countWords text), sa0)).1
      ((text.zipIdx.take k).foldl placeStep (prefixSums (V + 1) (countWords text), sa0)).2 := by
  induction k with
  | zero =>
    simp only [List.take_zero, List.foldl_nil]
    refine ⟨?_, ?_, ?_, fun p w hp => absurd hp (by omega)⟩
    · intro w hw; rw [prefixSums_eq _ _ _ (by omega)]; simp
    · intro w r hw h1 h2; rw [prefixSums_eq _ _ _ (by omega)] at h1; omega
    · intro w r r' hw h1 h2 h3; rw [prefixSums_eq _ _ _ (by omega)] at h1; omega
  | succ k ih =>
    have inv := ih (by omega)
    have hkl : k < text.length := by omega
    generalize he : (text.zipIdx.take k).foldl placeStep (prefixSums (V + 1) (countWords text), sa0) = s at inv
    have hx : text.zipIdx.take (k + 1) = text.zipIdx.take k ++ [(text[k], k)] := by
      rw [List.take_succ]
      simp [List.getElem?_eq_getElem hkl]
    have hxV := hV text[k] (List.getElem_mem hkl)
    generalize hxe : text[k] = x at hx hxV
    have hget : text[k]? = some x := by rw [List.getElem?_eq_getElem hkl, hxe]
    have htk : text.take (k + 1) = text.take k ++ [x] := by
      rw [List.take_succ, hget]; rfl
    have hcount : ∀ w, (text.take (k + 1)).count w ≤ text.count w := fun w =>
      (List.take_sublist _ _).count_le _
    rw [hx, List.foldl_append, he]
    simp only [List.foldl_cons, List.foldl_nil, placeStep]
    -- the word has an unplaced occurrence left
    have hw := inv.wsEq x (by omega)
    have hc := hcount x
    rw [htk, List.count_append] at hc
    simp only [List.count_cons_self, List.count_nil] at hc
    have hs := cnt_succ text x
    have hpos : cnt text x < s.1 x := by omega
    rw [upd_same]
    have sep : ∀ w r, w < V → w ≠ x → s.1 w ≤ r → r < cnt text (w + 1) → r ≠ s.1 x - 1 := by
      intro w r hwV hne h1 h2 e
      have hww := inv.wsEq w (by omega)
      have hcw : (text.take k).count w ≤ text.count w := (List.take_sublist _ _).count_le _
      have := cnt_succ text w
      rcases Nat.lt_or_ge w x with hlt | hge
      · have := cnt_mono text (show w + 1 ≤ x by omega)
        omega
      · have := cnt_mono text (show x + 1 ≤ w by omega)
        omega
    refine ⟨?_, ?_, ?_, ?_⟩
    · intro w hwV
      rw [htk, List.count_append]
      by_cases h : w = x
      · subst h; rw [upd_same]; simp only [List.count_cons_self, List.count_nil]; omega
      · rw [upd_ne _ _ h]
        have hne : ¬ x = w := fun e => h e.symm
        simp only [List.count_cons, List.count_nil, beq_iff_eq, hne, if_false]
        have := inv.wsEq w hwV; omega
    · intro w r hwV h1 h2
      by_cases h : w = x
      · subst h
        rw [upd_same] at h1
        by_cases hr : r = s.1 w - 1
        · subst hr
          exact ⟨k, by omega, hget, upd_same _ _ _⟩
        · obtain ⟨p, a, b, c⟩ := inv.mem w r hwV (by omega) h2
          exact ⟨p, by omega, b, by rw [upd_ne _ _ hr]; exact c⟩
      · rw [upd_ne _ _ h] at h1
        obtain ⟨p, a, b, c⟩ := inv.mem w r hwV h1 h2
        exact ⟨p, by omega, b, by rw [upd_ne _ _ (sep w r hwV h h1 h2)]; exact c⟩
    · intro w r r' hwV h1 h2 h3
      by_cases h : w = x
      · subst h
        rw [upd_same] at h1
        rw [upd_ne _ _ (show r' ≠ s.1 w - 1 by omega)]
        by_cases hr : r = s.1 w - 1
        · subst hr
          rw [upd_same]
          obtain ⟨p, a, b, c⟩ := inv.mem w r' hwV (by omega) h3
          omega
        · rw [upd_ne _ _ hr]
          exact inv.desc w r r' hwV (by omega) h2 h3
      · rw [upd_ne _ _ h] at h1
        rw [upd_ne _ _ (sep w r hwV h h1 (by omega)), upd_ne _ _ (sep w r' hwV h (by omega) h3)]
        exact inv.desc w r r' hwV h1 h2 h3
    · intro p w hp hw'
      by_cases hpk : p = k
      · subst hpk
        have : w = x := by rw [hget] at hw'; exact (Option.some.inj hw').symm
        subst this
        refine ⟨s.1 w - 1, by rw [upd_same], ?_, upd_same _ _ _⟩
        omega
      · obtain ⟨r, a, b, c⟩ := inv.all p w (by omega) hw'
        have hwV : w < V := hV w (List.mem_of_getElem? hw')
        by_cases h : w = x
        · subst h
          exact ⟨r, by rw [upd_same]; omega, b, by rw [upd_ne _ _ (by omega)]; exact c⟩
        · exact ⟨r, by rw [upd_ne _ _ h]; exact a, b, by rw [upd_ne _ _ (sep w r hwV h a b)]; exact c⟩

/-- The result of the initial bucket sort. -/
structure BucketSpec (text : List Nat) (V : Nat) (ws : Nat → Nat) (sa : Nat → Int) (g : Nat → Nat) : Prop where
  wsEq : ∀ w, w ≤ V → ws w = cnt text w
  gEq : ∀ (p : Nat) w, text[p]? = some w → g p = cnt text (w + 1) - 1
  mem : ∀ w r, w < V → cnt text w ≤ r → r < cnt text (w + 1) → ∃ p : Nat, text[p]? = some w ∧ sa r = p
  desc : ∀ w r r', w < V → cnt text w ≤ r → r < r' → r' < cnt text (w + 1) → sa r' < sa r
  all : ∀ (p : Nat) w, text[p]? = some w → ∃ r, cnt text w ≤ r ∧ r < cnt text (w + 1) ∧ sa r = p

theorem bucket_spec (text : List Nat) (V : Nat) (hV : ∀ w ∈ text, w < V) :
    BucketSpec text V (initialBucketSort (V + 1) text).1 (initialBucketSort (V + 1) text).2.1
      (initialBucketSort (V + 1) text).2.2 := by
  have inv := place_inv text V hV (fun _ => 0) text.length (le_refl _)
  rw [List.take_of_length_le (by simp)] at inv
  have hws : ∀ w, w ≤ V → (text.zipIdx.foldl placeStep (prefixSums (V + 1) (countWords text), fun _ => 0)).1 w =
      cnt text w := by
    intro w hw
    have := inv.wsEq w hw
    rw [List.take_length, cnt_succ] at this
    omega
  refine ⟨hws, ?_, ?_, ?_, ?_⟩
  · intro p w hp
    have hw := hV w (List.mem_of_getElem? hp)
    simp only [initialBucketSort]
    rw [List.getD_eq_getElem?_getD, hp, Option.getD_some, hws _ (by omega)]
  · intro w r hw h1 h2
    obtain ⟨p, a, b, c⟩ := inv.mem w r hw (by rw [hws w (by omega)]; exact h1) h2
    exact ⟨p, b, c⟩
  · intro w r r' hw h1 h2 h3
    exact inv.desc w r r' hw (by rw [hws w (by omega)]; exact h1) h2 h3
  · intro p w hp
    have hw := hV w (List.mem_of_getElem? hp)
    have hpl : p < text.length := (List.getElem?_eq_some_iff.1 hp).1
    obtain ⟨r, a, b, c⟩ := inv.all p w hpl hp
    exact ⟨r, by rw [hws w (by omega)] at a; exact a, b, c⟩

theorem BucketSpec.g_lt {text : List Nat} {V : Nat} {ws : Nat → Nat} {sa : Nat → Int} {g : Nat → Nat}
    (b : BucketSpec text V ws sa g) {p q v w : Nat} (hp : text[p]? = some v) (hq : text[q]? = some w) :
    g p < g q ↔ v < w := by
  have c1 := cnt_succ text v
  have c2 := cnt_succ text w
  have p1 : 0 < text.count v := List.count_pos_iff.2 (List.mem_of_getElem? hp)
  have p2 : 0 < text.count w := List.count_pos_iff.2 (List.mem_of_getElem? hq)
  rw [b.gEq p v hp, b.gEq q w hq]
  constructor
  · intro h
    by_contra hc
    have := cnt_mono text (show w + 1 ≤ v + 1 by omega)
    omega
  · intro h
    have := cnt_mono text (show v + 1 ≤ w by omega)
    omega

theorem BucketSpec.g_eq {text : List Nat} {V : Nat} {ws : Nat → Nat} {sa : Nat → Int} {g : Nat → Nat}
    (b : BucketSpec text V ws sa g) {p q v w : Nat} (hp : text[p]? = some v) (hq : text[q]? = some w) :
    g p = g q ↔ v = w := by
  have h1 := b.g_lt hp hq
  have h2 := b.g_lt hq hp
  omega

theorem bucket_good {data : List Nat} {V : Nat} {ws : Nat → Nat} {sa : Nat → Int} {g : Nat → Nat}
    (hpos : ∀ w ∈ data, 0 < w) (b : BucketSpec (data ++ [0]) V ws sa g) : Good data 1 g := by
  have word : ∀ p, p < data.length + 1 → ∃ w, (data ++ [0])[p]? = some w ∧
      ((p = data.length ∧ w = 0) ∨ (∃ h : p < data.length, w = data[p] ∧ 0 < w)) := by
    intro p hp
    by_cases hpl : p < data.length
    · refine ⟨data[p], by rw [List.getElem?_append_left hpl, List.getElem?_eq_getElem hpl], Or.inr ⟨hpl, rfl, ?_⟩⟩
      exact hpos _ (List.getElem_mem hpl)
    · have : p = data.length := by omega
      subst this
      exact ⟨0, by simp, Or.inl ⟨rfl, rfl⟩⟩
  refine ⟨?_, ?_, ?_⟩
  · intro p q hp hq hlt
    obtain ⟨v, e1, c1⟩ := word p hp
    obtain ⟨w, e2, c2⟩ := word q hq
    have hvw := (b.g_lt e1 e2).1 hlt
    rcases c2 with ⟨_, rfl⟩ | ⟨hq', rfl, _⟩
    · omega
    rcases c1 with ⟨rfl, rfl⟩ | ⟨hp', rfl, _⟩
    · rw [List.drop_length, List.drop_eq_getElem_cons hq']; exact List.nil_lt_cons _ _
    · rw [List.drop_eq_getElem_cons hq', List.drop_eq_getElem_cons hp']
      exact List.cons_lt_cons_iff.2 (Or.inl hvw)
  · intro p q hp hq he
    obtain ⟨v, e1, c1⟩ := word p hp
    obtain ⟨w, e2, c2⟩ := word q hq
    have hvw := (b.g_eq e1 e2).1 he
    rcases c2 with ⟨rfl, rfl⟩ | ⟨hq', rfl, _⟩ <;> rcases c1 with ⟨rfl, rfl⟩ | ⟨hp', rfl, _⟩
    · rfl
    · omega
    · omega
    · rw [List.drop_eq_getElem_cons hq', List.drop_eq_getElem_cons hp', List.take_succ_cons, List.take_succ_cons, List.take_zero,
        List.take_zero, hvw]
  · intro p hp
    obtain ⟨v, e1, _⟩ := word p hp
    rw [b.gEq p v e1]
    have := cnt_le (data ++ [0]) (v + 1)
    simp only [List.length_append, List.length_cons, List.length_nil] at this
    omega

/-- State of the marking loop after the words below `k`. -/
structure MarkInv (text : List Nat) (g : Nat → Nat) (k : Nat) (sa0 sa : Nat → Int) (c : Nat) : Prop where
  cle : c ≤ cnt text k
  done : Tiled text.length g sa 0 (cnt text k - c)
  comb : 0 < c → sa (cnt text k - c) = -(c : Int)
  sing : ∀ r, cnt text k - c ≤ r → r < cnt text k → ∃ p, p < text.length ∧ g p = r ∧
    ∀ q, q < text.length → g q = r → q = p
  rest : ∀ r, cnt text k ≤ r → sa r = sa0 r

theorem MarkInv.tiled {text : List Nat} {g : Nat → Nat} {k c : Nat} {sa0 sa : Nat → Int}
    (inv : MarkInv text g k sa0 sa c) : Tiled text.length g sa 0 (cnt text k) := by
  refine inv.done.append ?_
  have := inv.cle
  by_cases hc : 0 < c
  · refine .run _ _ c hc (inv.comb hc) (fun r h1 h2 => inv.sing r h1 (by omega)) ?_
    rw [show cnt text k - c + c = cnt text k by omega]; exact .nil _
  · rw [show cnt text k - c = cnt text k by omega]; exact .nil _

theorem mark_inv {text : List Nat} {V : Nat} {ws : Nat → Nat} {sa : Nat → Int} {g : Nat → Nat}
    (b : BucketSpec text V ws sa g) (k : Nat) (hk : k ≤ V) :
    MarkInv text g k sa ((List.range' 1 k).foldl (markStep ws) (sa, 0)).1
      ((List.range' 1 k).foldl (markStep ws) (sa, 0)).2 := by
  induction k with
  | zero =>
    have h0 := cnt_zero text
    refine ⟨by simp, by simp [h0]; exact .nil _, by simp, fun r h1 h2 => absurd h2 (by omega), fun r _ => by simp⟩
  | succ k ih =>
    have inv := ih (by omega)
    rw [List.range'_concat, List.foldl_append]
    generalize (List.range' 1 k).foldl (markStep ws) (sa, 0) = s at inv
    simp only [List.foldl_cons, List.foldl_nil, Nat.one_mul, markStep]
    have hw1 := b.wsEq (1 + k) (by omega)
    have hw0 := b.wsEq k (by omega)
    have hadd : 1 + k - 1 = k := by omega
    rw [hw1, hadd, hw0, Nat.add_comm 1 k]
    have hcs := cnt_succ text k
    have hmono := cnt_mono text (show k ≤ k + 1 by omega)
    have hcle := inv.cle
    -- members of the bucket
    have gk : ∀ p, p < text.length → cnt text k < cnt text (k + 1) →
        (g p = cnt text (k + 1) - 1 ↔ text[p]? = some k) := by
      intro p hp hne
      obtain ⟨q, hq, _⟩ := b.mem k (cnt text k) (by omega) (le_refl _) hne
      have hpe : text[p]? = some text[p] := List.getElem?_eq_getElem hp
      have := b.g_eq hpe hq
      rw [b.gEq q k hq] at this
      rw [this, hpe, Option.some.injEq]
    have gout : ∀ p, p < text.length → ¬ (cnt text k ≤ g p ∧ g p < cnt text (k + 1) - 1) := by
      intro p hp hh
      have hpe : text[p]? = some text[p] := List.getElem?_eq_getElem hp
      have e := b.gEq p _ hpe
      have p1 : 0 < text.count text[p] := List.count_pos_iff.2 (List.getElem_mem hp)
      have := cnt_succ text text[p]
      rcases Nat.lt_or_ge text[p] k with h | h
      · have := cnt_mono text (show text[p] + 1 ≤ k by omega); omega
      · have := cnt_mono text (show k + 1 ≤ text[p] + 1 by omega); omega
    by_cases hone : (cnt text (k + 1) : Int) - cnt text k = 1
    · rw [if_pos hone]
      have h1 : cnt text (k + 1) = cnt text k + 1 := by omega
      refine ⟨by simp only []; omega, ?_, ?_, ?_, ?_⟩
      · simp only []
        rw [show cnt text (k + 1) - (s.2 + 1) = cnt text k - s.2 by omega]
        refine inv.done.congr (fun _ _ _ _ _ => Iff.rfl) (fun i _ h3 => ?_)
        exact (upd_ne _ _ (by omega)).symm
      · intro _
        simp only []
        rw [upd_same]; push_cast; rfl
      · simp only []
        intro r h2 h3
        by_cases hr : r = cnt text k
        · subst hr
          obtain ⟨p, hp, e⟩ := b.mem k (cnt text k) (by omega) (le_refl _) (by omega)
          have hpl : p < text.length := (List.getElem?_eq_some_iff.1 hp).1
          refine ⟨p, hpl, by have := (gk p hpl (by omega)).2 hp; omega, ?_⟩
          intro q hq hg
          have hq' := (gk q hq (by omega)).1 (by omega)
          obtain ⟨r, a1, a2, a3⟩ := b.all q k hq'
          have : r = cnt text k := by omega
          subst this
          omega
        · exact inv.sing r (by omega) (by omega)
      · simp only []
        intro r h2
        rw [upd_ne _ _ (by omega), inv.rest r (by omega)]
    · rw [if_neg hone]
      refine ⟨by simp, ?_, by simp, fun r h1 h2 => absurd h1 (by simp only []; omega), ?_⟩
      · simp only [Nat.sub_zero]
        refine inv.tiled.append ?_
        by_cases h0 : cnt text (k + 1) = cnt text k
        · rw [h0]; exact .nil _
        · have hgt : cnt text k + 1 < cnt text (k + 1) := by omega
          refine .grp _ _ (cnt text (k + 1) - 1) (by omega) ?_ ?_ ?_ gout (by
            rw [show cnt text (k + 1) - 1 + 1 = cnt text (k + 1) by omega]; exact .nil _)
          · intro i h1 h2
            obtain ⟨p, hp, e⟩ := b.mem k i (by omega) h1 (by omega)
            have hpl : p < text.length := (List.getElem?_eq_some_iff.1 hp).1
            exact ⟨p, hpl, by rw [inv.rest i h1]; exact e, (gk p hpl (by omega)).2 hp⟩
          · intro i j h1 h2 h3 h4 e
            rw [inv.rest i h1, inv.rest j h3] at e
            by_contra hne
            rcases Nat.lt_or_ge i j with h | h
            · have := b.desc k i j (by omega) h1 h (by omega); omega
            · have := b.desc k j i (by omega) h3 (by omega) (by omega); omega
          · intro p hp hg
            obtain ⟨r, a1, a2, a3⟩ := b.all p k ((gk p hp (by omega)).1 hg)
            exact ⟨r, a1, by omega, by rw [inv.rest r a1]; exact a3⟩
      · intro r h1
        exact inv.rest r (by omega)

theorem invert_fold (g : Nat → Nat) (sa : Nat → Int) (n : Nat) (hinj : ∀ p q, p < n → q < n → g p = g q → p = q) :
    ∀ p, p < n → (List.range n).foldl (fun sa i => upd sa (g i) (i : Int)) sa (g p) = p := by
  have gen : ∀ k, k ≤ n → ∀ p, p < k → (List.range k).foldl (fun sa i => upd sa (g i) (i : Int)) sa (g p) = p := by
    intro k
    induction k with
    | zero => intro _ p hp; omega
    | succ k ih =>
      intro hk p hp
      rw [List.range_succ, List.foldl_append]
      simp only [List.foldl_cons, List.foldl_nil]
      by_cases h : p = k
      · subst h; exact upd_same _ _ _
      · rw [upd_ne _ _ (fun e => h (hinj p k (by omega) (by omega) e))]
        exact ih (by omega) p (by omega)
  exact gen n (le_refl _)

/-- The constructor sorts the suffixes. -/
theorem build_spec (data : List Nat) (V : Nat) (rnd : Nat → Nat) (hV : 0 < V) (hw : ∀ w ∈ data, 0 < w ∧ w < V) :
    ∃ s, buildSuffixArray data V rnd = some s ∧ s.sa.Perm (List.range (data.length + 1)) ∧
      s.sa.Pairwise (fun p q => data.drop p < data.drop q) ∧
      s.wordStart = (List.range (V + 1)).map (cnt (data ++ [0])) := by
  have hV' : ∀ w ∈ data ++ [0], w < V := by
    intro w hm
    rcases List.mem_append.1 hm with h | h
    · exact (hw w h).2
    · have : w = 0 := by simpa using h
      omega
  have b := bucket_spec (data ++ [0]) V hV'
  have good := bucket_good (fun w h => (hw w h).1) b
  have mk := (mark_inv b V (le_refl _)).tiled
  rw [cnt_all _ _ hV'] at mk
  have hlen : (data ++ [0]).length = data.length + 1 := by simp
  rw [hlen] at mk
  obtain ⟨st, e, hub, hlt, hbij⟩ := doubling_rank (rnd := rnd)
    (st := ⟨((List.range' 1 V).foldl (markStep (initialBucketSort (V + 1) (data ++ [0])).1)
      ((initialBucketSort (V + 1) (data ++ [0])).2.1, 0)).1, (initialBucketSort (V + 1) (data ++ [0])).2.2, 0⟩) good mk
  have hinj : ∀ p q, p < data.length + 1 → q < data.length + 1 → st.g p = st.g q → p = q := by
    intro p q hp hq hh
    obtain ⟨x, _, _, u⟩ := hbij (st.g p) (hub p hp)
    rw [u p hp rfl, u q hq hh.symm]
  have hfin := invert_fold st.g st.sa (data.length + 1) hinj
  generalize hf : (List.range (data.length + 1)).foldl (fun sa i => upd sa (st.g i) (i : Int)) st.sa = fin at hfin
  refine ⟨⟨(List.range (data.length + 1)).map fun r => (fin r).toNat,
    (List.range (V + 1)).map (initialBucketSort (V + 1) (data ++ [0])).1⟩, ?_, ?_, ?_, ?_⟩
  · simp only [buildSuffixArray, hlen, e, Option.bind_eq_bind, Option.bind_some, hf]; rfl
  · have hval : ∀ r, r < data.length + 1 → ∃ p, p < data.length + 1 ∧ st.g p = r ∧ (fin r).toNat = p := by
      intro r hr
      obtain ⟨p, hp, e1, _⟩ := hbij r hr
      exact ⟨p, hp, e1, by rw [← e1, hfin p hp]; simp⟩
    refine (List.perm_ext_iff_of_nodup ?_ List.nodup_range).2 ?_
    · refine (List.nodup_map_iff_inj_on List.nodup_range).2 ?_
      intro r hr r' hr' he
      obtain ⟨p, hp, e1, e2⟩ := hval r (List.mem_range.1 hr)
      obtain ⟨q, hq, f1, f2⟩ := hval r' (List.mem_range.1 hr')
      have : p = q := by omega
      subst this; omega
    · intro p
      simp only [List.mem_map, List.mem_range]
      constructor
      · rintro ⟨r, hr, rfl⟩
        obtain ⟨p, hp, e1, e2⟩ := hval r hr
        omega
      · intro hp
        exact ⟨st.g p, hub p hp, by rw [hfin p hp]; simp⟩
  · rw [List.pairwise_map]
    refine List.Pairwise.imp_of_mem ?_ List.pairwise_lt_range
    intro r r' hr hr' hlt'
    obtain ⟨p, hp, e1, _⟩ := hbij r (List.mem_range.1 hr)
    obtain ⟨q, hq, f1, _⟩ := hbij r' (List.mem_range.1 hr')
    rw [← e1, ← f1, hfin p hp, hfin q hq]
    exact hlt p q hp hq (by omega)
  · refine List.map_congr_left (fun w hw' => b.wsEq w ?_)
    have := List.mem_range.1 hw'; omega

end Cdec.Extract
