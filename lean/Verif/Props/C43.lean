import Verif.Extract.FixPointLemmas
/-!
# C43: The spans returned by FindFixPoint are consistent with the alignment
-/
namespace Cdec.Extract

/-- No link leaves the pair of spans `[a, b)` and `[c, d)`. -/
def Spec.Consistent (links : List (Nat × Nat)) (a b c d : Int) : Prop :=
  ∀ l ∈ links, (a ≤ l.1 ∧ l.1 < b) ↔ (c ≤ l.2 ∧ l.2 < d)
open Spec

theorem extendSide_some {P : FixParams} {room limit : Int} {isNew : Bool} {newX e x : Int} {n : Bool}
    (h0 : 0 ≤ room) (h1 : room ≤ limit) (h : extendSide P room limit isNew newX = some (e, n, x)) :
    room ≤ e ∧ e ≤ limit ∧ (room = 0 → e = 0 ∧ n = isNew ∧ x = newX) ∧
    (0 < room → n = true ∧ x = (if isNew then newX else newX + 1) ∧ (isNew = false → newX < P.maxNewX) ∧
      P.minSource ≤ e ∧ (P.minSource ≤ 1 → e = room)) := by
  unfold extendSide at h
  by_cases hr : room > 0
  · rw [if_pos hr] at h
    by_cases hx : (!isNew && decide (newX ≥ P.maxNewX)) = true
    · rw [if_pos hx] at h; cases h
    · rw [if_neg hx] at h
      have hx' : isNew = false → newX < P.maxNewX := by
        intro hi; rw [hi] at hx; simpa using hx
      simp only [] at h
      by_cases hm : room < P.minSource
      · rw [if_pos hm] at h
        by_cases hl : P.minSource > limit
        · rw [if_pos hl] at h; cases h
        · rw [if_neg hl] at h
          simp only [Option.some.injEq, Prod.mk.injEq] at h
          obtain ⟨rfl, rfl, rfl⟩ := h
          exact ⟨by omega, by omega, by omega, fun _ => ⟨rfl, rfl, hx', by omega, by omega⟩⟩
      · rw [if_neg hm] at h
        simp only [Option.some.injEq, Prod.mk.injEq] at h
        obtain ⟨rfl, rfl, rfl⟩ := h
        exact ⟨by omega, by omega, by omega, fun _ => ⟨rfl, rfl, hx', by omega, fun _ => rfl⟩⟩
  · rw [if_neg hr] at h
    simp only [Option.some.injEq, Prod.mk.injEq] at h
    obtain ⟨rfl, rfl, rfl⟩ := h
    exact ⟨by omega, by omega, fun h => ⟨h, rfl, rfl⟩, by omega⟩

theorem extendSide_none {P : FixParams} {room limit : Int} {isNew : Bool} {newX : Int}
    (h : extendSide P room limit isNew newX = none) :
    0 < room ∧ ((isNew = false ∧ P.maxNewX ≤ newX) ∨ room < P.minSource) := by
  unfold extendSide at h
  by_cases hr : room > 0
  · rw [if_pos hr] at h
    refine ⟨hr, ?_⟩
    by_cases hx : (!isNew && decide (newX ≥ P.maxNewX)) = true
    · left; simpa using hx
    · rw [if_neg hx] at h
      simp only [] at h
      by_cases hm : room < P.minSource
      · exact Or.inr hm
      · rw [if_neg hm] at h; cases h
  · rw [if_neg hr] at h; cases h

/-- The limits that never make the search fail. -/
structure Liberal (P : FixParams) : Prop where
  low : P.allowLow = true
  high : P.allowHigh = true
  arbitrary : P.allowArbitrary = true
  newX : 2 ≤ P.maxNewX
  minSource : P.minSource ≤ 1
  sspan : (P.slen : Int) ≤ P.maxSpan
  tspan : (P.tlen : Int) ≤ P.maxSpan

/-- The words at the edges of the target span are linked to words of the source span. -/
def EdgesLinked (links : List (Nat × Nat)) (sl sh tl th : Int) : Prop :=
  (∃ l ∈ links, sl ≤ l.1 ∧ (l.1 : Int) < sh ∧ (l.2 : Int) = tl) ∧ ∃ l ∈ links, sl ≤ l.1 ∧ (l.1 : Int) < sh ∧ (l.2 : Int) + 1 = th

theorem Hull.edges {R : Nat → Nat → Prop} {is : List Nat} {t t' : Int × Int} (h : Hull R is t t') (hne : t'.1 ≠ -1) :
    ((t.1 ≠ -1 ∧ t'.1 = t.1) ∨ ∃ i ∈ is, ∃ j : Nat, R i j ∧ (j : Int) = t'.1) ∧
    ((t.1 ≠ -1 ∧ t'.2 = t.2) ∨ ∃ i ∈ is, ∃ j : Nat, R i j ∧ (j : Int) + 1 = t'.2) := by
  constructor
  · by_contra hc
    rw [not_or] at hc
    have := h.least (t'.1 + 1) t'.2 (fun ht => by
      have g := h.grow ht
      have : t'.1 ≠ t.1 := fun e => hc.1 ⟨ht, e⟩
      omega) (fun i hi j hr => by
      have g := h.cover i hi j hr
      have : (j : Int) ≠ t'.1 := fun e => hc.2 ⟨i, hi, j, hr, e⟩
      omega) hne
    omega
  · by_contra hc
    rw [not_or] at hc
    have := h.least t'.1 (t'.2 - 1) (fun ht => by
      have g := h.grow ht
      have : t'.2 ≠ t.2 := fun e => hc.1 ⟨ht, e⟩
      omega) (fun i hi j hr => by
      have g := h.cover i hi j hr
      have : (j : Int) + 1 ≠ t'.2 := fun e => hc.2 ⟨i, hi, j, hr, e⟩
      omega) hne
    omega

/-- What the search guarantees on success. -/
structure GoodFix (P : FixParams) (links : List (Nat × Nat)) (sl0 sh0 : Int) (r : Fix) : Prop where
  consistent : Consistent links r.sourceLow r.sourceHigh r.targetLow r.targetHigh
  contains : r.sourceLow ≤ sl0 ∧ sh0 ≤ r.sourceHigh
  srange : 0 ≤ r.sourceLow ∧ r.sourceHigh ≤ P.slen
  trange : 0 ≤ r.targetLow ∧ r.targetLow < r.targetHigh ∧ r.targetHigh ≤ P.tlen
  tspan : r.targetHigh - r.targetLow ≤ P.maxSpan
  sspan : sh0 - sl0 ≤ P.maxSpan → r.sourceHigh - r.sourceLow ≤ P.maxSpan
  low : r.sourceLow < sl0 → P.allowLow = true ∧ P.minSource ≤ sl0 - r.sourceLow
  high : sh0 < r.sourceHigh → P.allowHigh = true ∧ P.minSource ≤ r.sourceHigh - sh0
  count : (if r.sourceLow < sl0 then 1 else 0) + (if sh0 < r.sourceHigh then 1 else 0) ≤ max 0 P.maxNewX
  least : P.minSource ≤ 1 → ∀ a b c d : Int, Consistent links a b c d → a ≤ sl0 → sh0 ≤ b →
    a ≤ r.sourceLow ∧ r.sourceHigh ≤ b ∧ c ≤ r.targetLow ∧ r.targetHigh ≤ d
  edges : EdgesLinked links r.sourceLow r.sourceHigh r.targetLow r.targetHigh

/-- The invariant of the loop. -/
structure LoopInv (P : FixParams) (links : List (Nat × Nat)) (sl0 sh0 sl sh tl th bl bh newX : Int) (nl nh : Bool) :
    Prop where
  srange : 0 ≤ sl ∧ sl ≤ sh ∧ sh ≤ P.slen
  brange : 0 ≤ bl ∧ bl < bh ∧ bh ≤ P.slen
  trange : 0 ≤ tl ∧ tl < th ∧ th ≤ P.tlen
  contains : sl ≤ sl0 ∧ sh0 ≤ sh
  tspan : th - tl ≤ P.maxSpan
  sspan : sh0 - sl0 ≤ P.maxSpan → sh - sl ≤ P.maxSpan
  out : ∀ l ∈ links, sl ≤ l.1 → (l.1 : Int) < sh → tl ≤ l.2 ∧ (l.2 : Int) < th
  back : ∀ l ∈ links, tl ≤ l.2 → (l.2 : Int) < th → bl ≤ l.1 ∧ (l.1 : Int) < bh
  low : nl = true → P.allowLow = true ∧ P.minSource ≤ sl0 - sl
  high : nh = true → P.allowHigh = true ∧ P.minSource ≤ sh - sh0
  low' : nl = false → sl = sl0
  high' : nh = false → sh = sh0
  newX_eq : newX = (if nl then 1 else 0) + (if nh then 1 else 0)
  newX_le : newX ≤ max 0 P.maxNewX
  least : P.minSource ≤ 1 → ∀ a b c d : Int, Consistent links a b c d → a ≤ sl0 → sh0 ≤ b →
    a ≤ sl ∧ sh ≤ b ∧ c ≤ tl ∧ th ≤ d ∧ a ≤ bl ∧ bh ≤ b
  edges : EdgesLinked links sl sh tl th

set_option maxHeartbeats 1600000 in
theorem fixLoop_spec (P : FixParams) (links : List (Nat × Nat)) (S : LinkSpans)
    (hs : ArrOK S.sourceLow S.sourceHigh P.slen (fun i j => (i, j) ∈ links))
    (ht : ArrOK S.targetLow S.targetHigh P.tlen (fun j i => (i, j) ∈ links))
    (hr : ∀ l ∈ links, l.1 < P.slen ∧ l.2 < P.tlen) (sl0 sh0 : Int) :
    ∀ (fuel : Nat) (sl sh tl th bl bh newX : Int) (nl nh : Bool), (P.slen : Int) - (sh - sl) < fuel →
      LoopInv P links sl0 sh0 sl sh tl th bl bh newX nl nh →
      ∃ r, fixLoop P S fuel sl sh tl th bl bh newX nl nh = some r ∧ (∀ f, r = some f → GoodFix P links sl0 sh0 f) ∧
        (Liberal P → r ≠ none) := by
  intro fuel
  induction fuel with
  | zero => intro sl sh tl th bl bh newX nl nh hf inv; have := inv.srange; omega
  | succ fuel ih =>
    intro sl sh tl th bl0 bh0 newX nl nh hf inv
    obtain ⟨hs1, hs2, hs3⟩ := inv.srange
    obtain ⟨hb1, hb2, hb3⟩ := inv.brange
    obtain ⟨ht1, ht2, ht3⟩ := inv.trange
    unfold fixLoop
    simp only []
    have hmb : ∃ bl bh : Int, min bl0 sl = bl ∧ max bh0 sh = bh ∧ bl ≤ bl0 ∧ bl ≤ sl ∧ bh0 ≤ bh ∧ sh ≤ bh ∧ 0 ≤ bl ∧
        bh ≤ P.slen ∧ (bl = bl0 ∨ bl = sl) ∧ (bh = bh0 ∨ bh = sh) := ⟨min bl0 sl, max bh0 sh, rfl, rfl, by omega⟩
    obtain ⟨bl, bh, e1, e2, m1, m2, m3, m4, m5, m6, m7, m8⟩ := hmb
    rw [e1, e2]
    have hnx := inv.newX_eq
    have hnx2 := inv.newX_le
    by_cases hstop : bl = sl ∧ bh = sh
    · rw [if_pos hstop]
      refine ⟨_, rfl, ?_, fun _ => by simp⟩
      intro f hf'
      cases hf'
      obtain ⟨rfl, rfl⟩ := hstop
      refine ⟨?_, inv.contains, ⟨hs1, hs3⟩, inv.trange, inv.tspan, inv.sspan, ?_, ?_, ?_, ?_, inv.edges⟩
      · intro l hl
        constructor
        · rintro ⟨h1, h2⟩; exact inv.out l hl h1 h2
        · rintro ⟨h1, h2⟩
          have := inv.back l hl h1 h2
          simp only []
          omega
      · intro h
        cases hnl : nl with
        | true => exact inv.low hnl
        | false => have := inv.low' hnl; simp only [] at h; omega
      · intro h
        cases hnl : nh with
        | true => exact inv.high hnl
        | false => have := inv.high' hnl; simp only [] at h; omega
      · have hc1 : (if bl < sl0 then (1 : Int) else 0) ≤ (if nl then 1 else 0) := by
          cases hnl : nl with
          | true => simp only [if_true]; split_ifs <;> omega
          | false => have := inv.low' hnl; rw [if_neg (by omega)]; simp
        have hc2 : (if sh0 < bh then (1 : Int) else 0) ≤ (if nh then 1 else 0) := by
          cases hnl : nh with
          | true => simp only [if_true]; split_ifs <;> omega
          | false => have := inv.high' hnl; rw [if_neg (by omega)]; simp
        simp only []
        omega
      · intro hm a b c d hc h1 h2
        have := inv.least hm a b c d hc h1 h2
        exact ⟨this.1, this.2.1, this.2.2.1, this.2.2.2.1⟩
    · rw [if_neg hstop]
      by_cases hal : (!P.allowLow && decide (bl < sl)) = true
      · rw [if_pos hal]
        refine ⟨none, rfl, by simp, fun hlib => ?_⟩
        rw [hlib.low] at hal; simp at hal
      rw [if_neg hal]
      by_cases hah : (!P.allowHigh && decide (bh > sh)) = true
      · rw [if_pos hah]
        refine ⟨none, rfl, by simp, fun hlib => ?_⟩
        rw [hlib.high] at hah; simp at hah
      rw [if_neg hah]
      have hal' : bl < sl → P.allowLow = true := by
        intro h
        by_contra hc
        exact hal (by simp [hc, h])
      have hah' : sh < bh → P.allowHigh = true := by
        intro h
        by_contra hc
        exact hah (by simp [hc, h])
      cases hleft : extendSide P (sl - bl) sl nl newX with
      | none =>
        refine ⟨none, rfl, by simp, fun hlib => ?_⟩
        obtain ⟨h1, h2 | h2⟩ := extendSide_none hleft
        · have := hlib.newX
          rw [h2.1] at hnx
          have : (if nh then (1 : Int) else 0) ≤ 1 := by split_ifs <;> simp
          simp only [Bool.false_eq_true, if_false] at hnx
          omega
        · have := hlib.minSource; omega
      | some lv =>
        obtain ⟨left, nl', newX'⟩ := lv
        obtain ⟨l1, l2, l3, l4⟩ := extendSide_some (by omega) (by omega) hleft
        simp only []
        have hnx' : newX' = (if nl' then 1 else 0) + (if nh then 1 else 0) := by
          by_cases h0 : sl - bl = 0
          · obtain ⟨_, rfl, rfl⟩ := l3 h0; exact hnx
          · obtain ⟨rfl, rfl, _⟩ := l4 (by omega)
            cases nl <;> simp at hnx ⊢ <;> omega
        have hnx2' : newX' ≤ max 0 P.maxNewX := by
          by_cases h0 : sl - bl = 0
          · obtain ⟨_, rfl, rfl⟩ := l3 h0; exact hnx2
          · obtain ⟨rfl, rfl, h3, _⟩ := l4 (by omega)
            cases hnl : nl with
            | true => simpa [hnl] using hnx2
            | false => have := h3 hnl; simp only [Bool.false_eq_true, if_false]; omega
        cases hright : extendSide P (bh - sh) (P.slen - sh) nh newX' with
        | none =>
          refine ⟨none, rfl, by simp, fun hlib => ?_⟩
          obtain ⟨h1, h2 | h2⟩ := extendSide_none hright
          · have := hlib.newX
            rw [h2.1] at hnx'
            have : (if nl' then (1 : Int) else 0) ≤ 1 := by split_ifs <;> simp
            simp only [Bool.false_eq_true, if_false] at hnx'
            omega
          · have := hlib.minSource; omega
        | some rv =>
          obtain ⟨right, nh', newX''⟩ := rv
          obtain ⟨r1, r2, r3, r4⟩ := extendSide_some (by omega) (by omega) hright
          simp only []
          have hnx'' : newX'' = (if nl' then 1 else 0) + (if nh' then 1 else 0) := by
            by_cases h0 : bh - sh = 0
            · obtain ⟨_, rfl, rfl⟩ := r3 h0; exact hnx'
            · obtain ⟨rfl, rfl, _⟩ := r4 (by omega)
              cases nh <;> simp at hnx' ⊢ <;> omega
          have hnx2'' : newX'' ≤ max 0 P.maxNewX := by
            by_cases h0 : bh - sh = 0
            · obtain ⟨_, rfl, rfl⟩ := r3 h0; exact hnx2'
            · obtain ⟨rfl, rfl, h3, _⟩ := r4 (by omega)
              cases hnl : nh with
              | true => simpa [hnl] using hnx2'
              | false => have := h3 hnl; simp only [Bool.false_eq_true, if_false]; omega
          by_cases hsp : sh + right - (sl - left) > P.maxSpan
          · rw [if_pos hsp]
            refine ⟨none, rfl, by simp, fun hlib => ?_⟩
            have := hlib.sspan; omega
          rw [if_neg hsp]
          have hu1 := findProjection_hull hs (sl - left) sl (by omega) (by omega) (tl, th) (Or.inr ⟨ht1, ht2⟩)
          generalize findProjection (sl - left) sl S.sourceLow S.sourceHigh (tl, th) = t1 at hu1 ⊢
          have hu2 := findProjection_hull hs sh (sh + right) (by omega) (by omega) t1 hu1.valid
          generalize findProjection sh (sh + right) S.sourceLow S.sourceHigh t1 = t at hu2 ⊢
          have hu := hu1.trans hu2
          have htl : tl ≠ -1 := by omega
          obtain ⟨g1, g2, g3⟩ := hu.grow htl
          have hcov : ∀ l ∈ links, sl - left ≤ l.1 → (l.1 : Int) < sh + right → t.1 ≤ l.2 ∧ (l.2 : Int) < t.2 := by
            intro l hl h1 h2
            by_cases hin : sl ≤ l.1 ∧ (l.1 : Int) < sh
            · have := inv.out l hl hin.1 hin.2
              simp only [] at g2 g3; omega
            · have hm : l.1 ∈ List.range' (sl - left).toNat (sl - (sl - left)).toNat ++
                  List.range' sh.toNat (sh + right - sh).toNat := by
                rw [List.mem_append, mem_words (by omega), mem_words (by omega)]
                omega
              exact (hu.cover _ hm l.2 hl).2
          have hlow' : nl' = true → P.allowLow = true ∧ P.minSource ≤ sl0 - (sl - left) := by
            intro h
            have hc := inv.contains
            by_cases h0 : sl - bl = 0
            · obtain ⟨e, rfl, _⟩ := l3 h0
              have := inv.low h
              exact ⟨this.1, by omega⟩
            · have := l4 (by omega)
              exact ⟨hal' (by omega), by omega⟩
          have hhigh' : nh' = true → P.allowHigh = true ∧ P.minSource ≤ (sh + right) - sh0 := by
            intro h
            have hc := inv.contains
            by_cases h0 : bh - sh = 0
            · obtain ⟨e, rfl, _⟩ := r3 h0
              have := inv.high h
              exact ⟨this.1, by omega⟩
            · have := r4 (by omega)
              exact ⟨hah' (by omega), by omega⟩
          have hlow'' : nl' = false → sl - left = sl0 := by
            intro h
            by_cases h0 : sl - bl = 0
            · obtain ⟨e, rfl, _⟩ := l3 h0
              have := inv.low' h; omega
            · have := (l4 (by omega)).1; rw [h] at this; cases this
          have hhigh'' : nh' = false → sh + right = sh0 := by
            intro h
            by_cases h0 : bh - sh = 0
            · obtain ⟨e, rfl, _⟩ := r3 h0
              have := inv.high' h; omega
            · have := (r4 (by omega)).1; rw [h] at this; cases this
          have hleast : P.minSource ≤ 1 → ∀ a b c d : Int, Consistent links a b c d → a ≤ sl0 → sh0 ≤ b →
              a ≤ sl - left ∧ sh + right ≤ b ∧ c ≤ t.1 ∧ t.2 ≤ d := by
            intro hm a b c d hc h1 h2
            obtain ⟨i1, i2, i3, i4, i5, i6⟩ := inv.least hm a b c d hc h1 h2
            have hl' : left = sl - bl := by
              by_cases h0 : sl - bl = 0
              · rw [(l3 h0).1, h0]
              · exact (l4 (by omega)).2.2.2.2 hm
            have hr' : right = bh - sh := by
              by_cases h0 : bh - sh = 0
              · rw [(r3 h0).1, h0]
              · exact (r4 (by omega)).2.2.2.2 hm
            have ha : a ≤ sl - left := by omega
            have hb : sh + right ≤ b := by omega
            have := hu.least c d (fun _ => ⟨i3, i4⟩) (by
              intro i hi j hij
              rw [List.mem_append, mem_words (by omega), mem_words (by omega)] at hi
              have := (hc _ hij).1 (by simp only []; omega)
              exact this) g1
            exact ⟨ha, hb, this.1, this.2⟩
          have ht' : t.2 ≤ P.tlen ∧ 0 ≤ t.1 := by
            have := hu.least 0 P.tlen (fun _ => ⟨ht1, ht3⟩) (by
              intro i _ j hij
              have := hr _ hij
              simp only [] at this
              omega) g1
            omega
          have hcont := inv.contains
          have hedge : EdgesLinked links (sl - left) (sh + right) t.1 t.2 := by
            obtain ⟨x1, x2⟩ := hu.edges g1
            obtain ⟨⟨la, q1, q2, q3, q4⟩, lb, r1', r2', r3', r4'⟩ := inv.edges
            have hw : ∀ i ∈ List.range' (sl - left).toNat (sl - (sl - left)).toNat ++ List.range' sh.toNat (sh + right - sh).toNat,
                sl - left ≤ (i : Int) ∧ (i : Int) < sh + right := by
              intro i hi
              rw [List.mem_append, mem_words (by omega), mem_words (by omega)] at hi
              omega
            constructor
            · rcases x1 with ⟨_, e⟩ | ⟨i, hi, j, hij, e⟩
              · exact ⟨la, q1, by omega, by omega, by rw [q4]; exact e.symm⟩
              · exact ⟨(i, j), hij, (hw i hi).1, (hw i hi).2, e⟩
            · rcases x2 with ⟨_, e⟩ | ⟨i, hi, j, hij, e⟩
              · exact ⟨lb, r1', by omega, by omega, by rw [r4']; exact e.symm⟩
              · exact ⟨(i, j), hij, (hw i hi).1, (hw i hi).2, e⟩
          by_cases hst2 : tl = t.1 ∧ th = t.2
          · rw [if_pos hst2]
            refine ⟨_, rfl, ?_, fun _ => by simp⟩
            intro f hf'
            cases hf'
            refine ⟨?_, by simp only []; omega, by simp only []; omega, by simp only []; omega,
              by simp only []; have := inv.tspan; omega, by simp only []; omega, ?_, ?_, ?_, hleast, hedge⟩
            · intro l hl
              constructor
              · rintro ⟨h1, h2⟩; exact hcov l hl h1 h2
              · rintro ⟨h1, h2⟩
                simp only [] at h1 h2 ⊢
                have := inv.back l hl (by omega) (by omega)
                omega
            · intro h
              cases hnl : nl' with
              | true => exact hlow' hnl
              | false => have := hlow'' hnl; simp only [] at h; omega
            · intro h
              cases hnl : nh' with
              | true => exact hhigh' hnl
              | false => have := hhigh'' hnl; simp only [] at h; omega
            · have hc1 : (if sl - left < sl0 then (1 : Int) else 0) ≤ (if nl' then 1 else 0) := by
                cases hnl : nl' with
                | true => simp only [if_true]; split_ifs <;> omega
                | false => have := hlow'' hnl; rw [if_neg (by omega)]; simp
              have hc2 : (if sh0 < sh + right then (1 : Int) else 0) ≤ (if nh' then 1 else 0) := by
                cases hnl : nh' with
                | true => simp only [if_true]; split_ifs <;> omega
                | false => have := hhigh'' hnl; rw [if_neg (by omega)]; simp
              simp only []
              omega
          rw [if_neg hst2]
          by_cases harb : (!P.allowArbitrary) = true
          · rw [if_pos harb]
            refine ⟨none, rfl, by simp, fun hlib => ?_⟩
            rw [hlib.arbitrary] at harb; simp at harb
          rw [if_neg harb]
          by_cases htsp : t.2 - t.1 > P.maxSpan
          · rw [if_pos htsp]
            refine ⟨none, rfl, by simp, fun hlib => ?_⟩
            have := hlib.tspan; omega
          rw [if_neg htsp]
          have hv1 := findProjection_hull ht t.1 tl (by omega) (by omega) (sl - left, sh + right)
            (Or.inr ⟨by simp only []; omega, by simp only []; omega⟩)
          generalize findProjection t.1 tl S.targetLow S.targetHigh (sl - left, sh + right) = b1 at hv1 ⊢
          have hv2 := findProjection_hull ht th t.2 (by omega) (by omega) b1 hv1.valid
          generalize findProjection th t.2 S.targetLow S.targetHigh b1 = b at hv2 ⊢
          have hv := hv1.trans hv2
          obtain ⟨w1, w2, w3⟩ := hv.grow (by simp only []; omega)
          simp only [] at w2 w3 g2 g3
          have hbr : 0 ≤ b.1 ∧ b.2 ≤ P.slen := by
            refine hv.least 0 P.slen (fun _ => ⟨by simp only []; omega, by simp only []; omega⟩) ?_ w1
            intro i _ j hij
            have := hr _ hij
            simp only [] at this
            omega
          refine ih (sl - left) (sh + right) t.1 t.2 b.1 b.2 newX'' nl' nh' (by omega) ⟨by omega, by omega, by omega, by omega, by omega,
            by omega, hcov, ?_, hlow', hhigh', hlow'', hhigh'', hnx'', hnx2'', ?_, hedge⟩
          · intro l hl h1 h2
            by_cases hin : tl ≤ l.2 ∧ (l.2 : Int) < th
            · have := inv.back l hl hin.1 hin.2
              omega
            · have hm : l.2 ∈ List.range' t.1.toNat (tl - t.1).toNat ++ List.range' th.toNat (t.2 - th).toNat := by
                rw [List.mem_append, mem_words (by omega), mem_words (by omega)]
                omega
              exact (hv.cover _ hm l.1 hl).2
          · intro hm a b' c d hc h1 h2
            obtain ⟨i1, i2, i3, i4⟩ := hleast hm a b' c d hc h1 h2
            have := hv.least a b' (fun _ => ⟨i1, i2⟩) (by
              intro j hj i hij
              rw [List.mem_append, mem_words (by omega), mem_words (by omega)] at hj
              exact (hc _ hij).2 (by simp only []; omega)) w1
            exact ⟨i1, i2, i3, i4, this.1, this.2⟩

theorem findFixPoint_spec (P : FixParams) (links : List (Nat × Nat))
    (hr : ∀ l ∈ links, l.1 < P.slen ∧ l.2 < P.tlen) (sl sh : Int) (h0 : 0 ≤ sl) (h1 : sl ≤ sh) (h2 : sh ≤ P.slen) :
    ∃ r, findFixPoint P (getLinksSpans P.slen P.tlen links) (P.slen + 1) sl sh (-1, -1) = some r ∧
      (∀ f, r = some f → GoodFix P links sl sh f) ∧
      (Liberal P → (∃ l ∈ links, sl ≤ l.1 ∧ (l.1 : Int) < sh) → r ≠ none) := by
  obtain ⟨hs, ht⟩ := getLinksSpans_ok P.slen P.tlen links hr
  generalize getLinksSpans P.slen P.tlen links = S at hs ht ⊢
  unfold findFixPoint
  simp only []
  have hu := findProjection_hull hs sl sh h0 h2 (-1, -1) (Or.inl rfl)
  generalize findProjection sl sh S.sourceLow S.sourceHigh (-1, -1) = t at hu ⊢
  by_cases hne : t.1 = -1
  · rw [if_pos hne]
    refine ⟨none, rfl, by simp, ?_⟩
    rintro _ ⟨l, hl, h3, h4⟩
    exact absurd hne (hu.cover l.1 ((mem_words h0 _).2 ⟨h3, h4⟩) l.2 hl).1
  rw [if_neg hne]
  have het : extendTarget P (-1, -1) t = some t := by simp [extendTarget]
  rw [het]
  simp only []
  have hv := hu.valid
  have htr : 0 ≤ t.1 ∧ t.1 < t.2 := by
    rcases hv with h | h
    · rw [h] at hne; simp at hne
    · exact h
  have htr2 : 0 ≤ t.1 ∧ t.2 ≤ P.tlen := by
    refine hu.least 0 P.tlen (by simp) ?_ hne
    intro i _ j hij
    have := hr _ hij
    simp only [] at this
    omega
  by_cases hsp : t.2 - t.1 > P.maxSpan
  · rw [if_pos hsp]
    refine ⟨none, rfl, by simp, fun hlib => ?_⟩
    have := hlib.tspan; omega
  rw [if_neg hsp]
  have hb := findProjection_hull ht t.1 t.2 htr.1 htr2.2 (-1, -1) (Or.inl rfl)
  generalize findProjection t.1 t.2 S.targetLow S.targetHigh (-1, -1) = b at hb ⊢
  -- the target span contains a link
  obtain ⟨i, hi, j, hij⟩ : ∃ i ∈ List.range' sl.toNat (sh - sl).toNat, ∃ j, (i, j) ∈ links := by
    rcases hu.known hne with h | h
    · simp at h
    · exact h
  have hc := hu.cover i hi j hij
  have hbne : b.1 ≠ -1 := (hb.cover j ((mem_words htr.1 _).2 hc.2) i hij).1
  have hbr : 0 ≤ b.1 ∧ b.1 < b.2 := by
    rcases hb.valid with h | h
    · rw [h] at hbne; simp at hbne
    · exact h
  have hbr2 : 0 ≤ b.1 ∧ b.2 ≤ P.slen := by
    refine hb.least 0 P.slen (by simp) ?_ hbne
    intro i _ j hij
    have := hr _ hij
    simp only [] at this
    omega
  have hinv : LoopInv P links sl sh sl sh t.1 t.2 b.1 b.2 0 false false := by
    refine ⟨⟨h0, h1, h2⟩, ⟨hbr.1, hbr.2, hbr2.2⟩, ⟨htr.1, htr.2, htr2.2⟩, ⟨by omega, by omega⟩, by omega, fun h => h, ?_, ?_, by simp, by simp,
      fun _ => rfl, fun _ => rfl, by simp, by omega, ?_, ?_⟩
    · intro l hl h3 h4
      exact (hu.cover l.1 ((mem_words h0 _).2 ⟨h3, h4⟩) l.2 hl).2
    · intro l hl h3 h4
      exact (hb.cover l.2 ((mem_words htr.1 _).2 ⟨h3, h4⟩) l.1 hl).2
    · intro _ a b' c d hcon h3 h4
      have e1 := hu.least c d (by simp) (by
        intro i hi j hij
        rw [mem_words h0] at hi
        exact (hcon _ hij).1 (by simp only []; omega)) hne
      have e2 := hb.least a b' (by simp) (by
        intro j hj i hij
        rw [mem_words htr.1] at hj
        exact (hcon _ hij).2 (by simp only []; omega)) hbne
      exact ⟨h3, h4, e1.1, e1.2, e2.1, e2.2⟩
    · obtain ⟨x1, x2⟩ := hu.edges hne
      constructor
      · rcases x1 with ⟨h, _⟩ | ⟨i, hi, j, hij, e⟩
        · simp at h
        · exact ⟨(i, j), hij, ((mem_words h0 i).1 hi).1, ((mem_words h0 i).1 hi).2, e⟩
      · rcases x2 with ⟨h, _⟩ | ⟨i, hi, j, hij, e⟩
        · simp at h
        · exact ⟨(i, j), hij, ((mem_words h0 i).1 hi).1, ((mem_words h0 i).1 hi).2, e⟩
  obtain ⟨r, e, h3, h4⟩ := fixLoop_spec P links S hs ht hr sl sh (P.slen + 1) sl sh t.1 t.2 b.1 b.2 0 false false
    (by push_cast; omega) hinv
  exact ⟨r, e, h3, fun h _ => h4 h⟩

/-- Whatever the limits and options, when the search for a target span of a source phrase succeeds (started, as
everywhere in the program, without a target span), no alignment link leaves the returned pair of spans; the source span
contains the phrase; both spans lie in their sentences and respect the maximum span; each side is extended only if
allowed, and then by at least the minimum gap; and the number of sides extended respects the number of nonterminals
that may be added.  The first and the last word of the target span are linked to words of the source span. -/
theorem C43_consistent (P : FixParams) (links : List (Nat × Nat))
    (hr : ∀ l ∈ links, l.1 < P.slen ∧ l.2 < P.tlen) (sl sh : Int) (h0 : 0 ≤ sl) (h1 : sl ≤ sh) (h2 : sh ≤ P.slen)
    (r : Fix)
    (h : findFixPoint P (getLinksSpans P.slen P.tlen links) (P.slen + 1) sl sh (-1, -1) = some (some r)) :
    Consistent links r.sourceLow r.sourceHigh r.targetLow r.targetHigh ∧
    (0 ≤ r.sourceLow ∧ r.sourceLow ≤ sl ∧ sh ≤ r.sourceHigh ∧ r.sourceHigh ≤ P.slen) ∧
    (0 ≤ r.targetLow ∧ r.targetLow < r.targetHigh ∧ r.targetHigh ≤ P.tlen) ∧
    r.targetHigh - r.targetLow ≤ P.maxSpan ∧
    (sh - sl ≤ P.maxSpan → r.sourceHigh - r.sourceLow ≤ P.maxSpan) ∧
    (r.sourceLow < sl → P.allowLow = true ∧ P.minSource ≤ sl - r.sourceLow) ∧
    (sh < r.sourceHigh → P.allowHigh = true ∧ P.minSource ≤ r.sourceHigh - sh) ∧
    (if r.sourceLow < sl then 1 else 0) + (if sh < r.sourceHigh then 1 else 0) ≤ max 0 P.maxNewX ∧
    EdgesLinked links r.sourceLow r.sourceHigh r.targetLow r.targetHigh := by
  obtain ⟨r', e, hg, _⟩ := findFixPoint_spec P links hr sl sh h0 h1 h2
  rw [h] at e
  have g := hg r (Option.some.inj e).symm
  exact ⟨g.consistent, ⟨g.srange.1, g.contains.1, g.contains.2, g.srange.2⟩, g.trange, g.tspan, g.sspan, g.low, g.high,
    g.count, g.edges⟩

/-- The search terminates: a number of iterations bounded by the source length always suffices. -/
theorem C43_terminates (P : FixParams) (links : List (Nat × Nat))
    (hr : ∀ l ∈ links, l.1 < P.slen ∧ l.2 < P.tlen) (sl sh : Int) (h0 : 0 ≤ sl) (h1 : sl ≤ sh) (h2 : sh ≤ P.slen) :
    findFixPoint P (getLinksSpans P.slen P.tlen links) (P.slen + 1) sl sh (-1, -1) ≠ none := by
  obtain ⟨r', e, _⟩ := findFixPoint_spec P links hr sl sh h0 h1 h2
  rw [e]; simp

/-- Without a minimum gap above one word, the returned pair is the least consistent pair containing the phrase. -/
theorem C43_least (P : FixParams) (links : List (Nat × Nat))
    (hr : ∀ l ∈ links, l.1 < P.slen ∧ l.2 < P.tlen) (sl sh : Int) (h0 : 0 ≤ sl) (h1 : sl ≤ sh) (h2 : sh ≤ P.slen)
    (hm : P.minSource ≤ 1) (r : Fix)
    (h : findFixPoint P (getLinksSpans P.slen P.tlen links) (P.slen + 1) sl sh (-1, -1) = some (some r))
    (a b c d : Int) (hc : Consistent links a b c d) (ha : a ≤ sl) (hb : sh ≤ b) :
    a ≤ r.sourceLow ∧ r.sourceHigh ≤ b ∧ c ≤ r.targetLow ∧ r.targetHigh ≤ d := by
  obtain ⟨r', e, hg, _⟩ := findFixPoint_spec P links hr sl sh h0 h1 h2
  rw [h] at e
  exact (hg r (Option.some.inj e).symm).least hm a b c d hc ha hb

/-- If nothing limits the expansion, the search succeeds for every phrase with an aligned word, and only for those. -/
theorem C43_succeeds (P : FixParams) (links : List (Nat × Nat))
    (hr : ∀ l ∈ links, l.1 < P.slen ∧ l.2 < P.tlen) (sl sh : Int) (h0 : 0 ≤ sl) (h1 : sl ≤ sh) (h2 : sh ≤ P.slen)
    (hlow : P.allowLow = true) (hhigh : P.allowHigh = true) (harb : P.allowArbitrary = true) (hx : 2 ≤ P.maxNewX)
    (hm : P.minSource ≤ 1) (hss : (P.slen : Int) ≤ P.maxSpan) (hts : (P.tlen : Int) ≤ P.maxSpan) :
    (∃ r, findFixPoint P (getLinksSpans P.slen P.tlen links) (P.slen + 1) sl sh (-1, -1) = some (some r)) ↔
      ∃ l ∈ links, sl ≤ l.1 ∧ (l.1 : Int) < sh := by
  constructor
  · rintro ⟨r, h⟩
    by_contra hno
    obtain ⟨hs, _⟩ := getLinksSpans_ok P.slen P.tlen links hr
    have hu := findProjection_hull hs sl sh h0 h2 (-1, -1) (Or.inl rfl)
    unfold findFixPoint at h
    simp only [] at h
    have : (findProjection sl sh (getLinksSpans P.slen P.tlen links).sourceLow
        (getLinksSpans P.slen P.tlen links).sourceHigh (-1, -1)).1 = -1 := by
      by_contra hne
      rcases hu.known hne with h | ⟨i, hi, j, hij⟩
      · simp at h
      · rw [mem_words h0] at hi
        exact hno ⟨(i, j), hij, hi⟩
    rw [if_pos this] at h
    cases h
  · intro hl
    obtain ⟨r', e, _, hg⟩ := findFixPoint_spec P links hr sl sh h0 h1 h2
    have := hg ⟨hlow, hhigh, harb, hx, hm, hss, hts⟩ hl
    obtain ⟨r, rfl⟩ := Option.ne_none_iff_exists'.1 this
    exact ⟨r, e⟩

theorem mapM_some_mem {α β : Type} (f : α → Option β) : ∀ (l : List α) (r : List β), l.mapM f = some r →
    l.length = r.length ∧ ∀ (k : Nat) a b, l[k]? = some a → r[k]? = some b → f a = some b := by
  intro l
  induction l with
  | nil => intro r h; simp at h; subst h; simp
  | cons a l ih =>
    intro r h
    rw [List.mapM_cons] at h
    simp only [bind, Option.bind, pure] at h
    cases ha : f a with
    | none => rw [ha] at h; cases h
    | some b =>
      rw [ha] at h
      simp only [] at h
      cases hl : l.mapM f with
      | none => rw [hl] at h; cases h
      | some r' =>
        rw [hl] at h
        cases h
        obtain ⟨h1, h2⟩ := ih r' hl
        refine ⟨by simp [h1], ?_⟩
        intro k x y hx hy
        cases k with
        | zero => simp at hx hy; subst hx hy; exact ha
        | succ k => exact h2 k x y (by simpa using hx) (by simpa using hy)

theorem outerGap_gaps {G : GapParams} {S : LinkSpans} {isGap : Bool} {gap : Int × Int} {e1 e2 inner : Int}
    {n n' : Nat} {gs : List (Int × Int)} {met : Bool}
    (h : outerGap G S isGap gap e1 e2 inner n = some (gs, n', met)) :
    gs = if isGap then [gap] else [] := by
  unfold outerGap at h
  split_ifs at h with h1 h2 h3
  · cases h; simp [h1]
  · cases h; simp [h1]

/-- When the gaps of a phrase pair are accepted: the source gaps are the extension before the phrase if there is one,
the gaps between its chunks in order, and the extension after it if there is one; and no alignment link leaves any
source gap and its target gap, whose first and last words are linked to the source gap.  The hypothesis says that the gaps lie in the sentence. -/
theorem C43_gaps (G : GapParams) (links : List (Nat × Nat)) (hr : ∀ l ∈ links, l.1 < G.slen ∧ l.2 < G.tlen)
    (matching : List (Nat × Nat)) (start : Nat) (sl sh bl bh : Int) (n n' : Nat) (met : Bool)
    (hb : 0 ≤ bl ∧ bl ≤ sl ∧ 0 ≤ sh ∧ sl ≤ G.slen ∧ sh ≤ bh ∧ bh ≤ G.slen)
    (hin : ∀ g ∈ innerGaps start matching, 0 ≤ g.1 ∧ g.1 ≤ g.2 ∧ g.2 ≤ G.slen)
    (sg tg : List (Int × Int))
    (h : getGaps G (getLinksSpans G.slen G.tlen links) matching start sl sh bl bh n = some (sg, tg, n', met)) :
    sg = (if bl < sl then [(bl, sl)] else []) ++ innerGaps start matching ++ (if sh < bh then [(sh, bh)] else []) ∧
    sg.length = tg.length ∧
    ∀ (k : Nat) s t, sg[k]? = some s → tg[k]? = some t → 0 ≤ t.1 ∧ t.1 < t.2 ∧ t.2 ≤ G.tlen ∧ Consistent links s.1 s.2 t.1 t.2 ∧
      EdgesLinked links s.1 s.2 t.1 t.2 := by
  simp only [getGaps, bind, Option.bind] at h
  cases hl : outerGap G (getLinksSpans G.slen G.tlen links) (decide (bl < sl)) (bl, sl) bl (sl - 1) sl n with
  | none => rw [hl] at h; cases h
  | some lv =>
    obtain ⟨left, n1, m1⟩ := lv
    rw [hl] at h
    simp only [] at h
    cases hrr : outerGap G (getLinksSpans G.slen G.tlen links) (decide (sh < bh)) (sh, bh) sh (bh - 1) (sh - 1) n1 with
    | none => rw [hrr] at h; cases h
    | some rv =>
      obtain ⟨right, n2, m2⟩ := rv
      rw [hrr] at h
      simp only [] at h
      cases hm : (left ++ innerGaps start matching ++ right).mapM (checkGap G (getLinksSpans G.slen G.tlen links)) with
      | none => rw [hm] at h; cases h
      | some gaps =>
        rw [hm] at h
        simp only [pure, Option.some.injEq, Prod.mk.injEq] at h
        obtain ⟨rfl, rfl, _, _⟩ := h
        have el := outerGap_gaps hl
        have er := outerGap_gaps hrr
        simp only [decide_eq_true_eq] at el er
        obtain ⟨hlen, hk⟩ := mapM_some_mem _ _ _ hm
        have hall : ∀ g ∈ left ++ innerGaps start matching ++ right, 0 ≤ g.1 ∧ g.1 ≤ g.2 ∧ g.2 ≤ G.slen := by
          intro g hg
          rw [List.mem_append, List.mem_append, el, er] at hg
          rcases hg with (hg | hg) | hg
          · split_ifs at hg
            · rw [List.mem_singleton] at hg; subst hg; simp only []; omega
            · cases hg
          · exact hin g hg
          · split_ifs at hg
            · rw [List.mem_singleton] at hg; subst hg; simp only []; omega
            · cases hg
        have each : ∀ g ∈ left ++ innerGaps start matching ++ right, ∀ st,
            checkGap G (getLinksSpans G.slen G.tlen links) g = some st →
            st.1 = g ∧ 0 ≤ st.2.1 ∧ st.2.1 < st.2.2 ∧ st.2.2 ≤ G.tlen ∧ Consistent links st.1.1 st.1.2 st.2.1 st.2.2 ∧
              EdgesLinked links st.1.1 st.1.2 st.2.1 st.2.2 := by
          intro g hg st hst
          obtain ⟨h0, h1, h2⟩ := hall g hg
          unfold checkGap at hst
          split at hst
          · rename_i r hr'
            cases hst
            have := C43_consistent ⟨G.slen, G.tlen, G.maxSpan, 0, 0, 0, false, false, false⟩ links hr g.1 g.2 h0 h1 h2 r hr'
            obtain ⟨c1, c2, c3, _, _, c4, c5, _, c6⟩ := this
            refine ⟨?_, c3.1, c3.2.1, c3.2.2, c1, c6⟩
            have e1 : ¬ r.sourceLow < g.1 := fun h => by have := (c4 h).1; simp at this
            have e2 : ¬ g.2 < r.sourceHigh := fun h => by have := (c5 h).1; simp at this
            exact Prod.ext (by simp only []; omega) (by simp only []; omega)
          · cases hst
        have hmap : gaps.map (·.1) = left ++ innerGaps start matching ++ right := by
          apply List.ext_getElem?
          intro k
          rw [List.getElem?_map]
          cases hg : gaps[k]? with
          | none =>
            rw [List.getElem?_eq_none_iff] at hg
            rw [Option.map_none, eq_comm, List.getElem?_eq_none_iff]; omega
          | some st =>
            have hk' : k < (left ++ innerGaps start matching ++ right).length := by
              rw [hlen]; exact (List.getElem?_eq_some_iff.1 hg).1
            have e := hk k _ _ (List.getElem?_eq_getElem hk') hg
            rw [List.getElem?_eq_getElem hk', Option.map_some, (each _ (List.getElem_mem hk') st e).1]
        refine ⟨?_, by simp, ?_⟩
        · rw [hmap, el, er]
        · intro k s t hs ht
          rw [List.getElem?_map] at hs ht
          cases hg : gaps[k]? with
          | none => rw [hg] at hs; cases hs
          | some st =>
            rw [hg] at hs ht
            cases hs; cases ht
            have hk' : k < (left ++ innerGaps start matching ++ right).length := by
              rw [hlen]; exact (List.getElem?_eq_some_iff.1 hg).1
            have e := hk k _ _ (List.getElem?_eq_getElem hk') hg
            exact (each _ (List.getElem_mem hk') st e).2

/-- Three source words and three target words, the outer ones crossing: a phrase of the first word expands to
everything once its target span covers the last word. -/
example : findFixPoint ⟨4, 4, 10, 1, 0, 2, true, true, true⟩ (getLinksSpans 4 4 [(0, 1), (1, 0), (1, 2), (2, 1), (3, 3)]) 5
    0 1 (-1, -1) = some (some ⟨0, 3, 0, 3⟩) := by decide

example : findFixPoint ⟨4, 4, 10, 1, 0, 2, true, true, false⟩ (getLinksSpans 4 4 [(0, 1), (1, 0), (1, 2), (2, 1), (3, 3)]) 5
    0 1 (-1, -1) = some none := by decide

example : getGaps ⟨4, 4, 10, 5, true⟩ (getLinksSpans 4 4 [(0, 1), (1, 0), (2, 3), (3, 2)]) [(10, 1), (13, 1)] 10 0 4 0 4 3 =
    none := by decide

example : getGaps ⟨4, 4, 10, 5, true⟩ (getLinksSpans 4 4 [(0, 1), (1, 0), (2, 2), (3, 3)]) [(10, 1), (12, 1)] 10 0 3 0 4 3 =
    some ([(1, 2), (3, 4)], [(0, 1), (3, 4)], 4, true) := by decide

end Cdec.Extract
