import Verif.Util.SmallVector
/-! # C23: SmallVector behaves like a sequence -/
namespace Cdec
variable {T : Type} (M : Nat) (junk : T)

namespace SV

/-- Representation relation: `s` is a valid object holding the sequence `l`. -/
inductive Rep : SV T → List T → Prop where
  | small (l rest : List T) (cap : Nat) (h : l.length + rest.length = M) :
      Rep ⟨l.length, cap, .vals (l ++ rest)⟩ l
  | big (l rest : List T) (h : M < l.length) (h16 : l.length < 65536) :
      Rep ⟨l.length, l.length + rest.length, .ptr (l ++ rest)⟩ l

theorem writeAt_some (a b c vs : List T) (h : b.length = vs.length) :
    writeAt (a ++ b ++ c) a.length vs = some (a ++ vs ++ c) := by
  rw [writeAt, if_pos (by simp; omega)]
  congr 1
  rw [← h, ← List.length_append, List.drop_left, List.append_assoc a b c, List.take_left]

theorem writeAt_zero (b c vs : List T) (h : b.length = vs.length) :
    writeAt (b ++ c) 0 vs = some (vs ++ c) := writeAt_some [] b c vs h

theorem writeAt_replicate (n : Nat) (vs : List T) (h : vs.length ≤ n) :
    writeAt (List.replicate n junk) 0 vs = some (vs ++ List.replicate (n - vs.length) junk) := by
  have : List.replicate n junk = List.replicate vs.length junk ++ List.replicate (n - vs.length) junk := by
    rw [List.replicate_append_replicate]; congr 1; omega
  rw [this]
  exact writeAt_zero _ _ _ (by simp)

theorem writeAt_end (a rest vs : List T) (h : vs.length ≤ rest.length) :
    writeAt (a ++ rest) a.length vs = some (a ++ vs ++ rest.drop vs.length) := by
  have := writeAt_some a (rest.take vs.length) (rest.drop vs.length) vs (by simp; omega)
  rwa [List.append_assoc, List.take_append_drop] at this

theorem readN_left (l rest : List T) : readN (l ++ rest) l.length = some l := by
  rw [readN, if_pos (by simp)]; simp

theorem readN_le (l rest : List T) (n : Nat) (h : n ≤ l.length) : readN (l ++ rest) n = some (l.take n) := by
  rw [readN, if_pos (by simp; omega), List.take_append_of_le_length h]

theorem readN_all (l : List T) (n : Nat) (h : l.length = n) : readN l n = some l := by
  rw [readN, if_pos (by omega), List.take_of_length_le (by omega)]

theorem rep_contents {s : SV T} {l : List T} (h : Rep M s l) : contents M s = some l ∧ s.size = l.length := by
  cases h with
  | small l rest cap h =>
    refine ⟨?_, rfl⟩
    rw [contents]
    simp only
    rw [if_neg (by omega)]
    exact readN_left l rest
  | big l rest h _ =>
    refine ⟨?_, rfl⟩
    rw [contents]
    simp only
    rw [if_pos h]
    exact readN_left l rest

/-- Build a small representation. -/
theorem Rep.small' {n cap : Nat} {l d : List T} (hn : n = l.length) (hd : d.length = M) (hp : l <+: d) :
    Rep M ⟨n, cap, .vals d⟩ l := by
  obtain ⟨rest, rfl⟩ := hp
  subst hn
  exact .small l rest cap (by simpa using hd)

/-- Build a big representation. -/
theorem Rep.big' {n cap : Nat} {l d : List T} (hn : n = l.length) (hc : d.length = cap) (hM : M < l.length)
    (h16 : l.length < 65536) (hp : l <+: d) : Rep M ⟨n, cap, .ptr d⟩ l := by
  obtain ⟨rest, rfl⟩ := hp
  subst hn
  subst hc
  rw [List.length_append]
  exact .big l rest hM h16

theorem rep_mk0 : Rep M (mk0 M junk) [] := .small' M rfl (by simp [freshVals]) (List.nil_prefix)

theorem rep_fill (n : Nat) (v : T) (hn : n < 0xA000) :
    ∃ s, fill M junk n v = some s ∧ Rep M s (List.replicate n v) := by
  rw [fill, if_pos hn]
  split
  · refine ⟨_, by rw [writeAt_replicate _ _ _ (by simp)]; rfl, .big' M (by simp) (by simp) (by simpa) (by simp; omega) (by simp)⟩
  · refine ⟨_, by rw [freshVals, writeAt_replicate _ _ _ (by simp; omega)]; rfl,
      .small' M (by simp) (by simp; omega) (List.prefix_append _ _)⟩

theorem rep_copy {o : SV T} {l : List T} (h : Rep M o l) : ∃ s, copy M junk o = some s ∧ Rep M s l := by
  cases h with
  | small l rest cap h =>
    rw [copy]
    simp only
    rw [if_pos (by omega)]
    simp only [SVStorage.asVals, Option.bind_eq_bind, Option.bind_some, readN_left]
    rw [freshVals, writeAt_replicate _ _ _ (by omega)]
    exact ⟨_, rfl, .small' M rfl (by simp; omega) (List.prefix_append _ _)⟩
  | big l rest h h16 =>
    rw [copy]
    simp only
    rw [if_neg (by omega)]
    simp only [SVStorage.asPtr, Option.bind_eq_bind, Option.bind_some, readN_left]
    rw [writeAt_replicate _ _ _ (by omega)]
    exact ⟨_, rfl, .big' M rfl (by simp) h h16 (List.prefix_append _ _)⟩

theorem rep_assign {s o : SV T} {k l : List T} (hs : Rep M s k) (ho : Rep M o l) :
    ∃ s', assign M junk s o = some s' ∧ Rep M s' l := by
  cases ho with
  | small l rest cap h =>
    cases hs with
    | small k rest' cap' h' =>
      rw [assign]
      simp only
      rw [if_pos (by omega), if_pos (by omega)]
      simp only [SVStorage.asVals, Option.bind_eq_bind, Option.bind_some]
      rw [readN_all _ M (by simp; omega)]
      simp only [Option.bind_some]
      have := writeAt_zero (k ++ rest') [] (l ++ rest) (by simp; omega)
      rw [List.append_nil, List.append_nil] at this
      rw [this]
      exact ⟨_, rfl, .small' M rfl (by simp; omega) (List.prefix_append _ _)⟩
    | big k rest' h' h16 =>
      rw [assign]
      simp only
      rw [if_neg (by omega), if_pos (by omega)]
      simp only [SVStorage.asVals, Option.bind_eq_bind, Option.bind_some, readN_left]
      rw [freshVals, writeAt_replicate _ _ _ (by omega)]
      exact ⟨_, rfl, .small' M rfl (by simp; omega) (List.prefix_append _ _)⟩
  | big l rest h h16 =>
    cases hs with
    | small k rest' cap' h' =>
      rw [assign]
      simp only
      rw [if_pos (by omega), if_neg (by omega)]
      simp only [SVStorage.asPtr, Option.bind_eq_bind, Option.bind_some, readN_left]
      rw [writeAt_replicate _ _ _ (by omega)]
      exact ⟨_, rfl, .big' M rfl (by simp) h h16 (List.prefix_append _ _)⟩
    | big k rest' h' h16' =>
      rw [assign]
      simp only
      rw [if_neg (by omega), if_neg (by omega)]
      simp only [SVStorage.asPtr, Option.bind_eq_bind, Option.bind_some, readN_left]
      by_cases hc : k.length + rest'.length < l.length
      · rw [if_pos hc]
        simp only
        rw [writeAt_replicate _ _ _ (by omega)]
        exact ⟨_, rfl, .big' M rfl (by simp) h h16 (List.prefix_append _ _)⟩
      · rw [if_neg hc]
        simp only
        have := writeAt_end [] (k ++ rest') l (by simp; omega)
        simp only [List.nil_append, List.length_nil] at this
        rw [this]
        exact ⟨_, rfl, .big' M rfl (by simp; omega) h h16 (List.prefix_append _ _)⟩

theorem rep_clear {s : SV T} {l : List T} (h : Rep M s l) : Rep M (clear M junk s) [] := by
  cases h with
  | small l rest cap h =>
    rw [clear]; simp only; rw [if_neg (by omega)]
    exact .small' M rfl (by simp; omega) List.nil_prefix
  | big l rest h _ =>
    rw [clear]; simp only; rw [if_pos h]
    exact .small' M rfl (by simp [freshVals]) List.nil_prefix

/-- A pointer representation that may also hold few elements (states inside an operation). -/
inductive Heap : SV T → List T → Prop where
  | mk (l rest : List T) : Heap ⟨l.length, l.length + rest.length, .ptr (l ++ rest)⟩ l

theorem heap_copyValsToPtr {l rest : List T} {cap : Nat} (h : l.length + rest.length = M) :
    ∃ s', copyValsToPtr M junk ⟨l.length, cap, .vals (l ++ rest)⟩ = some s' ∧ Heap s' l ∧ s'.cap = M * 2 := by
  rw [copyValsToPtr]
  simp only [SVStorage.asVals, Option.bind_eq_bind, Option.bind_some]
  rw [readN_all _ M (by simp; omega)]
  simp only [Option.bind_some]
  rw [writeAt_replicate _ _ _ (by simp; omega)]
  refine ⟨_, rfl, ?_, rfl⟩
  have : M * 2 = l.length + (rest ++ List.replicate (M * 2 - (l ++ rest).length) junk).length := by simp; omega
  rw [List.append_assoc]
  have h2 := Heap.mk l (rest ++ List.replicate (M * 2 - (l ++ rest).length) junk)
  rw [← this] at h2
  exact h2

theorem heap_ensure {s : SV T} {l : List T} (h : Heap s l) (n : Nat) (hM : M < n) (hn : n < 65536) (hc : s.cap ≤ n) :
    ∃ s', ensureCapacity M junk n s = some s' ∧ Heap s' l ∧ n ≤ s'.cap := by
  cases h with
  | mk l rest =>
    have hc' : l.length + rest.length ≤ n := hc
    rw [ensureCapacity]
    simp only
    rw [Nat.mod_eq_of_lt hn, if_pos hM, if_neg (by omega)]
    simp only [SVStorage.asPtr, Option.bind_eq_bind, Option.bind_some]
    rw [readN_all _ _ (by simp)]
    simp only [Option.bind_some]
    rw [writeAt_replicate _ _ _ (by simp; omega)]
    refine ⟨_, rfl, ?_, by simp; omega⟩
    generalize hm : max ((l.length + rest.length) * 2 % 65536) n = m
    have hle : l.length + rest.length ≤ m := by omega
    have : m = l.length + (rest ++ List.replicate (m - (l ++ rest).length) junk).length := by simp; omega
    rw [List.append_assoc]
    have h2 := Heap.mk l (rest ++ List.replicate (m - (l ++ rest).length) junk)
    rw [← this] at h2
    exact h2

theorem rep_pushBack {s : SV T} {l : List T} (h : Rep M s l) (hM : 0 < M) (v : T) (hl : l.length < 65535) :
    ∃ s', pushBack M junk s v = some s' ∧ Rep M s' (l ++ [v]) := by
  have heapPush : ∀ t : SV T, Heap t l → l.length < t.cap → M ≤ l.length →
      ∃ s', ((t.data.asPtr).bind fun dst => (writeAt dst t.size [v]).bind fun x =>
        some { t with size := (t.size + 1) % 65536, data := SVStorage.ptr x }) = some s' ∧ Rep M s' (l ++ [v]) := by
    intro t ht hc hMl
    cases ht with
    | mk l rest =>
      have hc' : l.length < l.length + rest.length := hc
      simp only [SVStorage.asPtr, Option.bind_some]
      rw [writeAt_end _ _ _ (by simp; omega)]
      refine ⟨_, rfl, .big' M ?_ (by simp; omega) (by simp; omega) (by simp; omega) (List.prefix_append _ _)⟩
      simp; omega
  cases h with
  | small l rest cap h =>
    rw [pushBack]
    simp only
    by_cases hlt : l.length < M
    · rw [if_pos hlt]
      simp only [SVStorage.asVals, Option.bind_eq_bind, Option.bind_some]
      rw [writeAt_end _ _ _ (by simp; omega)]
      exact ⟨_, rfl, .small' M (by simp; omega) (by simp; omega) (List.prefix_append _ _)⟩
    · rw [if_neg hlt, if_pos (by omega)]
      obtain ⟨t, h1, h2, h3⟩ := heap_copyValsToPtr M junk (cap := cap) h
      rw [h1]
      simp only [Option.bind_eq_bind, Option.bind_some]
      exact heapPush t h2 (by omega) (by omega)
  | big l rest h h16 =>
    rw [pushBack]
    simp only
    rw [if_neg (by omega), if_neg (by omega)]
    by_cases hc : l.length = l.length + rest.length
    · rw [if_pos hc]
      obtain ⟨t, h1, h2, h3⟩ := heap_ensure M junk (Heap.mk l rest) (l.length + 1) (by omega) (by omega)
        (by simp only; omega)
      rw [h1]
      simp only [Option.bind_eq_bind, Option.bind_some]
      exact heapPush t h2 (by omega) (by omega)
    · rw [if_neg hc]
      simp only [Option.bind_eq_bind, Option.bind_some]
      exact heapPush _ (Heap.mk l rest) (by simp only; omega) (by omega)

theorem rep_ptrToSmall (l d : List T) (cap n : Nat) (hn : n ≤ M) (hl : n ≤ l.length) :
    ∃ s', ptrToSmall M junk ⟨n, cap, .ptr (l ++ d)⟩ = some s' ∧ Rep M s' (l.take n) := by
  rw [ptrToSmall]
  simp only
  rw [if_pos hn]
  simp only [SVStorage.asPtr, Option.bind_eq_bind, Option.bind_some]
  rw [readN_le _ _ _ hl]
  simp only [Option.bind_some]
  rw [freshVals, writeAt_replicate _ _ _ (by simp; omega)]
  exact ⟨_, rfl, .small' M (by simp; omega) (by simp; omega) (List.prefix_append _ _)⟩

theorem take_prefix_append (l rest : List T) (n : Nat) : l.take n <+: l ++ rest :=
  (List.take_prefix n l).trans (List.prefix_append l rest)

theorem rep_popBack {s : SV T} {l : List T} (h : Rep M s l) (hl : l ≠ []) :
    ∃ s', popBack M junk s = some s' ∧ Rep M s' l.dropLast := by
  have hpos : 0 < l.length := List.length_pos_iff.2 hl
  rw [List.dropLast_eq_take]
  cases h with
  | small l rest cap h =>
    rw [popBack]; simp only; rw [if_pos hpos, if_neg (by omega)]
    exact ⟨_, rfl, .small' M (by simp) (by simp; omega) (take_prefix_append _ _ _)⟩
  | big l rest h h16 =>
    rw [popBack]; simp only; rw [if_pos hpos]
    by_cases he : l.length - 1 = M
    · rw [if_pos he]
      exact rep_ptrToSmall M junk l rest _ _ (by omega) (by omega)
    · rw [if_neg he]
      exact ⟨_, rfl, .big' M (by simp) (by simp) (by simp; omega) (by simp; omega) (take_prefix_append _ _ _)⟩

theorem rep_compact {s : SV T} {l : List T} (h : Rep M s l) (n : Nat) (hn : n ≤ l.length) :
    ∃ s', compact M junk s n = some s' ∧ Rep M s' (l.take n) := by
  cases h with
  | small l rest cap h =>
    rw [compact]; simp only; rw [if_pos hn, if_neg (by omega)]
    exact ⟨_, rfl, .small' M (by simp; omega) (by simp; omega) (take_prefix_append _ _ _)⟩
  | big l rest h h16 =>
    rw [compact]; simp only; rw [if_pos hn, if_pos h]
    by_cases he : n ≤ M
    · rw [if_pos he]
      exact rep_ptrToSmall M junk l rest _ _ he hn
    · rw [if_neg he]
      exact ⟨_, rfl, .big' M (by simp; omega) (by simp) (by simp; omega) (by simp; omega) (take_prefix_append _ _ _)⟩

/-- Specification of `resize`. -/
def resized (l : List T) (n : Nat) (v : T) : List T := l.take n ++ List.replicate (n - l.length) v

theorem rep_resize {s : SV T} {l : List T} (h : Rep M s l) (hM : 0 < M) (n : Nat) (v : T) (hn : n < 65536) :
    ∃ s', resize M junk s n v = some s' ∧ Rep M s' (resized l n v) := by
  have hlen : (resized l n v).length = n := by simp [resized]; omega
  have heapResize : ∀ t : SV T, Heap t l → M < n →
      ∃ s', ((if t.cap < n then ensureCapacity M junk n t else some t).bind fun s2 =>
        (s2.data.asPtr).bind fun dst =>
        (if s2.size < n then writeAt dst s2.size (List.replicate (n - s2.size) v) else some dst).bind fun x =>
        some { s2 with size := n % 65536, data := SVStorage.ptr x }) = some s' ∧ Rep M s' (resized l n v) := by
    intro t ht hMn
    have step : ∀ t2 : SV T, Heap t2 l → n ≤ t2.cap →
        ∃ s', ((t2.data.asPtr).bind fun dst =>
        (if t2.size < n then writeAt dst t2.size (List.replicate (n - t2.size) v) else some dst).bind fun x =>
        some { t2 with size := n % 65536, data := SVStorage.ptr x }) = some s' ∧ Rep M s' (resized l n v) := by
      intro t2 ht2 hc
      cases ht2 with
      | mk l rest =>
        have hc' : n ≤ l.length + rest.length := hc
        simp only [SVStorage.asPtr, Option.bind_some]
        by_cases hlt : l.length < n
        · rw [if_pos hlt, writeAt_end _ _ _ (by simp; omega)]
          have hr : resized l n v = l ++ List.replicate (n - l.length) v := by
            rw [resized, List.take_of_length_le (by omega)]
          rw [hr] at hlen ⊢
          refine ⟨_, rfl, .big' M (by rw [hlen]; omega) ?_ (by omega) (by omega) (List.prefix_append _ _)⟩
          simp; omega
        · rw [if_neg hlt]
          have hr : resized l n v = l.take n := by simp [resized]; omega
          rw [hr] at hlen ⊢
          exact ⟨_, rfl, .big' M (by rw [hlen]; omega) (by simp) (by omega) (by omega) (take_prefix_append _ _ _)⟩
    by_cases hc : t.cap < n
    · rw [if_pos hc]
      obtain ⟨t2, h1, h2, h3⟩ := heap_ensure M junk ht n hMn hn (by omega)
      rw [h1, Option.bind_some]
      exact step t2 h2 h3
    · rw [if_neg hc, Option.bind_some]
      exact step t ht (by omega)
  cases h with
  | small l rest cap h =>
    rw [resize]
    by_cases hnM : n ≤ M
    · rw [if_pos hnM]
      simp only
      rw [if_neg (by omega)]
      by_cases hnl : n ≤ l.length
      · rw [if_pos hnl]
        have hr : resized l n v = l.take n := by simp [resized]; omega
        rw [hr] at hlen ⊢
        exact ⟨_, rfl, .small' M hlen.symm (by simp; omega) (take_prefix_append _ _ _)⟩
      · rw [if_neg hnl]
        simp only [SVStorage.asVals, Option.bind_eq_bind, Option.bind_some]
        rw [writeAt_end _ _ _ (by simp; omega)]
        have hr : resized l n v = l ++ List.replicate (n - l.length) v := by
          rw [resized, List.take_of_length_le (by omega)]
        rw [hr] at hlen ⊢
        exact ⟨_, rfl, .small' M hlen.symm (by simp; omega) (List.prefix_append _ _)⟩
    · rw [if_neg hnM]
      simp only
      rw [if_pos (by omega)]
      obtain ⟨t, h1, h2, h3⟩ := heap_copyValsToPtr M junk (cap := cap) h
      rw [h1]
      exact heapResize t h2 (by omega)
  | big l rest h h16 =>
    rw [resize]
    by_cases hnM : n ≤ M
    · rw [if_pos hnM]
      simp only
      rw [if_pos h]
      simp only [SVStorage.asPtr, Option.bind_eq_bind, Option.bind_some]
      rw [readN_le _ _ _ (by omega)]
      simp only [Option.bind_some]
      rw [freshVals, writeAt_replicate _ _ _ (by simp; omega)]
      have hr : resized l n v = l.take n := by simp [resized]; omega
      rw [hr] at hlen ⊢
      exact ⟨_, rfl, .small' M hlen.symm (by simp; omega) (List.prefix_append _ _)⟩
    · rw [if_neg hnM]
      simp only
      rw [if_neg (by omega)]
      exact heapResize _ (Heap.mk l rest) (by omega)

theorem split_at {l : List T} {i : Nat} (h : i < l.length) : l = l.take i ++ [l[i]] ++ l.drop (i + 1) := by
  simp

theorem rep_set {s : SV T} {l : List T} (h : Rep M s l) (i : Nat) (v : T) (hi : i < l.length) :
    ∃ s', set M s i v = some s' ∧ Rep M s' (l.set i v) := by
  have hw : ∀ rest : List T, writeAt (l ++ rest) i [v] = some (l.set i v ++ rest) := by
    intro rest
    have := writeAt_some (l.take i) [l[i]] (l.drop (i + 1) ++ rest) [v] (by simp)
    rw [← List.append_assoc, ← split_at hi] at this
    rw [List.length_take, Nat.min_eq_left (by omega)] at this
    rw [this, List.set_eq_take_append_cons_drop, if_pos hi]
    simp
  cases h with
  | small l rest cap h =>
    rw [set]; simp only; rw [if_pos (by omega)]
    simp only [SVStorage.asVals, Option.bind_eq_bind, Option.bind_some, hw]
    exact ⟨_, rfl, .small' M (by simp) (by simp; omega) (List.prefix_append _ _)⟩
  | big l rest h h16 =>
    rw [set]; simp only; rw [if_neg (by omega)]
    simp only [SVStorage.asPtr, Option.bind_eq_bind, Option.bind_some, hw]
    exact ⟨_, rfl, .big' M (by simp) (by simp) (by simpa) (by simpa) (List.prefix_append _ _)⟩

theorem rep_erase {s : SV T} {l : List T} (h : Rep M s l) (hM : 0 < M) (hl : l.length < 65536) (b e : Nat)
    (hbe : b ≤ e) (he : e ≤ l.length) (z : T) :
    ∃ s', erase M junk s b e z = some s' ∧ Rep M s' (l.take b ++ l.drop e) := by
  have hsz := (rep_contents M h).2
  by_cases hend : e = l.length
  · rw [erase, if_pos (by omega)]
    obtain ⟨s', h1, h2⟩ := rep_resize M junk h hM b z (by omega)
    refine ⟨s', h1, ?_⟩
    have : resized l b z = l.take b ++ l.drop e := by
      subst hend; simp [resized]; omega
    rwa [← this]
  · rw [erase, if_neg (by omega)]
    have hw : ∀ rest : List T, ∃ m, writeAt (l ++ rest) b (l.drop e) = some (m ++ rest) ∧ m.length = l.length ∧
        m.take (b + (l.length - e)) = l.take b ++ l.drop e := by
      intro rest
      have hr : l.drop b = (l.drop b).take (l.length - e) ++ (l.drop b).drop (l.length - e) :=
        (List.take_append_drop _ _).symm
      have := writeAt_some (l.take b) ((l.drop b).take (l.length - e)) ((l.drop b).drop (l.length - e) ++ rest)
        (l.drop e) (by simp; omega)
      rw [← List.append_assoc, List.append_assoc (l.take b), ← hr, List.take_append_drop, List.length_take,
        Nat.min_eq_left (by omega), ← List.append_assoc] at this
      refine ⟨_, this, ?_, ?_⟩
      · simp; omega
      · rw [List.take_append_of_le_length (by simp; omega), List.take_of_length_le (by simp; omega)]
    have hres : ∀ m : List T, m.length = l.length → m.take (b + (l.length - e)) = l.take b ++ l.drop e →
        resized m (b + (l.length - e)) z = l.take b ++ l.drop e := by
      intro m hm hk
      rw [resized, hk, hm, show b + (l.length - e) - l.length = 0 by omega]; simp
    cases h with
    | small l rest cap h =>
      obtain ⟨m, hm1, hm2, hm3⟩ := hw rest
      rw [eraseMove]
      simp only
      rw [if_pos (by omega)]
      simp only [SVStorage.asVals, Option.bind_eq_bind, Option.bind_some, readN_left, hm1]
      have hrep : Rep M ⟨l.length, cap, .vals (m ++ rest)⟩ m := .small' M (by omega) (by simp; omega) (List.prefix_append _ _)
      obtain ⟨s', h1, h2⟩ := rep_resize M junk hrep hM (b + (l.length - e)) z (by omega)
      exact ⟨s', h1, by rwa [← hres m hm2 hm3]⟩
    | big l rest h h16 =>
      obtain ⟨m, hm1, hm2, hm3⟩ := hw rest
      rw [eraseMove]
      simp only
      rw [if_neg (by omega)]
      simp only [SVStorage.asPtr, Option.bind_eq_bind, Option.bind_some, readN_left, hm1]
      have hrep : Rep M ⟨l.length, l.length + rest.length, .ptr (m ++ rest)⟩ m :=
        .big' M (by omega) (by simp; omega) (by omega) (by omega) (List.prefix_append _ _)
      obtain ⟨s', h1, h2⟩ := rep_resize M junk hrep hM (b + (l.length - e)) z (by omega)
      exact ⟨s', h1, by rwa [← hres m hm2 hm3]⟩

end SV

/-! ## Programs over any number of vectors -/

/-- A call on the vectors named by numbers. -/
inductive SVOp (T : Type) where
  | new (x : Nat) (n : Nat) (v : T)
  | copy (x y : Nat)
  | assign (x y : Nat)
  | push (x : Nat) (v : T)
  | pop (x : Nat)
  | resize (x : Nat) (n : Nat) (v : T)
  | compact (x : Nat) (n : Nat)
  | clear (x : Nat)
  | set (x i : Nat) (v : T)
  | erase (x b e : Nat)
  | swap (x y : Nat)

/-- Effect of a call on ordinary sequences; `none` if the call is illegal: positions out of range, or a
size that does not fit the 16-bit size field (`0xA000` for the filling constructor). -/
def SVOp.spec (st : Nat → List T) : SVOp T → Option (Nat → List T)
  | .new x n v => if n < 0xA000 then some (fun y => if y = x then List.replicate n v else st y) else none
  | .copy x y | .assign x y => some fun z => if z = x then st y else st z
  | .push x v => if (st x).length < 65535 then some (fun y => if y = x then st x ++ [v] else st y) else none
  | .pop x => if st x = [] then none else some fun y => if y = x then (st x).dropLast else st y
  | .resize x n v =>
    if n < 65536 then
      some (fun y => if y = x then (st x).take n ++ List.replicate (n - (st x).length) v else st y)
    else none
  | .compact x n => if n ≤ (st x).length then some (fun y => if y = x then (st x).take n else st y) else none
  | .clear x => some fun y => if y = x then [] else st y
  | .set x i v => if i < (st x).length then some (fun y => if y = x then (st x).set i v else st y) else none
  | .erase x b e =>
    if b ≤ e ∧ e ≤ (st x).length then some (fun y => if y = x then (st x).take b ++ (st x).drop e else st y)
    else none
  | .swap x y => some fun z => if z = x then st y else if z = y then st x else st z

/-- Effect of the same call on the code's objects. -/
def SVOp.code (zero : T) (st : Nat → SV T) : SVOp T → Option (Nat → SV T)
  | .new x n v => (SV.fill M junk n v).map fun s y => if y = x then s else st y
  | .copy x y => (SV.copy M junk (st y)).map fun s z => if z = x then s else st z
  | .assign x y => (SV.assign M junk (st x) (st y)).map fun s z => if z = x then s else st z
  | .push x v => (SV.pushBack M junk (st x) v).map fun s y => if y = x then s else st y
  | .pop x => (SV.popBack M junk (st x)).map fun s y => if y = x then s else st y
  | .resize x n v => (SV.resize M junk (st x) n v).map fun s y => if y = x then s else st y
  | .compact x n => (SV.compact M junk (st x) n).map fun s y => if y = x then s else st y
  | .clear x => some fun y => if y = x then SV.clear M junk (st x) else st y
  | .set x i v => (SV.set M (st x) i v).map fun s y => if y = x then s else st y
  | .erase x b e => (SV.erase M junk (st x) b e zero).map fun s y => if y = x then s else st y
  | .swap x y => some fun z => if z = x then st y else if z = y then st x else st z

/-- Run a program on sequences. -/
def specRun (st : Nat → List T) : List (SVOp T) → Option (Nat → List T)
  | [] => some st
  | op :: ops => (op.spec st).bind fun st' => specRun st' ops

/-- Run a program on the code's objects. -/
def codeRun (zero : T) (st : Nat → SV T) : List (SVOp T) → Option (Nat → SV T)
  | [] => some st
  | op :: ops => (op.code M junk zero st).bind fun st' => codeRun zero st' ops

theorem SVOp.simulates (hM : 0 < M) (zero : T) (op : SVOp T) (st : Nat → SV T) (sp sp' : Nat → List T)
    (hrep : ∀ x, SV.Rep M (st x) (sp x) ∧ (sp x).length < 65536) (hs : op.spec sp = some sp') (_ : M * 2 < 65536) :
    ∃ st', op.code M junk zero st = some st' ∧ ∀ x, SV.Rep M (st' x) (sp' x) ∧ (sp' x).length < 65536 := by
  have upd : ∀ (x : Nat) (r : Option (SV T)) (l : List T), (∃ s, r = some s ∧ SV.Rep M s l) → l.length < 65536 →
      ∃ st', (r.map fun s y => if y = x then s else st y) = some st' ∧
        ∀ y, SV.Rep M (st' y) (if y = x then l else sp y) ∧ (if y = x then l else sp y).length < 65536 := by
    rintro x r l ⟨s, rfl, h⟩ hl
    refine ⟨_, rfl, fun y => ?_⟩
    by_cases hy : y = x
    · simp [hy, h, hl]
    · simp [hy, hrep y]
  cases op with
  | new x n v =>
    simp only [SVOp.spec] at hs
    split at hs
    · cases hs; exact upd x _ _ (SV.rep_fill M junk n v (by assumption)) (by simp; omega)
    · simp at hs
  | copy x y =>
    simp only [SVOp.spec] at hs
    cases hs; exact upd x _ _ (SV.rep_copy M junk (hrep y).1) (hrep y).2
  | assign x y =>
    simp only [SVOp.spec] at hs
    cases hs; exact upd x _ _ (SV.rep_assign M junk (hrep x).1 (hrep y).1) (hrep y).2
  | push x v =>
    simp only [SVOp.spec] at hs
    split at hs
    · cases hs; exact upd x _ _ (SV.rep_pushBack M junk (hrep x).1 hM v (by assumption)) (by simp; omega)
    · simp at hs
  | pop x =>
    simp only [SVOp.spec] at hs
    split at hs
    · simp at hs
    · cases hs; exact upd x _ _ (SV.rep_popBack M junk (hrep x).1 (by assumption)) (by have := (hrep x).2; simp; omega)
  | resize x n v =>
    simp only [SVOp.spec] at hs
    split at hs
    · cases hs; exact upd x _ _ (SV.rep_resize M junk (hrep x).1 hM n v (by assumption)) (by simp; omega)
    · simp at hs
  | compact x n =>
    simp only [SVOp.spec] at hs
    split at hs
    · cases hs; exact upd x _ _ (SV.rep_compact M junk (hrep x).1 n (by assumption)) (by have := (hrep x).2; simp; omega)
    · simp at hs
  | clear x =>
    simp only [SVOp.spec] at hs
    cases hs
    exact upd x (some (SV.clear M junk (st x))) _ ⟨_, rfl, SV.rep_clear M junk (hrep x).1⟩ (by simp)
  | set x i v =>
    simp only [SVOp.spec] at hs
    split at hs
    · cases hs; exact upd x _ _ (SV.rep_set M (hrep x).1 i v (by assumption)) (by have := (hrep x).2; simp; omega)
    · simp at hs
  | erase x b e =>
    simp only [SVOp.spec] at hs
    split at hs
    · rename_i h
      cases hs; exact upd x _ _ (SV.rep_erase M junk (hrep x).1 hM (hrep x).2 b e h.1 h.2 zero) (by have := (hrep x).2; simp; omega)
    · simp at hs
  | swap x y =>
    simp only [SVOp.spec] at hs
    cases hs
    refine ⟨_, rfl, fun z => ?_⟩
    by_cases h1 : z = x
    · simp [h1, hrep y]
    · by_cases h2 : z = y
      · simp only [h2]
        by_cases h3 : y = x
        · simp [h3, hrep x]
        · simp [h3, hrep x]
      · simp [h1, h2, hrep z]

/-- C23.  Every program of SmallVector calls (any number of vectors, any inline capacity `M ≥ 1`, any
garbage in uninitialised memory) that is legal for ordinary sequences runs without undefined behaviour, and
afterwards `size()` and the elements read between `begin()` and `end()` of every vector are those of the
ordinary sequence. -/
theorem C23_small_vector (hM : 0 < M) (hM16 : M * 2 < 65536) (zero : T) (ops : List (SVOp T))
    (sp : Nat → List T) (hs : specRun (fun _ => []) ops = some sp) :
    ∃ st, codeRun M junk zero (fun _ => SV.mk0 M junk) ops = some st ∧
      ∀ x, (st x).size = (sp x).length ∧ (st x).contents M = some (sp x) := by
  have key : ∀ (ops : List (SVOp T)) (st : Nat → SV T) (s0 sp : Nat → List T),
      (∀ x, SV.Rep M (st x) (s0 x) ∧ (s0 x).length < 65536) → specRun s0 ops = some sp →
      ∃ st', codeRun M junk zero st ops = some st' ∧ ∀ x, SV.Rep M (st' x) (sp x) := by
    intro ops
    induction ops with
    | nil =>
      intro st s0 sp hr h
      simp only [specRun, Option.some.injEq] at h
      subst h
      exact ⟨st, rfl, fun x => (hr x).1⟩
    | cons op ops ih =>
      intro st s0 sp hr h
      simp only [specRun] at h
      cases h1 : op.spec s0 with
      | none => rw [h1] at h; simp at h
      | some s1 =>
        rw [h1, Option.bind_some] at h
        obtain ⟨st1, hc, hr1⟩ := op.simulates M junk hM zero st s0 s1 hr h1 hM16
        obtain ⟨st2, hc2, hr2⟩ := ih st1 s1 sp hr1 h
        exact ⟨st2, by rw [codeRun, hc, Option.bind_some, hc2], hr2⟩
  obtain ⟨st, h1, h2⟩ := key ops (fun _ => SV.mk0 M junk) (fun _ => []) sp
    (fun x => ⟨SV.rep_mk0 M junk, by simp⟩) hs
  exact ⟨st, h1, fun x => ⟨(SV.rep_contents M (h2 x)).2, (SV.rep_contents M (h2 x)).1⟩⟩

/-- C23, comparison: `operator==` on any two valid vectors is equality of the sequences they hold. -/
theorem C23_equality [DecidableEq T] (s o : SV T) (k l : List T) (hs : SV.Rep M s k) (ho : SV.Rep M o l) :
    SV.eq M s o = some (decide (k = l)) := by
  obtain ⟨h1, h2⟩ := SV.rep_contents M hs
  obtain ⟨h3, h4⟩ := SV.rep_contents M ho
  rw [SV.eq, h1, h3, h2, h4]
  by_cases h : k.length = l.length
  · simp [h]
  · rw [if_pos h]
    have : k ≠ l := fun e => h (by rw [e])
    simp [this]

/-- C23, disagreement.  `v.push_back(v[0])`, legal for an ordinary sequence, is undefined on a full inline
vector and on a full heap buffer: the argument is read from storage that has just been replaced. -/
theorem C23_push_own_element_fails :
    (∃ s : SV Nat, SV.Rep 2 s [1, 2] ∧ SV.pushBackOwn 2 0 s 0 = none) ∧
    ∃ s : SV Nat, SV.Rep 2 s [1, 2, 3, 4] ∧ SV.pushBackOwn 2 0 s 0 = none :=
  ⟨⟨⟨2, 0, .vals [1, 2]⟩, .small [1, 2] [] 0 rfl, by decide⟩,
   ⟨⟨4, 4, .ptr [1, 2, 3, 4]⟩, .big [1, 2, 3, 4] [] (by decide) (by decide), by decide⟩⟩

/-- Non-vacuity: a program that crosses the inline limit in both directions. -/
example : (specRun (fun _ => []) [.push 0 1, .push 0 2, .push 0 3, .copy 1 0, .set 1 2 9, .pop 0,
      .erase 1 0 1, .resize 0 5 7, .assign 2 0, .swap 0 1]).map (fun f => (f 0, f 1, f 2)) =
    some ([2, 9], [1, 2, 7, 7, 7], [1, 2, 7, 7, 7]) ∧
    ((codeRun 2 99 0 (fun _ => SV.mk0 2 99) [.push 0 1, .push 0 2, .push 0 3, .copy 1 0, .set 1 2 9, .pop 0,
      .erase 1 0 1, .resize 0 5 7, .assign 2 0, .swap 0 1]).map fun f =>
        ((f 0).contents 2, (f 1).contents 2, (f 2).contents 2)) =
    some (some [2, 9], some [1, 2, 7, 7, 7], some [1, 2, 7, 7, 7]) := by decide

end Cdec
