import Verif.Klm.ProbingLemmas
import Mathlib.Data.List.TakeWhile
import Mathlib.Data.List.Nodup
/-!
# Doubling a linear probing table keeps its contents
-/
namespace Cdec.Klm

variable {K V : Type _} [DecidableEq K]

/-- The invariant of the re-insertion loop before round `i`; `t1` is the first half at the beginning of the
loop. -/
structure Mid (inv : K) (hash : K → Nat) (N : Nat) (t1 : List (K × V)) (m : K → Option V) (u i : Nat)
    (t : List (K × V)) : Prop where
  len : t.length = 2 * N
  paths : ∀ (p : Nat) (e : K × V), t[p]? = some e → e.1 ≠ inv → (p < i ∨ N ≤ p) →
    ∃ d < 2 * N, p = (hash e.1 % (2 * N) + d) % (2 * N) ∧
      (∀ c < d, occ inv t ((hash e.1 % (2 * N) + c) % (2 * N))) ∧
      ∀ c ≤ d, (hash e.1 % (2 * N) + c) % (2 * N) < i ∨ N ≤ (hash e.1 % (2 * N) + c) % (2 * N)
  rest : ∀ p, i ≤ p → p < N → t[p]? = t1[p]?
  uniq : Uniq inv t
  holds : Holds inv t m
  used : used inv t = u

theorem mid_step {inv : K} {hash : K → Nat} {N : Nat} {t1 : List (K × V)} {m : K → Option V} {u i : Nat}
    {t : List (K × V)} (hi : i < N)
    (hideal : ∀ (p : Nat) (e : K × V), p < N → t1[p]? = some e → e.1 ≠ inv → hash e.1 % N ≤ p)
    (h : Mid inv hash N t1 m u i t) :
    ∃ t', doubleStep inv hash t i = some t' ∧ Mid inv hash N t1 m u (i + 1) t' := by
  have hil : i < t.length := by rw [h.len]; omega
  have hget := List.getElem?_eq_getElem hil
  generalize t[i] = e at hget
  unfold doubleStep
  rw [hget]
  simp only
  split
  · rename_i hinv
    refine ⟨t, rfl, h.len, ?_, fun p hp hpN => h.rest p (by omega) hpN, h.uniq, h.holds, h.used⟩
    intro p e' he' hne hp
    have hpi : p ≠ i := by rintro rfl; rw [hget] at he'; cases he'; exact hne hinv
    obtain ⟨d, h1, h2, h3, h4⟩ := h.paths p e' he' hne (by omega)
    exact ⟨d, h1, h2, h3, fun c hc => (h4 c hc).imp (by omega) id⟩
  · rename_i hinv
    have hid : hash e.1 % N ≤ i := hideal i e hi (by rw [← h.rest i (le_refl _) hi, hget]) hinv
    have hmod : hash e.1 % (2 * N) % N = hash e.1 % N := Nat.mod_mod_of_dvd _ ⟨2, Nat.mul_comm _ _⟩
    have hlt : hash e.1 % (2 * N) < 2 * N := Nat.mod_lt _ (by omega)
    have hcase : hash e.1 % (2 * N) ≤ i ∨ N ≤ hash e.1 % (2 * N) := by
      by_cases hc : hash e.1 % (2 * N) < N
      · rw [Nat.mod_eq_of_lt hc] at hmod; omega
      · omega
    have hl' : (t.set i (inv, e.2)).length = 2 * N := by rw [List.length_set, h.len]
    obtain ⟨df, hdf, hreach, hpath⟩ : ∃ df < 2 * N, (hash e.1 % (2 * N) + df) % (2 * N) = i ∧
        ∀ c ≤ df, (hash e.1 % (2 * N) + c) % (2 * N) < i + 1 ∨ N ≤ (hash e.1 % (2 * N) + c) % (2 * N) := by
      rcases hcase with hc | hc
      · refine ⟨i - hash e.1 % (2 * N), by omega, ?_, fun c hc' => ?_⟩
        · rw [show hash e.1 % (2 * N) + (i - hash e.1 % (2 * N)) = i by omega]
          exact Nat.mod_eq_of_lt (by omega)
        · left; rw [Nat.mod_eq_of_lt (by omega)]; omega
      · refine ⟨2 * N - hash e.1 % (2 * N) + i, by omega, ?_, fun c hc' => ?_⟩
        · rw [show hash e.1 % (2 * N) + (2 * N - hash e.1 % (2 * N) + i) = 2 * N + i by omega,
            Nat.add_mod_left, Nat.mod_eq_of_lt (by omega)]
        · by_cases hw : hash e.1 % (2 * N) + c < 2 * N
          · right; rw [Nat.mod_eq_of_lt hw]; omega
          · left
            rw [Nat.mod_eq_sub_mod (by omega), Nat.mod_eq_of_lt (by omega)]; omega
    have hfreei : free inv (t.set i (inv, e.2)) i := ⟨(inv, e.2), by rw [getElem?_set_of_lt _ _ _ _ hil]; simp, rfl⟩
    obtain ⟨d, hd, hfree, hocc, hins⟩ := uncheckedInsert_spec inv hash (t.set i (inv, e.2)) e df (by omega)
      (by omega) (by rw [hl', hreach]; exact hfreei)
    rw [hl'] at hfree hocc hins
    have hq : (hash e.1 % (2 * N) + d) % (2 * N) < (t.set i (inv, e.2)).length := by
      rw [hl']; exact Nat.mod_lt _ (by omega)
    have hu' := uniq_remove h.uniq (w := e.2) hil
    have hk : (e.1, e.2) = e := rfl
    have hh' := holds_remove h.holds h.uniq (w := e.2) hinv (q := i) (v := e.2) hget
    refine ⟨_, hins, by rw [List.length_set, hl'], ?_, ?_, ?_, ?_, ?_⟩
    · intro p e' he' hne hp
      rw [getElem?_set_of_lt _ _ _ _ hq] at he'
      split at he'
      · rename_i hqp
        cases he'
        refine ⟨d, by omega, hqp.symm, fun c hc => ?_, fun c hc => hpath c (by omega)⟩
        rw [occ_set inv _ _ _ hq hinv]
        exact Or.inr (hocc c hc)
      · rw [getElem?_set_of_lt _ _ _ _ hil] at he'
        split at he'
        · cases he'; exact absurd rfl hne
        · rename_i hqp hip
          obtain ⟨d', a1, a2, a3, a4⟩ := h.paths p e' he' hne (by omega)
          refine ⟨d', a1, a2, fun c hc => ?_, fun c hc => (a4 c hc).imp (by omega) id⟩
          rw [occ_set inv _ _ _ hq hinv]
          right
          obtain ⟨e2, b1, b2⟩ := a3 c hc
          refine ⟨e2, ?_, b2⟩
          rw [getElem?_set_of_lt _ _ _ _ hil, if_neg, b1]
          have := a4 c (by omega)
          omega
    · intro p hp hpN
      rw [getElem?_set_of_lt _ _ _ _ hq, if_neg, getElem?_set_of_lt _ _ _ _ hil, if_neg (by omega)]
      · exact h.rest p (by omega) hpN
      · have := hpath d hd; omega
    · exact uniq_insert hh' hu' (v := e.2) hinv hq (by simp)
    · have := holds_insert hh' (v := e.2) hinv hfree (by simp)
      have hm : m e.1 = some e.2 := (h.holds e.1 e.2 hinv).mpr ⟨i, hget⟩
      rw [Function.update_idem, ← hm, Function.update_eq_self] at this
      exact this
    · rw [used_insert hinv hfree, used_remove hinv hget, h.used]

theorem mid_loop {inv : K} {hash : K → Nat} {N : Nat} {t1 : List (K × V)} {m : K → Option V} {u : Nat}
    (hideal : ∀ (p : Nat) (e : K × V), p < N → t1[p]? = some e → e.1 ≠ inv → hash e.1 % N ≤ p)
    (n : Nat) (hn : n ≤ N) {t : List (K × V)} (h : Mid inv hash N t1 m u 0 t) :
    ∃ t', (List.range n).foldlM (doubleStep inv hash) t = some t' ∧ Mid inv hash N t1 m u n t' := by
  induction n with
  | zero => exact ⟨t, rfl, h⟩
  | succ n ih =>
    obtain ⟨t', h1, h2⟩ := ih (by omega)
    obtain ⟨t'', h3, h4⟩ := mid_step (by omega) hideal h2
    refine ⟨t'', ?_, h4⟩
    rw [List.range_succ, List.foldlM_append, h1]
    simp [h3]

theorem rep_insertAll {inv : K} {hash : K → Nat} (xs : List (K × V)) {t : List (K × V)} {m : K → Option V}
    (hr : Rep inv hash t m) (hf : used inv t + xs.length < t.length + 1) (hx : ∀ x ∈ xs, x.1 ≠ inv ∧ m x.1 = none)
    (hnd : (xs.map Prod.fst).Nodup) :
    ∃ t', xs.foldlM (uncheckedInsert inv hash) t = some t' ∧
      Rep inv hash t' (xs.foldl (fun (m : K → Option V) x => Function.update m x.1 (some x.2)) m) ∧
      used inv t' = used inv t + xs.length ∧ t'.length = t.length := by
  induction xs generalizing t m with
  | nil => exact ⟨t, rfl, hr, rfl, rfl⟩
  | cons x xs ih =>
    simp only [List.length_cons] at hf
    obtain ⟨t', h1, h2, h3, h4⟩ := rep_uncheckedInsert hr (by omega) x.1 x.2 (hx x List.mem_cons_self).1
      (hx x List.mem_cons_self).2
    simp only [List.map_cons, List.nodup_cons] at hnd
    obtain ⟨t'', g1, g2, g3, g4⟩ := ih h2 (by omega) (fun y hy => by
      refine ⟨(hx y (List.mem_cons_of_mem _ hy)).1, ?_⟩
      rw [Function.update_of_ne]
      · exact (hx y (List.mem_cons_of_mem _ hy)).2
      · intro he; exact hnd.1 (he ▸ List.mem_map_of_mem hy)) hnd.2
    refine ⟨t'', ?_, g2, by simp only [List.length_cons]; omega, by omega⟩
    rw [List.foldlM_cons]
    change (uncheckedInsert inv hash t (x.1, x.2)).bind _ = _
    rw [h1]; exact g1

/-- The contents after taking the entries of `xs` out. -/
def without (m : K → Option V) (xs : List (K × V)) (k : K) : Option V :=
  if k ∈ xs.map Prod.fst then none else m k

theorem foldl_update (xs : List (K × V)) (m : K → Option V) (hnd : (xs.map Prod.fst).Nodup) (k : K) :
    xs.foldl (fun (m : K → Option V) x => Function.update m x.1 (some x.2)) m k =
      match xs.find? (fun x => x.1 == k) with
      | some x => some x.2
      | none => m k := by
  induction xs generalizing m with
  | nil => rfl
  | cons x xs ih =>
    simp only [List.map_cons, List.nodup_cons] at hnd
    rw [List.foldl_cons, ih _ hnd.2, List.find?_cons]
    by_cases hxk : x.1 = k
    · subst hxk
      have : xs.find? (fun y => y.1 == x.1) = none := by
        rw [List.find?_eq_none]
        intro y hy hyk
        simp only [beq_iff_eq] at hyk
        exact hnd.1 (hyk ▸ List.mem_map_of_mem hy)
      rw [this]; simp
    · have h' : (x.1 == k) = false := by simpa using hxk
      rw [h']
      simp only
      cases xs.find? (fun y => y.1 == k) with
      | some y => rfl
      | none => exact Function.update_of_ne (Ne.symm hxk) _ _

/-- **Doubling.**  A table with an empty bucket keeps its contents, and no loop is endless. -/
theorem double_spec {inv : K} {hash : K → Nat} {t : List (K × V)} {m : K → Option V} (junk : V)
    (hr : Rep inv hash t m) (hf : used inv t < t.length) :
    ∃ t', double inv hash junk t = some t' ∧ Rep inv hash t' m ∧ used inv t' = used inv t ∧
      t'.length = 2 * t.length := by
  have hN : 0 < t.length := by omega
  -- the entries at the beginning
  obtain ⟨rolled, rest, hroll, ht, hval, hrest⟩ : ∃ rolled rest, rolled = t.takeWhile (fun e => decide (e.1 ≠ inv)) ∧
      t = rolled ++ rest ∧ (∀ e ∈ rolled, e.1 ≠ inv) ∧ (∀ e, rest.head? = some e → e.1 = inv) := by
    refine ⟨_, t.dropWhile (fun e => decide (e.1 ≠ inv)), rfl, List.takeWhile_append_dropWhile.symm, ?_, ?_⟩
    · intro e he
      have := List.mem_takeWhile_imp he
      simpa using this
    · intro e he
      have := List.head?_dropWhile_not (fun e => decide (e.1 ≠ inv)) t
      rw [he] at this
      simpa using this
  have hnd : (rolled.map Prod.fst).Nodup := by
    rw [List.nodup_iff_getElem?_ne_getElem?]
    intro i j hij hj he
    rw [List.length_map] at hj
    rw [List.getElem?_map, List.getElem?_map, List.getElem?_eq_getElem hj,
      List.getElem?_eq_getElem (show i < rolled.length by omega)] at he
    simp only [Option.map_some, Option.some.injEq] at he
    have hi' : t[i]? = some rolled[i] := by
      rw [ht, List.getElem?_append_left (by omega)]; exact List.getElem?_eq_getElem (by omega)
    have hj' : t[j]? = some rolled[j] := by
      rw [ht, List.getElem?_append_left hj]; exact List.getElem?_eq_getElem hj
    have := hr.uniq i j _ _ hi' hj' he (hval _ (List.getElem_mem _))
    omega
  let t1 := rolled.map (fun e => (inv, e.2)) ++ rest
  let t2 := t1 ++ List.replicate t.length (inv, junk)
  have hlen1 : t1.length = t.length := by simp [t1, ht]
  -- the lookups in `t2`
  have hget2 : ∀ (p : Nat) (e : K × V), e.1 ≠ inv → (t2[p]? = some e ↔ rolled.length ≤ p ∧ t[p]? = some e) := by
    intro p e hne
    by_cases hp : p < rolled.length
    · constructor
      · intro h
        simp only [t2, t1] at h
        rw [List.append_assoc, List.getElem?_append_left (by simpa using hp), List.getElem?_map,
          List.getElem?_eq_getElem hp] at h
        simp only [Option.map_some, Option.some.injEq] at h
        rw [← h] at hne; exact absurd rfl hne
      · rintro ⟨h, _⟩; omega
    · by_cases hp2 : p < t.length
      · have : t2[p]? = t[p]? := by
          simp only [t2]
          rw [List.getElem?_append_left (by omega)]
          simp only [t1]
          rw [List.getElem?_append_right (by simp; omega)]
          conv_rhs => rw [ht, List.getElem?_append_right (by omega)]
          simp
        rw [this]
        exact ⟨fun h => ⟨by omega, h⟩, fun h => h.2⟩
      · constructor
        · intro h
          simp only [t2] at h
          rw [List.getElem?_append_right (by omega), List.getElem?_replicate] at h
          split at h
          · simp only [Option.some.injEq] at h; rw [← h] at hne; exact absurd rfl hne
          · cases h
        · rintro ⟨_, h⟩
          have := (List.getElem?_eq_some_iff.mp h).1
          omega
  have hused : used inv t2 + rolled.length = used inv t := by
    have hmap : (rolled.map (fun e => (inv, e.2))).countP (valid inv) = 0 := by
      rw [List.countP_eq_zero]
      intro e he
      obtain ⟨e', _, rfl⟩ := List.mem_map.mp he
      simp [valid]
    have hrl : rolled.countP (valid inv) = rolled.length := by
      rw [List.countP_eq_length]
      intro e he; simp [valid, hval e he]
    have hrep : (List.replicate t.length (inv, junk)).countP (valid inv) = 0 := by
      rw [List.countP_eq_zero]
      intro e he
      rw [(List.mem_replicate.mp he).2]; simp [valid]
    unfold used
    conv_rhs => rw [ht]
    simp only [t2, t1, List.countP_append, hmap, hrl, hrep]
    omega
  have hmid : Mid inv hash t.length t1 (without m rolled) (used inv t2) 0 t2 := by
    refine ⟨by simp [t2, hlen1]; omega, ?_, ?_, ?_, ?_, rfl⟩
    · intro p e he hne hp
      have h := (hget2 p e hne).mp he
      have := (List.getElem?_eq_some_iff.mp h.2).1
      omega
    · intro p _ hp
      simp only [t2]; rw [List.getElem?_append_left (by omega)]
    · intro p q e e' h1 h2 h3 h4
      exact hr.uniq p q e e' ((hget2 p e h4).mp h1).2 ((hget2 q e' (h3 ▸ h4)).mp h2).2 h3 h4
    · intro k v hk
      unfold without
      constructor
      · intro h
        split at h
        · cases h
        · rename_i hnot
          obtain ⟨p, hp⟩ := (hr.holds k v hk).mp h
          refine ⟨p, (hget2 p (k, v) hk).mpr ⟨?_, hp⟩⟩
          by_contra hlt
          apply hnot
          rw [ht, List.getElem?_append_left (by omega)] at hp
          exact List.mem_map.mpr ⟨(k, v), List.mem_of_getElem? hp, rfl⟩
      · rintro ⟨p, hp⟩
        obtain ⟨h1, h2⟩ := (hget2 p (k, v) hk).mp hp
        rw [if_neg]
        · exact (hr.holds k v hk).mpr ⟨p, h2⟩
        · intro hmem
          obtain ⟨e, he, hek⟩ := List.mem_map.mp hmem
          obtain ⟨q, hq, rfl⟩ := List.mem_iff_getElem.mp he
          have h3 : t[q]? = some rolled[q] := by
            rw [ht, List.getElem?_append_left hq]; exact List.getElem?_eq_getElem hq
          have := hr.uniq p q _ _ h2 h3 hek.symm hk
          omega
  have hideal : ∀ (p : Nat) (e : K × V), p < t.length → t1[p]? = some e → e.1 ≠ inv → hash e.1 % t.length ≤ p := by
    intro p e hp he hne
    have he2 : t2[p]? = some e := by simp only [t2]; rw [List.getElem?_append_left (by omega)]; exact he
    obtain ⟨h1, h2⟩ := (hget2 p e hne).mp he2
    obtain ⟨d, hd, hpd, hocc⟩ := hr.paths p e h2 hne
    by_contra hlt
    have hh := Nat.mod_lt (hash e.1) hN
    have hw : t.length ≤ hash e.1 % t.length + d := by
      by_contra hc
      rw [Nat.mod_eq_of_lt (by omega)] at hpd; omega
    have hpe : p = hash e.1 % t.length + d - t.length := by
      rw [hpd, Nat.mod_eq_sub_mod hw, Nat.mod_eq_of_lt (by omega)]
    -- the bucket after the rolled entries is on the path
    have hr1 : rolled.length < t.length := by omega
    have hfree : free inv t rolled.length := by
      have hx : t[rolled.length]? = rest[0]? := by
        conv_lhs => rw [ht, List.getElem?_append_right (Nat.le_refl _), Nat.sub_self]
      have hx2 := List.getElem?_eq_getElem hr1
      refine ⟨_, hx2, ?_⟩
      apply hrest
      rw [List.head?_eq_getElem?, ← hx, hx2]
    by_cases hrp : rolled.length = p
    · rw [hrp] at hfree
      exact not_occ_of_free hfree ⟨e, h2, hne⟩
    · have := hocc (t.length - hash e.1 % t.length + rolled.length) (by omega)
      rw [show hash e.1 % t.length + (t.length - hash e.1 % t.length + rolled.length) =
        t.length + rolled.length by omega, Nat.add_mod_left, Nat.mod_eq_of_lt hr1] at this
      exact not_occ_of_free hfree this
  obtain ⟨t3, h3, hm3⟩ := mid_loop hideal t.length (le_refl _) hmid
  have hrep3 : Rep inv hash t3 (without m rolled) := by
    refine ⟨?_, hm3.uniq, hm3.holds⟩
    intro p e he hne
    obtain ⟨d, a1, a2, a3, _⟩ := hm3.paths p e he hne (by omega)
    unfold Path
    rw [hm3.len]
    exact ⟨d, a1, a2, a3⟩
  obtain ⟨t4, h4, hrep4, hu4, hl4⟩ := rep_insertAll rolled hrep3 (by rw [hm3.used, hm3.len]; omega)
    (fun x hx => ⟨hval x hx, by unfold without; rw [if_pos (List.mem_map_of_mem hx)]⟩) hnd
  refine ⟨t4, ?_, ?_, by rw [hu4, hm3.used]; omega, by rw [hl4, hm3.len]⟩
  · unfold double
    simp only [← hroll]
    have hd : t.drop rolled.length = rest := by
      conv_lhs => rw [ht]
      exact List.drop_left
    rw [hd]
    change (match (List.range t.length).foldlM (doubleStep inv hash) t2 with
      | none => none
      | some t3 => rolled.foldlM (uncheckedInsert inv hash) t3) = _
    rw [h3]; exact h4
  · have hmm : ∀ k, k ≠ inv → rolled.foldl (fun (m : K → Option V) x => Function.update m x.1 (some x.2)) (without m rolled) k = m k := by
      intro k hk
      rw [foldl_update _ _ hnd]
      cases hfind : rolled.find? (fun x => x.1 == k) with
      | none =>
        simp only
        unfold without
        rw [if_neg]
        intro hmem
        obtain ⟨e, he, hek⟩ := List.mem_map.mp hmem
        have := List.find?_eq_none.mp hfind e he
        simp [hek] at this
      | some x =>
        simp only
        have hx := List.mem_of_find?_eq_some hfind
        have hxk : x.1 = k := by simpa using List.find?_some hfind
        obtain ⟨q, hq, hqe⟩ := List.mem_iff_getElem.mp hx
        symm
        apply (hr.holds k x.2 hk).mpr
        refine ⟨q, ?_⟩
        rw [ht, List.getElem?_append_left hq, List.getElem?_eq_getElem hq, hqe, ← hxk]
    exact ⟨hrep4.paths, hrep4.uniq, fun k v hk => by rw [← hrep4.holds k v hk, hmm k hk]⟩

end Cdec.Klm
