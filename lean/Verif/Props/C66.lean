import Verif.Sparse.Serial
import Verif.Sparse.Lemmas
import Verif.Props.C27
/-! # C66: a saved feature vector is read back with the same value for every feature name -/
namespace Cdec.Sparse
variable {W T : Type} [DecidableEq W] [Zero T]

namespace Spec

/-- The value a vector has for a feature name, in a process with feature dictionary `d`: 0 for unknown names. -/
def valueOf (d : Dict W) (v : FSV T) (name : W) : T :=
  match d.find name with
  | some k => v.value k
  | none => 0

end Spec
open Spec

theorem wire_spec (bad0 : W) {d : Dict W} (hd : d.Inv) (l : List (Nat × T)) (hk : ∀ p ∈ l, 1 ≤ p.1 ∧ p.1 ≤ d.words.length) (hnd : (l.map Prod.fst).Nodup) :
    ∃ r, wire bad0 d l = some r ∧ r.length = l.length ∧ (r.map Prod.fst).Nodup ∧ (∀ w ∈ r.map Prod.fst, ∃ k ∈ l.map Prod.fst, d.find w = some k) ∧
      ∀ u k, d.find u = some k → r.lookup u = lookup l k := by
  induction l with
  | nil => exact ⟨[], rfl, rfl, by simp, by simp, by simp [lookup]⟩
  | cons p l ih =>
    obtain ⟨r, h1, h2, h3, h4, h5⟩ := ih (fun q hq => hk q (by simp [hq])) (List.nodup_cons.1 hnd).2
    obtain ⟨hp1, hp2⟩ := hk p (by simp)
    have hw : d.words[p.1 - 1]? = some (d.words[p.1 - 1]'(by omega)) := List.getElem?_eq_getElem _
    generalize d.words[p.1 - 1]'(by omega) = w at hw
    have hf : d.find w = some p.1 := (hd w p.1).2 ⟨hp1, hw⟩
    refine ⟨(w, p.2) :: r, ?_, by simp [h2], ?_, ?_, ?_⟩
    · rw [wire, Dict.toWord, if_neg (by omega), hw, h1]
    · rw [List.map_cons, List.nodup_cons]
      refine ⟨fun hm => ?_, h3⟩
      obtain ⟨k, hk', hfk⟩ := h4 w hm
      rw [hf] at hfk
      cases hfk
      exact (List.nodup_cons.1 hnd).1 hk'
    · intro u hu
      rcases List.mem_cons.1 hu with rfl | hu
      · exact ⟨p.1, by simp, hf⟩
      · obtain ⟨k, hk', hfk⟩ := h4 u hu
        exact ⟨k, by simp only [List.map_cons, List.mem_cons]; exact Or.inr hk', hfk⟩
    · intro u k hu
      rw [List.lookup_cons, lookup]
      by_cases hc : u = w
      · subst hc
        rw [hf] at hu
        cases hu
        simp
      · have : p.1 ≠ k := by
          intro hpk
          have := ((hd u k).1 hu).2
          rw [← hpk, hw] at this
          exact hc (by simpa using this.symm)
        rw [if_neg this, ← h5 u k hu]
        have : (u == w) = false := by simpa using hc
        rw [this]

theorem convert_find {d : Dict W} (hd : d.Inv) (w : W) (f : Bool) (u : W) (j : Nat) (h : (d.convert w f).1.find u = some j) :
    (u = w ∧ j = (d.convert w f).2) ∨ (u ≠ w ∧ d.find u = some j ∧ j ≠ (d.convert w f).2) := by
  have hj : 1 ≤ j := ((Dict.inv_convert d hd w f u j).1 h).1
  cases hw : d.find w with
  | some i =>
    have e : d.convert w f = (d, i) := by simp [Dict.convert, hw]
    rw [e] at h ⊢
    by_cases hu : u = w
    · subst hu
      rw [hw] at h
      exact .inl ⟨rfl, by simpa using h.symm⟩
    · refine .inr ⟨hu, h, fun hji => hu ?_⟩
      simp only [] at hji
      subst hji
      have h1 := ((hd u j).1 h).2
      have h2 := ((hd w j).1 hw).2
      rw [h1] at h2
      exact Option.some.inj h2
  | none =>
    cases f with
    | true =>
      have e : d.convert w true = (d, 0) := by simp [Dict.convert, hw]
      rw [e] at h ⊢
      refine .inr ⟨?_, h, by simp only []; omega⟩
      rintro rfl
      rw [hw] at h
      cases h
    | false =>
      rw [Dict.find_convert d hd w hw u] at h
      have e : (d.convert w false).2 = d.words.length + 1 := by simp [Dict.convert, hw]
      rw [e]
      by_cases hu : u = w
      · rw [if_pos hu] at h
        exact .inl ⟨hu, by simpa using h.symm⟩
      · rw [if_neg hu] at h
        refine .inr ⟨hu, h, ?_⟩
        have := (List.getElem?_eq_some_iff.1 ((hd u j).1 h).2).1
        omega

theorem convert_words (d : Dict W) (hd : d.Inv) (w : W) (f : Bool) : d.words.length ≤ (d.convert w f).1.words.length ∧
    (d.convert w f).2 ≤ (d.convert w f).1.words.length ∧ (f = false → 1 ≤ (d.convert w f).2 ∧ (d.convert w f).1.find w = some (d.convert w f).2) := by
  cases hw : d.find w with
  | some i =>
    have e : d.convert w f = (d, i) := by simp [Dict.convert, hw]
    obtain ⟨h1, h2⟩ := (hd w i).1 hw
    have := (List.getElem?_eq_some_iff.1 h2).1
    rw [e]
    exact ⟨Nat.le_refl _, by simp only []; omega, fun _ => ⟨h1, hw⟩⟩
  | none =>
    cases f with
    | true =>
      have e : d.convert w true = (d, 0) := by simp [Dict.convert, hw]
      rw [e]
      exact ⟨Nat.le_refl _, Nat.zero_le _, fun h => by cases h⟩
    | false =>
      have h1 := Dict.find_convert d hd w hw w
      have e : d.convert w false = (⟨d.words ++ [w], (w, d.words.length + 1) :: d.d⟩, d.words.length + 1) := by simp [Dict.convert, hw]
      rw [if_pos rfl] at h1
      refine ⟨by rw [e]; simp, by rw [e]; simp, fun _ => ⟨by rw [e]; simp, ?_⟩⟩
      rw [h1, e]

theorem load_spec (L : Nat) (f : Bool) (es : List (W × T)) (hnd : (es.map Prod.fst).Nodup) :
    ∀ (d : Dict W) (v : FSV T) (F : W → T), d.Inv → v.Inv → (∀ u i, d.find u = some i → v.value i = F u) →
      (∀ k, d.words.length < k → v.value k = 0) → (f = false → v.value 0 = 0) →
      let r := es.foldl (loadStep L f) (d, v)
      r.1.Inv ∧ r.2.Inv ∧ (∀ u i, r.1.find u = some i → r.2.value i = (es.lookup u).getD (F u)) ∧ (∀ k, r.1.words.length < k → r.2.value k = 0) ∧
        (f = false → r.2.value 0 = 0) ∧ (f = false → ∀ w ∈ es.map Prod.fst, ∃ i, r.1.find w = some i) ∧ (∀ u i, d.find u = some i → r.1.find u = some i) := by
  induction es with
  | nil =>
    intro d v F hd hv hA hB hZ
    exact ⟨hd, hv, hA, hB, hZ, by simp, fun _ _ h => h⟩
  | cons p es ih =>
    intro d v F hd hv hA hB hZ
    rw [List.foldl_cons]
    obtain ⟨c1, c2, c3⟩ := convert_words d hd p.1 f
    have hval : ∀ k, (v.setValue L (d.convert p.1 f).2 p.2).value k = if k = (d.convert p.1 f).2 then p.2 else v.value k := by
      intro k
      unfold FSV.setValue
      rw [value_update]
    obtain ⟨r1, r2, r3, r4, r5, r6, r7⟩ := ih (List.nodup_cons.1 hnd).2 (d.convert p.1 f).1 (v.setValue L (d.convert p.1 f).2 p.2) (fun u => if u = p.1 then p.2 else F u)
      (Dict.inv_convert d hd p.1 f) (update_inv L hv _ _)
      (fun u i hu => by
        rw [hval]
        rcases convert_find hd p.1 f u i hu with ⟨rfl, rfl⟩ | ⟨h1, h2, h3⟩
        · simp
        · rw [if_neg h3, if_neg h1]
          exact hA u i h2)
      (fun k hk => by
        rw [hval, if_neg (by omega)]
        exact hB k (by omega))
      (fun hf => by
        rw [hval, if_neg (by have := (c3 hf).1; omega)]
        exact hZ hf)
    refine ⟨r1, r2, fun u i hu => ?_, r4, r5, fun hf w hw => ?_, fun u i hu => r7 u i (Dict.find_mono_convert d hd p.1 f u i hu)⟩
    · have := r3 u i hu
      change (es.foldl (loadStep L f) _).2.value i = _ 
      change (es.foldl (loadStep L f) _).2.value i = _ at this
      rw [show loadStep L f (d, v) p = ((d.convert p.1 f).1, v.setValue L (d.convert p.1 f).2 p.2) from rfl, this, List.lookup_cons]
      by_cases hc : u = p.1
      · subst hc
        have hn : es.lookup p.1 = none := by
          rw [List.lookup_eq_none_iff]
          intro q hq
          have : p.1 ≠ q.1 := fun h => (List.nodup_cons.1 hnd).1 (by rw [h]; exact List.mem_map_of_mem hq)
          simpa using this
        simp [hn]
      · have : (u == p.1) = false := by simpa using hc
        rw [this]
        simp [hc]
    · rcases List.mem_cons.1 hw with rfl | hw
      · exact ⟨_, r7 _ _ (c3 hf).2⟩
      · exact r6 hf w hw

/-- A vector over named features, saved by one process and loaded by another, whose dictionary may have other ids, has the same value for every
name; the loading process keeps the ids it has.  When its dictionary is frozen this holds for the names it knows. -/
theorem C66_round_trip (bad0 : W) (L : Nat) (frozen : Bool) {d1 d2 : Dict W} (h1 : d1.Inv) (h2 : d2.Inv) {v : FSV T} (hv : v.Inv)
    (hk : ∀ p ∈ v.entries, 1 ≤ p.1 ∧ p.1 ≤ d1.words.length) :
    ∃ ar d v', v.save bad0 d1 = some ar ∧ FSV.load L frozen d2 ar = some (d, v') ∧ v'.Inv ∧ d.Inv ∧ (∀ u i, d2.find u = some i → d.find u = some i) ∧
      (∀ name, (frozen = false ∨ ∃ i, d2.find name = some i) → valueOf d v' name = valueOf d1 v name) ∧
      (frozen = false → v'.value 0 = 0) ∧ (∀ k, d.words.length < k → v'.value k = 0) := by
  obtain ⟨r, w1, w2, w3, w4, w5⟩ := wire_spec bad0 h1 v.entries hk hv
  have hs : v.saved = v.entries := by
    unfold FSV.saved
    rcases he : v.entries with _ | ⟨p, l⟩
    · rfl
    · have := (hk p (by rw [he]; simp)).1
      simp only []
      rw [if_neg (by omega)]
  have hsize : (if v.entries.length > 0 then (if (v.entries.head?.map Prod.fst) = some 0 then v.entries.length - 1 else v.entries.length) else 0) = r.length := by
    rw [w2]
    rcases he : v.entries with _ | ⟨p, l⟩
    · rfl
    · have := (hk p (by rw [he]; simp)).1
      rw [if_pos (by simp), if_neg (by simp; omega)]
  obtain ⟨l1, l2, l3, l4, l5, l6, l7⟩ := load_spec L frozen r w3 d2 (.empty : FSV T) (fun _ => 0) h2 (by simp [FSV.Inv, FSV.empty, FSV.entries])
    (by simp [FSV.value, FSV.empty, FSV.entries, lookup]) (by simp [FSV.value, FSV.empty, FSV.entries, lookup]) (by simp [FSV.value, FSV.empty, FSV.entries, lookup])
  refine ⟨(r.length, r), (r.foldl (loadStep L frozen) (d2, .empty)).1, (r.foldl (loadStep L frozen) (d2, .empty)).2, ?_, ?_, l2, l1, l7, ?_, l5, l4⟩
  · unfold FSV.save
    rw [hs, w1, hsize]
    rfl
  · unfold FSV.load
    rw [if_pos (Nat.le_refl _), List.take_length]
  · intro name hname
    unfold valueOf
    have hfound : (∃ i, (r.foldl (loadStep L frozen) (d2, .empty)).1.find name = some i) ∨ (r.lookup name = none ∧ (r.foldl (loadStep L frozen) (d2, .empty)).1.find name = none) := by
      rcases hn : (r.foldl (loadStep L frozen) (d2, (.empty : FSV T))).1.find name with _ | i
      · right
        refine ⟨?_, rfl⟩
        rcases hname with hf | ⟨i, hi⟩
        · rw [List.lookup_eq_none_iff]
          intro q hq
          have hne : name ≠ q.1 := by
            rintro rfl
            obtain ⟨i, hi⟩ := l6 hf q.1 (List.mem_map_of_mem hq)
            rw [hn] at hi
            cases hi
          simpa using hne
        · have := l7 name i hi
          rw [hn] at this
          cases this
      · exact .inl ⟨i, rfl⟩
    have hsrc : (match d1.find name with | some k => v.value k | none => 0) = (r.lookup name).getD 0 := by
      rcases hd : d1.find name with _ | k
      · have : r.lookup name = none := by
          rw [List.lookup_eq_none_iff]
          intro q hq
          have hne : name ≠ q.1 := by
            rintro rfl
            obtain ⟨k, _, hk'⟩ := w4 q.1 (List.mem_map_of_mem hq)
            rw [hd] at hk'
            cases hk'
          simpa using hne
        rw [this]
        rfl
      · rw [w5 name k hd]
        rfl
    rw [hsrc]
    rcases hfound with ⟨i, hi⟩ | ⟨hr, hn⟩
    · rw [hi]
      exact l3 name i hi
    · rw [hn, hr]
      rfl

/-- The hypotheses are met, and ids may differ: `"b"` is feature 2 in one process and 1 in the other. -/
example :
    let d1 : Dict String := Dict.empty.run [("a", false), ("b", false)]
    let d2 : Dict String := Dict.empty.run [("b", false), ("c", false)]
    let v : FSV Int := .loc [(1, 5), (2, 7)]
    v.save "<bad0>" d1 = some (2, [("a", 5), ("b", 7)]) ∧
      ((FSV.load 15 false d2 (2, [("a", 5), ("b", 7)])).map fun r => (r.1.words, r.2)) = some (["b", "c", "a"], FSV.loc [(3, 5), (1, (7 : Int))]) ∧
      ((FSV.load 15 true d2 (2, [("a", 5), ("b", 7)])).map fun r => (r.1.words, r.2)) = some (["b", "c"], FSV.loc [(0, 5), (1, (7 : Int))]) := by
  decide +kernel

/-- The reserved feature 0 is left out of the archive only when it comes first; elsewhere the loader takes it for a new feature named as the
placeholder for unknown ids.  A vector loaded with a frozen dictionary can have it in any place (see the example above). -/
theorem C66_reserved_fails :
    ∃ (d1 d2 : Dict String) (v : FSV Int) (ar : Nat × List (String × Int)) (d : Dict String) (v' : FSV Int),
      d1.Inv ∧ v.Inv ∧ v.save "<bad0>" d1 = some ar ∧ FSV.load 15 false d2 ar = some (d, v') ∧ valueOf d1 v "<bad0>" = 0 ∧ valueOf d v' "<bad0>" = 5 := by
  refine ⟨Dict.empty.run [("a", false)], Dict.empty.run [], .loc [(1, 7), (0, 5)], (2, [("a", 7), ("<bad0>", 5)]),
    (([("a", (7 : Int)), ("<bad0>", 5)]).foldl (loadStep 15 false) (Dict.empty.run [], .empty)).1,
    (([("a", (7 : Int)), ("<bad0>", 5)]).foldl (loadStep 15 false) (Dict.empty.run [], .empty)).2,
    Dict.inv_run _ Dict.inv_empty _, by unfold FSV.Inv; decide, by decide +kernel, rfl, by decide +kernel, by decide +kernel⟩

end Cdec.Sparse
