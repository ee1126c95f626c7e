import Verif.Klm.NGram
import Mathlib.Tactic.Abel
import Mathlib.Tactic.ByContra
import Mathlib.Data.List.Induction
/-!
# Lemmas on language-model queries
-/

namespace Cdec.Klm.LM

variable {K : Type} [AddCommGroup K]

/-- What the tables hold for an n-gram below the highest order. -/
def Search.get (s : Search K) : List Word → Option (Entry K)
  | [] => none
  | [w] => some (s.uni w)
  | a :: b :: t => if t.length + 2 < s.order then s.mid t.length (a :: b :: t) else none

/-- The log probability the tables hold for an n-gram of any order. -/
def Search.probOf (s : Search K) (ng : List Word) : Option K :=
  if ng.length = s.order then s.long ng else (s.get ng).map (·.prob)

/-- The back-off the tables hold for an n-gram. -/
def Search.boOf (s : Search K) (ng : List Word) : K := ((s.get ng).map (·.bo)).getD 0

/-- The tables hold the n-gram. -/
def Search.Has (s : Search K) (ng : List Word) : Prop := (s.probOf ng).isSome

/-- The tables hold the n-gram, and mark it as a context. -/
def Search.Ext (s : Search K) (ng : List Word) : Prop := ∃ e, s.get ng = some e ∧ e.ext = true

/-- The invariants of the tables that looking n-grams up relies on. -/
structure Search.WF0 (s : Search K) : Prop where
  /-- the model has at least bigrams -/
  two : 2 ≤ s.order
  /-- an n-gram without its oldest word is held too, and is marked as extending left -/
  suffix : ∀ l y, l ≠ [] → s.Has (l ++ [y]) → ∃ e, s.get l = some e ∧ e.indep = false
  /-- an entry that is not marked as a context has no back-off -/
  noext : ∀ c e, s.get c = some e → e.ext = false → e.bo = 0

/-- The invariants of the tables that queries rely on. -/
structure Search.WF (s : Search K) : Prop extends s.WF0 where
  /-- the context of an n-gram is held, and is marked as a context -/
  context : ∀ x c, c ≠ [] → s.Has (x :: c) → s.Ext c

instance (s : Search K) : Coe s.WF s.WF0 := ⟨fun w => w.toWF0⟩

/-- The score the tables define. -/
def Search.sc (s : Search K) (w : Word) (h : List Word) : K := Spec.score s.probOf s.boOf w h

/-- The score the tables define for a string after a history. -/
def Search.ss (s : Search K) (f v : List Word) : K := Spec.stringScore s.probOf s.boOf f v

namespace Search
variable {s : Search K}

theorem get_cons2 (a b : Word) (t : List Word) :
    s.get (a :: b :: t) = if t.length + 2 < s.order then s.mid t.length (a :: b :: t) else none := rfl

theorem get_length {ng : List Word} {e : Entry K} (two : 2 ≤ s.order) (h : s.get ng = some e) :
    ng ≠ [] ∧ ng.length < s.order := by
  match ng with
  | [] => simp [get] at h
  | [w] => simp; omega
  | a :: b :: t =>
    rw [get_cons2] at h
    split at h
    · simp; omega
    · simp at h

theorem probOf_get {ng : List Word} {e : Entry K} (two : 2 ≤ s.order) (h : s.get ng = some e) :
    s.probOf ng = some e.prob := by
  have := get_length two h
  unfold probOf
  rw [if_neg (by omega), h]; rfl

theorem has_get {ng : List Word} {e : Entry K} (two : 2 ≤ s.order) (h : s.get ng = some e) :
    s.Has ng := by
  unfold Has; rw [probOf_get two h]; rfl

theorem has_length {ng : List Word} (two : 2 ≤ s.order) (h : s.Has ng) :
    ng ≠ [] ∧ ng.length ≤ s.order := by
  unfold Has probOf at h
  split at h
  next h1 => refine ⟨?_, by omega⟩; rintro rfl; simp at h1; omega
  next h1 =>
    cases h2 : s.get ng with
    | none => rw [h2] at h; simp at h
    | some e => have := get_length two h2; exact ⟨this.1, by omega⟩

theorem get_of_has {ng : List Word} (h : s.Has ng) (hl : ng.length < s.order) :
    ∃ e, s.get ng = some e := by
  unfold Has probOf at h
  rw [if_neg (by omega)] at h
  cases h2 : s.get ng with
  | none => rw [h2] at h; simp at h
  | some e => exact ⟨e, rfl⟩

theorem ext_has {ng : List Word} (two : 2 ≤ s.order) (h : s.Ext ng) : s.Has ng := by
  obtain ⟨e, h, _⟩ := h; exact has_get two h

theorem boOf_not_ext (w : s.WF0) {ng : List Word} (h : ¬ s.Ext ng) : s.boOf ng = 0 := by
  unfold boOf
  cases h2 : s.get ng with
  | none => rfl
  | some e =>
    simp only [Option.map_some, Option.getD_some]
    apply w.noext _ _ h2
    cases h3 : e.ext with
    | false => rfl
    | true => exact absurd ⟨e, h2, h3⟩ h

theorem boOf_not_has (w : s.WF0) {ng : List Word} (h : ¬ s.Has ng) : s.boOf ng = 0 :=
  boOf_not_ext w (fun he => h (ext_has w.two he))

/-- Everything the tables hold is held without its oldest words too. -/
theorem WF0.dep (w : s.WF0) {l u : List Word} (hl : l ≠ []) (hu : u ≠ []) (h : s.Has (l ++ u)) :
    ∃ e, s.get l = some e ∧ e.indep = false := by
  induction u using List.reverseRecOn with
  | nil => exact absurd rfl hu
  | append_singleton u y ih =>
    rw [← List.append_assoc] at h
    obtain ⟨e, he, hi⟩ := w.suffix _ _ (by simp [hl]) h
    by_cases hu' : u = []
    · subst hu'; rw [List.append_nil] at he; exact ⟨e, he, hi⟩
    · exact ih hu' (has_get w.two he)

theorem WF0.prefix (w : s.WF0) {l u : List Word} (hl : l ≠ []) (h : s.Has (l ++ u)) : s.Has l := by
  by_cases hu : u = []
  · subst hu; rwa [List.append_nil] at h
  · obtain ⟨e, he, _⟩ := w.dep hl hu h
    exact has_get w.two he

end Search

open Search

/-- The back-offs of the contexts `node ++ [h₁]`, `node ++ [h₁, h₂]`, … -/
def bos (s : Search K) (node : List Word) : List Word → List K
  | [] => []
  | w :: h => s.boOf (node ++ [w]) :: bos s (node ++ [w]) h

theorem bos_length (s : Search K) (node h : List Word) : (bos s node h).length = h.length := by
  induction h generalizing node with
  | nil => rfl
  | cons w h ih => simp [bos, ih]

theorem bos_append (s : Search K) (node g v : List Word) :
    bos s node (g ++ v) = bos s node g ++ bos s (node ++ g) v := by
  induction g generalizing node with
  | nil => simp [bos]
  | cons w g ih => simp [bos, ih]

theorem bos_take (s : Search K) (node h : List Word) (n : Nat) :
    bos s node (h.take n) = (bos s node h).take n := by
  induction h generalizing node n with
  | nil => simp [bos]
  | cons w h ih =>
    cases n with
    | zero => simp [bos]
    | succ n => simp [bos, ih]

theorem bos_drop_zero (s : Search K) (node h : List Word) (a : Nat)
    (hz : ∀ j, a < j → j ≤ h.length → s.boOf (node ++ h.take j) = 0) :
    ((bos s node h).drop a).sum = 0 := by
  induction h generalizing node a with
  | nil => simp [bos]
  | cons w h ih =>
    cases a with
    | zero =>
      have h1 := hz 1 (by omega) (by simp)
      have h2 := ih (node ++ [w]) 0 (fun j hj hl => by
        have := hz (j + 1) (by omega) (by simp; omega)
        simpa using this)
      simp only [List.drop_zero] at h2 ⊢
      simp only [bos, List.sum_cons, h2]
      simpa using h1
    | succ a =>
      simp only [bos, List.drop_succ_cons]
      exact ih (node ++ [w]) a (fun j hj hl => by
        have := hz (j + 1) (by omega) (by simp; omega)
        simpa using this)

theorem score_listed (s : Search K) (x : Word) (h : List Word) (p : K)
    (hp : s.probOf (x :: h) = some p) : s.sc x h = p := by
  unfold sc; rw [Spec.score.eq_def, hp]

theorem score_backoff (s : Search K) (x y : Word) (h : List Word)
    (hp : ¬ s.Has (x :: (h ++ [y]))) : s.sc x (h ++ [y]) = s.boOf (h ++ [y]) + s.sc x h := by
  unfold sc
  rw [Spec.score.eq_def]
  unfold Has at hp
  cases h1 : s.probOf (x :: (h ++ [y])) with
  | some p => rw [h1] at hp; simp at hp
  | none =>
    simp only []
    cases h2 : h ++ [y] with
    | nil => simp at h2
    | cons a t =>
      simp only []
      rw [← h2, List.dropLast_concat]

/-- The score is the listed probability of the longest listed n-gram plus the back-offs of
the longer contexts. -/
theorem score_match (s : Search K) (x : Word) (y h : List Word) (k : Nat) (p : K)
    (hk : k ≤ h.length) (hp : s.probOf (x :: y ++ h.take k) = some p)
    (hl : ∀ j, k < j → j ≤ h.length → ¬ s.Has (x :: y ++ h.take j)) :
    s.sc x (y ++ h) = p + ((bos s y h).drop k).sum := by
  induction h using List.reverseRecOn with
  | nil =>
    simp only [List.take_nil, List.append_nil] at hp ⊢
    simp [bos, score_listed s x y p hp]
  | append_singleton h z ih =>
    by_cases hk' : k = h.length + 1
    · have h1 : (h ++ [z]).take k = h ++ [z] := List.take_of_length_le (by simp [hk'])
      rw [h1] at hp
      rw [score_listed s x (y ++ (h ++ [z])) p hp, List.drop_eq_nil_of_le (by simp [bos_length, hk'])]
      simp
    · have hk2 : k ≤ h.length := by simp at hk; omega
      have h1 : (h ++ [z]).take k = h.take k := by
        rw [List.take_append_of_le_length hk2]
      rw [h1] at hp
      have h2 := ih hk2 hp (fun j hj hjl => by
        have := hl j hj (by simp; omega)
        rwa [List.take_append_of_le_length hjl] at this)
      have h3 := hl (h.length + 1) (by omega) (by simp)
      rw [List.take_of_length_le (by simp)] at h3
      rw [← List.append_assoc, score_backoff s x z (y ++ h) (by simpa using h3), h2, bos_append,
        List.drop_append_of_le_length (by rw [bos_length]; exact hk2), List.sum_append]
      simp only [bos, List.sum_cons, List.sum_nil, add_zero, List.append_assoc]
      abel

/-- What `ResumeScore` finds. -/
structure ResumeOut (s : Search K) (node hist : List Word) (bo : List K) (nu : Nat)
    (o : List K × Nat × Ret K) (k : Nat) : Prop where
  k_le : k ≤ hist.length
  len : o.2.2.ngramLength = node.length + k
  prob : s.probOf (node ++ hist.take k) = some o.2.2.prob
  longer : ∀ j, k < j → j ≤ hist.length → ¬ s.Has (node ++ hist.take j)
  bo : ∃ m, m ≤ hist.length ∧ o.1 = bo ++ (bos s node hist).take m ∧
    (o.2.1 = nu ∨ o.2.1 ≤ node.length + m)
  nu : (o.2.1 = nu ∧ ∀ j, 1 ≤ j → j ≤ hist.length → ¬ s.Ext (node ++ hist.take j)) ∨
    ∃ j, 1 ≤ j ∧ j ≤ hist.length ∧ o.2.1 = node.length + j ∧ s.Ext (node ++ hist.take j) ∧
      ∀ i, j < i → i ≤ hist.length → ¬ s.Ext (node ++ hist.take i)
  dep : o.2.2.indep = false → k = hist.length ∧ ∃ e, s.get (node ++ hist) = some e ∧
    e.indep = false ∧ o.2.2.rest = e.rest ∧ o.2.2.extendLeft = node ++ hist
  ind : o.2.2.indep = true → ∀ u, u ≠ [] → ¬ s.Has (node ++ hist ++ u)

theorem resume_spec {s : Search K} (w : s.WF0) (hist : List Word) : ∀ (om2 : Nat)
    (node : List Word) (bo : List K) (nu : Nat) (e : Entry K), s.get node = some e →
    om2 + 1 = node.length →
    ∃ k, ResumeOut s node hist bo nu
      (resume s hist om2 node bo nu
        ⟨e.prob, e.rest, node.length, e.indep, node⟩) k := by
  induction hist with
  | nil =>
    intro om2 node bo nu e he ho
    refine ⟨0, ?_⟩
    constructor
    · simp
    · simp [resume]
    · simp [resume, probOf_get w.two he]
    · intro j hj hl; simp at hl; omega
    · exact ⟨0, by simp, by simp [resume], Or.inl (by simp [resume])⟩
    · exact Or.inl ⟨by simp [resume], fun j hj hl => by simp at hl; omega⟩
    · intro hi; exact ⟨rfl, e, by simpa using he, hi, by simp [resume], by simp [resume]⟩
    · intro hi u hu hh
      have hne := (get_length w.two he).1
      simp only [List.append_nil] at hh
      obtain ⟨e', he', hi'⟩ := w.dep hne hu hh
      rw [he] at he'; cases he'
      simp only [resume] at hi
      rw [hi] at hi'; simp at hi'
  | cons a hist ih =>
    intro om2 node bo nu e he ho
    have hne := (get_length w.two he).1
    have hlen := (get_length w.two he).2
    have hext : ∀ j, 1 ≤ j → node ++ (a :: hist).take j = node ++ [a] ++ hist.take (j - 1) := by
      intro j hj
      obtain ⟨i, rfl⟩ : ∃ i, j = i + 1 := ⟨j - 1, by omega⟩
      simp
    by_cases hi : e.indep = true
    · -- the entry is known not to extend left
      have hno : ∀ u, u ≠ [] → ¬ s.Has (node ++ u) := fun u hu hh => by
        obtain ⟨e', he', hi'⟩ := w.dep hne hu hh
        rw [he] at he'; cases he'; rw [hi] at hi'; simp at hi'
      have hr : resume s (a :: hist) om2 node bo nu
          ⟨e.prob, e.rest, node.length, e.indep, node⟩ = (bo, nu, ⟨e.prob, e.rest, node.length, e.indep, node⟩) := by
        simp [resume, hi]
      rw [hr]
      refine ⟨0, ?_⟩
      constructor
      · simp
      · simp
      · simp [probOf_get w.two he]
      · intro j hj hl; exact hno _ (by simp; omega)
      · exact ⟨0, by simp, by simp, Or.inl rfl⟩
      · exact Or.inl ⟨rfl, fun j hj hl hx => hno _ (by simp; omega) (ext_has w.two hx)⟩
      · intro h; simp only [hi] at h; simp at h
      · intro _ u hu; rw [List.append_assoc]; exact hno _ (by simp)
    · have hi' : e.indep = false := by cases h : e.indep <;> simp_all
      by_cases ho2 : om2 = s.order - 2
      · -- longest
        have hlen1 : (node ++ [a]).length = s.order := by simp; have := w.two; omega
        have hlong : s.probOf (node ++ [a]) = s.long (node ++ [a]) := by
          unfold probOf; rw [if_pos hlen1]
        have hnobig : ∀ u, ¬ s.Has (node ++ [a] ++ u) ∨ u = [] := by
          intro u
          by_cases hu : u = []
          · exact Or.inr hu
          · refine Or.inl fun hh => ?_
            have := (has_length w.two hh).2
            have h0 : u.length ≠ 0 := by simp [hu]
            rw [List.length_append, hlen1] at this; omega
        have hnoext : ∀ j, 1 ≤ j → ¬ s.Ext (node ++ (a :: hist).take j) := by
          intro j hj ⟨e', he', _⟩
          have := (get_length w.two he').2
          rw [hext j hj, List.length_append, hlen1] at this
          omega
        cases hL : s.long (node ++ [a]) with
        | some p =>
          have hr : resume s (a :: hist) om2 node bo nu
              ⟨e.prob, e.rest, node.length, e.indep, node⟩ = (bo, nu, ⟨p, p, s.order, true, node⟩) := by
            rw [resume]; simp only [hi']; rw [if_neg (by simp), if_pos ho2, hL]
          rw [hr]
          refine ⟨1, ?_⟩
          constructor
          · simp
          · simp at hlen1 ⊢; omega
          · simp only [List.take_succ_cons, List.take_zero]; rw [hlong, hL]
          · intro j hj hl
            rw [hext j (by omega)]
            rcases hnobig (hist.take (j - 1)) with h | h
            · exact h
            · exfalso
              have h0 : (hist.take (j - 1)).length = 0 := by rw [h]; rfl
              rw [List.length_take] at h0
              simp only [List.length_cons] at hl
              omega
          · exact ⟨0, by simp, by simp, Or.inl rfl⟩
          · exact Or.inl ⟨rfl, fun j hj _ => hnoext j hj⟩
          · intro h; simp at h
          · intro _ u hu
            rcases hnobig (hist ++ u) with h | h
            · simpa using h
            · simp [hu] at h
        | none =>
          have hr : resume s (a :: hist) om2 node bo nu
              ⟨e.prob, e.rest, node.length, e.indep, node⟩ = (bo, nu, ⟨e.prob, e.rest, node.length, true, node⟩) := by
            rw [resume]; simp only [hi']; rw [if_neg (by simp), if_pos ho2, hL]
          rw [hr]
          have hno : ∀ u, u ≠ [] → ¬ s.Has (node ++ [a] ++ u.tail) := by
            intro u _
            rcases hnobig u.tail with h | h
            · exact h
            · rw [h, List.append_nil]; unfold Has; rw [hlong, hL]; simp
          refine ⟨0, ?_⟩
          constructor
          · simp
          · simp
          · simp [probOf_get w.two he]
          · intro j hj hl
            rw [hext j (by omega)]
            exact hno (a :: hist.take (j - 1)) (by simp)
          · exact ⟨0, by simp, by simp, Or.inl rfl⟩
          · exact Or.inl ⟨rfl, fun j hj _ => hnoext j hj⟩
          · intro h; simp at h
          · intro _ u hu
            have := hno (a :: (hist ++ u)) (by simp)
            simpa using this
      · -- middle
        have hget : s.get (node ++ [a]) = s.mid om2 (node ++ [a]) := by
          match node, hne with
          | b :: t, _ =>
            have hc : ∃ c t', (b :: t) ++ [a] = b :: c :: t' ∧ t'.length = om2 := by
              cases t with
              | nil => exact ⟨a, [], rfl, by simp at ho; simp [ho]⟩
              | cons c t => exact ⟨c, t ++ [a], rfl, by simp at ho ⊢; omega⟩
            obtain ⟨c, t', h1, h2⟩ := hc
            rw [h1, get_cons2, h2, if_pos (by simp at ho hlen; omega)]
        cases hM : s.mid om2 (node ++ [a]) with
        | none =>
          have hr : resume s (a :: hist) om2 node bo nu
              ⟨e.prob, e.rest, node.length, e.indep, node⟩ = (bo, nu, ⟨e.prob, e.rest, node.length, true, node⟩) := by
            rw [resume]; simp only [hi']; rw [if_neg (by simp), if_neg ho2, hM]
          rw [hr]
          have hno1 : ¬ s.Has (node ++ [a]) := by
            intro hh
            obtain ⟨e', he'⟩ := get_of_has hh (by simp; omega)
            rw [hget, hM] at he'; simp at he'
          have hno : ∀ u, ¬ s.Has (node ++ [a] ++ u) := fun u hh =>
            hno1 (w.prefix (by simp) hh)
          refine ⟨0, ?_⟩
          constructor
          · simp
          · simp
          · simp [probOf_get w.two he]
          · intro j hj hl; rw [hext j (by omega)]; exact hno _
          · exact ⟨0, by simp, by simp, Or.inl rfl⟩
          · exact Or.inl ⟨rfl, fun j hj _ hx => by
              rw [hext j hj] at hx; exact hno _ (ext_has w.two hx)⟩
          · intro h; simp at h
          · intro _ u hu
            have := hno (hist ++ u)
            simpa using this
        | some e1 =>
          have he1 : s.get (node ++ [a]) = some e1 := by rw [hget, hM]
          have hl1 : om2 + 2 = (node ++ [a]).length := by simp; omega
          have hbo1 : s.boOf (node ++ [a]) = e1.bo := by simp [boOf, he1]
          have hr : resume s (a :: hist) om2 node bo nu
              ⟨e.prob, e.rest, node.length, e.indep, node⟩ =
              resume s hist (om2 + 1) (node ++ [a]) (bo ++ [e1.bo])
                (if e1.ext then om2 + 2 else nu)
                ⟨e1.prob, e1.rest, (node ++ [a]).length, e1.indep, node ++ [a]⟩ := by
            rw [resume]; simp only [hi']; rw [if_neg (by simp), if_neg ho2, hM, ← hl1]
          rw [hr]
          obtain ⟨k, hk⟩ := ih (om2 + 1) (node ++ [a]) (bo ++ [e1.bo])
            (if e1.ext then om2 + 2 else nu) e1 he1 hl1
          refine ⟨k + 1, ?_⟩
          constructor
          · simp; exact hk.k_le
          · rw [hk.len]; simp; omega
          · rw [hext _ (by omega)]; exact hk.prob
          · intro j hj hl
            rw [hext j (by omega)]
            exact hk.longer (j - 1) (by omega) (by simp at hl; omega)
          · obtain ⟨m, hm, hb, hn⟩ := hk.bo
            refine ⟨m + 1, by simp; omega, ?_, ?_⟩
            · rw [hb, bos, hbo1]; simp
            · rcases hn with h | h
              · by_cases hx : e1.ext = true
                · right; rw [h, if_pos hx]; simp at hl1; omega
                · left; rw [h, if_neg hx]
              · right
                have h0 : (node ++ [a]).length = node.length + 1 := by simp
                omega
          · rcases hk.nu with ⟨h1, h2⟩ | ⟨j, hj1, hj2, hj3, hj4, hj5⟩
            · by_cases hx : e1.ext = true
              · right
                refine ⟨1, le_refl _, by simp, ?_, ?_, ?_⟩
                · rw [h1, if_pos hx]; simp at hl1; omega
                · rw [hext 1 (le_refl _)]; simp; exact ⟨e1, he1, hx⟩
                · intro i hi1 hi2
                  rw [hext i (by omega)]
                  exact h2 (i - 1) (by omega) (by simp at hi2; omega)
              · left
                refine ⟨by rw [h1, if_neg hx], ?_⟩
                intro j hj hl
                rw [hext j hj]
                by_cases hj1 : j = 1
                · subst hj1
                  rintro ⟨e', he', hx'⟩
                  simp at he'
                  rw [he1] at he'; cases he'; exact hx hx'
                · exact h2 (j - 1) (by omega) (by simp at hl; omega)
            · right
              refine ⟨j + 1, by omega, by simp; omega, ?_, ?_, ?_⟩
              · rw [hj3]; simp; omega
              · rw [hext _ (by omega)]; exact hj4
              · intro i hi1 hi2
                rw [hext i (by omega)]
                exact hj5 (i - 1) (by omega) (by simp at hi2; omega)
          · intro h
            obtain ⟨h1, e', h2, h3, h4, h5⟩ := hk.dep h
            exact ⟨by simp; omega, e', by simpa using h2, h3, h4, by simpa using h5⟩
          · intro h u hu
            have := hk.ind h u hu
            simpa using this

end Cdec.Klm.LM
