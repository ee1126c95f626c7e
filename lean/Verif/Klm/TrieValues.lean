import Verif.Klm.TrieBlanks
import Mathlib.Tactic.Abel
/-!
# The probabilities of blanks, continued
-/
namespace Cdec.Klm.LM

variable {K : Type} [AddCommGroup K]

def obtainStep (srt : List Message → List Message) (s : Sri K) (o : Obtained K) (i : Nat) : Obtained K :=
  let r := apply o.values (o.full i) (srt (s.messages i))
  { uni := o.uni, values := r.2.1
    full := fun n => if n = i then r.1 else o.full n
    extend := fun n => if n = i then r.2.2 else o.extend n }

omit [AddCommGroup K] in
theorem same_trans {A B C : List (Rec K)} (h1 : List.Forall₂ Rec.Same A B) (h2 : List.Forall₂ Rec.Same B C) : List.Forall₂ Rec.Same A C := by
  induction h1 generalizing C with
  | nil => cases h2; exact .nil
  | cons ha _ ih =>
    cases h2 with
    | cons hb hb' => exact .cons ⟨ha.1.trans hb.1, ha.2.1.trans hb.2.1, ha.2.2.1.trans hb.2.2.1, fun hx => ha.2.2.2 (hb.2.2.2 hx)⟩ (ih hb')

theorem obtain_fold {srt : List Message → List Message} (hs : Spec.Sorts srt) (s : Sri K) (is : List Nat) : is.Nodup → ∀ o : Obtained K,
    (∀ i ∈ is, InOrder (o.full i) ∧ ∀ r ∈ o.full i, r.ext = false → r.bo = 0) →
    (is.foldl (obtainStep srt s) o).uni = o.uni ∧
    (∀ n, List.Forall₂ Rec.Same (o.full n) ((is.foldl (obtainStep srt s) o).full n)) ∧
    ∀ n j, ((is.foldl (obtainStep srt s) o).values n)[j]? =
      (o.values n)[j]?.map (· + (is.map fun i => ((toPtr (s.messages i) n j).map (boIn (o.full i))).sum).sum) := by
  induction is with
  | nil => intro _ o _; exact ⟨rfl, fun n => forall₂_same _, fun n j => by simp⟩
  | cons i is ih =>
    intro hn o ho
    obtain ⟨hi, hn'⟩ := List.nodup_cons.1 hn
    obtain ⟨hsrt, hsort⟩ := hs (s.messages i)
    obtain ⟨h1, h2⟩ := apply_spec o.values (o.full i) (srt (s.messages i)) (ho i (by simp)).1 hsort (ho i (by simp)).2
    rw [List.foldl_cons]
    have hne : ∀ k ∈ is, (obtainStep srt s o i).full k = o.full k := by
      intro k hk
      have : k ≠ i := by rintro rfl; exact hi hk
      simp [obtainStep, this]
    obtain ⟨g1, g2, g3⟩ := ih hn' (obtainStep srt s o i) (fun k hk => by rw [hne k hk]; exact ho k (by simp [hk]))
    refine ⟨g1, fun n => ?_, fun n j => ?_⟩
    · have h3 := g2 n
      by_cases h : n = i
      · subst h
        have h4 : (obtainStep srt s o n).full n = (apply o.values (o.full n) (srt (s.messages n))).1 := by simp [obtainStep]
        rw [h4] at h3
        exact same_trans h1 h3
      · have h4 : (obtainStep srt s o i).full n = o.full n := by simp [obtainStep, h]
        rwa [h4] at h3
    · rw [g3]
      have h4 : ((obtainStep srt s o i).values n)[j]? = (o.values n)[j]?.map (· + ((toPtr (s.messages i) n j).map (boIn (o.full i))).sum) := by
        have h5 := h2 n j
        rw [((toPtr_perm hsrt n j).map _).sum_eq] at h5
        exact h5
      rw [h4, map_add_add]
      congr 1
      funext y
      rw [List.map_cons, List.sum_cons]
      congr 3
      exact List.map_congr_left fun k hk => by rw [hne k hk]

theorem obtainBackoffs_spec {srt : List Message → List Message} (hs : Spec.Sorts srt) (order : Nat) (uni : Word → Wt K) (full : Nat → List (Rec K)) (s : Sri K)
    (hu : ∀ w, (uni w).ext = false → (uni w).bo = 0)
    (hf : ∀ n, 2 ≤ n → n < order → InOrder (full n) ∧ ∀ r ∈ full n, r.ext = false → r.bo = 0) :
    (∀ w, (uni w).Same ((obtainBackoffs srt order uni full s).uni w)) ∧
    (∀ n, List.Forall₂ Rec.Same (full n) ((obtainBackoffs srt order uni full s).full n)) ∧
    ∀ n j, ((obtainBackoffs srt order uni full s).values n)[j]? = (s.values n)[j]?.map
      (· + (((toPtr (s.messages 1) n j).map fun h => (uni (h.headD 0)).bo).sum + ((List.range' 2 (order - 2)).map fun i => ((toPtr (s.messages i) n j).map (boIn (full i))).sum).sum)) := by
  have e : obtainBackoffs srt order uni full s = (List.range' 2 (order - 2)).foldl (obtainStep srt s) ⟨(applyUni uni s.values (srt (s.messages 1))).1, full, (applyUni uni s.values (srt (s.messages 1))).2, fun _ => []⟩ := rfl
  obtain ⟨h1, h2⟩ := applyUni_spec (srt (s.messages 1)) uni s.values hu
  obtain ⟨g1, g2, g3⟩ := obtain_fold hs s (List.range' 2 (order - 2)) List.nodup_range' ⟨(applyUni uni s.values (srt (s.messages 1))).1, full, (applyUni uni s.values (srt (s.messages 1))).2, fun _ => []⟩
    (fun i hi => by rw [List.mem_range'_1] at hi; exact hf i hi.1 (by omega))
  rw [e]
  refine ⟨fun w => by rw [g1]; exact h1 w, g2, fun n j => ?_⟩
  rw [g3]
  simp only
  rw [h2, map_add_add, ((toPtr_perm (hs (s.messages 1)).1 n j).map _).sum_eq]

/-- The back-off of an n-gram in the unigrams or in the file of its order. -/
def boAt (uni : Word → Wt K) (full : Nat → List (Rec K)) (h : List Word) : K := if h.length = 1 then (uni (h.headD 0)).bo else boIn (full h.length) h

/-- The probability computed for a blank. -/
def blankValue (uni : Word → Wt K) (full : Nat → List (Rec K)) (x : List Word × Nat × K) : K :=
  x.2.2 + ((List.range' x.2.1 (x.1.length - x.2.1)).map fun i => boAt uni full (x.1.tail.take i)).sum

theorem sum_map_zero {α : Type} (l : List α) (f : α → K) (h : ∀ x ∈ l, f x = 0) : (l.map f).sum = 0 := by
  rw [List.map_congr_left h]
  simp

theorem obtain_values {srt : List Message → List Message} (hs : Spec.Sorts srt) {order : Nat} {uni : Word → Wt K} {full : Nat → List (Rec K)} {calls : List (Call K)}
    (hu : ∀ w, (uni w).ext = false → (uni w).bo = 0)
    (hf : ∀ n, 2 ≤ n → n < order → InOrder (full n) ∧ ∀ r ∈ full n, r.ext = false → r.bo = 0)
    (hb : ∀ n, ∀ x ∈ blanksOf calls n, x.1.length = n ∧ n < order ∧ 1 ≤ x.2.1 ∧ x.2.1 < n) (n : Nat) :
    (obtainBackoffs srt order uni full (findBlanks calls)).values n = (blanksOf calls n).map (blankValue uni full) := by
  obtain ⟨_, _, h3⟩ := obtainBackoffs_spec hs order uni full (findBlanks calls) hu hf
  obtain ⟨f1, f2⟩ := findBlanks_spec calls
  refine List.ext_getElem? fun j => ?_
  rw [h3, f1, List.getElem?_map, List.getElem?_map]
  cases hx : (blanksOf calls n)[j]? with
  | none => rfl
  | some x =>
    obtain ⟨hl, ho, h1, h2⟩ := hb n x (List.mem_of_getElem? hx)
    simp only [Option.map_some, f2, hx]
    congr 1
    unfold blankValue
    congr 1
    have e1 : ((asked n 1 (some x)).map fun h => (uni (h.headD 0)).bo).sum = ((asked n 1 (some x)).map (boAt uni full)).sum := by
      congr 1
      refine List.map_congr_left fun h hh => ?_
      unfold asked at hh
      simp only at hh
      split at hh
      · simp only [List.mem_singleton] at hh
        have : h.length = 1 := by rw [hh, List.length_take, List.length_tail]; omega
        simp [boAt, this]
      · cases hh
    have e2 : ((List.range' 2 (order - 2)).map fun i => ((asked n i (some x)).map (boIn (full i))).sum) = (List.range' 2 (order - 2)).map fun i => ((asked n i (some x)).map (boAt uni full)).sum := by
      refine List.map_congr_left fun i hi => ?_
      rw [List.mem_range'_1] at hi
      congr 1
      refine List.map_congr_left fun h hh => ?_
      unfold asked at hh
      simp only at hh
      split at hh
      · simp only [List.mem_singleton] at hh
        have : h.length = i := by rw [hh, List.length_take, List.length_tail]; omega
        simp [boAt, this, show i ≠ 1 by omega]
      · cases hh
    rw [e1, e2]
    have e3 : ((asked n 1 (some x)).map (boAt uni full)).sum + ((List.range' 2 (order - 2)).map fun i => ((asked n i (some x)).map (boAt uni full)).sum).sum =
        ((List.range' 1 (order - 1)).map fun i => ((asked n i (some x)).map (boAt uni full)).sum).sum := by
      have : order - 1 = order - 2 + 1 := by omega
      rw [this, List.range'_succ, List.map_cons, List.sum_cons]
    rw [e3]
    have e4 : List.range' 1 (order - 1) = List.range' 1 (x.2.1 - 1) ++ (List.range' x.2.1 (n - x.2.1) ++ List.range' n (order - n)) := by
      have a1 : List.range' x.2.1 (n - x.2.1) ++ List.range' n (order - n) = List.range' x.2.1 (order - x.2.1) := by
        have h4 := List.range'_append (s := x.2.1) (m := n - x.2.1) (n := order - n) (step := 1)
        rw [show x.2.1 + 1 * (n - x.2.1) = n by omega, show n - x.2.1 + (order - n) = order - x.2.1 by omega] at h4
        exact h4
      rw [a1]
      have h4 := List.range'_append (s := 1) (m := x.2.1 - 1) (n := order - x.2.1) (step := 1)
      rw [show 1 + 1 * (x.2.1 - 1) = x.2.1 by omega, show x.2.1 - 1 + (order - x.2.1) = order - 1 by omega] at h4
      exact h4.symm
    rw [e4, List.map_append, List.map_append, List.sum_append, List.sum_append, sum_map_zero (List.range' 1 _), sum_map_zero (List.range' n _), zero_add, add_zero, hl]
    · congr 1
      refine List.map_congr_left fun i hi => ?_
      rw [List.mem_range'_1] at hi
      have : x.2.1 ≤ i ∧ i < n := by omega
      simp [asked, this]
    · intro i hi
      rw [List.mem_range'_1] at hi
      simp [asked, show ¬ i < n by omega]
    · intro i hi
      rw [List.mem_range'_1] at hi
      simp [asked, show ¬ x.2.1 ≤ i by omega]

/-- A word after a history, by the highest order that lists it. -/
theorem score_sum {a : Spec.Arpa K} {x : Word} : ∀ (c : List Word) (l : Nat) (q : K), 1 ≤ l → l ≤ c.length + 1 → a.prob ((x :: c).take l) = some q →
    (∀ k, l < k → k ≤ c.length + 1 → a.prob ((x :: c).take k) = none) →
    a.score x c = q + ((List.range' l (c.length + 1 - l)).map fun i => a.backoff (c.take i)).sum := by
  intro c
  induction c using List.reverseRecOn with
  | nil =>
    intro l q h1 h2 hp _
    have : l = 1 := by simpa using le_antisymm h2 h1
    subst this
    cases hl : a.look [x] with
    | none => simp [Spec.Arpa.prob, hl] at hp
    | some y =>
      obtain ⟨p, b⟩ := y
      simp [Spec.Arpa.prob, hl] at hp
      rw [arpa_listed hl]
      simp [hp]
  | append_singleton c z ih =>
    intro l q h1 h2 hp hn
    have hlen : (c ++ [z]).length = c.length + 1 := by simp
    rw [hlen] at h2 hn ⊢
    by_cases h : l = c.length + 2
    · subst h
      have ht : (x :: (c ++ [z])).take (c.length + 2) = x :: (c ++ [z]) := List.take_of_length_le (by simp)
      rw [ht] at hp
      cases hl : a.look (x :: (c ++ [z])) with
      | none => simp [Spec.Arpa.prob, hl] at hp
      | some y =>
        obtain ⟨p, b⟩ := y
        simp [Spec.Arpa.prob, hl] at hp
        rw [arpa_listed hl]
        simp [hp]
    · have htk : ∀ k, k ≤ c.length + 1 → (x :: (c ++ [z])).take k = (x :: c).take k := by
        intro k hk
        rw [show x :: (c ++ [z]) = (x :: c) ++ [z] by simp, List.take_append_of_le_length (by simpa using hk)]
      have h3 := hn (c.length + 2) (by omega) (by omega)
      rw [List.take_of_length_le (by simp)] at h3
      have hl : a.look (x :: (c ++ [z])) = none := by simpa [Spec.Arpa.prob] using h3
      rw [arpa_unlisted (by simp) hl, List.dropLast_concat]
      rw [htk l (by omega)] at hp
      rw [ih l q h1 (by omega) hp (fun k h4 h5 => by rw [← htk k h5]; exact hn k h4 (by omega))]
      rw [show c.length + 1 + 1 - l = (c.length + 1 - l) + 1 by omega, List.range'_concat, List.map_append, List.sum_append]
      have e1 : ((List.range' l (c.length + 1 - l)).map fun i => a.backoff ((c ++ [z]).take i)) = (List.range' l (c.length + 1 - l)).map fun i => a.backoff (c.take i) := by
        refine List.map_congr_left fun i hi => ?_
        rw [List.mem_range'_1] at hi
        rw [List.take_append_of_le_length (by omega)]
      rw [e1]
      have e2 : l + 1 * (c.length + 1 - l) = c.length + 1 := by omega
      simp only [List.map_cons, List.map_nil, List.sum_cons, List.sum_nil, add_zero, e2]
      rw [List.take_of_length_le (by simp)]
      abel

end Cdec.Klm.LM
