import Verif.Klm.NGramLemmas
/-!
# What a language-model state guarantees
-/

namespace Cdec.Klm.LM
open Search

variable {K : Type} [AddCommGroup K] {s : Search K}

/-- The back-offs of the contexts `y ++ h.take j` for `j > a`. -/
def resid (s : Search K) (y h : List Word) (a : Nat) : K := ((bos s y h).drop a).sum

/-- No n-gram is held whose context is `y ++ h.take k` for some `k > a`. -/
def NoEnt (s : Search K) (y h : List Word) (a : Nat) : Prop :=
  ∀ k, a < k → k ≤ h.length → ∀ x, ¬ s.Has (x :: (y ++ h.take k))

theorem take_resid (s : Search K) (y h : List Word) (a k : Nat) (hk : k ≤ a) (ha : a ≤ h.length) :
    (((bos s y h).take a).drop k).sum + resid s y h a = ((bos s y h).drop k).sum := by
  unfold resid
  rw [← List.sum_append, ← List.drop_append_of_le_length
    (by rw [List.length_take, bos_length]; omega), List.take_append_drop]

theorem NoEnt.no_has (w : s.WF) {y h : List Word} {a : Nat} (hn : NoEnt s y h a) (x : Word)
    (k : Nat) (hk : a < k) (hl : k ≤ h.length) : ¬ s.Has (x :: y ++ h.take k) :=
  hn k hk hl x

/-- The contexts after the new word: nothing beyond `a'` matters. -/
theorem after_step (w : s.WF) {y h : List Word} {a a' : Nat} {x : Word} (hn : NoEnt s y h a)
    (hx : ∀ j, a' < j → j ≤ a → j ≤ h.length → ¬ s.Ext (x :: y ++ h.take j)) :
    NoEnt s (x :: y) h a' ∧ resid s (x :: y) h a' = 0 := by
  have key : ∀ j, a' < j → j ≤ h.length → ¬ s.Ext (x :: y ++ h.take j) := by
    intro j hj hl
    by_cases hja : j ≤ a
    · exact hx j hj hja hl
    · exact fun he => hn.no_has w x j (by omega) hl (ext_has w.two he)
  constructor
  · intro k hk hl x' hh
    exact key k hk hl (w.context x' _ (by simp) hh)
  · apply bos_drop_zero
    intro j hj hl
    exact boOf_not_ext w (key j hj hl)

/-- `ScoreExceptBackoff`. -/
structure SebOut (s : Search K) (A : List Word) (x : Word) (o : Ret K × State K) (k : Nat) :
    Prop where
  k_le : k ≤ A.length
  len : o.1.ngramLength = 1 + k
  prob : s.probOf (x :: A.take k) = some o.1.prob
  longer : ∀ j, k < j → j ≤ A.length → ¬ s.Has (x :: A.take j)
  dep : o.1.indep = false → k = A.length ∧ ∃ e, s.get (x :: A) = some e ∧ e.indep = false ∧
    o.1.rest = e.rest ∧ o.1.extendLeft = x :: A
  ind : o.1.indep = true → ∀ u, u ≠ [] → ¬ s.Has (x :: A ++ u)
  words : o.2.words = (x :: A).take o.2.length
  backoff : o.2.backoff = (bos s [] (x :: A)).take o.2.length
  le : o.2.length ≤ A.length + 1
  noext : ∀ j, o.2.length < j → j ≤ A.length + 1 → ¬ s.Ext ((x :: A).take j)
  ext : o.2.length ≠ 0 → s.Ext ((x :: A).take o.2.length)

theorem seb_spec (w : s.WF0) (A : List Word) (x : Word) :
    ∃ k, SebOut s A x (scoreExceptBackoff s A x) k := by
  have hu : s.get [x] = some (s.uni x) := rfl
  have hbo : s.boOf [x] = (s.uni x).bo := by simp [boOf, hu]
  obtain ⟨k, hk⟩ := resume_spec w A 0 [x] [(s.uni x).bo] (if (s.uni x).ext then 1 else 0)
    (s.uni x) hu rfl
  refine ⟨k, ?_⟩
  -- both branches agree with the general one
  have hgen : scoreExceptBackoff s A x =
      ((resume s A 0 [x] [(s.uni x).bo] (if (s.uni x).ext then 1 else 0)
          ⟨(s.uni x).prob, (s.uni x).rest, [x].length, (s.uni x).indep, [x]⟩).2.2,
        ⟨(x :: A).take (resume s A 0 [x] [(s.uni x).bo] (if (s.uni x).ext then 1 else 0)
          ⟨(s.uni x).prob, (s.uni x).rest, [x].length, (s.uni x).indep, [x]⟩).2.1,
         (resume s A 0 [x] [(s.uni x).bo] (if (s.uni x).ext then 1 else 0)
          ⟨(s.uni x).prob, (s.uni x).rest, [x].length, (s.uni x).indep, [x]⟩).1.take
          (resume s A 0 [x] [(s.uni x).bo] (if (s.uni x).ext then 1 else 0)
          ⟨(s.uni x).prob, (s.uni x).rest, [x].length, (s.uni x).indep, [x]⟩).2.1⟩) := by
    cases A with
    | nil => simp [scoreExceptBackoff, resume]
    | cons a t => rfl
  rw [hgen]
  generalize resume s A 0 [x] [(s.uni x).bo] (if (s.uni x).ext then 1 else 0)
    ⟨(s.uni x).prob, (s.uni x).rest, [x].length, (s.uni x).indep, [x]⟩ = o at hk
  have hle : o.2.1 ≤ A.length + 1 := by
    rcases hk.nu with ⟨h1, _⟩ | ⟨j, _, h2, h3, _⟩
    · rw [h1]; split <;> omega
    · rw [h3]; simp; omega
  have hlen : (State.mk ((x :: A).take o.2.1) (o.1.take o.2.1)).length = o.2.1 := by
    simp [State.length]; omega
  have hx : ∀ j, o.2.1 < j → j ≤ A.length + 1 → ¬ s.Ext ((x :: A).take j) := by
    intro j hj hl
    rcases hk.nu with ⟨h1, h2⟩ | ⟨i, hi1, hi2, hi3, hi4, hi5⟩
    · by_cases hj1 : j = 1
      · subst hj1
        have hne : (s.uni x).ext = false := by
          cases hc : (s.uni x).ext with
          | false => rfl
          | true => rw [hc] at h1; simp at h1; omega
        rintro ⟨e, he, hee⟩
        have he' : s.get [x] = some e := by simpa using he
        rw [hu] at he'; cases he'; rw [hne] at hee; simp at hee
      · obtain ⟨j', rfl⟩ : ∃ j', j = j' + 1 := ⟨j - 1, by omega⟩
        have := h2 j' (by omega) (by omega)
        simpa using this
    · obtain ⟨j', rfl⟩ : ∃ j', j = j' + 1 := ⟨j - 1, by omega⟩
      have := hi5 j' (by rw [hi3] at hj; simp at hj; omega) (by omega)
      simpa using this
  have hxe : o.2.1 ≠ 0 → s.Ext ((x :: A).take o.2.1) := by
    intro h0
    rcases hk.nu with ⟨h1, h2⟩ | ⟨i, hi1, hi2, hi3, hi4, hi5⟩
    · have hne : (s.uni x).ext = true := by
        cases hc : (s.uni x).ext with
        | true => rfl
        | false => rw [hc] at h1; simp at h1; omega
      rw [h1, hne]
      exact ⟨s.uni x, by simpa using hu, hne⟩
    · rw [hi3]
      have : (x :: A).take ([x].length + i) = [x] ++ A.take i := by
        simp [Nat.add_comm]
      rw [this]; exact hi4
  have hbos : bos s [] (x :: A) = (s.uni x).bo :: bos s [x] A := by
    simp [bos, hbo]
  constructor
  · exact hk.k_le
  · simpa using hk.len
  · simpa using hk.prob
  · intro j hj hl; simpa using hk.longer j hj hl
  · intro h; simpa using hk.dep h
  · intro h u hu'; simpa using hk.ind h u hu'
  · rw [hlen]
  · rw [hlen, hbos]
    show o.1.take o.2.1 = _
    obtain ⟨m, hm, hb, hn⟩ := hk.bo
    rw [hb]
    show ((s.uni x).bo :: (bos s [x] A).take m).take o.2.1 = _
    have hn' : o.2.1 ≤ m + 1 := by
      rcases hn with h | h
      · rw [h]; split <;> omega
      · simp at h; omega
    cases ho : o.2.1 with
    | zero => simp
    | succ n =>
      simp only [List.take_succ_cons, List.take_take]
      rw [Nat.min_eq_left (by omega)]
  · rw [hlen]; exact hle
  · rw [hlen]; exact hx
  · rw [hlen]; exact hxe

/-- The state `R` is enough to continue after the history `h`: it holds the most recent
words of `h` with their back-offs, and no n-gram's context is a longer part of `h`. -/
structure Suff (s : Search K) (R : State K) (h : List Word) : Prop where
  le : R.length ≤ h.length
  words : R.words = h.take R.length
  backoff : R.backoff = (bos s [] h).take R.length
  none : NoEnt s [] h R.length

theorem take_take_le {α : Type} (l : List α) {a b : Nat} (h : a ≤ b) :
    (l.take b).take a = l.take a := by
  rw [List.take_take, Nat.min_eq_left h]

/-- Scoring a word with a state that is enough. -/
theorem fullScore_spec (w : s.WF) {R : State K} {h : List Word} (hs : Suff s R h) (x : Word) :
    (fullScore s R x).1.prob + resid s [] h R.length = s.sc x h ∧
    Suff s (fullScore s R x).2 (x :: h) ∧
    resid s [] (x :: h) (fullScore s R x).2.length = 0 := by
  obtain ⟨k, hk⟩ := seb_spec w.toWF0 R.words x
  have hlw : R.words.length = R.length := rfl
  have hf1 : (fullScore s R x).1.prob = (scoreExceptBackoff s R.words x).1.prob +
      (R.backoff.drop ((scoreExceptBackoff s R.words x).1.ngramLength - 1)).sum := rfl
  have hf2 : (fullScore s R x).2 = (scoreExceptBackoff s R.words x).2 := rfl
  rw [hf1, hf2]
  generalize scoreExceptBackoff s R.words x = o at hk
  have hkR : k ≤ R.length := by have := hk.k_le; omega
  have htk : ∀ j, j ≤ R.length → R.words.take j = h.take j := by
    intro j hj
    rw [hs.words, take_take_le _ hj]
  have hp : s.probOf (x :: [] ++ h.take k) = some o.1.prob := by
    have := hk.prob; rw [htk k hkR] at this; simpa using this
  have hlonger : ∀ j, k < j → j ≤ h.length → ¬ s.Has (x :: [] ++ h.take j) := by
    intro j hj hl
    by_cases hjR : j ≤ R.length
    · have := hk.longer j hj (by omega)
      rw [htk j hjR] at this; simpa using this
    · simpa using hs.none j (by omega) hl x
  have hscore := score_match s x [] h k o.1.prob (by have := hs.le; omega) hp hlonger
  simp only [List.nil_append] at hscore
  have htr := take_resid s [] h R.length k hkR hs.le
  refine ⟨?_, ?_, ?_⟩
  · rw [hk.len, show 1 + k - 1 = k by omega, hs.backoff, add_assoc, htr, hscore]
  all_goals
    have hle : o.2.length ≤ R.length + 1 := by have := hk.le; omega
    have htx : ∀ j, j ≤ R.length + 1 → (x :: R.words).take j = (x :: h).take j := by
      intro j hj
      cases j with
      | zero => simp
      | succ j => simp [htk j (by omega)]
    have hkey : ∀ j, o.2.length < j → j ≤ (x :: h).length → ¬ s.Ext ((x :: h).take j) := by
      intro j hj hl
      by_cases hjR : j ≤ R.length + 1
      · have := hk.noext j hj (by omega)
        rwa [htx j hjR] at this
      · obtain ⟨j', rfl⟩ : ∃ j', j = j' + 1 := ⟨j - 1, by omega⟩
        intro he
        have := hs.none j' (by omega) (by simp at hl; omega) x
        exact this (by simpa using ext_has w.two he)
  · constructor
    · have := hs.le; simp; omega
    · rw [hk.words, htx _ hle]
    · rw [hk.backoff, ← bos_take, ← bos_take, htx _ hle]
    · intro j hj hl x' hh
      simp only [List.nil_append] at hh
      refine hkey j hj hl (w.context x' _ ?_ hh)
      cases j with
      | zero => omega
      | succ j => simp
  · apply bos_drop_zero
    intro j hj hl
    simp only [List.nil_append]
    exact boOf_not_ext w (hkey j hj hl)

theorem suff_null (s : Search K) : Suff s (nullContext : State K) [] := by
  constructor
  · simp [nullContext, State.length]
  · simp [nullContext]
  · simp [nullContext, bos]
  · intro k hk hl; simp at hl; omega

theorem suff_bos (s : Search K) (b : Word) : Suff s (beginSentence s b) [b] ∧
    resid s [] [b] (beginSentence s b).length = 0 := by
  constructor
  · constructor
    · simp [beginSentence, State.length]
    · simp [beginSentence, State.length]
    · simp [beginSentence, State.length, bos, boOf, Search.get]
    · intro k hk hl; simp [beginSentence, State.length] at hk hl; omega
  · simp [beginSentence, State.length, resid, bos]

theorem get_append (w : s.WF0) {node : List Word} {om2 : Nat} (hom : om2 + 1 = node.length)
    (hl : node.length + 1 < s.order) (a : Word) :
    s.get (node ++ [a]) = s.mid om2 (node ++ [a]) := by
  match node, hom with
  | b :: t, ho =>
    have hc : ∃ c t', (b :: t) ++ [a] = b :: c :: t' ∧ t'.length = om2 := by
      cases t with
      | nil => exact ⟨a, [], rfl, by simp at ho; simp [ho]⟩
      | cons c t => exact ⟨c, t ++ [a], rfl, by simp at ho ⊢; omega⟩
    obtain ⟨c, t', h1, h2⟩ := hc
    rw [h1, get_cons2, h2, if_pos (by simp at ho hl; omega)]

theorem bos_none (w : s.WF0) {node : List Word} (hn : node ≠ []) (hh : ¬ s.Has node)
    (t : List Word) : (bos s node t).sum = 0 := by
  have := bos_drop_zero s node t 0 (fun j _ _ =>
    boOf_not_has w (fun h => hh (w.prefix hn h)))
  simpa using this

theorem forgotLoop_spec (w : s.WF0) (t : List Word) : ∀ (om2 : Nat) (node : List Word) (acc : K),
    om2 + 1 = node.length → node.length + t.length < s.order →
    forgotLoop s t om2 node acc = acc + (bos s node t).sum := by
  induction t with
  | nil => intro om2 node acc _ _; simp [forgotLoop, bos]
  | cons a t ih =>
    intro om2 node acc hom hl
    simp only [List.length_cons] at hl
    have hg := get_append w hom (by omega) a
    rw [forgotLoop]
    cases hm : s.mid om2 (node ++ [a]) with
    | none =>
      have hno : ¬ s.Has (node ++ [a]) := by
        intro hh
        obtain ⟨e, he⟩ := get_of_has hh (by simp; omega)
        rw [hg, hm] at he; simp at he
      simp only [bos, List.sum_cons]
      rw [boOf_not_has w hno, bos_none w (by simp) hno]
      simp
    | some e =>
      simp only []
      rw [ih (om2 + 1) (node ++ [a]) (acc + e.bo) (by simp; omega) (by simp; omega)]
      have : s.boOf (node ++ [a]) = e.bo := by simp [boOf, hg, hm]
      simp only [bos, List.sum_cons, this]
      abel

structure GetStateOut (s : Search K) (node t : List Word) (bo : List K) (len : Nat)
    (o : List K × Nat) : Prop where
  bo : ∃ m, m ≤ t.length ∧ o.1 = bo ++ (bos s node t).take m ∧ (o.2 = len ∨ o.2 ≤ node.length + m)
  nu : (o.2 = len ∧ ∀ j, 1 ≤ j → j ≤ t.length → ¬ s.Ext (node ++ t.take j)) ∨
    ∃ j, 1 ≤ j ∧ j ≤ t.length ∧ o.2 = node.length + j ∧
      ∀ i, j < i → i ≤ t.length → ¬ s.Ext (node ++ t.take i)

theorem getStateLoop_spec (w : s.WF0) (t : List Word) : ∀ (om2 : Nat) (node : List Word)
    (bo : List K) (len : Nat), om2 + 1 = node.length → node.length + t.length < s.order →
    GetStateOut s node t bo len (getStateLoop s t om2 node bo len) := by
  induction t with
  | nil =>
    intro om2 node bo len _ _
    exact ⟨⟨0, by simp, by simp [getStateLoop], Or.inl (by simp [getStateLoop])⟩,
      Or.inl ⟨by simp [getStateLoop], fun j hj hl => by simp at hl; omega⟩⟩
  | cons a t ih =>
    intro om2 node bo len hom hl
    simp only [List.length_cons] at hl
    have hg := get_append w hom (by omega) a
    have hext : ∀ j, 1 ≤ j → node ++ (a :: t).take j = node ++ [a] ++ t.take (j - 1) := by
      intro j hj
      obtain ⟨i, rfl⟩ : ∃ i, j = i + 1 := ⟨j - 1, by omega⟩
      simp
    rw [getStateLoop]
    cases hm : s.mid om2 (node ++ [a]) with
    | none =>
      have hno : ¬ s.Has (node ++ [a]) := by
        intro hh
        obtain ⟨e, he⟩ := get_of_has hh (by simp; omega)
        rw [hg, hm] at he; simp at he
      refine ⟨⟨0, by simp, by simp, Or.inl rfl⟩, Or.inl ⟨rfl, fun j hj _ he => ?_⟩⟩
      rw [hext j hj] at he
      exact hno (w.prefix (by simp) (ext_has w.two he))
    | some e =>
      simp only []
      have h := ih (om2 + 1) (node ++ [a]) (bo ++ [e.bo]) (if e.ext then om2 + 2 else len)
        (by simp; omega) (by simp; omega)
      generalize getStateLoop s t (om2 + 1) (node ++ [a]) (bo ++ [e.bo])
        (if e.ext then om2 + 2 else len) = o at h
      have hge : s.get (node ++ [a]) = some e := by rw [hg, hm]
      have hb : s.boOf (node ++ [a]) = e.bo := by simp [boOf, hge]
      have hl1 : (node ++ [a]).length = node.length + 1 := by simp
      constructor
      · obtain ⟨m, h1, h2, h3⟩ := h.bo
        refine ⟨m + 1, by simp; omega, by rw [h2, bos, hb]; simp, ?_⟩
        rcases h3 with h3 | h3
        · by_cases hx : e.ext = true
          · right; rw [h3, if_pos hx]; omega
          · left; rw [h3, if_neg hx]
        · right; omega
      · rcases h.nu with ⟨h1, h2⟩ | ⟨j, hj1, hj2, hj3, hj5⟩
        · by_cases hx : e.ext = true
          · right
            refine ⟨1, le_refl _, by simp, by rw [h1, if_pos hx]; omega, ?_⟩
            intro i hi1 hi2
            rw [hext i (by omega)]
            exact h2 (i - 1) (by omega) (by simp at hi2; omega)
          · left
            refine ⟨by rw [h1, if_neg hx], ?_⟩
            intro j hj hjl
            rw [hext j hj]
            by_cases hj1 : j = 1
            · subst hj1
              rintro ⟨e', he', hx'⟩
              simp at he'
              rw [hge] at he'; cases he'; exact hx hx'
            · exact h2 (j - 1) (by omega) (by simp at hjl; omega)
        · right
          refine ⟨j + 1, by omega, by simp; omega, by omega, ?_⟩
          intro i hi1 hi2
          rw [hext i (by omega)]
          exact hj5 (i - 1) (by omega) (by simp at hi2; omega)

/-- Nothing is held about contexts as long as the order of the model. -/
theorem noExt_long (w : s.WF0) {c : List Word} (h : s.order ≤ c.length) : ¬ s.Ext c := by
  rintro ⟨e, he, _⟩
  have := (get_length w.two he).2
  omega

/-- Enough for the cut history is enough for the history. -/
theorem suff_of_noext (w : s.WF) {R : State K} {h : List Word} (hle : R.length ≤ h.length)
    (hw : R.words = h.take R.length) (hb : R.backoff = (bos s [] h).take R.length)
    (hx : ∀ j, R.length < j → j ≤ h.length → j < s.order → ¬ s.Ext (h.take j)) :
    Suff s R h ∧ resid s [] h R.length = 0 := by
  have hx' : ∀ j, R.length < j → j ≤ h.length → ¬ s.Ext (h.take j) := by
    intro j h1 h2
    by_cases h3 : j < s.order
    · exact hx j h1 h2 h3
    · exact noExt_long w (by rw [List.length_take, Nat.min_eq_left h2]; omega)
  refine ⟨⟨hle, hw, hb, ?_⟩, ?_⟩
  · intro k hk hl x hh
    refine hx' k hk hl (w.context x _ ?_ hh)
    intro h0
    have : (h.take k).length = 0 := by rw [h0]; rfl
    rw [List.length_take] at this; omega
  · exact bos_drop_zero _ _ _ _ (fun j hj hl => by
      rw [List.nil_append]; exact boOf_not_ext w (hx' j hj hl))

/-- The state holds the most recent words of the history, and no longer part of it is marked. -/
structure Recent (s : Search K) (R : State K) (h : List Word) : Prop where
  le : R.length ≤ h.length
  words : R.words = h.take R.length
  backoff : R.backoff = (bos s [] h).take R.length
  noext : ∀ j, R.length < j → j ≤ h.length → j < s.order → ¬ s.Ext (h.take j)

theorem getState_recent (w : s.WF0) (h : List Word) : Recent s (getState s h) h := by
  have two := w.two
  cases h with
  | nil =>
    refine ⟨?_, ?_, ?_, ?_⟩ <;> simp [getState, State.length]
    intro j _ _; omega
  | cons a t =>
    have hc : (a :: t).take (s.order - 1) = a :: t.take (s.order - 2) := by
      obtain ⟨n, hn⟩ : ∃ n, s.order - 1 = n + 1 := ⟨s.order - 2, by omega⟩
      rw [hn, List.take_succ_cons, show s.order - 2 = n by omega]
    have hl : (t.take (s.order - 2)).length ≤ s.order - 2 := by
      rw [List.length_take]; omega
    have h := getStateLoop_spec w (t.take (s.order - 2)) 0 [a] [(s.uni a).bo]
      (if (s.uni a).ext then 1 else 0) rfl (by simp at hl ⊢; omega)
    have hg : getState s (a :: t) = ⟨(a :: t.take (s.order - 2)).take
        (getStateLoop s (t.take (s.order - 2)) 0 [a] [(s.uni a).bo]
          (if (s.uni a).ext then 1 else 0)).2,
        (getStateLoop s (t.take (s.order - 2)) 0 [a] [(s.uni a).bo]
          (if (s.uni a).ext then 1 else 0)).1.take
        (getStateLoop s (t.take (s.order - 2)) 0 [a] [(s.uni a).bo]
          (if (s.uni a).ext then 1 else 0)).2⟩ := by
      unfold getState; rw [hc]
    rw [hg]
    generalize getStateLoop s (t.take (s.order - 2)) 0 [a] [(s.uni a).bo]
      (if (s.uni a).ext then 1 else 0) = o at h
    have hu : s.get [a] = some (s.uni a) := rfl
    have hbo : s.boOf [a] = (s.uni a).bo := by simp [boOf, hu]
    have ho : o.2 ≤ (t.take (s.order - 2)).length + 1 := by
      rcases h.nu with ⟨h1, _⟩ | ⟨j, _, h2, h3, _⟩
      · rw [h1]; split <;> omega
      · rw [h3]; simp at h2 ⊢; omega
    have hlen : (State.mk ((a :: t.take (s.order - 2)).take o.2) (o.1.take o.2)).length = o.2 := by
      simp only [State.length]; rw [List.length_take]; simp at ho ⊢; omega
    have hlt : (t.take (s.order - 2)).length ≤ t.length := by rw [List.length_take]; omega
    have htake : ∀ j, j ≤ s.order - 1 →
        (a :: t.take (s.order - 2)).take j = (a :: t).take j := by
      intro j hj
      rw [← hc, take_take_le _ hj]
    refine ⟨?_, ?_, ?_, ?_⟩
    · rw [hlen]; simp; omega
    · rw [hlen]; exact htake _ (by omega)
    · rw [hlen]
      show o.1.take o.2 = _
      rw [← bos_take, ← htake _ (by omega), bos_take]
      obtain ⟨m, hm, hb, hn⟩ := h.bo
      rw [hb, bos]
      simp only [List.nil_append, hbo, List.singleton_append]
      have hn' : o.2 ≤ m + 1 := by
        rcases hn with h | h
        · rw [h]; split <;> omega
        · simp at h; omega
      revert hn'
      cases o.2 with
      | zero => simp
      | succ n =>
        intro hn'
        simp only [List.take_succ_cons, List.take_take]
        rw [Nat.min_eq_left (by omega)]
    · rw [hlen]
      intro j hj hjl hjo
      rw [← htake j (by omega)]
      have hjl' : j ≤ (t.take (s.order - 2)).length + 1 := by
        rw [List.length_take]; simp at hjl; omega
      rcases h.nu with ⟨h1, h2⟩ | ⟨i, hi1, hi2, hi3, hi5⟩
      · by_cases hj1 : j = 1
        · subst hj1
          have hne : (s.uni a).ext = false := by
            cases hc : (s.uni a).ext with
            | false => rfl
            | true => rw [hc] at h1; simp at h1; omega
          rintro ⟨e, he, hee⟩
          have he' : s.get [a] = some e := by simpa using he
          rw [hu] at he'; cases he'; rw [hne] at hee; simp at hee
        · obtain ⟨j', rfl⟩ : ∃ j', j = j' + 1 := ⟨j - 1, by omega⟩
          have := h2 j' (by omega) (by omega)
          rw [List.take_succ_cons]
          exact this
      · obtain ⟨j', rfl⟩ : ∃ j', j = j' + 1 := ⟨j - 1, by omega⟩
        have := hi5 j' (by rw [hi3] at hj; simp at hj; omega) (by omega)
        rw [List.take_succ_cons]
        exact this

theorem getState_spec (w : s.WF) (h : List Word) :
    Suff s (getState s h) h ∧ resid s [] h (getState s h).length = 0 :=
  have r := getState_recent (w : s.WF0) h
  suff_of_noext w r.le r.words r.backoff r.noext

theorem forgot_recent (w : s.WF0) (h : List Word) (x : Word) :
    (∃ k p, k ≤ h.length ∧ s.probOf (x :: [] ++ h.take k) = some p ∧
      (∀ j, k < j → j ≤ h.length → ¬ s.Has (x :: [] ++ h.take j)) ∧
      (forgotState s h x).1.prob = p + ((bos s [] h).drop k).sum) ∧
    Recent s (forgotState s h x).2 (x :: h) := by
  have two := w.two
  obtain ⟨k, hk⟩ := seb_spec w (h.take (s.order - 1)) x
  have hlc : (h.take (s.order - 1)).length ≤ s.order - 1 := by rw [List.length_take]; omega
  have hlh : (h.take (s.order - 1)).length ≤ h.length := by rw [List.length_take]; omega
  have h2 : (forgotState s h x).2 = (scoreExceptBackoff s (h.take (s.order - 1)) x).2 := by
    unfold forgotState
    simp only []
    split
    · rfl
    · split
      · split <;> rfl
      · rfl
  have h1 : (forgotState s h x).1.prob = (scoreExceptBackoff s (h.take (s.order - 1)) x).1.prob +
      ((bos s [] (h.take (s.order - 1))).drop k).sum := by
    unfold forgotState
    simp only []
    have hkl := hk.len
    generalize scoreExceptBackoff s (h.take (s.order - 1)) x = o at hk hkl
    have hkle := hk.k_le
    generalize h.take (s.order - 1) = c at *
    split
    next hlt =>
      rw [List.drop_eq_nil_of_le (by rw [bos_length]; omega)]
      simp
    next hge =>
      split
      next hs1 =>
        have hk0 : k = 0 := by omega
        subst hk0
        cases c with
        | nil => simp at hge; omega
        | cons a t =>
          simp only []
          rw [forgotLoop_spec w t 0 [a] _ rfl (by simp at hlc ⊢; omega)]
          have : s.boOf [a] = (s.uni a).bo := by simp [boOf, Search.get]
          simp only [List.drop_zero, bos, List.nil_append, List.sum_cons, this]
          abel
      next hs1 =>
        simp only []
        have hkk : o.1.ngramLength - 1 = k := by omega
        rw [hkk]
        have hlt : (c.take k).length = k := by rw [List.length_take]; omega
        rw [forgotLoop_spec w (c.drop k) _ (c.take k) _ (by omega)
          (by rw [hlt, List.length_drop]; omega)]
        have hb := bos_append s [] (c.take k) (c.drop k)
        rw [List.take_append_drop, List.nil_append] at hb
        rw [hb, List.drop_left' (by rw [bos_length, hlt])]
  rw [h1, h2]
  generalize scoreExceptBackoff s (h.take (s.order - 1)) x = o at hk
  have htk : ∀ j, j ≤ (h.take (s.order - 1)).length → (h.take (s.order - 1)).take j = h.take j := by
    intro j hj
    exact take_take_le _ (by omega)
  have hkle := hk.k_le
  have hbig : ∀ j, (h.take (s.order - 1)).length < j → j ≤ h.length → s.order ≤ j := by
    intro j hj hl
    rw [List.length_take] at hj; omega
  have hp : s.probOf (x :: [] ++ h.take k) = some o.1.prob := by
    have := hk.prob; rw [htk k hkle] at this; simpa using this
  have hlonger : ∀ j, k < j → j ≤ h.length → ¬ s.Has (x :: [] ++ h.take j) := by
    intro j hj hl
    by_cases hjR : j ≤ (h.take (s.order - 1)).length
    · have := hk.longer j hj hjR
      rw [htk j hjR] at this; simpa using this
    · intro hh
      have := (has_length w.two hh).2
      have hb := hbig j (by omega) hl
      simp at this; omega
  have hz : resid s [] h (h.take (s.order - 1)).length = 0 := by
    apply bos_drop_zero
    intro j hj hl
    apply boOf_not_ext w
    exact noExt_long w (by
      rw [List.nil_append, List.length_take]; have := hbig j hj hl; omega)
  have htr := take_resid s [] h (h.take (s.order - 1)).length k hkle hlh
  have hble : bos s [] (h.take (s.order - 1)) =
      (bos s [] h).take (h.take (s.order - 1)).length := by
    rw [← bos_take, List.length_take]
    rcases Nat.le_total (s.order - 1) h.length with h3 | h3
    · rw [Nat.min_eq_left h3]
    · rw [Nat.min_eq_right h3, List.take_of_length_le h3, List.take_length]
  refine ⟨?_, ?_⟩
  · refine ⟨k, o.1.prob, by omega, hp, hlonger, ?_⟩
    rw [hble, ← htr, hz, add_zero]
  · have hle := hk.le
    have htx : ∀ j, j ≤ (h.take (s.order - 1)).length + 1 →
        (x :: h.take (s.order - 1)).take j = (x :: h).take j := by
      intro j hj
      cases j with
      | zero => simp
      | succ j => rw [List.take_succ_cons, List.take_succ_cons, htk j (by omega)]
    refine ⟨?_, ?_, ?_, ?_⟩
    · simp; omega
    · rw [← htx _ hle]; exact hk.words
    · rw [hk.backoff, ← bos_take, ← bos_take, htx _ hle]
    · intro j hj hl hjo
      rw [← htx j (by rw [List.length_take]; simp at hl; omega)]
      exact hk.noext j hj (by rw [List.length_take]; simp at hl; omega)

theorem forgot_spec (w : s.WF) (h : List Word) (x : Word) :
    (forgotState s h x).1.prob = s.sc x h ∧
    Suff s (forgotState s h x).2 (x :: h) ∧
    resid s [] (x :: h) (forgotState s h x).2.length = 0 := by
  obtain ⟨⟨k, p, hk, hp, hl, h1⟩, r⟩ := forgot_recent (w : s.WF0) h x
  refine ⟨?_, suff_of_noext w r.le r.words r.backoff r.noext⟩
  rw [h1]
  exact (score_match s x [] h k p hk hp hl).symm

end Cdec.Klm.LM
