import Verif.Klm.NGramScore
import Verif.Klm.HashedBuildAccept
/-!
# C67: language-model queries give the probabilities of the ARPA file

The statements compare with `Spec.Arpa.score`, the back-off recursion over the listed
n-grams and the whole history.  Histories are written most recent word first.
-/

namespace Cdec.Klm.LM

variable {K : Type} [AddCommGroup K] [DecidableEq K]

/-- The state after scoring the words `ws` (in reading order) one after the other. -/
def stateAfter (s : Search K) (st : State K) (ws : List Word) : State K :=
  ws.foldl (fun st w => (fullScore s st w).2) st

/-- The sum of the scores of the words `ws`, in reading order. -/
def queryAll (s : Search K) : State K → List Word → K
  | _, [] => 0
  | st, w :: t => (fullScore s st w).1.prob + queryAll s (fullScore s st w).2 t

/-- A state fully stands for a history. -/
def Stands (s : Search K) (st : State K) (h : List Word) : Prop :=
  Suff s st h ∧ resid s [] h st.length = 0

theorem Stands.next {s : Search K} (w : s.WF) {st : State K} {h : List Word} (hs : Stands s st h)
    (x : Word) : (fullScore s st x).1.prob = s.sc x h ∧ Stands s (fullScore s st x).2 (x :: h) := by
  obtain ⟨h1, h2, h3⟩ := fullScore_spec w hs.1 x
  rw [hs.2, add_zero] at h1
  exact ⟨h1, h2, h3⟩

theorem Stands.after {s : Search K} (w : s.WF) (ws : List Word) : ∀ {st : State K} {h : List Word},
    Stands s st h → Stands s (stateAfter s st ws) (ws.reverse ++ h) := by
  induction ws with
  | nil => intro st h hs; simpa [stateAfter] using hs
  | cons x t ih =>
    intro st h hs
    have := ih (hs.next w x).2
    simpa [stateAfter, List.append_assoc] using this

theorem Stands.all {s : Search K} (w : s.WF) (ws : List Word) : ∀ {st : State K} {h : List Word},
    Stands s st h → queryAll s st ws = s.ss ws.reverse h := by
  induction ws with
  | nil => intro st h _; rfl
  | cons x t ih =>
    intro st h hs
    obtain ⟨h1, h2⟩ := hs.next w x
    have happ : ∀ (f g v : List Word), s.ss (f ++ g) v = s.ss f (g ++ v) + s.ss g v := by
      intro f g v
      induction f with
      | nil => show _ = (0 : K) + _; rw [zero_add]; rfl
      | cons y u ihf =>
        show s.sc y (u ++ g ++ v) + s.ss (u ++ g) v = s.sc y (u ++ (g ++ v)) + s.ss u (g ++ v) + _
        rw [ihf, List.append_assoc, add_assoc]
    rw [queryAll, h1, ih h2, List.reverse_cons, happ]
    show s.sc x h + _ = _ + (s.sc x ([] ++ h) + 0)
    rw [List.nil_append, add_zero, add_comm]
    rfl

/-- After any words `ws` scored one by one from the beginning-of-sentence state, the next
word gets exactly the probability of the file after the complete history. -/
theorem C67_full_score_sentence (a : Spec.Arpa K) (hr : a.Regular) (sign : Word → Bool)
    (s : Search K) (hb : buildHashed a sign = some s) (bos : Word) (ws : List Word) (w : Word) :
    (fullScore s (stateAfter s (beginSentence s bos) ws) w).1.prob =
      a.score w (ws.reverse ++ [bos]) := by
  have wf := build_wf hr hb
  have h : Stands s (beginSentence s bos) [bos] := suff_bos s bos
  rw [((h.after wf ws).next wf w).1, build_score hr hb]

/-- The same without a beginning of sentence (`NullContextState`). -/
theorem C67_full_score_null (a : Spec.Arpa K) (hr : a.Regular) (sign : Word → Bool)
    (s : Search K) (hb : buildHashed a sign = some s) (ws : List Word) (w : Word) :
    (fullScore s (stateAfter s nullContext ws) w).1.prob = a.score w ws.reverse := by
  have wf := build_wf hr hb
  have h : Stands s nullContext [] := ⟨suff_null s, rfl⟩
  have h2 := ((h.after wf ws).next wf w).1
  rw [List.append_nil] at h2
  rw [h2, build_score hr hb]

/-- The scores of the words of a sentence add up to the probability of the sentence. -/
theorem C67_sentence (a : Spec.Arpa K) (hr : a.Regular) (sign : Word → Bool)
    (s : Search K) (hb : buildHashed a sign = some s) (bos : Word) (ws : List Word) :
    queryAll s (beginSentence s bos) ws = a.sentence bos ws := by
  have wf := build_wf hr hb
  have h : Stands s (beginSentence s bos) [bos] := suff_bos s bos
  rw [h.all wf ws, build_string hr hb]
  rfl

/-- `FullScoreForgotState`: the probability of a word after an explicit history of any
length; and the state it returns can be used to go on. -/
theorem C67_forgot_state (a : Spec.Arpa K) (hr : a.Regular) (sign : Word → Bool)
    (s : Search K) (hb : buildHashed a sign = some s) (h : List Word) (w : Word) :
    (forgotState s h w).1.prob = a.score w h ∧
      ∀ ws v, (fullScore s (stateAfter s (forgotState s h w).2 ws) v).1.prob =
        a.score v (ws.reverse ++ w :: h) := by
  have wf := build_wf hr hb
  obtain ⟨h1, h2, h3⟩ := forgot_spec wf h w
  refine ⟨by rw [h1, build_score hr hb], fun ws v => ?_⟩
  have hs : Stands s (forgotState s h w).2 (w :: h) := ⟨h2, h3⟩
  rw [((hs.after wf ws).next wf v).1, build_score hr hb]

/-- `GetState`: the state made from an explicit history of any length gives the same
scores as the complete history. -/
theorem C67_get_state (a : Spec.Arpa K) (hr : a.Regular) (sign : Word → Bool)
    (s : Search K) (hb : buildHashed a sign = some s) (h : List Word) (ws : List Word) (v : Word) :
    (fullScore s (stateAfter s (getState s h) ws) v).1.prob = a.score v (ws.reverse ++ h) := by
  have wf := build_wf hr hb
  have hs : Stands s (getState s h) h := getState_spec wf h
  rw [((hs.after wf ws).next wf v).1, build_score hr hb]

/-- The state a query returns fits its array: it holds fewer words than the order of the
model, and one back-off for each. -/
theorem C67_state_short (a : Spec.Arpa K) (hr : a.Regular) (sign : Word → Bool)
    (s : Search K) (hb : buildHashed a sign = some s) (st : State K) (w : Word) :
    (fullScore s st w).2.words.length ≤ a.order - 1 ∧
      (fullScore s st w).2.backoff.length = (fullScore s st w).2.words.length := by
  have wf := build_wf hr hb
  have v := build_inv hr hb
  obtain ⟨k, hk⟩ := seb_spec wf.toWF0 st.words w
  have h2 : (fullScore s st w).2 = (scoreExceptBackoff s st.words w).2 := rfl
  rw [h2]
  have hle := hk.le
  have hlen : (scoreExceptBackoff s st.words w).2.words.length =
      (scoreExceptBackoff s st.words w).2.length := rfl
  constructor
  · by_cases h0 : (scoreExceptBackoff s st.words w).2.length = 0
    · rw [hlen, h0]; omega
    · obtain ⟨e, he, _⟩ := hk.ext (by omega)
      have := Search.get_length wf.two he
      rw [List.length_take, List.length_cons] at this
      rw [hlen, ← v.order]
      omega
  · rw [hlen, hk.backoff, List.length_take, bos_length, List.length_cons]
    omega

/-! ## A model that meets the hypotheses -/

/-- A trigram model over the words `1` (`<s>`), `2`, `3`, `4` (`</s>`): the trigram
`<s> 2 3` is listed although its suffix `2 3` is not. -/
def sampleArpa : Spec.Arpa Int where
  order := 3
  uni := fun w => (-(w : Int) - 1, if w = 4 then 0 else -(w : Int))
  sect := fun n =>
    if n = 2 then [([2, 1], -1, -5), ([4, 3], -2, 0), ([3, 3], -3, -7)]
    else if n = 3 then [([3, 2, 1], -1, 0), ([4, 3, 3], -4, 0)] else []

theorem sampleArpa_regular : sampleArpa.Regular := by
  refine ⟨by decide, ?_, ?_⟩
  · intro n h1 h2
    have : n = 2 ∨ n = 3 := by simp only [sampleArpa] at h2; omega
    rcases this with rfl | rfl <;> decide
  · intro n h1 h2
    have : n = 2 ∨ n = 3 := by simp only [sampleArpa] at h2; omega
    rcases this with rfl | rfl <;> decide

theorem sampleArpa_builds : ∃ s, buildHashed sampleArpa (fun _ => true) = some s := by
  refine build_accepts sampleArpa_regular _ (by decide) ?_
  intro n h1 h2
  have : n = 3 := by simp only [sampleArpa] at h2; omega
  subst this; decide

example : ∃ s, buildHashed sampleArpa (fun _ => true) = some s ∧
    (fullScore s (stateAfter s (beginSentence s 1) [2]) 3).1.prob = -1 ∧
    (fullScore s (stateAfter s (beginSentence s 1) [2, 3]) 4).1.prob = -2 ∧
    (fullScore s (stateAfter s (beginSentence s 1) [2, 2]) 3).1.prob = -6 := by
  obtain ⟨s, hs⟩ := sampleArpa_builds
  refine ⟨s, hs, ?_, ?_, ?_⟩ <;>
    rw [C67_full_score_sentence sampleArpa sampleArpa_regular _ s hs] <;> decide +kernel

end Cdec.Klm.LM
