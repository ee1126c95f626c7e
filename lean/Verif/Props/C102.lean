import Verif.Klm.TrieQuery
import Verif.Props.C67
/-!
# C102: the trie gives the probabilities of the ARPA file

The statements compare with `Spec.Arpa.score`, as for C67, and hold for every way of sorting the messages to contexts.  `f` are the sorted files that the first phase of building leaves on the disk
(`Spec.SortedFiles`), and `Sizes` says that the products of the interpolation search fit into 64 bits.
-/
namespace Cdec.Klm.LM

variable {K : Type} [AddCommGroup K] [DecidableEq K]

theorem StandsFor.after {a : Spec.Arpa K} (hr : a.Regular) {s : Search K} (hf : Faithful a s) (ws : List Word) : ∀ {st : State K} {h : List Word}, StandsFor a s st h → StandsFor a s (stateAfter s st ws) (ws.reverse ++ h) := by
  induction ws with
  | nil => intro st h hs; simpa [stateAfter] using hs
  | cons x t ih =>
    intro st h hs
    have := ih (hs.next hr hf x).2
    simpa [stateAfter, List.append_assoc] using this

theorem string_append (a : Spec.Arpa K) (f g v : List Word) : Spec.stringScore a.prob a.backoff (f ++ g) v = Spec.stringScore a.prob a.backoff f (g ++ v) + Spec.stringScore a.prob a.backoff g v := by
  induction f with
  | nil => show _ = (0 : K) + _; rw [zero_add]; rfl
  | cons y u ih =>
    show Spec.score a.prob a.backoff y (u ++ g ++ v) + Spec.stringScore a.prob a.backoff (u ++ g) v = Spec.score a.prob a.backoff y (u ++ (g ++ v)) + Spec.stringScore a.prob a.backoff u (g ++ v) + _
    rw [ih, List.append_assoc, add_assoc]

theorem StandsFor.all {a : Spec.Arpa K} (hr : a.Regular) {s : Search K} (hf : Faithful a s) (ws : List Word) : ∀ {st : State K} {h : List Word}, StandsFor a s st h → queryAll s st ws = Spec.stringScore a.prob a.backoff ws.reverse h := by
  induction ws with
  | nil => intro st h _; rfl
  | cons x t ih =>
    intro st h hs
    obtain ⟨h1, h2⟩ := hs.next hr hf x
    rw [queryAll, h1, ih h2, List.reverse_cons, string_append]
    show a.score x h + _ = _ + (Spec.score a.prob a.backoff x ([] ++ h) + 0)
    rw [List.nil_append, add_zero, add_comm]
    rfl

theorem trie_faithful {a : Spec.Arpa K} (hr : a.Regular) {vocab : Nat} (hb : a.Below vocab) {f : Files K} (hf : Spec.SortedFiles a f) {srt : List Message → List Message} (hs : Spec.Sorts srt)
    {t : Trie K} (ht : buildTrie srt a.order vocab (Spec.unigram a) f = some t) (hz : Sizes t) : Faithful a t.search := by
  obtain ⟨C, hC⟩ := (buildTrie_spec hr hb hf hs).1 t ht
  exact hC.faithful hr hz

/-- After any words `ws` scored one by one from the beginning-of-sentence state, the next word gets exactly the probability of the file after the complete history. -/
theorem C102_full_score_sentence (a : Spec.Arpa K) (hr : a.Regular) (vocab : Nat) (hb : a.Below vocab) (f : Files K) (hf : Spec.SortedFiles a f) (srt : List Message → List Message) (hs : Spec.Sorts srt)
    (t : Trie K) (ht : buildTrie srt a.order vocab (Spec.unigram a) f = some t) (hz : Sizes t) (bos : Word) (ws : List Word) (w : Word) :
    (fullScore t.search (stateAfter t.search (beginSentence t.search bos) ws) w).1.prob = a.score w (ws.reverse ++ [bos]) := by
  have F := trie_faithful hr hb hf hs ht hz
  exact (((StandsFor.bos a t.search bos).after hr F ws).next hr F w).1

/-- The same without a beginning of sentence. -/
theorem C102_full_score_null (a : Spec.Arpa K) (hr : a.Regular) (vocab : Nat) (hb : a.Below vocab) (f : Files K) (hf : Spec.SortedFiles a f) (srt : List Message → List Message) (hs : Spec.Sorts srt)
    (t : Trie K) (ht : buildTrie srt a.order vocab (Spec.unigram a) f = some t) (hz : Sizes t) (ws : List Word) (w : Word) :
    (fullScore t.search (stateAfter t.search nullContext ws) w).1.prob = a.score w ws.reverse := by
  have F := trie_faithful hr hb hf hs ht hz
  have := (((StandsFor.null a t.search).after hr F ws).next hr F w).1
  rwa [List.append_nil] at this

/-- The scores of the words of a sentence add up to the probability of the sentence. -/
theorem C102_sentence (a : Spec.Arpa K) (hr : a.Regular) (vocab : Nat) (hb : a.Below vocab) (f : Files K) (hf : Spec.SortedFiles a f) (srt : List Message → List Message) (hs : Spec.Sorts srt)
    (t : Trie K) (ht : buildTrie srt a.order vocab (Spec.unigram a) f = some t) (hz : Sizes t) (bos : Word) (ws : List Word) :
    queryAll t.search (beginSentence t.search bos) ws = a.sentence bos ws := by
  have F := trie_faithful hr hb hf hs ht hz
  exact (StandsFor.bos a t.search bos).all hr F ws

/-- `FullScoreForgotState`: the probability of a word after an explicit history of any length; and the state it returns can be used to go on. -/
theorem C102_forgot_state (a : Spec.Arpa K) (hr : a.Regular) (vocab : Nat) (hb : a.Below vocab) (f : Files K) (hf : Spec.SortedFiles a f) (srt : List Message → List Message) (hs : Spec.Sorts srt)
    (t : Trie K) (ht : buildTrie srt a.order vocab (Spec.unigram a) f = some t) (hz : Sizes t) (h : List Word) (w : Word) :
    (forgotState t.search h w).1.prob = a.score w h ∧
      ∀ ws v, (fullScore t.search (stateAfter t.search (forgotState t.search h w).2 ws) v).1.prob = a.score v (ws.reverse ++ w :: h) := by
  have F := trie_faithful hr hb hf hs ht hz
  obtain ⟨h1, h2⟩ := F.forgot hr h w
  exact ⟨h1, fun ws v => ((h2.after hr F ws).next hr F v).1⟩

/-- `GetState`: the state made from an explicit history of any length gives the same scores as the complete history. -/
theorem C102_get_state (a : Spec.Arpa K) (hr : a.Regular) (vocab : Nat) (hb : a.Below vocab) (f : Files K) (hf : Spec.SortedFiles a f) (srt : List Message → List Message) (hs : Spec.Sorts srt)
    (t : Trie K) (ht : buildTrie srt a.order vocab (Spec.unigram a) f = some t) (hz : Sizes t) (h ws : List Word) (v : Word) :
    (fullScore t.search (stateAfter t.search (getState t.search h) ws) v).1.prob = a.score v (ws.reverse ++ h) := by
  have F := trie_faithful hr hb hf hs ht hz
  exact (((F.recent hr (getState_recent F.wf h)).after hr F ws).next hr F v).1

/-- The state a query returns fits its array: it holds fewer words than the order of the model, and one back-off for each. -/
theorem C102_state_short (a : Spec.Arpa K) (hr : a.Regular) (vocab : Nat) (hb : a.Below vocab) (f : Files K) (hf : Spec.SortedFiles a f) (srt : List Message → List Message) (hs : Spec.Sorts srt)
    (t : Trie K) (ht : buildTrie srt a.order vocab (Spec.unigram a) f = some t) (hz : Sizes t) (st : State K) (w : Word) :
    (fullScore t.search st w).2.words.length ≤ a.order - 1 ∧ (fullScore t.search st w).2.backoff.length = (fullScore t.search st w).2.words.length := by
  have F := trie_faithful hr hb hf hs ht hz
  obtain ⟨k, hk⟩ := seb_spec F.wf st.words w
  have h2 : (fullScore t.search st w).2 = (scoreExceptBackoff t.search st.words w).2 := rfl
  rw [h2]
  have hle := hk.le
  have hlen : (scoreExceptBackoff t.search st.words w).2.words.length = (scoreExceptBackoff t.search st.words w).2.length := rfl
  constructor
  · by_cases h0 : (scoreExceptBackoff t.search st.words w).2.length = 0
    · rw [hlen, h0]; omega
    · obtain ⟨e, he, _⟩ := hk.ext (by omega)
      have := Search.get_length F.wf.two he
      rw [List.length_take, List.length_cons] at this
      rw [hlen, ← F.order]
      omega
  · rw [hlen, hk.backoff, List.length_take, bos_length, List.length_cons]
    omega

/-- The trie and the hash tables of the same file answer alike. -/
theorem C102_same_as_probing (a : Spec.Arpa K) (hr : a.Regular) (vocab : Nat) (hb : a.Below vocab) (f : Files K) (hf : Spec.SortedFiles a f) (srt : List Message → List Message) (hs : Spec.Sorts srt)
    (t : Trie K) (ht : buildTrie srt a.order vocab (Spec.unigram a) f = some t) (hz : Sizes t) (sign : Word → Bool) (s : Search K) (hp : buildHashed a sign = some s) (bos : Word) (ws : List Word) (w : Word) :
    (fullScore t.search (stateAfter t.search (beginSentence t.search bos) ws) w).1.prob = (fullScore s (stateAfter s (beginSentence s bos) ws) w).1.prob ∧
    (fullScore t.search (stateAfter t.search nullContext ws) w).1.prob = (fullScore s (stateAfter s nullContext ws) w).1.prob := by
  rw [C102_full_score_sentence a hr vocab hb f hf srt hs t ht hz, C67_full_score_sentence a hr sign s hp, C102_full_score_null a hr vocab hb f hf srt hs t ht hz, C67_full_score_null a hr sign s hp]
  exact ⟨rfl, rfl⟩

/-- Building succeeds just when the context of every n-gram of three words or more is listed. -/
theorem C102_accepts (a : Spec.Arpa K) (hr : a.Regular) (vocab : Nat) (hb : a.Below vocab) (f : Files K) (hf : Spec.SortedFiles a f) (srt : List Message → List Message) (hs : Spec.Sorts srt) :
    (∃ t, buildTrie srt a.order vocab (Spec.unigram a) f = some t) ↔ ∀ n, 3 ≤ n → n ≤ a.order → ∀ g ∈ a.sect n, ∃ v, (g.1.tail, v) ∈ a.sect (n - 1) := by
  rw [(buildTrie_spec hr hb hf hs).2]
  constructor
  · intro h n h1 h2 g hg
    obtain ⟨m, rfl⟩ : ∃ m, n = m + 1 := ⟨n - 1, by omega⟩
    obtain ⟨v, hv⟩ := Option.ne_none_iff_exists'.1 (h m (by omega) (by omega) g hg)
    have hl := hr.length _ (by omega) h2 g hg
    have := (look_mem hr (by rw [List.length_tail]; omega)).1 hv
    rw [List.length_tail, hl] at this
    exact ⟨v, this.2⟩
  · intro h n h1 h2 g hg
    obtain ⟨v, hv⟩ := h (n + 1) (by omega) (by omega) g hg
    have hl := hr.length _ (by omega) (by omega) g hg
    rw [(look_mem hr (by rw [List.length_tail]; omega)).2 ⟨by rw [List.length_tail]; omega, by rw [List.length_tail, hl]; exact hv⟩]
    simp

/-! ## A model that meets the hypotheses -/

/-- The sorted files of `sampleArpa`. -/
def sampleFiles : Files Int where
  full := fun n => if n = 2 then [⟨[2, 1], -1, -5, true⟩, ⟨[3, 3], -3, -7, true⟩, ⟨[4, 3], -2, 0, false⟩] else if n = 3 then [⟨[3, 2, 1], -1, 0, false⟩, ⟨[4, 3, 3], -4, 0, false⟩] else []
  ctx := fun n => if n = 1 then [[1], [3]] else if n = 2 then [[2, 1], [3, 3]] else []

/-- A sorting of messages. -/
def sampleSort (l : List Message) : List Message := l.mergeSort fun m m' => decide (m.1 ≤ m'.1)

theorem sampleSort_sorts : Spec.Sorts sampleSort := by
  intro l
  refine ⟨List.mergeSort_perm _ _, ?_⟩
  have := List.pairwise_mergeSort (le := fun (m m' : Message) => decide (m.1 ≤ m'.1)) (by simp only [decide_eq_true_eq]; exact fun _ _ _ => le_trans) (by simp only [Bool.or_eq_true, decide_eq_true_eq]; exact fun _ _ => le_total _ _) l
  exact this.imp fun h => by simpa using h

theorem sampleArpa_below : sampleArpa.Below 5 := by
  intro n h1 h2
  have : n = 2 ∨ n = 3 := by simp only [sampleArpa] at h2; omega
  rcases this with rfl | rfl <;> decide

instance : DecidableEq (Rec Int) := fun r r' => decidable_of_iff (r.g = r'.g ∧ r.prob = r'.prob ∧ r.bo = r'.bo ∧ r.ext = r'.ext) (by cases r; cases r'; simp)

theorem sampleFiles_sorted : Spec.SortedFiles sampleArpa sampleFiles := by
  have ho : sampleArpa.order = 3 := rfl
  constructor
  · intro n h1 h2
    have : n = 2 ∨ n = 3 := by omega
    rcases this with rfl | rfl <;> decide +kernel
  · intro n h1 h2
    have : n = 2 ∨ n = 3 := by omega
    rcases this with rfl | rfl <;> decide +kernel
  · intro n h1 h2
    have : n = 1 ∨ n = 2 := by omega
    rcases this with rfl | rfl <;> decide +kernel
  · intro n h1 h2 c
    have : n = 1 ∨ n = 2 := by omega
    rcases this with rfl | rfl
    · simp [sampleFiles, sampleArpa]
      constructor
      · rintro (rfl | rfl) <;> simp
      · rintro (rfl | rfl) <;> simp
    · simp [sampleFiles, sampleArpa, eq_comm]

/-- The trie of `sampleArpa`: the bigram `2 3` is a blank. -/
example : ∃ t, buildTrie sampleSort 3 5 (Spec.unigram sampleArpa) sampleFiles = some t ∧ Sizes t ∧ (t.tab 2).length = 4 ∧
    (fullScore t.search (stateAfter t.search (beginSentence t.search 1) [2]) 3).1.prob = -1 ∧
    (fullScore t.search (stateAfter t.search (beginSentence t.search 1) [2, 3]) 4).1.prob = -2 ∧
    (fullScore t.search (stateAfter t.search (beginSentence t.search 1) [2, 2]) 3).1.prob = -6 := by
  have key : (buildTrie sampleSort 3 5 (Spec.unigram sampleArpa) sampleFiles).map (fun t => (t.order, t.vocab, (t.tab 2).length, (t.tab 3).length)) = some (3, 5, 4, 2) := by decide +kernel
  obtain ⟨t, ht, h1⟩ := Option.map_eq_some_iff.1 key
  simp only [Prod.mk.injEq] at h1
  obtain ⟨h1, h2, h3, h4⟩ := h1
  have hz : Sizes t := by
    refine ⟨by rw [h2]; decide, fun n hn1 hn2 => ?_⟩
    have : n = 2 ∨ n = 3 := by omega
    rcases this with rfl | rfl
    · rw [h2, h3]; decide
    · rw [h2, h4]; decide
  refine ⟨t, ht, hz, h3, ?_, ?_, ?_⟩ <;>
    rw [C102_full_score_sentence sampleArpa sampleArpa_regular 5 sampleArpa_below sampleFiles sampleFiles_sorted sampleSort sampleSort_sorts t ht hz] <;> decide +kernel

end Cdec.Klm.LM
