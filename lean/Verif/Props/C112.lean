import Verif.Klm.VocabProbing
import Mathlib.Data.List.Sort
import Mathlib.Tactic.SplitIfs
/-!
# C112: the vocabulary of a language model numbers its words

`Distinguishes h ws S` says that there are no collisions among the words of the model, the unknown word and the words of
`S` that are looked up; `Numbers` and `Lists` (VocabSpec) are what users rely on.
-/
namespace Cdec.Klm.Vocab

/-- **C112 (sorted vocabulary).**  For every list of words, every sort and every interpolation: loading succeeds, the
vocabulary numbers the words, the enumeration agrees with the lookups, and the weights, which were stored at the indices
that the insertions returned, are at the indices that the lookups return. -/
theorem C112_sorted {W : Type} (q : Nat → Nat → Nat → Nat) (sort : JointSort) (hsort : Sorts sort) {h : Word → Nat}
    {S : Word → Prop} {ws : List Word} (hd : Distinguishes h ws S) (ho : Once ws) (enumerate : Bool) (entries : Nat)
    (he : known ws ≤ entries) (weights : List W) (hw : known ws + 1 ≤ weights.length) :
    ∃ is weights' s, Sorted.load sort h enumerate entries ws weights = some (is, weights', s) ∧
      Numbers ws S (s.index q h) s.bound ∧
      (enumerate = true → Lists ws (s.index q h) s.bound s.out) ∧
      (s.sawUnk = true ↔ unk ∈ ws ∨ unkCap ∈ ws) ∧
      weights'.length = weights.length ∧ weights'[0]? = weights[0]? ∧
      (∀ (j : Nat) (w : Word) (i i' : Nat), ws[j]? = some w → Known ws w → is[j]? = some i → s.index q h w = some i' →
        weights'[i']? = weights[i]?) := by
  obtain ⟨is, w', s, h1, h2, h3, h4, h5, h6, h7, _⟩ := sorted_load q sort hsort hd ho enumerate entries he weights hw
  exact ⟨is, w', s, h1, h2, h3, h4, h5, h6, h7⟩

/-- **C112 (hashed vocabulary).**  With at least one bucket more than words, and no word with the hash 0 that marks an
empty bucket: loading succeeds, the vocabulary numbers the words in the order of the model with the indices that the
insertions returned, and the enumeration agrees. -/
theorem C112_probing {h : Word → Nat} {S : Word → Prop} {ws : List Word} (hd : Distinguishes h ws S) (ho : Once ws)
    (h0 : ∀ w, Known ws w → h w ≠ 0) (enumerate : Bool) (buckets : Nat) (hb : known ws < buckets) :
    ∃ is s, Probing.load h enumerate buckets ws = .ok (is, s) ∧
      Numbers ws S (s.index h) s.bound ∧
      (enumerate = true → Lists ws (s.index h) s.bound s.out) ∧
      (s.sawUnk = true ↔ unk ∈ ws ∨ unkCap ∈ ws) ∧
      (∀ (j : Nat) (w : Word) (i : Nat), ws[j]? = some w → Known ws w → is[j]? = some i → s.index h w = some i) := by
  have hinj : ∀ a ∈ ws.filter isKnown, ∀ b ∈ ws.filter isKnown, h a = h b → a = b := fun a ha b hb hab =>
    hd.inj a b (Or.inr (Or.inr (Or.inl (List.mem_of_mem_filter ha)))) (Or.inr (Or.inr (List.mem_of_mem_filter hb))) hab
  have hK : (ws.filter isKnown).length = known ws := rfl
  obtain ⟨s, a1, a2, a3, a4, a5⟩ := insertAll_probing ws hd h0 [] _ (good_setup h enumerate buckets)
    (by simpa using List.Nodup.map_on hinj ho) (by simpa [Probing.setup] using hb)
  rw [List.nil_append] at a2
  have hl : (ws.filter isKnown).length < s.lookup.t.length := by rw [a3, hK]; simpa [Probing.setup] using hb
  obtain ⟨x1, x2⟩ := good_index a2 hl fun w hw => h0 w (known_filter.mpr hw)
  have hidx : s.finish.index h = s.index h := rfl
  have hbd : s.finish.bound = known ws + 1 := a2.bound
  refine ⟨idsFrom 0 ws, s.finish, by unfold Probing.load; rw [a1]; rfl, ?_, ?_, ?_, ?_⟩
  · refine ⟨hbd, fun w hw => ?_, fun w w' hw hw' he => ?_, fun w hw hu => ?_⟩
    · obtain ⟨k, hk⟩ := List.mem_iff_getElem?.mp (known_filter.mp hw)
      have := (List.getElem?_eq_some_iff.mp hk).1
      exact ⟨k + 1, x1 k w hk, by omega, by omega⟩
    · obtain ⟨k, hk⟩ := List.mem_iff_getElem?.mp (known_filter.mp hw)
      obtain ⟨k', hk'⟩ := List.mem_iff_getElem?.mp (known_filter.mp hw')
      rw [hidx, x1 k w hk, x1 k' w' hk'] at he
      have : k = k' := by simpa using he
      subst this
      rw [hk] at hk'
      exact Option.some.inj hk'
    · refine x2 w fun hm => hu ?_
      obtain ⟨v, hv, hvw⟩ := List.mem_map.mp hm
      rw [hd.inj w v (Or.inr (Or.inr (Or.inr hw))) (Or.inr (Or.inr (List.mem_of_mem_filter hv))) hvw.symm]
      exact known_filter.mpr hv
  · intro hen
    have hout : s.finish.out = (0, unk) :: numbered 1 (ws.filter isKnown) := a2.out (by rw [a4]; exact hen)
    refine ⟨?_, by rw [hout]; rfl, fun i hi hib => ?_⟩
    · rw [hout, hbd, List.length_cons, numbered_length, hK]
    · obtain ⟨k, rfl⟩ := Nat.exists_eq_succ_of_ne_zero (show i ≠ 0 by omega)
      have hkl : k < (ws.filter isKnown).length := by omega
      have hg := List.getElem?_eq_getElem hkl
      refine ⟨_, ?_, known_filter.mpr (List.getElem_mem hkl), x1 k _ hg⟩
      rw [hout, Nat.succ_eq_add_one, List.getElem?_cons_succ, numbered_get, hg, Option.map_some, Nat.add_comm]
  · show s.sawUnk = true ↔ _
    rw [a5]
    simp only [Probing.setup, Bool.false_or, List.any_eq_true]
    constructor
    · rintro ⟨w, hw, hk⟩
      have : w = unk ∨ w = unkCap := by
        simp only [isKnown, Bool.not_eq_true', decide_eq_false_iff_not] at hk; tauto
      rcases this with rfl | rfl
      · exact Or.inl hw
      · exact Or.inr hw
    · rintro (g | g)
      · exact ⟨_, g, by simp⟩
      · exact ⟨_, g, by simp⟩
  · intro j w i hj hk hi
    obtain ⟨k, rfl, hk'⟩ := idsFrom_get 0 ws j i w hj (by simpa [isKnown] using hk.2) hi
    rw [hidx, x1 k w hk', Nat.zero_add]

/-- **C112 (list of words).**  For every file and every size of the chunks that are read: reading succeeds exactly if the
file consists of the expected number of terminated words, of which `<unk>` is the first, and it enumerates them with
consecutive indices. -/
theorem C112_read_words (K : Nat) (hK : 0 < K) (file : List Nat) (expected : Nat) (out : List (Nat × Word)) :
    readWords K file expected = some out ↔
      ∃ ws, NulFree ws ∧ file = terminated (unk :: ws) ∧ expected = ws.length + 1 ∧ out = numbered 0 (unk :: ws) := by
  unfold readWords
  have e : ∀ ws, terminated (unk :: ws) = (unk ++ [0]) ++ terminated ws := fun ws => by simp [terminated]
  have h6 : (unk ++ [0]).length = 6 := rfl
  constructor
  · intro h
    split at h
    · rename_i hu
      cases hr : readLoop K (file.length + 1) (file.drop 6) with
      | none => rw [hr] at h; cases h
      | some ws =>
        rw [hr] at h
        simp only at h
        split at h
        · cases h
        · rename_i hne
          obtain ⟨g1, g2⟩ := (readLoop_iff K hK _ _ (by rw [List.length_drop]; omega) ws).mp hr
          refine ⟨ws, g1, ?_, not_not.mp hne, (Option.some.inj h).symm⟩
          rw [e, ← g2, ← hu, List.take_append_drop]
    · cases h
  · rintro ⟨ws, h1, h2, h3, h4⟩
    rw [if_pos (by rw [h2, e, ← h6, List.take_left])]
    have hd : file.drop 6 = terminated ws := by rw [h2, e, ← h6, List.drop_left]
    rw [(readLoop_iff K hK _ _ (by rw [List.length_drop]; omega) ws).mpr ⟨h1, hd⟩]
    simp only
    rw [if_neg (by omega), h4]
    rfl

theorem writeWords_numbered (i : Nat) (ws : List Word) : writeWords (numbered i ws) = terminated ws := by
  induction ws generalizing i with
  | nil => rfl
  | cons w ws ih => simp only [numbered, writeWords, terminated, List.flatMap_cons] at ih ⊢; rw [ih]

/-- A list with consecutive indices is the numbering of its words. -/
theorem numbered_of_get (out : List (Nat × Word)) (i : Nat) (h : ∀ k w, out[k]? = some w → w.1 = i + k) :
    out = numbered i (out.map Prod.snd) := by
  induction out generalizing i with
  | nil => rfl
  | cons x out ih =>
    have hx : x.1 = i := h 0 x rfl
    rw [List.map_cons, numbered, ← ih (i + 1) fun k w hk => by
      have := h (k + 1) w (by rw [List.getElem?_cons_succ]; exact hk)
      omega]
    rw [← hx]

/-- What has been enumerated and written is read again. -/
theorem read_written (K : Nat) (hK : 0 < K) {ws : List Word} (hn : NulFree ws) {index : Word → Option Nat} {bound : Nat}
    {out : List (Nat × Word)} (hl : Lists ws index bound out) : readWords K (writeWords out) bound = some out := by
  have hout : out = numbered 0 (out.map Prod.snd) := numbered_of_get out 0 fun k x hk => by
    have hkl := (List.getElem?_eq_some_iff.mp hk).1
    by_cases hk0 : k = 0
    · subst hk0; rw [hl.first] at hk; cases hk; rfl
    · obtain ⟨w, h1, _⟩ := hl.rest k (by omega) (by rw [← hl.length]; exact hkl)
      rw [h1] at hk; cases hk; simp
  cases hc : out with
  | nil => have := hl.first; rw [hc] at this; simp at this
  | cons x rest =>
    have hx : x = (0, unk) := by have := hl.first; rw [hc] at this; simpa using this
    have hw : (out.map Prod.snd) = unk :: rest.map Prod.snd := by rw [hc, hx]; rfl
    rw [← hc]
    refine (C112_read_words K hK _ _ _).mpr ⟨rest.map Prod.snd, ?_, ?_, ?_, ?_⟩
    · intro w hw'
      obtain ⟨y, hy, rfl⟩ := List.mem_map.mp hw'
      obtain ⟨k, hk⟩ := List.mem_iff_getElem?.mp hy
      have hk1 : out[k + 1]? = some y := by rw [hc, List.getElem?_cons_succ]; exact hk
      obtain ⟨v, h1, h2, _⟩ := hl.rest (k + 1) (by omega) (by rw [← hl.length]; exact (List.getElem?_eq_some_iff.mp hk1).1)
      rw [h1] at hk1
      cases hk1
      exact hn v h2.1
    · rw [← hw]; conv_lhs => rw [hout, writeWords_numbered]
    · rw [← hl.length, hc]; simp
    · rw [← hw]; exact hout

/-- **C112 (binary files).**  The sorted vocabulary that is loaded from the memory and the list of words which were
written has the same bound, gives the same index to every word whatever its hash, and enumerates the same. -/
theorem C112_sorted_binary {W : Type} (K : Nat) (hK : 0 < K) (q : Nat → Nat → Nat → Nat) (sort : JointSort) (hsort : Sorts sort)
    {h : Word → Nat} {ws : List Word} (hd : Distinguishes h ws fun _ => False) (ho : Once ws) (entries : Nat)
    (he : known ws ≤ entries) (weights : List W) (hw : known ws + 1 ≤ weights.length) (hn : NulFree ws) :
    ∃ is weights' s s', Sorted.load sort h true entries ws weights = some (is, weights', s) ∧
      Sorted.loadedBinary K s.image (writeWords s.out) = some s' ∧
      s'.bound = s.bound ∧ s'.out = s.out ∧ ∀ w, s'.index q h w = s.index q h w := by
  obtain ⟨is, w', s, h1, _, h3, _, _, _, _, h8, h9⟩ := sorted_load q sort hsort hd ho true entries he weights hw
  have hr := read_written K hK hn (h3 rfl)
  have hcount : s.image.headD 0 = s.count := rfl
  have hh : (s.image.drop 1).take s.count = s.hashes := by
    show (s.hashes ++ _).take s.count = _
    rw [h8, List.take_left]
  refine ⟨is, w', s, ⟨s.count, s.hashes, s.image.length - 1, false, s.count + 1, none, s.out⟩, h1, ?_, h9.symm, rfl, fun w => rfl⟩
  · unfold Sorted.loadedBinary
    simp only [hcount, hh]
    rw [← h9, hr]

/-- **C112 (binary files).**  The same of the hashed vocabulary. -/
theorem C112_probing_binary (K : Nat) (hK : 0 < K) {h : Word → Nat} {ws : List Word} (hd : Distinguishes h ws fun _ => False)
    (ho : Once ws) (h0 : ∀ w, Known ws w → h w ≠ 0) (buckets : Nat) (hb : known ws < buckets) (hn : NulFree ws) :
    ∃ is s s', Probing.load h true buckets ws = .ok (is, s) ∧
      Probing.loadedBinary K (s.header, s.lookup.t) (writeWords s.out) = some s' ∧
      s'.bound = s.bound ∧ s'.out = s.out ∧ ∀ w, s'.index h w = s.index h w := by
  obtain ⟨is, s, h1, _, h3, _⟩ := C112_probing hd ho h0 true buckets hb
  have hr := read_written K hK hn (h3 rfl)
  have hh : s.header = s.bound := by
    unfold Probing.load at h1
    split at h1
    · cases h1
    · cases h1
    · cases h1; rfl
  refine ⟨is, s, ⟨⟨s.lookup.t, 0⟩, s.header, false, true, s.out, s.header⟩, h1, ?_, hh, rfl, fun w => rfl⟩
  unfold Probing.loadedBinary
  simp only [hh, hr]

/-- A sort, for the examples. -/
def exSort : JointSort := fun _ l => l.mergeSort fun a b => decide (a.1 ≤ b.1)

theorem exSort_sorts : Sorts exSort := fun β l => by
  refine ⟨List.mergeSort_perm _ _, ?_⟩
  have := List.pairwise_mergeSort (le := fun a b : Nat × β => decide (a.1 ≤ b.1))
    (fun a b c => by simp only [decide_eq_true_eq]; omega) (fun a b => by simp only [Bool.or_eq_true, decide_eq_true_eq]; omega) l
  exact this.imp fun h => by simpa using h

/-- A hash function for the examples: its values differ on the words used. -/
def exHash (w : Word) : Nat := (w.foldl (fun a c => a * 131 + c) 7) % 2 ^ 64

/-- Nothing detects a word that is listed twice: it gets two indices, and the enumeration has it twice. -/
theorem C112_duplicate_fails :
    ∃ is s, Probing.load exHash true 8 [[97], [98], [97]] = .ok (is, s) ∧ is = [1, 2, 3] ∧ s.bound = 4 ∧
      s.out = [(0, unk), (1, [97]), (2, [98]), (3, [97])] ∧ s.index exHash [97] = some 1 := by
  refine ⟨_, _, rfl, ?_, ?_, ?_, ?_⟩ <;> decide +kernel

/-- A hash function that gives 0 to one word. -/
def zeroHash (w : Word) : Nat := if w = [97] then 0 else if w = [98] then 3 else if w = unk then 7 else 8

/-- A word whose hash is the marker of empty buckets is accepted, its bucket is used again, and then it is taken for an
unknown word. -/
theorem C112_zero_hash_fails :
    Distinguishes zeroHash [[97], [98]] (fun _ => False) ∧ Once [[97], [98]] ∧
      ∃ is s, Probing.load zeroHash true 3 [[97], [98]] = .ok (is, s) ∧ is = [1, 2] ∧ s.bound = 3 ∧
        s.index zeroHash [97] = some 0 := by
  refine ⟨⟨fun w => by unfold zeroHash; split_ifs <;> omega, ?_⟩, by unfold Once; decide, _, _, rfl, ?_, ?_, ?_⟩
  · intro a b ha hb
    simp only [List.mem_cons, List.not_mem_nil, or_false] at ha hb
    rcases ha with rfl | rfl | (rfl | rfl) <;> rcases hb with rfl | rfl | (rfl | rfl) <;> decide +kernel
  all_goals decide +kernel

/-- Non-vacuity: three words, one of which is the unknown word. -/
example : Distinguishes exHash [[98], unk, [97, 99]] (fun w => w = [99]) ∧ Once [[98], unk, [97, 99]] ∧
    known [[98], unk, [97, 99]] = 2 ∧ NulFree [[98], unk, [97, 99]] ∧ (∀ w, Known [[98], unk, [97, 99]] w → exHash w ≠ 0) := by
  refine ⟨⟨fun w => Nat.mod_lt _ (by decide), ?_⟩, by unfold Once; decide, by decide, ?_, ?_⟩
  · intro a b ha hb
    simp only [List.mem_cons, List.not_mem_nil, or_false] at ha hb
    rcases ha with rfl | rfl | (rfl | rfl | rfl) | rfl <;> rcases hb with rfl | rfl | (rfl | rfl | rfl) <;> decide +kernel
  · intro w hw
    simp only [List.mem_cons, List.not_mem_nil, or_false] at hw
    rcases hw with rfl | rfl | rfl <;> decide
  · rintro w ⟨hw, _⟩
    simp only [List.mem_cons, List.not_mem_nil, or_false] at hw
    rcases hw with rfl | rfl | rfl <;> decide +kernel

end Cdec.Klm.Vocab
