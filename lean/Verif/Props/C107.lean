import Verif.Klm.PackedRead
/-!
# C107: the packed tables of the trie return what was put into them

Specification.  `inserted` is what the calls of `Insert` put into the table, one entry after the other; an entry has a word, values and a pointer to its first child in the next table, so that its children
are those from there to the pointer of the following entry.  `Written` says what the builder has to do.
-/
namespace Cdec.Klm.Packed
open Cdec.Klm

/-- What was inserted, in this order. -/
def inserted : List Op → List Entry
  | [] => []
  | .insert w vals next :: ops => ⟨w, vals, next⟩ :: inserted ops
  | .other _ :: ops => inserted ops

/-- The pointers, with the end of the next table after them. -/
def pointers (es : List Entry) (nextEnd : Nat) : List Nat := es.map (·.next) ++ [nextEnd]

/-- How a table is written: its memory is zero at first; whatever else is done in between leaves it alone; there are not more entries than announced, and they fit; pointers do not decrease, and the last
one is the number of entries of the next table. -/
structure Written (t : Table) (ops : List Op) (nextEnd : Nat) (m0 : Mem) : Prop where
  table : t.Ok
  zero : ∀ x, t.base ≤ x → x < t.base + t.size → m0 x = 0#8
  others : ∀ f, Op.other f ∈ ops → ∀ m x, t.base ≤ x → x < t.base + t.size → f m x = m x
  entries : ∀ e ∈ inserted ops, e.Ok t
  room : (inserted ops).length ≤ t.entries
  sorted : (pointers (inserted ops) nextEnd).Pairwise (· ≤ ·)
  last : t.kind ≠ .longest → nextEnd = t.maxNext

theorem inserted_append (a b : List Op) : inserted (a ++ b) = inserted a ++ inserted b := by
  induction a with
  | nil => rfl
  | cons o a ih => cases o <;> simp [inserted, ih]

theorem inv_init {t : Table} {m0 : Mem} (hz : ∀ x, t.base ≤ x → x < t.base + t.size → m0 x = 0#8) : Inv t [] (init m0) := by
  refine ⟨rfl, fun i e h => by simp at h, fun i e h => by simp at h, ⟨fun i v h => by simp at h, fun b hb => ⟨?_, fun k h1 h2 => ?_⟩⟩, fun j h1 h2 => ?_⟩
  · simp [init]
  · simp only [init] at h2; omega
  · have h3 := t.start_le 0
    have h4 := t.at_end (Nat.le_refl (t.entries + 1))
    have h5 := t.start_eq
    have h6 : t.at ([] : List Entry).length = t.at 0 := rfl
    unfold bit
    show (m0 (j / 8)).getLsbD _ = false
    rw [hz _ (by omega) (by omega)]; simp

/-- The state after a part of the calls. -/
theorem inv_run {t : Table} {ne : Nat} {m0 : Mem} (ops1 : List Op) : ∀ (ops2 : List Op), Written t (ops1 ++ ops2) ne m0 → Inv t (inserted ops1) (ops1.foldl (step t) (init m0)) := by
  induction ops1 using List.reverseRecOn with
  | nil => intro ops2 h; exact inv_init h.zero
  | append_singleton ops o ih =>
    intro ops2 h
    have hi := ih (o :: ops2) (by rwa [List.append_assoc] at h)
    have hroom := h.room
    have hent := h.entries
    rw [inserted_append, List.length_append] at hroom
    rw [inserted_append] at hent
    rw [List.foldl_append, List.foldl_cons, List.foldl_nil]
    cases o with
    | insert w vals next =>
      rw [inserted_append] at hroom hent ⊢
      have e : inserted [Op.insert w vals next] = [⟨w, vals, next⟩] := rfl
      rw [e] at hroom hent ⊢
      rw [List.length_append, List.length_singleton] at hroom
      refine (hi.insert h.table (x := ⟨w, vals, next⟩) (by omega) (fun e he => hent e (List.mem_append_left _ he)) ?_).1
      have hs := h.sorted
      unfold pointers at hs
      rw [inserted_append, inserted_append, e, List.map_append, List.append_assoc] at hs
      exact (List.pairwise_append.mp hs).1
    | other f =>
      rw [inserted_append] at hroom hent ⊢
      have e : inserted [Op.other f] = [] := rfl
      rw [e, List.append_nil] at hroom hent ⊢
      refine hi.other (by omega) (fun e he => hent e (List.mem_append_left _ he)) fun j hj => bits_of_bytes ?_
      exact h.others f (by simp) _ _ (by have := hj.1; omega) (by have := hj.2; omega)

theorem written_spec {t : Table} {ops : List Op} {ne : Nat} {m0 : Mem} (h : Written t ops ne m0) :
    ∃ s, finish t (ops.foldl (step t) (init m0)) ne = some s ∧ Holds t (inserted ops) ne s.mem ∧ ∀ j, ¬ t.Inside j → bit s.mem j = bit (ops.foldl (step t) (init m0)).mem j :=
  finish_spec h.table (inv_run ops [] (by rwa [List.append_nil])) h.room h.entries h.sorted h.last

/-- C107.  For every kind of table, every number of bits, every place in memory and every sequence of insertions, with any other activity of the program in between and afterwards outside of the table:
`FinishedLoading` succeeds, the values of every entry can be read back at the address that `ReadEntry` returns for it, and the range that `ReadEntry` returns is that of the children of the entry. -/
theorem C107_entries (t : Table) (ops : List Op) (nextEnd : Nat) (m0 : Mem) (h : Written t ops nextEnd m0) :
    ∃ s, finish t (ops.foldl (step t) (init m0)) nextEnd = some s ∧ ∀ m : Mem, (∀ x, t.base ≤ x → x < t.base + t.size → m x = s.mem x) →
      ∀ (i : Nat) (e : Entry), (inserted ops)[i]? = some e →
        (∀ w ∈ e.vals, (shift (readEntry t m i).1 w).readBack m) ∧
        (t.kind ≠ .longest → ∃ n, (pointers (inserted ops) nextEnd)[i + 1]? = some n ∧ (readEntry t m i).2 = (e.next, n)) := by
  obtain ⟨s, h1, h2, _⟩ := written_spec h
  refine ⟨s, h1, fun m hm i e he => ?_⟩
  have hh := h2.congr h.room h.entries hm
  refine ⟨fun w hw => Write.readBack_of_bits m _ (shift_ok _ _ ((h.entries e (List.mem_of_getElem? he)).ok w hw)) (hh.vals i e he w hw), fun hk => ?_⟩
  have hi := (List.getElem?_eq_some_iff.mp he).1
  have e1 : (pointers (inserted ops) nextEnd)[i]? = some e.next := by
    unfold pointers; apply snoc_getElem?; rw [List.getElem?_map, he]; rfl
  have hlen : i + 1 < (pointers (inserted ops) nextEnd).length := by unfold pointers; simp; omega
  exact ⟨_, List.getElem?_eq_getElem hlen, hh.range h.table h.sorted h.last hk e1 (List.getElem?_eq_getElem hlen)⟩

/-- `Find`: in every range of entries with increasing words the search finds exactly the words that are there, and then returns the index of the entry and what `ReadEntry` returns for it. -/
theorem C107_find (t : Table) (ops : List Op) (nextEnd : Nat) (m0 : Mem) (h : Written t ops nextEnd m0) :
    ∃ s, finish t (ops.foldl (step t) (init m0)) nextEnd = some s ∧ ∀ m : Mem, (∀ x, t.base ≤ x → x < t.base + t.size → m x = s.mem x) →
      ∀ b e, e ≤ (inserted ops).length →
        (∀ (i j : Nat) (x y : Entry), b ≤ i → i < j → j < e → (inserted ops)[i]? = some x → (inserted ops)[j]? = some y → x.word < y.word) →
        ∀ w i r, find t m (inserted ops).length w b e = some (i, r) ↔ (b ≤ i ∧ i < e ∧ ∃ x, (inserted ops)[i]? = some x ∧ x.word = w) ∧ r = readEntry t m i := by
  obtain ⟨s, h1, h2, _⟩ := written_spec h
  refine ⟨s, h1, fun m hm b e he hs w i r => ?_⟩
  have hh := h2.congr h.room h.entries hm
  rw [← hh.find h.table h.entries he hs w i]
  unfold find
  rw [Option.map_eq_some_iff]
  constructor
  · rintro ⟨j, h3, h4⟩
    cases h4
    exact ⟨h3, rfl⟩
  · rintro ⟨h3, rfl⟩
    exact ⟨i, h3, rfl⟩

/-- Neither `Insert` and the writing of the values nor `FinishedLoading` change a byte outside of the `Size` bytes from the base of the table on. -/
theorem C107_frame (t : Table) (ops : List Op) (nextEnd : Nat) (m0 : Mem) (h : Written t ops nextEnd m0) (x : Nat) (hx : x < t.base ∨ t.base + t.size ≤ x) :
    (∀ before w vals next after, ops = before ++ .insert w vals next :: after →
      (insert t (before.foldl (step t) (init m0)) w vals next).mem x = (before.foldl (step t) (init m0)).mem x) ∧
    ∀ s, finish t (ops.foldl (step t) (init m0)) nextEnd = some s → s.mem x = (ops.foldl (step t) (init m0)).mem x := by
  have hout : ∀ j, 8 * x ≤ j → j < 8 * x + 8 → ¬ t.Inside j := by
    rintro j h1 h2 ⟨h3, h4⟩; omega
  constructor
  · intro before w vals next after e
    subst e
    have hi := inv_run before _ h
    have hroom := h.room
    have hent := h.entries
    have hs := h.sorted
    unfold pointers at hs
    have e : inserted (before ++ Op.insert w vals next :: after) = (inserted before ++ [⟨w, vals, next⟩]) ++ inserted after := by rw [inserted_append]; simp [inserted]
    rw [e] at hroom hent hs
    rw [List.length_append, List.length_append, List.length_singleton] at hroom
    rw [List.map_append, List.append_assoc] at hs
    have := (hi.insert h.table (x := ⟨w, vals, next⟩) (by omega) (fun e he => hent e (List.mem_append_left _ he)) (List.pairwise_append.mp hs).1).2
    exact byte_of_bits fun j h1 h2 => this j (hout j h1 h2)
  · intro s hs
    obtain ⟨s', h1, _, h3⟩ := written_spec h
    rw [h1] at hs
    cases hs
    exact byte_of_bits fun j h1 h2 => h3 j (hout j h1 h2)

/-- The header that `UpdateConfigFromBinary` reads (bhiksha.cc:19-26): version and bits of the table that was written. -/
theorem C107_header (t : Table) (ops : List Op) (nextEnd : Nat) (m0 : Mem) (h : Written t ops nextEnd m0) (bits : Nat) (hk : t.kind = .array bits) :
    ∃ s, finish t (ops.foldl (step t) (init m0)) nextEnd = some s ∧ (s.mem t.base).toNat = 0 ∧ (s.mem (t.base + 1)).toNat = bits := by
  obtain ⟨s, h1, h2, _⟩ := written_spec h
  obtain ⟨h3, h4⟩ := h2.header bits hk
  refine ⟨s, h1, by rw [h3]; rfl, ?_⟩
  rw [h4, BitVec.toNat_ofNat]
  exact Nat.mod_eq_of_lt (h.table.bits bits hk)

/-- Compressed pointers do not change what is found: the same insertions into a table with full pointers and into one with an array (of any number of bits, anywhere in memory) give the same index and the
same range of children, for every search. -/
theorem C107_compression (tp ta : Table) (hp : tp.kind = .plain) (bits : Nat) (ha : ta.kind = .array bits) (hv : tp.vocab = ta.vocab) (opsp opsa : List Op) (he : inserted opsp = inserted opsa)
    (nextEnd : Nat) (mp ma : Mem) (h1 : Written tp opsp nextEnd mp) (h2 : Written ta opsa nextEnd ma) :
    ∃ sp sa, finish tp (opsp.foldl (step tp) (init mp)) nextEnd = some sp ∧ finish ta (opsa.foldl (step ta) (init ma)) nextEnd = some sa ∧
      ∀ w b e, (find tp sp.mem (inserted opsp).length w b e).map (fun r => (r.1, r.2.2)) = (find ta sa.mem (inserted opsa).length w b e).map (fun r => (r.1, r.2.2)) := by
  obtain ⟨sp, a1, a2, _⟩ := written_spec h1
  obtain ⟨sa, b1, b2, _⟩ := written_spec h2
  refine ⟨sp, sa, a1, b1, fun w b e => ?_⟩
  have e1 : findIndex tp sp.mem (inserted opsp).length w b e = findIndex ta sa.mem (inserted opsa).length w b e := by
    unfold findIndex
    rw [a2.keys h1.table h1.entries, b2.keys h2.table h2.entries, he, hv]
  unfold find
  rw [e1, Option.map_map, Option.map_map]
  cases h : findIndex ta sa.mem (inserted opsa).length w b e with
  | none => rfl
  | some i =>
    have hi : i < (inserted opsa).length := by
      unfold findIndex at h
      split at h
      · rename_i p hp
        obtain ⟨c1, c2, c3⟩ := LM.boundedFind_sound _ _ _ _ _ _ _ hp
        have := (List.getElem?_eq_some_iff.mp c3).1
        simp only [List.length_cons, List.length_map, List.length_range] at this
        have : p - 1 = i := by simpa using h
        omega
      · cases h
    have hlen : i + 1 < (pointers (inserted opsa) nextEnd).length := by unfold pointers; simp; omega
    obtain ⟨u, g1⟩ : ∃ u, (pointers (inserted opsa) nextEnd)[i]? = some u := ⟨_, List.getElem?_eq_getElem (by omega)⟩
    obtain ⟨v, g2⟩ : ∃ v, (pointers (inserted opsa) nextEnd)[i + 1]? = some v := ⟨_, List.getElem?_eq_getElem hlen⟩
    have r2 := b2.range h2.table h2.sorted h2.last (by rw [ha]; simp) g1 g2
    rw [← he] at g1 g2
    have r1 := a2.range h1.table h1.sorted h1.last (by rw [hp]; simp) g1 g2
    simp only [Option.map_some, Function.comp]
    rw [r1, r2]

/-! ## The whole trie -/

/-- The tables of all orders hold a trie (C102): the words and pointers of its entries were inserted, and afterwards the memory of every table was left alone. -/
structure Stored {K : Type} (tr : LM.Trie K) (tabs : Nat → Table) (m : Mem) : Prop where
  vocab : ∀ n, 2 ≤ n → n ≤ tr.order → (tabs n).vocab = tr.vocab
  kind : ∀ n, 2 ≤ n → n < tr.order → (tabs n).kind ≠ .longest
  written : ∀ n, 2 ≤ n → n ≤ tr.order → ∃ ops m0 s, Written (tabs n) ops (tr.tab (n + 1)).length m0 ∧
    (inserted ops).map (fun e => (e.word, e.next)) = (tr.tab n).map (fun s => (s.word, s.next)) ∧
    finish (tabs n) (ops.foldl (step (tabs n)) (init m0)) (tr.tab (n + 1)).length = some s ∧
    ∀ x, (tabs n).base ≤ x → x < (tabs n).base + (tabs n).size → m x = s.mem x

theorem find_stored {K : Type} {tr : LM.Trie K} {tabs : Nat → Table} {m : Mem} (h : Stored tr tabs m) {n : Nat} (h1 : 2 ≤ n) (h2 : n ≤ tr.order) (w b e : Nat) :
    ∃ f : Nat → Nat × (Nat × Nat), find (tabs n) m (tr.tab n).length w b e = (LM.findSlot tr.vocab (tr.tab n) w b e).map (fun i => (i, f i)) ∧
      (n < tr.order → ∀ i, LM.findSlot tr.vocab (tr.tab n) w b e = some i → (f i).2 = (tr.next n i, tr.next n (i + 1))) ∧
      ∀ i, (f i).1 = (tabs n).start + i * (tabs n).totalBits + (tabs n).wordBits := by
  obtain ⟨ops, m0, s, hw, hm, hf, hmem⟩ := h.written n h1 h2
  obtain ⟨s', a1, a2, _⟩ := written_spec hw
  rw [hf] at a1
  cases a1
  have hh := a2.congr hw.room hw.entries hmem
  have hlen : (inserted ops).length = (tr.tab n).length := by simpa using congrArg List.length hm
  have hwords : (inserted ops).map (·.word) = (tr.tab n).map (·.word) := by
    have := congrArg (List.map Prod.fst) hm
    rw [List.map_map, List.map_map] at this
    exact this
  have hnexts : (inserted ops).map (·.next) = (tr.tab n).map (·.next) := by
    have := congrArg (List.map Prod.snd) hm
    rw [List.map_map, List.map_map] at this
    exact this
  have e1 : findIndex (tabs n) m (tr.tab n).length w b e = LM.findSlot tr.vocab (tr.tab n) w b e := by
    unfold findIndex LM.findSlot
    rw [← hlen, hh.keys hw.table hw.entries, hwords, h.vocab n h1 h2]
    rfl
  refine ⟨readEntry (tabs n) m, by unfold find; rw [e1], fun h3 i hi => ?_, fun i => rfl⟩
  have hilt : i < (tr.tab n).length := by
    unfold LM.findSlot at hi
    split at hi
    · rename_i p hp
      obtain ⟨c1, c2, c3⟩ := LM.boundedFind_sound _ _ _ _ _ _ _ hp
      have := (List.getElem?_eq_some_iff.mp c3).1
      simp only [List.length_cons, List.length_map] at this
      have : p - 1 = i := by simpa using hi
      omega
    · cases hi
  have hnext : ∀ j, j ≤ (tr.tab n).length → (pointers (inserted ops) (tr.tab (n + 1)).length)[j]? = some (tr.next n j) := by
    intro j hj
    unfold pointers LM.Trie.next
    rw [hnexts]
    rcases Nat.lt_or_eq_of_le hj with hj | rfl
    · rw [List.getElem?_append_left (by simpa using hj), List.getElem?_map, List.getElem?_eq_getElem hj]; rfl
    · rw [List.getElem?_eq_none (l := tr.tab n) (Nat.le_refl _)]
      have := List.getElem?_concat_length (l := (tr.tab n).map (·.next)) (a := (tr.tab (n + 1)).length)
      rwa [List.length_map] at this
  exact hh.range hw.table hw.sorted hw.last (h.kind n h1 h3) (hnext i (by omega)) (hnext (i + 1) (by omega))

/-- Looking up words below a node in the packed tables finds the entry that the trie of C102 finds, and no other; the address of its values is the one at which they were written. -/
theorem C107_trie {K : Type} (tr : LM.Trie K) (tabs : Nat → Table) (m : Mem) (h : Stored tr tabs m) (ws : List Nat) : ∀ (n : Nat) (r : Nat × Nat), 2 ≤ n → n + ws.length ≤ tr.order + 1 →
    descend tabs (fun n => (tr.tab n).length) m n r ws =
      (tr.descend n r ws).map (fun i => (i, (tabs (n + ws.length - 1)).start + i * (tabs (n + ws.length - 1)).totalBits + (tabs (n + ws.length - 1)).wordBits)) := by
  induction ws with
  | nil => intro n r _ _; rfl
  | cons w ws ih =>
    intro n r h1 h2
    rw [List.length_cons] at h2
    obtain ⟨f, e1, e2, e3⟩ := find_stored h h1 (by omega) w r.1 r.2
    cases ws with
    | nil =>
      show ((find _ _ _ _ _ _).map _) = _
      rw [e1, Option.map_map]
      show _ = (LM.findSlot _ _ _ _ _).map _
      congr 1
      funext i
      simp only [Function.comp, e3]
      rfl
    | cons x ws =>
      rw [List.length_cons] at h2
      unfold descend LM.Trie.descend
      rw [e1]
      cases hs : LM.findSlot tr.vocab (tr.tab n) w r.1 r.2 with
      | none => rfl
      | some i =>
        dsimp only [Option.map_some]
        rw [e2 (by omega) i hs, ih (n + 1) _ (by omega) (by rw [List.length_cons]; omega)]
        have : n + 1 + (x :: ws).length - 1 = n + (w :: x :: ws).length - 1 := by simp only [List.length_cons]; omega
        rw [this]

/-! ## The choice of the number of bits -/

/-- The bits that pointers and array take when `chop` bits of every pointer go into the array. -/
def spent (maxOffset maxNext chop : Nat) : Nat := 64 * (maxNext / 2 ^ (requiredBits maxNext - chop)) + maxOffset * (requiredBits maxNext - chop)

theorem change_eq {a b c : Nat} (ha : a < 2 ^ 57) (hbc : b * c < 2 ^ 63) : (BitVec.ofNat 64 a * 64#64 - BitVec.ofNat 64 b * BitVec.ofNat 64 c).toInt = (64 * a : Int) - b * c := by
  have e : BitVec.ofNat 64 a * 64#64 - BitVec.ofNat 64 b * BitVec.ofNat 64 c = BitVec.ofInt 64 ((64 * a : Int) - b * c) := by
    apply BitVec.eq_of_toInt_eq
    rw [BitVec.toInt_sub, BitVec.toInt_mul, BitVec.toInt_mul, BitVec.toInt_ofInt, ← BitVec.ofInt_natCast 64 a, ← BitVec.ofInt_natCast 64 b, ← BitVec.ofInt_natCast 64 c, BitVec.toInt_ofInt, BitVec.toInt_ofInt, BitVec.toInt_ofInt]
    simp [Int.mul_comm]
  have hb : (b : Int) * c < 2 ^ 63 := by exact_mod_cast hbc
  have hb0 : (0 : Int) ≤ (b : Int) * c := by positivity
  rw [e, BitVec.toInt_ofInt]
  apply Int.bmod_eq_of_le <;> omega

theorem chopLoop_min (req mo mn : Nat) (f : Nat → Int) : ∀ (l : List Nat) (best : Nat × Int),
    (∀ c ∈ l, (BitVec.ofNat 64 (mn >>> (req - c)) * 64#64 - BitVec.ofNat 64 mo * BitVec.ofNat 64 c).toInt = f c) →
    (chopLoop req mo mn l best).2 ≤ best.2 ∧ (∀ c ∈ l, (chopLoop req mo mn l best).2 ≤ f c) ∧
      (chopLoop req mo mn l best = best ∨ (chopLoop req mo mn l best).1 ∈ l ∧ (chopLoop req mo mn l best).2 = f (chopLoop req mo mn l best).1)
  | [], best, _ => ⟨Int.le_refl _, fun c hc => (by cases hc), .inl rfl⟩
  | c :: l, best, h => by
    have hc := h c List.mem_cons_self
    have ih := chopLoop_min req mo mn f l (if f c < best.2 then (c, f c) else best) fun c hc => h c (List.mem_cons_of_mem _ hc)
    unfold chopLoop
    dsimp only
    rw [hc]
    obtain ⟨h1, h2, h3⟩ := ih
    by_cases hlt : f c < best.2
    · rw [if_pos hlt] at h1 h2 h3 ⊢
      refine ⟨by simp only at h1; omega, fun x hx => ?_, .inr ?_⟩
      · rcases List.mem_cons.mp hx with rfl | hx
        · exact h1
        · exact h2 x hx
      · rcases h3 with h3 | h3
        · rw [h3]; exact ⟨List.mem_cons_self, rfl⟩
        · exact ⟨List.mem_cons_of_mem _ h3.1, h3.2⟩
    · rw [if_neg hlt] at h1 h2 h3 ⊢
      refine ⟨h1, fun x hx => ?_, ?_⟩
      · rcases List.mem_cons.mp hx with rfl | hx
        · omega
        · exact h2 x hx
      · rcases h3 with h3 | h3
        · exact .inl h3
        · exact .inr ⟨List.mem_cons_of_mem _ h3.1, h3.2⟩

/-- The number of bits that is moved into the array is at most what the configuration allows, and no allowed number takes less memory; in particular an array takes no more than full pointers. -/
theorem C107_smallest (maxOffset maxNext bits : Nat) (ho : maxOffset ≤ 2 ^ 57) (hn : maxNext < 2 ^ 57) :
    chopBits maxOffset maxNext bits ≤ min (requiredBits maxNext) bits ∧
      (∀ chop, chop ≤ min (requiredBits maxNext) bits → spent maxOffset maxNext (chopBits maxOffset maxNext bits) ≤ spent maxOffset maxNext chop) ∧
      spent maxOffset maxNext (chopBits maxOffset maxNext bits) ≤ maxOffset * requiredBits maxNext := by
  have hreq := required_le hn
  have hcost : ∀ c ∈ List.range (min (requiredBits maxNext) bits + 1),
      (BitVec.ofNat 64 (maxNext >>> (requiredBits maxNext - c)) * 64#64 - BitVec.ofNat 64 maxOffset * BitVec.ofNat 64 c).toInt = (spent maxOffset maxNext c : Int) - maxOffset * requiredBits maxNext := by
    intro c hc
    have hc' : c ≤ requiredBits maxNext := by have := List.mem_range.mp hc; omega
    rw [change_eq]
    · have e : ((maxOffset * (requiredBits maxNext - c) : Nat) : Int) = (maxOffset : Int) * requiredBits maxNext - maxOffset * c := by
        rw [Nat.cast_mul, Nat.cast_sub hc']; exact Int.mul_sub _ _ _
      unfold spent
      rw [Nat.cast_add, e, Nat.shiftRight_eq_div_pow]
      push_cast
      omega
    · rw [Nat.shiftRight_eq_div_pow]
      exact Nat.lt_of_le_of_lt (Nat.div_le_self _ _) hn
    · calc maxOffset * c ≤ 2 ^ 57 * 57 := Nat.mul_le_mul ho (by omega)
        _ < 2 ^ 63 := by norm_num
  obtain ⟨h1, h2, h3⟩ := chopLoop_min (requiredBits maxNext) maxOffset maxNext _ _ (0, 2 ^ 63 - 1) hcost
  have h0 : spent maxOffset maxNext 0 = maxOffset * requiredBits maxNext := by
    unfold spent
    rw [Nat.sub_zero, Nat.div_eq_of_lt (lt_required maxNext)]; omega
  have hz := h2 0 (List.mem_range.mpr (by omega))
  rw [h0] at hz
  have hz' : (chopLoop (requiredBits maxNext) maxOffset maxNext (List.range (min (requiredBits maxNext) bits + 1)) (0, 2 ^ 63 - 1)).2 ≤ 0 := by
    have e : ((maxOffset * requiredBits maxNext : Nat) : Int) - maxOffset * requiredBits maxNext = 0 := by push_cast; exact Int.sub_self _
    rw [e] at hz; exact hz
  rcases h3 with h3 | ⟨h3, h4⟩
  · rw [h3] at hz'; norm_num at hz'
  · have hm : chopBits maxOffset maxNext bits ≤ min (requiredBits maxNext) bits := by
      have := List.mem_range.mp h3; unfold chopBits; omega
    have hle : ∀ chop, chop ≤ min (requiredBits maxNext) bits → spent maxOffset maxNext (chopBits maxOffset maxNext bits) ≤ spent maxOffset maxNext chop := by
      intro chop hc
      have := h2 chop (List.mem_range.mpr (by omega))
      rw [h4] at this
      unfold chopBits
      omega
    exact ⟨hm, hle, h0 ▸ hle 0 (Nat.zero_le _)⟩

/-! ## An example -/

/-- A table for up to 100 entries at an odd address, with 31 and 32 bits of values, words below 8 and pointers up to 3; one bit of every pointer goes into the array. -/
def sampleTable : Table := ⟨.array 10, 19, 63, 100, 7, 3⟩

/-- Three entries; somebody else writes before and after the table. -/
def sampleOps : List Op :=
  [.insert 2 [.float31 0 0xbf800000#32, .float32 31 0x3f000000#32] 0, .other (fun m x => if x = 18 ∨ x = 5000 then m x + 1 else m x),
    .insert 5 [.float31 0 0xc0000000#32, .float32 31 0#32] 1, .insert 7 [.float31 0 0x80000000#32, .float32 31 0#32] 3]

theorem sample_written : Written sampleTable sampleOps 3 (fun _ => 0#8) where
  table := ⟨by decide, by decide, by decide, by intro b hb; cases hb; decide⟩
  zero := fun _ _ _ => rfl
  others := by
    intro f hf m x h1 h2
    have hs : sampleTable.base = 19 ∧ sampleTable.size ≤ 1000 := by decide +kernel
    have : f = fun m x => if x = 18 ∨ x = 5000 then m x + 1 else m x := by simpa [sampleOps] using hf
    subst this
    exact if_neg (by omega)
  entries := by
    intro e he
    simp only [sampleOps, inserted, List.mem_cons, List.not_mem_nil, or_false] at he
    rcases he with rfl | rfl | rfl <;>
      exact ⟨by decide, by simp [Write.ok], by simp [Write.disj, Write.off, Write.len], by simp [Write.off, Write.len, sampleTable], fun _ => by decide⟩
  room := by decide
  sorted := by decide
  last := fun _ => rfl

/-- Half of each pointer is in the array; the second entry has the children 1 and 2; a word that was not inserted is not found. -/
example : sampleTable.inlineBits = 1 ∧ sampleTable.count = 2 ∧
    ∃ s, finish sampleTable (sampleOps.foldl (step sampleTable) (init fun _ => 0#8)) 3 = some s ∧ (readEntry sampleTable s.mem 1).2 = (1, 3) ∧
      (find sampleTable s.mem 3 5 0 3 = some (1, readEntry sampleTable s.mem 1)) ∧ find sampleTable s.mem 3 4 0 3 = none := by
  refine ⟨by decide +kernel, by decide +kernel, ?_⟩
  obtain ⟨s, h1, h2⟩ := C107_entries _ _ _ _ sample_written
  obtain ⟨s', h3, h4⟩ := C107_find _ _ _ _ sample_written
  rw [h1] at h3
  cases h3
  have hinc : ∀ (i j : Nat) (x y : Entry), 0 ≤ i → i < j → j < 3 → (inserted sampleOps)[i]? = some x → (inserted sampleOps)[j]? = some y → x.word < y.word := by
    intro i j x y _ hij hj hx hy
    have h : (i = 0 ∧ j = 1) ∨ (i = 0 ∧ j = 2) ∨ (i = 1 ∧ j = 2) := by omega
    rcases h with ⟨rfl, rfl⟩ | ⟨rfl, rfl⟩ | ⟨rfl, rfl⟩ <;> (cases hx; cases hy; decide)
  have hf := h4 s.mem (fun _ _ _ => rfl) 0 3 (by decide) hinc
  refine ⟨s, h1, ?_, ?_, ?_⟩
  · obtain ⟨n, e1, e2⟩ := (h2 s.mem (fun _ _ _ => rfl) 1 _ rfl).2 (by decide)
    rw [e2]; cases e1; rfl
  · exact (hf 5 1 _).2 ⟨⟨by decide, by decide, _, rfl, rfl⟩, rfl⟩
  · cases h : find sampleTable s.mem 3 4 0 3 with
    | none => rfl
    | some r =>
      obtain ⟨⟨_, h5, x, h6, h7⟩, _⟩ := (hf 4 r.1 r.2).1 h
      have : r.1 = 0 ∨ r.1 = 1 ∨ r.1 = 2 := by omega
      rcases this with e | e | e <;> (rw [e] at h6; cases h6; exact absurd h7 (by decide))

end Cdec.Klm.Packed
