import Verif.Klm.VocabLoad
/-!
# Lemmas about the hashed vocabulary
-/
namespace Cdec.Klm.Vocab

/-- The table holds the words `K` with their numbers. -/
structure Good (h : Word → Nat) (s : Probing) (K : List Word) : Prop where
  rep : ∃ m, Rep 0 id s.lookup.t m ∧ (∀ (k : Nat) (w : Word), K[k]? = some w → m (h w) = some (k + 1)) ∧
    ∀ x, x ∉ K.map h → m x = none
  entries : s.lookup.entries = K.length
  used : used 0 s.lookup.t = K.length
  bound : s.bound = K.length + 1
  junk : ∀ e ∈ s.lookup.t, e.1 = 0 → e.2 = 0
  out : s.enumerate = true → s.out = (0, unk) :: numbered 1 K

theorem numbered_append (i : Nat) (ws : List Word) (w : Word) : numbered i (ws ++ [w]) = numbered i ws ++ [(i + ws.length, w)] := by
  induction ws generalizing i with
  | nil => rfl
  | cons v ws ih => simp only [List.cons_append, numbered, ih, List.length_cons]; congr 4; omega

theorem uncheckedInsert_junk {t t' : List (Nat × Nat)} {x : Nat × Nat} (hx : x.1 ≠ 0) (h : uncheckedInsert 0 id t x = some t')
    (hj : ∀ e ∈ t, e.1 = 0 → e.2 = 0) : ∀ e ∈ t', e.1 = 0 → e.2 = 0 := by
  unfold uncheckedInsert at h
  obtain ⟨i, _, rfl⟩ := Option.map_eq_some_iff.mp h
  intro e he h0
  rcases List.mem_or_eq_of_mem_set he with he | rfl
  · exact hj e he h0
  · exact absurd h0 hx

theorem good_insert {h : Word → Nat} {s : Probing} {K : List Word} (g : Good h s K) (w : Word) (hu : ¬ (h w = h unk ∨ h w = h unkCap))
    (h0 : h w ≠ 0) (hn : h w ∉ K.map h) (hr : K.length + 1 < s.lookup.t.length) :
    ∃ s', s.insert h w = .ok (K.length + 1, s') ∧ Good h s' (K ++ [w]) ∧ s'.lookup.t.length = s.lookup.t.length ∧
      s'.sawUnk = s.sawUnk ∧ s'.enumerate = s.enumerate := by
  obtain ⟨m, r1, r2, r3⟩ := g.rep
  obtain ⟨t', a1, a2, a3, a4⟩ := rep_uncheckedInsert r1 (by rw [g.used]; omega) (h w) s.bound h0 (r3 _ hn)
  unfold Probing.insert
  rw [if_neg hu]
  have hi : s.lookup.insert 0 id (h w, s.bound) = .ok ⟨t', s.lookup.entries + 1⟩ := by
    unfold Table.insert
    rw [if_neg (by rw [g.entries]; omega), a1]
  rw [hi]
  refine ⟨{ s with lookup := ⟨t', s.lookup.entries + 1⟩, bound := s.bound + 1, out := if s.enumerate then s.out ++ [(s.bound, w)] else s.out },
    by rw [g.bound], ⟨⟨_, a2, ?_, ?_⟩, ?_, ?_, ?_, uncheckedInsert_junk h0 a1 g.junk, ?_⟩, a4, rfl, rfl⟩
  · intro k v hk
    by_cases hv : h v = h w
    · rw [hv, Function.update_self, g.bound]
      by_cases hkl : k < K.length
      · rw [List.getElem?_append_left hkl] at hk
        exact absurd (List.mem_map.mpr ⟨v, List.mem_of_getElem? hk, hv⟩) hn
      · have := (List.getElem?_eq_some_iff.mp hk).1
        simp only [List.length_append, List.length_singleton] at this
        congr 2; omega
    · rw [Function.update_of_ne hv]
      by_cases hkl : k < K.length
      · rw [List.getElem?_append_left hkl] at hk
        exact r2 k v hk
      · rw [List.getElem?_append_right (by omega)] at hk
        have : k - K.length = 0 := by
          have := (List.getElem?_eq_some_iff.mp hk).1
          simp at this; omega
        rw [this] at hk
        simp at hk
        exact absurd (by rw [hk]) hv
  · intro x hx
    simp only [List.map_append, List.map_cons, List.map_nil, List.mem_append, List.mem_singleton, not_or] at hx
    rw [Function.update_of_ne hx.2]
    exact r3 x hx.1
  · simp only [g.entries, List.length_append, List.length_singleton]
  · simp only [a3, g.used, List.length_append, List.length_singleton]
  · simp only [g.bound, List.length_append, List.length_singleton]
  · intro he
    simp only at he ⊢
    rw [if_pos he, g.out he, numbered_append, g.bound, List.cons_append, Nat.add_comm 1]

theorem insertAll_probing {h : Word → Nat} {S : Word → Prop} (ws : List Word) (hd : Distinguishes h ws S)
    (h0 : ∀ w, Known ws w → h w ≠ 0) (K : List Word) (s : Probing) (g : Good h s K)
    (hn : ((K ++ ws.filter isKnown).map h).Nodup) (hr : K.length + known ws < s.lookup.t.length) :
    ∃ s', s.insertAll h ws = .ok (idsFrom K.length ws, s') ∧ Good h s' (K ++ ws.filter isKnown) ∧
      s'.lookup.t.length = s.lookup.t.length ∧ s'.enumerate = s.enumerate ∧
      s'.sawUnk = (s.sawUnk || ws.any (fun w => !isKnown w)) := by
  induction ws generalizing s K with
  | nil => exact ⟨s, rfl, by simpa using g, rfl, rfl, by simp⟩
  | cons w ws ih =>
    have hu := hash_unk hd (w := w) (by simp)
    rw [Probing.insertAll]
    by_cases hk : isKnown w = true
    · have hl : known (w :: ws) = known ws + 1 := by
        show ((w :: ws).filter isKnown).length = _
        rw [List.filter_cons_of_pos hk]; rfl
      rw [List.filter_cons_of_pos hk] at hn
      obtain ⟨s1, a1, a2, a3, a4, a5⟩ := good_insert g w (by rw [hu, hk]; simp) (h0 w ⟨by simp, by simpa [isKnown] using hk⟩)
        (by
          rw [List.map_append, List.nodup_append] at hn
          intro hm
          exact hn.2.2 _ hm (h w) (by simp) rfl) (by omega)
      obtain ⟨s2, b1, b2, b3, b4, b5⟩ := ih hd.tail (fun v hv => h0 v ⟨by simp [hv.1], hv.2⟩) (K ++ [w]) s1 a2 (by simpa using hn)
        (by simp only [List.length_append, List.length_singleton]; omega)
      refine ⟨s2, ?_, by simpa [List.filter_cons_of_pos hk] using b2, by omega, b4.trans a5, ?_⟩
      · rw [a1]
        simp only
        rw [b1]
        simp only [idsFrom, hk, if_true, List.length_append, List.length_singleton]
      · rw [b5, a4]; simp only [List.any_cons, hk, Bool.not_true, Bool.false_or]
    · have hk' : isKnown w = false := by simpa using hk
      have hl : known (w :: ws) = known ws := by
        show ((w :: ws).filter isKnown).length = _
        rw [List.filter_cons_of_neg hk]; rfl
      rw [List.filter_cons_of_neg hk] at hn
      obtain ⟨s2, b1, b2, b3, b4, b5⟩ := ih hd.tail (fun v hv => h0 v ⟨by simp [hv.1], hv.2⟩) K { s with sawUnk := true }
        ⟨g.rep, g.entries, g.used, g.bound, g.junk, g.out⟩ hn (by simp only; omega)
      refine ⟨s2, ?_, by simpa [List.filter_cons_of_neg hk] using b2, b3, b4, ?_⟩
      · rw [Probing.insert, if_pos (by rw [hu, hk'])]
        simp only
        rw [b1]
        simp only [idsFrom, hk', if_neg Bool.false_ne_true]
      · rw [b5]; simp only [List.any_cons, hk', Bool.not_false, Bool.true_or, Bool.or_true]

theorem find_invalid {t : List (Nat × Nat)} (hf : used 0 t < t.length) : ∃ (p : Nat) (e : Nat × Nat), find 0 id t 0 = some (some p) ∧ t[p]? = some e ∧ e.1 = 0 := by
  have hN : 0 < t.length := by omega
  obtain ⟨p, hp, hfp⟩ := exists_free hf
  obtain ⟨df, hdf, hd⟩ := reach t.length (id 0 % t.length) p (Nat.mod_lt _ hN) hp
  obtain ⟨d, hle, h1, h2⟩ := least (fun d => free 0 t ((id 0 % t.length + d) % t.length)) df (by simp only [hd]; exact hfp)
  obtain ⟨e, he, he0⟩ := h1
  refine ⟨_, e, ?_, he, he0⟩
  unfold find
  apply probe_spec t.length _ d t.length _ _ (Nat.mod_lt _ hN) (by omega)
  · rw [he]; simp [he0]
  · intro c hc
    have hq := Nat.mod_lt (id 0 % t.length + c) hN
    rcases occ_or_free 0 t _ hq with ⟨e', h3, h4⟩ | h3
    · simp only [h3, h4, if_false]
    · exact absurd h3 (h2 c hc)

theorem good_index {h : Word → Nat} {s : Probing} {K : List Word} (g : Good h s K) (hr : K.length < s.lookup.t.length)
    (h0 : ∀ w ∈ K, h w ≠ 0) :
    (∀ (k : Nat) (w : Word), K[k]? = some w → s.index h w = some (k + 1)) ∧ ∀ w, h w ∉ K.map h → s.index h w = some 0 := by
  obtain ⟨m, r1, r2, r3⟩ := g.rep
  have hf : used 0 s.lookup.t < s.lookup.t.length := by rw [g.used]; exact hr
  refine ⟨fun k w hk => ?_, fun w hw => ?_⟩
  · obtain ⟨p, hp, hp'⟩ := (find_spec r1 hf (h w) (h0 w (List.mem_of_getElem? hk))).1 _ (r2 k w hk)
    unfold Probing.index
    rw [hp]
    simp only [hp', Option.map_some]
  · by_cases hz : h w = 0
    · obtain ⟨p, e, h1, h2, h3⟩ := find_invalid hf
      unfold Probing.index
      rw [hz, h1]
      simp only [h2, Option.map_some, g.junk e (List.mem_of_getElem? h2) h3]
    · unfold Probing.index
      rw [(find_spec r1 hf (h w) hz).2 (r3 _ hw)]

theorem good_setup (h : Word → Nat) (enumerate : Bool) (N : Nat) : Good h (Probing.setup enumerate N) [] := by
  refine ⟨⟨fun _ => none, rep_empty 0 id 0 N, by simp, by simp⟩, rfl, ?_, rfl, ?_, ?_⟩
  · show used 0 (List.replicate N ((0 : Nat), (0 : Nat))) = 0
    unfold used
    rw [List.countP_eq_zero]
    intro e he
    rw [(List.mem_replicate.mp he).2]; simp [valid]
  · intro e he _
    rw [(List.mem_replicate.mp he).2]
  · intro he
    simp only [Probing.setup] at he ⊢
    rw [if_pos he]; rfl

end Cdec.Klm.Vocab
