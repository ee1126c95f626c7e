import Verif.Train.CandidatesSpec
import Verif.Util.WeightsLemmas
import Mathlib.Data.List.Nodup
import Mathlib.Data.List.Perm.Subperm
import Mathlib.Tactic.SplitIfs
import Mathlib.Tactic.Tauto
/-!
# Lemmas about sets of candidates
-/
namespace Cdec.Train.Candidates

/-! ## Comparison -/

theorem round_noNan {x : Nat} (hb : x < 2 ^ 64) (hn : x % 2 ^ 63 ≤ 2047 * 2 ^ 52) : isNan (round x) = false := by
  unfold isNan round
  simp only [decide_eq_false_iff_not]
  split_ifs <;> omega

theorem feq_close {a b : Nat} (ha : a < 2 ^ 64) (hb : b < 2 ^ 64) (hna : a % 2 ^ 63 ≤ 2047 * 2 ^ 52) (hnb : b % 2 ^ 63 ≤ 2047 * 2 ^ 52)
    (h : feq (round a) (round b) = true) : Close a b := by
  unfold feq at h
  simp only [Bool.and_eq_true, Bool.or_eq_true, decide_eq_true_eq] at h
  obtain ⟨_, h⟩ := h
  unfold Close
  rcases h with h | ⟨h1, h2⟩
  · left
    unfold round at h
    simp only at h
    split_ifs at h <;> constructor <;> omega
  · right
    unfold round at h1 h2
    simp only at h1 h2
    split_ifs at h1 h2 <;> constructor <;> omega

theorem feq_refl {a : Nat} (h : isNan a = false) : feq a a = true := by simp [feq, h]

theorem feq_trans {a b c : Nat} (h1 : feq a b = true) (h2 : feq b c = true) : feq a c = true := by
  unfold feq at *
  simp only [Bool.and_eq_true, Bool.or_eq_true, decide_eq_true_eq, Bool.not_eq_true'] at *
  obtain ⟨⟨ha, hb⟩, h1⟩ := h1
  obtain ⟨⟨_, hc⟩, h2⟩ := h2
  refine ⟨⟨ha, hc⟩, ?_⟩
  omega

/-- Well-formed values. -/
def Fine (l : List (Nat × Nat)) : Prop := ∀ x ∈ l, x.2 < 2 ^ 64 ∧ x.2 % 2 ^ 63 ≤ 2047 * 2 ^ 52

theorem approxEquals_refl {l : List (Nat × Nat)} (h : Fine l) : approxEquals l l = true := by
  induction l with
  | nil => rfl
  | cons x l ih =>
    have hx := h x (by simp)
    rw [approxEquals, feq_refl (round_noNan hx.1 hx.2), if_neg (by simp), ih fun y hy => h y (by simp [hy])]

theorem approxEquals_trans {a b c : List (Nat × Nat)} (h1 : approxEquals a b = true) (h2 : approxEquals b c = true) :
    approxEquals a c = true := by
  induction a generalizing b c with
  | nil =>
    cases b with
    | nil => exact h2
    | cons y b => simp [approxEquals] at h1
  | cons x a ih =>
    cases b with
    | nil => simp [approxEquals] at h1
    | cons y b =>
      cases c with
      | nil => simp [approxEquals] at h2
      | cons z c =>
        rw [approxEquals] at *
        split at h1
        · cases h1
        · split at h2
          · cases h2
          · rename_i g1 g2
            simp only [not_or, not_not, Bool.not_eq_false] at g1 g2
            rw [if_neg (by
              simp only [not_or, not_not, Bool.not_eq_false]
              exact ⟨g1.1.trans g2.1, feq_trans g1.2 g2.2⟩)]
            exact ih h1 h2

theorem approxEquals_close {a b : List (Nat × Nat)} (ha : Fine a) (hb : Fine b) (h : approxEquals a b = true) :
    List.Forall₂ (fun x y => x.1 = y.1 ∧ Close x.2 y.2) a b := by
  induction a generalizing b with
  | nil =>
    cases b with
    | nil => exact List.Forall₂.nil
    | cons y b => simp [approxEquals] at h
  | cons x a ih =>
    cases b with
    | nil => simp [approxEquals] at h
    | cons y b =>
      rw [approxEquals] at h
      split at h
      · cases h
      · rename_i g
        simp only [not_or, not_not, Bool.not_eq_false] at g
        have hx := ha x (by simp)
        have hy := hb y (by simp)
        exact List.Forall₂.cons ⟨g.1, feq_close hx.1 hy.1 hx.2 hy.2 g.2⟩
          (ih (fun z hz => ha z (by simp [hz])) (fun z hz => hb z (by simp [hz])) h)

theorem same_trans {a b c : Cand} (h1 : same a b = true) (h2 : same b c = true) : same a c = true := by
  unfold same at *
  simp only [Bool.and_eq_true, decide_eq_true_eq] at *
  exact ⟨h1.1.trans h2.1, approxEquals_trans h1.2 h2.2⟩

theorem same_refl {a : Cand} (h : Fine a.feats) : same a a = true := by
  unfold same
  rw [approxEquals_refl h]; simp

/-! ## Removing duplicates -/

/-- What is compared. -/
abbrev key (c : Cand) : List Nat × List (Nat × Nat) := (c.words, c.feats)

theorem same_key {a b c : Cand} (h : key a = key b) : same a c = same b c := by
  unfold same
  obtain ⟨h1, h2⟩ := Prod.mk.inj h
  rw [h1, h2]

theorem same_key_right {a b c : Cand} (h : key a = key b) : same c a = same c b := by
  unfold same
  obtain ⟨h1, h2⟩ := Prod.mk.inj h
  rw [h1, h2]

theorem hash_key (combine : Nat → Nat → Nat) {a b : Cand} (h : key a = key b) : hash combine a = hash combine b := by
  unfold hash
  obtain ⟨h1, h2⟩ := Prod.mk.inj h
  rw [h1, h2]

theorem insert_all (combine : Nat → Nat → Nat) (l u : List Cand) (hl : ∀ c ∈ l, Fine c.feats) (hu : (u.map key).Nodup) :
    ((l.foldl (insert combine) u).map key).Nodup ∧ (l.foldl (insert combine) u).Sublist (u ++ l) ∧
    (∀ x ∈ u, x ∈ l.foldl (insert combine) u) ∧ ∀ x ∈ l, ∃ y ∈ l.foldl (insert combine) u, same x y = true := by
  induction l generalizing u with
  | nil => exact ⟨hu, by simp, fun x hx => hx, by simp⟩
  | cons c l ih =>
    have hc := hl c (by simp)
    rw [List.foldl_cons]
    have hl' : ∀ d ∈ l, Fine d.feats := fun d hd => hl d (by simp [hd])
    by_cases ha : u.any (fun y => decide (hash combine y = hash combine c) && same c y) = true
    · have e : insert combine u c = u := by unfold insert; rw [if_pos ha]
      rw [e]
      obtain ⟨h1, h2, h3, h4⟩ := ih u hl' hu
      refine ⟨h1, h2.trans ((List.sublist_cons_self c l).append_left u), h3, fun x hx => ?_⟩
      rcases List.mem_cons.mp hx with rfl | hx
      · obtain ⟨y, hy, hys⟩ := List.any_eq_true.mp ha
        simp only [Bool.and_eq_true] at hys
        exact ⟨y, h3 y hy, hys.2⟩
      · exact h4 x hx
    · have e : insert combine u c = u ++ [c] := by unfold insert; rw [if_neg ha]
      rw [e]
      have hnot : key c ∉ u.map key := by
        intro hm
        obtain ⟨y, hy, hyk⟩ := List.mem_map.mp hm
        refine ha (List.any_eq_true.mpr ⟨y, hy, ?_⟩)
        simp only [Bool.and_eq_true, decide_eq_true_eq]
        exact ⟨hash_key combine hyk, by rw [same_key_right hyk]; exact same_refl hc⟩
      obtain ⟨h1, h2, h3, h4⟩ := ih (u ++ [c]) hl' (by
        rw [List.map_append, List.map_singleton]
        exact List.nodup_append.mpr ⟨hu, by simp, fun a ha b hb hab => hnot (by
          rw [List.mem_singleton] at hb; rw [← hb, ← hab]; exact ha)⟩)
      refine ⟨h1, by simpa using h2, fun x hx => h3 x (by simp [hx]), fun x hx => ?_⟩
      rcases List.mem_cons.mp hx with rfl | hx
      · exact ⟨x, h3 x (by simp), same_refl hc⟩
      · exact h4 x hx

theorem dedup_spec (combine : Nat → Nat → Nat) (order : List Cand → List Cand) (ho : ∀ l, (order l).Perm l) (cs : List Cand)
    (hc : ∀ c ∈ cs, Fine c.feats) :
    ((dedup combine order cs).map key).Nodup ∧ (dedup combine order cs).Subperm cs ∧
    ∀ x ∈ cs, ∃ y ∈ dedup combine order cs, same x y = true := by
  obtain ⟨h1, h2, _, h4⟩ := insert_all combine cs.reverse [] (fun c hc' => hc c (by simpa using hc')) (by simp)
  have hp : (dedup combine order cs).Perm (cs.reverse.foldl (insert combine) []) := ho _
  refine ⟨(hp.map key).nodup_iff.mpr h1, ?_, fun x hx => ?_⟩
  · exact hp.subperm.trans ((by simpa using h2 : List.Sublist _ cs.reverse).subperm.trans (List.reverse_perm cs).subperm)
  · obtain ⟨y, hy, hs⟩ := h4 x (by simpa using hx)
    exact ⟨y, hp.mem_iff.mpr hy, hs⟩

/-! ## Files -/

theorem join_noNl {sep : UInt8} {l : List Str} (h10 : sep ≠ 10) (h : ∀ x ∈ l, 10 ∉ x) : 10 ∉ join sep l := by
  induction l with
  | nil => simp [join]
  | cons x l ih =>
    cases l with
    | nil => simpa [join] using h x (by simp)
    | cons y l =>
      rw [join]
      · simp only [List.mem_append, List.mem_cons, not_or]
        exact ⟨h x (by simp), fun he => h10 he.symm, ih fun z hz => h z (by simp [hz])⟩
      · simp

theorem tokens_word {w : Str} (h32 : 32 ∉ w) (h9 : 9 ∉ w) (cur rest : Str) : tokens cur (w ++ rest) = tokens (cur ++ w) rest := by
  induction w generalizing cur with
  | nil => simp
  | cons c w ih =>
    simp only [List.mem_cons, not_or] at h32 h9
    rw [List.cons_append, tokens, if_neg (by simp only [not_or]; exact ⟨fun e => h32.1 e.symm, fun e => h9.1 e.symm⟩), ih h32.2 h9.2]
    simp

theorem tokens_join {l : List Str} (h : ∀ x ∈ l, x ≠ [] ∧ 32 ∉ x ∧ 9 ∉ x) : tokens [] (join 32 l) = l := by
  induction l with
  | nil => simp [join, tokens]
  | cons x l ih =>
    have hx := h x (by simp)
    cases l with
    | nil =>
      have := tokens_word hx.2.1 hx.2.2 [] []
      rw [List.append_nil, List.nil_append] at this
      rw [join, this, tokens, if_neg hx.1]
    | cons y l =>
      rw [join, tokens_word hx.2.1 hx.2.2, List.nil_append, tokens, if_pos (Or.inl rfl), if_neg hx.1, ih fun z hz => h z (by simp [hz])]
      simp

theorem readFields_render (T : Text) (l : List Nat) (h : ∀ v ∈ l, T.readF (T.renderF v) ≠ none) :
    readFields T (l.map T.renderF) = l.map fun v => (T.readF (T.renderF v)).getD 0 := by
  induction l with
  | nil => rfl
  | cons v l ih =>
    have hv := h v (by simp)
    obtain ⟨x, hx⟩ := Option.ne_none_iff_exists'.mp hv
    simp only [List.map_cons, readFields, hx, Option.getD_some]
    rw [ih fun z hz => h z (by simp [hz])]

theorem decode_encode (T : Text) (c : Cand) (h : Storable T c) :
    decodeStats T (encodeStats T c.stats) = (stored T c).stats := by
  have ht : tokens [] (encodeStats T c.stats) =
      (if c.stats.id.length > 0 then c.stats.id else [78, 85, 76, 76]) :: c.stats.fields.map T.renderF := by
    unfold encodeStats
    apply tokens_join
    intro x hx
    rcases List.mem_cons.mp hx with rfl | hx
    · split
      · rename_i hp
        exact ⟨List.length_pos_iff.mp hp, h.id.1, h.id.2.1⟩
      · decide
    · obtain ⟨v, hv, rfl⟩ := List.mem_map.mp hx
      have := h.fields v hv
      exact ⟨this.2.1, this.2.2.1, this.2.2.2.1⟩
  unfold decodeStats
  rw [ht]
  simp only [stored, readFields_render T c.stats.fields fun v hv => (h.fields v hv).1]
  congr 1
  by_cases hi : c.stats.id = []
  · simp [hi]
  · rw [if_pos (List.length_pos_iff.mpr hi), if_neg hi]

theorem splitEq_append (a b : Str) (hb : 61 ∉ b) : splitEq (a ++ 61 :: b) = some (a, b) := by
  have hnone : ∀ b : Str, 61 ∉ b → splitEq b = none := by
    intro b hb
    induction b with
    | nil => rfl
    | cons c b ih =>
      simp only [List.mem_cons, not_or] at hb
      rw [splitEq, ih hb.2]
      simp only
      rw [if_neg fun e => hb.1 e.symm]
  induction a with
  | nil => rw [List.nil_append, splitEq, hnone b hb]; rfl
  | cons c a ih => rw [List.cons_append, splitEq, ih]

theorem parseLoop_token (T : Text) (x : List (Nat × Nat)) {w : Str} (hw : 32 ∉ w) (tok rest : Str) :
    parseLoop T x tok (w ++ rest) = parseLoop T x (tok ++ w) rest := by
  induction w generalizing tok with
  | nil => simp
  | cons c w ih =>
    simp only [List.mem_cons, not_or] at hw
    rw [List.cons_append, parseLoop, if_neg fun e => hw.1 e.symm, ih hw.2]
    simp

theorem setValue_new (x : List (Nat × Nat)) (k v : Nat) (h : k ∉ x.map Prod.fst) : setValue x k v = x ++ [(k, v)] := by
  unfold setValue
  rw [if_neg]
  simp only [List.any_eq_true, decide_eq_true_eq, not_exists, not_and]
  exact fun e he hk => h (List.mem_map.mpr ⟨e, he, hk⟩)

/-- An entry as it is printed. -/
abbrev entryText (T : Text) (e : Nat × Nat) : Str := T.feat e.1 ++ 61 :: T.render e.2

theorem parseLoop_feats (T : Text) (l : List (Nat × Nat)) (hne : l ≠ [])
    (h1 : ∀ x ∈ l, T.featId (T.feat x.1) = x.1 ∧ 32 ∉ T.feat x.1 ∧ 10 ∉ T.feat x.1)
    (h2 : ∀ x ∈ l, 32 ∉ T.render x.2 ∧ 61 ∉ T.render x.2 ∧ 10 ∉ T.render x.2)
    (acc : List (Nat × Nat)) (hn : ((acc ++ l).map Prod.fst).Nodup) :
    parseLoop T acc [] (join 32 (l.map (entryText T))) = some (acc ++ l.map fun x => (x.1, T.strtod (T.render x.2))) := by
  induction l generalizing acc with
  | nil => exact absurd rfl hne
  | cons x l ih =>
    have g1 := h1 x (by simp)
    have g2 := h2 x (by simp)
    have h32 : 32 ∉ entryText T x := by
      simp only [entryText, List.mem_append, List.mem_cons, not_or]
      exact ⟨g1.2.1, by decide, g2.1⟩
    have hnew : x.1 ∉ acc.map Prod.fst := by
      rw [List.map_append, List.nodup_append] at hn
      exact fun hm => hn.2.2 _ hm x.1 (by simp) rfl
    have hentry : entry T acc (entryText T x) = some (acc ++ [(x.1, T.strtod (T.render x.2))]) := by
      unfold entry
      rw [splitEq_append _ _ g2.2.1]
      simp only [g1.1, setValue_new acc _ _ hnew]
    cases l with
    | nil =>
      have := parseLoop_token T acc h32 [] []
      rw [List.append_nil, List.nil_append] at this
      rw [List.map_singleton, join, this, parseLoop, hentry]
      rfl
    | cons y l =>
      rw [List.map_cons, List.map_cons, join, parseLoop_token T acc h32, List.nil_append, parseLoop, if_pos rfl, hentry]
      · simp only
        have := ih (by simp) (fun z hz => h1 z (by simp [hz])) (fun z hz => h2 z (by simp [hz]))
          (acc ++ [(x.1, T.strtod (T.render x.2))]) (by simpa using hn)
        rw [List.map_cons] at this
        rw [this]
        simp
      · simp

theorem read_cand (T : Text) (c : Cand) (h : Storable T c) (hf : c.feats ≠ []) :
    parseLoop T [] [] (join 32 (c.feats.map fun x => T.feat x.1 ++ 61 :: T.render x.2)) = some (stored T c).feats ∧
    (tokens [] (join 32 (c.words.map T.word))).map T.wordId = c.words := by
  constructor
  · have := parseLoop_feats T c.feats hf h.feats h.values [] (by simpa using h.once)
    simpa [stored] using this
  · rw [tokens_join]
    · rw [List.map_map]
      conv_rhs => rw [← List.map_id c.words]
      exact List.map_congr_left fun w hw => (h.words w hw).1
    · intro x hx
      obtain ⟨w, hw, rfl⟩ := List.mem_map.mp hx
      have := h.words w hw
      exact ⟨this.2.1, this.2.2.1, this.2.2.2.1⟩

theorem splitLines_cand (T : Text) (c : Cand) (h : Storable T c) (rest : Str) :
    Weights.splitLines (candText T c ++ rest) =
      (join 32 (c.words.map T.word) :: join 32 (c.feats.map fun x => T.feat x.1 ++ 61 :: T.render x.2) ::
        encodeStats T c.stats :: (Weights.splitLines rest).1, (Weights.splitLines rest).2) := by
  have e : candText T c ++ rest = join 32 (c.words.map T.word) ++ [10] ++
      (join 32 (c.feats.map fun x => T.feat x.1 ++ 61 :: T.render x.2) ++ [10] ++ (encodeStats T c.stats ++ [10] ++ rest)) := by
    simp [candText]
  rw [e, Weights.splitLines_line, Weights.splitLines_line, Weights.splitLines_line]
  · apply join_noNl (by decide)
    intro x hx
    rcases List.mem_cons.mp hx with rfl | hx
    · split
      · exact h.id.2.2
      · decide
    · obtain ⟨v, hv, rfl⟩ := List.mem_map.mp hx
      exact (h.fields v hv).2.2.2.2
  · apply join_noNl (by decide)
    intro x hx
    obtain ⟨v, hv, rfl⟩ := List.mem_map.mp hx
    simp only [List.mem_append, List.mem_cons, not_or]
    exact ⟨(h.feats v hv).2.2, by decide, (h.values v hv).2.2⟩
  · apply join_noNl (by decide)
    intro x hx
    obtain ⟨v, hv, rfl⟩ := List.mem_map.mp hx
    exact (h.words v hv).2.2.2.2

end Cdec.Train.Candidates
