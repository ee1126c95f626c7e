import Verif.Mteval.ScoresSpec
import Mathlib.Tactic.Ring
import Mathlib.Tactic.NormNum
import Mathlib.Tactic.SplitIfs
import Mathlib.Algebra.BigOperators.Group.List.Basic
/-! # Lemmas about score objects -/
namespace Cdec.Scores

theorem zip_eq {f : ℚ → ℚ → ℚ} {a b : List ℚ} (h : a.length = b.length) : zip f a b = some (List.zipWith f a b) := by
  rw [zip, if_pos h]

theorem bleu_op {n : ℕ} {a b : Bleu} (f : ℚ → ℚ → ℚ) (ha : a.Order n) (hb : b.Order n) :
    ∃ r, Bleu.op f a b = some r ∧ r.Order n ∧ r.stats = List.zipWith f a.stats b.stats := by
  obtain ⟨a1, a2⟩ := ha
  obtain ⟨b1, b2⟩ := hb
  refine ⟨⟨List.zipWith f a.correct b.correct, List.zipWith f a.hyp b.hyp, f a.refLen b.refLen, f a.hypLen b.hypLen⟩, ?_,
    ⟨by simp [a1, b1], by simp [a2, b2]⟩, ?_⟩
  · rw [Bleu.op, zip_eq (by omega), zip_eq (by omega)]; rfl
  · rw [Bleu.stats, Bleu.stats, Bleu.stats, List.zipWith_append (by simp [a1, a2, b1, b2]),
      List.zipWith_append (by omega)]
    rfl

theorem bleu_stats_length {n : ℕ} {b : Bleu} (h : b.Order n) : b.stats.length = 2 * n + 2 := by
  simp [Bleu.stats, h.1, h.2]; omega

theorem bleu_stats_inj {n : ℕ} {a b : Bleu} (ha : a.Order n) (hb : b.Order n) (h : a.stats = b.stats) : a = b := by
  obtain ⟨a1, a2⟩ := ha
  obtain ⟨b1, b2⟩ := hb
  obtain ⟨h1, h2⟩ := List.append_inj h (by simp [a1, a2, b1, b2])
  obtain ⟨h3, h4⟩ := List.append_inj h1 (by omega)
  simp only [List.cons.injEq, and_true] at h2
  cases a; cases b
  simp_all

theorem ter_stats_inj {a b : Ter} (h : a.stats = b.stats) : a = b := by
  simp only [Ter.stats, List.cons.injEq, Int.cast_inj, and_true] at h
  cases a; cases b
  simp_all

/-- The number of statistics. -/
def dim (n : ℕ) : Kind → ℕ
  | .ser => 2
  | .bleu => 2 * n + 2
  | .ter => 5
  | .wer => 2
  | .aer => 3
  | .bleuTer => 2 * n + 2 + 5
  | .bleuCbleu => 2 * n + 2 + (2 * (n + 1) + 2)

theorem stats_length {n : ℕ} {k : Kind} {s : Score} (h : OfKind n k s) : (stats s).length = dim n k := by
  cases k <;> cases s <;> simp only [OfKind] at h
  · rfl
  · simp [stats, dim, bleu_stats_length h]
  · rfl
  · rfl
  · rfl
  · simp [stats, dim, bleu_stats_length h, Ter.stats]
  · simp [stats, dim, bleu_stats_length h.1, bleu_stats_length h.2]

theorem stats_inj {n : ℕ} {k : Kind} {a b : Score} (ha : OfKind n k a) (hb : OfKind n k b) (h : stats a = stats b) :
    a = b := by
  cases k <;> cases a <;> simp only [OfKind] at ha <;> cases b <;> simp only [OfKind] at hb
  · simpa [stats] using h
  · rw [bleu_stats_inj ha hb h]
  · rw [ter_stats_inj h]
  · simpa [stats] using h
  · simpa [stats] using h
  · simp only [stats] at h
    obtain ⟨h1, h2⟩ := List.append_inj h (by rw [bleu_stats_length ha, bleu_stats_length hb])
    rw [bleu_stats_inj ha hb h1, ter_stats_inj h2]
  · simp only [stats] at h
    obtain ⟨h1, h2⟩ := List.append_inj h (by rw [bleu_stats_length ha.1, bleu_stats_length hb.1])
    rw [bleu_stats_inj ha.1 hb.1 h1, bleu_stats_inj ha.2 hb.2 h2]

theorem ter_op_add (a b : Ter) : (Ter.op (· + ·) a b).stats = List.zipWith (· + ·) a.stats b.stats := by
  simp [Ter.op, Ter.stats]

theorem ter_op_sub (a b : Ter) : (Ter.op (· - ·) a b).stats = List.zipWith (· - ·) a.stats b.stats := by
  simp [Ter.op, Ter.stats]

theorem plus_stats {n : ℕ} {k : Kind} {a b : Score} (ha : OfKind n k a) (hb : OfKind n k b) :
    ∃ r, plus a b = some r ∧ OfKind n k r ∧ stats r = List.zipWith (· + ·) (stats a) (stats b) := by
  cases k <;> cases a <;> simp only [OfKind] at ha <;> cases b <;> simp only [OfKind] at hb
  · exact ⟨_, rfl, trivial, by simp [stats]⟩
  · obtain ⟨r, h1, h2, h3⟩ := bleu_op (· + ·) ha hb
    exact ⟨.bleu r, by rw [plus, h1]; rfl, h2, h3⟩
  · exact ⟨_, rfl, trivial, ter_op_add _ _⟩
  · exact ⟨_, rfl, trivial, by simp [stats]⟩
  · exact ⟨_, rfl, trivial, by simp [stats]⟩
  · rename_i b1 t1 b2 t2
    obtain ⟨r, h1, h2, h3⟩ := bleu_op (· + ·) ha hb
    refine ⟨.bleuTer r (Ter.op (· + ·) t1 t2), by rw [plus, h1]; rfl, h2, ?_⟩
    simp only [stats]
    rw [List.zipWith_append (by rw [bleu_stats_length ha, bleu_stats_length hb]), h3, ter_op_add]
  · obtain ⟨r, h1, h2, h3⟩ := bleu_op (· + ·) ha.1 hb.1
    obtain ⟨q, g1, g2, g3⟩ := bleu_op (· + ·) ha.2 hb.2
    refine ⟨.bleuCbleu r q, by rw [plus, h1, g1]; rfl, ⟨h2, g2⟩, ?_⟩
    simp only [stats]
    rw [List.zipWith_append (by rw [bleu_stats_length ha.1, bleu_stats_length hb.1]), h3, g3]

theorem subtract_stats {n : ℕ} {k : Kind} {a b : Score} (ha : OfKind n k a) (hb : OfKind n k b) :
    ∃ r, subtract a b = some r ∧ OfKind n k r ∧ stats r = List.zipWith (· - ·) (stats a) (stats b) := by
  cases k <;> cases a <;> simp only [OfKind] at ha <;> cases b <;> simp only [OfKind] at hb
  · exact ⟨_, rfl, trivial, by simp [stats]⟩
  · obtain ⟨r, h1, h2, h3⟩ := bleu_op (· - ·) ha hb
    exact ⟨.bleu r, by rw [subtract, h1]; rfl, h2, h3⟩
  · exact ⟨_, rfl, trivial, ter_op_sub _ _⟩
  · exact ⟨_, rfl, trivial, by simp [stats]⟩
  · exact ⟨_, rfl, trivial, by simp [stats]⟩
  · rename_i b1 t1 b2 t2
    obtain ⟨r, h1, h2, h3⟩ := bleu_op (· - ·) ha hb
    refine ⟨.bleuTer r (Ter.op (· - ·) t1 t2), by rw [subtract, h1]; rfl, h2, ?_⟩
    simp only [stats]
    rw [List.zipWith_append (by rw [bleu_stats_length ha, bleu_stats_length hb]), h3, ter_op_sub]
  · obtain ⟨r, h1, h2, h3⟩ := bleu_op (· - ·) ha.1 hb.1
    obtain ⟨q, g1, g2, g3⟩ := bleu_op (· - ·) ha.2 hb.2
    refine ⟨.bleuCbleu r q, by rw [subtract, h1, g1]; rfl, ⟨h2, g2⟩, ?_⟩
    simp only [stats]
    rw [List.zipWith_append (by rw [bleu_stats_length ha.1, bleu_stats_length hb.1]), h3, g3]

theorem bleu_zero {n : ℕ} {b : Bleu} (h : b.Order n) : b.zero.Order n ∧ b.zero.stats = List.replicate (2 * n + 2) 0 := by
  refine ⟨⟨by simp [Bleu.zero, h.2], by simp [Bleu.zero, h.2]⟩, ?_⟩
  simp only [Bleu.stats, Bleu.zero, h.2]
  rw [show [(0 : ℚ), 0] = List.replicate 2 0 from rfl, List.replicate_append_replicate, List.replicate_append_replicate]
  congr 1; omega

theorem zero_stats {n : ℕ} {k : Kind} {s : Score} (h : OfKind n k s) :
    OfKind n k (zero s) ∧ stats (zero s) = List.replicate (dim n k) 0 := by
  cases k <;> cases s <;> simp only [OfKind] at h
  · exact ⟨trivial, by simp [stats, zero, dim]⟩
  · exact bleu_zero h
  · exact ⟨trivial, by simp [stats, zero, dim, Ter.stats]⟩
  · exact ⟨trivial, by simp [stats, zero, dim]⟩
  · exact ⟨trivial, by simp [stats, zero, dim]⟩
  · refine ⟨(bleu_zero h).1, ?_⟩
    simp only [stats, zero, dim]
    rw [(bleu_zero h).2, show (⟨0, 0, 0, 0, 0⟩ : Ter).stats = List.replicate 5 0 by simp [Ter.stats],
      List.replicate_append_replicate]
  · refine ⟨⟨(bleu_zero h.1).1, (bleu_zero h.2).1⟩, ?_⟩
    simp only [stats, zero, dim]
    rw [(bleu_zero h.1).2, (bleu_zero h.2).2, List.replicate_append_replicate]

theorem getD_zipWith (f : ℚ → ℚ → ℚ) (hf : f 0 0 = 0) (a b : List ℚ) (h : a.length = b.length) (i : ℕ) :
    (List.zipWith f a b).getD i 0 = f (a.getD i 0) (b.getD i 0) := by
  simp only [List.getD_eq_getElem?_getD, List.getElem?_zipWith]
  by_cases hi : i < a.length
  · have hb : i < b.length := by omega
    simp [List.getElem?_eq_getElem hi, List.getElem?_eq_getElem hb]
  · have hb : ¬ i < b.length := by omega
    simp [List.getElem?_eq_none (Nat.le_of_not_lt hi), List.getElem?_eq_none (Nat.le_of_not_lt hb), hf]

theorem fold_stats {n : ℕ} {k : Kind} : ∀ (ds : List Score) (a : Score), OfKind n k a → (∀ d ∈ ds, OfKind n k d) →
    ∃ r, ds.foldlM plus a = some r ∧ OfKind n k r ∧
      ∀ i, (stats r).getD i 0 = (stats a).getD i 0 + (ds.map fun d => (stats d).getD i 0).sum
  | [], a, ha, _ => ⟨a, rfl, ha, by simp⟩
  | d :: ds, a, ha, hd => by
    obtain ⟨b, h1, h2, h3⟩ := plus_stats ha (hd d (by simp))
    obtain ⟨r, g1, g2, g3⟩ := fold_stats ds b h2 fun x hx => hd x (by simp [hx])
    refine ⟨r, by rw [List.foldlM_cons, h1]; exact g1, g2, fun i => ?_⟩
    rw [g3, h3, getD_zipWith _ (by simp) _ _ (by rw [stats_length ha, stats_length (hd d (by simp))])]
    simp only [List.map_cons, List.sum_cons]
    ring

theorem ext_getD {a b : List ℚ} (hl : a.length = b.length) (h : ∀ i, a.getD i 0 = b.getD i 0) : a = b := by
  refine List.ext_getElem hl fun i h1 h2 => ?_
  have := h i
  simpa [List.getD_eq_getElem?_getD, List.getElem?_eq_getElem h1, List.getElem?_eq_getElem h2] using this

theorem zip_add_sub : ∀ (a b : List ℚ), a.length = b.length →
    List.zipWith (· + ·) a (List.zipWith (· - ·) b a) = b
  | [], [], _ => rfl
  | x :: a, y :: b, h => by
    simp only [List.zipWith_cons_cons]
    rw [zip_add_sub a b (by simpa using h)]
    simp
  | [], _ :: _, h => by simp at h
  | _ :: _, [], h => by simp at h

theorem trunc_int (m : ℤ) : trunc m = m := by
  simp [trunc]

theorem addScaled_int {s : ℚ} {x y m : ℤ} (h : s * y = m) : ((addScaled s x y : ℤ) : ℚ) = x + s * y := by
  rw [addScaled, h, ← Int.cast_add, trunc_int]

theorem bleu_identity {b : Bleu} : b.isIdentity = true → (∀ x ∈ b.stats, x = 0 ∨ 1 / 10 < |x|) → ∀ x ∈ b.stats, x = 0 := by
  intro h hs x hx
  unfold Bleu.isIdentity at h
  split at h
  · simp at h
  · rename_i hc
    simp only [not_or, not_lt, ne_eq, not_not] at hc
    simp only [Bool.and_eq_true, List.all_eq_true, decide_eq_true_eq] at h
    have hx' := hx
    simp only [Bleu.stats, List.mem_append, List.mem_cons, List.not_mem_nil, or_false] at hx
    rcases hx with (hx | hx) | hx | hx
    · exact h.2 x hx
    · exact h.1 x hx
    · rcases hs x hx' with h0 | h0
      · exact h0
      · rw [hx] at h0
        exact absurd hc.1 (not_le.mpr h0)
    · rw [hx]; exact hc.2

theorem bleu_identity_of {b : Bleu} (h : ∀ x ∈ b.stats, x = 0) : b.isIdentity = true := by
  unfold Bleu.isIdentity
  have h1 := h b.refLen (by simp [Bleu.stats])
  have h2 := h b.hypLen (by simp [Bleu.stats])
  rw [if_neg (by rw [h1, h2]; norm_num)]
  simp only [Bool.and_eq_true, List.all_eq_true, decide_eq_true_eq]
  exact ⟨fun x hx => h x (by simp [Bleu.stats, hx]), fun x hx => h x (by simp [Bleu.stats, hx])⟩

theorem ter_identity {t : Ter} : t.isIdentity = true ↔ ∀ x ∈ t.stats, x = 0 := by
  unfold Ter.isIdentity
  cases t
  simp [Ter.stats]

theorem identity_iff {d : Score} (hs : ∀ x ∈ stats d, x = 0 ∨ 1 / 10 < |x|) :
    isIdentity d = true ↔ ∀ x ∈ stats d, x = 0 := by
  cases d with
  | ser c t => simp [isIdentity, stats]; exact and_comm
  | bleu b => exact ⟨fun h => bleu_identity h hs, bleu_identity_of⟩
  | ter t => exact ter_identity
  | wer e w => simp [isIdentity, stats]
  | aer m p r => simp [isIdentity, stats]
  | bleuTer b t =>
    simp only [isIdentity, stats, Bool.and_eq_true, List.mem_append] at hs ⊢
    constructor
    · rintro ⟨h1, h2⟩ x (hx | hx)
      · exact bleu_identity h1 (fun y hy => hs y (.inl hy)) x hx
      · exact ter_identity.1 h2 x hx
    · intro h
      exact ⟨bleu_identity_of fun x hx => h x (.inl hx), ter_identity.2 fun x hx => h x (.inr hx)⟩
  | bleuCbleu b c =>
    simp only [isIdentity, stats, Bool.and_eq_true, List.mem_append] at hs ⊢
    constructor
    · rintro ⟨h1, h2⟩ x (hx | hx)
      · exact bleu_identity h1 (fun y hy => hs y (.inl hy)) x hx
      · exact bleu_identity h2 (fun y hy => hs y (.inr hy)) x hx
    · intro h
      exact ⟨bleu_identity_of fun x hx => h x (.inl hx), bleu_identity_of fun x hx => h x (.inr hx)⟩

theorem zip_add_zero : ∀ (a b : List ℚ), a.length = b.length → (∀ x ∈ b, x = 0) → List.zipWith (· + ·) a b = a
  | [], [], _, _ => rfl
  | x :: a, y :: b, h, hz => by
    simp only [List.zipWith_cons_cons]
    rw [zip_add_zero a b (by simpa using h) fun z hm => hz z (by simp [hm]), hz y (by simp)]
    simp
  | [], _ :: _, h, _ => by simp at h
  | _ :: _, [], h, _ => by simp at h

end Cdec.Scores
