import Verif.Mteval.ScoresText
import Mathlib.Tactic.Linarith
/-!
# C114: scores of sentences add up to the score of the corpus, can be subtracted, and arrive at other processes unchanged
-/
namespace Cdec.Scores

/-- The corpus score: for any scores of one type, starting from zero and adding them one after the other succeeds, and
every statistic of the result is the sum of that statistic over the sentences. -/
theorem C114_corpus (n : ℕ) (k : Kind) (s : Score) (ds : List Score) (hs : OfKind n k s) (hd : ∀ d ∈ ds, OfKind n k d) :
    ∃ r, corpus s ds = some r ∧ OfKind n k r ∧ (stats r).length = (stats s).length ∧
      ∀ i, (stats r).getD i 0 = (ds.map fun d => (stats d).getD i 0).sum := by
  obtain ⟨z1, z2⟩ := zero_stats hs
  obtain ⟨r, h1, h2, h3⟩ := fold_stats ds (zero s) z1 hd
  refine ⟨r, h1, h2, by rw [stats_length h2, stats_length hs], fun i => ?_⟩
  rw [h3, z2]
  have : (List.replicate (dim n k) (0 : ℚ)).getD i 0 = 0 := by
    rw [List.getD_eq_getElem?_getD, List.getElem?_replicate]; split <;> rfl
  rw [this, zero_add]

/-- The corpus score does not depend on the order of the sentences. -/
theorem C114_order (n : ℕ) (k : Kind) (s : Score) (ds ds' : List Score) (hs : OfKind n k s)
    (hd : ∀ d ∈ ds, OfKind n k d) (h : ds.Perm ds') : corpus s ds = corpus s ds' := by
  obtain ⟨r, h1, h2, h3, h4⟩ := C114_corpus n k s ds hs hd
  obtain ⟨q, g1, g2, g3, g4⟩ := C114_corpus n k s ds' hs fun d hd' => hd d (h.mem_iff.2 hd')
  rw [h1, g1]
  congr 1
  refine stats_inj h2 g2 (ext_getD (by rw [h3, g3]) fun i => ?_)
  rw [h4, g4]
  exact (h.map _).sum_eq

/-- Different scores of a type have different statistics, so that the statistics determine the score. -/
theorem C114_statistics (n : ℕ) (k : Kind) (a b : Score) (ha : OfKind n k a) (hb : OfKind n k b)
    (h : stats a = stats b) : a = b := stats_inj ha hb h

/-- Subtracting and adding: replacing a sentence by another by adding the difference gives exactly the new score. -/
theorem C114_difference (n : ℕ) (k : Kind) (a b : Score) (ha : OfKind n k a) (hb : OfKind n k b) :
    ∃ d, subtract b a = some d ∧ plus a d = some b := by
  obtain ⟨d, h1, h2, h3⟩ := subtract_stats hb ha
  obtain ⟨r, g1, g2, g3⟩ := plus_stats ha h2
  refine ⟨d, h1, ?_⟩
  rw [g1]
  congr 1
  refine stats_inj g2 hb ?_
  rw [g3, h3]
  exact zip_add_sub _ _ (by rw [stats_length ha, stats_length hb])

/-- The identity test: it holds exactly for the scores whose statistics are all zero, and adding such a score changes
nothing.  Missing: BLEU scores with a reference length that is not zero but at most 1/10, see `C114_identity_fails`. -/
theorem C114_identity_partial (n : ℕ) (k : Kind) (a d : Score) (ha : OfKind n k a) (hd : OfKind n k d)
    (hs : ∀ x ∈ stats d, x = 0 ∨ 1 / 10 < |x|) :
    (isIdentity d = true ↔ ∀ x ∈ stats d, x = 0) ∧ (isIdentity d = true ↔ plus a d = some a) := by
  refine ⟨identity_iff hs, ?_⟩
  obtain ⟨r, h1, h2, h3⟩ := plus_stats ha hd
  have hl : (stats a).length = (stats d).length := by rw [stats_length ha, stats_length hd]
  rw [identity_iff hs, h1]
  constructor
  · intro h
    congr 1
    refine stats_inj h2 ha ?_
    rw [h3]
    exact zip_add_zero _ _ hl h
  · intro h x hx
    simp only [Option.some.injEq] at h
    rw [h] at h3
    obtain ⟨i, hi, rfl⟩ := List.mem_iff_getElem.1 hx
    have := getD_zipWith (· + ·) (by simp) (stats a) (stats d) hl i
    rw [← h3] at this
    simp only [List.getD_eq_getElem?_getD, List.getElem?_eq_getElem hi, Option.getD_some] at this
    linarith

/-- A delta with a small reference length is taken for zero although it changes the score. -/
theorem C114_identity_fails : ∃ a d, OfKind 1 .bleu a ∧ OfKind 1 .bleu d ∧ isIdentity d = true ∧ plus a d ≠ some a :=
  ⟨.bleu ⟨[1], [1], 1, 1⟩, .bleu ⟨[0], [0], 1 / 20, 0⟩, ⟨rfl, rfl⟩, ⟨rfl, rfl⟩, by decide +kernel, by decide +kernel⟩

/-- Transport: a score that is written and read as its type is unchanged.  Missing: SER scores, which cannot be
written; BLEU counts of a million or more, which lose digits, see below; BLEU statistics that are not integers. -/
theorem C114_transport_partial (frac : ℚ → List Char) (n : ℕ) (k : Kind) (s : Score) (h : OfKind n k s)
    (hs : Sendable s) (hn : k = .bleuTer ∨ k = .bleuCbleu → n ≤ 4) :
    ∃ t, encode frac s = some t ∧ decode k t = some s := by
  cases k <;> cases s <;> simp only [OfKind] at h
  · exact absurd hs id
  · exact ⟨_, rfl, by rw [decode, bleu_decode frac h hs]; rfl⟩
  · exact ⟨_, rfl, by rw [decode, ter_decode]; rfl⟩
  · rename_i e w
    refine ⟨_, rfl, ?_⟩
    have := readInt_show w Ends.nil
    rw [List.append_nil] at this
    simp only [decode]
    rw [readInt_show _ (Ends.space _)]
    simp only [Option.bind_eq_bind, Option.bind_some]
    rw [readInt_space, this]
    rfl
  · rename_i m p r
    refine ⟨_, rfl, ?_⟩
    have h0 := int32_bytes (hs m (by simp)) 0 [] (bytes32 p ++ bytes32 r) rfl
    have h1 := int32_bytes (hs p (by simp)) 1 (bytes32 m) (bytes32 r) rfl
    have h2 := int32_bytes (hs r (by simp)) 2 (bytes32 m ++ bytes32 p) [] rfl
    simp only [List.nil_append, List.append_nil, List.append_assoc] at h0 h1 h2
    simp only [decode, h0, h1, h2]
    rfl
  · rename_i b t
    refine ⟨_, rfl, ?_⟩
    simp only [decode]
    rw [parts_combine (bleu_encode_length (hn (.inl rfl)) frac h hs)]
    simp only [Option.bind_eq_bind, Option.bind_some]
    rw [bleu_decode frac h hs, ter_decode]
    rfl
  · rename_i b c
    refine ⟨_, rfl, ?_⟩
    simp only [decode]
    rw [parts_combine (bleu_encode_length (hn (.inr rfl)) frac h.1 hs.1)]
    simp only [Option.bind_eq_bind, Option.bind_some]
    rw [bleu_decode frac h.1 hs.1, bleu_decode frac h.2 hs.2]
    rfl

/-- Counts of a million and more lose digits on the way. -/
theorem C114_million_fails : ∃ b : Bleu, b.Order 1 ∧ b = ⟨[3], [5], 7, 1234567⟩ ∧
    decode .bleu (b.encode fun _ => []) = some (.bleu ⟨[3], [5], 7, 1234570⟩) :=
  ⟨⟨[3], [5], 7, 1234567⟩, ⟨rfl, rfl⟩, rfl, by decide +kernel⟩

/-- A difference of two large corpus scores, each of whose numbers survives alone, makes the BLEU part of the text
longer than its length byte can say: reading it throws. -/
theorem C114_length_fails : ∃ (b : Bleu) (t : Ter), b.Order 4 ∧ decode .bleu (b.encode fun _ => []) = some (.bleu b) ∧
    ∃ text, encode (fun _ => []) (.bleuTer b t) = some text ∧ decode .bleuTer text = none :=
  ⟨⟨List.replicate 4 (-1234560), List.replicate 4 (-1234560), -1234560, -1234560⟩, ⟨1, 0, 2, 0, 9⟩, ⟨rfl, rfl⟩,
    by decide +kernel, _, rfl, by decide +kernel⟩

/-- SER scores cannot be sent. -/
theorem C114_ser_fails (frac : ℚ → List Char) (c t : ℤ) : encode frac (.ser c t) = none := rfl

/-- Adding a multiple of a score: right for every factor for BLEU, and for the types of integer counts when the products
are integers.  Missing: other factors and the types with TER, see below. -/
theorem C114_scaled_partial (n : ℕ) (k : Kind) (s : ℚ) (a d : Score) (ha : OfKind n k a) (hd : OfKind n k d)
    (hk : k ≠ .ter ∧ k ≠ .bleuTer)
    (hi : k = .bleu ∨ k = .bleuCbleu ∨ ∀ y ∈ stats d, ∃ m : ℤ, s * y = m) :
    ∃ r, plusScaled s a d = some r ∧ OfKind n k r ∧
      ∀ i, (stats r).getD i 0 = (stats a).getD i 0 + s * (stats d).getD i 0 := by
  have key : ∀ r, OfKind n k r → stats r = List.zipWith (fun x y => x + y * s) (stats a) (stats d) →
      ∀ i, (stats r).getD i 0 = (stats a).getD i 0 + s * (stats d).getD i 0 := by
    intro r _ h i
    rw [h, getD_zipWith _ (by simp) _ _ (by rw [stats_length ha, stats_length hd])]
    ring
  have ints : ∀ {x y : ℤ}, (∃ m : ℤ, s * y = m) → ((addScaled s x y : ℤ) : ℚ) = x + y * s := by
    rintro x y ⟨m, h⟩; rw [addScaled_int h]; ring
  cases k <;> cases a <;> simp only [OfKind] at ha <;> cases d <;> simp only [OfKind] at hd
  · have hi' := hi.resolve_left (by simp) |>.resolve_left (by simp)
    refine ⟨_, rfl, trivial, key _ trivial ?_⟩
    simp only [stats, List.zipWith_cons_cons, List.zipWith_nil_left]
    rw [ints (hi' _ (by simp [stats])), ints (hi' _ (by simp [stats]))]
  · obtain ⟨r, h1, h2, h3⟩ := bleu_op (fun x y => x + y * s) ha hd
    exact ⟨.bleu r, by rw [plusScaled, h1]; rfl, h2, key _ h2 h3⟩
  · exact absurd rfl hk.1
  · have hi' := hi.resolve_left (by simp) |>.resolve_left (by simp)
    refine ⟨_, rfl, trivial, key _ trivial ?_⟩
    simp only [stats, List.zipWith_cons_cons, List.zipWith_nil_left]
    rw [ints (hi' _ (by simp [stats])), ints (hi' _ (by simp [stats]))]
  · have hi' := hi.resolve_left (by simp) |>.resolve_left (by simp)
    refine ⟨_, rfl, trivial, key _ trivial ?_⟩
    simp only [stats, List.zipWith_cons_cons, List.zipWith_nil_left]
    rw [ints (hi' _ (by simp [stats])), ints (hi' _ (by simp [stats])), ints (hi' _ (by simp [stats]))]
  · exact absurd rfl hk.2
  · obtain ⟨r, h1, h2, h3⟩ := bleu_op (fun x y => x + y * s) ha.1 hd.1
    obtain ⟨q, g1, g2, g3⟩ := bleu_op (fun x y => x + y * s) ha.2 hd.2
    refine ⟨.bleuCbleu r q, by rw [plusScaled, h1, g1]; rfl, ⟨h2, g2⟩, key _ ⟨h2, g2⟩ ?_⟩
    simp only [stats]
    rw [List.zipWith_append (by rw [bleu_stats_length ha.1, bleu_stats_length hd.1]), h3, g3]

/-- With TER every addition with a factor throws, even with the factors 1 and -1 that the code means to support. -/
theorem C114_ter_scaled_fails (s : ℚ) (a b : Ter) (x y : Bleu) :
    plusScaled s (.ter a) (.ter b) = none ∧ plusScaled s (.bleuTer x a) (.bleuTer y b) = none := by
  refine ⟨rfl, ?_⟩
  rw [plusScaled]
  cases Bleu.op (fun x y => x + y * s) x y <;> rfl

/-- With integer counts fractions are lost at each addition: two halves of a score of one correct link add up to none. -/
theorem C114_half_fails : ∃ r, plusScaled (1 / 2) (.aer 0 0 0) (.aer 1 1 1) = some r ∧
    plusScaled (1 / 2) r (.aer 1 1 1) = some (.aer 0 0 0) :=
  ⟨.aer 0 0 0, by decide +kernel, by decide +kernel⟩

/-- Non-vacuity: a corpus of two sentences scored with the combination of BLEU and TER. -/
example : OfKind 2 .bleuTer (.bleuTer ⟨[2, 1], [3, 2], 3, 3⟩ ⟨0, 0, 1, 0, 3⟩) ∧
    Sendable (.bleuTer ⟨[2, 1], [3, 2], 3, 3⟩ ⟨0, 0, 1, 0, 3⟩) ∧
    corpus (.bleuTer ⟨[2, 1], [3, 2], 3, 3⟩ ⟨0, 0, 1, 0, 3⟩)
      [.bleuTer ⟨[2, 1], [3, 2], 3, 3⟩ ⟨0, 0, 1, 0, 3⟩, .bleuTer ⟨[1, 0], [4, 3], 5, 4⟩ ⟨1, 0, 2, 1, 5⟩] =
        some (.bleuTer ⟨[3, 1], [7, 5], 8, 7⟩ ⟨1, 0, 3, 1, 8⟩) ∧
    (encode (fun _ => []) (.bleuTer ⟨[2, 1], [3, 2], 3, 3⟩ ⟨0, 0, 1, 0, 3⟩)) =
      some (Char.ofNat 13 :: "2 3 3 2 3 1 20 0 1 0 3".toList) := by
  refine ⟨⟨rfl, rfl⟩, ?_, by decide +kernel, by decide +kernel⟩
  intro x hx
  simp only [Bleu.stats, List.cons_append, List.nil_append, List.mem_cons, List.not_mem_nil, or_false] at hx
  rcases hx with rfl | rfl | rfl | rfl | rfl | rfl
  exacts [⟨2, by norm_num, by decide⟩, ⟨1, by norm_num, by decide⟩, ⟨3, by norm_num, by decide⟩,
    ⟨2, by norm_num, by decide⟩, ⟨3, by norm_num, by decide⟩, ⟨3, by norm_num, by decide⟩]

/-- The first million text. -/
example : showFloat (fun _ => []) 1234567 = "1.23457e+06".toList ∧ showFloat (fun _ => []) (-999999) = "-999999".toList := by
  constructor <;> decide +kernel

end Cdec.Scores
