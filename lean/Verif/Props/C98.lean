import Verif.Decoder.NgramFeatCount
/-!
# C98: the n-gram features of a derivation count the n-grams of its string

Rules are scored one by one, each seeing only the states of its antecedents.  `Deriv.yield`
and `IsCount` say what the result must be; neither mentions states.
-/
namespace Cdec.NgramFeat

/-- Whatever is scored, feature ids that are remembered are those of their n-grams. -/
theorem C98_cache (c : Cfg) (d : Deriv) (k k' : Cache) (s : NState) (T : Feats)
    (hk : ∀ p, k p = 0 ∨ k p = c.fd (c.name p.reverse)) (h : total c k d = some (k', s, T)) :
    ∀ p, k' p = 0 ∨ k' p = c.fd (c.name p.reverse) := by
  have loop : ∀ (ants : List NState) (e : List Sym) (k : Cache) (v : Vars) (r : Cache × Vars), k.Sound c →
      lookupLoop c ants k v e = some r → r.1.Sound c := by
    intro ants e
    induction e with
    | nil => intro k v r hk h; simp only [lookupLoop, Option.some.injEq] at h; subst h; exact hk
    | cons x e ih =>
      intro k v r hk h
      cases x with
      | word w => exact ih _ _ _ (feed_pure true k v _ hk).2 h
      | nt i =>
        unfold lookupLoop at h
        cases ha : ants[i]? with
        | none => rw [ha] at h; cases h
        | some a => rw [ha] at h; exact ih _ _ _ (feeds_pure a.unscored k v hk).2 h
  have main : (∀ (d : Deriv) (k : Cache) (r : Cache × NState × Feats), k.Sound c → total c k d = some r → r.1.Sound c) := by
    intro d
    induction d using Deriv.rec (motive_2 := fun ds => ∀ (k : Cache) (r : Cache × List (NState × Feats)), k.Sound c →
      totals c k ds = some r → r.1.Sound c) with
    | node e kids ih =>
      intro k r hk h
      unfold total at h
      cases h1 : totals c k kids with
      | none => rw [h1] at h; cases h
      | some x =>
        obtain ⟨k1, ks⟩ := x
        rw [h1] at h
        simp only [lookupWords] at h
        cases h2 : lookupLoop c (ks.map (·.1)) k1 (start c) e with
        | none => rw [h2] at h; cases h
        | some y =>
          rw [h2] at h
          simp only [Option.map_some, Option.some.injEq] at h
          subst h
          exact loop _ _ _ _ _ (ih k _ hk h1) h2
    | nil => rename_i k r hk h; unfold totals at h; simp only [Option.some.injEq] at h; subst h; exact hk
    | cons d ds ih1 ih2 =>
      rename_i k r hk h
      unfold totals at h
      cases h1 : total c k d with
      | none => rw [h1] at h; cases h
      | some x =>
        rw [h1] at h
        simp only at h
        cases h2 : totals c x.1 ds with
        | none => rw [h2] at h; cases h
        | some y =>
          rw [h2] at h
          simp only [Option.some.injEq] at h
          subst h
          exact ih2 x.1 y (ih1 k x hk h1) h2
  exact main d k _ hk h

section
variable (c : Cfg) (ho : 1 ≤ c.order) (d : Deriv) (hp : d.Proper) (k : Cache) (hk : ∀ p, k p = 0 ∨ k p = c.fd (c.name p.reverse))
  (hw : ∀ w ∈ d.yield c, w ≠ 0) (hs : c.sos ≠ 0) (he : c.eos ≠ 0) (hne : c.eos ≠ c.sos)
include ho hp hk hw hs he hne

private theorem adds (hm : c.addMarkers = true) (hce : clusterOf c c.eos = c.eos) (hys : c.sos ∉ d.yield c) (hye : c.eos ∉ d.yield c) :
    ∃ F, features c k d = some F ∧ F = (incr c (beginState c) (d.yield c ++ [c.eos])).2 ∧
      ∀ f, IsCount c (before c ++ d.yield c ++ [c.eos]) (before c).length f (F f) := by
  have hg : Good c (d.yield c) := ⟨fun a b e => absurd (by rw [e]; simp) hys, fun a b e => absurd (by rw [e]; simp) hye⟩
  obtain ⟨k1, s, T, h1, h2, h3⟩ := total_out ho d k hk hp hg
  obtain ⟨k2, g, h4, h5⟩ := final_adds ho hm ((cluster_eq c c.eos).trans hce) hne k1 h2 _ hys hye s T h3
  refine ⟨T + g, ?_, h5, fun f => ?_⟩
  · unfold features; rw [h1]; simp only [h4]
  · rw [h5]
    have hb : ∀ x ∈ before c, x ≠ 0 := by
      unfold before; split <;> simp [hs]
    have := incr_count ho f (d.yield c ++ [c.eos]) [] (by simpa using hb) (by
      intro x hx
      rcases List.mem_append.1 hx with h | h
      · exact hw x h
      · simp at h; rw [h]; exact he)
    simpa [incr] using this

private theorem explicit (hm : c.addMarkers = false) (ws : List Nat) (hy : d.yield c = c.sos :: ws ++ [c.eos]) (hws : c.sos ∉ ws)
    (hwe : c.eos ∉ ws) :
    ∃ F, features c k d = some F ∧ F = (incr c (beginState c) (ws ++ [c.eos])).2 ∧
      ∀ f, IsCount c (before c ++ ws ++ [c.eos]) (before c).length f (F f) := by
  have hg : Good c (c.sos :: ws ++ [c.eos]) := by
    constructor
    · intro a b e
      cases a with
      | nil => rfl
      | cons x a =>
        exfalso
        simp only [List.cons_append, List.cons.injEq] at e
        have hm : c.sos ∈ ws ++ [c.eos] := by rw [e.2]; simp
        rcases List.mem_append.1 hm with h | h
        · exact hws h
        · simp at h; exact hne h.symm
    · intro a b e
      rcases List.eq_nil_or_concat b with h | ⟨b', x, rfl⟩
      · exact h
      · exfalso
        have e' : (c.sos :: ws) ++ [c.eos] = (a ++ c.eos :: b') ++ [x] := by rw [e]; simp
        have := (List.append_inj' e' rfl).1
        have hm : c.eos ∈ c.sos :: ws := by rw [this]; simp
        rcases List.mem_cons.1 hm with h | h
        · exact hne h
        · exact hwe h
  have hy' : d.yield c = c.sos :: (ws ++ [c.eos]) := by rw [hy]; rfl
  obtain ⟨k1, s, T, h1, h2, h3⟩ := total_out ho d k hk hp (by rw [hy]; exact hg)
  have hT : T = (incr c (beginState c) (ws ++ [c.eos])).2 := by
    rw [h3.feats, hy']
    exact run_explicit ho _ hg
  refine ⟨T, ?_, hT, fun f => ?_⟩
  · unfold features; rw [h1]; simp [finalTraversal, hm]
  · rw [hT]
    have hb : ∀ x ∈ before c, x ≠ 0 := by
      unfold before; split <;> simp [hs]
    have := incr_count ho f (ws ++ [c.eos]) [] (by simpa using hb) (by
      intro x hx
      exact hw x (by rw [hy']; simp only [List.mem_cons]; exact Or.inr hx))
    simpa [incr] using this

/-- Bigram features (`-o 2`): whatever the rules and in whatever order they combine, the value of each feature for a
derivation of `ws` is the number of positions of `<s> ws </s>`, `<s>` excepted, at which an n-gram with this
feature ends. -/
theorem C98_bigrams (h2 : c.order = 2) (hm : c.addMarkers = true) (hce : clusterOf c c.eos = c.eos)
    (hys : c.sos ∉ d.yield c) (hye : c.eos ∉ d.yield c) :
    ∃ F, features c k d = some F ∧ ∀ f, IsCount c (c.sos :: d.yield c ++ [c.eos]) 1 f (F f) := by
  obtain ⟨F, h1, _, h3⟩ := adds c ho d hp k hk hw hs he hne hm hce hys hye
  exact ⟨F, h1, by simpa [before, h2] using h3⟩

/-- The same when the rules produce the markers themselves (`-x`). -/
theorem C98_bigrams_explicit (h2 : c.order = 2) (hm : c.addMarkers = false) (ws : List Nat)
    (hy : d.yield c = c.sos :: ws ++ [c.eos]) (hws : c.sos ∉ ws) (hwe : c.eos ∉ ws) :
    ∃ F, features c k d = some F ∧ ∀ f, IsCount c (d.yield c) 1 f (F f) := by
  obtain ⟨F, h1, _, h3⟩ := explicit c ho d hp k hk hw hs he hne hm ws hy hws hwe
  rw [hy]
  exact ⟨F, h1, by simpa [before, h2] using h3⟩

/-- Other orders.  Full claim: the n-grams of `<s> ws </s>`, as for bigrams.  Proved: those of `ws </s>`; the
n-grams that begin with `<s>` are missing, see `C98_begin_fails`. -/
theorem C98_counts_partial (h2 : c.order ≠ 2) (hm : c.addMarkers = true) (hce : clusterOf c c.eos = c.eos)
    (hys : c.sos ∉ d.yield c) (hye : c.eos ∉ d.yield c) :
    ∃ F, features c k d = some F ∧ ∀ f, IsCount c (d.yield c ++ [c.eos]) 0 f (F f) := by
  obtain ⟨F, h1, _, h3⟩ := adds c ho d hp k hk hw hs he hne hm hce hys hye
  exact ⟨F, h1, by simpa [before, h2] using h3⟩

/-- The same when the rules produce the markers themselves. -/
theorem C98_counts_explicit_partial (h2 : c.order ≠ 2) (hm : c.addMarkers = false) (ws : List Nat)
    (hy : d.yield c = c.sos :: ws ++ [c.eos]) (hws : c.sos ∉ ws) (hwe : c.eos ∉ ws) :
    ∃ F, features c k d = some F ∧ ∀ f, IsCount c (ws ++ [c.eos]) 0 f (F f) := by
  obtain ⟨F, h1, _, h3⟩ := explicit c ho d hp k hk hw hs he hne hm ws hy hws hwe
  exact ⟨F, h1, by simpa [before, h2] using h3⟩

/-- Two derivations of the same string have the same features. -/
theorem C98_same_string (hm : c.addMarkers = true) (hce : clusterOf c c.eos = c.eos) (hys : c.sos ∉ d.yield c)
    (hye : c.eos ∉ d.yield c) (d' : Deriv) (hp' : d'.Proper) (e : d'.yield c = d.yield c) :
    ∃ F, features c k d = some F ∧ features c k d' = some F := by
  obtain ⟨F, h1, h2, _⟩ := adds c ho d hp k hk hw hs he hne hm hce hys hye
  obtain ⟨F', h1', h2', _⟩ := adds c ho d' hp' k hk (by rw [e]; exact hw) hs he hne hm hce (by rw [e]; exact hys) (by rw [e]; exact hye)
  refine ⟨F, h1, ?_⟩
  rw [h1', h2', h2, e]

end

/-- Words 3 and 4 are `a` and `b`; feature 7 is the trigram `a b a`, feature 8 the bigram `<s> a`, and
everything else is feature 9. -/
def sampleCfg (order : Nat) (markers : Bool) : Cfg where
  order := order
  sos := 1
  eos := 2
  unk := 5
  clusters := []
  prefixes := ["NOT-USED", "U:", "B:", "T:", "4:", "5:"]
  sep := "_"
  featname := ""
  tok := fun w => if w = 1 then "<s>" else if w = 2 then "</s>" else if w = 3 then "a" else "b"
  fd := fun s => if s = "T:a_b_a" then 7 else if s = "B:<s>_a" then 8 else 9
  addMarkers := markers

/-- `a` and `b` in turn: the rule puts its second antecedent first. -/
def sampleDeriv : Deriv :=
  .node [.nt 1, .word 4, .nt 0] [.node [.word 3, .word 4, .word 3] [], .node [.word 3, .word 4, .nt 0] [.node [.word 3] []]]

theorem C98_begin_fails : ∃ (c : Cfg) (d : Deriv) (F : Feats), c.order = 3 ∧ c.addMarkers = true ∧ d.Proper ∧
    features c (fun _ => 0) d = some F ∧ ¬ IsCount c (c.sos :: d.yield c ++ [c.eos]) 1 8 (F 8) := by
  have h : ∃ F, features (sampleCfg 3 true) (fun _ => 0) (.node [.word 3] []) = some F := by
    exact Option.isSome_iff_exists.1 (by decide +kernel)
  obtain ⟨F, hF⟩ := h
  refine ⟨sampleCfg 3 true, .node [.word 3] [], F, rfl, rfl, by simp [Deriv.Proper, Deriv.Propers, idxs], hF, ?_⟩
  have h0 : (features (sampleCfg 3 true) (fun _ => 0) (.node [.word 3] [])).map (fun F => F 8) = some 0 := by decide +kernel
  rw [hF] at h0
  simp only [Option.map_some, Option.some.injEq] at h0
  rintro ⟨is, _, h2, h3⟩
  have hm : 1 ∈ is := (h2 1).2 ⟨Nat.le_refl _, by decide, 2, by decide, by decide, by decide, by decide +kernel⟩
  rw [h0] at h3
  have : is = [] := List.length_eq_zero_iff.1 (by omega)
  rw [this] at hm
  cases hm

-- The trigram `a b a` is counted three times in `a b a b a b a`.
example : sampleDeriv.Proper ∧ sampleDeriv.yield (sampleCfg 3 true) = [3, 4, 3, 4, 3, 4, 3] ∧
    (∀ w ∈ sampleDeriv.yield (sampleCfg 3 true), w ≠ 0) ∧ (sampleCfg 3 true).sos ∉ sampleDeriv.yield (sampleCfg 3 true) ∧
    (sampleCfg 3 true).eos ∉ sampleDeriv.yield (sampleCfg 3 true) ∧ clusterOf (sampleCfg 3 true) 2 = 2 ∧
    (features (sampleCfg 3 true) (fun _ => 0) sampleDeriv).map (fun F => (F 7, F 8, F 9)) = some (3, 0, 8) := by
  refine ⟨?_, by decide, by decide, by decide, by decide, by decide, by decide +kernel⟩
  simp only [sampleDeriv, Deriv.Proper, Deriv.Propers, idxs, and_true, List.length_cons, List.length_nil]
  refine ⟨?_, ?_, ?_⟩ <;> decide

-- With bigrams `<s> a` is counted.
example : (features (sampleCfg 2 true) (fun _ => 0) sampleDeriv).map (fun F => (F 7, F 8, F 9)) = some (0, 1, 8) := by
  decide +kernel

-- Explicit markers.
example : (Deriv.node [.word 1, .nt 0, .word 2] [sampleDeriv]).yield (sampleCfg 2 false) = 1 :: [3, 4, 3, 4, 3, 4, 3] ++ [2] ∧
    (features (sampleCfg 2 false) (fun _ => 0) (.node [.word 1, .nt 0, .word 2] [sampleDeriv])).map (fun F => (F 7, F 8, F 9)) =
      some (0, 1, 8) := by decide +kernel

end Cdec.NgramFeat
