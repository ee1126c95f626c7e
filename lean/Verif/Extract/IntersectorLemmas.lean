import Verif.Extract.Intersector
import Verif.Extract.OccurSpec
import Verif.Props.C39
import Mathlib.Data.List.Nodup
/-!
# Lemmas: the intersector
-/
namespace Cdec.Extract
open Spec

/-! ## Chunks -/

theorem chunks_ne_nil : ∀ s : List Int, chunks s ≠ []
  | [] => by simp [chunks]
  | s :: ss => by
    unfold chunks
    split
    · split_ifs <;> simp
    · simp

theorem chunks_cons_term {s : Int} (h : 0 ≤ s) (ss : List Int) :
    chunks (s :: ss) = (s :: (chunks ss).headD []) :: (chunks ss).tail := by
  rw [chunks]
  cases e : chunks ss with
  | nil => exact absurd e (chunks_ne_nil ss)
  | cons c cs => simp [h]

theorem chunks_cons_nt {s : Int} (h : s < 0) (ss : List Int) : chunks (s :: ss) = [] :: chunks ss := by
  rw [chunks]
  cases e : chunks ss with
  | nil => exact absurd e (chunks_ne_nil ss)
  | cons c cs => simp [Int.not_le.2 h]

theorem cons_of_chunks (s : List Int) : chunks s = (chunks s).headD [] :: (chunks s).tail := by
  cases e : chunks s with
  | nil => exact absurd e (chunks_ne_nil s)
  | cons c cs => rfl

theorem chunks_snoc_nt {x : Int} (h : x < 0) : ∀ u : List Int, chunks (u ++ [x]) = chunks u ++ [[]]
  | [] => by rw [List.nil_append, chunks_cons_nt h]; rfl
  | s :: ss => by
    rw [List.cons_append]
    by_cases hs : 0 ≤ s
    · rw [chunks_cons_term hs, chunks_cons_term hs, chunks_snoc_nt h ss, cons_of_chunks ss]; rfl
    · rw [chunks_cons_nt (by omega), chunks_cons_nt (by omega), chunks_snoc_nt h ss]; rfl

theorem chunks_snoc_term {w : Int} (h : 0 ≤ w) : ∀ u : List Int,
    chunks (u ++ [w]) = (chunks u).dropLast ++ [(chunks u).getLastD [] ++ [w]]
  | [] => by rw [List.nil_append, chunks_cons_term h]; rfl
  | s :: ss => by
    rw [List.cons_append]
    have ih := chunks_snoc_term h ss
    by_cases hs : 0 ≤ s
    · rw [chunks_cons_term hs, chunks_cons_term hs, ih]
      rw [cons_of_chunks ss]
      cases e : (chunks ss).tail with
      | nil => simp
      | cons c cs => simp
    · rw [chunks_cons_nt (by omega), chunks_cons_nt (by omega), ih]
      rw [cons_of_chunks ss]
      simp

/-- Positions of nonterminals, recursively. -/
def vp : List Int → List Nat
  | [] => []
  | s :: ss => if 0 ≤ s then (vp ss).map (· + 1) else 0 :: (vp ss).map (· + 1)

theorem build_varPos (s : List Int) : (buildPhrase s).varPos = vp s := by
  have : ∀ (s : List Int) k, (s.zipIdx k).filterMap (fun si => if isTerminal si.1 then none else some si.2) =
      (vp s).map (· + k) := by
    intro s
    induction s with
    | nil => intro k; rfl
    | cons a ss ih =>
      intro k
      rw [List.zipIdx_cons, vp]
      by_cases h : 0 ≤ a
      · rw [if_pos h, List.filterMap_cons_none (by simp [isTerminal, h]), ih, List.map_map]
        apply List.map_congr_left; intro x _; simp only [Function.comp]; omega
      · rw [if_neg h, List.filterMap_cons_some (b := k) (by simp [isTerminal, h]), ih, List.map_cons, List.map_map]
        congr 1
        · omega
        · apply List.map_congr_left; intro x _; simp only [Function.comp]; omega
  simpa [buildPhrase] using this s 0

theorem length_chunks : ∀ s : List Int, (chunks s).length = (vp s).length + 1
  | [] => rfl
  | s :: ss => by
    have ih := length_chunks ss
    have hc := congrArg List.length (cons_of_chunks ss)
    simp only [List.length_cons] at hc
    by_cases h : 0 ≤ s
    · rw [chunks_cons_term h, vp, if_pos h]; simp only [List.length_cons, List.length_map]; omega
    · rw [chunks_cons_nt (by omega), vp, if_neg h]; simp [ih]

theorem getLastD_map_succ (l : List Nat) (h : l ≠ []) : (l.map (· + 1)).getLastD 0 = l.getLastD 0 + 1 := by
  obtain ⟨u, x, rfl⟩ : ∃ u x, l = u ++ [x] := ⟨l.dropLast, l.getLast h, (List.dropLast_append_getLast h).symm⟩
  simp

theorem getD_map_succ (l : List Nat) (k : Nat) (h : k < l.length) : (l.map (· + 1)).getD k 0 = l.getD k 0 + 1 := by
  simp [List.getD_eq_getElem?_getD, h]

theorem getChunkLen_eq : ∀ (s : List Int) (k : Nat), k ≤ (vp s).length →
    Phrase.getChunkLen ⟨s, vp s⟩ k = ((chunks s).getD k []).length
  | [], k, h => by
    have : k = 0 := by simpa [vp] using h
    subst this; rfl
  | s :: ss, k, h => by
    have hlc := length_chunks ss
    have hcc := cons_of_chunks ss
    by_cases hs : 0 ≤ s
    · have ih := getChunkLen_eq ss k (by simpa [vp, hs] using h)
      have hk : k ≤ (vp ss).length := by simpa [vp, hs] using h
      have lhs : Phrase.getChunkLen ⟨s :: ss, vp (s :: ss)⟩ k =
          Phrase.getChunkLen ⟨ss, vp ss⟩ k + if k = 0 then 1 else 0 := by
        simp only [Phrase.getChunkLen, vp, if_pos hs, List.length_map]
        by_cases h0 : (vp ss).length = 0
        · have : k = 0 := by omega
          simp [h0, this]
        · rw [if_neg h0, if_neg h0]
          have hne : vp ss ≠ [] := fun e => h0 (by rw [e]; rfl)
          by_cases hk0 : k = 0
          · rw [if_pos hk0, if_pos hk0, if_pos hk0, getD_map_succ _ _ (by omega)]
          · rw [if_neg hk0, if_neg hk0, if_neg hk0]
            by_cases hkl : k = (vp ss).length
            · rw [if_pos hkl, if_pos hkl, getLastD_map_succ _ hne, List.length_cons]; omega
            · rw [if_neg hkl, if_neg hkl, getD_map_succ _ _ (by omega), getD_map_succ _ _ (by omega)]; omega
      rw [lhs, ih, chunks_cons_term hs]
      cases k with
      | zero => rw [hcc]; simp
      | succ k => rw [hcc]; simp
    · have hk : k ≤ (vp ss).length + 1 := by simpa [vp, hs] using h
      rw [chunks_cons_nt (by omega)]
      cases k with
      | zero => simp [Phrase.getChunkLen, vp, hs]
      | succ k =>
        rw [List.getD_cons_succ, ← getChunkLen_eq ss k (by omega)]
        simp only [Phrase.getChunkLen, vp, if_neg hs, List.length_map, List.length_cons, List.getD_cons_succ,
          Nat.add_sub_cancel]
        rw [if_neg (by omega), if_neg (by omega)]
        by_cases h0 : (vp ss).length = 0
        · have e : vp ss = [] := List.length_eq_zero_iff.1 h0
          have : k = 0 := by omega
          subst this
          simp [e]
        · rw [if_neg h0]
          have hne : vp ss ≠ [] := fun e => h0 (by rw [e]; rfl)
          have hl : (0 :: (vp ss).map (· + 1)).getLastD 0 = (vp ss).getLastD 0 + 1 := by
            have : (0 :: (vp ss).map (· + 1)).getLastD 0 = ((vp ss).map (· + 1)).getLastD 0 := by
              cases e : (vp ss).map (· + 1) with
              | nil => simp
              | cons a b => simp
            rw [this, getLastD_map_succ _ hne]
          by_cases hk0 : k = 0
          · subst hk0
            rw [if_neg (by omega), if_pos rfl, getD_map_succ _ _ (by omega)]
            simp
          · rw [if_neg hk0]
            obtain ⟨j, rfl⟩ := Nat.exists_eq_succ_of_ne_zero hk0
            by_cases hkl : j + 1 = (vp ss).length
            · rw [if_pos (by simp only [Nat.succ_eq_add_one]; omega), if_pos hkl, hl]; omega
            · rw [if_neg (by simp only [Nat.succ_eq_add_one]; omega), if_neg hkl, getD_map_succ _ _ (by simp only [Nat.succ_eq_add_one]; omega),
                List.getD_cons_succ, getD_map_succ _ _ (by omega)]
              simp only [Nat.succ_eq_add_one, Nat.add_sub_cancel]
              omega

theorem arity_eq (s : List Int) : (buildPhrase s).arity + 1 = (chunks s).length := by
  rw [Phrase.arity, build_varPos, length_chunks]

theorem chunkLen_eq (s : List Int) (k : Nat) (h : k < (chunks s).length) :
    (buildPhrase s).getChunkLen k = ((chunks s).getD k []).length := by
  have : buildPhrase s = ⟨s, vp s⟩ := by
    have := build_varPos s
    cases e : buildPhrase s with
    | mk a b => rw [e] at this; cases this; simp only [buildPhrase, Phrase.mk.injEq] at e; rw [e.1]
  rw [this, getChunkLen_eq s k (by rw [length_chunks] at h; omega)]

/-! ## Slices -/

theorem slices_flatten (num : Nat) (hn : 0 < num) : ∀ (ts : List (List Nat)) (fuel : Nat),
    (∀ t ∈ ts, t.length = num) → ts.flatten.length ≤ fuel → slices num fuel ts.flatten = ts
  | [], fuel, _, _ => by cases fuel <;> simp [slices]
  | t :: ts, fuel, h, hf => by
    have ht := h t List.mem_cons_self
    rw [List.flatten_cons, List.length_append] at hf
    obtain ⟨f, rfl⟩ : ∃ f, fuel = f + 1 := ⟨fuel - 1, by omega⟩
    have hne : t ++ ts.flatten ≠ [] := by
      intro e; rw [List.append_eq_nil_iff] at e; rw [e.1] at ht; simp at ht; omega
    rw [List.flatten_cons, slices, if_neg hne]
    have e1 : (t ++ ts.flatten).take num = t := by rw [← ht]; simp
    have e2 : (t ++ ts.flatten).drop num = ts.flatten := by rw [← ht]; simp
    rw [e1, e2, slices_flatten num hn ts f (fun t h' => h t (List.mem_cons_of_mem _ h')) (by omega)]

/-- The matches that a location stands for. -/
def Intersector.matchesOf (I : Intersector) (l : PhraseLocation) : List (List Nat) :=
  slices (I.extendLocation l).2 (I.extendLocation l).1.length (I.extendLocation l).1

theorem matchesOf_flatten (I : Intersector) (ts : List (List Nat)) (num : Nat) (hn : 0 < num)
    (h : ∀ t ∈ ts, t.length = num) : I.matchesOf (.ofMatchings ts.flatten num) = ts := by
  simp only [Intersector.matchesOf, Intersector.extendLocation, PhraseLocation.ofMatchings]
  exact slices_flatten num hn ts _ h (Nat.le_refl _)

/-! ## The two scans -/

theorem mem_prefixScan (I : Intersector) (x : Bool) (sym : Nat) (ps : List Nat) (se : Nat) (qs : List Nat) :
    ∀ (n : Nat) (e : Int), qs ∈ I.prefixScan x sym ps se n e ↔
      ∃ q : Int, e ≤ q ∧ q < e + n ∧ q < se ∧ q - ps.headD 0 < I.span ∧ I.d.data.getD q.toNat 0 = sym ∧
        qs = ps ++ if x then [q.toNat] else []
  | 0, e => by
    simp only [Intersector.prefixScan, List.not_mem_nil, false_iff]
    rintro ⟨q, h1, h2, _⟩; simp at h2; omega
  | n + 1, e => by
    rw [Intersector.prefixScan]
    by_cases hc : e ≥ se ∨ e - ps.headD 0 ≥ I.span
    · rw [if_pos hc]
      simp only [List.not_mem_nil, false_iff]
      rintro ⟨q, h1, h2, h3, h4, _⟩
      omega
    · rw [if_neg hc, List.mem_append, mem_prefixScan I x sym ps se qs n (e + 1)]
      constructor
      · rintro (h | ⟨q, h1, h2, h3⟩)
        · by_cases hd : I.d.data.getD e.toNat 0 = sym
          · rw [if_pos hd] at h
            exact ⟨e, by omega, by push_cast; omega, by omega, by omega, hd, List.mem_singleton.1 h⟩
          · rw [if_neg hd] at h; cases h
        · exact ⟨q, by omega, by push_cast; omega, h3⟩
      · rintro ⟨q, h1, h2, h3, h4, h5, h6⟩
        by_cases hq : q = e
        · subst hq
          left; rw [if_pos h5]; simp [h6]
        · right; exact ⟨q, by omega, by push_cast at h2; omega, h3, h4, h5, h6⟩

theorem mem_suffixScan (I : Intersector) (x : Bool) (sym : Nat) (ps : List Nat) (ss : Nat) (last : Int)
    (qs : List Nat) :
    ∀ (n : Nat) (b : Int), qs ∈ I.suffixScan x sym ps ss last n b ↔
      ∃ q : Int, q ≤ b ∧ b - n < q ∧ (ss : Int) ≤ q ∧ last - q < I.span ∧ I.d.data.getD q.toNat 0 = sym ∧
        qs = q.toNat :: ps.drop (if x then 0 else 1)
  | 0, e => by
    simp only [Intersector.suffixScan, List.not_mem_nil, false_iff]
    rintro ⟨q, h1, h2, _⟩; simp at h2; omega
  | n + 1, b => by
    rw [Intersector.suffixScan]
    by_cases hc : b < ss ∨ last - b ≥ I.span
    · rw [if_pos hc]
      simp only [List.not_mem_nil, false_iff]
      rintro ⟨q, h1, h2, h3, h4, _⟩
      omega
    · rw [if_neg hc, List.mem_append, mem_suffixScan I x sym ps ss last qs n (b - 1)]
      constructor
      · rintro (h | ⟨q, h1, h2, h3⟩)
        · by_cases hd : I.d.data.getD b.toNat 0 = sym
          · rw [if_pos hd] at h
            exact ⟨b, by omega, by push_cast; omega, by omega, by omega, hd, List.mem_singleton.1 h⟩
          · rw [if_neg hd] at h; cases h
        · exact ⟨q, by omega, by push_cast; omega, h3⟩
      · rintro ⟨q, h1, h2, h3, h4, h5, h6⟩
        by_cases hq : q = b
        · subst hq
          left; rw [if_pos h5]; simp [h6]
        · right; exact ⟨q, by omega, by push_cast at h2; omega, h3, h4, h5, h6⟩

theorem nodup_prefixScan (I : Intersector) (x : Bool) (sym : Nat) (ps : List Nat) (se : Nat) :
    ∀ (n : Nat) (e : Int), 0 ≤ e → (x = true ∨ n ≤ 1) → (I.prefixScan x sym ps se n e).Nodup
  | 0, _, _, _ => by simp [Intersector.prefixScan]
  | n + 1, e, he, hx => by
    rw [Intersector.prefixScan]
    by_cases hc : e ≥ se ∨ e - ps.headD 0 ≥ I.span
    · rw [if_pos hc]; simp
    · rw [if_neg hc, List.nodup_append]
      refine ⟨by split_ifs <;> simp, nodup_prefixScan I x sym ps se n (e + 1) (by omega) (hx.imp id (fun h => by omega)), ?_⟩
      intro a ha b hb hab
      subst hab
      rw [mem_prefixScan] at hb
      obtain ⟨q, h1, h2, _, _, _, h3⟩ := hb
      have ha : a = ps ++ if x then [e.toNat] else [] := by
        split_ifs at ha with hd <;> simp_all
      rcases hx with hx | hx
      · subst hx
        rw [h3] at ha
        simp at ha
        omega
      · have : n = 0 := by omega
        subst this; simp at h2; omega

theorem nodup_suffixScan (I : Intersector) (x : Bool) (sym : Nat) (ps : List Nat) (ss : Nat) (last : Int) :
    ∀ (n : Nat) (b : Int), (I.suffixScan x sym ps ss last n b).Nodup
  | 0, _ => by simp [Intersector.suffixScan]
  | n + 1, b => by
    rw [Intersector.suffixScan]
    by_cases hc : b < ss ∨ last - b ≥ I.span
    · rw [if_pos hc]; simp
    · rw [if_neg hc, List.nodup_append]
      refine ⟨by split_ifs <;> simp, nodup_suffixScan I x sym ps ss last n (b - 1), ?_⟩
      intro a ha c hb hab
      subst hab
      rw [mem_suffixScan] at hb
      obtain ⟨q, h1, h2, h4, _, _, h3⟩ := hb
      have ha : a = b.toNat :: ps.drop (if x then 0 else 1) := by
        split_ifs at ha with hd <;> simp_all
      rw [h3] at ha
      simp at ha
      omega

/-! ## Occurrences -/

theorem singleton_prefix_drop (t : List String) (w : String) (p : Nat) : [w] <+: t.drop p ↔ t[p]? = some w := by
  rw [List.singleton_prefix_iff_head?_eq_some, List.head?_drop]

theorem cons_prefix_drop (t : List String) (w : String) (c : List String) (p : Nat) :
    (w :: c) <+: t.drop p ↔ t[p]? = some w ∧ c <+: t.drop (p + 1) := by
  constructor
  · intro h
    obtain ⟨r, hr⟩ := h
    have h0 : t[p]? = some w := by
      have := congrArg (fun l : List String => l[0]?) hr
      simpa [List.getElem?_drop] using this.symm
    refine ⟨h0, r, ?_⟩
    have := congrArg List.tail hr
    simpa [List.tail_drop] using this
  · rintro ⟨h0, r, hr⟩
    refine ⟨r, ?_⟩
    obtain ⟨hp, e⟩ := List.getElem?_eq_some_iff.1 h0
    rw [List.drop_eq_getElem_cons hp, e, ← hr]; rfl

theorem snoc_prefix_drop (t : List String) (w : String) : ∀ (c : List String) (p : Nat),
    (c ++ [w]) <+: t.drop p ↔ c <+: t.drop p ∧ t[p + c.length]? = some w
  | [], p => by simp [singleton_prefix_drop]
  | a :: c, p => by
    rw [List.cons_append, cons_prefix_drop, cons_prefix_drop, snoc_prefix_drop t w c (p + 1), List.length_cons,
      show p + 1 + c.length = p + (c.length + 1) from by omega, and_assoc]

theorem Spec.OccFrom.length {t : List String} {gap : Nat} : ∀ {cs : List (List String)} {ps : List Nat},
    OccFrom t gap cs ps → ps.length = cs.length
  | [c], [p], _ => rfl
  | c :: c' :: cs, p :: q :: ps, h => by
    have := Spec.OccFrom.length h.2.2
    simpa using this
  | [], _, h => by simp [OccFrom] at h
  | [c], [], h => by simp [OccFrom] at h
  | [c], _ :: _ :: _, h => by simp [OccFrom] at h
  | _ :: _ :: _, [], h => by simp [OccFrom] at h
  | _ :: _ :: _, [_], h => by simp [OccFrom] at h

theorem occFrom_snoc {t : List String} {gap : Nat} (c' : List String) (q : Nat) :
    ∀ (cs : List (List String)) (ps : List Nat), cs ≠ [] →
    (OccFrom t gap (cs ++ [c']) (ps ++ [q]) ↔
      OccFrom t gap cs ps ∧ ps.getLastD 0 + (cs.getLastD []).length + gap ≤ q ∧ c' <+: t.drop q)
  | [], _, h => absurd rfl h
  | [c], [], _ => by simp [OccFrom]
  | [c], [p], _ => by simp [OccFrom]
  | [c], p :: p' :: ps, _ => by
    cases ps <;> simp [OccFrom]
  | c :: c'' :: cs, [], _ => by simp [OccFrom]
  | c :: c'' :: cs, [p], _ => by
    cases cs <;> simp [OccFrom]
  | c :: c'' :: cs, p :: p' :: ps, _ => by
    have ih := occFrom_snoc (t := t) (gap := gap) c' q (c'' :: cs) (p' :: ps) (by simp)
    have e1 : (p :: p' :: ps).getLastD 0 = (p' :: ps).getLastD 0 := by simp
    have e2 : (c :: c'' :: cs).getLastD [] = (c'' :: cs).getLastD [] := by simp
    rw [e1, e2]
    simp only [List.cons_append] at ih ⊢
    simp only [OccFrom, ih, and_assoc]

theorem occFrom_grow_last {t : List String} {gap : Nat} (c : List String) (w : String) (p : Nat) :
    ∀ (C : List (List String)) (P : List Nat),
    (OccFrom t gap (C ++ [c ++ [w]]) (P ++ [p]) ↔ OccFrom t gap (C ++ [c]) (P ++ [p]) ∧ t[p + c.length]? = some w)
  | [], [] => by simp [OccFrom, snoc_prefix_drop]
  | [], a :: P => by cases P <;> simp [OccFrom]
  | C0 :: C, P => by
    rw [occFrom_snoc _ _ _ _ (by simp), occFrom_snoc _ _ _ _ (by simp), snoc_prefix_drop]
    simp only [and_assoc]

theorem occFrom_cons {t : List String} {gap : Nat} (c' : List String) (q : Nat) (cs : List (List String))
    (ps : List Nat) (h : cs ≠ []) :
    OccFrom t gap (c' :: cs) (q :: ps) ↔
      OccFrom t gap cs ps ∧ q + c'.length + gap ≤ ps.headD 0 ∧ c' <+: t.drop q := by
  cases cs with
  | nil => exact absurd rfl h
  | cons c cs =>
    cases ps with
    | nil => cases cs <;> simp [OccFrom]
    | cons p ps =>
      simp only [OccFrom, List.headD_cons]
      constructor
      · rintro ⟨a, b, c⟩; exact ⟨c, b, a⟩
      · rintro ⟨a, b, c⟩; exact ⟨c, b, a⟩

theorem occFrom_grow_first {t : List String} {gap : Nat} (w : String) (c : List String) (q : Nat)
    (C : List (List String)) (P : List Nat) :
    OccFrom t gap ((w :: c) :: C) (q :: P) ↔ OccFrom t gap (c :: C) ((q + 1) :: P) ∧ t[q]? = some w := by
  cases C with
  | nil =>
    cases P with
    | nil => simp [OccFrom, cons_prefix_drop, and_comm]
    | cons a P => simp [OccFrom]
  | cons c2 C =>
    rw [occFrom_cons _ _ _ _ (by simp), occFrom_cons _ _ _ _ (by simp), cons_prefix_drop, List.length_cons,
      show q + (c.length + 1) + gap = q + 1 + c.length + gap from by omega]
    constructor
    · rintro ⟨a, b, c, d⟩; exact ⟨⟨a, b, d⟩, c⟩
    · rintro ⟨⟨a, b, d⟩, c⟩; exact ⟨a, b, c, d⟩

theorem Spec.OccFrom.head_lt_end {t : List String} {gap : Nat} : ∀ {cs : List (List String)} {ps : List Nat},
    OccFrom t gap cs ps → (∀ c ∈ cs, c ≠ []) → ps.headD 0 + (cs.getLastD []).length ≤ endOf cs ps
  | [c], [p], _, _ => by simp [endOf]
  | c :: c' :: cs, p :: q :: ps, h, hc => by
    have ih := Spec.OccFrom.head_lt_end h.2.2 (fun c h => hc c (List.mem_cons_of_mem _ h))
    have h2 := h.2.1
    simp only [endOf, List.getLastD_cons, List.headD_cons] at ih ⊢
    omega
  | [], _, h, _ => by simp [OccFrom] at h
  | [c], [], h, _ => by simp [OccFrom] at h
  | [c], _ :: _ :: _, h, _ => by simp [OccFrom] at h
  | _ :: _ :: _, [], h, _ => by simp [OccFrom] at h
  | _ :: _ :: _, [_], h, _ => by simp [OccFrom] at h

/-! ## Lines -/

theorem text_eq (lines : List (List String)) : text lines = textOf lines := rfl

theorem line_facts (lines : List (List String)) (k : Nat) (l : List String) (h : lines[k]? = some l) (p : Nat)
    (h1 : lineStart lines k ≤ p) (h2 : p ≤ lineStart lines k + l.length) :
    (createDataArray lines).getSentenceId p = k ∧
    (createDataArray lines).getSentenceStart k = lineStart lines k ∧
    (createDataArray lines).getSentenceStart (k + 1) - 1 = lineStart lines k + l.length ∧
    lineStart lines k + l.length < (text lines).length := by
  obtain ⟨hk, e⟩ := List.getElem?_eq_some_iff.1 h
  obtain ⟨_, _, hs, _⟩ := createDataArray_fields lines
  have hst : ∀ j, j ≤ lines.length → (createDataArray lines).getSentenceStart j = lineStart lines j := by
    intro j hj
    rw [DataArray.getSentenceStart, hs, List.getD_eq_getElem?_getD, List.getElem?_map, List.getElem?_range (by omega)]
    rfl
  have h3 := ((C62_sentences lines).2 k hk).2 (p - lineStart lines k) (by rw [e]; omega)
  have h4 := ((C62_sentences lines).2 k hk).1
  rw [hst k (by omega), show lineStart lines k + (p - lineStart lines k) = p from by omega] at h3
  have hsucc : lineStart lines (k + 1) = lineStart lines k + l.length + 1 := by
    unfold lineStart text
    rw [List.take_succ, h, List.flatMap_append, List.length_append]
    simp; omega
  refine ⟨h3.2, hst k (by omega), by rw [hst (k + 1) (by omega), hsucc]; omega, ?_⟩
  have : lineStart lines (k + 1) ≤ (text lines).length := by
    unfold lineStart text
    conv_rhs => rw [← List.take_append_drop (k + 1) lines, List.flatMap_append, List.length_append]
    omega
  omega

theorem data_at (lines : List (List String)) (w : String) (sym : Nat)
    (hw : (createDataArray lines).word2id w = some sym) (p : Nat) (hp : p < (text lines).length) :
    (createDataArray lines).data.getD p 0 = sym ↔ (text lines)[p]? = some w := by
  obtain ⟨ok, dec, _⟩ := createDataArray_fields lines
  have := C62_words lines p
  rw [DataArray.getWordAtIndex] at this
  have hl : (createDataArray lines).data.length = (text lines).length := by
    have := congrArg List.length dec
    rw [text_eq]; simpa using this
  rw [List.getElem?_eq_getElem (by omega), Option.bind_some] at this
  rw [List.getD_eq_getElem?_getD, List.getElem?_eq_getElem (by omega), Option.getD_some]
  change _ = (text lines)[p]? at this
  rw [← this]
  constructor
  · intro e; rw [e]; exact (ok.iff _ _).1 hw
  · intro e
    have := (ok.iff _ _).2 e
    rw [hw] at this; exact (Option.some.inj this).symm

end Cdec.Extract
