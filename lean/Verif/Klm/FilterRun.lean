import Verif.Klm.FilterLemmas
import Mathlib.Data.List.Forall2
/-!
# Lemmas about the filters and their output files
-/
namespace Cdec.Klm.Filter
open FilterSpec (words lines sentences Tag Within looked Kept linesText headerText arpaText)

theorem isTag_iff (w : Txt) (_hw : w ≠ []) : isTag w = true ↔ Tag w := by
  unfold isTag Tag
  rw [List.head?_eq_getElem?, List.getLast?_eq_getElem?]
  simp

/-- no empty words -/
def NoEmpty (ws : List Txt) : Prop := ∀ w ∈ ws, w ≠ []

theorem wordsOf_spec (g : Txt) : wordsOf g = some ((g.splitOnP (· == ' ')).filter (· ≠ [])) := by
  unfold wordsOf
  rw [C54_single ' ' true g _ (le_refl _)]
  simp [keep]

theorem noEmpty_filter (l : List Txt) : NoEmpty (l.filter (· ≠ [])) := by
  intro w hw
  have := List.of_mem_filter hw
  simpa using this

theorem passSingle_iff (V ws : List Txt) (hne : NoEmpty ws) : passSingle V ws = true ↔ Within V ws := by
  induction ws with
  | nil => simp [passSingle, Within]
  | cons w ws ih =>
    have ih := ih (fun v hv => hne v (by simp [hv]))
    have ht := isTag_iff w (hne w (by simp))
    unfold passSingle
    have hw : Within V (w :: ws) ↔ (Tag w ∨ w ∈ V) ∧ Within V ws := by simp [Within]
    rw [hw]
    by_cases h1 : isTag w = true
    · rw [if_pos h1, ih]; simp [ht.mp h1]
    · rw [if_neg h1]
      by_cases h2 : w ∈ V
      · rw [if_neg (by simpa using h2), ih]; simp [h2]
      · rw [if_pos (by simpa using h2)]
        have : ¬ Tag w := fun h => h1 (ht.mpr h)
        simp [h2, this]

/-- the words that are not tags -/
def plain (ws : List Txt) : List Txt := ws.filter fun w => !isTag w

theorem collect_spec (p : Postings) (ws : List Txt) :
    (collect p ws = none ∧ ∃ w ∈ plain ws, p w = []) ∨
      (collect p ws = some ((plain ws).map p) ∧ ∀ w ∈ plain ws, p w ≠ []) := by
  induction ws with
  | nil => right; simp [collect, plain]
  | cons w ws ih =>
    unfold collect
    by_cases h1 : isTag w = true
    · rw [if_pos h1]
      have : plain (w :: ws) = plain ws := by simp [plain, h1]
      rw [this]; exact ih
    · rw [if_neg h1]
      have : plain (w :: ws) = w :: plain ws := by simp [plain, h1]
      rw [this]
      by_cases h2 : p w = []
      · left; rw [if_pos h2]; exact ⟨rfl, w, by simp, h2⟩
      · rw [if_neg h2]
        rcases ih with ⟨e, v, hv, hp⟩ | ⟨e, hp⟩
        · left; rw [e]; exact ⟨rfl, v, by simp [hv], hp⟩
        · right; rw [e]; refine ⟨rfl, ?_⟩
          intro v hv
          rcases List.mem_cons.mp hv with rfl | hv
          · exact h2
          · exact hp v hv

theorem within_iff (S ws : List Txt) (hne : NoEmpty ws) : Within S ws ↔ ∀ w ∈ plain ws, w ∈ S := by
  unfold Within plain
  constructor
  · intro h w hw
    rw [List.mem_filter] at hw
    rcases h w hw.1 with h1 | h1
    · rw [(isTag_iff w (hne w hw.1)).mpr h1] at hw; simp at hw
    · exact h1
  · intro h w hw
    by_cases ht : isTag w = true
    · exact Or.inl ((isTag_iff w (hne w hw)).mp ht)
    · exact Or.inr (h w (List.mem_filter.mpr ⟨hw, by simpa using ht⟩))

theorem plain_nil_iff (ws : List Txt) (hne : NoEmpty ws) : plain ws = [] ↔ ∀ w ∈ ws, Tag w := by
  unfold plain
  rw [List.filter_eq_nil_iff]
  constructor
  · intro h w hw; exact (isTag_iff w (hne w hw)).mp (by simpa using h w hw)
  · intro h w hw; simpa using (isTag_iff w (hne w hw)).mpr (h w hw)

theorem mem_idx {S : List (List Txt)} {w : Txt} {k : Nat} :
    k ∈ idx S w ↔ ∃ s, S[k]? = some s ∧ w ∈ s := by
  unfold idx
  rw [List.mem_filter, List.mem_range]
  constructor
  · rintro ⟨h1, h2⟩
    refine ⟨S[k], List.getElem?_eq_getElem h1, ?_⟩
    simpa [List.getD_eq_getElem?_getD, List.getElem?_eq_getElem h1] using h2
  · rintro ⟨s, h1, h2⟩
    have hk := (List.getElem?_eq_some_iff.mp h1).1
    refine ⟨hk, ?_⟩
    simp [List.getD_eq_getElem?_getD, h1, h2]

theorem idx_sorted (S : List (List Txt)) (w : Txt) : (idx S w).Pairwise (· < ·) :=
  List.Pairwise.filter _ List.pairwise_lt_range

variable {srt : List (List Nat) → List (List Nat)}

theorem passUnion_spec (hs : ∀ x, (srt x).Perm x) (S : List (List Txt)) (ws : List Txt) (hne : NoEmpty ws) :
    ∃ b, passUnion srt (idx S) ws = some b ∧
      (b = true ↔ (∀ w ∈ ws, Tag w) ∨ ∃ s ∈ S, Within s ws) := by
  unfold passUnion
  have hex : plain ws ≠ [] → ((∃ s ∈ S, Within s ws) ↔ ∃ k, ∀ w ∈ plain ws, k ∈ idx S w) := by
    intro hp
    constructor
    · rintro ⟨s, h1, h2⟩
      obtain ⟨k, hk⟩ := List.getElem?_of_mem h1
      exact ⟨k, fun w hw => mem_idx.mpr ⟨s, hk, (within_iff s ws hne).mp h2 w hw⟩⟩
    · rintro ⟨k, hk⟩
      obtain ⟨w, hw⟩ := List.exists_mem_of_ne_nil _ hp
      obtain ⟨s, h1, _⟩ := mem_idx.mp (hk w hw)
      refine ⟨s, List.mem_of_getElem? h1, (within_iff s ws hne).mpr fun v hv => ?_⟩
      obtain ⟨s', h1', h2'⟩ := mem_idx.mp (hk v hv)
      rw [h1] at h1'; cases h1'; exact h2'
  rcases collect_spec (idx S) ws with ⟨e, w, hw, hp⟩ | ⟨e, hp⟩
  · rw [e]
    refine ⟨false, rfl, ?_⟩
    have hpl : plain ws ≠ [] := List.ne_nil_of_mem hw
    rw [← plain_nil_iff ws hne, hex hpl]
    simp only [Bool.false_eq_true, hpl, false_or, false_iff]
    rintro ⟨k, hk⟩
    have := hk w hw
    rw [hp] at this; cases this
  · rw [e]
    rcases hq : plain ws with _ | ⟨v, vs⟩
    · refine ⟨true, rfl, ?_⟩
      rw [← plain_nil_iff ws hne, hq]; simp
    · rw [← plain_nil_iff ws hne, hex (by rw [hq]; simp), hq]
      simp only [List.map_cons, reduceCtorEq, false_or]
      obtain ⟨r, T, h1, h2, h3⟩ := C52_first_intersection (idx S v :: vs.map (idx S))
        (srt (idx S v :: vs.map (idx S))) (hs _) (by simp) (by
          intro s hs'
          rw [← List.map_cons (f := idx S)] at hs'
          obtain ⟨u, _, rfl⟩ := List.mem_map.mp hs'
          exact (idx_sorted S u).imp le_of_lt)
      rw [h1]
      refine ⟨r.isSome, rfl, ?_⟩
      have hcom : ∀ k, Common (idx S v :: vs.map (idx S)) k ↔ ∀ w ∈ v :: vs, k ∈ idx S w := by
        intro k; simp [Common]
      cases r with
      | none =>
        simp only [Option.isSome_none, Bool.false_eq_true, false_iff]
        rintro ⟨k, hk⟩
        exact (h2.mp rfl) k ((hcom k).mpr hk)
      | some k =>
        simp only [Option.isSome_some, true_iff]
        exact ⟨k, (hcom k).mp (h3 k rfl).1⟩

/-! ## Calls on the output files -/

theorem doCalls_all (files : List ArpaOut) (line : Txt) :
    doCalls files [.all line] = some (files.map (·.addNGram line)) := rfl

theorem doCalls_ones (files : List ArpaOut) (line : Txt) (ks : List Nat) (hk : ks.Pairwise (· < ·))
    (hl : ∀ k ∈ ks, k < files.length) :
    ∃ fs, doCalls files (ks.map fun k => .one k line) = some fs ∧ fs.length = files.length ∧
      ∀ k o, files[k]? = some o → fs[k]? = some (if k ∈ ks then o.addNGram line else o) := by
  induction ks generalizing files with
  | nil => exact ⟨files, rfl, rfl, by simp⟩
  | cons j ks ih =>
    rw [List.pairwise_cons] at hk
    obtain ⟨fs, h1, h2, h3⟩ := ih (files.modify j (·.addNGram line)) hk.2
      (by intro k hk'; rw [List.length_modify]; exact hl k (by simp [hk']))
    refine ⟨fs, ?_, by rw [h2, List.length_modify], ?_⟩
    · simp only [List.map_cons, doCalls, doCall, if_pos (hl j (by simp)), Option.bind_some]
      exact h1
    · intro k o ho
      by_cases hkj : j = k
      · subst hkj
        have := h3 j (o.addNGram line) (by rw [List.getElem?_modify]; simp [ho])
        rw [this, if_neg (fun hm => absurd (hk.1 j hm) (lt_irrefl _))]; simp
      · have := h3 k o (by rw [List.getElem?_modify]; simp [hkj, ho])
        rw [this]
        have : k ∈ j :: ks ↔ k ∈ ks := by simp [Ne.symm hkj]
        simp [this]

/-- The filter sends a line to the files for which `cond` holds. -/
def Adds (raw : Bool) (f : Flt) (n : Nat) (ok : Txt → Prop) (cond : Nat → Txt → Bool) : Prop :=
  ∀ line, ok line → ∃ g cs, ngramOf raw line = some g ∧ f g line = some cs ∧
    ∀ files : List ArpaOut, files.length = n → ∃ fs, doCalls files cs = some fs ∧ fs.length = n ∧
      ∀ k o, files[k]? = some o → (cond k line = true → fs[k]? = some (o.addNGram line)) ∧
        (¬ cond k line = true → fs[k]? = some o)

def ArpaOut.adds (o : ArpaOut) (ls : List Txt) : ArpaOut :=
  ⟨o.file ++ linesText ls, o.counter + ls.length, o.counts⟩

theorem adds_nil (o : ArpaOut) : o.adds [] = o := by simp [ArpaOut.adds, linesText]

theorem adds_cons (o : ArpaOut) (l : Txt) (ls : List Txt) : (o.addNGram l).adds ls = o.adds (l :: ls) := by
  simp [ArpaOut.adds, ArpaOut.addNGram, linesText]; omega

theorem addLines_spec {raw : Bool} {f : Flt} {n : Nat} {ok : Txt → Prop} {cond : Nat → Txt → Bool}
    (ha : Adds raw f n ok cond) (ls : List Txt) (hok : ∀ l ∈ ls, ok l) (files : List ArpaOut)
    (hn : files.length = n) :
    ∃ fs, addLines raw f files ls = some fs ∧ fs.length = n ∧
      ∀ (k : Nat) (o : ArpaOut), files[k]? = some o → fs[k]? = some (o.adds (ls.filter fun l => cond k l)) := by
  induction ls generalizing files with
  | nil => exact ⟨files, rfl, hn, fun k o h => by simpa [adds_nil] using h⟩
  | cons l ls ih =>
    obtain ⟨g, cs, h1, h2, h3⟩ := ha l (hok l (by simp))
    obtain ⟨fs, h4, h5, h6⟩ := h3 files hn
    obtain ⟨fs', h7, h8, h9⟩ := ih (fun x hx => hok x (by simp [hx])) fs h5
    refine ⟨fs', by simp only [addLines, h1, h2, h4, Option.bind_some, h7], h8, ?_⟩
    intro k o ho
    by_cases hc : cond k l = true
    · rw [h9 k _ ((h6 k o ho).1 hc), List.filter_cons_of_pos hc, adds_cons]
    · rw [h9 k _ ((h6 k o ho).2 hc), List.filter_cons_of_neg hc]

/-- The sections of one file as text. -/
def body (i : Nat) : List (List Txt) → Txt
  | [] => []
  | sec :: rest => ("\\".toList ++ showNat (i + 1) ++ "-grams:\n".toList) ++ (linesText sec ++ (['\n'] ++ body (i + 1) rest))

theorem addSections_spec {f : Flt} {n : Nat} {ok : Txt → Prop} {cond : Nat → Txt → Bool}
    (ha : Adds false f n ok cond) (secs : List (List Txt)) (hok : ∀ sec ∈ secs, ∀ l ∈ sec, ok l) (i : Nat)
    (files : List ArpaOut) (hn : files.length = n) (hi : ∀ o ∈ files, o.counts.length = i) :
    ∃ fs, addSections f files i secs = some fs ∧ fs.length = n ∧
      ∀ k o, files[k]? = some o → ∃ o', fs[k]? = some o' ∧
        o'.file = o.file ++ body i (secs.map fun sec => sec.filter fun l => cond k l) ∧
        o'.counts = o.counts ++ secs.map fun sec => (sec.filter fun l => cond k l).length := by
  induction secs generalizing files i with
  | nil => exact ⟨files, rfl, hn, fun k o h => ⟨o, h, by simp [body], by simp⟩⟩
  | cons sec secs ih =>
    obtain ⟨fs, h1, h2, h3⟩ := addLines_spec ha sec (hok sec (by simp)) (files.map (·.beginLength (i + 1)))
      (by simpa using hn)
    have hfk : ∀ (k : Nat) (o : ArpaOut), files[k]? = some o → (fs.map (·.endLength (i + 1)))[k]? =
        some ((((o.beginLength (i + 1)).adds (sec.filter fun l => cond k l))).endLength (i + 1)) := by
      intro k o ho
      rw [List.getElem?_map, h3 k (o.beginLength (i + 1)) (by rw [List.getElem?_map, ho]; rfl)]
      rfl
    have hcounts : ∀ o ∈ files, ∀ ls, (((o.beginLength (i + 1)).adds ls).endLength (i + 1)).counts =
        o.counts ++ [ls.length] := by
      intro o ho ls
      have := hi o ho
      simp only [ArpaOut.endLength, ArpaOut.adds, ArpaOut.beginLength, Nat.zero_add, Nat.add_sub_cancel]
      rw [if_pos (by omega), show i + 1 - o.counts.length = 1 by omega]
      rw [show i = o.counts.length from this.symm]
      simp
    obtain ⟨fs', h4, h5, h6⟩ := ih (fun s hs => hok s (by simp [hs])) (i + 1) (fs.map (·.endLength (i + 1)))
      (by simpa using h2) (by
        intro o ho
        obtain ⟨k, hk⟩ := List.getElem?_of_mem ho
        have hkl : k < files.length := by
          have := (List.getElem?_eq_some_iff.mp hk).1
          rw [List.length_map] at this; omega
        have hmem : files[k]? = some files[k] := List.getElem?_eq_getElem hkl
        rw [hfk k _ hmem] at hk
        simp only [Option.some.injEq] at hk
        rw [← hk, hcounts _ (List.getElem_mem hkl), List.length_append, hi _ (List.getElem_mem hkl)]
        rfl)
    refine ⟨fs', by simp only [addSections, h1, h4], h5, ?_⟩
    intro k o ho
    obtain ⟨o', e1, e2, e3⟩ := h6 k _ (hfk k o ho)
    refine ⟨o', e1, ?_, ?_⟩
    · rw [e2]
      simp [ArpaOut.endLength, ArpaOut.adds, ArpaOut.beginLength, body]
    · rw [e3, hcounts o (List.mem_of_getElem? ho)]
      simp

/-! ## The header fits -/

theorem showNat_mono {m n : Nat} (h : m ≤ n) : (showNat m).length ≤ (showNat n).length := by
  induction n using Nat.strongRecOn generalizing m with
  | ind n ih =>
    rw [showNat.eq_def m, showNat.eq_def n]
    by_cases hm : m < 10
    · rw [if_pos hm]
      split
      · simp
      · simp
    · rw [if_neg hm, if_neg (by omega)]
      have := @ih (n / 10) (by omega) (m / 10) (by omega)
      simpa using this

theorem aux6 (A B C D D' E F F' : Txt) (h1 : D.length ≤ D'.length) (h2 : F.length ≤ F'.length) :
    (A ++ B ++ C ++ D ++ E ++ F).length ≤ (A ++ B ++ C ++ D' ++ E ++ F').length := by
  simp only [List.length_append]; omega

theorem aux3 (A B B' C : Txt) (h : B.length ≤ B'.length) :
    (A ++ B ++ C).length ≤ (A ++ B' ++ C).length := by
  simp only [List.length_append]; omega

theorem countLines_mono {a b : List Nat} (h : List.Forall₂ (· ≤ ·) a b) (i : Nat) :
    (countLines i a).length ≤ (countLines i b).length := by
  induction h generalizing i with
  | nil => exact le_refl _
  | @cons x y xs ys hxy _ ih =>
    have h1 := showNat_mono hxy
    have h2 := ih (i + 1)
    exact aux6 _ _ _ _ _ _ _ _ h1 h2

theorem writeCounts_mono {a b : List Nat} (h : List.Forall₂ (· ≤ ·) a b) :
    (writeCounts a).length ≤ (writeCounts b).length := by
  have := countLines_mono h 0
  exact aux3 _ _ _ _ this

theorem countLines_eq (i : Nat) (ns : List Nat) :
    countLines i ns = (ns.zipIdx (i + 1)).flatMap (fun p =>
      "ngram ".toList ++ showNat p.2 ++ "=".toList ++ showNat p.1 ++ "\n".toList) := by
  induction ns generalizing i with
  | nil => rfl
  | cons n ns ih =>
    have h := ih (i + 1)
    rw [List.zipIdx_cons, List.flatMap_cons, ← h]
    rfl

theorem writeCounts_eq (ns : List Nat) : writeCounts ns = headerText ns := by
  unfold writeCounts headerText; rw [countLines_eq]

theorem body_eq (i : Nat) (secs : List (List Txt)) :
    body i secs = (secs.zipIdx (i + 1)).flatMap (fun p =>
      "\\".toList ++ showNat p.2 ++ "-grams:\n".toList ++ linesText p.1 ++ "\n".toList) := by
  induction secs generalizing i with
  | nil => rfl
  | cons n ns ih => simp [body, List.zipIdx_cons, List.flatMap_cons, ih]

/-- What the program writes when the filter sends a line to the files for which `cond` holds. -/
theorem filterArpa_spec {f : Flt} {n : Nat} {ok : Txt → Prop} {cond : Nat → Txt → Bool}
    (ha : Adds false f n ok cond) (secs : List (List Txt)) (hok : ∀ sec ∈ secs, ∀ l ∈ sec, ok l) :
    ∃ out, filterArpa f n secs = some out ∧ out.length = n ∧
      ∀ k < n, ∃ blank, out[k]? = some (arpaText blank (secs.map fun sec => sec.filter fun l => cond k l)) := by
  unfold filterArpa
  obtain ⟨fs, h1, h2, h3⟩ := addSections_spec ha secs hok 0
    ((List.replicate n (ArpaOut.mk [] 0 [])).map (·.reserve (secs.map List.length))) (by simp)
    (by intro o ho; simp at ho; rw [ho.2]; rfl)
  simp only [h1, Option.map_some]
  refine ⟨_, rfl, by simpa using h2, ?_⟩
  intro k hk
  obtain ⟨o', e1, e2, e3⟩ := h3 k ((ArpaOut.mk [] 0 []).reserve (secs.map List.length)) (by simp [hk])
  rw [List.getElem?_map, e1]
  simp only [Option.map_some, Option.some.injEq]
  simp only [ArpaOut.reserve, List.nil_append] at e2 e3
  unfold ArpaOut.finish
  simp only [e2, e3]
  have hmono : (writeCounts (secs.map fun sec => (sec.filter fun l => cond k l).length)).length ≤
      (writeCounts (secs.map List.length)).length := by
    apply writeCounts_mono
    clear h1 e2 e3 h3 hok
    induction secs with
    | nil => exact .nil
    | cons s ss ih => exact .cons (List.length_filter_le _ _) ih
  refine ⟨(writeCounts (secs.map List.length)).length -
    (writeCounts (secs.map fun sec => (sec.filter fun l => cond k l).length)).length, ?_⟩
  rw [List.append_assoc, List.drop_append_of_le_length (by simpa using hmono), List.drop_replicate]
  unfold arpaText
  rw [← writeCounts_eq, ← body_eq, List.map_map]
  simp only [List.append_assoc]
  rfl

theorem filterRaw_spec {f : Flt} {n : Nat} {ok : Txt → Prop} {cond : Nat → Txt → Bool}
    (ha : Adds true f n ok cond) (ls : List Txt) (hok : ∀ l ∈ ls, ok l) :
    ∃ out, filterRaw f n ls = some out ∧ out.length = n ∧
      ∀ k < n, out[k]? = some (linesText (ls.filter fun l => cond k l)) := by
  unfold filterRaw
  obtain ⟨fs, h1, h2, h3⟩ := addLines_spec ha ls hok (List.replicate n (ArpaOut.mk [] 0 [])) (by simp)
  rw [h1]
  refine ⟨_, rfl, by simpa using h2, ?_⟩
  intro k hk
  rw [List.getElem?_map, h3 k (ArpaOut.mk [] 0 []) (by simp [hk])]
  simp [ArpaOut.adds]

/-! ## The n-gram of a line and its context -/

theorem ngramOf_spec (raw : Bool) (line : Txt) (h : raw = false → 2 ≤ (FilterSpec.fields line).length) :
    ngramOf raw line = some (FilterSpec.ngramField raw line) := by
  unfold ngramOf FilterSpec.ngramField FilterSpec.fields at *
  rw [C54_single '\t' false line _ (le_refl _)]
  simp only [keep, Bool.false_eq_true, if_false]
  have hne : line.splitOnP (· == '\t') ≠ [] := List.splitOnP_ne_nil _ _
  generalize line.splitOnP (· == '\t') = q at *
  match q, raw with
  | [], _ => exact absurd rfl hne
  | [a], true => rfl
  | [a], false => simp at h
  | a :: b :: c, true => rfl
  | a :: b :: c, false => rfl

theorem splitOnP_snoc {α : Type _} (p : α → Bool) (s t : List α) (d : α) (hd : p d = true) :
    (s ++ d :: t).splitOnP p = s.splitOnP p ++ t.splitOnP p := by
  induction s with
  | nil => rw [List.nil_append, List.splitOnP_cons_eq_if_modifyHead, if_pos hd]; simp
  | cons c s ih =>
    rw [List.cons_append, List.splitOnP_cons_eq_if_modifyHead, List.splitOnP_cons_eq_if_modifyHead, ih]
    split
    · simp
    · have : s.splitOnP p ≠ [] := List.splitOnP_ne_nil _ _
      cases hq : s.splitOnP p with
      | nil => exact absurd hq this
      | cons a b => simp

theorem lastSpace_spec (g : Txt) (i : Nat) (hi : i < g.length) :
    lastSpace g i ≤ i ∧ (∀ j, lastSpace g i < j → j ≤ i → g[j]? ≠ some ' ') ∧
      (lastSpace g i ≠ 0 → g[lastSpace g i]? = some ' ') := by
  induction i with
  | zero => exact ⟨le_refl _, fun j h1 h2 => by simp only [lastSpace] at h1; omega, fun h => absurd rfl h⟩
  | succ i ih =>
    unfold lastSpace
    by_cases h : g[i + 1]? ≠ some ' '
    · rw [if_pos h]
      obtain ⟨h1, h2, h3⟩ := ih (by omega)
      refine ⟨by omega, fun j a b => ?_, h3⟩
      by_cases hj : j = i + 1
      · rw [hj]; exact h
      · exact h2 j a (by omega)
    · rw [if_neg h]
      push Not at h
      exact ⟨le_refl _, fun j a b => by omega, fun _ => h⟩

theorem splitOnP_of_none {α : Type _} (p : α → Bool) (t : List α) (h : ∀ c ∈ t, p c = false) :
    t.splitOnP p = [t] := by
  rw [List.splitOnP_eq_singleton]
  intro x hx; simpa using h x hx

theorem context_words (g : Txt) (hg : g ≠ []) (hl : g.getLast? ≠ some ' ') :
    ((g.take (lastSpace g (g.length - 1))).splitOnP (· == ' ')).filter (· ≠ []) =
      ((g.splitOnP (· == ' ')).filter (· ≠ [])).dropLast := by
  have hlen : 0 < g.length := List.length_pos_iff.mpr hg
  obtain ⟨h1, h2, h3⟩ := lastSpace_spec g (g.length - 1) (by omega)
  generalize lastSpace g (g.length - 1) = m at *
  have hlast : g[g.length - 1]? ≠ some ' ' := by rw [← List.getLast?_eq_getElem?]; exact hl
  -- no space after position m
  have htail : ∀ c ∈ g.drop (m + 1), (c == ' ') = false := by
    intro c hc
    obtain ⟨j, hj⟩ := List.getElem?_of_mem hc
    rw [List.getElem?_drop] at hj
    have hjl := (List.getElem?_eq_some_iff.mp hj).1
    have := h2 (m + 1 + j) (by omega) (by omega)
    rw [hj] at this
    simpa using this
  have key : g[m]? = some ' ' → g.drop (m + 1) ≠ [] →
      ((g.take m).splitOnP (· == ' ')).filter (· ≠ []) =
      ((g.splitOnP (· == ' ')).filter (· ≠ [])).dropLast := by
    intro hm hne
    have hml := (List.getElem?_eq_some_iff.mp hm)
    obtain ⟨hml, hme⟩ := hml
    have hsplit : g = g.take m ++ ' ' :: g.drop (m + 1) := by
      rw [← hme, List.getElem_cons_drop, List.take_append_drop]
    conv_rhs => rw [hsplit, splitOnP_snoc _ _ _ _ (by simp), splitOnP_of_none _ _ htail, List.filter_append]
    rw [List.filter_cons_of_pos (by simpa using hne)]
    simp
  by_cases hm0 : m = 0
  · subst hm0
    by_cases hs : g[0]? = some ' '
    · have hne : g.drop 1 ≠ [] := by
        intro h
        have : g.length ≤ 1 := List.drop_eq_nil_iff.mp h
        rw [show g.length - 1 = 0 by omega] at hlast
        exact hlast hs
      exact key hs hne
    · have hall : ∀ c ∈ g, (c == ' ') = false := by
        intro c hc
        obtain ⟨j, hj⟩ := List.getElem?_of_mem hc
        by_cases hj0 : j = 0
        · rw [hj0] at hj; rw [hj] at hs; simpa using hs
        · have hjl := (List.getElem?_eq_some_iff.mp hj).1
          have := h2 j (by omega) (by omega)
          rw [hj] at this
          simpa using this
      rw [splitOnP_of_none _ _ hall]
      simp [hg]
  · have hm := h3 hm0
    refine key hm ?_
    intro h
    have hle : g.length ≤ m + 1 := by simpa using h
    have : m = g.length - 1 := by omega
    rw [← this] at hlast
    exact hlast hm

end Cdec.Klm.Filter
