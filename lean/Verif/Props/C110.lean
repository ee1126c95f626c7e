import Verif.Util.WeightsLemmas
import Mathlib.Tactic.IntervalCases
import Mathlib.Tactic.FinCases
/-!
# C110: weight files
-/
namespace Cdec
open Weights
variable {V : Type}

/-- Reading a file of well-formed lines: every name that occurs gets the value of its last line, all others keep theirs;
features that were known keep their numbers. -/
theorem C110_lines (N : Num V) (hN : N.Ok) (s : State V) (hs : s.dict.Inv) (ls : List (Line V)) (hls : ∀ l ∈ ls, l.Ok N)
    (h5 : 5 ≤ (fileText N ls).length) (hb : (fileText N ls).take 5 ≠ binaryHeader) :
    ∃ s', initFromFile N s (fileText N ls) = some s' ∧ s'.dict.Inv ∧
      (∀ name, s'.value N name = (lastValue ls name).getD (s.value N name)) ∧
      (∀ name i, s.dict.find name = some i → s'.dict.find name = some i) := by
  obtain ⟨s', h1, h2, h3, h4⟩ := processLines_file hN ls hls s hs
  refine ⟨s', ?_, h2, h3, h4⟩
  have hsp := splitLines_file hN ls hls []
  rw [List.append_nil] at hsp
  unfold initFromFile readText
  rw [if_neg (by omega), if_neg hb, hsp]
  simp [splitLines, h1]

/-- The same if the last line, whose name is plain, does not end in a newline, although it is processed twice. -/
theorem C110_no_newline (N : Num V) (hN : N.Ok) (s : State V) (hs : s.dict.Inv) (ls : List (Line V)) (hls : ∀ l ∈ ls, l.Ok N)
    (name : Str) (sep : UInt8) (v : V) (hl : (Line.entry name sep v).Ok N) (hp : Plain name)
    (h5 : 5 ≤ (fileText N ls ++ (Line.entry name sep v).text N).length)
    (hb : (fileText N ls ++ (Line.entry name sep v).text N).take 5 ≠ binaryHeader) :
    ∃ s', initFromFile N s (fileText N ls ++ (Line.entry name sep v).text N) = some s' ∧ s'.dict.Inv ∧
      (∀ u, s'.value N u = (lastValue (ls ++ [.entry name sep v]) u).getD (s.value N u)) ∧
      (∀ u i, s.dict.find u = some i → s'.dict.find u = some i) := by
  obtain ⟨s', h1, h2, h3, h4⟩ := processLines_file hN ls hls s hs
  have e1 := process_entry hN s' hl
  have hl2 : (Line.entry name 32 v).Ok N := ⟨hl.1, hl.2.1, hl.2.2.1, hl.2.2.2.1, hl.2.2.2.2.1, Or.inr (Or.inr ⟨rfl, hp.2.2.2.2⟩)⟩
  generalize hs1 : ({ dict := (s'.dict.convert name false).1, weights := setWeight N s'.weights (s'.dict.convert name false).2 v } : State V) = s1 at e1
  have e2 := process_entry hN s1 hl2
  have hi1 : s1.dict.Inv := by rw [← hs1]; exact s'.dict.inv_convert h2 name false
  have hv1 : ∀ u, s1.value N u = if u = name then v else s'.value N u := fun u => by rw [← hs1]; exact value_set N s' h2 name v u
  refine ⟨{ dict := (s1.dict.convert name false).1, weights := setWeight N s1.weights (s1.dict.convert name false).2 v }, ?_,
    s1.dict.inv_convert hi1 name false, fun u => ?_, fun u i hu => ?_⟩
  · have hsp := splitLines_file hN ls hls ((Line.entry name sep v).text N)
    rw [splitLines_last (noNewline hN hl), List.append_nil] at hsp
    unfold initFromFile readText
    rw [if_neg (by omega), if_neg hb, hsp]
    have hne : (Line.entry name sep v).text N ≠ [] := by simp [Line.text]
    simp only [h1, hne, if_false, e1]
    rw [show name ++ [32] ++ N.render v = (Line.entry name 32 v).text N from rfl, e2]
  · rw [value_set N s1 hi1, hv1, h3, lastValue_append]
    by_cases hu : u = name
    · simp [hu, lastValue]
    · have hu' : ¬ name = u := fun e => hu e.symm
      simp [hu, hu', lastValue]
  · apply s1.dict.find_mono_convert hi1
    rw [← hs1]
    exact s'.dict.find_mono_convert h2 name false u i (h4 u i hu)

/-- Writing weights and reading them back in any state: features that were written have the written weight, whatever the
order of the features in the reading program; all others keep what they had.  Names must be plain. -/
theorem C110_round_trip_partial [DecidableEq V] (N : Num V) (hN : N.Ok) (s : State V) (hs : s.dict.Inv)
    (hnames : ∀ name ∈ s.dict.words, Plain name) (hnan : ∀ i, N.isNan (s.weights.getD i N.zero) = false)
    (hide : Bool) (extra : Option Str) (hextra : ∀ e, extra = some e → 10 ∉ e)
    (h5 : 5 ≤ (writeToFile N s hide extra).length) (hb : (writeToFile N s hide extra).take 5 ≠ binaryHeader)
    (t : State V) (ht : t.dict.Inv) :
    ∃ t', initFromFile N t (writeToFile N s hide extra) = some t' ∧
      ∀ name, t'.value N name =
        if name ∈ s.dict.words ∧ ¬ (hide = true ∧ s.value N name = N.zero) then s.value N name else t.value N name := by
  generalize hcm : extra.toList.map (fun e => (Line.comment (32 :: e) : Line V)) = cm
  generalize hls : cm ++ written N s.weights hide 1 s.dict.words = ls
  have htext : writeToFile N s hide extra = fileText N ls := by
    unfold writeToFile
    rw [writeLoop_written, ← hls, ← hcm]
    cases extra with
    | none => rfl
    | some e => simp [fileText, Line.text]
  have hok : ∀ l ∈ ls, l.Ok N := by
    intro l hl
    rw [← hls] at hl
    rcases List.mem_append.1 hl with hl | hl
    · rw [← hcm] at hl
      cases extra with
      | none => simp at hl
      | some e =>
        have hl : l = .comment (32 :: e) := by simpa using hl
        subst hl
        show 10 ∉ 32 :: e
        simp only [List.mem_cons, not_or]
        exact ⟨by decide, hextra e rfl⟩
    · exact written_ok N _ _ hnan _ _ hnames l hl
  rw [htext] at h5 hb ⊢
  obtain ⟨t', h1, _, h2, _⟩ := C110_lines N hN t ht ls hok h5 hb
  refine ⟨t', h1, fun name => ?_⟩
  rw [h2 name, ← hls, lastValue_append]
  have hc : lastValue cm name = none := by
    rw [← hcm]
    cases extra <;> rfl
  rw [hc, Option.or_none]
  by_cases hm : name ∈ s.dict.words
  · obtain ⟨j, hj⟩ := List.getElem?_of_mem hm
    have hf : s.dict.find name = some (1 + j) := (hs name (1 + j)).2 ⟨by omega, by rw [show 1 + j - 1 = j by omega]; exact hj⟩
    have hv : s.value N name = s.weights.getD (1 + j) N.zero := by unfold State.value; rw [hf]
    rw [lastValue_written N s.weights hide name s.dict.words 1 j (words_nodup hs) hj, hv]
    by_cases hz : hide = true ∧ s.weights.getD (1 + j) N.zero = N.zero
    · rw [if_pos hz, if_neg (fun h => h.2 hz)]; rfl
    · rw [if_neg hz, if_pos ⟨hm, hz⟩]; rfl
  · rw [lastValue_written_none N _ _ _ _ _ hm, if_neg (fun h => hm h.1)]; rfl

/-! ## Cases -/

namespace C110Case

/-- Digits: the value is a number from 0 to 9, anything else reads as 0. -/
def N : Num Nat where
  render v := if v < 10 then [48 + v.toUInt8] else [48]
  strtod s := match s with | [] => 0 | c :: _ => if 48 ≤ c.toNat ∧ c.toNat < 58 then c.toNat - 48 else 0
  zero := 0
  isNan v := decide (10 ≤ v)

theorem ok : N.Ok := by
  intro v hv
  have hv' : v < 10 := by simpa [N] using hv
  interval_cases v <;> decide

def empty : State Nat := ⟨Dict.empty, []⟩

/-- Features `a` and `LM` with the weights 3 and 0. -/
def two : State Nat := ⟨((Dict.empty.convert [97] false).1.convert [76, 77] false).1, [0, 3, 0]⟩

/-- A feature `a=b` of weight 4. -/
def eqName : State Nat := ⟨(Dict.empty.convert [97, 61, 98] false).1, [0, 4]⟩

end C110Case

open C110Case

/-- A feature with an `=` in its name: its weight is written and lost when it is read back. -/
theorem C110_equals_fails :
    ∃ (s : State Nat) (t' : State Nat), N.Ok ∧ s.dict.Inv ∧ s.value N [97, 61, 98] = 4 ∧
      initFromFile N empty (writeToFile N s false none) = some t' ∧ t'.value N [97, 61, 98] = 0 :=
  ⟨eqName, _, ok, Dict.inv_convert _ Dict.inv_empty _ _, by decide, rfl, by decide⟩

/-- If all weights are zero and zeros are hidden, what is written cannot be read. -/
theorem C110_short_file_fails :
    ∃ s : State Nat, N.Ok ∧ s.dict.Inv ∧ s.dict.words ≠ [] ∧ (∀ name ∈ s.dict.words, Plain name) ∧
      initFromFile N empty (writeToFile N s true none) = none := by
  refine ⟨⟨two.dict, [0, 0, 0]⟩, ok, Dict.inv_convert _ (Dict.inv_convert _ Dict.inv_empty _ _) _ _, by decide, ?_, by decide⟩
  intro name hn
  have hw : two.dict.words = [[97], [76, 77]] := by decide
  have : name = [97] ∨ name = [76, 77] := by simpa [hw] using hn
  rcases this with rfl | rfl <;> (unfold Plain; decide)

/-- The last line `a=b=1`: without a newline at its end it also changes the weight of `a`. -/
theorem C110_newline_fails :
    ∃ t1 t2 : State Nat, initFromFile N two [97, 61, 98, 61, 49, 10] = some t1 ∧ t1.value N [97] = 3 ∧ t1.value N [97, 61, 98] = 1 ∧
      initFromFile N two [97, 61, 98, 61, 49] = some t2 ∧ t2.value N [97] = 0 ∧ t2.value N [97, 61, 98] = 1 :=
  ⟨_, _, rfl, by decide, by decide, rfl, by decide, by decide⟩

/-- A file with a comment, a blank line, the three separators and a name that occurs twice. -/
example : ∃ s', initFromFile N two [35, 120, 10, 10, 97, 32, 49, 10, 76, 77, 61, 50, 10, 98, 9, 53, 10, 97, 61, 55, 10] = some s' ∧
    s'.value N [97] = 7 ∧ s'.value N [76, 77] = 2 ∧ s'.value N [98] = 5 ∧ s'.value N [99] = 0 := by
  obtain ⟨s', h1, _, h3, _⟩ := C110_lines N ok two (Dict.inv_convert _ (Dict.inv_convert _ Dict.inv_empty _ _) _ _)
    [.comment [120], .blank, .entry [97] 32 1, .entry [76, 77] 61 2, .entry [98] 9 5, .entry [97] 61 7]
    (by intro l hl
        fin_cases hl <;> simp [Line.Ok, N])
    (by decide) (by decide)
  refine ⟨s', h1, ?_, ?_, ?_, ?_⟩ <;> rw [h3] <;> decide

/-- Writing `a` and `LM` and reading them in a program that knows neither. -/
example : ∃ t', initFromFile N empty (writeToFile N two false (some [104, 105])) = some t' ∧ t'.value N [97] = 3 ∧ t'.value N [76, 77] = 0 := by
  obtain ⟨t', h1, h2⟩ := C110_round_trip_partial N ok two (Dict.inv_convert _ (Dict.inv_convert _ Dict.inv_empty _ _) _ _)
    (by intro name hn
        have hw : two.dict.words = [[97], [76, 77]] := by decide
        have : name = [97] ∨ name = [76, 77] := by simpa [hw] using hn
        rcases this with rfl | rfl <;> (unfold Plain; decide))
    (by intro i
        rcases i with _ | _ | _ | i <;> simp [two, N])
    false (some [104, 105]) (by intro e he; cases he; decide) (by decide) (by decide) empty Dict.inv_empty
  exact ⟨t', h1, by rw [h2]; decide, by rw [h2]; decide⟩

/-- A last line without a newline. -/
example : ∃ t', initFromFile N two [97, 32, 49, 10, 97, 61, 55] = some t' ∧ t'.value N [97] = 7 := by
  obtain ⟨t', h1, _, h3, _⟩ := C110_no_newline N ok two (Dict.inv_convert _ (Dict.inv_convert _ Dict.inv_empty _ _) _ _)
    [.entry [97] 32 1] (by intro l hl; fin_cases hl; simp [Line.Ok, N]) [97] 61 7 (by simp [Line.Ok, N]) (by unfold Plain; decide)
    (by decide) (by decide)
  exact ⟨t', h1, by rw [h3]; decide⟩

end Cdec
