import Verif.Extract.FixPoint
import Verif.Extract.GapOrder
import Mathlib.Algebra.Order.Field.Rat
/-!
# Extracting rules from one occurrence of a source phrase

Models extractor/target_phrase_extractor.cc and extractor/rule_extractor.cc:123-343.  Words are vocabulary ids, which are not
negative; the nonterminal with index `k` is the symbol `-k` (extractor/vocabulary.cc).  Positions are relative to the start of
their sentence (the code subtracts `source_sent_start` and adds `target_sent_start`).  Rules are lists of symbols; `Phrase` also
keeps the strings of its words, which are left out.
-/
namespace Cdec.Extract

/-! ### Target phrases -/

/-- target_phrase_extractor.cc:47-51: the loop that lowers `target_x_low`; `ok x` is its test on the span. -/
def looseLow (targetLow : List Int) (ok : Nat → Bool) : Nat → Nat
  | 0 => 0
  | x + 1 => if ok (x + 1) && decide (targetLow.getD x (-1) = -1) then looseLow targetLow ok x else x + 1

/-- target_phrase_extractor.cc:53-57: the loop that raises `target_x_high`, with `fuel` words to the limit. -/
def looseHigh (targetLow : List Int) (ok : Nat → Bool) : Nat → Nat → Nat
  | 0, x => x
  | fuel + 1, x => if ok x && decide (targetLow.getD x (-1) = -1) then looseHigh targetLow ok fuel (x + 1) else x

/-- The numbers from `a` to `b`, both included. -/
def upto (a b : Nat) : List Nat := List.range' a (b + 1 - a)

/-- The loops of `GeneratePhrases`, target_phrase_extractor.cc:143-156: all choices of starts and ends of chunks. -/
def generate : List (Nat × Nat) → Nat → List (List Nat)
  | r1 :: r2 :: rs, prev =>
    (upto (max r1.1 prev) r1.2).flatMap fun s => (upto (max s r2.1) r2.2).flatMap fun e => (generate rs e).map fun b => s :: e :: b
  | _, _ => [[]]

/-- target_phrase_extractor.cc:77-84: the ranges of the starts and ends of chunks; the gaps come in target order, each with its
extended form. -/
def ranges (xlow low high xhigh : Nat) (gaps : List ((Nat × Nat) × (Nat × Nat))) : List (Nat × Nat) :=
  (xlow, low) :: (gaps.flatMap fun g => [(g.2.1, g.1.1), (g.1.2, g.2.2)]) ++ [(high, xhigh)]

/-- What a symbol of a target phrase stands for: the word at a position, or the nonterminal with an index. -/
inductive Slot where
  | word (p : Nat)
  | nt (k : Nat)
deriving DecidableEq, Repr

/-- target_phrase_extractor.cc:107-121: the symbols of the target phrase, chunk by chunk. -/
def chunkSlots : List Nat → List Nat → List Slot
  | s :: e :: b, o :: os => (List.range' s (e - s)).map .word ++ .nt (o + 1) :: chunkSlots b os
  | s :: e :: b, [] => (List.range' s (e - s)).map .word ++ chunkSlots b []
  | _, _ => []

/-- The symbol for a slot of a sentence. -/
def Slot.sym (ws : List Int) : Slot → Int
  | .word p => ws.getD p 0
  | .nt k => -(k : Int)

/-- target_phrase_extractor.cc:124-132: the alignment of the phrase pair.  `source_indexes.find` of a word that is not
there is undefined: `none`. -/
def phraseLinks (links : List (Nat × Nat)) (sourceIndex : Nat → Option Nat) (slots : List Slot) : Option (List (Nat × Nat)) :=
  (links.filter fun l => decide (Slot.word l.2 ∈ slots)).mapM fun l => (sourceIndex l.1).map fun i => (i, slots.idxOf (.word l.2))

/-- The sentence pair and the options. -/
structure XEnv where
  src : List Int
  tgt : List Int
  links : List (Nat × Nat)
  maxSpan : Int
  minGap : Int
  maxNT : Nat
  maxSymbols : Nat
  alignedTerminal : Bool
  alignedChunks : Bool
  tight : Bool

def XEnv.spans (E : XEnv) : LinkSpans := getLinksSpans E.src.length E.tgt.length E.links

/-- target_phrase_extractor.cc:60-74: a gap with the unaligned words around it. -/
def looseGap (E : XEnv) (xlow xhigh : Nat) (g : Nat × Nat) : Nat × Nat :=
  if E.tight then g
  else (looseLow E.spans.targetLow (fun x => decide (xlow < x)) g.1, looseHigh E.spans.targetLow (fun x => decide (x < xhigh)) (xhigh - g.2) g.2)

/-- target_phrase_extractor.cc:45-58. -/
def looseSpan (E : XEnv) (low high : Nat) : Nat × Nat :=
  if E.tight then (low, high)
  else (looseLow E.spans.targetLow (fun x => decide ((high : Int) - x < E.maxSpan)) low,
    looseHigh E.spans.targetLow (fun x => decide ((x : Int) - low < E.maxSpan)) (E.tgt.length - high) high)

/-- target_phrase_extractor.cc:41-90: the choices of chunks for target phrase `[low, high)` with the given gaps. -/
def targetChunks (E : XEnv) (gaps : List (Nat × Nat)) (low high : Nat) : List (List Nat) :=
  let order := gapOrder (gaps.map fun g => ((g.1 : Int), (g.2 : Int)))
  let x := looseSpan E low high
  let gs := order.map fun o => (gaps.getD o (0, 0), looseGap E x.1 x.2 (gaps.getD o (0, 0)))
  (generate (ranges x.1 low high x.2 gs) 0).filter fun b => decide (((b.getLastD 0 : Nat) : Int) - (b.headD 0 : Nat) ≤ E.maxSpan)

/-- `ExtractPhrases`, target_phrase_extractor.cc:36-96. -/
def extractPhrases (E : XEnv) (gaps : List (Nat × Nat)) (low high : Nat) (sourceIndex : Nat → Option Nat) : Option (List (List Int × List (Nat × Nat))) :=
  let order := gapOrder (gaps.map fun g => ((g.1 : Int), (g.2 : Int)))
  (targetChunks E gaps low high).mapM fun b =>
    let slots := chunkSlots b order
    (phraseLinks E.links sourceIndex slots).map fun al => (slots.map (Slot.sym E.tgt), al)

/-! ### Source phrases -/

/-- `var_pos` of `PhraseBuilder::Build`, phrase_builder.cc:11-22. -/
def varPos (symbols : List Int) : List Nat := (List.range symbols.length).filter fun i => decide (symbols.getD i 0 < 0)

/-- `GetChunkLen`, phrase.cc:9-19. -/
def chunkLen (symbols : List Int) (index : Nat) : Nat :=
  let v := varPos symbols
  if v.length = 0 then symbols.length
  else if index = 0 then v.getD 0 0
  else if index = v.length then symbols.length - v.getLastD 0 - 1
  else v.getD index 0 - v.getD (index - 1) 0 - 1

/-- The loop at phrase_builder.cc:33-38. -/
def renumber : Nat → List Int → List Int
  | _, [] => []
  | k, s :: ss => if s < 0 then -((k : Int) + 1) :: renumber (k + 1) ss else s :: renumber k ss

/-- `Extend`, phrase_builder.cc:24-46. -/
def extendPhrase (symbols : List Int) (startX endX : Bool) : List Int :=
  let k := if startX then 1 else 0
  let s := renumber k symbols
  (if startX then [-1] else []) ++ s ++ (if endX then [-((k + symbols.countP fun s => decide (s < 0) : Nat) + 1 : Int)] else [])

/-- `GetSourceIndexes`, rule_extractor_helper.cc:347-361. -/
def sourceIndexes : List (Nat × Nat) → Nat → (Nat → Option Nat) → Nat → Option Nat
  | [], _, f => f
  | (m, c) :: rest, k, f => sourceIndexes rest (k + c + 1) fun p => if m ≤ p ∧ p < m + c then some (k + (p - m)) else f p

/-- `CheckAlignedTerminals`, rule_extractor_helper.cc:54-80. -/
def checkAlignedTerminals (E : XEnv) (ms : List (Nat × Nat)) : Bool :=
  let n := ms.countP fun m => (List.range m.2).any fun j => decide (E.spans.sourceLow.getD (m.1 + j) (-1) ≠ -1)
  !E.alignedTerminal || (decide (n ≠ 0) && (!E.alignedChunks || decide (n = ms.length)))

/-- `CheckTightPhrases`, rule_extractor_helper.cc:82-100. -/
def checkTightPhrases (E : XEnv) (ms : List (Nat × Nat)) : Bool :=
  !E.tight || (innerGaps 0 ms).all fun g => decide (E.spans.sourceLow.getD g.1.toNat (-1) ≠ -1) && decide (E.spans.sourceLow.getD (g.2 - 1).toNat (-1) ≠ -1)

/-- `Extract`, rule_extractor.h:28-38. -/
structure Extracted where
  source : List Int
  target : List Int
  count : Rat
  alignment : List (Nat × Nat)

/-- `AddExtracts`, rule_extractor.cc:205-226. -/
def addExtracts (E : XEnv) (source : List Int) (sourceIndex : Nat → Option Nat) (targetGaps : List (Int × Int)) (tl th : Int) : Option (List Extracted) :=
  (extractPhrases E (targetGaps.map fun g => (g.1.toNat, g.2.toNat)) tl.toNat th.toNat sourceIndex).map fun ts =>
    ts.map fun t => ⟨source, t.1, 1 / (ts.length : Rat), t.2⟩

def XEnv.fixParams (E : XEnv) (minSource minTarget maxNewX : Int) (low high arbitrary : Bool) : FixParams :=
  ⟨E.src.length, E.tgt.length, E.maxSpan, minSource, minTarget, maxNewX, low, high, arbitrary⟩

def XEnv.gapParams (E : XEnv) : GapParams := ⟨E.src.length, E.tgt.length, E.maxSpan, E.maxSymbols, E.tight⟩

/-- rule_extractor.cc:246-247: reading `source_low` at a word.  With the extension the index can be one outside the vector, which is
undefined; `junk` stands for whatever is read. -/
def readLow (E : XEnv) (junk p : Int) : Int :=
  if 0 ≤ p ∧ p < E.src.length then E.spans.sourceLow.getD p.toNat (-1) else junk

/-- rule_extractor.cc:253-266: the start of a phrase extended to the left, `none` for `return`. -/
def extendLow (E : XEnv) (startsX extend : Bool) (low : Int) : Option Int :=
  if extend then
    if startsX || decide (low < E.minGap) then none
    else
      let x := low - E.minGap
      if E.tight then
        Option.map Int.ofNat (((List.range (x.toNat + 1)).reverse).find? fun i => decide (E.spans.sourceLow.getD i (-1) ≠ -1))
      else some x
  else some low

/-- rule_extractor.cc:269-286: the end of a phrase extended to the right, `none` for `return`. -/
def extendHigh (E : XEnv) (endsX extend : Bool) (high : Int) : Option Int :=
  if extend then
    if endsX || decide (high + E.minGap > E.src.length) then none
    else
      let x := high + E.minGap
      if E.tight then
        Option.map Int.ofNat ((List.range' x.toNat (E.src.length + 1 - x.toNat)).find? fun i => decide (E.spans.sourceLow.getD (i - 1) (-1) ≠ -1))
      else some x
  else some high

/-- rule_extractor.cc:308-338: the gap at one end; `none` for `return`. -/
def edgeGap (E : XEnv) (extend : Bool) (edge a b : Int) : Option (List (Int × Int)) :=
  if extend then
    if E.tight && decide (E.spans.sourceLow.getD edge.toNat (-1) = -1) then none
    else match findFixPoint (E.fixParams 0 0 0 false false false) E.spans (E.src.length + 1) a b (-1, -1) with
      | some (some r) => some [(r.targetLow, r.targetHigh)]
      | _ => none
  else some []

/-- `AddNonterminalExtremities`, rule_extractor.cc:228-343: the extracts that it adds. -/
def extremities (E : XEnv) (junk : Int) (ms : List (Nat × Nat)) (source : List Int) (bl bh : Int) (targetGaps : List (Int × Int))
    (startsX endsX left right : Bool) : Option (List Extracted) :=
  let dl : Int := if left then 1 else 0
  let dr : Int := if right then 1 else 0
  if E.tight && (decide (readLow E junk (bl - dl) = -1) || decide (readLow E junk (bh + dr - 1) = -1)) then some []
  else match extendLow E startsX left bl, extendHigh E endsX right bh with
    | some xl, some xh =>
      if xh - xl > E.maxSpan ∨ (targetGaps.length : Int) + (dl + dr) > E.maxNT ∨ (source.length : Int) + (dl + dr) > E.maxSymbols then some []
      else match findFixPoint (E.fixParams 1 1 (dl + dr) left right true) E.spans (E.src.length + 1) xl xh (-1, -1) with
        | some (some r) =>
          match edgeGap E left r.sourceLow r.sourceLow bl, edgeGap E right (r.sourceHigh - 1) bh r.sourceHigh with
          | some gl, some gr =>
            addExtracts E (extendPhrase source left right) (sourceIndexes ms (if left || startsX then 1 else 0) fun _ => none)
              (gl ++ targetGaps ++ gr) r.targetLow r.targetHigh
          | _, _ => some []
        | some none => some []
        | none => none
    | _, _ => some []

/-- `ExtractAlignments`, rule_extractor.cc:123-203, for an occurrence of `phrase` with chunks at `matching`. -/
def extractAlignments (E : XEnv) (junk : Int) (phrase : List Int) (matching : List Nat) : Option (List Extracted) :=
  let ms := matching.zip ((List.range matching.length).map (chunkLen phrase))
  if !checkAlignedTerminals E ms || !checkTightPhrases E ms then some []
  else
    let sl : Int := (ms.headD (0, 0)).1
    let sh : Int := (ms.getLastD (0, 0)).1 + (ms.getLastD (0, 0)).2
    match findFixPoint (E.fixParams E.minGap 0 ((E.maxNT : Int) - matching.length + 1) true true false) E.spans (E.src.length + 1) sl sh (-1, -1) with
    | none => none
    | some none => some []
    | some (some r) =>
      match getGaps E.gapParams E.spans ms 0 sl sh r.sourceLow r.sourceHigh phrase.length with
      | none => some []
      | some (sg, tg, _, met) =>
        let startsX := decide (r.sourceLow ≠ sl)
        let endsX := decide (r.sourceHigh ≠ sh)
        let source := extendPhrase phrase startsX endsX
        let first := if met then addExtracts E source (sourceIndexes ms (if startsX then 1 else 0) fun _ => none) tg r.targetLow r.targetHigh else some []
        match first with
        | none => none
        | some first =>
          if sg.length ≥ E.maxNT ∨ source.length ≥ E.maxSymbols ∨ r.sourceHigh - r.sourceLow + E.minGap > E.maxSpan then some first
          else
            match extremities E junk ms source r.sourceLow r.sourceHigh tg startsX endsX false true,
                extremities E junk ms source r.sourceLow r.sourceHigh tg startsX endsX true false,
                extremities E junk ms source r.sourceLow r.sourceHigh tg startsX endsX true true with
            | some a, some b, some c => some (first ++ a ++ b ++ c)
            | _, _, _ => none

end Cdec.Extract
