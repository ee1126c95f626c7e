/-!
# Alignment spans and phrase-pair fix points

Models extractor/rule_extractor_helper.cc:30-52 and 102-264.  `-1` marks an unaligned word or an unknown span, as in
the code.  `int` is unbounded.
-/
namespace Cdec.Extract

/-- The four vectors filled by `GetLinksSpans`. -/
structure LinkSpans where
  sourceLow : List Int
  sourceHigh : List Int
  targetLow : List Int
  targetHigh : List Int

/-- rule_extractor_helper.cc:42-44,47-49: `low[i]` becomes the smaller of itself (unless -1) and `j`. -/
def lowerTo (low : List Int) (i : Nat) (j : Int) : List Int :=
  if low.getD i (-1) = -1 ∨ low.getD i (-1) > j then low.set i j else low

/-- rule_extractor_helper.cc:45,50: `high[i] = max(high[i], j + 1)`. -/
def raiseTo (high : List Int) (i : Nat) (j : Int) : List Int := high.set i (max (high.getD i (-1)) (j + 1))

/-- rule_extractor_helper.cc:41-51: one link. -/
def addLink (s : LinkSpans) (l : Nat × Nat) : LinkSpans where
  sourceLow := lowerTo s.sourceLow l.1 l.2
  sourceHigh := raiseTo s.sourceHigh l.1 l.2
  targetLow := lowerTo s.targetLow l.2 l.1
  targetHigh := raiseTo s.targetHigh l.2 l.1

/-- `GetLinksSpans`, rule_extractor_helper.cc:30-52. -/
def getLinksSpans (slen tlen : Nat) (links : List (Nat × Nat)) : LinkSpans :=
  links.foldl addLink ⟨List.replicate slen (-1), List.replicate slen (-1), List.replicate tlen (-1),
    List.replicate tlen (-1)⟩

/-- rule_extractor_helper.cc:257-262: the body of the loop for word `i`. -/
def projectStep (low high : List Int) (t : Int × Int) (i : Nat) : Int × Int :=
  if low.getD i (-1) ≠ -1 then
    (if t.1 = -1 ∨ low.getD i (-1) < t.1 then low.getD i (-1) else t.1, max t.2 (high.getD i (-1)))
  else t

/-- `FindProjection`, rule_extractor_helper.cc:252-264.  The index is a `size_t`, so that a negative start runs no
iteration. -/
def findProjection (a b : Int) (low high : List Int) (t : Int × Int) : Int × Int :=
  if a < 0 then t else (List.range' a.toNat (b - a).toNat).foldl (projectStep low high) t

/-- The arguments of `FindFixPoint` that do not change, with the two sentence lengths and `max_rule_span`. -/
structure FixParams where
  slen : Nat
  tlen : Nat
  maxSpan : Int
  minSource : Int
  minTarget : Int
  maxNewX : Int
  allowLow : Bool
  allowHigh : Bool
  allowArbitrary : Bool

/-- The spans returned through the reference parameters. -/
structure Fix where
  targetLow : Int
  targetHigh : Int
  sourceLow : Int
  sourceHigh : Int
deriving DecidableEq, Repr

/-- One side of rule_extractor_helper.cc:178-206: `room` is the size of the extension (0 if none), `isNew` whether the
side was extended before; the result is the extension, the flag and the count, or `none` for `return false`. -/
def extendSide (P : FixParams) (room limit : Int) (isNew : Bool) (newX : Int) : Option (Int × Bool × Int) :=
  if room > 0 then
    if !isNew && decide (newX ≥ P.maxNewX) then none
    else
      let newX := if isNew then newX else newX + 1
      if room < P.minSource then
        if P.minSource > limit then none else some (P.minSource, true, newX)
      else some (room, true, newX)
  else some (room, isNew, newX)

/-- The loop at rule_extractor_helper.cc:158-249.  `none`: out of fuel; `some none`: `return false`;
`some (some r)`: `return true`. -/
def fixLoop (P : FixParams) (S : LinkSpans) : Nat → (sl sh tl th bl bh newX : Int) → (nl nh : Bool) →
    Option (Option Fix)
  | 0, _, _, _, _, _, _, _, _, _ => none
  | fuel + 1, sl, sh, tl, th, bl, bh, newX, nl, nh =>
    let bl := min bl sl
    let bh := max bh sh
    if bl = sl ∧ bh = sh then some (some ⟨tl, th, bl, bh⟩)
    else if !P.allowLow && decide (bl < sl) then some none
    else if !P.allowHigh && decide (bh > sh) then some none
    else
      match extendSide P (sl - bl) sl nl newX with
      | none => some none
      | some (left, nl, newX) =>
        match extendSide P (bh - sh) (P.slen - sh) nh newX with
        | none => some none
        | some (right, nh, newX) =>
          let bl := sl - left
          let bh := sh + right
          if bh - bl > P.maxSpan then some none
          else
            let t := findProjection bl sl S.sourceLow S.sourceHigh (tl, th)
            let t := findProjection sh bh S.sourceLow S.sourceHigh t
            if tl = t.1 ∧ th = t.2 then some (some ⟨t.1, t.2, bl, bh⟩)
            else if !P.allowArbitrary then some none
            else if t.2 - t.1 > P.maxSpan then some none
            else
              let b := findProjection t.1 tl S.targetLow S.targetHigh (bl, bh)
              let b := findProjection th t.2 S.targetLow S.targetHigh b
              fixLoop P S fuel bl bh t.1 t.2 b.1 b.2 newX nl nh

/-- rule_extractor_helper.cc:124-142: the minimum target gap, `none` for `return false`. -/
def extendTarget (P : FixParams) (prev t : Int × Int) : Option (Int × Int) :=
  let left := decide (prev.1 ≠ -1 ∧ t.1 ≠ prev.1 ∧ prev.1 - t.1 < P.minTarget)
  let right := decide (prev.2 ≠ -1 ∧ t.2 ≠ prev.2 ∧ t.2 - prev.2 < P.minTarget)
  if left && decide (prev.1 - P.minTarget < 0) then none
  else if right && decide (prev.2 + P.minTarget > P.tlen) then none
  else some (if left then prev.1 - P.minTarget else t.1, if right then prev.2 + P.minTarget else t.2)

/-- `FindFixPoint`, rule_extractor_helper.cc:102-250, for the source phrase `[sl, sh)` and the initial target span
`prev`. -/
def findFixPoint (P : FixParams) (S : LinkSpans) (fuel : Nat) (sl sh : Int) (prev : Int × Int) : Option (Option Fix) :=
  let t := findProjection sl sh S.sourceLow S.sourceHigh prev
  if t.1 = -1 then some none
  else
    match extendTarget P prev t with
    | none => some none
    | some t =>
      if t.2 - t.1 > P.maxSpan then some none
      else
        let b := findProjection t.1 t.2 S.targetLow S.targetHigh (-1, -1)
        fixLoop P S fuel sl sh t.1 t.2 b.1 b.2 0 false false

/-- Parameters of `GetGaps` besides the spans. -/
structure GapParams where
  slen : Nat
  tlen : Nat
  maxSpan : Int
  maxSymbols : Nat
  tight : Bool

/-- rule_extractor_helper.cc:275-288 and 296-312: the gap before or after the phrase.  `gap` is the pair to append,
`isGap` whether there is one, `e1`, `e2` the words at its edges, `inner` the word at the edge of the phrase.  Result:
gaps, number of symbols and whether the phrase is tight on this side; `none` for `return false`. -/
def outerGap (G : GapParams) (S : LinkSpans) (isGap : Bool) (gap : Int × Int) (e1 e2 inner : Int) (numSymbols : Nat) :
    Option (List (Int × Int) × Nat × Bool) :=
  if isGap then
    if numSymbols ≥ G.maxSymbols then none
    else if G.tight && (decide (S.sourceLow.getD e1.toNat (-1) = -1) || decide (S.sourceLow.getD e2.toNat (-1) = -1)) then none
    else some ([gap], numSymbols + 1, true)
  else some ([], numSymbols, !(G.tight && decide (S.sourceLow.getD inner.toNat (-1) = -1)))

/-- rule_extractor_helper.cc:290-294: the gaps between the chunks, relative to the sentence start. -/
def innerGaps (start : Nat) : List (Nat × Nat) → List (Int × Int)
  | (m, c) :: (m', c') :: rest => ((m : Int) + c - start, (m' : Int) - start) :: innerGaps start ((m', c') :: rest)
  | _ => []

/-- The check of one gap at rule_extractor_helper.cc:316-322: no new symbols, no extension.  Result: the reflected
source gap and the target gap. -/
def checkGap (G : GapParams) (S : LinkSpans) (g : Int × Int) : Option ((Int × Int) × (Int × Int)) :=
  match findFixPoint ⟨G.slen, G.tlen, G.maxSpan, 0, 0, 0, false, false, false⟩ S (G.slen + 1) g.1 g.2 (-1, -1) with
  | some (some r) => some ((r.sourceLow, r.sourceHigh), (r.targetLow, r.targetHigh))
  | _ => none

/-- `GetGaps`, rule_extractor_helper.cc:266-328.  `matching` pairs the positions of the chunks with their lengths.
Result: source gaps, target gaps, number of symbols, `met_constraints`; `none` for `return false`. -/
def getGaps (G : GapParams) (S : LinkSpans) (matching : List (Nat × Nat)) (start : Nat) (sl sh bl bh : Int)
    (numSymbols : Nat) : Option (List (Int × Int) × List (Int × Int) × Nat × Bool) := do
  let (left, numSymbols, met1) ← outerGap G S (decide (bl < sl)) (bl, sl) bl (sl - 1) sl numSymbols
  let (right, numSymbols, met2) ← outerGap G S (decide (sh < bh)) (sh, bh) sh (bh - 1) (sh - 1) numSymbols
  let gaps ← (left ++ innerGaps start matching ++ right).mapM (checkGap G S)
  return (gaps.map (·.1), gaps.map (·.2), numSymbols, met1 && met2)

end Cdec.Extract
