import Verif.Util.AlignIO
import Mathlib.Data.Rat.Floor
/-!
# Score objects

Models the classes derived from `Score` in mteval/scorer.cc:94-132 (SER), 158-195 and 527-589 (BLEU),
mteval/ter.cc:419-485 (TER), mteval/wer.cc:23-80 (WER), mteval/aer_scorer.cc:12-81, 126-132 (AER) and
mteval/comb_scorer.cc:7-97, 100-190 (the two combinations): adding, subtracting, zero, identity test and the text used
to send a score to another process.

Simplifications: an `int` is an integer; a `float` is a rational number (exact for the integers below 2^24); `none` is
undefined behaviour (a `static_cast` to the wrong class, arrays of different sizes, reading beyond a string), a failing
assertion or an exception.  Of the format of `ostream << float` only the integers are modelled; the text of any other
number is the parameter `frac`.  Not modelled: METEOR, `Clone`, `PlusPartialEquals`, `TimesEquals`, `ScoreDetails`.
-/
namespace Cdec.Scores

/-- `BLEUScore`, scorer.cc:191-194. -/
structure Bleu where
  correct : List ℚ
  hyp : List ℚ
  refLen : ℚ
  hypLen : ℚ
deriving DecidableEq

/-- `TERScore::stats`, ter.cc:423-428, 473. -/
structure Ter where
  ins : ℤ
  del : ℤ
  sub : ℤ
  shift : ℤ
  words : ℤ
deriving DecidableEq

/-- An object of a class derived from `Score`. -/
inductive Score where
  /-- scorer.cc:131 -/
  | ser (correct total : ℤ)
  | bleu (b : Bleu)
  | ter (t : Ter)
  /-- wer.cc:27-28, 71 -/
  | wer (edits words : ℤ)
  /-- aer_scorer.cc:78-80 -/
  | aer (hits predicted inRef : ℤ)
  /-- comb_scorer.cc:65-66 -/
  | bleuTer (b : Bleu) (t : Ter)
  /-- comb_scorer.cc:158-159 -/
  | bleuCbleu (b c : Bleu)
deriving DecidableEq

/-- `valarray` operators `+=` and `-`: undefined when the sizes differ. -/
def zip (f : ℚ → ℚ → ℚ) (a b : List ℚ) : Option (List ℚ) :=
  if a.length = b.length then some (List.zipWith f a b) else none

/-- `BLEUScore::PlusEquals` (`f` is `+`), scorer.cc:536-542; `Subtract` (`-`), 527-534; `PlusEquals` with a scale
(`x + y * scale`), 551-557. -/
def Bleu.op (f : ℚ → ℚ → ℚ) (a b : Bleu) : Option Bleu := do
  let c ← zip f a.correct b.correct
  let h ← zip f a.hyp b.hyp
  some ⟨c, h, f a.refLen b.refLen, f a.hypLen b.hypLen⟩

/-- `stats += ...` and `stats - ...`, ter.cc:446, 456. -/
def Ter.op (f : ℤ → ℤ → ℤ) (a b : Ter) : Ter :=
  ⟨f a.ins b.ins, f a.del b.del, f a.sub b.sub, f a.shift b.shift, f a.words b.words⟩

/-- `PlusEquals(delta)`: scorer.cc:113-116, 536-542, ter.cc:445-447, wer.cc:46-48, aer_scorer.cc:25-30,
comb_scorer.cc:27-30, 120-123. -/
def plus : Score → Score → Option Score
  | .ser c t, .ser c' t' => some (.ser (c + c') (t + t'))
  | .bleu a, .bleu b => (Bleu.op (· + ·) a b).map .bleu
  | .ter a, .ter b => some (.ter (Ter.op (· + ·) a b))
  | .wer e w, .wer e' w' => some (.wer (e + e') (w + w'))
  | .aer m p r, .aer m' p' r' => some (.aer (m + m') (p + p') (r + r'))
  | .bleuTer a t, .bleuTer b u => (Bleu.op (· + ·) a b).map fun x => .bleuTer x (Ter.op (· + ·) t u)
  | .bleuCbleu a c, .bleuCbleu b d => (Bleu.op (· + ·) a b).bind fun x => (Bleu.op (· + ·) c d).map fun y => .bleuCbleu x y
  | _, _ => none

/-- `Subtract(rhs, res)`, the value of `*res`: scorer.cc:119-123, 527-534, ter.cc:455-457, wer.cc:56-58,
aer_scorer.cc:39-45, comb_scorer.cc:46-51, 139-144. -/
def subtract : Score → Score → Option Score
  | .ser c t, .ser c' t' => some (.ser (c - c') (t - t'))
  | .bleu a, .bleu b => (Bleu.op (· - ·) a b).map .bleu
  | .ter a, .ter b => some (.ter (Ter.op (· - ·) a b))
  | .wer e w, .wer e' w' => some (.wer (e - e') (w - w'))
  | .aer m p r, .aer m' p' r' => some (.aer (m - m') (p - p') (r - r'))
  | .bleuTer a t, .bleuTer b u => (Bleu.op (· - ·) a b).map fun x => .bleuTer x (Ter.op (· - ·) t u)
  | .bleuCbleu a c, .bleuCbleu b d => (Bleu.op (· - ·) a b).bind fun x => (Bleu.op (· - ·) c d).map fun y => .bleuCbleu x y
  | _, _ => none

/-- Conversion of a float to an int. -/
def trunc (q : ℚ) : ℤ := if 0 ≤ q then ⌊q⌋ else ⌈q⌉

/-- `x += scale * y` for an int `x`: computed as a float and converted. -/
def addScaled (scale : ℚ) (x y : ℤ) : ℤ := trunc (x + scale * y)

/-- `TERScore::PlusEquals(delta, scale)`, ter.cc:438-444: the exception is thrown on every path. -/
def Ter.plusScaled (_scale : ℚ) (_a _b : Ter) : Option Ter := none

/-- `PlusEquals(delta, scale)`: scorer.cc:109-112, 551-557, ter.cc:438-444, wer.cc:40-45, aer_scorer.cc:19-24,
comb_scorer.cc:23-26, 116-119. -/
def plusScaled (s : ℚ) : Score → Score → Option Score
  | .ser c t, .ser c' t' => some (.ser (addScaled s c c') (addScaled s t t'))
  | .bleu a, .bleu b => (Bleu.op (fun x y => x + y * s) a b).map .bleu
  | .ter a, .ter b => (Ter.plusScaled s a b).map .ter
  | .wer e w, .wer e' w' => some (.wer (addScaled s e e') (addScaled s w w'))
  | .aer m p r, .aer m' p' r' => some (.aer (addScaled s m m') (addScaled s p p') (addScaled s r r'))
  | .bleuTer a t, .bleuTer b u => (Bleu.op (fun x y => x + y * s) a b).bind fun x => (Ter.plusScaled s t u).map fun y => .bleuTer x y
  | .bleuCbleu a c, .bleuCbleu b d =>
    (Bleu.op (fun x y => x + y * s) a b).bind fun x => (Bleu.op (fun x y => x + y * s) c d).map fun y => .bleuCbleu x y
  | _, _ => none

/-- `BLEUScore::GetZero`, scorer.cc:161-163, 573-575. -/
def Bleu.zero (b : Bleu) : Bleu := ⟨List.replicate b.hyp.length 0, List.replicate b.hyp.length 0, 0, 0⟩

/-- `GetZero()`: scorer.cc:117, 573-575, ter.cc:449-451, wer.cc:50-52, aer_scorer.cc:33-35, comb_scorer.cc:40-45,
133-138. -/
def zero : Score → Score
  | .ser _ _ => .ser 0 0
  | .bleu b => .bleu b.zero
  | .ter _ => .ter ⟨0, 0, 0, 0, 0⟩
  | .wer _ _ => .wer 0 0
  | .aer _ _ _ => .aer 0 0 0
  | .bleuTer b _ => .bleuTer b.zero ⟨0, 0, 0, 0, 0⟩
  | .bleuCbleu b c => .bleuCbleu b.zero c.zero

/-- `BLEUScore::IsAdditiveIdentity`, scorer.cc:178-184. -/
def Bleu.isIdentity (b : Bleu) : Bool :=
  if |b.refLen| > 1 / 10 ∨ b.hypLen ≠ 0 then false
  else b.hyp.all (· = 0) && b.correct.all (· = 0)

/-- `TERScore::IsAdditiveIdentity`, ter.cc:467-471. -/
def Ter.isIdentity (t : Ter) : Bool := decide (t = ⟨0, 0, 0, 0, 0⟩)

/-- `IsAdditiveIdentity()`: scorer.cc:127-129, 178-184, ter.cc:467-471, wer.cc:65-69, aer_scorer.cc:60-62,
comb_scorer.cc:61-63, 154-156. -/
def isIdentity : Score → Bool
  | .ser c t => decide (t = 0 ∧ c = 0)
  | .bleu b => b.isIdentity
  | .ter t => t.isIdentity
  | .wer e w => decide (e = 0 ∧ w = 0)
  | .aer m p r => decide (m = 0 ∧ p = 0 ∧ r = 0)
  | .bleuTer b t => b.isIdentity && t.isIdentity
  | .bleuCbleu b c => b.isIdentity && c.isIdentity

/-- The loop by which callers score a corpus, e.g. training/mira/kbest_cut_mira.cc:350-354 and 596-600:
`if (!acc) acc = s->GetZero(); acc->PlusEquals(*s);`. -/
def corpus (s : Score) (ds : List Score) : Option Score := ds.foldlM plus (zero s)

/-! ## Text -/

/-- `os << int`. -/
def showInt (x : ℤ) : List Char := if x < 0 then '-' :: showNat x.natAbs else showNat x.natAbs

/-- `is >> int`: skip spaces, a sign, digits. -/
def readInt (s : List Char) : Option (ℤ × List Char) :=
  match skipSpaces s with
  | [] => none
  | c :: t =>
    if c = '-' then
      match t with
      | [] => none
      | d :: t => if isDigit d then let r := readNat 0 (d :: t); some (-(r.1 : ℤ), r.2) else none
    else if isDigit c then let r := readNat 0 (c :: t); some ((r.1 : ℤ), r.2) else none

/-- Division with rounding to the nearest, ties to the even number. -/
def roundDiv (n d : ℕ) : ℕ :=
  if 2 * (n % d) < d then n / d else if 2 * (n % d) > d then n / d + 1 else n / d + n / d % 2

/-- The digits after the point, without the zeros at the end. -/
def fracDigits (q : ℕ) : List Char := ((showNat q).drop 1).reverse.dropWhile (· = '0') |>.reverse

/-- `os << float` (as `%g`, six digits) for an integer of at least 10^6: mantissa, point and exponent of two digits. -/
def showSci (n : ℕ) : List Char :=
  let e := (showNat n).length - 1
  let q := roundDiv n (10 ^ (e - 5))
  let m := if q = 10 ^ 6 then (10 ^ 5, e + 1) else (q, e)
  let f := fracDigits m.1
  (showNat m.1).take 1 ++ (if f = [] then [] else '.' :: f) ++ ['e', '+'] ++ (if m.2 < 10 then ['0'] else []) ++ showNat m.2

/-- `os << float`; numbers that are not integers are left to `frac`. -/
def showFloat (frac : ℚ → List Char) (x : ℚ) : List Char :=
  if x.den = 1 then
    if x.num.natAbs < 10 ^ 6 then showInt x.num
    else (if x.num < 0 then ['-'] else []) ++ showSci x.num.natAbs
  else frac x

/-- Digits, an optional point with digits, an optional exponent. -/
def readMantissa (s : List Char) : ℚ × List Char :=
  let r := readNat 0 s
  let p : ℚ × List Char := match r.2 with
    | '.' :: t => let f := readNat 0 t; ((r.1 : ℚ) + (f.1 : ℚ) / 10 ^ (t.length - f.2.length), f.2)
    | t => (r.1, t)
  match p.2 with
  | 'e' :: '+' :: t => let e := readNat 0 t; (p.1 * 10 ^ e.1, e.2)
  | 'e' :: '-' :: t => let e := readNat 0 t; (p.1 / 10 ^ e.1, e.2)
  | t => (p.1, t)

/-- `is >> float`. -/
def readFloat (s : List Char) : Option (ℚ × List Char) :=
  match skipSpaces s with
  | [] => none
  | c :: t =>
    if c = '-' then
      match t with
      | [] => none
      | d :: t => if isDigit d then let r := readMantissa (d :: t); some (-r.1, r.2) else none
    else if isDigit c then some (readMantissa (c :: t)) else none

/-- The loop of `BLEUScore::Encode`, scorer.cc:586-587. -/
def encodeCounts (frac : ℚ → List Char) : List ℚ → List ℚ → List Char
  | c :: cs, h :: hs => ' ' :: showFloat frac c ++ ' ' :: showFloat frac h ++ encodeCounts frac cs hs
  | _, _ => []

/-- `BLEUScore::Encode`, scorer.cc:582-589. -/
def Bleu.encode (frac : ℚ → List Char) (b : Bleu) : List Char :=
  showInt b.correct.length ++ ' ' :: showFloat frac b.refLen ++ ' ' :: showFloat frac b.hypLen ++
    encodeCounts frac b.correct b.hyp

/-- The loop of `BLEUScorerBase::ScoreFromString`, scorer.cc:292-295. -/
def decodeCounts : ℕ → List Char → Option (List ℚ × List ℚ)
  | 0, _ => some ([], [])
  | n + 1, s => do
    let (c, s) ← readFloat s
    let (h, s) ← readFloat s
    let (cs, hs) ← decodeCounts n s
    some (c :: cs, h :: hs)

/-- `BLEUScorerBase::ScoreFromString`, scorer.cc:285-297. -/
def Bleu.decode (s : List Char) : Option Bleu := do
  let (n, s) ← readInt s
  if n < 0 then none
  let (r, s) ← readFloat s
  let (h, s) ← readFloat s
  let (cs, hs) ← decodeCounts n.toNat s
  some ⟨cs, hs, r, h⟩

/-- `TERScore::Encode`, ter.cc:458-466. -/
def Ter.encode (t : Ter) : List Char :=
  showInt t.ins ++ ' ' :: (showInt t.del ++ ' ' :: (showInt t.sub ++ ' ' :: (showInt t.shift ++ ' ' :: showInt t.words)))

/-- `TERScorer::ScoreFromString`, ter.cc:476-485. -/
def Ter.decode (s : List Char) : Option Ter := do
  let (i, s) ← readInt s
  let (d, s) ← readInt s
  let (u, s) ← readInt s
  let (h, s) ← readInt s
  let (w, _) ← readInt s
  some ⟨i, d, u, h, w⟩

/-- The four bytes of an int in memory. -/
def bytes32 (x : ℤ) : List Char :=
  let u := (x % 2 ^ 32).toNat
  [Char.ofNat (u % 256), Char.ofNat (u / 256 % 256), Char.ofNat (u / 65536 % 256), Char.ofNat (u / 16777216 % 256)]

/-- The int at offset `4 * k`. -/
def int32At (s : List Char) (k : ℕ) : Option ℤ :=
  match s.drop (4 * k) with
  | a :: b :: c :: d :: _ =>
    let u := a.toNat + 256 * b.toNat + 65536 * c.toNat + 16777216 * d.toNat
    some (if u < 2 ^ 31 then (u : ℤ) else (u : ℤ) - 2 ^ 32)
  | _ => none

/-- The value of a `char` as an int. -/
def signedByte (c : Char) : ℤ := if c.toNat < 128 then (c.toNat : ℤ) else (c.toNat : ℤ) - 256

/-- The combinations, comb_scorer.cc:52-60, 145-153: the size as one byte and the two texts. -/
def combine (bs ts : List Char) : List Char := Char.ofNat (bs.length % 256) :: (bs ++ ts)

/-- The two parts, comb_scorer.cc:92-95, 185-188; a negative length takes everything, a start beyond the end throws. -/
def parts (s : List Char) : Option (List Char × List Char) :=
  match s with
  | [] => none
  | c :: t =>
    let n := signedByte c
    let first := if n < 0 then t else t.take n.toNat
    if 1 + n < 0 ∨ 1 + n > (c :: t).length then none
    else some (first, (c :: t).drop (1 + n).toNat)

/-- `Encode(out)`: scorer.cc:124-126, 582-589, ter.cc:458-466, wer.cc:59-64, aer_scorer.cc:71-76, comb_scorer.cc:52-60,
145-153. -/
def encode (frac : ℚ → List Char) : Score → Option (List Char)
  | .ser _ _ => none
  | .bleu b => some (b.encode frac)
  | .ter t => some t.encode
  | .wer e w => some (showInt e ++ ' ' :: showInt w)
  | .aer m p r => some (bytes32 m ++ (bytes32 p ++ bytes32 r))
  | .bleuTer b t => some (combine (b.encode frac) t.encode)
  | .bleuCbleu b c => some (combine (b.encode frac) (c.encode frac))

/-- The argument `type`; the four types of BLEU are read in the same way. -/
inductive Kind where
  | ser | bleu | ter | wer | aer | bleuTer | bleuCbleu
deriving DecidableEq

/-- `SentenceScorer::CreateScoreFromString`, scorer.cc:416-442; wer.cc:74-80; aer_scorer.cc:126-132. -/
def decode (k : Kind) (s : List Char) : Option Score :=
  match k with
  | .ser => none
  | .bleu => (Bleu.decode s).map .bleu
  | .ter => (Ter.decode s).map .ter
  | .wer => do
    let (e, s) ← readInt s
    let (w, _) ← readInt s
    some (.wer e w)
  | .aer => do
    let m ← int32At s 0
    let p ← int32At s 1
    let r ← int32At s 2
    some (.aer m p r)
  | .bleuTer => do
    let (a, b) ← parts s
    let x ← Bleu.decode a
    let y ← Ter.decode b
    some (.bleuTer x y)
  | .bleuCbleu => do
    let (a, b) ← parts s
    let x ← Bleu.decode a
    let y ← Bleu.decode b
    some (.bleuCbleu x y)

end Cdec.Scores
