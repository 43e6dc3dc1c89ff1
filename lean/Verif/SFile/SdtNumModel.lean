/-
Model of floating point numbers in SDT files: stream output and input of `double`.

Source: /repo/src/SFile/SFile_SDT.cpp 327-340 (`WriteNumArray`), 342-344 (`WriteArray`), 371-375 (`WriteAttribute_scalar`): `sdtfile << x`
with the flags of a new stream, that is `%g` with six digits; SFile_SDT.load.cpp 60-80 (`ss >> vals[i][j]`).

The text is built digit by digit.  A finite `double` is a rational; the exponent range of `double` is unlimited, so the rounding of
subnormal numbers is not described, and zero has no sign.  Printing rounds the exact value to the nearest decimal, ties to even, as the C
library does.  Reading collects the longest number (sign, digits, point, digits, exponent), as `num_get` does, and takes the nearest
`double`; words like `inf` and `nan` are not numbers to it.
-/
import Verif.SFile.SdtModel
import Verif.General.RoundModel

namespace Softlib.SFile

open Softlib.Config Softlib.General

/-- A `double`. -/
inductive FNum where
  | fin (x : ℚ)
  | inf (neg : Bool)
  | nan (neg : Bool)

/-- Six decimal digits and the decimal exponent of the first one. -/
def sixDigits (x : ℚ) : ℕ × ℤ :=
  let e := Int.log 10 |x|
  let m := (rne (|x| / 10 ^ (e - 5))).toNat
  if m = 10 ^ 6 then (10 ^ 5, e + 1) else (m, e)

/-- `%g` removes the zeros at the end of the fraction. -/
def stripZeros (s : Str) : Str := (s.reverse.dropWhile (· == '0')).reverse

/-- Integer part and fraction; no point without fraction. -/
def pointText (ip fp : Str) : Str := ip ++ (if stripZeros fp = [] then [] else '.' :: stripZeros fp)

/-- The exponent: a sign and at least two digits. -/
def expText (e : ℤ) : Str :=
  'e' :: (if e < 0 then '-' else '+') :: (if e.natAbs < 10 then '0' :: natText e.natAbs else natText e.natAbs)

/-- `%g` of a positive number with the digits `m` and the exponent `e`. -/
def sixText (m : ℕ) (e : ℤ) : Str :=
  let ds := natText m
  if e < -4 ∨ 6 ≤ e then pointText (ds.take 1) (ds.drop 1) ++ expText e
  else if 0 ≤ e then pointText (ds.take (e.toNat + 1)) (ds.drop (e.toNat + 1))
  else pointText ['0'] (List.replicate (-e - 1).toNat '0' ++ ds)

/-- `out << x`. -/
def outNum : FNum → Str
  | .fin x => if x = 0 then ['0'] else (if x < 0 then ['-'] else []) ++ sixText (sixDigits x).1 (sixDigits x).2
  | .inf neg => (if neg then ['-'] else []) ++ "inf".toList
  | .nan neg => (if neg then ['-'] else []) ++ "nan".toList

/-- The digits after the point, and the text after them. -/
def fracPart : Str → Str × Str
  | '.' :: t => (t.takeWhile isDigitC, t.dropWhile isDigitC)
  | s => ([], s)

/-- The exponent, and the text after it: `none` if digits are missing. -/
def expPart : Str → Option (ℤ × Str)
  | 'e' :: t =>
    let w := optSign t
    let ds := w.2.takeWhile isDigitC
    if ds = [] then none else some (signed w.1 ds, w.2.dropWhile isDigitC)
  | 'E' :: t =>
    let w := optSign t
    let ds := w.2.takeWhile isDigitC
    if ds = [] then none else some (signed w.1 ds, w.2.dropWhile isDigitC)
  | s => some (0, s)

/-- The decimal number at the beginning of a text, after blanks. -/
def readDec (s : Str) : Option (ℚ × Str) :=
  let q := optSign (s.dropWhile isSpaceC)
  let ip := q.2.takeWhile isDigitC
  let f := fracPart (q.2.dropWhile isDigitC)
  if ip = [] ∧ f.1 = [] then none
  else match expPart f.2 with
    | none => none
    | some (e, rest) =>
      some ((if q.1 then -1 else 1) * (decVal (ip ++ f.1) : ℚ) * 10 ^ (e - (f.1.length : ℤ)), rest)

/-- `in >> x` for a number with `p + 1` binary digits. -/
def readNum (p : ℕ) (s : Str) : Option (ℚ × Str) := (readDec s).map (fun r => (flBits p r.1, r.2))

/-- The stream operators for finite numbers. -/
def numCodec (p : ℕ) : Codec ℚ := ⟨fun x => outNum (.fin x), readNum p⟩

/-- The output operator for all numbers; nothing is read as a value of this type. -/
def numWriter : Codec FNum := ⟨outNum, fun _ => none⟩

end Softlib.SFile
