/-
Model of `SettingScript`: interpretation of setting values.

Source: /repo/src/Configuration/Script/SettingScript.cpp 44-277,
/repo/src/Configuration/Setting.cpp 30-41.

A setting is its list of value strings.  `std::stoi`, `stoul`, `stoll`, `stoull`, `stod`
are modelled after the C standard (`strtol` family, base 10, "C" locale, 32-bit `int`,
64-bit `long`): blanks are skipped, an optional sign is read, then the longest digit
sequence.  The magnitude limit of `stod` (ERANGE) depends on binary rounding and is a
parameter `erange`: a predicate on the matched text.
-/
import Verif.Config.LexModel

namespace Softlib.Config

/-- Outcome of a member function that may throw. -/
inductive Got (α : Type) where
  /-- `std::invalid_argument` -/
  | invalid
  /-- `std::out_of_range` -/
  | range
  /-- `SOFTLibException` -/
  | softlib
  | val (a : α)
  deriving DecidableEq, Repr

/-- `vector::at`. -/
def atIdx {α β : Type} (vs : List α) (i : Nat) (f : α → Got β) : Got β :=
  match vs[i]? with
  | none => .range
  | some v => f v

/-! ### booleans -/

/-- `StringToBool`, Setting.cpp 31-41. -/
def stringToBool (v : Str) : Got Bool :=
  if v = "yes".toList ∨ v = "Yes".toList ∨ v = "YES".toList ∨
     v = "true".toList ∨ v = "True".toList ∨ v = "TRUE".toList then .val true
  else if v = "no".toList ∨ v = "No".toList ∨ v = "NO".toList ∨
     v = "false".toList ∨ v = "False".toList ∨ v = "FALSE".toList then .val false
  else .softlib

/-- `GetBool(i)`, SettingScript.cpp 47-50. -/
def getBool (vs : List Str) (i : Nat) : Got Bool := atIdx vs i stringToBool

/-- `IsBool(i)`, SettingScript.cpp 143-152. -/
def isBoolAt (vs : List Str) (i : Nat) : Got Bool :=
  atIdx vs i fun v => .val (decide (
    v = "yes".toList ∨ v = "Yes".toList ∨ v = "YES".toList ∨
    v = "no".toList ∨ v = "No".toList ∨ v = "NO".toList ∨
    v = "true".toList ∨ v = "True".toList ∨ v = "TRUE".toList ∨
    v = "false".toList ∨ v = "False".toList ∨ v = "FALSE".toList))

/-- The forms without index: false unless there is exactly one value
(SettingScript.cpp 139-142, 159-162, 177-180, 195-198, 213-216, 239-242). -/
def single (f : List Str → Nat → Got Bool) (vs : List Str) : Got Bool :=
  if vs.length ≠ 1 then .val false else f vs 0

/-! ### integers -/

/-- `isspace` in the "C" locale. -/
def isSpaceC (c : Char) : Bool :=
  c == ' ' || c == '\t' || c == '\n' || c == '\r' || c == '\x0b' || c == '\x0c'

def isDigitC (c : Char) : Bool := '0' ≤ c && c ≤ '9'

/-- Value of a digit sequence. -/
def decVal (ds : List Char) : Nat := ds.foldl (fun a c => 10 * a + (c.toNat - '0'.toNat)) 0

/-- Split off an optional sign; true for minus. -/
def optSign : Str → Bool × Str
  | '-' :: r => (true, r)
  | '+' :: r => (false, r)
  | r => (false, r)

/-- The subject sequence of `strtol` (base 10): sign, digits, number of characters consumed. -/
def intPrefix (s : Str) : Option (Bool × Str × Nat) :=
  let r := s.dropWhile isSpaceC
  let q := optSign r
  let ds := q.2.takeWhile isDigitC
  if ds = [] then none
  else some (q.1, ds, (s.length - q.2.length) + ds.length)

/-- Integer denoted by a sign and digits. -/
def signed (neg : Bool) (ds : Str) : Int := if neg then - (decVal ds : Int) else decVal ds

/-- `stoi` (w = 31), `stol`/`stoll` (w = 63): value and end position. -/
def stoS (w : Nat) (s : Str) : Got (Int × Nat) :=
  match intPrefix s with
  | none => .invalid
  | some (neg, ds, e) =>
    let z := signed neg ds
    if - (2 ^ w : Int) ≤ z ∧ z < 2 ^ w then .val (z, e) else .range

/-- `stoul`/`stoull`: a minus sign negates modulo 2^64. -/
def stoU (s : Str) : Got (Nat × Nat) :=
  match intPrefix s with
  | none => .invalid
  | some (neg, ds, e) =>
    if decVal ds < 2 ^ 64 then
      .val (if neg then (2 ^ 64 - decVal ds) % 2 ^ 64 else decVal ds, e)
    else .range

/-- The body shared by the `Is…Integer…(i)` checks: any exception means false, and the whole
value must have been consumed. -/
def isWhole {α : Type} (f : Str → Got (α × Nat)) (vs : List Str) (i : Nat) : Got Bool :=
  atIdx vs i fun v =>
    match f v with
    | .val (_, e) => .val (decide (e = v.length))
    | _ => .val false

/-- The number part of a conversion. -/
def Got.fst {α : Type} : Got (α × Nat) → Got α
  | .val (a, _) => .val a
  | .invalid => .invalid
  | .range => .range
  | .softlib => .softlib

/-- `IsInteger32(i)`, SettingScript.cpp 163-176. -/
def isInteger32 : List Str → Nat → Got Bool := isWhole (stoS 31)
/-- `IsUnsignedInteger32(i)`, SettingScript.cpp 181-194: `stoul` is 64 bits wide. -/
def isUnsigned32 : List Str → Nat → Got Bool := isWhole stoU
/-- `IsInteger64(i)`, SettingScript.cpp 199-212; also `IsInteger`, 157-158. -/
def isInteger64 : List Str → Nat → Got Bool := isWhole (stoS 63)
/-- `IsUnsignedInteger64(i)`, SettingScript.cpp 217-230. -/
def isUnsigned64 : List Str → Nat → Got Bool := isWhole stoU

/-- `GetInteger32(i)`, SettingScript.cpp 60-62. -/
def getInteger32 (vs : List Str) (i : Nat) : Got Int := atIdx vs i fun v => (stoS 31 v).fst
/-- `GetInteger64(i)`, SettingScript.cpp 70-72; also `GetInteger`, 55. -/
def getInteger64 (vs : List Str) (i : Nat) : Got Int := atIdx vs i fun v => (stoS 63 v).fst
/-- `GetUnsignedInteger32(i)`, SettingScript.cpp 63-65: the 64-bit result is truncated. -/
def getUnsigned32 (vs : List Str) (i : Nat) : Got Nat :=
  atIdx vs i fun v =>
    match stoU v with
    | .val (n, _) => .val (n % 2 ^ 32)
    | .invalid => .invalid
    | .range => .range
    | .softlib => .softlib
/-- `GetUnsignedInteger64(i)`, SettingScript.cpp 73-75. -/
def getUnsigned64 (vs : List Str) (i : Nat) : Got Nat := atIdx vs i fun v => (stoU v).fst

/-! ### floating point -/

def isHexC (c : Char) : Bool :=
  isDigitC c || ('a' ≤ c && c ≤ 'f') || ('A' ≤ c && c ≤ 'F')
def isExpE (c : Char) : Bool := c == 'e' || c == 'E'
def isExpP (c : Char) : Bool := c == 'p' || c == 'P'

/-- Length of an exponent part, 0 if there is none. -/
def expLen (ec : Char → Bool) : Str → Nat
  | [] => 0
  | c :: r =>
    if ec c then
      let q := (optSign r).2
      let ds := q.takeWhile isDigitC
      if ds = [] then 0 else 1 + (r.length - q.length) + ds.length
    else 0

/-- Length of a mantissa with optional exponent. -/
def mantLen (dig ec : Char → Bool) (s : Str) : Option Nat :=
  let a := s.takeWhile dig
  match s.dropWhile dig with
  | '.' :: r =>
    let b := r.takeWhile dig
    if a = [] ∧ b = [] then none
    else some (a.length + 1 + b.length + expLen ec (r.dropWhile dig))
  | r => if a = [] then none else some (a.length + expLen ec r)

/-- Length of a hexadecimal number. -/
def hexLen : Str → Option Nat
  | '0' :: x :: r => if x = 'x' ∨ x = 'X' then (mantLen isHexC isExpP r).map (· + 2) else none
  | _ => none

def isNanChar (c : Char) : Bool :=
  isDigitC c || ('a' ≤ c && c ≤ 'z') || ('A' ≤ c && c ≤ 'Z') || c == '_'

/-- Length of the optional `(...)` after `nan`. -/
def nanTail : Str → Nat
  | '(' :: r =>
    match r.dropWhile isNanChar with
    | ')' :: _ => (r.takeWhile isNanChar).length + 2
    | _ => 0
  | _ => 0

/-- ASCII lower case. -/
def lowerC (c : Char) : Char := if 'A' ≤ c ∧ c ≤ 'Z' then Char.ofNat (c.toNat + 32) else c

/-- Length of `inf`, `infinity`, `nan`, `nan(...)`. -/
def wordLen (s : Str) : Option Nat :=
  if (s.take 8).map lowerC = "infinity".toList then some 8
  else if (s.take 3).map lowerC = "inf".toList then some 3
  else if (s.take 3).map lowerC = "nan".toList then some (3 + nanTail (s.drop 3))
  else none

/-- `strtod`: number of characters consumed, `none` if no conversion. -/
def strtodLen (s : Str) : Option Nat :=
  let r := s.dropWhile isSpaceC
  let q := (optSign r).2
  ((hexLen q).or ((mantLen isDigitC isExpE q).or (wordLen q))).map (fun k => (s.length - q.length) + k)

/-- `std::stod`: the matched text on success. -/
def stod (erange : Str → Bool) (s : Str) : Got Str :=
  match strtodLen s with
  | none => .invalid
  | some k => if erange (s.take k) then .range else .val (s.take k)

/-- `IsScalar(i)`, SettingScript.cpp 243-253: only `invalid_argument` is caught. -/
def isScalarAt (erange : Str → Bool) (vs : List Str) (i : Nat) : Got Bool :=
  atIdx vs i fun v =>
    match stod erange v with
    | .val _ => .val true
    | .invalid => .val false
    | .range => .range
    | .softlib => .softlib

/-- `GetScalar(i)`, SettingScript.cpp 80-89 (the text that is converted). -/
def getScalar (erange : Str → Bool) (vs : List Str) (i : Nat) : Got Str := atIdx vs i (stod erange)

/-- `IsNumericVector()`, SettingScript.cpp 260-271. -/
def isNumericVector (erange : Str → Bool) : List Str → Got Bool
  | [] => .val true
  | v :: vs =>
    match stod erange v with
    | .val _ => isNumericVector erange vs
    | .invalid => .val false
    | .range => .range
    | .softlib => .softlib

/-- `IsNumericVector(n)`, SettingScript.cpp 272-277. -/
def isNumericVectorN (erange : Str → Bool) (vs : List Str) (n : Nat) : Got Bool :=
  if vs.length ≠ n then .val false else isNumericVector erange vs

/-- `GetNumericVector()`, SettingScript.cpp 99-108 (the texts that are converted). -/
def getNumericVector (erange : Str → Bool) : List Str → Got (List Str)
  | [] => .val []
  | v :: vs =>
    match stod erange v with
    | .val t =>
      match getNumericVector erange vs with
      | .val ts => .val (t :: ts)
      | e => e
    | .invalid => .invalid
    | .range => .range
    | .softlib => .softlib

end Softlib.Config
