/-
Model of `SettingSFile`, settings backed by typed vectors.

Source: /repo/src/Configuration/SFile/SettingSFile.cpp 42-375,
/repo/include/softlib/Configuration/ConfigurationSFile.h 10-45.

`slibreal_t` is a type `R` with the conversions used by the code: from integers, to a
64-bit integer (truncation), and the test for being non-negative.  Integers are
mathematical integers in the range of their C type; the narrowing casts of lines 140-143
are reductions modulo a power of two.
-/
import Verif.Config.SettingModel

namespace Softlib.Config

/-- Operations on `slibreal_t` used by the class. -/
structure RealOps (R : Type) where
  zero : R
  ofInt : Int → R
  /-- conversion to `int64_t` -/
  trunc : R → Int
  nonneg : R → Bool

/-- The typed contents (`dtype` and `data`), ConfigurationSFile.h 12-32. -/
inductive SData (R : Type) where
  | unspecified
  | bool (b : List Bool)
  | int32 (i : List Int)
  | int64 (i : List Int)
  | uint32 (u : List Nat)
  | uint64 (u : List Nat)
  | real (r : List R)
  | string (s : List Str)
  deriving DecidableEq, Repr

/-- `ConfigurationException` is `softlib`, `vector::at` failures are `range`. -/
def idx {α : Type} (l : List α) (i : Nat) : Got α :=
  match l[i]? with
  | none => .range
  | some a => .val a

/-- Reduction to `w`-bit two's complement. -/
def wrapS (w : Nat) (z : Int) : Int := (z + 2 ^ (w - 1)) % 2 ^ w - 2 ^ (w - 1)
def wrapU (w : Nat) (z : Int) : Nat := (z % 2 ^ w).toNat

def Got.map {α β : Type} (f : α → β) : Got α → Got β
  | .val a => .val (f a)
  | .invalid => .invalid
  | .range => .range
  | .softlib => .softlib

def Got.bind {α β : Type} (x : Got α) (f : α → Got β) : Got β :=
  match x with
  | .val a => f a
  | .invalid => .invalid
  | .range => .range
  | .softlib => .softlib

/-- What `OverwriteValues` asks of its argument (the interface `Setting`,
Configuration.h 24-66). -/
structure Source (R : Type) where
  num : Got Nat
  isBool : Got Bool
  isInteger32 : Got Bool
  isInteger64 : Got Bool
  isUnsigned32 : Got Bool
  isUnsigned64 : Got Bool
  isNumericVector : Got Bool
  getBool : Nat → Got Bool
  getInteger32 : Nat → Got Int
  getInteger64 : Nat → Got Int
  getUnsigned32 : Nat → Got Nat
  getUnsigned64 : Nat → Got Nat
  getScalar : Nat → Got R
  getString : Nat → Got Str

namespace SData
variable {R : Type}

/-- `GetNumberOfValues`, SettingSFile.cpp 202-215. -/
def num : SData R → Got Nat
  | .bool b => .val b.length
  | .int32 i => .val i.length
  | .int64 i => .val i.length
  | .uint32 u => .val u.length
  | .uint64 u => .val u.length
  | .real r => .val r.length
  | .string s => .val s.length
  | .unspecified => .softlib

/-- `GetBool`, SettingSFile.cpp 124-129. -/
def getBool : SData R → Nat → Got Bool
  | .bool b, i => idx b i
  | _, _ => .softlib

/-- `GetInteger`, SettingSFile.cpp 130-141: everything is converted to `int64_t`. -/
def getInteger (o : RealOps R) : SData R → Nat → Got Int
  | .int32 l, i => idx l i
  | .int64 l, i => idx l i
  | .uint32 l, i => (idx l i).map (fun n : Nat => (n : Int))
  | .uint64 l, i => (idx l i).map (fun n : Nat => wrapS 64 n)
  | .real l, i => (idx l i).map o.trunc
  | _, _ => .softlib

/-- `GetInteger32`, `GetUnsignedInteger32`, `GetUnsignedInteger64`, SettingSFile.cpp 142-145. -/
def getInteger32 (o : RealOps R) (d : SData R) (i : Nat) : Got Int := (d.getInteger o i).map (wrapS 32)
def getUnsigned32 (o : RealOps R) (d : SData R) (i : Nat) : Got Nat := (d.getInteger o i).map (wrapU 32)
def getUnsigned64 (o : RealOps R) (d : SData R) (i : Nat) : Got Nat := (d.getInteger o i).map (wrapU 64)

/-- `GetScalar`, SettingSFile.cpp 146-157. -/
def getScalar (o : RealOps R) : SData R → Nat → Got R
  | .int32 l, i => (idx l i).map o.ofInt
  | .int64 l, i => (idx l i).map o.ofInt
  | .uint32 l, i => (idx l i).map (fun n : Nat => o.ofInt n)
  | .uint64 l, i => (idx l i).map (fun n : Nat => o.ofInt n)
  | .real l, i => idx l i
  | _, _ => .softlib

/-- `GetString`, SettingSFile.cpp 158-163. -/
def getString : SData R → Nat → Got Str
  | .string l, i => idx l i
  | _, _ => .softlib

/-- `GetNumericVector`, SettingSFile.cpp 164-194: the vector is created with
`GetNumberOfValues()` zeros and the values are then pushed behind them. -/
def getNumericVector (o : RealOps R) : SData R → Got (List R)
  | .int32 l => .val (List.replicate l.length o.zero ++ l.map o.ofInt)
  | .int64 l => .val (List.replicate l.length o.zero ++ l.map o.ofInt)
  | .uint32 l => .val (List.replicate l.length o.zero ++ l.map (fun n : Nat => o.ofInt n))
  | .uint64 l => .val (List.replicate l.length o.zero ++ l.map (fun n : Nat => o.ofInt n))
  | .real l => .val (List.replicate l.length o.zero ++ l)
  | _ => .softlib

/-- `GetTextVector`, SettingSFile.cpp 195-200. -/
def getTextVector : SData R → Got (List Str)
  | .string s => .val s
  | _ => .softlib

/-- `IsBool`, SettingSFile.cpp 220-221. -/
def isBool : SData R → Bool
  | .bool _ => true
  | _ => false

/-- `IsInteger`, SettingSFile.cpp 222-232; also `IsNumericVector`, 278-280. -/
def isInteger : SData R → Bool
  | .int32 _ => true
  | .int64 _ => true
  | .uint32 _ => true
  | .uint64 _ => true
  | .real _ => true
  | _ => false

/-- `IsInteger32`, SettingSFile.cpp 233-244: only the first value is looked at. -/
def isInteger32 (o : RealOps R) (d : SData R) : Got Bool :=
  if d.isInteger then (d.getInteger o 0).map (fun i => decide (i ≤ 2 ^ 31 - 1 ∧ - 2 ^ 31 ≤ i))
  else .val false

/-- `IsInteger64`, SettingSFile.cpp 245-246. -/
def isInteger64 : SData R → Bool
  | .int64 _ => true
  | _ => false

/-- `IsUnsignedInteger64(i)`, SettingSFile.cpp 259-273. -/
def isUnsigned64 (o : RealOps R) : SData R → Nat → Got Bool
  | .int32 l, i => (idx l i).map (fun z => decide (0 ≤ z))
  | .int64 l, i => (idx l i).map (fun z => decide (0 ≤ z))
  | .real l, i => (idx l i).map o.nonneg
  | .uint32 _, _ => .val true
  | .uint64 _, _ => .val true
  | _, _ => .val false

/-- `IsUnsignedInteger32(i)`, SettingSFile.cpp 247-258. -/
def isUnsigned32 (o : RealOps R) (d : SData R) (i : Nat) : Got Bool :=
  (d.isUnsigned64 o i).bind fun u =>
    if u then (d.getInteger o i).map (fun z => decide (z ≤ 2 ^ 32 - 1)) else .val false

/-- `Copy`, SettingSFile.cpp 108-119: the copy gets no name, real and string settings are
rejected. -/
def copy : SData R → Got (Str × SData R)
  | .bool b => .val ([], .bool b)
  | .int32 b => .val ([], .int32 b)
  | .int64 b => .val ([], .int64 b)
  | .uint32 b => .val ([], .uint32 b)
  | .uint64 b => .val ([], .uint64 b)
  | _ => .softlib

/-- A `SettingSFile` as argument of `OverwriteValues`. -/
def source (o : RealOps R) (d : SData R) : Source R where
  num := d.num
  isBool := .val d.isBool
  isInteger32 := d.isInteger32 o
  isInteger64 := .val d.isInteger64
  isUnsigned32 := d.isUnsigned32 o 0
  isUnsigned64 := d.isUnsigned64 o 0
  isNumericVector := .val d.isInteger
  getBool := d.getBool
  getInteger32 := d.getInteger32 o
  getInteger64 := d.getInteger o
  getUnsigned32 := d.getUnsigned32 o
  getUnsigned64 := d.getUnsigned64 o
  getScalar := d.getScalar o
  getString := d.getString

end SData

/-- A `SettingScript` as argument of `OverwriteValues`; `conv` is the number read by `stod`. -/
def scriptSource {R : Type} (erange : Str → Bool) (conv : Str → R) (vs : List Str) : Source R where
  num := .val vs.length
  isBool := single isBoolAt vs
  isInteger32 := single isInteger32 vs
  isInteger64 := single isInteger64 vs
  isUnsigned32 := single isUnsigned32 vs
  isUnsigned64 := single isUnsigned64 vs
  isNumericVector := isNumericVector erange vs
  getBool := getBool vs
  getInteger32 := getInteger32 vs
  getInteger64 := getInteger64 vs
  getUnsigned32 := getUnsigned32 vs
  getUnsigned64 := getUnsigned64 vs
  getScalar := fun i => (getScalar erange vs i).map conv
  getString := fun i => idx vs i

/-- `for (i = 0; i < n; i++) v->push_back(get(i))` on top of `acc`. -/
def pushFrom {α : Type} (get : Nat → Got α) (start : Nat) : Nat → List α → Got (List α)
  | 0, acc => .val acc
  | k + 1, acc => (get start).bind fun a => pushFrom get (start + 1) k (acc ++ [a])

/-- One branch of `OverwriteValues`: `new vector(n)` creates `n` default values, then the
loop pushes behind them. -/
def fill {α : Type} (dflt : α) (n : Got Nat) (get : Nat → Got α) : Got (List α) :=
  n.bind fun k => pushFrom get 0 k (List.replicate k dflt)

/-- `OverwriteValues`, SettingSFile.cpp 42-103.  The test of line 43 compares the *static*
type `const Setting*` with `SettingSFile*` and is always false, so the `else` branch runs.
Strings: line 97 calls `GetString()` without the index. -/
def overwriteValues {R : Type} (o : RealOps R) (s : Source R) : Got (SData R) :=
  s.isBool.bind fun b =>
  if b then (fill false s.num s.getBool).map .bool
  else s.isInteger32.bind fun b =>
  if b then (fill 0 s.num s.getInteger32).map .int32
  else s.isInteger64.bind fun b =>
  if b then (fill 0 s.num s.getInteger64).map .int64
  else s.isUnsigned32.bind fun b =>
  if b then (fill 0 s.num s.getUnsigned32).map .uint32
  else s.isUnsigned64.bind fun b =>
  if b then (fill 0 s.num s.getUnsigned64).map .uint64
  else s.isNumericVector.bind fun b =>
  if b then (fill o.zero s.num s.getScalar).map .real
  else (fill [] s.num (fun _ => s.getString 0)).map .string

end Softlib.Config
