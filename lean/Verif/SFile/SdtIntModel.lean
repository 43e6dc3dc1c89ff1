/-
Model of integers in SDT files.

Source: /repo/src/SFile/SFile_SDT.cpp 147-186 (`GetInt32_2D` and so on), 202-258 (`GetDoubles1D`, `GetInt32_1D` and so on), 327-355
(`WriteNumArray` and the functions that write integers), 406-415 (lists); SFile_SDT.load.cpp 60-89 (`LoadMatrix`: all numbers are read
as `double`); SFile.cpp 175-312 (`GetIntArray`, `GetIntList` and `GetInt`: for SDT files the functions of `int64_t`).

Writing and the structure of files are those of `Verif/SFile/SdtModel.lean`.  A `double` is a rational.  `double` to integer conversion
drops the fraction; it is undefined behaviour if the result is not in the range of the type.  The release of the matrix by the reading
functions is the subject of C24.
-/
import Verif.SFile.SdtReadsProps
import Verif.General.ElemModel

namespace Softlib.SFile

open Softlib.Config Softlib.General

/-- The integer types of the class. -/
inductive SInt where
  | i32
  | u32
  | i64
  | u64
  deriving DecidableEq

def SInt.lo : SInt → Int
  | .i32 => -2 ^ 31
  | .u32 => 0
  | .i64 => -2 ^ 63
  | .u64 => 0

def SInt.hi : SInt → Int
  | .i32 => 2 ^ 31 - 1
  | .u32 => 2 ^ 32 - 1
  | .i64 => 2 ^ 63 - 1
  | .u64 => 2 ^ 64 - 1

/-- `(T)x` for a `double`; `none` is undefined behaviour. -/
def SInt.cast (t : SInt) (x : ℚ) : Option Int :=
  if t.lo ≤ truncQ x ∧ truncQ x ≤ t.hi then some (truncQ x) else none

inductive IntRead (β : Type) where
  | ok (v : β)
  | exception
  | ub
  deriving DecidableEq

/-- `SFile_SDT_Get_IntArray2D`, 156-174. -/
def sdtInt2D (t : SInt) (st : Store ℚ) (n : Str) : IntRead (List (List Int)) :=
  match lookup st.mats n with
  | none => .exception
  | some m =>
    match m.vals.mapM (fun r => r.mapM t.cast) with
    | none => .ub
    | some rows => .ok rows

/-- `SFile_SDT_Get_IntArray1D`, 237-246, with `GetDoubles1D`, 208-227: the elements of the matrix lie one after the other in memory. -/
def sdtInt1D (t : SInt) (st : Store ℚ) (n : Str) : IntRead (List Int) :=
  match lookup st.mats n with
  | none => .exception
  | some m =>
    match length1D m with
    | none => .exception
    | some k =>
      if k ≤ m.vals.flatten.length then
        match (m.vals.flatten.take k).mapM t.cast with
        | none => .ub
        | some l => .ok l
      else .ub

end Softlib.SFile
