/-
Model of the functions that read variables as 64-bit integers.

Source: /repo/src/SFile/SFile.cpp 168-289, on HDF5 and MAT files (SFile_HDF5.cpp 90-114 ignores
the hint of `GetDataType`).

The conversion from `double` to `int64_t` is a parameter: `none` if it is undefined (the
truncated value does not fit, or the number is not a number).
-/
import Verif.SFile.HdfModel

namespace Softlib.SFile.Hdf

/-- `(int64_t)d`. -/
abbrev DblToInt := BitVec 64 → Option Int

/-- The cast `(Tout)a[i][j]` to `int64_t` from an element of the given C type; from `uint64_t` it
is taken modulo 2^64. -/
def castInt64 (D : DblToInt) : NumTy → Elem → Option Int
  | .f64, .dbl b => D b
  | .u64, .int n => some ((n + 2 ^ 63) % 2 ^ 64 - 2 ^ 63)
  | .i32, .int n => some n
  | .i64, .int n => some n
  | .u32, .int n => some n
  | _, _ => none

/-- The reader chosen for a kind of data, SFile.cpp 218-227, 239-248, 261-270; `none` is the
default branch, which throws. -/
def kindReader : Kind → Option NumTy
  | .double => some .f64
  | .int32 => some .i32
  | .int64 => some .i64
  | .uint32 => some .u32
  | .uint64 => some .u64
  | .string => none
  | .undefined => none

/-- A two-dimensional array of integers. -/
structure IntArr where
  rows : Nat
  cols : Nat
  vals : List (List Int)
  deriving DecidableEq, Repr

/-- `__Get2DAs`, SFile.cpp 175-194: `b[0] = …` and `a[0]` are outside their arrays when there
are no rows. -/
def get2DAs (L : Lib) (D : DblToInt) (t : NumTy) (f : File) (p : Path) : Res IntArr :=
  match getArray2D L t f p with
  | .ok a =>
    if a.rows = 0 then .ub
    else
      match (List.range a.rows).mapM (fun i => (List.range a.cols).mapM (fun j =>
          ((a.ptrs[i]?).bind (fun o => a.data[o + j]?)).bind (castInt64 D t))) with
      | some v => .ok ⟨a.rows, a.cols, v⟩
      | none => .ub
  | .exc e => .exc e
  | .ub => .ub
  | .diverges => .diverges

/-- `GetIntArray`, SFile.cpp 279-281, with `__Get2DAsType` 208-228. -/
def getIntArray (L : Lib) (D : DblToInt) (f : File) (p : Path) : Res IntArr :=
  match kindReader (getDataType f p) with
  | some t => get2DAs L D t f p
  | none => .exc .sfile

/-- The one-dimensional reader for a type: doubles are read with `GetList`, the integers with
`GetInt32_1D` and so on, SFile.cpp 240-244. -/
def read1D (L : Lib) (t : NumTy) (f : File) (p : Path) : Res (Nat × List Elem) :=
  match t with
  | .f64 => getList L f p
  | t => getArray1D L t f p

/-- `GetIntList`, SFile.cpp 283-285, with `__Get1DAs` 195-206 and `__Get1DAsType` 229-249. -/
def getIntList (L : Lib) (D : DblToInt) (f : File) (p : Path) : Res (List Int) :=
  match kindReader (getDataType f p) with
  | some t =>
    match read1D L t f p with
    | .ok (n, xs) =>
      match (List.range n).mapM (fun i => (xs[i]?).bind (castInt64 D t)) with
      | some v => .ok v
      | none => .ub
    | .exc e => .exc e
    | .ub => .ub
    | .diverges => .diverges
  | none => .exc .sfile

/-- `GetInt`, SFile.cpp 287-289, with `__GetScalarAsType` 251-271. -/
def getInt (L : Lib) (D : DblToInt) (f : File) (p : Path) : Res Int :=
  match kindReader (getDataType f p) with
  | some t =>
    match getSingle L t f p with
    | .ok x =>
      match castInt64 D t x with
      | some v => .ok v
      | none => .ub
    | .exc e => .exc e
    | .ub => .ub
    | .diverges => .diverges
  | none => .exc .sfile

end Softlib.SFile.Hdf
