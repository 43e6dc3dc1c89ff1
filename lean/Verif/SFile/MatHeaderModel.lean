/-
Model of the creation of MAT files.

Source: /repo/src/SFile/SFile_MAT.HDF5.cpp 64-135 (`CreateMAT`).

The fields of the local time are arguments.  Creating the HDF5 file with its 512-byte user
block, re-opening it and the success of the file operations are not modelled: the result is
the sequence of bytes written at the start of the file.
-/
import Verif.SFile.SdtModel

namespace Softlib.SFile.Hdf

open Softlib.Config

/-- `struct tm`, the fields used (`mon` counts from zero, `year` from 1900). -/
structure Tm where
  wday : Nat
  mon : Nat
  mday : Nat
  hour : Nat
  min : Nat
  sec : Nat
  year : Nat
  deriving DecidableEq, Repr

/-- SFile_MAT.HDF5.cpp 83-86. -/
def dayNames : List String := ["Sun", "Mon", "Tue", "Wed", "Thu", "Fri", "Sat"]

/-- SFile_MAT.HDF5.cpp 87-90. -/
def monthNames : List String :=
  ["Jan", "Feb", "Mar", "Apr", "May", "Jun", "Jul", "Aug", "Sep", "Oct", "Nov", "Dec"]

/-- `%02d`. -/
def two (n : Nat) : Str := if n < 10 then '0' :: natText n else natText n

/-- Element of an array at a signed index; `none` is outside the array. -/
def atIndex (l : List String) (i : Int) : Option String := if i < 0 then none else l[i.toNat]?

/-- The text produced by `snprintf`, SFile_MAT.HDF5.cpp 92-100, with the month index of line 76;
`none` is undefined behaviour. -/
def headerText (t : Tm) : Option Str :=
  let imon : Int := (t.mon : Int) - 1
  match atIndex dayNames t.wday, atIndex monthNames imon with
  | some d, some m => some <|
      "MATLAB 7.3 MAT-file, ".toList ++ "Platform: libsoft, ".toList ++ "Created on: ".toList ++
      d.toList ++ [' '] ++ m.toList ++ [' '] ++ two t.mday ++ [' '] ++ two t.hour ++ [':'] ++
      two t.min ++ [':'] ++ two t.sec ++ [' '] ++ natText (1900 + t.year) ++ [' '] ++
      "HDF5 schema 1.00 .".toList
  | _, _ => none

/-- Little-endian bytes of a 32-bit integer, as `fwrite` of an `int32_t` writes them. -/
def le32 (n : Nat) : List UInt8 :=
  [UInt8.ofNat (n % 256), UInt8.ofNat (n / 256 % 256), UInt8.ofNat (n / 65536 % 256),
    UInt8.ofNat (n / 16777216 % 256)]

inductive HeaderRes where
  | ub
  | throws
  | bytes (b : List UInt8)
  deriving DecidableEq, Repr

/-- `CreateMAT`, SFile_MAT.HDF5.cpp 64-135: the bytes written. -/
def createMat (t : Tm) : HeaderRes :=
  match headerText t with
  | none => .ub
  | some s =>
    if 116 < s.length then .throws
    else
      let text := s ++ List.replicate (116 - s.length) ' '
      .bytes (text.map (fun c => UInt8.ofNat c.toNat) ++ le32 0 ++ le32 0 ++ le32 0x4D490200)

end Softlib.SFile.Hdf
