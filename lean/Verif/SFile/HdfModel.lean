/-
Model of the HDF5 and MAT (version 7.3, HDF5 based) file interfaces.

Source: /repo/src/SFile/SFile_HDF5.cpp, /repo/src/SFile/SFile_MAT.HDF5.cpp,
/repo/src/SFile/SFile.cpp 150-165, 299-317.

The HDF5 library is external.  It is modelled by its documented contract: an open file is a
table from paths to groups and data sets, creating an existing name fails, a data set has an
element type, a list of extents and its elements in row-major order.  Conversion between
element types and the raw bytes of an element are parameters (`Lib`).  Paths are given by
their components ("a/b" is `["a", "b"]`), so different spellings of a path are not modelled.
The machine is little-endian, so that the native types are the `…LE` types.  Sizes do not
overflow 64 bits.  Memory leaks and the messages of exceptions are not modelled.
-/
import Verif.SFile.SdtModel

namespace Softlib.SFile.Hdf

open Softlib.Config

abbrev Path := List Str

/-- Element types of the HDF5 library that occur in the code; `other` stands for the rest. -/
inductive Ty where
  | f64 | i32 | i64 | u32 | u64 | u16
  /-- `C_S1`, one character -/
  | s1
  /-- `StrType(C_S1, n)` -/
  | str (n : Nat)
  | other (k : Nat)
  deriving DecidableEq, Repr

inductive Elem where
  | dbl (bits : BitVec 64)
  | int (n : Int)
  | byte (b : UInt8)
  deriving DecidableEq, Repr

structure Attr where
  ty : Ty
  dims : List Nat
  data : List Elem
  deriving DecidableEq, Repr

structure Dset where
  ty : Ty
  dims : List Nat
  data : List Elem
  attrs : List (Str × Attr)
  deriving DecidableEq, Repr

inductive Obj where
  | group (attrs : List (Str × Attr))
  | dset (d : Dset)
  deriving DecidableEq, Repr

/-- An open file; `writable` is false in mode `SFILE_MODE_READ`. -/
structure File where
  writable : Bool
  objs : List (Path × Obj)
  deriving DecidableEq, Repr

/-- The part of the library that is a parameter. -/
structure Lib where
  /-- conversion of elements from one type to another, `none` if the library has none -/
  conv : Ty → Ty → Option (Elem → Elem)
  /-- no conversion between equal types -/
  conv_self : ∀ t, conv t t = some id
  /-- the bytes of an element in memory -/
  raw : Ty → Elem → List UInt8
  raw_char : ∀ b, raw .s1 (.byte b) = [b]

/-- Exceptions: the one of softlib, and those of the HDF5 library by their class.  None of the
latter is derived from another one listed here or from `SFileException`. -/
inductive Exc where
  | sfile
  | h5File | h5Attribute | h5DataSet | h5DataSpace | h5Group
  deriving DecidableEq, Repr

inductive Res (α : Type) where
  | ok (a : α)
  | exc (e : Exc)
  | ub
  | diverges
  deriving DecidableEq, Repr

/-- The file after a writing operation, which may have failed half-way. -/
abbrev WRes := File × Res Unit

/-- The next statement. -/
def WRes.andThen (r : WRes) (k : File → WRes) : WRes :=
  match r with
  | (f, .ok ()) => k f
  | r => r

def prod (l : List Nat) : Nat := l.foldr (· * ·) 1

/-! ### the library's file operations -/

def lookupIn {β : Type} (n : Str) (l : List (Str × β)) : Option β := (l.find? (fun e => e.1 == n)).map (·.2)

def File.find (f : File) (p : Path) : Option Obj := (f.objs.find? (fun e => e.1 == p)).map (·.2)

/-- `openDataSet`; `none` is a `FileIException`. -/
def File.dset (f : File) (p : Path) : Option Dset :=
  match f.find p with
  | some (.dset d) => some d
  | _ => none

/-- The path is a group (the root always is). -/
def File.isGroup (f : File) (p : Path) : Bool :=
  match p with
  | [] => true
  | _ => match f.find p with
    | some (.group _) => true
    | _ => false

/-- An object can be created under this path. -/
def File.canCreate (f : File) (p : Path) : Bool :=
  f.writable && p ≠ [] && (f.find p).isNone && f.isGroup p.dropLast

def File.add (f : File) (p : Path) (o : Obj) : File := { f with objs := f.objs ++ [(p, o)] }

/-- Replace the object under a path. -/
def File.set (f : File) (p : Path) (o : Obj) : File :=
  { f with objs := f.objs.map (fun e => if e.1 = p then (e.1, o) else e) }

/-- `DataSpace(n, dims)`, `createDataSet(p, ty, space)` and `dset.write(buf, memTy)`.  The
buffer is the memory from the pointer passed to the end of its allocation, `none` if computing
the pointer is already undefined. -/
def createWrite (L : Lib) (f : File) (p : Path) (ty memTy : Ty) (dims : List Nat)
    (buf : Option (List Elem)) : WRes :=
  if 32 < dims.length then (f, .exc .h5DataSpace)
  else if !f.canCreate p then (f, .exc .h5File)
  else
    let empty : Dset := ⟨ty, dims, List.replicate (prod dims) (.int 0), []⟩
    match buf with
    | none => (f.add p (.dset empty), .ub)
    | some b =>
      if b.length < prod dims then (f.add p (.dset empty), .ub)
      else match L.conv memTy ty with
        | none => (f.add p (.dset empty), .exc .h5DataSet)
        | some g => (f.add p (.dset ⟨ty, dims, (b.take (prod dims)).map g, []⟩), .ok ())

/-- `openDataSet(p)`, `createAttribute(n, …)` and `att.write(…)`. -/
def addAttr (f : File) (p : Path) (n : Str) (a : Attr) : WRes :=
  match f.dset p with
  | none => (f, .exc .h5File)
  | some d =>
    if !f.writable || (lookupIn n d.attrs).isSome then (f, .exc .h5Attribute)
    else (f.set p (.dset { d with attrs := d.attrs ++ [(n, a)] }), .ok ())

/-- `createGroup`. -/
def createGroup (f : File) (p : Path) (attrs : List (Str × Attr)) : WRes :=
  if !f.canCreate p then (f, .exc .h5File) else (f.add p (.group attrs), .ok ())

/-! ### SFile_HDF5: writing -/

/-- The C types of the numeric interface. -/
inductive NumTy where
  | f64 | i32 | i64 | u32 | u64
  deriving DecidableEq, Repr

/-- Argument `op` in SFile_HDF5.cpp 383-397, 433-447, 471-485. -/
def fileTy : NumTy → Ty
  | .f64 => .f64
  | .i32 => .i32
  | .i64 => .i64
  | .u32 => .u32
  | .u64 => .u64

/-- Argument `ip` in the same lines: the `NATIVE_…` types. -/
def memTy : NumTy → Ty
  | .f64 => .f64
  | .i32 => .i32
  | .i64 => .i64
  | .u32 => .u32
  | .u64 => .u64

/-- Type passed to the reading templates, SFile_HDF5.cpp 230-244 and 287-301. -/
def readTy : NumTy → Ty
  | .f64 => .f64
  | .i32 => .i32
  | .i64 => .i64
  | .u32 => .u32
  | .u64 => .u64

/-- `WriteNumArray`, SFile_HDF5.cpp 371-381.  `arr` has one entry per row pointer: the memory
from that pointer to the end of its allocation.  Only `arr[0]` is used. -/
def writeNumArray (L : Lib) (t : NumTy) (f : File) (p : Path) (arr : List (List Elem))
    (rows cols : Nat) : WRes :=
  createWrite L f p (fileTy t) (memTy t) [rows, cols] arr.head?

/-- `WriteNumList`, SFile_HDF5.cpp 422-432. -/
def writeNumList (L : Lib) (t : NumTy) (f : File) (p : Path) (arr : List Elem) (n : Nat) : WRes :=
  createWrite L f p (fileTy t) (memTy t) [n] (some arr)

/-- `WriteMultiNumArray`, SFile_HDF5.cpp 461-470. -/
def writeMultiNumArray (L : Lib) (t : NumTy) (f : File) (p : Path) (arr : List Elem)
    (dims : List Nat) : WRes :=
  createWrite L f p (fileTy t) (memTy t) dims (some arr)

/-- `WriteString`, SFile_HDF5.cpp 352-360. -/
def writeString (L : Lib) (f : File) (p : Path) (s : List UInt8) : WRes :=
  createWrite L f p .s1 .s1 [s.length] (some (s.map .byte))

/-- `WriteAttribute_scalar`, SFile_HDF5.cpp 495-500. -/
def writeAttrScalar (f : File) (p : Path) (n : Str) (x : BitVec 64) : WRes :=
  addAttr f p n ⟨.f64, [], [.dbl x]⟩

/-- `WriteAttribute_string`, SFile_HDF5.cpp 512-520. -/
def writeAttrString (f : File) (p : Path) (n : Str) (s : List UInt8) : WRes :=
  addAttr f p n ⟨.s1, [s.length], s.map .byte⟩

/-- `CreateStruct`, SFile_HDF5.cpp 338-341. -/
def createStruct (f : File) (p : Path) : WRes := createGroup f p []

/-! ### SFile_HDF5: reading -/

/-- `HasVariable`, SFile_HDF5.cpp 70-79. -/
def hasVariable (f : File) (p : Path) : Bool := (f.dset p).isSome

/-- A two-dimensional array as handed to the caller: extents, row pointers as offsets into the
data, and the data. -/
structure Arr2 where
  rows : Nat
  cols : Nat
  ptrs : List Nat
  data : List Elem
  deriving DecidableEq, Repr

/-- `dset.read(data, p, dspace)`. -/
def readAll {α : Type} (L : Lib) (d : Dset) (t : Ty) (k : List Elem → α) : Res α :=
  match L.conv d.ty t with
  | none => .exc .h5DataSet
  | some g => .ok (k (d.data.map g))

/-- `GetArray2D`, SFile_HDF5.cpp 195-229.  `dims` has room for two extents: a data set of higher
rank overflows it, one of rank zero leaves it uninitialised.  The loop variable of line 221 has
32 bits. -/
def getArray2D (L : Lib) (t : NumTy) (f : File) (p : Path) : Res Arr2 :=
  match f.dset p with
  | none => .exc .sfile
  | some d =>
    match d.dims with
    | [n] => readAll L d (readTy t) (fun x => ⟨1, n, [0], x⟩)
    | [r, c] =>
      if 2 ^ 32 ≤ r then .diverges
      else readAll L d (readTy t) (fun x => ⟨r, c, (List.range r).map (· * c), x⟩)
    | _ => .ub

/-- `SFile_HDF5_GetArray1D`, SFile_HDF5.cpp 258-286: the length and the elements. -/
def getArray1D (L : Lib) (t : NumTy) (f : File) (p : Path) : Res (Nat × List Elem) :=
  match f.dset p with
  | none => .exc .sfile
  | some d =>
    match d.dims with
    | [n] => readAll L d (readTy t) (fun x => (n, x))
    | [r, c] => readAll L d (readTy t) (fun x => (r * c, x))
    | _ => .ub

/-- `GetMultiArray_linear`, SFile_HDF5.cpp 307-328, on an array `dims` of `nndims` entries: the
extents and the elements, `none` for the null pointer. -/
def getMultiLinear (L : Lib) (f : File) (p : Path) (nndims : Nat) : Res (Option (List Nat × List Elem)) :=
  match f.dset p with
  | none => .exc .sfile
  | some d =>
    if nndims < d.dims.length then .ok none
    else readAll L d .f64 (fun x => some (d.dims, x))

/-- The library's conversion of the bytes read to a `std::string`: up to the first zero byte. -/
def cString (l : List UInt8) : List UInt8 := l.takeWhile (· ≠ 0)

/-- `GetString`, SFile_HDF5.cpp 169-182. -/
def getString (L : Lib) (f : File) (p : Path) : Res (List UInt8) :=
  match f.dset p with
  | none => .exc .sfile
  | some d => .ok (cString (d.data.flatMap (L.raw d.ty)))

/-- `GetAttributeScalar`, SFile_HDF5.cpp 126-139.  The attribute is read in its own type into
one `double`; any other type than `double` or more than one element is counted as undefined
(the bits are reinterpreted, partly indeterminate or written past the variable). -/
def getAttrScalar (f : File) (p : Path) (n : Str) : Res (BitVec 64) :=
  match f.dset p with
  | none => .exc .sfile
  | some d =>
    match lookupIn n d.attrs with
    | none => .exc .h5Attribute
    | some a =>
      match a.ty, a.data with
      | .f64, [.dbl x] => .ok x
      | _, _ => .ub

/-- `GetAttributeString`, SFile_HDF5.cpp 147-160. -/
def getAttrString (L : Lib) (f : File) (p : Path) (n : Str) : Res (List UInt8) :=
  match f.dset p with
  | none => .exc .sfile
  | some d =>
    match lookupIn n d.attrs with
    | none => .exc .h5Attribute
    | some a => .ok (cString (a.data.flatMap (L.raw a.ty)))

/-- The kinds of data reported to the user, SFile.h 54-62. -/
inductive Kind where
  | undefined | double | int32 | int64 | uint32 | uint64 | string
  deriving DecidableEq, Repr

/-- `GetDataType`, SFile_HDF5.cpp 90-114. -/
def getDataType (f : File) (p : Path) : Kind :=
  match f.dset p with
  | none => .undefined
  | some d =>
    match d.ty with
    | .i32 => .int32
    | .i64 => .int64
    | .u32 => .uint32
    | .u64 => .uint64
    | .f64 => .double
    | .s1 => .string
    | .u16 => .string
    | _ => .undefined

/-! ### SFile: functions shared by all formats -/

/-- `GetList`, SFile.cpp 150-165; the row pointer `arr[0]` does not exist when there are no
rows (then the second extent has to be one). -/
def getList (L : Lib) (f : File) (p : Path) : Res (Nat × List Elem) :=
  match getArray2D L .f64 f p with
  | .ok a =>
    if a.rows = 1 ∨ a.cols = 1 then
      match a.ptrs with
      | [] => .ub
      | o :: _ => .ok (if a.rows = 1 then a.cols else a.rows, a.data.drop o)
    else .exc .sfile
  | .exc e => .exc e
  | .ub => .ub
  | .diverges => .diverges

/-- `__GetSingle`, SFile.cpp 298-312. -/
def getSingle (L : Lib) (t : NumTy) (f : File) (p : Path) : Res Elem :=
  match getArray2D L t f p with
  | .ok a =>
    if a.rows ≠ 1 ∨ a.cols ≠ 1 then .exc .sfile
    else match (a.ptrs[0]?).bind (fun o => a.data[o]?) with
      | some x => .ok x
      | none => .ub
  | .exc e => .exc e
  | .ub => .ub
  | .diverges => .diverges

/-! ### SFile_MAT -/

/-- `GetAttributeName`, SFile_MAT.HDF5.cpp 154-158, for attribute names without '/'. -/
def attrPath (p : Path) (n : Str) : Path := p.dropLast ++ [attrName (p.getLast?.getD []) n]

def bytesOf (s : String) : List UInt8 := s.toList.map (fun c => UInt8.ofNat c.toNat)

/-- Attribute written by `WriteMATLAB_class`, SFile_MAT.HDF5.cpp 346-365. -/
def classAttr (cls : String) : Attr := ⟨.str cls.length, [], (bytesOf cls).map .byte⟩

/-- `WriteMATLAB_class`, SFile_MAT.HDF5.cpp 346-365. -/
def writeClass (f : File) (p : Path) (cls : String) : WRes :=
  addAttr f p "MATLAB_class".toList (classAttr cls)

/-- `WriteMATLAB_int_decode`, SFile_MAT.HDF5.cpp 374-393. -/
def writeIntDecode (f : File) (p : Path) : WRes :=
  addAttr f p "MATLAB_int_decode".toList ⟨.i32, [], [.int 2]⟩

/-- `(unsigned short)c` for a signed `char`. -/
def charU16 (b : UInt8) : Int := byteInt b % 65536

/-- `WriteString`, SFile_MAT.HDF5.cpp 317-336. -/
def matWriteString (L : Lib) (f : File) (p : Path) (s : List UInt8) : WRes :=
  ((createWrite L f p .u16 .u16 [s.length, 1] (some (s.map (fun b => .int (charU16 b))))).andThen
    (fun f => writeClass f p "char")).andThen (fun f => writeIntDecode f p)

/-- The class names used in SFile_MAT.HDF5.cpp 254-315. -/
def matClass : NumTy → String
  | .f64 => "double"
  | .i32 => "int32"
  | .i64 => "int64"
  | .u32 => "uint32"
  | .u64 => "uint64"

/-- `WriteArray`, `WriteInt32Array`, …, SFile_MAT.HDF5.cpp 254-273. -/
def matWriteArray (L : Lib) (t : NumTy) (f : File) (p : Path) (arr : List (List Elem))
    (rows cols : Nat) : WRes :=
  (writeNumArray L t f p arr rows cols).andThen (fun f => writeClass f p (matClass t))

/-- `WriteList`, `WriteInt32List`, …: inherited from `SFile_HDF5`, SFile_MAT.HDF5.h 17-57. -/
def matWriteList (L : Lib) (t : NumTy) (f : File) (p : Path) (arr : List Elem) (n : Nat) : WRes :=
  writeNumList L t f p arr n

/-- `WriteMultiArray`, `WriteMultiInt32Array`, …, SFile_MAT.HDF5.cpp 296-315.  The integer
versions call `WriteString` instead of `WriteMATLAB_class`. -/
def matWriteMulti (L : Lib) (t : NumTy) (f : File) (p : Path) (arr : List Elem)
    (dims : List Nat) : WRes :=
  (writeMultiNumArray L t f p arr dims).andThen fun f =>
    match t with
    | .f64 => writeClass f p (matClass .f64)
    | t => matWriteString L f p (bytesOf (matClass t))

/-- `WriteAttribute_scalar`, SFile_MAT.HDF5.cpp 275-278. -/
def matWriteAttrScalar (L : Lib) (f : File) (p : Path) (n : Str) (x : BitVec 64) : WRes :=
  matWriteList L .f64 f (attrPath p n) [.dbl x] 1

/-- `WriteAttribute_string`, SFile_MAT.HDF5.cpp 279-282. -/
def matWriteAttrString (L : Lib) (f : File) (p : Path) (n : Str) (s : List UInt8) : WRes :=
  matWriteString L f (attrPath p n) s

/-- `CreateStruct`, SFile_MAT.HDF5.cpp 238-243. -/
def matCreateStruct (f : File) (p : Path) : WRes :=
  createGroup f p [("MATLAB_class".toList, classAttr "struct")]

/-- `(char)arr[i]`. -/
def u16Char : Elem → UInt8
  | .int z => intByte z
  | _ => 0

/-- `GetString`, SFile_MAT.HDF5.cpp 187-227.  `dims` has two entries, both zero at first, and is
overflowed by a rank above two before the rank is checked.  The buffer of a 16-bit string is
`len` elements long although all elements are read into it. -/
def matGetString (L : Lib) (f : File) (p : Path) : Res (List UInt8) :=
  match f.dset p with
  | none => .exc .sfile
  | some d =>
    if 2 < d.dims.length then .ub
    else if d.dims.length = 0 then .exc .sfile
    else match d.ty with
      | .u16 =>
        let len := match d.dims with
          | [a] => a
          | [a, b] => if b = 1 then a else b
          | _ => 0
        if len < d.data.length then .ub
        else .ok (cString (d.data.map u16Char))
      | .s1 => .ok (cString (d.data.flatMap (L.raw d.ty)))
      | .str _ => .ok (cString (d.data.flatMap (L.raw d.ty)))
      | _ => .exc .sfile

/-- `GetAttributeScalar`, SFile_MAT.HDF5.cpp 166-169. -/
def matGetAttrScalar (L : Lib) (f : File) (p : Path) (n : Str) : Res Elem :=
  getSingle L .f64 f (attrPath p n)

/-- `GetAttributeString`, SFile_MAT.HDF5.cpp 177-180. -/
def matGetAttrString (L : Lib) (f : File) (p : Path) (n : Str) : Res (List UInt8) :=
  matGetString L f (attrPath p n)

/-! ### histories -/

/-- The two formats. -/
inductive Fmt where
  | hdf5 | mat
  deriving DecidableEq, Repr

/-- One call of a writing function. -/
inductive Op where
  | array (t : NumTy) (p : Path) (arr : List (List Elem)) (rows cols : Nat)
  | list (t : NumTy) (p : Path) (arr : List Elem) (n : Nat)
  | multi (t : NumTy) (p : Path) (arr : List Elem) (dims : List Nat)
  | string (p : Path) (s : List UInt8)
  | attrScalar (p : Path) (n : Str) (x : BitVec 64)
  | attrString (p : Path) (n : Str) (s : List UInt8)
  | struct (p : Path)

/-- Dispatch on the dynamic type of the `SFile` object. -/
def write (L : Lib) : Fmt → File → Op → WRes
  | .hdf5, f, .array t p arr r c => writeNumArray L t f p arr r c
  | .hdf5, f, .list t p arr n => writeNumList L t f p arr n
  | .hdf5, f, .multi t p arr dims => writeMultiNumArray L t f p arr dims
  | .hdf5, f, .string p s => writeString L f p s
  | .hdf5, f, .attrScalar p n x => writeAttrScalar f p n x
  | .hdf5, f, .attrString p n s => writeAttrString f p n s
  | .hdf5, f, .struct p => createStruct f p
  | .mat, f, .array t p arr r c => matWriteArray L t f p arr r c
  | .mat, f, .list t p arr n => matWriteList L t f p arr n
  | .mat, f, .multi t p arr dims => matWriteMulti L t f p arr dims
  | .mat, f, .string p s => matWriteString L f p s
  | .mat, f, .attrScalar p n x => matWriteAttrScalar L f p n x
  | .mat, f, .attrString p n s => matWriteAttrString L f p n s
  | .mat, f, .struct p => matCreateStruct f p

/-- The file after a history of writes of which some may have failed with an exception the
caller caught. -/
def writes (L : Lib) (fmt : Fmt) (f : File) (ops : List Op) : File :=
  ops.foldl (fun f o => (write L fmt f o).1) f

end Softlib.SFile.Hdf
