/-
Model of the SDT text format.

Source: /repo/src/SFile/SFile_SDT.cpp 72-410, /repo/src/SFile/SFile_SDT.load.cpp 14-108,
/repo/src/SFile/SFile.cpp 150-166, 176-195, 299-312.

A file is a list of characters.  Reading and writing of floating point numbers by streams is
a parameter (`Codec`); integers and characters are modelled in full.  `char` is signed and
`int` has 32 bits.  Allocation sizes are assumed not to overflow.  A line of blanks leaves
`type` with its old value (load.cpp 23), but then the stream has failed and the next
extraction throws, as does an unknown type: every such line is an error.
-/
import Verif.Config.SettingModel

namespace Softlib.SFile

open Softlib.Config

/-- Stream output and input of numbers of type `α`. -/
structure Codec (α : Type) where
  /-- `out << x` -/
  fmt : α → Str
  /-- `in >> x`: value and remaining text, `none` if the extraction fails -/
  read : Str → Option (α × Str)

/-- Decimal digits, as written by `<<` for `sfilesize_t`. -/
def natText (n : Nat) : Str :=
  if _h : n < 10 then [Char.ofNat (48 + n)] else natText (n / 10) ++ [Char.ofNat (48 + n % 10)]

/-- `<<` for `int`. -/
def intOut (z : Int) : Str := (if z < 0 then ['-'] else []) ++ natText z.natAbs

/-- `>>` into a string. -/
def readWord (s : Str) : Option (Str × Str) :=
  let r := s.dropWhile isSpaceC
  let w := r.takeWhile (fun c => !isSpaceC c)
  if w = [] then none else some (w, r.dropWhile (fun c => !isSpaceC c))

/-- `>>` into a 64-bit unsigned integer (a minus sign negates modulo 2^64). -/
def readSize (s : Str) : Option (Nat × Str) :=
  match intPrefix s with
  | none => none
  | some (neg, ds, e) =>
    if decVal ds < 2 ^ 64 then
      some (if neg then (2 ^ 64 - decVal ds) % 2 ^ 64 else decVal ds, s.drop e)
    else none

/-- `>>` into an `int`. -/
def readInt (s : Str) : Option (Int × Str) :=
  match intPrefix s with
  | none => none
  | some (neg, ds, e) =>
    let z := signed neg ds
    if - (2 ^ 31 : Int) ≤ z ∧ z < 2 ^ 31 then some (z, s.drop e) else none

/-- `(int)c` for a signed `char`. -/
def byteInt (b : UInt8) : Int := if b.toNat < 128 then b.toNat else (b.toNat : Int) - 256
/-- `(char)c`. -/
def intByte (z : Int) : UInt8 := UInt8.ofNat (z % 256).toNat

/-! ### writing -/

/-- One call of a writing function. -/
inductive Var (α : Type) where
  /-- `WriteArray` and the other numeric arrays; `ncols` is given separately because there may
  be no rows -/
  | mat (name : Str) (ncols : Nat) (rows : List (List α))
  /-- `WriteAttribute_scalar` -/
  | attr (dset name : Str) (val : α)
  /-- `WriteString` (and `WriteAttribute_string` under the combined name) -/
  | str (name : Str) (val : List UInt8)

/-- `GetAttributeName`, SFile_SDT.cpp 116-120. -/
def attrName (dset name : Str) : Str := dset ++ '_' :: name

def rowText {α : Type} (c : Codec α) (row : List α) : Str := row.flatMap (fun x => c.fmt x ++ [' '])

/-- `WriteNumArray` 327-340, `WriteAttribute_scalar` 371-375, `WriteString` 417-425 of SFile_SDT.cpp. -/
def writeVar {α : Type} (c : Codec α) : Var α → Str
  | .mat name ncols rows =>
    "@matrix ".toList ++ name ++ ' ' :: (natText rows.length ++ ' ' :: (natText ncols ++ '\n' ::
      (rows.flatMap (fun r => rowText c r ++ ['\n']) ++ ['\n'])))
  | .attr dset name val =>
    "@matrix ".toList ++ attrName dset name ++ (" 1 1\n".toList ++ (c.fmt val ++ ['\n', '\n']))
  | .str name val =>
    "@string ".toList ++ name ++ ' ' :: (natText val.length ++ '\n' ::
      (val.flatMap (fun b => intOut (byteInt b) ++ [' ']) ++ ['\n', '\n']))

/-- The file after a sequence of writes. -/
def writeAll {α : Type} (c : Codec α) (vs : List (Var α)) : Str := vs.flatMap (writeVar c)

/-! ### reading -/

structure Matrix (α : Type) where
  nrows : Nat
  ncols : Nat
  vals : List (List α)
  deriving DecidableEq, Repr

/-- The two maps of the class. -/
structure Store (α : Type) where
  mats : List (Str × Matrix α)
  strs : List (Str × List UInt8)

/-- `map::find`. -/
def lookup {β : Type} (l : List (Str × β)) (n : Str) : Option β := (l.find? (fun e => e.1 == n)).map (·.2)

/-- `map::emplace`: an existing entry is kept. -/
def emplace {β : Type} (l : List (Str × β)) (n : Str) (b : β) : List (Str × β) :=
  if (lookup l n).isSome then l else l ++ [(n, b)]

inductive Loaded (σ : Type) where
  | ok (st : σ)
  | error
  | ub

/-- Successive `getline`s; `acc` is the current line, reversed. -/
def linesFrom (acc : Str) : Str → List Str
  | [] => if acc = [] then [] else [acc.reverse]
  | c :: r => if c = '\n' then acc.reverse :: linesFrom [] r else linesFrom (c :: acc) r

def lines (s : Str) : List Str := linesFrom [] s

/-- One row, load.cpp 75-79. -/
def readRow {α : Type} (c : Codec α) : Nat → Str → Option (List α)
  | 0, _ => some []
  | n + 1, s =>
    match c.read s with
    | none => none
    | some (x, r) => (readRow c n r).map (x :: ·)

/-- The rows, load.cpp 66-80: a missing line is an empty one. -/
def readRows {α : Type} (c : Codec α) (ncols : Nat) : Nat → List Str → Option (List (List α))
  | 0, _ => some []
  | n + 1, ls =>
    match readRow c ncols (ls.headD []) with
    | none => none
    | some row => (readRows c ncols n ls.tail).map (row :: ·)

theorem intPrefix_consumes {s : Str} {n : Bool} {ds : Str} {e : Nat} (h : intPrefix s = some (n, ds, e)) :
    0 < e ∧ s ≠ [] := by
  simp only [intPrefix] at h
  split at h
  · cases h
  · rename_i hne
    simp only [Option.some.injEq, Prod.mk.injEq] at h
    have : 0 < ((optSign (s.dropWhile isSpaceC)).2.takeWhile isDigitC).length :=
      List.length_pos_iff.2 hne
    refine ⟨by omega, ?_⟩
    rintro rfl
    exact hne rfl

/-- `while (ss >> c) value += (char)c`, load.cpp 98-100. -/
def readBytes (s : Str) : List UInt8 :=
  match h : readInt s with
  | none => []
  | some (z, r) => intByte z :: readBytes r
termination_by s.length
decreasing_by
  simp only [readInt] at h
  split at h
  · cases h
  · rename_i hp
    split at h
    · simp only [Option.some.injEq, Prod.mk.injEq] at h
      obtain ⟨h1, h2⟩ := intPrefix_consumes hp
      rw [← h.2, List.length_drop]
      have := List.length_pos_iff.2 h2
      omega
    · cases h

/-- `Load`, load.cpp 17-50, with `LoadMatrix` 60-89 (`vals[0] = …` is outside the array when
there are no rows) and `LoadString` 99-118. -/
def loadLines {α : Type} (c : Codec α) (ls : List Str) (st : Store α) : Loaded (Store α) :=
  match ls with
  | [] => .ok st
  | l :: rest =>
    if l = [] then loadLines c rest st
    else
      match readWord l with
      | none => .error
      | some (ty, r) =>
        if ty = "@matrix".toList then
          match readWord r with
          | none => .error
          | some (name, r) =>
            match readSize r with
            | none => .error
            | some (nrows, r) =>
              match readSize r with
              | none => .error
              | some (ncols, _) =>
                if nrows = 0 then .ub
                else
                  match readRows c ncols nrows rest with
                  | none => .error
                  | some vals =>
                    loadLines c (rest.drop nrows) ⟨emplace st.mats name ⟨nrows, ncols, vals⟩, st.strs⟩
        else if ty = "@string".toList then
          match readWord r with
          | none => .error
          | some (name, r) =>
            match readSize r with
            | none => .error
            | some _ =>
              loadLines c (rest.drop 1) ⟨st.mats, emplace st.strs name (readBytes (rest.headD []))⟩
        else .error
termination_by ls.length
decreasing_by
  all_goals simp_all [List.length_drop]
  all_goals omega

/-- `Open(filename, SFILE_MODE_READ)`, SFile_SDT.cpp 48-55. -/
def openRead {α : Type} (c : Codec α) (text : Str) : Loaded (Store α) := loadLines c (lines text) ⟨[], []⟩

/-- `GetDoubles`, SFile_SDT.cpp 130-145 (values; for the lifetime of the memory see
`SdtReads`); `none` means an exception. -/
def getDoubles {α : Type} (st : Store α) (name : Str) : Option (Matrix α) := lookup st.mats name

/-- `GetString`, SFile_SDT.cpp 305-312. -/
def getString {α : Type} (st : Store α) (name : Str) : Option (List UInt8) := lookup st.strs name

/-- `GetAttributeScalar`, SFile_SDT.cpp 267-279. -/
def getAttributeScalar {α : Type} (st : Store α) (dset name : Str) : Option α :=
  match lookup st.mats (attrName dset name) with
  | none => none
  | some m => if m.nrows ≠ 1 ∨ m.ncols ≠ 1 then none else (m.vals[0]?).bind (fun r => r[0]?)

/-- `HasVariable`, SFile_SDT.cpp 81-86. -/
def hasVariable {α : Type} (st : Store α) (name : Str) : Bool :=
  (lookup st.mats name).isSome || (lookup st.strs name).isSome

end Softlib.SFile
