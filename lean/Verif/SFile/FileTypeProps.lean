/-
File types: model and property C21.

Source: /repo/src/SFile/SFile.cpp 69-77 (`GetFileType`), 134-139 (`TypeOfFile`).
-/
import Verif.Config.LexModel

namespace Softlib.SFile

open Softlib.Config

inductive FileType where
  | hdf5 | matlab | sdt | unknown
  deriving DecidableEq, Repr

/-- `SFile::GetFileType`, SFile.cpp 69-77. -/
def getFileType (t : Str) : FileType :=
  if t = "h5".toList then .hdf5
  else if t = "hdf5".toList then .hdf5
  else if t = "mat".toList then .matlab
  else if t = "sdt".toList then .sdt
  else if t = "out".toList then .sdt
  else .unknown

/-- `find_last_of(".")`: the position of the last dot. -/
def findLastDot : Str → Option Nat
  | [] => none
  | c :: r =>
    match findLastDot r with
    | some i => some (i + 1)
    | none => if c = '.' then some 0 else none

/-- `SFile::TypeOfFile`, SFile.cpp 134-139. -/
def typeOfFile (name : Str) : FileType :=
  match findLastDot name with
  | none => .unknown
  | some i => getFileType (name.drop (i + 1))

theorem findLastDot_none {s : Str} (h : '.' ∉ s) : findLastDot s = none := by
  induction s with
  | nil => rfl
  | cons c r ih =>
    simp only [List.mem_cons, not_or] at h
    simp only [findLastDot, ih h.2]
    rw [if_neg (fun e => h.1 e.symm)]

theorem findLastDot_append (p : Str) {e : Str} (h : '.' ∉ e) :
    findLastDot (p ++ '.' :: e) = some p.length := by
  induction p with
  | nil => simp only [List.nil_append, findLastDot, findLastDot_none h]; rfl
  | cons c r ih => simp only [List.cons_append, findLastDot, ih, List.length_cons]

end Softlib.SFile

namespace Softlib

open Softlib.Config Softlib.SFile

/-- The documented extensions. -/
inductive Extension : Str → FileType → Prop where
  | h5 : Extension ['h', '5'] .hdf5
  | hdf5 : Extension ['h', 'd', 'f', '5'] .hdf5
  | mat : Extension ['m', 'a', 't'] .matlab
  | sdt : Extension ['s', 'd', 't'] .sdt
  | out : Extension ['o', 'u', 't'] .sdt

/-- C21: the type of a file is decided by what follows the last dot; a documented extension
gives its documented format, and everything else (no dot, or another extension) is unknown. -/
theorem C21_type_by_extension (pre ext : Str) (h : '.' ∉ ext) :
    (∀ t, t ≠ .unknown → (typeOfFile (pre ++ '.' :: ext) = t ↔ Extension ext t)) ∧
    (∀ pre', typeOfFile (pre' ++ '.' :: ext) = typeOfFile (pre ++ '.' :: ext)) ∧
    typeOfFile ext = .unknown := by
  have key : ∀ p : Str, typeOfFile (p ++ '.' :: ext) = getFileType ext := by
    intro p
    simp only [typeOfFile, findLastDot_append p h]
    rw [show p ++ '.' :: ext = (p ++ ['.']) ++ ext from by simp]
    rw [show p.length + 1 = (p ++ ['.']).length from by simp, List.drop_left]
  refine ⟨fun t ht => ?_, fun p => by rw [key, key], ?_⟩
  · rw [key]
    constructor
    · intro e
      subst e
      unfold getFileType at ht ⊢
      repeat' split at ht
      all_goals first | (exact absurd rfl ht) | skip
      all_goals simp only [*]
      · exact .h5
      · exact .hdf5
      · exact .mat
      · exact .sdt
      · exact .out
    · intro e
      cases e <;> rfl
  · simp only [typeOfFile, findLastDot_none h]

/-- C21: every file name has one of the two shapes covered above. -/
theorem C21_every_name (name : Str) :
    ('.' ∉ name ∧ typeOfFile name = .unknown) ∨
    ∃ pre ext, name = pre ++ '.' :: ext ∧ '.' ∉ ext := by
  by_cases h : '.' ∈ name
  · right
    induction name with
    | nil => cases h
    | cons c r ih =>
      by_cases hr : '.' ∈ r
      · obtain ⟨p, e, rfl, he⟩ := ih hr
        exact ⟨c :: p, e, rfl, he⟩
      · rcases List.mem_cons.1 h with rfl | h
        · exact ⟨[], r, rfl, hr⟩
        · exact absurd h hr
  · left
    exact ⟨h, by simp only [typeOfFile, findLastDot_none h]⟩

example : typeOfFile "run.1/data.v2.h5".toList = .hdf5 := by decide +kernel
example : typeOfFile "archive.h5/data".toList = .unknown := by decide +kernel

end Softlib
