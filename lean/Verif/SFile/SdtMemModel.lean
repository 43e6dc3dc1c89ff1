/-
Model of opening an SDT file of any contents, with the memory that is used.

Source: /repo/src/SFile/SFile_SDT.load.cpp 17-86 (`Load`, `LoadMatrix`).

Refines `loadLines` of `SdtModel`: sizes are 64-bit numbers, so that `nrows*ncols` (line 64) is taken
modulo 2^64, and both arrays are requested from the allocator before a line is read.  Which requests
the allocator grants is a parameter (in elements, of eight bytes each); a refused request throws
`std::bad_alloc`, which is not an exception of the library.  Small requests made by strings and maps
are taken to be granted.  Arrays lost after an exception are not modelled here.
-/
import Verif.SFile.SdtModel

namespace Softlib.SFile

open Softlib.Config

/-- What becomes of opening a file. -/
inductive MemOut (σ : Type) where
  | ok (st : σ)
  /-- the library's exception -/
  | error
  /-- `std::bad_alloc` -/
  | badAlloc
  | ub

/-- What becomes of filling the array. -/
inductive Fill (β : Type) where
  | ok (v : β)
  | error
  | ub

/-- One row, 75-79, into an array of `total` elements from element `k` on: `vals[i][j]` outside of
the array is undefined. -/
def fillRow {α : Type} (c : Codec α) (total : Nat) : Nat → Nat → Str → Fill (List α)
  | _, 0, _ => .ok []
  | k, n + 1, s =>
    if k < total then
      match c.read s with
      | none => .error
      | some (x, r) =>
        match fillRow c total (k + 1) n r with
        | .ok l => .ok (x :: l)
        | .error => .error
        | .ub => .ub
    else .ub

/-- The rows, 66-80; `vals[i] = vals[i-1] + ncols` must not be beyond the end of the array. -/
def fillRows {α : Type} (c : Codec α) (total ncols : Nat) : Nat → Nat → List Str → Fill (List (List α))
  | _, 0, _ => .ok []
  | k, n + 1, ls =>
    if total < k then .ub
    else
      match fillRow c total k ncols (ls.headD []) with
      | .error => .error
      | .ub => .ub
      | .ok row =>
        match fillRows c total ncols (k + ncols) n ls.tail with
        | .ok l => .ok (row :: l)
        | .error => .error
        | .ub => .ub

/-- `LoadMatrix`, 60-89. -/
def loadMatrix {α : Type} (c : Codec α) (avail : Nat → Bool) (nrows ncols : Nat) (rest : List Str) :
    MemOut (Matrix α) :=
  match avail nrows with
  | false => .badAlloc
  | true =>
    if nrows = 0 then .ub
    else
      match avail (nrows * ncols % 2 ^ 64) with
      | false => .badAlloc
      | true =>
        match fillRows c (nrows * ncols % 2 ^ 64) ncols 0 nrows rest with
        | .ok vals => .ok ⟨nrows, ncols, vals⟩
        | .error => .error
        | .ub => .ub

/-- `Load`, 17-50. -/
def loadMem {α : Type} (c : Codec α) (avail : Nat → Bool) (ls : List Str) (st : Store α) : MemOut (Store α) :=
  match ls with
  | [] => .ok st
  | l :: rest =>
    if l = [] then loadMem c avail rest st
    else
      match readWord l with
      | none => .error
      | some (ty, r) =>
        if ty = "@matrix".toList then
          match readWord r with
          | none => .error
          | some (name, r) =>
            match readSize r with
            | none => .error
            | some (nrows, r) =>
              match readSize r with
              | none => .error
              | some (ncols, _) =>
                match loadMatrix c avail nrows ncols rest with
                | .ok m => loadMem c avail (rest.drop nrows) ⟨emplace st.mats name m, st.strs⟩
                | .error => .error
                | .badAlloc => .badAlloc
                | .ub => .ub
        else if ty = "@string".toList then
          match readWord r with
          | none => .error
          | some (name, r) =>
            match readSize r with
            | none => .error
            | some _ =>
              loadMem c avail (rest.drop 1) ⟨st.mats, emplace st.strs name (readBytes (rest.headD []))⟩
        else .error
termination_by ls.length
decreasing_by
  all_goals simp_all [List.length_drop]
  all_goals omega

/-- `Open(filename, SFILE_MODE_READ)`, SFile_SDT.cpp 48-55, on a file with this text. -/
def openMem {α : Type} (c : Codec α) (avail : Nat → Bool) (text : Str) : MemOut (Store α) :=
  loadMem c avail (lines text) ⟨[], []⟩

end Softlib.SFile
