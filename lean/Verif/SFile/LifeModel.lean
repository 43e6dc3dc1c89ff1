/-
Model of the life of a file object: creation, opening, use, closing, destruction.

Source: /repo/src/SFile/SFile.cpp 25-62 (`Create`), /repo/src/SFile/SFile_SDT.cpp 48-74,
/repo/src/SFile/SFile_SDT.load.cpp 17-50, /repo/src/SFile/SFile_HDF5.cpp 17-79,
/repo/src/SFile/SFile_MAT.HDF5.cpp 29-135.

The disk is a table from names to contents together with the permission to read and to write
each name; nobody else changes it.  Streams have unlimited disk space and what is written is
on the disk at once (it is read only after closing).  The HDF5 library is modelled by its
contract: a file cannot be created while it is open, nor opened for writing while it is open
for reading; opening anything that is not an HDF5 file fails.  Memory leaks are not modelled,
except for file handles that are never closed.
-/
import Verif.SFile.SdtModel
import Verif.SFile.FileTypeProps
import Verif.SFile.HdfModel
import Verif.SFile.MatHeaderModel

namespace Softlib.SFile

open Softlib.Config

/-- `enum sfile_mode`, SFile.h 17-21. -/
inductive Mode where
  | read | update | write
  deriving DecidableEq, Repr

/-- What the operating system allows. -/
structure Perm where
  readable : Str → Bool
  writable : Str → Bool

inductive Out where
  | ok | exc | ub
  deriving DecidableEq, Repr

/-- Replace the content of one file. -/
def setFile {β : Type} (d : Str → Option β) (n : Str) (b : β) : Str → Option β :=
  fun m => if m = n then some b else d m

/-! ### SFile_SDT -/

/-- How `Load` ends. -/
inductive LoadEnd where
  | done | throws | ub
  deriving DecidableEq, Repr

/-- `Load` as in `loadLines`, but the variables read before an exception are kept: they are
already in the maps. -/
def loadKeep {α : Type} (c : Codec α) (ls : List Str) (st : Store α) : Store α × LoadEnd :=
  match ls with
  | [] => (st, .done)
  | l :: rest =>
    if l = [] then loadKeep c rest st
    else
      match readWord l with
      | none => (st, .throws)
      | some (ty, r) =>
        if ty = "@matrix".toList then
          match readWord r with
          | none => (st, .throws)
          | some (name, r) =>
            match readSize r with
            | none => (st, .throws)
            | some (nrows, r) =>
              match readSize r with
              | none => (st, .throws)
              | some (ncols, _) =>
                if nrows = 0 then (st, .ub)
                else
                  match readRows c ncols nrows rest with
                  | none => (st, .throws)
                  | some vals =>
                    loadKeep c (rest.drop nrows) ⟨emplace st.mats name ⟨nrows, ncols, vals⟩, st.strs⟩
        else if ty = "@string".toList then
          match readWord r with
          | none => (st, .throws)
          | some (name, r) =>
            match readSize r with
            | none => (st, .throws)
            | some _ =>
              loadKeep c (rest.drop 1) ⟨st.mats, emplace st.strs name (readBytes (rest.headD []))⟩
        else (st, .throws)
termination_by ls.length
decreasing_by
  all_goals simp_all [List.length_drop]
  all_goals omega

/-- The open file of an `fstream`. -/
structure Stream where
  name : Str
  pos : Nat
  /-- opened with `ios::out` -/
  out : Bool
  deriving DecidableEq, Repr

/-- The disk and one object of class `SFile_SDT`.  `good` is the state of the stream; it is
only looked at while the file is open. -/
structure Sdt (α : Type) where
  disk : Str → Option Str
  stream : Option Stream
  good : Bool
  store : Store α

/-- A new object (the class has no constructor of its own). -/
def Sdt.new {α : Type} (disk : Str → Option Str) : Sdt α := ⟨disk, none, true, ⟨[], []⟩⟩

/-- `fstream::open`: fails without an exception if a file is open already, if the file cannot
be opened, or (for `ios::in`) if it does not exist; success clears the state. -/
def Sdt.openStream {α : Type} (pm : Perm) (s : Sdt α) (n : Str) (m : Mode) : Sdt α :=
  match s.stream with
  | some _ => { s with good := false }
  | none =>
    match m with
    | .read =>
      if (s.disk n).isSome && pm.readable n then { s with stream := some ⟨n, 0, false⟩, good := true }
      else { s with good := false }
    | .update =>
      if (s.disk n).isSome && pm.readable n && pm.writable n then
        { s with stream := some ⟨n, 0, true⟩, good := true }
      else { s with good := false }
    | .write =>
      if pm.writable n then
        { s with stream := some ⟨n, 0, true⟩, good := true, disk := setFile s.disk n [] }
      else { s with good := false }

/-- `Close`, SFile_SDT.cpp 72-74: `fstream::close` sets the fail bit if no file is open. -/
def Sdt.close {α : Type} (s : Sdt α) : Sdt α :=
  match s.stream with
  | some _ => { s with stream := none }
  | none => { s with good := false }

/-- `Load` and `Close` of SFile_SDT.cpp 52-55: from a failed stream nothing is read.  An
exception in `Load` leaves the file open. -/
def Sdt.loadClose {α : Type} (c : Codec α) (s : Sdt α) : Sdt α × Out :=
  match s.stream, s.good with
  | some f, true =>
    match loadKeep c (lines ((s.disk f.name).getD [])) s.store with
    | (st, .done) => (Sdt.close { s with store := st }, .ok)
    | (st, .throws) => ({ s with store := st }, .exc)
    | (st, .ub) => ({ s with store := st }, .ub)
  | _, _ => (s.close, .ok)

/-- `Open`, SFile_SDT.cpp 48-66 (the three modes are the only values of the type). -/
def Sdt.open {α : Type} (pm : Perm) (c : Codec α) (s : Sdt α) (n : Str) (m : Mode) : Sdt α × Out :=
  match m with
  | .read => (s.openStream pm n .read).loadClose c
  | .update => (s.openStream pm n .update, .ok)
  | .write => (s.openStream pm n .write, .ok)

/-- Text written at a position of a file. -/
def overwrite (old : Str) (pos : Nat) (text : Str) : Str :=
  old.take pos ++ text ++ old.drop (pos + text.length)

/-- Output to the stream by any of the writing functions, SFile_SDT.cpp 327-425 (see `writeVar`).
Output to a stream that has failed or is not open for writing is dropped. -/
def Sdt.write {α : Type} (c : Codec α) (s : Sdt α) (v : Var α) : Sdt α :=
  match s.stream, s.good with
  | some f, true =>
    if f.out then
      { s with
        disk := setFile s.disk f.name (overwrite ((s.disk f.name).getD []) f.pos (writeVar c v)),
        stream := some { f with pos := f.pos + (writeVar c v).length } }
    else { s with good := false }
  | _, _ => { s with good := false }

/-- Calls on an object of class `SFile_SDT` that change something. -/
inductive SdtCall (α : Type) where
  | open (n : Str) (m : Mode)
  | write (v : Var α)
  | close

def Sdt.step {α : Type} (pm : Perm) (c : Codec α) (s : Sdt α) : SdtCall α → Sdt α × Out
  | .open n m => s.open pm c n m
  | .write v => (s.write c v, .ok)
  | .close => (s.close, .ok)

/-- A history of calls, exceptions being caught by the caller: final state and outcomes.  After
undefined behaviour nothing more is said. -/
def Sdt.run {α : Type} (pm : Perm) (c : Codec α) (s : Sdt α) : List (SdtCall α) → Sdt α × List Out
  | [] => (s, [])
  | k :: ks =>
    match s.step pm c k with
    | (s', .ub) => (s', [.ub])
    | (s', o) => let r := Sdt.run pm c s' ks; (r.1, o :: r.2)

/-! ### SFile_HDF5 and SFile_MAT -/

namespace Hdf

/-- The member `file`. -/
inductive Ptr where
  /-- not set by the constructor, SFile_HDF5.cpp 17-20 -/
  | indet
  | null
  | opened (n : Str) (writable : Bool)
  deriving DecidableEq, Repr

/-- The disk (only HDF5 files), the handles open in the library, and one object. -/
structure H5 where
  disk : Str → Option (List (Path × Obj))
  handles : List (Str × Bool)
  ptr : Ptr

/-- A new object. -/
def H5.new (disk : Str → Option (List (Path × Obj))) (handles : List (Str × Bool)) : H5 :=
  ⟨disk, handles, .indet⟩

/-- `new H5File(n, H5F_ACC_…)`; `none` is a `FileIException`. -/
def H5.openFile (pm : Perm) (s : H5) (n : Str) (m : Mode) : Option H5 :=
  match m with
  | .read =>
    if (s.disk n).isSome && pm.readable n then
      some { s with handles := (n, false) :: s.handles, ptr := .opened n false }
    else none
  | .update =>
    if (s.disk n).isSome && pm.readable n && pm.writable n && !s.handles.contains (n, false) then
      some { s with handles := (n, true) :: s.handles, ptr := .opened n true }
    else none
  | .write =>
    if pm.writable n && !s.handles.any (fun h => h.1 == n) then
      some { disk := setFile s.disk n [], handles := (n, true) :: s.handles, ptr := .opened n true }
    else none

/-- Assignment of the new file to `file`: the library's exception becomes an `SFileException`. -/
def H5.assign (s : H5) : Option H5 → H5 × Out
  | some s' => (s', .ok)
  | none => (s, .exc)

/-- `Open`, SFile_HDF5.cpp 31-53 and SFile_MAT.HDF5.cpp 29-52; `t` is the current time, which
`CreateMAT` puts into the file. -/
def H5.open (fmt : Fmt) (pm : Perm) (s : H5) (n : Str) (m : Mode) (t : Tm) : H5 × Out :=
  match fmt, m with
  | .mat, .write =>
    match createMat t with
    | .ub => (s, .ub)
    | .throws => (s, .exc)
    | .bytes _ => s.assign (s.openFile pm n .write)
  | _, m => s.assign (s.openFile pm n m)

/-- `Close`, SFile_HDF5.cpp 58-64. -/
def H5.close (s : H5) : H5 × Out :=
  match s.ptr with
  | .opened n w => ({ s with handles := s.handles.erase (n, w), ptr := .null }, .ok)
  | _ => (s, .ub)

/-- Any writing function. -/
def H5.write (L : Lib) (fmt : Fmt) (s : H5) (o : Op) : H5 × Out :=
  match s.ptr with
  | .opened n w =>
    let r := Hdf.write L fmt ⟨w, (s.disk n).getD []⟩ o
    ({ s with disk := setFile s.disk n r.1.objs },
      match r.2 with
      | .ok _ => .ok
      | .exc _ => .exc
      | _ => .ub)
  | _ => (s, .ub)

/-- The file an open object reads from; `none` is undefined behaviour. -/
def H5.view (s : H5) : Option File :=
  match s.ptr with
  | .opened n w => some ⟨w, (s.disk n).getD []⟩
  | _ => none

/-- `HasVariable`, SFile_HDF5.cpp 70-79, as an example of a reading function. -/
def H5.has (s : H5) (p : Path) : Option Bool := s.view.map (fun f => Hdf.hasVariable f p)

/-- The destructor, SFile_HDF5.cpp 21-24; deleting an `H5File` closes it. -/
def H5.destroy (s : H5) : H5 × Out :=
  match s.ptr with
  | .indet => (s, .ub)
  | .null => (s, .ok)
  | .opened n w => ({ s with handles := s.handles.erase (n, w) }, .ok)

/-- Calls on an object.  `has` stands for every reading function. -/
inductive Call where
  | open (n : Str) (m : Mode) (t : Tm)
  | write (o : Op)
  | has (p : Path)
  | close

def H5.step (L : Lib) (fmt : Fmt) (pm : Perm) (s : H5) : Call → H5 × Out
  | .open n m t => s.open fmt pm n m t
  | .write o => s.write L fmt o
  | .has _ => (s, if s.view.isSome then .ok else .ub)
  | .close => s.close

/-- A history of calls, exceptions being caught by the caller. -/
def H5.run (L : Lib) (fmt : Fmt) (pm : Perm) (s : H5) : List Call → H5 × List Out
  | [] => (s, [])
  | k :: ks =>
    match s.step L fmt pm k with
    | (s', .ub) => (s', [.ub])
    | (s', o) => let r := H5.run L fmt pm s' ks; (r.1, o :: r.2)

end Hdf

/-! ### SFile::Create -/

/-- The object made by `Create`. -/
inductive Made (α : Type) where
  | sdt (s : Sdt α)
  | h5 (fmt : Hdf.Fmt) (s : Hdf.H5)

/-- `SFile::Create(name, mode)`, SFile.cpp 25-62, on a library built with HDF5.  The first
component is the object, or `none` when an exception is thrown. -/
def create {α : Type} (pm : Perm) (c : Codec α) (texts : Str → Option Str)
    (files : Str → Option (List (Hdf.Path × Hdf.Obj))) (handles : List (Str × Bool)) (n : Str)
    (m : Mode) (t : Hdf.Tm) : Option (Made α) × Out :=
  match typeOfFile n with
  | .sdt =>
    match (Sdt.new texts : Sdt α).open pm c n m with
    | (s, .ok) => (some (.sdt s), .ok)
    | (_, o) => (none, o)
  | .hdf5 =>
    match (Hdf.H5.new files handles).open .hdf5 pm n m t with
    | (s, .ok) => (some (.h5 .hdf5 s), .ok)
    | (_, o) => (none, o)
  | .matlab =>
    match (Hdf.H5.new files handles).open .mat pm n m t with
    | (s, .ok) => (some (.h5 .mat s), .ok)
    | (_, o) => (none, o)
  | .unknown => (none, .exc)

end Softlib.SFile
