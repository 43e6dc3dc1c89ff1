/-
Who owns the list of values of a setting read from a file.

Source: /repo/src/Configuration/SFile/SettingSFile.cpp 15-34 (destructor, `DeleteCurrent`), 42-103
(`OverwriteValues`), 108-119 (`Copy`), 288-338 (`SetValue…`);
/repo/include/softlib/Configuration/ConfigurationSFile.h 10-40 (members and constructors; the copy
constructor is the one made by the compiler).

Simplifications: a list of values (a `std::vector` made with `new`) is a number, handed out in
increasing order; its contents are those of C20.  The type tag of a setting is that of the list it
was given, which the C++ types enforce.  Null pointers are not handed over, and allocation does not
fail.  A list being filled when an exception is thrown is lost; whether it was filled in part does not
matter, so it is kept as an empty one.
-/
import Verif.Config.SFileSettingModel

namespace Softlib.Config

/-- How the construction of the new list in `OverwriteValues` ends: an exception before the `new`, an
exception after it, or the list. -/
inductive Built (R : Type) where
  | early
  | late
  | done (d : SData R)
deriving DecidableEq, Repr

/-- `new vector(n)` and the loop of one branch (SettingSFile.cpp 60-100).  An exception in the
argument of `new` releases the memory. -/
def fillB {R α : Type} (dflt : α) (n : Got Nat) (get : Nat → Got α) (mk : List α → SData R) : Built R :=
  match n with
  | .val k =>
    match pushFrom get 0 k (List.replicate k dflt) with
    | .val l => .done (mk l)
    | _ => .late
  | _ => .early

/-- `if (s->Is…())`. -/
def askB {R : Type} (b : Got Bool) (yes no : Built R) : Built R :=
  match b with
  | .val true => yes
  | .val false => no
  | _ => .early

/-- The list made by `OverwriteValues` (SettingSFile.cpp 42-103; line 43 is always false, see C20). -/
def buildValues {R : Type} (o : RealOps R) (s : Source R) : Built R :=
  askB s.isBool (fillB false s.num s.getBool .bool) <|
  askB s.isInteger32 (fillB 0 s.num s.getInteger32 .int32) <|
  askB s.isInteger64 (fillB 0 s.num s.getInteger64 .int64) <|
  askB s.isUnsigned32 (fillB 0 s.num s.getUnsigned32 .uint32) <|
  askB s.isUnsigned64 (fillB 0 s.num s.getUnsigned64 .uint64) <|
  askB s.isNumericVector (fillB o.zero s.num s.getScalar .real) <|
  fillB [] s.num (fun _ => s.getString 0) .string

/-- Memory and settings.  `heap` has an entry for each list ever made, `none` once it is released.
`mine` is bookkeeping of the calling program: the lists it made and neither released nor handed over.
A setting is `none` when it was destroyed, `some none` when it is `UNSPECIFIED`, and otherwise holds
a list. -/
structure VWorld (R : Type) where
  heap : List (Option (SData R))
  mine : List Nat
  sets : List (Option (Option Nat))
deriving DecidableEq, Repr

/-- Nothing made yet. -/
def VWorld.empty (R : Type) : VWorld R := ⟨[], [], []⟩

/-- What an operation does. -/
inductive VRes (R : Type) where
  | ok (w : VWorld R)
  | throws (w : VWorld R)
  | ub
deriving DecidableEq, Repr

namespace VWorld
variable {R : Type}

/-- The contents of a list that was not released. -/
def read (w : VWorld R) (v : Nat) : Option (SData R) := (w.heap[v]?).join

/-- `delete v`; `none` is undefined behaviour. -/
def free (w : VWorld R) (v : Nat) : Option (VWorld R) :=
  match w.read v with
  | some _ => some { w with heap := w.heap.set v none }
  | none => none

/-- What the getters of a setting see; `none` is undefined behaviour. -/
def contents (w : VWorld R) (i : Nat) : Option (SData R) :=
  match w.sets[i]? with
  | some (some none) => some .unspecified
  | some (some (some v)) => w.read v
  | _ => none

/-- `DeleteCurrent` (SettingSFile.cpp 19-34): the list is released and the setting is
`UNSPECIFIED`. -/
def drop (w : VWorld R) (i : Nat) : Option (VWorld R) :=
  match w.sets[i]? with
  | some (some none) => some w
  | some (some (some v)) =>
    match w.free v with
    | some w' => some { w' with sets := w'.sets.set i (some none) }
    | none => none
  | _ => none

/-- `SetValue…` (SettingSFile.cpp 288-338): the current list is released, then the new one is held. -/
def setValue (w : VWorld R) (i v : Nat) : Option (VWorld R) :=
  match w.drop i with
  | some w' => some { w' with sets := w'.sets.set i (some (some v)) }
  | none => none

/-- `new vector(…)` with the given contents. -/
def alloc (w : VWorld R) (d : SData R) : VWorld R := { w with heap := w.heap ++ [some d] }

/-- `OverwriteValues` once it is known what was built (SettingSFile.cpp 58-102). -/
def overwrite (w : VWorld R) (i : Nat) : Built R → VRes R
  | .early => .throws w
  | .late => .throws (w.alloc .unspecified)
  | .done d =>
    match (w.alloc d).setValue i w.heap.length with
    | some w' => .ok w'
    | none => .ub

/-- `Copy` (SettingSFile.cpp 108-119): a new setting with a new list. -/
def copy (w : VWorld R) (d : SData R) : VRes R :=
  match d.copy with
  | .val (_, d') => .ok { w.alloc d' with sets := w.sets ++ [some (some w.heap.length)] }
  | _ => .throws w

end VWorld

/-- What a program can do. -/
inductive VOp (R : Type) where
  /-- The program makes a list. -/
  | vector (d : SData R)
  /-- The program releases a list. -/
  | release (v : Nat)
  /-- `new SettingSFile(v)`. -/
  | construct (v : Nat)
  /-- `SetValue…(v)`. -/
  | set (i v : Nat)
  /-- `DeleteCurrent()`. -/
  | clear (i : Nat)
  /-- `OverwriteValues` with another file setting. -/
  | overwrite (i j : Nat)
  /-- `OverwriteValues` with a setting of a script. -/
  | overwriteScript (i : Nat) (vs : List Str)
  /-- `Copy()`. -/
  | copy (i : Nat)
  /-- `new SettingSFile(*s)`: the copy constructor made by the compiler. -/
  | copyObject (i : Nat)
  /-- Any of the getters and checks. -/
  | get (i : Nat)
  /-- `delete s`. -/
  | destroy (i : Nat)
deriving DecidableEq, Repr

/-- One operation; `erange` and `conv` say how texts are read as numbers (C19).  Using a setting that
does not exist any more is undefined behaviour. -/
def vStep {R : Type} (o : RealOps R) (erange : Str → Bool) (conv : Str → R) (w : VWorld R) : VOp R → VRes R
  | .vector d => .ok { w.alloc d with mine := w.heap.length :: w.mine }
  | .release v =>
    match w.free v with
    | some w' => .ok { w' with mine := w'.mine.erase v }
    | none => .ub
  | .construct v => .ok { w with mine := w.mine.erase v, sets := w.sets ++ [some (some v)] }
  | .set i v =>
    match w.setValue i v with
    | some w' => .ok { w' with mine := w'.mine.erase v }
    | none => .ub
  | .clear i =>
    match w.drop i with
    | some w' => .ok w'
    | none => .ub
  | .overwrite i j =>
    match w.sets[i]?, w.contents j with
    | some (some _), some d => w.overwrite i (buildValues o (d.source o))
    | _, _ => .ub
  | .overwriteScript i vs =>
    match w.sets[i]? with
    | some (some _) => w.overwrite i (buildValues o (scriptSource erange conv vs))
    | _ => .ub
  | .copy i =>
    match w.contents i with
    | some d => w.copy d
    | none => .ub
  | .copyObject i =>
    match w.sets[i]? with
    | some (some h) => .ok { w with sets := w.sets ++ [some h] }
    | _ => .ub
  | .get i =>
    match w.contents i with
    | some _ => .ok w
    | none => .ub
  | .destroy i =>
    match w.drop i with
    | some w' => .ok { w' with sets := w'.sets.set i none }
    | none => .ub

/-- A program: the operations in turn; an exception is caught and the program goes on.  `none` is
undefined behaviour. -/
def vRun {R : Type} (o : RealOps R) (erange : Str → Bool) (conv : Str → R) (w : VWorld R) :
    List (VOp R) → Option (VWorld R)
  | [] => some w
  | op :: ops =>
    match vStep o erange conv w op with
    | .ok w' => vRun o erange conv w' ops
    | .throws w' => vRun o erange conv w' ops
    | .ub => none

end Softlib.Config
