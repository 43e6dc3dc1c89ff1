/-
Who owns the arrays of a numeric magnetic field.

Source: /repo/src/MagneticField/MagneticFieldNumeric2D.cpp 43-62 (destructor), 67-80 (scratch
arrays), 92-108 (construction from data), 115-166 (`Clone`), 213-255 (`Init`), 262-289
(`InitInterpolation`); /repo/include/softlib/MagneticField/MagneticFieldNumeric2D.h 16-39 (members).

Simplifications: an allocated array is a number, handed out in increasing order; what is stored in it
does not matter here.  Releasing an array that is not allocated, reading one that is not, and reading
through a null pointer are undefined behaviour.  The interpolation objects of GSL (two accelerators,
three or four splines) are one block each.  The grids have at least one point, so that `Clone` and
`InitInterpolation` do read them.  Allocation itself does not fail.
-/

namespace Softlib.Magnetic

/-- The pointer arguments of the data constructor and of `Init`, and the two contour lengths
(MagneticFieldNumeric2D.cpp 92-99, 213-220). -/
structure OArgs where
  R : Nat
  Z : Nat
  Br : Nat
  Bphi : Nat
  Bz : Nat
  Psi : Option Nat
  rsep : Option Nat
  zsep : Option Nat
  nsep : Nat
  rwall : Option Nat
  zwall : Option Nat
  nwall : Nat
deriving DecidableEq, Repr

/-- A field in memory: the arrays it was given, its scratch arrays `interpval`, `jacobian` and
`jacobian[0]` (MagneticFieldNumeric2D.h 24-25), and its interpolation objects (h 37-39). -/
structure OField where
  a : OArgs
  interpval : Nat
  jac : Nat
  jac0 : Nat
  gsl : List Nat
deriving DecidableEq, Repr

/-- Memory and the fields made so far.  A block is allocated when its number is below `next` and it
has not been `freed`; `freed` lists the releases, the latest first.  `mine` is bookkeeping of the
calling program: the arrays it has allocated and neither released nor handed to a field.  A field
that was destroyed is `none`. -/
structure OWorld where
  next : Nat
  freed : List Nat
  mine : List Nat
  fields : List (Option OField)
deriving DecidableEq, Repr

/-- Nothing allocated, no fields. -/
def OWorld.empty : OWorld := ⟨0, [], [], []⟩

/-- The block is allocated and not released. -/
def OWorld.live (w : OWorld) (b : Nat) : Bool := decide (b < w.next) && !w.freed.contains b

/-- `delete [] p` for each of the blocks in turn; `none` is undefined behaviour. -/
def freeAll (w : OWorld) : List Nat → Option OWorld
  | [] => some w
  | b :: bs => if w.live b = true then freeAll { w with freed := b :: w.freed } bs else none

/-- Whether all of the blocks can be read. -/
def readable (w : OWorld) (bs : List Nat) : Bool := bs.all w.live

/-- What an operation does. -/
inductive ORes where
  | ok (w : OWorld)
  | throws (w : OWorld)
  | ub
deriving DecidableEq, Repr

/-- `rsep == nullptr || zsep == nullptr` and the same for the wall: lines 221-222. -/
def OArgs.noContour (a : OArgs) : Bool :=
  (a.rsep.isNone || a.zsep.isNone) && (a.rwall.isNone || a.zwall.isNone)

/-- The arrays read by `InitInterpolation` (lines 275-282); GSL copies them. -/
def OArgs.gridArrays (a : OArgs) : List Nat := [a.R, a.Z, a.Br, a.Bphi, a.Bz] ++ a.Psi.toList

/-- All arrays given. -/
def OArgs.arrays (a : OArgs) : List Nat :=
  a.gridArrays ++ a.rsep.toList ++ a.zsep.toList ++ a.rwall.toList ++ a.zwall.toList

/-- The number of interpolation objects: two accelerators, a spline per component, and one for the
flux when there is one (lines 268-282). -/
def OArgs.gslCount (a : OArgs) : Nat := if a.Psi.isSome then 6 else 5

/-- `count` consecutive new blocks. -/
def newBlocks (start : Nat) (count : Nat) : List Nat := (List.range count).map (start + ·)

/-- `delete [] rwall, delete [] zwall` under `if (nwall > 0)`, and the same for the separatrix;
releasing a null pointer does nothing (lines 58-61). -/
def OArgs.freedContours (a : OArgs) : List Nat :=
  (if 0 < a.nwall then a.rwall.toList ++ a.zwall.toList else []) ++
    (if 0 < a.nsep then a.rsep.toList ++ a.zsep.toList else [])

/-- What the destructor releases, in its order (lines 43-62).  `Psi` and the interpolation objects
are not in the list. -/
def OField.released (f : OField) : List Nat :=
  [f.interpval, f.jac0, f.jac, f.a.R, f.a.Z, f.a.Br, f.a.Bphi, f.a.Bz] ++ f.a.freedContours

/-- Everything a field holds. -/
def OField.held (f : OField) : List Nat :=
  [f.interpval, f.jac, f.jac0] ++ f.a.arrays ++ f.gsl

/-- The contour arrays that `Clone` and the searches read (lines 139-146, 176-197): the non-empty
ones.  `none`: a null pointer is read. -/
def contourReads (n : Nat) (r z : Option Nat) : Option (List Nat) :=
  if n = 0 then some [] else
    match r, z with
    | some r, some z => some [r, z]
    | _, _ => none

/-- The arrays `Clone` copies from (lines 131-155). -/
def OArgs.cloneReads (a : OArgs) : Option (List Nat) :=
  match contourReads a.nsep a.rsep a.zsep, contourReads a.nwall a.rwall a.zwall with
  | some s, some t => some (a.gridArrays ++ s ++ t)
  | _, _ => none

/-- The arguments `Clone` gives to the new field: all arrays are new, and the four contour arrays are
allocated whatever their lengths, so that none is null (lines 121-129, 150-151).  The arrays are
numbered in the order of the allocations. -/
def OArgs.cloneArgs (a : OArgs) (n : Nat) : OArgs :=
  { R := n, Z := n + 1, Br := n + 2, Bphi := n + 3, Bz := n + 4,
    rsep := some (n + 5), zsep := some (n + 6), nsep := a.nsep,
    rwall := some (n + 7), zwall := some (n + 8), nwall := a.nwall,
    Psi := if a.Psi.isSome then some (n + 9) else none }

/-- The number of arrays `Clone` allocates before the construction. -/
def OArgs.cloneCount (a : OArgs) : Nat := if a.Psi.isSome then 10 else 9

/-- Construction from data (lines 92-108 and 213-255): three scratch blocks, the check of the
contours, and the interpolation objects.  When the check fails the exception leaves the constructor,
the destructor does not run, and the scratch blocks remain. -/
def oConstruct (w : OWorld) (a : OArgs) : ORes :=
  let n := w.next
  let w1 : OWorld := { w with next := n + 3 }
  match a.noContour with
  | true => .throws w1
  | false =>
    match readable w1 a.gridArrays with
    | true => .ok { w1 with
        next := n + 3 + a.gslCount
        mine := w1.mine.filter (fun b => !a.arrays.contains b)
        fields := w1.fields ++ [some ⟨a, n, n + 1, n + 2, newBlocks (n + 3) a.gslCount⟩] }
    | false => .ub

/-- `Clone` (lines 115-166). -/
def oClone (w : OWorld) (f : OField) : ORes :=
  match f.a.cloneReads with
  | none => .ub
  | some bs =>
    match readable w bs with
    | true => oConstruct { w with next := w.next + f.a.cloneCount } (f.a.cloneArgs w.next)
    | false => .ub

/-- `Init` called on a field that exists (lines 213-255): the pointers are overwritten. -/
def oReinit (w : OWorld) (i : Nat) (f : OField) (a : OArgs) : ORes :=
  match a.noContour with
  | true => .throws w
  | false =>
    match readable w a.gridArrays with
    | true => .ok { w with
        next := w.next + a.gslCount
        mine := w.mine.filter (fun b => !a.arrays.contains b)
        fields := w.fields.set i (some { f with a := a, gsl := newBlocks w.next a.gslCount }) }
    | false => .ub

/-- `Eval`, `EvalDerivatives`, `FindMaxRadius` and `CrossesDomain`: the scratch blocks, the
interpolation objects and the contours in use are read (lines 176-197, 297-330). -/
def oQuery (w : OWorld) (f : OField) : ORes :=
  match contourReads f.a.nsep f.a.rsep f.a.zsep, contourReads f.a.nwall f.a.rwall f.a.zwall with
  | some s, some t =>
    match readable w ([f.interpval, f.jac, f.jac0] ++ f.gsl ++ s ++ t) with
    | true => .ok w
    | false => .ub
  | _, _ => .ub

/-- The destructor (lines 43-62); that of the base class does nothing
(/repo/src/MagneticField/MagneticField2D.cpp 19). -/
def oDestroy (w : OWorld) (i : Nat) (f : OField) : ORes :=
  match freeAll w f.released with
  | some w' => .ok { w' with fields := w'.fields.set i none }
  | none => .ub

/-- What a program can do. -/
inductive OOp where
  /-- The program allocates an array. -/
  | array
  /-- The program releases an array. -/
  | release (b : Nat)
  | construct (a : OArgs)
  | clone (i : Nat)
  | reinit (i : Nat) (a : OArgs)
  | query (i : Nat)
  | destroy (i : Nat)
deriving DecidableEq, Repr

/-- One operation.  Using a field that does not exist any more is undefined behaviour. -/
def oStep (w : OWorld) : OOp → ORes
  | .array => .ok { w with next := w.next + 1, mine := w.next :: w.mine }
  | .release b =>
    match freeAll w [b] with
    | some w' => .ok { w' with mine := w'.mine.erase b }
    | none => .ub
  | .construct a => oConstruct w a
  | .clone i =>
    match w.fields[i]? with
    | some (some f) => oClone w f
    | _ => .ub
  | .reinit i a =>
    match w.fields[i]? with
    | some (some f) => oReinit w i f a
    | _ => .ub
  | .query i =>
    match w.fields[i]? with
    | some (some f) => oQuery w f
    | _ => .ub
  | .destroy i =>
    match w.fields[i]? with
    | some (some f) => oDestroy w i f
    | _ => .ub

/-- A program: the operations in turn; an exception is caught and the program goes on.  `none` is
undefined behaviour. -/
def oRun (w : OWorld) : List OOp → Option OWorld
  | [] => some w
  | op :: ops =>
    match oStep w op with
    | .ok w' => oRun w' ops
    | .throws w' => oRun w' ops
    | .ub => none

end Softlib.Magnetic
