/-
The memory in which magnetic fields return the results of evaluations.

Source: /repo/include/softlib/MagneticField/MagneticField2D.h 8-18 and 43 (`magnetic_field_data`, `flux_diff`, `magdata`);
/repo/src/MagneticField/MagneticFieldNumeric2D.cpp 43-61 (destructor), 66-80 and 100-107 (allocation), 115-165 (`Clone`),
300-321 (`Eval`), 333-395 (`__EvalJacobian`), 397-431 (`EvalDerivatives`), 439-476 (`EvalFlux`, `EvalFluxDerivatives`);
/repo/include/softlib/MagneticField/MagneticFieldAnalytical2D.h 26-36 (`retval`, `flux_retval`, `jacobian`; there is no
destructor) and 61 (`SetB0`); /repo/src/MagneticField/MagneticFieldAnalytical2D.cpp 52-55, 67-75, 113-130, 144-194,
231-253, 262-314 (`ToNumeric2D`).

The field itself is any function of the position.  An object has four places for results: the vector (`interpval` or
`retval`), the Jacobian, the structure `magdata` (numbers and a pointer to the Jacobian) and the flux.  Memory is not
used again after it has been released: what a dangling pointer shows is undefined anyway.  The object itself and the
arrays it refers to are in OwnershipModel.lean.
-/
import Verif.Magnetic.NumericModel
import Verif.Magnetic.AnalyticModel

namespace Softlib.Magnetic.Result

/-- A field: what the evaluation functions compute.  `flux p = none`: the function throws. -/
structure Fld (P V D J F : Type) where
  numeric : Bool
  vec : P → V
  data : P → D
  jac : P → J
  flux : P → Option F

/-- Contents of a place. -/
inductive Content (V D J F : Type) where
  | vec (v : V)
  | jac (j : J)
  /-- numbers of `magdata`, and the pointer `J` -/
  | data (d : D) (j : Nat)
  | flux (f : F)

/-- A place: not released, and contents if anything has been written. -/
structure Cell (V D J F : Type) where
  alive : Bool
  val : Option (Content V D J F)

structure Obj (P V D J F : Type) where
  fld : Fld P V D J F
  /-- addresses -/
  vec : Nat
  jac : Nat
  data : Nat
  flux : Nat

/-- State: memory and objects (`none`: destroyed). -/
structure St (P V D J F : Type) where
  mem : List (Cell V D J F)
  objs : List (Option (Obj P V D J F))

variable {P V D J F : Type}

def St.init : St P V D J F := ⟨[], []⟩

/-- What a program can do. -/
inductive Op (P V D J F : Type) where
  | make (f : Fld P V D J F)
  | clone (i : Nat)
  /-- `SetB0` of an analytical field (or `Init` of a numerical one): another field of the same kind -/
  | change (i : Nat) (f : Fld P V D J F)
  | eval (i : Nat) (p : P)
  | deriv (i : Nat) (p : P)
  | flux (i : Nat) (p : P)
  | fluxDeriv (i : Nat) (p : P)
  /-- `ToNumeric2D`: evaluation in the points of a grid; `f` is the interpolated field -/
  | toNumeric (i : Nat) (pts : List P) (f : Fld P V D J F)
  | destroy (i : Nat)

/-- Result of an operation. -/
inductive Out where
  | ub
  | throws
  | unit
  | number
  | object (i : Nat)
  /-- a pointer or a reference -/
  | ptr (a : Nat)
  deriving DecidableEq

/-- The places of a new object. -/
def alloc (s : St P V D J F) (f : Fld P V D J F) : St P V D J F :=
  ⟨s.mem ++ [⟨true, none⟩, ⟨true, none⟩, ⟨true, none⟩, ⟨true, none⟩],
   s.objs ++ [some ⟨f, s.mem.length, s.mem.length + 1, s.mem.length + 2, s.mem.length + 3⟩]⟩

def write (m : List (Cell V D J F)) (a : Nat) (c : Content V D J F) : List (Cell V D J F) := m.set a ⟨true, some c⟩

def release (m : List (Cell V D J F)) (a : Nat) : List (Cell V D J F) := m.set a ⟨false, none⟩

/-- `EvalDerivatives`; the numerical field also writes the vector (`__EvalJacobian`, 377-379). -/
def writeDeriv (m : List (Cell V D J F)) (o : Obj P V D J F) (p : P) : List (Cell V D J F) :=
  let m := if o.fld.numeric then write m o.vec (.vec (o.fld.vec p)) else m
  write (write m o.jac (.jac (o.fld.jac p))) o.data (.data (o.fld.data p) o.jac)

/-- The evaluations of `ToNumeric2D`, one after another. -/
def writeAll (m : List (Cell V D J F)) (o : Obj P V D J F) : List P → List (Cell V D J F)
  | [] => m
  | p :: rest => writeAll (write m o.vec (.vec (o.fld.vec p))) o rest

/-- Destruction.  The analytical field has no destructor: its Jacobian is never released. -/
def releaseAll (m : List (Cell V D J F)) (o : Obj P V D J F) : List (Cell V D J F) :=
  let m := release (release (release m o.vec) o.data) o.flux
  if o.fld.numeric then release m o.jac else m

/-- Object number `i`. -/
def St.obj (s : St P V D J F) (i : Nat) : Option (Obj P V D J F) := s.objs[i]?.join

/-- One operation.  Using an object that does not exist is undefined. -/
def step (s : St P V D J F) : Op P V D J F → Out × St P V D J F
  | .make f => (.object s.objs.length, alloc s f)
  | .clone i =>
    match s.obj i with
    | none => (.ub, s)
    | some o => (.object s.objs.length, alloc s o.fld)
  | .change i f =>
    match s.obj i with
    | none => (.ub, s)
    | some o => (.unit, ⟨s.mem, s.objs.set i (some { o with fld := { f with numeric := o.fld.numeric } })⟩)
  | .eval i p =>
    match s.obj i with
    | none => (.ub, s)
    | some o => (.ptr o.vec, ⟨write s.mem o.vec (.vec (o.fld.vec p)), s.objs⟩)
  | .deriv i p =>
    match s.obj i with
    | none => (.ub, s)
    | some o => (.ptr o.data, ⟨writeDeriv s.mem o p, s.objs⟩)
  | .flux i p =>
    match s.obj i with
    | none => (.ub, s)
    | some o =>
      match o.fld.flux p with
      | none => (.throws, s)
      | some _ => (.number, s)
  | .fluxDeriv i p =>
    match s.obj i with
    | none => (.ub, s)
    | some o =>
      match o.fld.flux p with
      | none => (.throws, s)
      | some f => (.ptr o.flux, ⟨write s.mem o.flux (.flux f), s.objs⟩)
  | .toNumeric i pts f =>
    match s.obj i with
    | none => (.ub, s)
    | some o =>
      if o.fld.numeric then (.ub, s)
      else (.object s.objs.length, alloc ⟨writeAll s.mem o pts, s.objs⟩ { f with numeric := true })
  | .destroy i =>
    match s.obj i with
    | none => (.ub, s)
    | some o => (.unit, ⟨releaseAll s.mem o, s.objs.set i none⟩)

/-- A program; `none` as soon as something undefined happens. -/
def run (s : St P V D J F) : List (Op P V D J F) → Option (St P V D J F)
  | [] => some s
  | op :: rest =>
    match (step s op).1 with
    | .ub => none
    | _ => run (step s op).2 rest

/-- What is found through a pointer; `none`: undefined (released or never written). -/
def look (s : St P V D J F) (a : Nat) : Option (Content V D J F) :=
  match s.mem[a]? with
  | some ⟨true, c⟩ => c
  | _ => none

noncomputable section

/-- The numbers of `magnetic_field_data`; `none`: strength and gradient are NaN. -/
abbrev Numbers := Option ((ℝ × ℝ × ℝ) × ℝ × (ℝ × ℝ × ℝ) × (ℝ × ℝ × ℝ))

def numbers (m : MagData) : (ℝ × ℝ × ℝ) × ℝ × (ℝ × ℝ × ℝ) × (ℝ × ℝ × ℝ) := (m.B, m.babs, m.gradB, m.curlB)

/-- The analytical field. -/
def ofA (f : AField) : Fld (ℝ × ℝ × ℝ) (ℝ × ℝ × ℝ) Numbers (Fin 3 → Fin 3 → ℝ) (ℝ × ℝ × ℝ) where
  numeric := false
  vec p := f.eval p.1 p.2.1 p.2.2
  data p := some (numbers (f.evalDerivatives p.1 p.2.1 p.2.2))
  jac p := (f.evalDerivatives p.1 p.2.1 p.2.2).J
  flux p := some (f.fluxDerivatives p.1 p.2.1 p.2.2)

/-- The numerical field. -/
def ofN (g : NGrid) : Fld (ℝ × ℝ × ℝ) (ℝ × ℝ × ℝ) Numbers (Fin 3 → Fin 3 → ℝ) (ℝ × ℝ × ℝ) where
  numeric := true
  vec p := (g.jacobian p.1 p.2.1 p.2.2).2
  data p := (g.evalDerivatives p.1 p.2.1 p.2.2).map numbers
  jac p := (g.jacobian p.1 p.2.1 p.2.2).1
  flux p := g.fluxDerivatives p.1 p.2.1 p.2.2

end

end Softlib.Magnetic.Result
