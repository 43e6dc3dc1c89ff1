/-
Model of the vertical extent of a domain and of the remembered radii of a magnetic field.

Source: /repo/src/MagneticField/MagneticField2D.cpp 179-196 (`GetMaxRadius`, `FindMaxRadius`,
`GetMinRadius`, `FindMinRadius`), 210-249, 259-280 (`FindMaxZ`), 338-341, 459-465 (`SetDomain`);
/repo/include/softlib/MagneticField/MagneticField2D.h 24 (initial values), 85-92;
/repo/src/MagneticField/MagneticFieldNumeric2D.cpp 175-196 (the overriding functions).

Exact real arithmetic.  A domain that was never set is `none`; using it is undefined.
-/
import Verif.Magnetic.DomainModel

namespace Softlib.Magnetic

noncomputable section

/-- `FindMaxZ`, 259-280: `FindMaxMin` with the heights as values and the radii as constraint; first
the maximum. -/
def findMaxZ (dom : List Pt) (R : ℝ) : MaxRes := findMaxMin (dom.map fun p => ⟨p.z, p.r⟩) R

/-- Members.  `own` is the contour of the overriding function of a numeric field (`none`: not
overridden). -/
structure RField where
  axis : Pt
  own : Option (List Pt)
  dom : Option (List Pt)
  maxradius : ℝ
  minradius : ℝ

/-- A new object, MagneticField2D.h 24. -/
def RField.new (axis : Pt) (own : Option (List Pt)) : RField := ⟨axis, own, none, -1, -1⟩

/-- The contour of `FindMaxRadius()`. -/
def RField.contour (f : RField) : Option (List Pt) :=
  match f.own with
  | some c => some c
  | none => f.dom

/-- Outcome of an operation: the object and the number returned, if any. -/
inductive ROut where
  | ub
  | throws (f : RField)
  | ok (f : RField) (v : ℝ)

/-- `FindMaxRadius(n, r, z)`, 210-249 (first number) and `FindMinRadius(n, r, z)`, 338-341 (second):
both members are set, unless there is an exception. -/
def RField.find (f : RField) (c : Option (List Pt)) (mini : Bool) : ROut :=
  match c with
  | none => .ub
  | some c =>
    match findMaxRadius f.axis c with
    | .ub => .ub
    | .notInside => .throws f
    | .ok mx mn => .ok { f with maxradius := mx, minradius := mn } (if mini then mn else mx)

/-- Operations. -/
inductive ROp where
  | setDomain (d : List Pt)
  | getMax
  | getMin
  | findMax
  | findMin
  /-- the functions with a contour as argument -/
  | findMaxOf (c : List Pt)
  | findMinOf (c : List Pt)

/-- One operation. -/
def RField.step (f : RField) : ROp → ROut
  | .setDomain d => RField.find { f with dom := some d } (RField.contour { f with dom := some d }) false
  | .getMax => if f.maxradius > 0 then .ok f f.maxradius else f.find f.contour false
  | .getMin => if f.minradius ≥ 0 then .ok f f.minradius else f.find f.contour true
  | .findMax => f.find f.contour false
  | .findMin => f.find f.contour true
  | .findMaxOf c => f.find (some c) false
  | .findMinOf c => f.find (some c) true

/-- A sequence of operations; exceptions are caught and the next operation follows.  `none`:
undefined. -/
def RField.run : RField → List ROp → Option RField
  | f, [] => some f
  | f, o :: rest =>
    match f.step o with
    | .ub => none
    | .throws f' => RField.run f' rest
    | .ok f' _ => RField.run f' rest

end

end Softlib.Magnetic
