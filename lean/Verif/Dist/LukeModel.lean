/-
Model of the reader of LUKE distributions.

Source: /repo/src/DistributionFunction/LUKEDistributionFunction.cpp 35-54 (`Load`), 77-106 (`LoadMomentumSpace`), 118-215
(`__Load`); the radii also /repo/src/MagneticField/MagneticField2D.cpp (`GetMaxRadius`), here a parameter.

Numbers of grid points are `unsigned int`; results of operations are rounded.  Build with `double`.  The magnetic field is
`none` if the pointer is null.  Memory that is not released is not modelled.
-/
import Verif.Dist.DeprModel

namespace Softlib.Dist

open Softlib.General

/-- What is read; `none`: absent.  `f` is the list of dimensions and the values in the order of the file. -/
structure LukeDistFile where
  xrhoG : Option (Mat ℚ)
  pn : Option (Mat ℚ)
  betath : Option (Mat ℚ)
  mhu : Option (Mat ℚ)
  f : Option (List Nat × List ℚ)

/-- The field: the radius of the axis and the largest radius. -/
structure AxisRange where
  minr : ℚ
  maxr : ℚ

/-- One radius, 133-136. -/
def lukeRadius {u : ℚ} (R : Rnd u) (a : AxisRange) (x : ℚ) : ℚ := R.fl (a.minr + R.fl (x * R.fl (a.maxr - a.minr)))

/-- A loop over the first `n` elements of an array. -/
def onFirst (n : Nat) (g : ℚ → ℚ) (l : List ℚ) : LRes (List ℚ) :=
  if l.length < n then .ub else .ok ((l.take n).map g ++ l.drop n)

/-- `__Load`, 118-215. -/
def lukeDistLoad {u : ℚ} (R : Rnd u) (field : Option AxisRange) (F : LukeDistFile) : LRes DeprData :=
  (readVec F.xrhoG).andThen fun r =>
  match field with
  | none => .ub
  | some a =>
    (onFirst r.1 (lukeRadius R a) r.2).andThen fun rs =>
    (readVec F.pn).andThen fun p =>
    match F.betath with
    | none => .throws
    | some bt =>
      if bt.rows ≠ 1 ∨ bt.cols ≠ 1 then .throws
      else
        match bt.data[0]? with
        | none => .ub
        | some b =>
          (onFirst p.1 (fun x => R.fl (x * b)) p.2).andThen fun ps =>
          (readVec F.mhu).andThen fun xi =>
          match F.f with
          | none => .throws
          | some f =>
            if f.1 = [r.1, xi.1, p.1] then .ok ⟨r.1, p.1, xi.1, rs, ps, xi.2, f.2⟩
            else .throws

/-- `Load`, 35-54, without the logarithm. -/
def lukeLoadDist {u : ℚ} {M : Type} (R : Rnd u) (field : Option AxisRange) (mk : List ℚ → List ℚ → List ℚ → M) (F : LukeDistFile) :
    LRes (NDist M ℚ) :=
  (lukeDistLoad R field F).andThen fun d =>
    if d.r.length < d.nr then .ub
    else
      match d.slices with
      | none => .ub
      | some ss =>
        match NDist.initialize (d.r.take d.nr) (ss.map (mk d.p d.xi)) with
        | .ub => .ub
        | .throws => .throws
        | .ok x => .ok x

/-- The values handed over by `LoadMomentumSpace`, 86-95. -/
def lukeMomentum {u : ℚ} (R : Rnd u) (field : Option AxisRange) (F : LukeDistFile) (radindex : Nat) : LRes (List ℚ) :=
  (lukeDistLoad R field F).andThen fun d =>
    if radindex ≥ d.nr then .throws
    else
      match d.slice radindex with
      | none => .ub
      | some s => .ok s

end Softlib.Dist
