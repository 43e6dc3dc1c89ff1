/-
Model of the tabulated momentum-space distribution function.

Source: /repo/src/DistributionFunction/NumericMomentumSpaceDistributionFunction.cpp 26-49 (`Eval`),
63-98 (`Initialize`), 114-130 (`InitializeLog`), 136-142 (`MinClone`);
/repo/include/softlib/DistributionFunction/NumericMomentumSpaceDistributionFunction.h 35, 55
(`FlipPitchSign`); NumericDistributionFunction.h 78-83.

The two-dimensional spline of GSL is an arbitrary function of the table: `spline t p xi`, with a
value that may be a number, minus infinity or NaN.  (The bilinear one is written out in LinearModel.)
What GSL requires of a table is written out from interp2d.c, bilinear.c and bicubic.c: at least 2
(linear) or 4 (cubic) points in each direction and strictly increasing grids, otherwise its default
error handler aborts the program.  Exact real arithmetic, real exponential.
-/
import Mathlib.Analysis.SpecialFunctions.Log.Basic

namespace Softlib.Dist

noncomputable section

/-- A floating point value, as far as it matters here. -/
inductive FV where
  | nan
  | negInf
  | num (v : ℝ)

/-- A table: grids and values (row of `p` for each `xi`), and the kind of interpolation. -/
structure Table where
  p : List ℝ
  xi : List ℝ
  f : List FV
  interp : Int

/-- Members. -/
structure NMom where
  table : Table
  pmin : ℝ
  pmax : ℝ
  ximin : ℝ
  ximax : ℝ
  logarithmic : Bool
  flip : Bool

/-- Outcome of the initialisation. -/
inductive MRes where
  | ub
  /-- error handler of GSL -/
  | aborts
  | throws
  | ok (m : NMom)

/-- The least number of points in each direction; `INTERPOLATION_LINEAR` is 0, lines 89-95. -/
def gslLeast (interp : Int) : Nat := if interp = 0 then 2 else 4

open Classical in
/-- `Initialize`, 63-98, on an object with the given flags.  An empty grid is read outside its
bounds; so are values that are fewer than the pairs of nodes. -/
def NMom.initialize (t : Table) (logarithmic flip : Bool) : MRes :=
  match t.p.head?, t.p.getLast?, t.xi.head?, t.xi.getLast? with
  | some p0, some p1, some x0, some x1 =>
    if p0 > p1 then .throws
    else if x0 > x1 then .throws
    else if t.p.length < gslLeast t.interp ∨ t.xi.length < gslLeast t.interp ∨ ¬ t.p.Pairwise (· < ·) ∨ ¬ t.xi.Pairwise (· < ·) then
      .aborts
    else if t.f.length < t.p.length * t.xi.length then .ub
    else .ok ⟨t, p0, p1, x0, x1, logarithmic, flip⟩
  | _, _, _, _ => .ub

/-- The logarithm of line 125. -/
def logFV (x : ℝ) : FV := if x = 0 then .negInf else .num (Real.log x)

/-- `InitializeLog`, 114-130, on a new object. -/
def NMom.initializeLog (p xi f : List ℝ) (interp : Int) : MRes :=
  if f.any (fun x => decide (x < 0)) then .throws
  else NMom.initialize ⟨p, xi, f.map logFV, interp⟩ true false

/-- `FlipPitchSign`. -/
def NMom.setFlip (m : NMom) (v : Bool) : NMom := { m with flip := v }

/-- Lines 42-48. -/
def unlog : Bool → FV → FV
  | true, .nan => .num 0
  | true, .negInf => .num 0
  | true, .num v => .num (Real.exp v)
  | false, v => v

/-- `Eval`, 26-49. -/
def NMom.eval (spline : Table → ℝ → ℝ → FV) (m : NMom) (p xi : ℝ) : FV :=
  if p < m.pmin ∨ p > m.pmax then .num 0
  else if m.flip = true then
    if xi < -m.ximax ∨ xi > -m.ximin then .num 0
    else unlog m.logarithmic (spline m.table p (-xi))
  else
    if xi < m.ximin ∨ xi > m.ximax then .num 0
    else unlog m.logarithmic (spline m.table p xi)

/-- `MinClone`, 136-142: a new object (not logarithmic) initialised with the same table, with the
same flip flag. -/
def NMom.clone (m : NMom) : MRes :=
  match NMom.initialize m.table false false with
  | .ok m' => .ok (m'.setFlip m.flip)
  | r => r

end

end Softlib.Dist
