/-
Linear interpolation of tabulated momentum distributions in rounded arithmetic.

Source: /repo/src/DistributionFunction/NumericMomentumSpaceDistributionFunction.cpp 26-49 (`Eval`), 86-97
(`gsl_interp2d_bilinear`); the arithmetic is that of `bilinear_eval` in bilinear.c of the GNU Scientific Library:

    t = (x - xmin)/dx;  u = (y - ymin)/dy;
    z = (1.-t)*(1.-u)*zminmin + t*(1.-u)*zmaxmin + (1.-t)*u*zminmax + t*u*zmaxmax;

with `dx = xmax - xmin`, `dy = ymax - ymin`.  This is LinearModel with each operation rounded as in RoundModel: the build with
`double`, finite values, no overflow or underflow, and no contraction to fused operations.  Comparisons and changes of sign are
exact.  Tables that are not logarithmic.
-/
import Verif.General.RoundModel
import Verif.Dist.LinearModel

namespace Softlib.Dist

open Softlib.General

/-- The position inside a cell, `t` and `u` of `bilinear_eval`. -/
def cellPosR {u : ℚ} (R : Rnd u) (x0 x1 x : ℚ) : ℚ := R.fl (R.fl (x - x0) / R.fl (x1 - x0))

/-- The four products and their sum, from left to right. -/
def cellSumR {u : ℚ} (R : Rnd u) (t v z00 z10 z01 z11 : ℚ) : ℚ :=
  R.fl (R.fl (R.fl (R.fl (R.fl (R.fl (1 - t) * R.fl (1 - v)) * z00) + R.fl (R.fl (t * R.fl (1 - v)) * z10)) +
    R.fl (R.fl (R.fl (1 - t) * v) * z01)) + R.fl (R.fl (t * v) * z11))

/-- A momentum distribution whose table consists of numbers. -/
structure QMom where
  p : List ℚ
  xi : List ℚ
  f : List ℚ
  flip : Bool

/-- `gsl_interp_bsearch`, as `cellOf` of LukeModel. -/
def cellQ (xs : List ℚ) (x : ℚ) : Nat := ((xs.drop 1).dropLast.takeWhile fun a => decide (a ≤ x)).length

/-- `bilinear_eval`; value (i, j) of the table is number `j * np + i`.  The last line is reached only by tables that GSL does
not accept. -/
def tableR {u : ℚ} (R : Rnd u) (t : QMom) (x y : ℚ) : ℚ :=
  let i := cellQ t.p x
  let j := cellQ t.xi y
  match t.p[i]?, t.p[i + 1]?, t.xi[j]?, t.xi[j + 1]?, t.f[j * t.p.length + i]?, t.f[j * t.p.length + (i + 1)]?,
    t.f[(j + 1) * t.p.length + i]?, t.f[(j + 1) * t.p.length + (i + 1)]? with
  | some x0, some x1, some y0, some y1, some z00, some z10, some z01, some z11 =>
    cellSumR R (cellPosR R x0 x1 x) (cellPosR R y0 y1 y) z00 z10 z01 z11
  | _, _, _, _, _, _, _, _ => 0

/-- `Eval`, 26-49, with the bounds that `Initialize` sets (74-83): the first and last element of each grid. -/
def momR {u : ℚ} (R : Rnd u) (t : QMom) (x y : ℚ) : ℚ :=
  match t.p.head?, t.p.getLast?, t.xi.head?, t.xi.getLast? with
  | some pmin, some pmax, some ximin, some ximax =>
    if x < pmin ∨ x > pmax then 0
    else if t.flip = true then
      if y < -ximax ∨ y > -ximin then 0 else tableR R t x (-y)
    else
      if y < ximin ∨ y > ximax then 0 else tableR R t x y
  | _, _, _, _ => 0

noncomputable section

/-- The table as one of real numbers, with linear interpolation. -/
def QMom.table (t : QMom) : Table :=
  ⟨t.p.map fun q : ℚ => (q : ℝ), t.xi.map fun q : ℚ => (q : ℝ), (t.f.map fun q : ℚ => (q : ℝ)).map .num, 0⟩

end

end Softlib.Dist
