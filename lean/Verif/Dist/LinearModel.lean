/-
Model of the linear interpolation of tabulated momentum distributions.

Source: /repo/src/DistributionFunction/NumericMomentumSpaceDistributionFunction.cpp 26-49 (`Eval`), 86-97
(`gsl_interp2d_bilinear`).  The interpolation is written out from the GNU Scientific Library: bilinear.c (`bilinear_eval`),
accel.c/bsearch.c (`gsl_interp_bsearch`, `cellOf` of LukeModel).  The state of the accelerator (a cache of the last cell) does not
change the cell that is found.

Arithmetic is exact, with minus infinity (the logarithm of zero) and NaN: zero times minus infinity is NaN, as in IEEE 754.  Plus
infinity does not occur for points inside the grids: the weights are not negative there (a negative weight gives NaN here).
-/
import Verif.Dist.MomentumModel
import Verif.Magnetic.LukeModel

namespace Softlib.Dist

noncomputable section

/-- Product with a weight. -/
def FV.times (w : ℝ) : FV → FV
  | .nan => .nan
  | .negInf => if 0 < w then .negInf else .nan
  | .num v => .num (w * v)

/-- Sum. -/
def FV.plus : FV → FV → FV
  | .nan, _ => .nan
  | _, .nan => .nan
  | .negInf, _ => .negInf
  | _, .negInf => .negInf
  | .num a, .num b => .num (a + b)

/-- `bilinear_eval`; value (i, j) of the table is number `j * np + i`.  The last line is reached only by tables that GSL does
not accept. -/
def linearSpline (t : Table) (x y : ℝ) : FV :=
  let i := Magnetic.cellOf t.p x
  let j := Magnetic.cellOf t.xi y
  match t.p[i]?, t.p[i + 1]?, t.xi[j]?, t.xi[j + 1]?, t.f[j * t.p.length + i]?, t.f[j * t.p.length + (i + 1)]?,
    t.f[(j + 1) * t.p.length + i]?, t.f[(j + 1) * t.p.length + (i + 1)]? with
  | some x0, some x1, some y0, some y1, some z00, some z10, some z01, some z11 =>
    let a := (x - x0) / (x1 - x0)
    let b := (y - y0) / (y1 - y0)
    ((((FV.times ((1 - a) * (1 - b)) z00).plus (FV.times (a * (1 - b)) z10)).plus (FV.times ((1 - a) * b) z01)).plus
      (FV.times (a * b) z11))
  | _, _, _, _, _, _, _, _ => .nan

end

end Softlib.Dist
