/-
The interpolation of tabulated distribution functions, linear or cubic.

Source: /repo/src/DistributionFunction/NumericMomentumSpaceDistributionFunction.cpp 37-48 (`Eval`), 86-97 (`Initialize`).

The bicubic interpolation of GSL (BicubicModel) with infinities and NaN, since the logarithm of zero is minus infinity.  No rounding and
no overflow.
-/
import Verif.Magnetic.BicubicModel
import Verif.Dist.LinearModel
import Verif.General.SpecialModel

namespace Softlib.Dist

open Softlib.Magnetic Softlib.Special

noncomputable section

/-- Values of a table as numbers with infinities and NaN. -/
def efOf : FV → EF
  | .nan => .nan
  | .negInf => .ninf
  | .num v => .fin v

/-- And back.  (The interpolation of a table is never infinite, C124_finite.) -/
def fvOf : EF → FV
  | .nan => .nan
  | .pinf => .nan
  | .ninf => .negInf
  | .fin v => .num v

/-- `gsl_spline2d_eval` with `gsl_interp2d_bicubic`. -/
def cubicEF (t : Table) (x y : ℝ) : EF :=
  bicubicAt EF.fin 0 0 (fun i => t.p.getD i 0) (fun j => t.xi.getD j 0) t.p.length t.xi.length (fun k => efOf (t.f.getD k .nan))
    (cellOf t.p x) (cellOf t.xi y) x y

/-- Lines 89-95: which interpolation is used. -/
def gslSpline (t : Table) (x y : ℝ) : FV := if t.interp = 0 then linearSpline t x y else fvOf (cubicEF t x y)

end

end Softlib.Dist
