/-
The bicubic interpolation that numeric magnetic fields and tables use.

Source: /repo/src/MagneticField/MagneticFieldNumeric2D.cpp 262-291 (`InitInterpolation`), 300-321, 333-358, 439-475 (the calls of
`gsl_spline2d_eval`, `gsl_spline2d_eval_deriv_x`, `gsl_spline2d_eval_deriv_y`);
/repo/src/DistributionFunction/NumericMomentumSpaceDistributionFunction.cpp 36-41, 82-95.

Everything below is written out from the GNU Scientific Library: cspline.c (`cspline_init`, `coeff_calc`, `cspline_eval_deriv`),
linalg/tridiag.c (`solve_tridiag`), bicubic.c (`bicubic_init`, `bicubic_eval`, `bicubic_deriv_x`, `bicubic_deriv_y`), for grids that
`gsl_interp2d_init` accepts.  The derivatives at the nodes of a row or column are those of the natural cubic spline through it; the mixed
ones are the derivatives of the spline through the vertical derivatives.  A cell has the polynomial with the values and derivatives of
its four corners.  The grids are numbers; the values are of any type `F` with arithmetic, in which `c` gives the numbers: real numbers
for fields, numbers with infinities and NaN for tables (whose logarithms may be infinite).  No rounding and no overflow.
-/
import Verif.Magnetic.AccessModel

namespace Softlib.Magnetic

noncomputable section

/-! ### the natural cubic spline -/

section

variable {F : Type} [Add F] [Sub F] [Mul F] [Div F] (c : ℝ → F)

/-- Length of interval `i` of a grid. -/
def gap (x : Nat → ℝ) (i : Nat) : ℝ := x (i + 1) - x i

/-- `g_i` of `cspline_init`. -/
def recip (h : ℝ) : ℝ := if h ≠ 0 then 1 / h else 0

/-- `alpha` of `solve_tridiag`, for the diagonal `2 (h_{i+1} + h_i)` and the off-diagonal `h_{i+1}`. -/
def pivot (x : Nat → ℝ) : Nat → ℝ
  | 0 => 2 * (gap x 1 + gap x 0)
  | i + 1 => 2 * (gap x (i + 2) + gap x (i + 1)) - gap x (i + 1) * (gap x (i + 1) / pivot x i)

/-- `gamma` of `solve_tridiag`. -/
def mult (x : Nat → ℝ) (i : Nat) : ℝ := gap x (i + 1) / pivot x i

/-- The right hand side, `g` of `cspline_init`. -/
def rhs (x : Nat → ℝ) (y : Nat → F) (i : Nat) : F :=
  c 3 * ((y (i + 2) - y (i + 1)) * c (recip (gap x (i + 1))) - (y (i + 1) - y i) * c (recip (gap x i)))

/-- `z` of `solve_tridiag`. -/
def forward (x : Nat → ℝ) (y : Nat → F) : Nat → F
  | 0 => rhs c x y 0
  | i + 1 => rhs c x y (i + 1) - c (mult x i) * forward x y i

/-- The solution of `solve_tridiag` with `N` unknowns, from the last one on. -/
def backward (x : Nat → ℝ) (y : Nat → F) (N : Nat) : Nat → F
  | 0 => forward c x y (N - 1) / c (pivot x (N - 1))
  | k + 1 => forward c x y (N - 2 - k) / c (pivot x (N - 2 - k)) - c (mult x (N - 2 - k)) * backward x y N k

/-- `state->c` of `cspline_init` with `n` points. -/
def curv (x : Nat → ℝ) (y : Nat → F) (n i : Nat) : F :=
  if i = 0 ∨ i + 1 = n then c 0 else backward c x y (n - 2) (n - 2 - i)

/-- `cspline_eval_deriv` in interval `k`, at the point `a`. -/
def splineDeriv (x : Nat → ℝ) (y : Nat → F) (n k : Nat) (a : ℝ) : F :=
  let h := gap x k
  let b := (y (k + 1) - y k) / c h - c h * (curv c x y n (k + 1) + c 2 * curv c x y n k) / c 3
  let d := (curv c x y n (k + 1) - curv c x y n k) / c (3 * h)
  b + c (a - x k) * (c 2 * curv c x y n k + c 3 * d * c (a - x k))

/-- The derivative at node `i`, which is looked for in the interval that starts there, or in the last one. -/
def nodeSlope (x : Nat → ℝ) (y : Nat → F) (n i : Nat) : F := splineDeriv c x y n (if i + 1 < n then i else n - 2) (x i)

/-! ### the cells -/

/-- Value and derivatives at a node. -/
structure Corner (F : Type) where
  z : F
  zx : F
  zy : F
  zxy : F

/-- `bicubic_init`: value (i, j) is number `j * nx + i`. -/
def cornerAt (x y : Nat → ℝ) (nx ny : Nat) (v : Nat → F) (i j : Nat) : Corner F :=
  ⟨v (j * nx + i), nodeSlope c x (fun i => v (j * nx + i)) nx i, nodeSlope c y (fun j => v (j * nx + i)) ny j,
   nodeSlope c x (fun i => nodeSlope c y (fun j => v (j * nx + i)) ny j) nx i⟩

/-- The corners relative to the unit square. -/
def Corner.scale (k : Corner F) (dt du : ℝ) : Corner F := ⟨k.z, k.zx / c dt, k.zy / c du, k.zxy / c (dt * du)⟩

/-- The coefficients `v`, of the a-th power of `t` and the b-th power of `u`; the corners are minmin, minmax, maxmin, maxmax. -/
def coeff (p q r s : Corner F) : Nat → Nat → F
  | 0, 0 => p.z
  | 0, 1 => p.zy
  | 0, 2 => c (-3) * p.z + c 3 * q.z - c 2 * p.zy - q.zy
  | 0, _ => c 2 * p.z - c 2 * q.z + p.zy + q.zy
  | 1, 0 => p.zx
  | 1, 1 => p.zxy
  | 1, 2 => c (-3) * p.zx + c 3 * q.zx - c 2 * p.zxy - q.zxy
  | 1, _ => c 2 * p.zx - c 2 * q.zx + p.zxy + q.zxy
  | 2, 0 => c (-3) * p.z + c 3 * r.z - c 2 * p.zx - r.zx
  | 2, 1 => c (-3) * p.zy + c 3 * r.zy - c 2 * p.zxy - r.zxy
  | 2, 2 => c 9 * p.z - c 9 * r.z + c 9 * s.z - c 9 * q.z + c 6 * p.zx + c 3 * r.zx - c 3 * s.zx - c 6 * q.zx + c 6 * p.zy - c 6 * r.zy
      - c 3 * s.zy + c 3 * q.zy + c 4 * p.zxy + c 2 * r.zxy + s.zxy + c 2 * q.zxy
  | 2, _ => c (-6) * p.z + c 6 * r.z - c 6 * s.z + c 6 * q.z - c 4 * p.zx - c 2 * r.zx + c 2 * s.zx + c 4 * q.zx - c 3 * p.zy + c 3 * r.zy
      + c 3 * s.zy - c 3 * q.zy - c 2 * p.zxy - r.zxy - s.zxy - c 2 * q.zxy
  | _, 0 => c 2 * p.z - c 2 * r.z + p.zx + r.zx
  | _, 1 => c 2 * p.zy - c 2 * r.zy + p.zxy + r.zxy
  | _, 2 => c (-6) * p.z + c 6 * r.z - c 6 * s.z + c 6 * q.z - c 3 * p.zx - c 3 * r.zx + c 3 * s.zx + c 3 * q.zx - c 4 * p.zy + c 4 * r.zy
      + c 2 * s.zy - c 2 * q.zy - c 2 * p.zxy - c 2 * r.zxy - s.zxy - q.zxy
  | _, _ => c 4 * p.z - c 4 * r.z + c 4 * s.z - c 4 * q.z + c 2 * p.zx + c 2 * r.zx - c 2 * s.zx - c 2 * q.zx + c 2 * p.zy - c 2 * r.zy
      - c 2 * s.zy + c 2 * q.zy + p.zxy + r.zxy + s.zxy + q.zxy

/-- The sum of `m a b * v a b * t^(a - da) * u^(b - db)` over `a`, `b` below 4, from `da`, `db` on, in the order of the library. -/
def polySum (v : Nat → Nat → F) (da db : Nat) (t u : ℝ) : F :=
  (List.range' da (4 - da)).foldl (fun s a => (List.range' db (4 - db)).foldl
    (fun s b => s + c (((if da = 0 then 1 else a) * (if db = 0 then 1 else b) : Nat) : ℝ) * v a b * c (t ^ (a - da)) * c (u ^ (b - db))) s) (c 0)

/-- `bicubic_eval` (`da = db = 0`), `bicubic_deriv_x` (`da = 1`), `bicubic_deriv_y` (`db = 1`) in the cell from (x0, y0) to (x1, y1). -/
def cellPoly (da db : Nat) (x0 x1 y0 y1 : ℝ) (p q r s : Corner F) (x y : ℝ) : F :=
  let dt := 1 / (x1 - x0)
  let du := 1 / (y1 - y0)
  polySum c (coeff c (p.scale c dt du) (q.scale c dt du) (r.scale c dt du) (s.scale c dt du)) da db ((x - x0) / (x1 - x0))
    ((y - y0) / (y1 - y0)) * c (if da = 0 then 1 else dt) * c (if db = 0 then 1 else du)

/-- In cell (i, j). -/
def bicubicAt (da db : Nat) (x y : Nat → ℝ) (nx ny : Nat) (v : Nat → F) (i j : Nat) (a b : ℝ) : F :=
  let k := cornerAt c x y nx ny v
  cellPoly c da db (x i) (x (i + 1)) (y j) (y (j + 1)) (k i j) (k i (j + 1)) (k (i + 1) j) (k (i + 1) (j + 1)) a b

end

/-- The interpolation of a component of a field. -/
def bicubicCells (R Z V : List ℝ) : CellSpl :=
  let f := fun da db => bicubicAt id da db (fun i => R.getD i 0) (fun j => Z.getD j 0) R.length Z.length fun k => V.getD k 0
  ⟨f 0 0, f 1 0, f 0 1⟩

/-- As functions of the point. -/
def bicubic (R Z V : List ℝ) : Spl := (bicubicCells R Z V).spl R Z

end

end Softlib.Magnetic
