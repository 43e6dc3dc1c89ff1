/-
The types of interpolation of the Legendre modes of CODE distributions.

Source: /repo/src/DistributionFunction/CODEDistributionFunction.cpp 238-259 (`gsl_interp_eval` in `Eval`), 309-334 (the types, in
`InitInterpolation`), 362-404 (`ToMomentumSpace`); the numbers of the types CODEDistributionFunction.h 52-60.

Written out from the GNU Scientific Library: polynomial.c with poly/dd.c, cspline.c (the curvatures are in BicubicModel), akima.c,
steffen.c, linalg/tridiag.c (`solve_cyc_tridiag`), for arrays that GSL accepts.  Linear interpolation is in CodeFileModel.  Exact
arithmetic.
-/
import Verif.Magnetic.BicubicModel
import Verif.Dist.CodeFileModel

namespace Softlib.Dist

open Softlib.Magnetic

noncomputable section

/-! ### polynomial -/

/-- `gsl_poly_dd_init`: element `j` after round `i`. -/
def newtonDiff (x y : Nat → ℝ) : Nat → Nat → ℝ
  | 0, j => y j
  | i + 1, j => (newtonDiff x y i j - newtonDiff x y i (j - 1)) / (x j - x (j - (i + 1)))

/-- `gsl_poly_dd_eval`: the last `k + 1` of `n + 1` coefficients. -/
def newtonHorner (x y : Nat → ℝ) (n : Nat) (a : ℝ) : Nat → ℝ
  | 0 => newtonDiff x y n n
  | k + 1 => newtonDiff x y (n - 1 - k) (n - 1 - k) + (a - x (n - 1 - k)) * newtonHorner x y n a k

/-- With `n` points. -/
def polynomialAt (x y : Nat → ℝ) (n : Nat) (a : ℝ) : ℝ := newtonHorner x y (n - 1) a (n - 1)

/-! ### cubic splines -/

/-- `cspline_eval` in interval `k`, with `coeff_calc`, for curvatures `cv`. -/
def splineAt (x y cv : Nat → ℝ) (k : Nat) (a : ℝ) : ℝ :=
  let h := gap x k
  let b := (y (k + 1) - y k) / h - h * (cv (k + 1) + 2 * cv k) / 3
  let d := (cv (k + 1) - cv k) / (3 * h)
  y k + (a - x k) * (b + (a - x k) * (cv k + (a - x k) * d))

/-! ### the cyclic system of the periodic cubic spline -/

/-- A sum made by a loop. -/
def loopSum (f : Nat → ℝ) : Nat → ℝ
  | 0 => 0
  | n + 1 => loopSum f n + f n

section

variable (d o : Nat → ℝ) (N : Nat) (b : Nat → ℝ)

/-- `alpha` of `solve_cyc_tridiag` for diagonal `d` and off-diagonal `o`, but for the last one of the `N` unknowns. -/
def cycPivot : Nat → ℝ
  | 0 => d 0
  | i + 1 => d (i + 1) - o i * (o i / cycPivot i)

/-- `delta`. -/
def cycDelta : Nat → ℝ
  | 0 => o (N - 1) / cycPivot d o 0
  | i + 1 => -cycDelta i * o i / cycPivot d o (i + 1)

/-- `gamma[N - 2]`; those before are `o i / alpha i`. -/
def cycGamma : ℝ := (o (N - 2) - o (N - 3) * cycDelta d o N (N - 3)) / cycPivot d o (N - 2)

/-- `alpha[N - 1]`. -/
def cycPivotLast : ℝ :=
  d (N - 1) - loopSum (fun i => cycPivot d o i * cycDelta d o N i * cycDelta d o N i) (N - 2)
    - cycPivot d o (N - 2) * cycGamma d o N * cycGamma d o N

/-- `z`, but for the last one. -/
def cycZ : Nat → ℝ
  | 0 => b 0
  | i + 1 => b (i + 1) - cycZ i * (o i / cycPivot d o i)

/-- The last unknown. -/
def cycLast : ℝ :=
  (b (N - 1) - loopSum (fun i => cycDelta d o N i * cycZ d o b i) (N - 2) - cycGamma d o N * cycZ d o b (N - 2)) / cycPivotLast d o N

/-- The others, from the last but one on. -/
def cycBack : Nat → ℝ
  | 0 => cycZ d o b (N - 2) / cycPivot d o (N - 2) - cycGamma d o N * cycLast d o N b
  | k + 1 => cycZ d o b (N - 3 - k) / cycPivot d o (N - 3 - k) - o (N - 3 - k) / cycPivot d o (N - 3 - k) * cycBack k
      - cycDelta d o N (N - 3 - k) * cycLast d o N b

/-- `solve_cyc_tridiag`, for at least three unknowns. -/
def cycSolve (i : Nat) : ℝ := if i + 1 = N then cycLast d o N b else cycBack d o N b (N - 2 - i)

end

/-- `offdiag` of `cspline_init_periodic` with `N` unknowns. -/
def cycOff (x : Nat → ℝ) (N i : Nat) : ℝ := if i + 1 = N then gap x 0 else gap x (i + 1)

/-- `diag`. -/
def cycDiag (x : Nat → ℝ) (N i : Nat) : ℝ := 2 * (cycOff x N i + gap x i)

/-- `g`. -/
def cycRhs (x y : Nat → ℝ) (N i : Nat) : ℝ :=
  3 * ((if i + 1 = N then y 1 - y 0 else y (i + 2) - y (i + 1)) * recip (cycOff x N i) - (y (i + 1) - y i) * recip (gap x i))

/-- `state->c` of `cspline_init_periodic` with `n` points, at least three. -/
def cycCurv (x y : Nat → ℝ) (n i : Nat) : ℝ :=
  if n = 3 then
    let A := 2 * (gap x 0 + gap x 1)
    let B := gap x 0 + gap x 1
    let g0 := 3 * ((y 2 - y 1) / gap x 1 - (y 1 - y 0) / gap x 0)
    let g1 := 3 * ((y 1 - y 2) / gap x 0 - (y 2 - y 1) / gap x 1)
    let det := 3 * (gap x 0 + gap x 1) * (gap x 0 + gap x 1)
    if i = 1 then (A * g0 - B * g1) / det else (-B * g0 + A * g1) / det
  else cycSolve (cycDiag x (n - 1)) (cycOff x (n - 1)) (n - 1) (cycRhs x y (n - 1)) (if i = 0 then n - 2 else i - 1)

/-! ### Akima -/

/-- Slope of interval `i`. -/
def secant (x y : Nat → ℝ) (i : Nat) : ℝ := (y (i + 1) - y i) / gap x i

/-- `m` of `akima_init` (`akima_init_periodic`): number `i` is `m[i - 2]`, of `n` points. -/
def akimaSlope (periodic : Bool) (x y : Nat → ℝ) (n i : Nat) : ℝ :=
  let m := secant x y
  if periodic = true then
    if i = 0 then m (n - 3) else if i = 1 then m (n - 2) else if i = n + 1 then m 0 else if i = n + 2 then m 1 else m (i - 2)
  else
    if i = 0 then 3 * m 0 - 2 * m 1 else if i = 1 then 2 * m 0 - m 1 else if i = n + 1 then 2 * m (n - 2) - m (n - 3)
    else if i = n + 2 then 3 * m (n - 2) - 2 * m (n - 3) else m (i - 2)

/-- `NE` of `akima_calc` for node `i`. -/
def akimaNE (m : Nat → ℝ) (i : Nat) : ℝ := |m (i + 3) - m (i + 2)| + |m (i + 1) - m i|

/-- `b[i]`. -/
def akimaB (m : Nat → ℝ) (i : Nat) : ℝ :=
  if akimaNE m i = 0 then m (i + 2)
  else (1 - |m (i + 1) - m i| / akimaNE m i) * m (i + 1) + |m (i + 1) - m i| / akimaNE m i * m (i + 2)

/-- `tL_ip1`. -/
def akimaNext (m : Nat → ℝ) (i : Nat) : ℝ :=
  if akimaNE m (i + 1) = 0 then m (i + 2)
  else (1 - |m (i + 2) - m (i + 1)| / akimaNE m (i + 1)) * m (i + 2) + |m (i + 2) - m (i + 1)| / akimaNE m (i + 1) * m (i + 3)

/-- `akima_eval` in interval `k`. -/
def akimaAt (m x y : Nat → ℝ) (k : Nat) (a : ℝ) : ℝ :=
  let h := gap x k
  let b := akimaB m k
  let c := if akimaNE m k = 0 then 0 else (3 * m (k + 2) - 2 * b - akimaNext m k) / h
  let d := if akimaNE m k = 0 then 0 else (b + akimaNext m k - 2 * m (k + 2)) / (h * h)
  y k + (a - x k) * (b + (a - x k) * (c + d * (a - x k)))

/-! ### Steffen -/

/-- `steffen_copysign`. -/
def copysign (x y : ℝ) : ℝ := if (x < 0 ∧ 0 < y) ∨ (0 < x ∧ y < 0) then -x else x

/-- `y_prime` of `steffen_init`, of `n` points. -/
def steffenSlope (x y : Nat → ℝ) (n i : Nat) : ℝ :=
  if i = 0 then secant x y 0
  else if i + 1 = n then secant x y (n - 2)
  else
    let s0 := secant x y (i - 1)
    let s1 := secant x y i
    let p := (s0 * gap x i + s1 * gap x (i - 1)) / (gap x (i - 1) + gap x i)
    (copysign 1 s0 + copysign 1 s1) * min |s0| (min |s1| (1 / 2 * |p|))

/-- `steffen_eval` in interval `k`. -/
def steffenAt (x y : Nat → ℝ) (n k : Nat) (a : ℝ) : ℝ :=
  let h := gap x k
  let s := secant x y k
  let p := steffenSlope x y n k
  let q := steffenSlope x y n (k + 1)
  y k + (a - x k) * (p + (a - x k) * ((3 * s - 2 * p - q) / h + (a - x k) * ((p + q - 2 * s) / h / h)))

/-! ### all types -/

/-- `gsl_interp_eval` for all types but the linear one. -/
def gslMode (itype : Int) (xs ys : List ℝ) (a : ℝ) : ℝ :=
  let x := fun i => xs.getD i 0
  let y := fun i => ys.getD i 0
  let n := xs.length
  let k := cellOf xs a
  if itype = 1 then polynomialAt x y n a
  else if itype = 2 then splineAt x y (curv id x y n) k a
  else if itype = 3 then splineAt x y (cycCurv x y n) k a
  else if itype = 4 then akimaAt (akimaSlope false x y n) x y k a
  else if itype = 5 then akimaAt (akimaSlope true x y n) x y k a
  else steffenAt x y n k a

/-! ### conversion to a table -/

/-- The pitches of `ToMomentumSpace`, 370-375, of `n` points. -/
def codePitch (uniformTheta : Bool) (n i : Nat) : ℝ :=
  if uniformTheta = true then Real.cos (Real.pi * ((n - i - 1 : Nat) : ℝ) / ((n : ℝ) - 1)) else -1 + 2 * (i : ℝ) / ((n : ℝ) - 1)

end

end Softlib.Dist
