/-
Model of the numeric magnetic field with rounded arithmetic.

Source: /repo/src/MagneticField/MagneticFieldNumeric2D.cpp 300-321 (`Eval`), 333-395 (`__EvalJacobian`),
397-431 (`EvalDerivatives`).

Every operation is rounded, in the order in which C++ makes it; a change of sign is exact.  `hypot` and `sqrt` are
parameters (`MathLib`).  What GSL returns for the splines is given by functions of the position about which nothing is
assumed here.  As in `Verif/General/RoundModel.lean` the exponent is not limited; the constant `1.0` of line 417 is not
taken to widen the type of a `float` expression.
-/
import Verif.Magnetic.AnalyticRoundModel
import Verif.Magnetic.NumericModel

namespace Softlib.Magnetic

open Softlib.General

/-- The numbers that GSL returns for one spline. -/
structure SplR where
  val : ℚ → ℚ → ℚ
  dr : ℚ → ℚ → ℚ
  dz : ℚ → ℚ → ℚ

/-- What the evaluation functions use. -/
structure NGridR where
  rmin : ℚ
  rmax : ℚ
  zmin : ℚ
  zmax : ℚ
  br : SplR
  bphi : SplR
  bz : SplR

/-- Lines 304-308 and 340-343. -/
def clampR (lo hi x : ℚ) : ℚ := if x < lo then lo else if x > hi then hi else x

/-- The position in the grid, lines 301-308 and 334-343. -/
def NGridR.radius (L : MathLib) (g : NGridR) (x y : ℚ) : ℚ := clampR g.rmin g.rmax (L.hypot x y)
def NGridR.height (g : NGridR) (z : ℚ) : ℚ := clampR g.zmin g.zmax z

/-- `sin0` and `cos0`, lines 314-315 and 364-375, from the radius `r`. -/
def sinR {u : ℚ} (R : Rnd u) (r y : ℚ) : ℚ := if r ≠ 0 then R.fl (y / r) else 0
def cosR {u : ℚ} (R : Rnd u) (r x : ℚ) : ℚ := if r ≠ 0 then R.fl (x / r) else 1

/-- Cylindrical to Cartesian components, lines 316-318 and 378-380. -/
def cartR {u : ℚ} (R : Rnd u) (s c br bphi bz : ℚ) : ℚ × ℚ × ℚ :=
  (R.fl (R.fl (br * c) - R.fl (bphi * s)), R.fl (R.fl (br * s) + R.fl (bphi * c)), bz)

/-- `Eval`, 300-321. -/
def NGridR.eval {u : ℚ} (R : Rnd u) (L : MathLib) (g : NGridR) (x y z : ℚ) : ℚ × ℚ × ℚ :=
  let r := g.radius L x y
  let zz := g.height z
  cartR R (sinR R r y) (cosR R r x) (g.br.val r zz) (g.bphi.val r zz) (g.bz.val r zz)

/-- A sum or difference of four products, lines 383-384 and 387-388: rounded from left to right. -/
def sum4R {u : ℚ} (R : Rnd u) (a b c d : ℚ) : ℚ := R.fl (R.fl (R.fl (a + b) + c) + d)

/-- Lines 345-392, from the numbers of GSL: the values `br`, `b0` and the derivatives. -/
def jacR {u : ℚ} (R : Rnd u) (r x y br b0 dBr_dr dBr_dz dB0_dr dB0_dz dBz_dr dBz_dz : ℚ) : Fin 3 → Fin 3 → ℚ :=
  let sin0 := sinR R r y
  let cos0 := cosR R r x
  let sin20 := if r ≠ 0 then R.fl (sin0 * sin0) else 0
  let cos20 := if r ≠ 0 then R.fl (cos0 * cos0) else 1
  let sc0 := if r ≠ 0 then R.fl (sin0 * cos0) else 0
  let dsin0_dx := if r ≠ 0 then R.fl (-sc0 / r) else 0
  let dcos0_dx := if r ≠ 0 then R.fl (sin20 / r) else 0
  let dsin0_dy := if r ≠ 0 then R.fl (cos20 / r) else 0
  let dcos0_dy := if r ≠ 0 then R.fl (-sc0 / r) else 0
  ![![sum4R R (R.fl (cos20 * dBr_dr)) (R.fl (br * dcos0_dx)) (-R.fl (sc0 * dB0_dr)) (-R.fl (b0 * dsin0_dx)),
      sum4R R (R.fl (sc0 * dBr_dr)) (R.fl (br * dcos0_dy)) (-R.fl (sin20 * dB0_dr)) (-R.fl (b0 * dsin0_dy)),
      R.fl (R.fl (cos0 * dBr_dz) - R.fl (sin0 * dB0_dz))],
    ![sum4R R (R.fl (sc0 * dBr_dr)) (R.fl (br * dsin0_dx)) (R.fl (cos20 * dB0_dr)) (R.fl (b0 * dcos0_dx)),
      sum4R R (R.fl (sin20 * dBr_dr)) (R.fl (br * dsin0_dy)) (R.fl (sc0 * dB0_dr)) (R.fl (b0 * dcos0_dy)),
      R.fl (R.fl (sin0 * dBr_dz) + R.fl (cos0 * dB0_dz))],
    ![R.fl (cos0 * dBz_dr), R.fl (sin0 * dBz_dr), dBz_dz]]

/-- `__EvalJacobian`, 333-395: the matrix. -/
def NGridR.jacobian {u : ℚ} (R : Rnd u) (L : MathLib) (g : NGridR) (x y z : ℚ) : Fin 3 → Fin 3 → ℚ :=
  let r := g.radius L x y
  let zz := g.height z
  jacR R r x y (g.br.val r zz) (g.bphi.val r zz) (g.br.dr r zz) (g.br.dz r zz) (g.bphi.dr r zz) (g.bphi.dz r zz)
    (g.bz.dr r zz) (g.bz.dz r zz)

/-- `m * sqrt(1.0 + r1*r1 + r2*r2)`, lines 410-417, `m` being the largest of the absolute values. -/
def lengthR {u : ℚ} (R : Rnd u) (L : MathLib) (m a b : ℚ) : ℚ :=
  let r1 := R.fl (a / m)
  let r2 := R.fl (b / m)
  R.fl (m * L.sqrt (R.fl (R.fl (1 + R.fl (r1 * r1)) + R.fl (r2 * r2))))

/-- Lines 405-417; `none` is NaN: all components are zero. -/
def babsR {u : ℚ} (R : Rnd u) (L : MathLib) (B : ℚ × ℚ × ℚ) : Option ℚ :=
  if B.1 = 0 ∧ B.2.1 = 0 ∧ B.2.2 = 0 then none
  else if |B.1| > |B.2.1| ∧ |B.1| > |B.2.2| then some (lengthR R L |B.1| |B.2.1| |B.2.2|)
  else if |B.2.1| > |B.2.2| then some (lengthR R L |B.2.1| |B.1| |B.2.2|)
  else some (lengthR R L |B.2.2| |B.1| |B.2.1|)

/-- One component of the gradient, lines 424-426. -/
def gradR {u : ℚ} (R : Rnd u) (B : ℚ × ℚ × ℚ) (babs j0 j1 j2 : ℚ) : ℚ :=
  R.fl (R.fl (R.fl (R.fl (B.1 * j0) + R.fl (B.2.1 * j1)) + R.fl (B.2.2 * j2)) / babs)

/-- What `EvalDerivatives` returns. -/
structure MagDataR where
  B : ℚ × ℚ × ℚ
  babs : ℚ
  gradB : Fin 3 → ℚ
  curlB : Fin 3 → ℚ
  J : Fin 3 → Fin 3 → ℚ

/-- `EvalDerivatives`, 397-431; `none` if strength and gradient are NaN. -/
def NGridR.evalDerivatives {u : ℚ} (R : Rnd u) (L : MathLib) (g : NGridR) (x y z : ℚ) : Option MagDataR :=
  let B := g.eval R L x y z
  let J := g.jacobian R L x y z
  (babsR R L B).map fun babs =>
    { B := B
      babs := babs
      gradB := fun j => gradR R B babs (J 0 j) (J 1 j) (J 2 j)
      curlB := ![R.fl (J 2 1 - J 1 2), R.fl (J 0 2 - J 2 0), R.fl (J 1 0 - J 0 1)]
      J := J }

end Softlib.Magnetic
