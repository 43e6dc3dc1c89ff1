/-
Model of the analytical distribution functions with rounded arithmetic.

Source: /repo/src/DistributionFunction/AnalyticalAvalanche.cpp 47-59 (`Eval`), 71-80 (`Initialize`); ConnorHastieDistribution.cpp 38-45
(`Eval`), 60-69 (`Initialize`); ExponentialPitch.cpp 33-35 (`Eval`); RadialDistributionFunction.cpp 28-30 (the product);
/repo/include/softlib/constants.h 7-11.

Every operation is rounded, in the order in which C++ makes it; a change of sign is exact.  `sqrt` and `exp` are parameters (`MathLib`),
and so is the constant `M_PI`.  As in `Verif/General/RoundModel.lean` the exponent is not limited, so nothing overflows or underflows.
`none` is a division by zero, the result of which is infinite or not a number.  The constants `1.0` and `2.0` are not taken to widen the
type of a `float` expression.
-/
import Verif.Magnetic.AnalyticRoundModel
import Verif.Dist.ProfileModel

namespace Softlib.Dist

open Softlib.General Softlib.Magnetic

/-- A rounded quotient. -/
def rdiv {u : ℚ} (R : Rnd u) (x y : ℚ) : Option ℚ := if y = 0 then none else some (R.fl (x / y))

/-- `ELECTRON_MASS` and `LIGHTSPEED`, constants.h 7 and 10. -/
def massR {u : ℚ} (R : Rnd u) : ℚ := R.fl (910938356 / 10 ^ 39)
def lightR {u : ℚ} (R : Rnd u) : ℚ := R.fl 299792458

/-- `AnalyticalAvalanche::Initialize`, 71-80: `Ac` and `gmm0`. -/
def avalancheAcR {u : ℚ} (R : Rnd u) (EHat Zeff : ℚ) : Option ℚ := rdiv R (R.fl (EHat + 1)) (R.fl (Zeff + 1))
def avalancheG0R {u : ℚ} (R : Rnd u) (L : MathLib) (lnLambda Zeff : ℚ) : ℚ := R.fl (lnLambda * L.sqrt (R.fl (Zeff + 5)))

/-- The argument of the first exponential, line 56. -/
def avalancheExpR {u : ℚ} (R : Rnd u) (A gmm gmm0 xi : ℚ) : Option ℚ :=
  (rdiv R (-gmm) gmm0).map fun t => R.fl (t - R.fl (A * R.fl (1 - |xi|)))

/-- `AnalyticalAvalanche::Eval`, 47-59. -/
def avalancheR {u : ℚ} (R : Rnd u) (L : MathLib) (pi Ac gmm0 p xi : ℚ) : Option ℚ :=
  let p2 := R.fl (p * p)
  let gmm := L.sqrt (R.fl (p2 + 1))
  let A := R.fl (Ac * gmm)
  (rdiv R (R.fl (R.fl (massR R * lightR R) * A)) (R.fl (R.fl (R.fl (2 * pi) * gmm0) * p2))).bind fun f =>
  (avalancheExpR R A gmm gmm0 xi).bind fun e =>
  (rdiv R (L.exp e) (R.fl (1 - L.exp (R.fl (-2 * A))))).map fun g => R.fl (f * g)

/-- `ConnorHastieDistribution::Initialize`, 60-69: `D`. -/
def hastieDR {u : ℚ} (R : Rnd u) (EHat Zeff : ℚ) : Option ℚ := rdiv R (R.fl (EHat + 1)) (R.fl (2 * R.fl (Zeff + 1)))

/-- `-D * p * (1-xi*xi)/abs(xi)`, lines 40 and 43. -/
def hastieExpR {u : ℚ} (R : Rnd u) (D p xi : ℚ) : Option ℚ :=
  rdiv R (R.fl (R.fl (-D * p) * R.fl (1 - R.fl (xi * xi)))) |xi|

/-- `ConnorHastieDistribution::Eval`, 38-45. -/
def hastieR {u : ℚ} (R : Rnd u) (L : MathLib) (pMax deltaP D p xi : ℚ) : Option ℚ :=
  if deltaP = 0 ∨ p < pMax then
    (rdiv R 1 (R.fl (p * |xi|))).bind fun f =>
    (hastieExpR R D p xi).map fun e => R.fl (f * L.exp e)
  else
    (rdiv R (R.fl (p - pMax)) deltaP).bind fun del =>
    (rdiv R 1 (R.fl (p * |xi|))).bind fun f =>
    (hastieExpR R D p xi).map fun e => R.fl (f * L.exp (R.fl (e - R.fl (del * del))))

/-- `ExponentialPitch::Eval`, 33-35. -/
def expPitchR {u : ℚ} (R : Rnd u) (L : MathLib) (C xi : ℚ) : ℚ := L.exp (R.fl (C * |xi|))

/-- `RadialDistributionFunction::Eval`, 28-30: the product with the value of the profile. -/
def radialR {u : ℚ} (R : Rnd u) (rp f : ℚ) : ℚ := R.fl (rp * f)

end Softlib.Dist
