/-
Model of the radial profiles with rounded arithmetic.

Source: /repo/src/DistributionFunction/PowerRadialProfile.cpp 24-57 (constructor and `Eval`), GaussianRadialProfile.cpp 21-60,
BesselRadialProfile.cpp 24-54; /repo/include/softlib/DistributionFunction/BesselRadialProfile.h 15 (`J0_ZERO1`).  The linear profile is
`linearR` in `Verif/General/RoundModel.lean`.

Every operation is rounded, in the order in which C++ makes it; a change of sign is exact.  `pow`, `exp` and `gsl_sf_bessel_J0` are
parameters.  The exponent is not limited, so nothing overflows or underflows.  The constant `1.0` is not taken to widen the type of a
`float` expression.  The arguments of the constructors are those that the constructors accept (the comparisons there are exact, see
`Profile.mkPower` and the others); a division by zero does not occur with them.
-/
import Verif.General.RoundModel

namespace Softlib.Dist

open Softlib.General

/-- The argument of `pow`, Power 31 (`delr`) and 48. -/
def powerArg {u : ℚ} (R : Rnd u) (rmin rmax rho : ℚ) : ℚ := R.fl (R.fl (rho - rmin) * R.fl (1 / R.fl (rmax - rmin)))

/-- `PowerRadialProfile::Eval`, 41-49. -/
def powerR {u : ℚ} (R : Rnd u) (pw : ℚ → ℚ → ℚ) (rmin rmax b r shift : ℚ) : ℚ :=
  let rho := R.fl (r - shift)
  if rho ≥ rmax ∨ rho < rmin then 0 else R.fl (1 - pw (powerArg R rmin rmax rho) b)

/-- The argument of `exp`, Gaussian 52.  The sign belongs to the first factor, and the product is made before the quotient. -/
def gaussArg {u : ℚ} (R : Rnd u) (b c rho : ℚ) : ℚ := R.fl (R.fl (-R.fl (rho - b) * R.fl (rho - b)) / R.fl (c * c))

/-- `GaussianRadialProfile::Eval`, 45-53. -/
def gaussianR {u : ℚ} (R : Rnd u) (ex : ℚ → ℚ) (rmin rmax a b c r shift : ℚ) : ℚ :=
  let rho := R.fl (r - shift)
  if rho ≥ rmax ∨ rho < rmin then 0 else R.fl (a * ex (gaussArg R b c rho))

/-- `J0_ZERO1` as a number of the type. -/
def j0ZeroR {u : ℚ} (R : Rnd u) : ℚ := R.fl (240482555769577 / 100000000000000)

/-- The argument of `gsl_sf_bessel_J0`, Bessel 44. -/
def besselArg {u : ℚ} (R : Rnd u) (rmin rmax rho : ℚ) : ℚ := R.fl (R.fl (R.fl (rho - rmin) / R.fl (rmax - rmin)) * j0ZeroR R)

/-- `BesselRadialProfile::Eval`, 38-47. -/
def besselR {u : ℚ} (R : Rnd u) (J : ℚ → ℚ) (rmin rmax r shift : ℚ) : ℚ :=
  let rho := R.fl (r - shift)
  if rho ≥ rmax ∨ rho < rmin then 0 else J (besselArg R rmin rmax rho)

end Softlib.Dist
