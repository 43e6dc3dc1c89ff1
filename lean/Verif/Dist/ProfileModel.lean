/-
Model of the radial profiles, the analytical momentum-space distributions and their product.

Source: /repo/src/DistributionFunction/LinearRadialProfile.cpp 18-47, PowerRadialProfile.cpp 24-57,
GaussianRadialProfile.cpp 21-60, BesselRadialProfile.cpp 24-54,
/repo/include/softlib/DistributionFunction/BesselRadialProfile.h 16, UniformRadialProfile.h 7-11,
UnitDistributionFunction.h 6-14; AnalyticalAvalanche.cpp 47-87, ConnorHastieDistribution.cpp 38-74,
ExponentialPitch.cpp 33-53, RadialDistributionFunction.cpp 10-58,
MomentumSpaceDistributionFunction.cpp 29-41; /repo/include/softlib/constants.h 7-10.

Exact real arithmetic.  `exp`, `sqrt` and `pow` are the real functions, `gsl_sf_bessel_J0` is the sum
of its power series.  `none` is a value that is not a number: a division by zero.
-/
import Mathlib.Analysis.SpecialFunctions.Exp
import Mathlib.Analysis.SpecialFunctions.Pow.Real
import Mathlib.Analysis.SpecialFunctions.Trigonometric.Basic
import Mathlib.Topology.Algebra.InfiniteSum.Basic

namespace Softlib.Dist

noncomputable section

/-- The Bessel function of the first kind of order zero. -/
def besselJ0 (x : ℝ) : ℝ := ∑' k : ℕ, (-1) ^ k * ((x / 2) ^ (2 * k) / (k.factorial : ℝ) ^ 2)

/-- `J0_ZERO1`, BesselRadialProfile.h 16. -/
def j0Zero : ℝ := 240482555769577 / 100000000000000

/-- A radial profile with its members. -/
inductive Profile where
  | uniform
  | linear (rmin rmax delr : ℝ)
  | power (rmin rmax b delr : ℝ)
  | gaussian (rmin rmax a b c : ℝ)
  | bessel (rmin rmax : ℝ)

/-- Constructor, Linear 18-25.  `none`: exception. -/
def Profile.mkLinear (rmin rmax : ℝ) : Option Profile :=
  if rmin ≥ rmax then none else some (.linear rmin rmax (1 / (rmax - rmin)))

/-- Constructor, Power 24-32. -/
def Profile.mkPower (rmin rmax b : ℝ) : Option Profile :=
  if rmin ≥ rmax then none else some (.power rmin rmax b (1 / (rmax - rmin)))

/-- Constructor, Gaussian 21-36. -/
def Profile.mkGaussian (rmin rmax a b c : ℝ) : Option Profile :=
  if rmin ≥ rmax then none
  else if a ≤ 0 then none
  else if b ≤ 0 then none
  else if c ≤ 0 then none
  else some (.gaussian rmin rmax a b c)

/-- Constructor, Bessel 24-30. -/
def Profile.mkBessel (rmin rmax : ℝ) : Option Profile :=
  if rmin ≥ rmax then none else some (.bessel rmin rmax)

/-- `pow` for a base that is not negative.  `none`: a pole. -/
def cpow (x b : ℝ) : Option ℝ := if x = 0 ∧ b < 0 then none else some (x ^ b)

/-- `Eval` of each profile. -/
def Profile.eval (q : Profile) (r shift : ℝ) : Option ℝ :=
  let rho := r - shift
  match q with
  | .uniform => some 1
  | .linear rmin rmax delr =>
    if rho ≥ rmax ∨ rho < rmin then some 0 else some (1 - (rho - rmin) * delr)
  | .power rmin rmax b delr =>
    if rho ≥ rmax ∨ rho < rmin then some 0 else (cpow ((rho - rmin) * delr) b).map (fun v => 1 - v)
  | .gaussian rmin rmax a b c =>
    if rho ≥ rmax ∨ rho < rmin then some 0 else some (a * Real.exp (-(rho - b) * (rho - b) / (c * c)))
  | .bessel rmin rmax =>
    if rho ≥ rmax ∨ rho < rmin then some 0
    else some (besselJ0 ((rho - rmin) / (rmax - rmin) * j0Zero))

/-- `MinClone` of each profile: the constructor is called again. -/
def Profile.clone : Profile → Option Profile
  | .uniform => some .uniform
  | .linear rmin rmax _ => Profile.mkLinear rmin rmax
  | .power rmin rmax b _ => Profile.mkPower rmin rmax b
  | .gaussian rmin rmax a b c => Profile.mkGaussian rmin rmax a b c
  | .bessel rmin rmax => Profile.mkBessel rmin rmax

/-- A profile made by a constructor. -/
inductive Profile.Made : Profile → Prop where
  | uniform : Made .uniform
  | linear {rmin rmax q} : Profile.mkLinear rmin rmax = some q → Made q
  | power {rmin rmax b q} : Profile.mkPower rmin rmax b = some q → Made q
  | gaussian {rmin rmax a b c q} : Profile.mkGaussian rmin rmax a b c = some q → Made q
  | bessel {rmin rmax q} : Profile.mkBessel rmin rmax = some q → Made q

/-! ### Momentum space -/

/-- constants.h 7. -/
def electronMass : ℝ := 910938356 / 10 ^ 39

/-- constants.h 10. -/
def lightSpeed : ℝ := 299792458

/-- An analytical momentum-space distribution with its members. -/
inductive MomDist where
  | unit
  | expPitch (C : ℝ)
  | avalanche (EHat lnLambda Zeff Ac gmm0 : ℝ)
  | connorHastie (EHat Zeff pMax deltaP D : ℝ)

/-- `AnalyticalAvalanche::Initialize`, 71-80. -/
def MomDist.mkAvalanche (EHat lnLambda Zeff : ℝ) : MomDist :=
  .avalanche EHat lnLambda Zeff ((EHat + 1) / (Zeff + 1)) (lnLambda * Real.sqrt (Zeff + 5))

/-- `ConnorHastieDistribution::Initialize`, 60-69. -/
def MomDist.mkConnorHastie (EHat Zeff pMax deltaP : ℝ) : MomDist :=
  .connorHastie EHat Zeff pMax deltaP ((EHat + 1) / (2 * (Zeff + 1)))

/-- A quotient. -/
def fdiv (x y : ℝ) : Option ℝ := if y = 0 then none else some (x / y)

/-- `AnalyticalAvalanche::Eval`, 47-59. -/
def avalancheEval (Ac gmm0 p xi : ℝ) : Option ℝ := do
  let p2 := p * p
  let gmm := Real.sqrt (p2 + 1)
  let A := Ac * gmm
  let f ← fdiv (electronMass * lightSpeed * A) (2 * Real.pi * gmm0 * p2)
  let u ← fdiv (-gmm) gmm0
  let g ← fdiv (Real.exp (u - A * (1 - |xi|))) (1 - Real.exp (-2 * A))
  pure (f * g)

/-- `ConnorHastieDistribution::Eval`, 38-45. -/
def connorHastieEval (pMax deltaP D p xi : ℝ) : Option ℝ :=
  if deltaP = 0 ∨ p < pMax then do
    let f ← fdiv 1 (p * |xi|)
    let e ← fdiv (-D * p * (1 - xi * xi)) |xi|
    pure (f * Real.exp e)
  else do
    let del ← fdiv (p - pMax) deltaP
    let f ← fdiv 1 (p * |xi|)
    let e ← fdiv (-D * p * (1 - xi * xi)) |xi|
    pure (f * Real.exp (e - del * del))

/-- `Eval` of each distribution. -/
def MomDist.eval (m : MomDist) (p xi : ℝ) : Option ℝ :=
  match m with
  | .unit => some 1
  | .expPitch C => some (Real.exp (C * |xi|))
  | .avalanche _ _ _ Ac gmm0 => avalancheEval Ac gmm0 p xi
  | .connorHastie _ _ pMax deltaP D => connorHastieEval pMax deltaP D p xi

/-- `MinClone` of each distribution. -/
def MomDist.clone : MomDist → MomDist
  | .unit => .unit
  | .expPitch C => .expPitch C
  | .avalanche EHat lnLambda Zeff _ _ => .mkAvalanche EHat lnLambda Zeff
  | .connorHastie EHat Zeff pMax deltaP _ => .mkConnorHastie EHat Zeff pMax deltaP

/-- A distribution made by an initialisation. -/
inductive MomDist.Made : MomDist → Prop where
  | unit : Made .unit
  | expPitch (C : ℝ) : Made (.expPitch C)
  | avalanche (EHat lnLambda Zeff : ℝ) : Made (.mkAvalanche EHat lnLambda Zeff)
  | connorHastie (EHat Zeff pMax deltaP : ℝ) : Made (.mkConnorHastie EHat Zeff pMax deltaP)

/-! ### The product -/

/-- `RadialDistributionFunction`: any profile with any momentum distribution. -/
structure Radial (M : Type) where
  rp : Profile
  msdf : M

/-- `Eval`, 27-29; `ev` evaluates the momentum distribution. -/
def Radial.eval {M P : Type} (ev : M → P → Option ℝ) (d : Radial M) (rho : ℝ) (p : P) (shift : ℝ) : Option ℝ :=
  match d.rp.eval rho shift, ev d.msdf p with
  | some x, some y => some (x * y)
  | _, _ => none

/-- `MinClone`, 49-56. -/
def Radial.clone {M : Type} (mc : M → Option M) (d : Radial M) : Option (Radial M) :=
  match d.rp.clone, mc d.msdf with
  | some r, some m => some ⟨r, m⟩
  | _, _ => none

/-- `ToRadialDistribution`, MomentumSpaceDistributionFunction.cpp 29-41. -/
def toRadial {M : Type} (rp : Option Profile) (m : M) : Radial M :=
  match rp with
  | none => ⟨.uniform, m⟩
  | some q => ⟨q, m⟩

end

end Softlib.Dist
