/-
Model of the analytical magnetic field with rounded arithmetic.

Source: /repo/src/MagneticField/MagneticFieldAnalytical2D.cpp 113-130 (`Eval`), 144-194 (`EvalDerivatives`, field and strength only);
/repo/src/MagneticField/MagneticFieldAnalytical2D.q.cpp 16-36.

Every operation is rounded, in the order in which C++ makes it.  The functions of the mathematical library are parameters; what is
needed of them is how accurate they are.  As in `Verif/General/RoundModel.lean` the exponent is not limited.  A division by
zero gives 0 here; the theorems exclude it.
-/
import Verif.General.RoundModel
import Verif.Magnetic.AnalyticModel

namespace Softlib.Magnetic

open Softlib.General

/-- The functions of the mathematical library. -/
structure MathLib where
  hypot : ℚ → ℚ → ℚ
  sqrt : ℚ → ℚ
  exp : ℚ → ℚ
  pow : ℚ → ℚ → ℚ

/-- Safety factor type with its parameters. -/
inductive QProfileR where
  | constant (a : ℚ)
  | linear (a b : ℚ)
  | quadratic (a b : ℚ)
  | exponential (a b : ℚ)
  | current (a : ℚ) (b : Option ℚ)
  | other

/-- The profile, as in the exact model. -/
noncomputable def QProfileR.real : QProfileR → QProfile
  | .constant a => .constant a
  | .linear a b => .linear a b
  | .quadratic a b => .quadratic a b
  | .exponential a b => .exponential a b
  | .current a b => .current a (b.map fun b => (b : ℝ))
  | .other => .other

/-- `__GetSafetyFactor`, q.cpp 16-36. -/
def safetyR {u : ℚ} (R : Rnd u) (L : MathLib) (p : QProfileR) (rminor r : ℚ) : ℚ :=
  let rn := R.fl (r / rminor)
  match p with
  | .constant a => a
  | .linear a b => R.fl (R.fl (a * rn) + b)
  | .quadratic a b => R.fl (R.fl (R.fl (a * rn) * rn) + b)
  | .exponential a b => R.fl (L.exp (R.fl (rn * a)) + b)
  | .current a none => a
  | .current a (some b) => R.fl (a / R.fl (1 - R.fl (R.fl (2 / R.fl (b + 2)) * L.pow rn b)))
  | .other => 1

/-- Members. -/
structure AFieldR where
  b0 : ℚ
  rm : ℚ
  zm : ℚ
  rminor : ℚ
  sigmaB : ℚ
  sigmaI : ℚ
  q : QProfileR

/-- The field of the exact model with these members. -/
noncomputable def AFieldR.real (f : AFieldR) : AField := ⟨f.b0, f.rm, f.zm, f.rminor, f.sigmaB, f.sigmaI, f.q.real⟩

/-- `hypot(x, y)`, `hypot(Rm-R, z-maxis_z)`, line 114. -/
def AFieldR.major (L : MathLib) (x y : ℚ) : ℚ := L.hypot x y
def AFieldR.minor {u : ℚ} (R : Rnd u) (L : MathLib) (f : AFieldR) (x y z : ℚ) : ℚ :=
  L.hypot (R.fl (f.rm - AFieldR.major L x y)) (R.fl (z - f.zm))

/-- `t1`, line 123, and `r_qRm`, line 160. -/
def AFieldR.slope {u : ℚ} (R : Rnd u) (L : MathLib) (f : AFieldR) (x y z : ℚ) : ℚ :=
  R.fl (f.minor R L x y z / R.fl (f.rm * safetyR R L f.q f.rminor (f.minor R L x y z)))

/-- `pf`, line 122. -/
def AFieldR.factor {u : ℚ} (R : Rnd u) (L : MathLib) (f : AFieldR) (x y : ℚ) : ℚ :=
  R.fl (R.fl (f.b0 * f.rm) * R.fl (1 / AFieldR.major L x y))

/-- `Eval`, lines 113-130; lines 144-173 compute the same. -/
def AFieldR.eval {u : ℚ} (R : Rnd u) (L : MathLib) (f : AFieldR) (x y z : ℚ) : ℚ × ℚ × ℚ :=
  let r := f.minor R L x y z
  let iR := R.fl (1 / AFieldR.major L x y)
  let sintheta := if r ≠ 0 then R.fl (R.fl (z - f.zm) / r) else 0
  let costheta := if r ≠ 0 then R.fl (R.fl (f.rm - AFieldR.major L x y) / r) else 0
  let sinphi := R.fl (y * iR)
  let cosphi := R.fl (x * iR)
  let pf := f.factor R L x y
  let t1 := f.slope R L x y z
  (R.fl (pf * R.fl (R.fl (R.fl (f.sigmaI * t1) * R.fl (sintheta * cosphi)) - R.fl (f.sigmaB * sinphi))),
   R.fl (pf * R.fl (R.fl (R.fl (f.sigmaI * t1) * R.fl (sintheta * sinphi)) + R.fl (f.sigmaB * cosphi))),
   R.fl (pf * R.fl (R.fl (f.sigmaI * t1) * costheta)))

/-- The strength, lines 161 and 170. -/
def AFieldR.strength {u : ℚ} (R : Rnd u) (L : MathLib) (f : AFieldR) (x y z : ℚ) : ℚ :=
  R.fl (f.factor R L x y * L.sqrt (R.fl (R.fl (f.slope R L x y z * f.slope R L x y z) + 1)))

end Softlib.Magnetic
