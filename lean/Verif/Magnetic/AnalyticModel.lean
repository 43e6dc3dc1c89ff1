/-
Model of the analytical magnetic field.

Source: /repo/src/MagneticField/MagneticFieldAnalytical2D.cpp 36-62 (constructor), 67-75
(`Clone`), 113-130 (`Eval`), 144-194 (`EvalDerivatives`), 205-216 (`EvalFlux`), 231-253
(`EvalFluxDerivatives`); /repo/src/MagneticField/MagneticFieldAnalytical2D.q.cpp 16-36, 43-69.

Exact real arithmetic; `pow` of a non-negative base is the real power.  In C++ a division by zero
gives an infinity or NaN; the theorems exclude zero denominators.
-/
import Mathlib.Analysis.SpecialFunctions.Pow.Real
import Mathlib.Analysis.SpecialFunctions.Trigonometric.Basic

namespace Softlib.Magnetic

noncomputable section

/-- Safety factor type with its parameters (q.cpp).  An infinite second parameter of the
`MFASF_CURRENT` profile is `none`. -/
inductive QProfile where
  | constant (a : ℝ)
  | linear (a b : ℝ)
  | quadratic (a b : ℝ)
  | exponential (a b : ℝ)
  | current (a : ℝ) (b : Option ℝ)
  | other

/-- `__GetSafetyFactor`, q.cpp 16-36. -/
def safety (p : QProfile) (rminor r : ℝ) : ℝ :=
  let rn := r / rminor
  match p with
  | .constant a => a
  | .linear a b => a * rn + b
  | .quadratic a b => a * rn * rn + b
  | .exponential a b => Real.exp (rn * a) + b
  | .current a none => a
  | .current a (some b) => a / (1 - 2 / (b + 2) * rn ^ b)
  | .other => 1

/-- `__GetrDqDr`, q.cpp 43-69. -/
def rdqdr (p : QProfile) (rminor r : ℝ) : ℝ :=
  let rn := r / rminor
  match p with
  | .constant _ => 0
  | .linear a _ => a * rn
  | .quadratic a _ => 2 * a * rn * rn
  | .exponential a _ => Real.exp (rn * a) * a * rn
  | .current _ none => 0
  | .current a (some b) =>
    let an := rn ^ b
    let den := 1 - 2 / (b + 2) * an
    2 * b / (b + 2) * a / (den * den) * an
  | .other => 0

/-- Toroidal direction. -/
inductive FieldSign where
  | cw
  | ccw
  deriving DecidableEq

/-- Cpp 46-47. -/
def FieldSign.val : FieldSign → ℝ
  | .cw => -1
  | .ccw => 1

/-- Members. -/
structure AField where
  b0 : ℝ
  rm : ℝ
  zm : ℝ
  rminor : ℝ
  sigmaB : ℝ
  sigmaI : ℝ
  q : QProfile

/-- Constructor, cpp 36-62 (without the domain, see `circleDomain`). -/
def mkAField (b0 rm zm rminor : ℝ) (sB sI : FieldSign) (q : QProfile) : AField :=
  ⟨b0, rm, zm, rminor, sB.val, sI.val, q⟩

/-- `Clone`, cpp 67-75. -/
def AField.clone (f : AField) : AField :=
  mkAField f.b0 f.rm f.zm f.rminor (if f.sigmaB > 0 then .ccw else .cw) (if f.sigmaI > 0 then .ccw else .cw) f.q

/-- `hypot`. -/
def hyp (a b : ℝ) : ℝ := Real.sqrt (a ^ 2 + b ^ 2)

/-- `Eval`, cpp 113-130. -/
def AField.eval (f : AField) (x y z : ℝ) : ℝ × ℝ × ℝ :=
  let R := hyp x y
  let r := hyp (f.rm - R) (z - f.zm)
  let iR := 1 / R
  let sintheta := if r ≠ 0 then (z - f.zm) / r else 0
  let costheta := if r ≠ 0 then (f.rm - R) / r else 0
  let sinphi := y * iR
  let cosphi := x * iR
  let pf := f.b0 * f.rm * iR
  let t1 := r / (f.rm * safety f.q f.rminor r)
  (pf * (f.sigmaI * t1 * (sintheta * cosphi) - f.sigmaB * sinphi),
   pf * (f.sigmaI * t1 * (sintheta * sinphi) + f.sigmaB * cosphi),
   pf * (f.sigmaI * t1 * costheta))

/-- `magnetic_field_data`. -/
structure MagData where
  B : ℝ × ℝ × ℝ
  babs : ℝ
  gradB : ℝ × ℝ × ℝ
  curlB : ℝ × ℝ × ℝ
  J : Fin 3 → Fin 3 → ℝ

/-- `EvalDerivatives`, cpp 144-194. -/
def AField.evalDerivatives (f : AField) (x y z : ℝ) : MagData :=
  let R := hyp x y
  let Z := z - f.zm
  let r := hyp (f.rm - R) Z
  let iR := 1 / R
  let sintheta := if r ≠ 0 then Z / r else 0
  let costheta := if r ≠ 0 then (f.rm - R) / r else 0
  let sinphi := y * iR
  let cosphi := x * iR
  let q := safety f.q f.rminor r
  let rdq := rdqdr f.q f.rminor r
  let r_qRm := r / (f.rm * q)
  let sqr := Real.sqrt (r_qRm * r_qRm + 1)
  let DBr := f.b0 * f.rm * iR * (r_qRm / (f.rm * q) * (1 - rdq) / sqr + costheta * iR * sqr)
  let DB0 := -f.b0 * f.rm * sintheta * iR * iR * sqr
  let ddr := f.sigmaI * f.b0 * iR / q * (f.rm * iR + 1 - rdq / q)
  { B := (f.b0 * f.rm * iR * (f.sigmaI * r_qRm * (sintheta * cosphi) - f.sigmaB * sinphi),
          f.b0 * f.rm * iR * (f.sigmaI * r_qRm * (sintheta * sinphi) + f.sigmaB * cosphi),
          f.b0 * f.rm * iR * (f.sigmaI * r_qRm * costheta))
    babs := f.b0 * f.rm * iR * sqr
    gradB := (-DBr * costheta * cosphi + DB0 * sintheta * cosphi,
              -DBr * costheta * sinphi + DB0 * sintheta * sinphi,
              DBr * sintheta + DB0 * costheta)
    curlB := (-ddr * sinphi, ddr * cosphi, 0)
    J := ![![f.b0 * f.rm * (f.sigmaI * Z / (q * f.rm * R * R) * (1 - 2 * cosphi * cosphi) + 2 * f.sigmaB / (R * R) * sinphi * cosphi
               + f.sigmaI * rdq / (q * q * f.rm * R) * cosphi * cosphi * sintheta * costheta),
             f.b0 * f.rm * (2 * f.sigmaB / (R * R) * sinphi * sinphi - f.sigmaB / (R * R) - 2 * f.sigmaI * Z / (q * f.rm * R * R) * sinphi * cosphi
               + f.sigmaI * rdq / (q * q * f.rm * R) * sinphi * cosphi * sintheta * costheta),
             f.sigmaI * f.b0 / (q * R) * cosphi * (1 - rdq / q * sintheta * sintheta)],
           ![f.b0 * f.rm * (f.sigmaB / (R * R) - 2 * f.sigmaB / (R * R) * cosphi * cosphi - 2 * f.sigmaI * Z / (q * f.rm * R * R) * sinphi * cosphi
               + f.sigmaI * rdq / (q * q * f.rm * R) * sinphi * cosphi * sintheta * costheta),
             f.b0 * f.rm * (f.sigmaI * Z / (q * f.rm * R * R) * (1 - 2 * sinphi * sinphi) - 2 * f.sigmaB / (R * R) * sinphi * cosphi
               + f.sigmaI * rdq / (q * q * f.rm * R) * sinphi * sinphi * sintheta * costheta),
             f.sigmaI * f.b0 / (q * R) * sinphi * (1 - rdq / q * sintheta * sintheta)],
           ![f.sigmaI * f.b0 / (q * R) * cosphi * (rdq / q * costheta * costheta - f.rm / R),
             f.sigmaI * f.b0 / (q * R) * sinphi * (rdq / q * costheta * costheta - f.rm / R),
             -f.sigmaI * f.b0 / (q * q * R) * rdq * sintheta * costheta]] }

/-- `EvalFlux`, cpp 205-216. -/
def AField.flux (f : AField) (x y z : ℝ) : ℝ :=
  let R := Real.sqrt (x * x + y * y)
  let Z := z - f.zm
  let r2 := Z * Z + (f.rm - R) * (f.rm - R)
  let q := safety f.q f.rminor (Real.sqrt r2)
  f.sigmaI * Real.pi * f.b0 * r2 / q

/-- `EvalFluxDerivatives`, cpp 231-253: flux, R derivative, Z derivative. -/
def AField.fluxDerivatives (f : AField) (x y z : ℝ) : ℝ × ℝ × ℝ :=
  let R := Real.sqrt (x * x + y * y)
  let Z := z - f.zm
  let r2 := Z * Z + (f.rm - R) * (f.rm - R)
  let r := Real.sqrt r2
  let q := safety f.q f.rminor r
  let rdq := rdqdr f.q f.rminor r
  (f.sigmaI * Real.pi * f.b0 * r2 / q,
   f.sigmaI * Real.pi * f.b0 * (R - f.rm) / q * (2 - rdq / q),
   f.sigmaI * Real.pi * f.b0 * Z / q * (2 - rdq / q))

end

end Softlib.Magnetic
