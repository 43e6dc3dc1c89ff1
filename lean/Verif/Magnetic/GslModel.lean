/-
Model of what the splines of a numeric magnetic field require.

Source: /repo/src/MagneticField/MagneticFieldNumeric2D.cpp 30-42 (constructors from a file), 86-103 (constructor from arrays), 262-291
(`InitInterpolation`), 300-321 (`Eval`), 333-358 (`__EvalJacobian`), 397-431 (`EvalDerivatives`), 439-475 (`EvalFlux`,
`EvalFluxDerivatives`); /repo/src/MagneticField/MagneticFieldLUKE.cpp 50-69 (constructors); MagneticFieldAnalytical2D.cpp 262-315
(`ToNumeric2D`).

Of the GNU Scientific Library (interp2d.c, bicubic.c): `gsl_interp2d_bicubic` needs at least 4 points in either direction, and
`gsl_interp2d_init` needs strictly increasing grids; `gsl_interp2d_eval` and its derivatives need a point inside the grid.  Otherwise
the error handler is called, which nobody replaces (there is no `gsl_set_error_handler` in /repo) and which aborts the program.  What
the splines are is still left open (`mk`).  An array that is shorter than the grid needs is undefined behaviour.  The coordinates are
numbers (`Special` has the positions that are not).
-/
import Verif.Magnetic.ConvertModel
import Verif.Magnetic.LukeModel

namespace Softlib.Magnetic

noncomputable section

/-- `gsl_spline2d_alloc`. -/
def bicubicAlloc (R Z : List ℝ) : LRes Unit := if R.length < 4 ∨ Z.length < 4 then .aborts else .ok ()

open Classical in
/-- `gsl_spline2d_init`. -/
def bicubicInit (mk : List ℝ → List ℝ → List ℝ → Spl) (R Z V : List ℝ) : LRes Spl :=
  if ¬ increasing R then .aborts
  else if ¬ increasing Z then .aborts
  else if V.length < R.length * Z.length then .ub
  else .ok (mk R Z V)

/-- Lines 279-282. -/
def fluxSpline (mk : List ℝ → List ℝ → List ℝ → Spl) (R Z : List ℝ) : Option (List ℝ) → LRes (Option Spl)
  | none => .ok none
  | some psi => (bicubicAlloc R Z).bind fun _ => (bicubicInit mk R Z psi).bind fun s => .ok (some s)

/-- `InitInterpolation`, 262-291. -/
def NField.initInterpolation (mk : List ℝ → List ℝ → List ℝ → Spl) (f : NField) : LRes NGrid :=
  (bicubicAlloc f.R f.Z).bind fun _ =>
  (bicubicAlloc f.R f.Z).bind fun _ =>
  (bicubicAlloc f.R f.Z).bind fun _ =>
  (bicubicInit mk f.R f.Z f.Br).bind fun br =>
  (bicubicInit mk f.R f.Z f.Bphi).bind fun bphi =>
  (bicubicInit mk f.R f.Z f.Bz).bind fun bz =>
  (fluxSpline mk f.R f.Z f.Psi).bind fun psi =>
  (inside f.R.head?).bind fun rmin => (inside f.R.getLast?).bind fun rmax =>
  (inside f.Z.head?).bind fun zmin => (inside f.Z.getLast?).bind fun zmax =>
    .ok ⟨rmin, rmax, zmin, zmax, br, bphi, bz, psi⟩

/-- The constructors: what makes the members, then `InitInterpolation`. -/
def withSplines (mk : List ℝ → List ℝ → List ℝ → Spl) (made : LRes NField) : LRes (NField × NGrid) :=
  made.bind fun f => (f.initInterpolation mk).bind fun g => .ok (f, g)

/-- `gsl_spline2d_eval` and its derivatives: the check, and then `v`.  The limits of all splines of a field are its own. -/
def NGrid.ask {α : Type} (g : NGrid) (r z : ℝ) (v : α) : LRes α :=
  if r < g.rmin ∨ r > g.rmax then .aborts
  else if z < g.zmin ∨ z > g.zmax then .aborts
  else .ok v

/-- `Eval`, 300-321. -/
def NGrid.evalG (g : NGrid) (x y z : ℝ) : LRes (ℝ × ℝ × ℝ) :=
  g.ask (clampTo g.rmin g.rmax (hyp x y)) (clampTo g.zmin g.zmax z) (g.eval x y z)

/-- `EvalDerivatives`, 397-431: a vanishing field gives no numbers. -/
def NGrid.evalDerivativesG (g : NGrid) (x y z : ℝ) : LRes MagData :=
  (g.ask (clampTo g.rmin g.rmax (hyp x y)) (clampTo g.zmin g.zmax z) (g.evalDerivatives x y z)).bind fun d =>
    match d with
    | none => .nonfinite
    | some d => .ok d

/-- `EvalFlux`, 439-447. -/
def NGrid.fluxG (g : NGrid) (x y z : ℝ) : LRes ℝ :=
  (must (g.flux x y z)).bind fun v => g.ask (hyp x y) z v

/-- `EvalFluxDerivatives`, 463-475. -/
def NGrid.fluxDerivativesG (g : NGrid) (x y z : ℝ) : LRes (ℝ × ℝ × ℝ) :=
  (must (g.fluxDerivatives x y z)).bind fun v => g.ask (hyp x y) z v

end

end Softlib.Magnetic
