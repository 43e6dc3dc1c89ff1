/-
Model of the error estimate of the Runge-Kutta integrator with rounded arithmetic.

Source: /repo/include/softlib/Integrator/RungeKutta.tcc 12, 36-47.

Every operation is rounded; `sq` is the library's `sqrt`.  A division by zero gives NaN or infinity as in IEEE arithmetic.  The
number of components is converted without rounding (`double`, or less than 2^24 components).  `SQR` evaluates its argument
twice, with the same result.  As in `Verif/General/RoundModel.lean` the exponent is not limited.
-/
import Verif.Integrator.StageRoundModel

namespace Softlib.Integrator

open Softlib.General

/-- `sk`, line 42. -/
def tolR {u : ℚ} (R : Rnd u) (atol rtol a b : ℚ) : ℚ := R.fl (atol + R.fl (rtol * max |a| |b|))

/-- `SQR(yerr[i]/sk)`, line 43. -/
def errTermR {u : ℚ} (R : Rnd u) (atol rtol e a b : ℚ) : ErrR :=
  let sk := tolR R atol rtol a b
  if sk = 0 then if e = 0 then .nan else .inf
  else .val (R.fl (R.fl (e / sk) * R.fl (e / sk)))

/-- Addition of non-negative numbers. -/
def errAddR {u : ℚ} (R : Rnd u) : ErrR → ErrR → ErrR
  | .nan, _ => .nan
  | _, .nan => .nan
  | .inf, _ => .inf
  | _, .inf => .inf
  | .val a, .val b => .val (R.fl (a + b))

/-- The loop, lines 41-44. -/
def errSumR {u : ℚ} (R : Rnd u) : ℕ → (ℕ → ErrR) → ErrR
  | 0, _ => .val 0
  | n + 1, t => errAddR R (errSumR R n t) (t n)

/-- `EstimateError`, lines 36-47. -/
def estimateR {u : ℚ} (R : Rnd u) (sq : ℚ → ℚ) (N : ℕ) (atol rtol : ℚ) (yerr y1 y2 : ℕ → ℚ) : ErrR :=
  match errSumR R N (fun i => errTermR R atol rtol (yerr i) (y1 i) (y2 i)) with
  | .nan => .nan
  | .inf => .inf
  | .val s => if N = 0 then .nan else .val (sq (R.fl (s / N)))

end Softlib.Integrator
