/-
Model of `PeakedIntegration::Evaluate` with rounded arithmetic.

Source: /repo/src/Integration/PeakedIntegration.cpp 40-81.

Simplifications: as in `Verif/General/RoundModel.lean` the exponent is not limited, so there are no
infinities, and there is no NaN.  The integrand is a pure function; what it rounds is its own affair.
-/
import Verif.General.RoundModel

namespace Softlib.Integration

open Softlib.General

/-- Result of `Evaluate`. -/
inductive ResR where
  /-- the exception of line 52 -/
  | zeroFalloff
  | fuel
  | ok (v : ℚ)
  deriving DecidableEq

/-- The loop, PeakedIntegration.cpp 58-80, with the tail calls of lines 60 and 62. -/
def peakLoopR {u : ℚ} (R : Rnd u) (f : ℚ → ℚ) (a b w cut : ℚ) : Nat → (M F s delta fp fm : ℚ) → ResR
  | 0, _, _, _, _, _, _ => .fuel
  | k + 1, M, F, s, delta, fp, fm =>
    if max fp fm > R.fl (F * cut) then
      if fp > F then
        peakLoopR R f a b w cut k (R.fl (M + delta)) fp fp w
          (f (R.fl (R.fl (M + delta) + w))) (f (R.fl (R.fl (M + delta) - w)))
      else if fm > F then
        peakLoopR R f a b w cut k (R.fl (M - delta)) fm fm w
          (f (R.fl (R.fl (M - delta) + w))) (f (R.fl (R.fl (M - delta) - w)))
      else
        let delta' := R.fl (delta + w)
        peakLoopR R f a b w cut k M F (R.fl (s + R.fl (fp + fm))) delta'
          (if R.fl (M + delta') < b then f (R.fl (M + delta')) else 0)
          (if R.fl (M - delta') > a then f (R.fl (M - delta')) else 0)
    else .ok (R.fl (w * R.fl (s + R.fl (1 / 2 * R.fl (fp + fm)))))

/-- `Evaluate` with given maximum, PeakedIntegration.cpp 40-81. -/
def evaluateR {u : ℚ} (R : Rnd u) (f : ℚ → ℚ) (a b w cut : ℚ) (fuel : Nat) (M F : ℚ) : ResR :=
  if w = 0 then .zeroFalloff
  else peakLoopR R f a b w cut fuel M F F w (f (R.fl (M + w))) (f (R.fl (M - w)))

end Softlib.Integration
