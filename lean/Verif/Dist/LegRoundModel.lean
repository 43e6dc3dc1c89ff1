/-
Model of the Legendre modes of the CODE distribution with rounding.

Source: /repo/src/DistributionFunction/CODEDistributionFunction.cpp 184-198 (modes), 240-257 (their sum).

As in `Verif/General/RoundModel.lean` the exponent is not limited and products and sums are not contracted to
fused operations.  The array is the business of `Verif/Dist/CodeModel.lean`; here entry `n` is a function of `n`.
-/
import Verif.General.RoundModel

namespace Softlib.Dist

open Softlib.General

/-- `(2.0*n+1.0)/(n+1.0)`, line 196. -/
def legA {u : ℚ} (R : Rnd u) (n : ℕ) : ℚ := R.fl (R.fl (R.fl (2 * (n : ℚ)) + 1) / R.fl ((n : ℚ) + 1))

/-- `n/(n+1.0)`, line 196. -/
def legB {u : ℚ} (R : Rnd u) (n : ℕ) : ℚ := R.fl ((n : ℚ) / R.fl ((n : ℚ) + 1))

/-- `legmodes[n]`, lines 190-197. -/
def legR {u : ℚ} (R : Rnd u) (x : ℚ) : ℕ → ℚ
  | 0 => 1
  | 1 => x
  | n + 2 => R.fl (R.fl (R.fl (legA R (n + 1) * x) * legR R x (n + 1)) - R.fl (legB R (n + 1) * legR R x n))

/-- `sgn[i%2]`, lines 241 and 253. -/
def legSgn (i : ℕ) : ℚ := if i % 2 = 0 then 1 else -1

/-- The sum of the modes, lines 251-254; `f i` is what the interpolation of mode `i` gives. -/
def codeSumR {u : ℚ} (R : Rnd u) (f : ℕ → ℚ) (x : ℚ) (nleg : ℕ) : ℚ :=
  (List.range nleg).foldl (fun s i => R.fl (s + R.fl (R.fl (f i * legR R x i) * legSgn i))) 0

/-- The value, lines 251-258. -/
def codeValR {u : ℚ} (R : Rnd u) (f : ℕ → ℚ) (x : ℚ) (nleg : ℕ) : ℚ :=
  if codeSumR R f x nleg ≤ 0 then 0 else codeSumR R f x nleg

end Softlib.Dist
