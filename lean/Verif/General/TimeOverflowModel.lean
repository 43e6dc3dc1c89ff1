/-
The estimate of the remaining time in 64-bit arithmetic.

Source: /repo/src/General/ProgressTracker.cpp 104-116 (the sum of the estimate and the time passed),
163-198 (`EstimateRemainingTimeDeterministic`).  TimeTextModel has the same function on unbounded
numbers; here every operation on `long long int` is checked, since a result that does not fit is
undefined behaviour.
-/
import Verif.General.TimeTextModel

namespace Softlib.General

/-- Outcome of arithmetic on `long long int`. -/
inductive Est where
  | unset
  | overflow
  | ok (v : Int)
  deriving DecidableEq, Repr

/-- The result of an operation, if it fits. -/
def fit64 (v : Int) (k : Int → Est) : Est :=
  if -9223372036854775808 ≤ v ∧ v ≤ 9223372036854775807 then k v else .overflow

/-- `EstimateRemainingTimeDeterministic(i)`, ProgressTracker.cpp 163-198, for the member `dt1`. -/
def estimate64 (nprint : Int) (dt1 : Option Int) (i dt : Int) : Est :=
  fit64 (nprint - i) fun Ni =>
  fit64 (Ni * dt) fun eT =>
  if i ≥ 2 then
    match dt1 with
    | none => .unset
    | some dt1 =>
      fit64 (dt - dt1) fun d2t =>
      fit64 (Ni + 1) fun N1 =>
      fit64 (if Int.tmod Ni 2 = 0 then Int.tdiv Ni 2 * N1 else Ni * Int.tdiv N1 2) fun NNp12 =>
      fit64 (d2t * dt) fun t =>
      if t > 0 then fit64 (NNp12 * d2t) fun u => fit64 (eT + u) fun v => .ok v
      else .ok eT
  else .ok eT

/-- `est+totalpassed` of `PrintProgressLines`, ProgressTracker.cpp 115. -/
def total64 (e : Est) (total : Int) : Est :=
  match e with
  | .ok v => fit64 (v + total) fun w => .ok w
  | x => x

end Softlib.General
