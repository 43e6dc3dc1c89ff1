/-
Model of the error estimate, of the complete trial step and of the accessors for the last point.

Source: /repo/include/softlib/Integrator/RungeKutta.tcc 29-47, 86-97,
/repo/include/softlib/Integrator/Integrator.tcc 57-86, 134-138,
/repo/include/softlib/Integrator/RKDP45.tcc 16-41.

Real arithmetic is exact; a division by zero gives NaN or infinity as in IEEE arithmetic.
-/
import Verif.Integrator.RKModel
import Mathlib.Analysis.SpecialFunctions.Sqrt

namespace Softlib.Integrator

noncomputable section

/-- `SQR(yerr[i]/sk)`, RungeKutta.tcc 42-43. -/
def errTerm (atol rtol e a b : ℝ) : Err :=
  let sk := atol + rtol * max |a| |b|
  if sk = 0 then if e = 0 then .nan else .inf
  else .val (e / sk * (e / sk))

/-- Addition of non-negative floating-point numbers. -/
def errAdd : Err → Err → Err
  | .nan, _ => .nan
  | _, .nan => .nan
  | .inf, _ => .inf
  | _, .inf => .inf
  | .val a, .val b => .val (a + b)

/-- The loop, RungeKutta.tcc 41-44. -/
def errSum : Nat → (Nat → Err) → Err
  | 0, _ => .val 0
  | n + 1, t => errAdd (errSum n t) (t n)

/-- `EstimateError`, RungeKutta.tcc 36-47. -/
def estimateError (N : Nat) (atol rtol : ℝ) (yerr y1 y2 : Nat → ℝ) : Err :=
  match errSum N (fun i => errTerm atol rtol (yerr i) (y1 i) (y2 i)) with
  | .nan => .nan
  | .inf => .inf
  | .val s => if N = 0 then .nan else .val (Real.sqrt (s / N))

/-- An array seen as a vector of `N` components (`Vector::operator=(slibreal_t*)`), and back. -/
def vecOf (N : Nat) (a : Nat → ℝ) : Fin N → ℝ := fun i => a i
def arrOf {N : Nat} (v : Fin N → ℝ) : Nat → ℝ := fun j => if h : j < N then v ⟨j, h⟩ else 0

/-- The trial step of `Step`, RungeKutta.tcc 95-96, with the Dormand-Prince `InnerStep`, for the
equation `f`. -/
def rkdpTrial {N : Nat} (f : ℝ → (Fin N → ℝ) → (Fin N → ℝ)) (atol rtol T h : ℝ) (y dydx : Nat → ℝ) : Trial :=
  let r := innerStep f T h (vecOf N y) (vecOf N dydx)
  ⟨arrOf r.yout, arrOf r.dydxout, estimateError N atol rtol (arrOf r.yerr) y (arrOf r.yout),
   arrOf r.k3, arrOf r.k4, arrOf r.k5, arrOf r.k6⟩

/-- `LastTime`, Integrator.tcc 61-65. -/
def lastTime (s : Store) : ℝ := if s.n = 0 then 0 else s.time (s.n - 1)

/-- `LastSolution` and `LastDerivative`, Integrator.tcc 71-86; `none` is the null pointer. -/
def lastSolution (N : Nat) (s : Store) : Option (Nat → ℝ) :=
  if s.n = 0 then none else some (fun j => s.sol (((s.n - 1) * N) % W + j))
def lastDerivative (N : Nat) (s : Store) : Option (Nat → ℝ) :=
  if s.n = 0 then none else some (fun j => s.der (((s.n - 1) * N) % W + j))

/-- `StepsTaken`, Integrator.tcc 138. -/
def stepsTaken (s : Store) : Nat := s.n

end

end Softlib.Integrator
