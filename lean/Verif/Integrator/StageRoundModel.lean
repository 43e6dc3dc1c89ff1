/-
Model of one step of the Dormand-Prince method with rounded arithmetic.

Source: /repo/include/softlib/RKDP45.h 14-32, /repo/include/softlib/Integrator/RKDP45.tcc 16-41 and 80;
/repo/include/softlib/Integrator/RungeKutta.tcc 71-112; the operators of /repo/include/softlib/General/Vector.tcc act on one
component after the other.

Every operation is rounded, and so are the coefficients (quotients of integers, or literals).  Sums are made from left to
right; `h*a*v` is `(h*a)*v`.  Vectors are functions of the number of the component.  The error estimate is arbitrary, see
`Verif/Integrator/ErrorModel.lean`.  As in `Verif/General/RoundModel.lean` the exponent is not limited.
-/
import Verif.Integrator.StepRoundModel

namespace Softlib.Integrator

open Softlib.General

/-- `y + (h*a)*k + (h*b)*l + …`, one component, with the coefficients and slopes in a list. -/
def rowR {u : ℚ} (R : Rnd u) (h y : ℚ) (l : List (ℚ × ℚ)) : ℚ :=
  l.foldl (fun s p => R.fl (s + R.fl (R.fl (h * R.fl p.1) * p.2))) y

/-- What `InnerStep` leaves in the members. -/
structure InnerR where
  k2 : ℕ → ℚ
  k3 : ℕ → ℚ
  k4 : ℕ → ℚ
  k5 : ℕ → ℚ
  k6 : ℕ → ℚ
  yout : ℕ → ℚ
  dydxout : ℕ → ℚ
  yerr : ℕ → ℚ

/-- The time of a stage, `T+c*h`. -/
def stageTime {u : ℚ} (R : Rnd u) (T c h : ℚ) : ℚ := R.fl (T + R.fl (R.fl c * h))

/-- `InnerStep`, RKDP45.tcc 16-41; `f` is what the equation computes. -/
def dpInnerR {u : ℚ} (R : Rnd u) (f : ℚ → (ℕ → ℚ) → ℕ → ℚ) (T h : ℚ) (y d : ℕ → ℚ) : InnerR :=
  let k2 := f (stageTime R T (1 / 5) h) fun i => rowR R h (y i) [(1 / 5, d i)]
  let k3 := f (stageTime R T (3 / 10) h) fun i => rowR R h (y i) [(3 / 40, d i), (9 / 40, k2 i)]
  let k4 := f (stageTime R T (4 / 5) h) fun i => rowR R h (y i) [(44 / 45, d i), (-56 / 15, k2 i), (32 / 9, k3 i)]
  let k5 := f (stageTime R T (8 / 9) h) fun i =>
    rowR R h (y i) [(19372 / 6561, d i), (-25360 / 2187, k2 i), (64448 / 6561, k3 i), (-212 / 729, k4 i)]
  let k6 := f (R.fl (T + h)) fun i =>
    rowR R h (y i) [(9017 / 3168, d i), (-355 / 33, k2 i), (46732 / 5247, k3 i), (49 / 176, k4 i), (-5103 / 18656, k5 i)]
  let yout := fun i =>
    rowR R h (y i) [(35 / 384, d i), (500 / 1113, k3 i), (125 / 192, k4 i), (-2187 / 6784, k5 i), (11 / 84, k6 i)]
  let dydxout := f (R.fl (T + h)) yout
  let yerr := fun i =>
    rowR R h (R.fl (R.fl (h * R.fl (71 / 57600)) * d i))
      [(-71 / 16695, k3 i), (71 / 1920, k4 i), (-17253 / 339200, k5 i), (22 / 525, k6 i), (-1 / 40, dydxout i)]
  ⟨k2, k3, k4, k5, k6, yout, dydxout, yerr⟩

/-- Line 80 for one component. -/
def fifthR {u : ℚ} (R : Rnd u) (h d k3 k4 k5 k6 d2 : ℚ) : ℚ :=
  R.fl (h * ([(87487479700 / 32700410799, k3), (-10690763975 / 1880347072, k4), (701980252875 / 199316789632, k5),
    (-1453857185 / 822651844, k6), (69997945 / 29380423, d2)] : List (ℚ × ℚ)).foldl (fun s p => R.fl (s + R.fl (R.fl p.1 * p.2)))
      (R.fl (R.fl (-12715105075 / 11282082432) * d)))

/-- The trial step of `Step`; `est` is the error estimate. -/
def dpTrialR {u : ℚ} (R : Rnd u) (f : ℚ → (ℕ → ℚ) → ℕ → ℚ) (est : (ℕ → ℚ) → (ℕ → ℚ) → (ℕ → ℚ) → ErrR) (T h : ℚ) (y d : ℕ → ℚ) : TrialR :=
  let q := dpInnerR R f T h y d
  ⟨q.yout, q.dydxout, est q.yerr y q.yout, fun i => fifthR R h (d i) (q.k3 i) (q.k4 i) (q.k5 i) (q.k6 i) (q.dydxout i)⟩

end Softlib.Integrator
