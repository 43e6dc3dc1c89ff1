/-
Model of the step control, the stored times and the dense output of the Runge-Kutta integrator with rounded
arithmetic.

Source: /repo/include/softlib/RungeKutta.h 23-28, /repo/include/softlib/Integrator/RungeKutta.tcc 22-27 and 86-176,
/repo/include/softlib/Integrator/RKDP45.tcc 55-120, /repo/include/softlib/config.h.in 8-16 (`REAL_EPSILON`).

Every operation is rounded, and so are the literals `0.9`, `0.2`, `1e-1` and `1e-4`.  `pw` is the library's `pow`.  The
trial step (`InnerStep` and `EstimateError`) delivers arbitrary numbers.  Storage is simplified: one entry for each
stored point, without the growth of the arrays and the 32-bit indices, which are modelled in
`Verif/Integrator/RKModel.lean`.  The fifth array of coefficients is arbitrary.  As in
`Verif/General/RoundModel.lean` the exponent is not limited.
-/
import Verif.General.RoundModel

namespace Softlib.Integrator

open Softlib.General

/-! ### step control -/

/-- An error estimate: NaN, infinite, or a number. -/
inductive ErrR where
  | nan
  | inf
  | val (e : ℚ)

/-- Parameters, RungeKutta.h 23-28. -/
structure ParR where
  safe : ℚ
  alpha : ℚ
  beta : ℚ
  minscale : ℚ
  maxscale : ℚ

/-- The defaults, RungeKutta.h 24-28. -/
def ParR.default {u : ℚ} (R : Rnd u) : ParR :=
  ⟨R.fl (9 / 10), R.fl (R.fl (1 / 5) - R.fl (0 * (3 / 4))), 0, R.fl (1 / 5), 10⟩

/-- Control members. -/
structure CtlR where
  optimal : ℚ
  errold : ℚ
  rejected : Bool

/-- After construction, RungeKutta.tcc 25-26 and RungeKutta.h 11. -/
def CtlR.init {u : ℚ} (R : Rnd u) : CtlR := ⟨1, R.fl (1 / 10000), false⟩

/-- `UpdateTimestep`, RungeKutta.tcc 144-176, for the step `h`. -/
def updateR {u : ℚ} (R : Rnd u) (pw : ℚ → ℚ → ℚ) (p : ParR) (c : CtlR) (h : ℚ) : ErrR → Bool × CtlR
  | .nan => (false, ⟨R.fl (h * R.fl (1 / 10)), c.errold, true⟩)
  -- `pow` of infinity with a negative exponent is zero
  | .inf => (false, ⟨R.fl (h * max 0 p.minscale), c.errold, true⟩)
  | .val e =>
    if e ≤ 1 then
      let scale :=
        if e = 0 then p.maxscale
        else
          let x := R.fl (R.fl (p.safe * pw e (-p.alpha)) * pw c.errold p.beta)
          let x := if x < p.minscale then p.minscale else x
          if x > p.maxscale then p.maxscale else x
      (true, ⟨if c.rejected then R.fl (h * min scale 1) else R.fl (h * scale), max e (R.fl (1 / 10000)), false⟩)
    else
      (false, ⟨R.fl (h * max (R.fl (p.safe * pw e (-p.alpha))) p.minscale), c.errold, true⟩)

/-- Result of the loop in `Step`. -/
inductive LoopResR where
  /-- not finished within the given number of rounds -/
  | fuel
  /-- the exception of line 101 -/
  | underflow
  /-- accepted with step `h` -/
  | accepted (h : ℚ) (c : CtlR)

/-- The loop in `Step`, RungeKutta.tcc 94-102; `eps` is `REAL_EPSILON`. -/
def stepLoopR {u : ℚ} (R : Rnd u) (pw : ℚ → ℚ → ℚ) (p : ParR) (eps T : ℚ) (err : ℚ → ErrR) :
    ℕ → ℚ → CtlR → LoopResR
  | 0, _, _ => .fuel
  | k + 1, h, c =>
    match updateR R pw p c h (err h) with
    | (true, c') => .accepted h c'
    | (false, c') =>
      if |c'.optimal| ≤ R.fl (|T| * eps) then .underflow
      else stepLoopR R pw p eps T err k c'.optimal c'

/-! ### stored points and coefficients -/

/-- The five coefficients of one component. -/
structure RcR where
  r1 : ℚ
  r2 : ℚ
  r3 : ℚ
  r4 : ℚ
  r5 : ℚ

/-- `PrepareDense` for one component, RKDP45.tcc 73-81; `r5` is the value of line 80. -/
def prepareR {u : ℚ} (R : Rnd u) (h y1 y2 dy1 dy2 r5 : ℚ) : RcR :=
  let ydiff := R.fl (y2 - y1)
  let bspl := R.fl (R.fl (h * dy1) - ydiff)
  ⟨y1, ydiff, bspl, R.fl (R.fl (ydiff - R.fl (h * dy2)) - bspl), r5⟩

/-- The formula of RKDP45.tcc 117 for the fraction `s`. -/
def denseEvalR {u : ℚ} (R : Rnd u) (c : RcR) (s : ℚ) : ℚ :=
  let s1 := R.fl (1 - s)
  R.fl (c.r1 + R.fl (s * R.fl (c.r2 + R.fl (s1 * R.fl (c.r3 + R.fl (s * R.fl (c.r4 + R.fl (s1 * c.r5))))))))

/-- The stored points: `n` of them, with times, solutions and derivatives (point, then component), and the
coefficients of each step. -/
structure HistR where
  n : ℕ
  time : ℕ → ℚ
  y : ℕ → ℕ → ℚ
  dy : ℕ → ℕ → ℚ
  rc : ℕ → ℕ → RcR

/-- `InitialValue`, RungeKutta.tcc 71-78, on a new integrator. -/
def HistR.init (y0 dy0 : ℕ → ℚ) : HistR := ⟨1, fun _ => 0, fun _ => y0, fun _ => dy0, fun _ _ => ⟨0, 0, 0, 0, 0⟩⟩

/-- What a trial step delivers. -/
structure TrialR where
  yout : ℕ → ℚ
  dydxout : ℕ → ℚ
  err : ErrR
  r5 : ℕ → ℚ

/-- Result of `Step`. -/
inductive StepResR where
  | fuel
  | underflow
  | ok (s : HistR) (c : CtlR)

/-- Store the point after a step `h`, RungeKutta.tcc 104-109 and 125-133. -/
def storeR {u : ℚ} (R : Rnd u) (s : HistR) (h : ℚ) (q : TrialR) : HistR :=
  let l := s.n - 1
  ⟨s.n + 1, fun i => if i = s.n then R.fl (s.time l + h) else s.time i,
   fun i => if i = s.n then q.yout else s.y i, fun i => if i = s.n then q.dydxout else s.dy i,
   fun i => if i = l then fun j => prepareR R h (s.y l j) (q.yout j) (s.dy l j) (q.dydxout j) (q.r5 j) else s.rc i⟩

/-- `Step`, RungeKutta.tcc 86-112, with dense output; `trial T h y dydx` is the trial step. -/
def rkStepR {u : ℚ} (R : Rnd u) (pw : ℚ → ℚ → ℚ) (p : ParR) (eps : ℚ)
    (trial : ℚ → ℚ → (ℕ → ℚ) → (ℕ → ℚ) → TrialR) (fuel : ℕ) (s : HistR) (c : CtlR) : StepResR :=
  let l := s.n - 1
  match stepLoopR R pw p eps (s.time l) (fun h => (trial (s.time l) h (s.y l) (s.dy l)).err) fuel c.optimal c with
  | .fuel => .fuel
  | .underflow => .underflow
  | .accepted h c' => .ok (storeR R s h (trial (s.time l) h (s.y l) (s.dy l))) c'

/-- Several calls of `Step`. -/
def rkRunR {u : ℚ} (R : Rnd u) (pw : ℚ → ℚ → ℚ) (p : ParR) (eps : ℚ)
    (trial : ℚ → ℚ → (ℕ → ℚ) → (ℕ → ℚ) → TrialR) (fuel : ℕ) : ℕ → HistR → CtlR → StepResR
  | 0, s, c => .ok s c
  | k + 1, s, c =>
    match rkStepR R pw p eps trial fuel s c with
    | .ok s' c' => rkRunR R pw p eps trial fuel k s' c'
    | e => e

/-! ### dense output -/

/-- Result of `OutputDense`. -/
inductive DenseResR where
  /-- reading a time that was never stored -/
  | ub
  /-- the exception of lines 105-109 -/
  | beyond
  /-- some numbers are divided by a step of length zero -/
  | notNumber
  | ok (out : List (ℕ → ℚ))

/-- The search loop, RKDP45.tcc 102-103, where `it+2 < ntimesteps` holds for `left` more rounds. -/
def advanceR (time : ℕ → ℚ) (T : ℚ) : (left it : ℕ) → ℕ
  | 0, it => it
  | left + 1, it => if time (it + 1) < T then advanceR time T left (it + 1) else it

/-- `OutputDense(nt, time, out)`, RKDP45.tcc 94-120, from interval `it0` on. -/
def outputDenseR {u : ℚ} (R : Rnd u) (s : HistR) : List ℚ → ℕ → DenseResR
  | [], _ => .ok []
  | T :: Ts, it0 =>
    if s.n < 2 then .ub else
    let it := advanceR s.time T (s.n - 2 - it0) it0
    if s.time (it + 1) < T then .beyond
    else
      let stepsize := R.fl (s.time (it + 1) - s.time it)
      match outputDenseR R s Ts it with
      | .ok rest =>
        if stepsize = 0 then .notNumber
        else .ok ((fun j => denseEvalR R (s.rc it j) (R.fl (R.fl (T - s.time it) / stepsize))) :: rest)
      | e => e

end Softlib.Integrator
