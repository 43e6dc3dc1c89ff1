/-
Model of the setters of the Runge-Kutta integrator and of runs of several steps.

Source: /repo/include/softlib/Integrator/RungeKutta.tcc 181-193 (setters), 70-78 (`InitialValue`,
which leaves the step-size control as it is); /repo/include/softlib/RungeKutta.h 10-30.
-/
import Verif.Integrator.RKModel

namespace Softlib.Integrator

noncomputable section

/-- `alpha = 0.2-beta*0.75`, RungeKutta.h 26. -/
def alphaFor (beta : ℝ) : ℝ := 1 / 5 - beta * (3 / 4)

/-- Setters of parameters, RungeKutta.tcc 181-191: nothing is checked. -/
inductive ParOp where
  | alpha (a : ℝ)
  | beta (b : ℝ)
  | maxscale (m : ℝ)
  | minscale (m : ℝ)
  | safe (s : ℝ)

def Par.set (p : Par) : ParOp → Par
  | .alpha a => { p with alpha := a }
  | .beta b => { p with beta := b }
  | .maxscale m => { p with maxscale := m }
  | .minscale m => { p with minscale := m }
  | .safe s => { p with safe := s }

/-- Result of several steps; for a step that fails, its number. -/
inductive RunRes where
  | ub
  | fuel (k : Nat)
  | underflow (k : Nat)
  | ok (s : Store) (c : Ctl)

/-- `k` calls of `Step`; `dense i` is the switch of `ToggleDenseOutput` at step `i`, `junk i` what new
memory holds. -/
def rkRun (N : Nat) (junk : Nat → Nat → ℝ) (fl : ℝ → ℝ) (p : Par) (eps : ℝ) (dense : Nat → Bool)
    (trial : ℝ → ℝ → (Nat → ℝ) → (Nat → ℝ) → Trial) (fuel : Nat) : Nat → Store → Ctl → RunRes
  | 0, s, c => .ok s c
  | k + 1, s, c =>
    match rkStep N (junk k) fl p eps (dense k) trial fuel s c with
    | .ub => .ub
    | .fuel => .fuel k
    | .underflow => .underflow k
    | .ok _ s' c' => rkRun N junk fl p eps dense trial fuel k s' c'

end

end Softlib.Integrator
