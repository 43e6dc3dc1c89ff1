/-
Model of one step of the Dormand-Prince method and of its dense output coefficients.

Source: /repo/include/softlib/RKDP45.h 14-32, /repo/include/softlib/Integrator/RKDP45.tcc 16-82.

Vectors are elements of a real vector space: by C32 the operators used in the source act as
such.  Numbers are real numbers; the coefficients are the exact fractions written in the source.
-/
import Mathlib.Data.Real.Basic
import Mathlib.Algebra.Module.Basic

namespace Softlib.Integrator

/-! Coefficients, RKDP45.h 15-23. -/
noncomputable section

def c2 : ℝ := 1 / 5
def c3 : ℝ := 3 / 10
def c4 : ℝ := 4 / 5
def c5 : ℝ := 8 / 9
def a21 : ℝ := 1 / 5
def a31 : ℝ := 3 / 40
def a32 : ℝ := 9 / 40
def a41 : ℝ := 44 / 45
def a42 : ℝ := -56 / 15
def a43 : ℝ := 32 / 9
def a51 : ℝ := 19372 / 6561
def a52 : ℝ := -25360 / 2187
def a53 : ℝ := 64448 / 6561
def a54 : ℝ := -212 / 729
def a61 : ℝ := 9017 / 3168
def a62 : ℝ := -355 / 33
def a63 : ℝ := 46732 / 5247
def a64 : ℝ := 49 / 176
def a65 : ℝ := -5103 / 18656
def a71 : ℝ := 35 / 384
def a73 : ℝ := 500 / 1113
def a74 : ℝ := 125 / 192
def a75 : ℝ := -2187 / 6784
def a76 : ℝ := 11 / 84
def e1 : ℝ := 71 / 57600
def e3 : ℝ := -71 / 16695
def e4 : ℝ := 71 / 1920
def e5 : ℝ := -17253 / 339200
def e6 : ℝ := 22 / 525
def e7 : ℝ := -1 / 40

/-! Dense output coefficients, RKDP45.h 26-32. -/

def d1 : ℝ := -12715105075 / 11282082432
def d3 : ℝ := 87487479700 / 32700410799
def d4 : ℝ := -10690763975 / 1880347072
def d5 : ℝ := 701980252875 / 199316789632
def d6 : ℝ := -1453857185 / 822651844
def d7 : ℝ := 69997945 / 29380423

variable {V : Type} [AddCommGroup V] [Module ℝ V]

/-- What `InnerStep` leaves in the members. -/
structure Inner (V : Type) where
  k2 : V
  k3 : V
  k4 : V
  k5 : V
  k6 : V
  yout : V
  dydxout : V
  yerr : V

/-- `InnerStep`, RKDP45.tcc 16-41, for the equation `f`. -/
def innerStep (f : ℝ → V → V) (T h : ℝ) (y dydx : V) : Inner V :=
  let k2 := f (T + c2 * h) (y + (h * a21) • dydx)
  let k3 := f (T + c3 * h) (y + (h * a31) • dydx + (h * a32) • k2)
  let k4 := f (T + c4 * h) (y + (h * a41) • dydx + (h * a42) • k2 + (h * a43) • k3)
  let k5 := f (T + c5 * h) (y + (h * a51) • dydx + (h * a52) • k2 + (h * a53) • k3 + (h * a54) • k4)
  let k6 := f (T + h) (y + (h * a61) • dydx + (h * a62) • k2 + (h * a63) • k3 + (h * a64) • k4 + (h * a65) • k5)
  let yout := y + (h * a71) • dydx + (h * a73) • k3 + (h * a74) • k4 + (h * a75) • k5 + (h * a76) • k6
  let dydxout := f (T + h) yout
  let yerr := (h * e1) • dydx + (h * e3) • k3 + (h * e4) • k4 + (h * e5) • k5 + (h * e6) • k6 + (h * e7) • dydxout
  ⟨k2, k3, k4, k5, k6, yout, dydxout, yerr⟩

/-- The five coefficient vectors of the dense output of one step. -/
structure RCont (V : Type) where
  r1 : V
  r2 : V
  r3 : V
  r4 : V
  r5 : V

/-- The values computed by `PrepareDense`, RKDP45.tcc 73-81. -/
def prepareDense (h : ℝ) (y1 y2 dydx1 dydx2 k3 k4 k5 k6 : V) : RCont V :=
  let ydiff := y2 - y1
  let bspl := h • dydx1 - ydiff
  ⟨y1, ydiff, bspl, ydiff - h • dydx2 - bspl,
   h • (d1 • dydx1 + d3 • k3 + d4 • k4 + d5 • k5 + d6 • k6 + d7 • dydx2)⟩

/-- The interpolation formula, RKDP45.tcc 113-117. -/
def denseEval (r : RCont V) (s : ℝ) : V :=
  let s1 := 1 - s
  r.r1 + s • (r.r2 + s1 • (r.r3 + s • (r.r4 + s1 • r.r5)))

end

end Softlib.Integrator
