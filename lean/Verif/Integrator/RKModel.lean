/-
Model of the integrator's storage, step control and dense output.

Source: /repo/include/softlib/Integrator/Integrator.tcc 46-196,
/repo/include/softlib/RungeKutta.h 23-30, /repo/include/softlib/Integrator/RungeKutta.tcc 22-192,
/repo/include/softlib/Integrator/RKDP45.tcc 55-120.

Arrays are functions from indices, with their size kept beside; memory obtained by `realloc`
holds arbitrary values (`junk`).  Counters are 32 bits wide, as `unsigned int`.  Real arithmetic
is exact, except that the product giving the next step is passed through `fl`, which is the
identity or flushes tiny values to zero.  The evaluation of one trial step (`InnerStep` and
`EstimateError`) is an arbitrary function, so that the results hold for every equation,
tolerance and subclass.
-/
import Verif.Integrator.TableauModel
import Mathlib.Analysis.SpecialFunctions.Pow.Real

namespace Softlib.Integrator

noncomputable section

/-- Number of values of an `unsigned int`. -/
def W : Nat := 2 ^ 32

/-! ### storage -/

/-- Solution arrays and dense output arrays of the integrator; `alloc` is `ntsallocated`, `n` is
`ntimesteps`, `ralloc` is `nrcontallocated`. -/
structure Store where
  alloc : Nat
  n : Nat
  time : Nat → ℝ
  sol : Nat → ℝ
  der : Nat → ℝ
  ralloc : Nat
  rc : Fin 5 → Nat → ℝ

/-- `realloc` keeps what fits and leaves the rest arbitrary. -/
def regrow (old new : Nat) (junk : Nat → ℝ) (a : Nat → ℝ) : Nat → ℝ :=
  fun i => if i < min old new then a i else junk i

/-- Copy a vector into an array (`ToArray`, Vector.tcc 216-220). -/
def copyTo (N base : Nat) (v : Nat → ℝ) (a : Nat → ℝ) : Nat → ℝ :=
  fun i => if base ≤ i ∧ i < base + N then v (i - base) else a i

/-- Growth part of `StoreSolution`, Integrator.tcc 149-155. -/
def growStore (N : Nat) (junk : Nat → ℝ) (s : Store) : Store :=
  if s.alloc ≤ s.n then
    let na := (s.alloc + 1000) % W
    ⟨na, s.n, regrow s.alloc na junk s.time, regrow (N * s.alloc) (N * na) junk s.sol,
     regrow (N * s.alloc) (N * na) junk s.der, s.ralloc, s.rc⟩
  else s

/-- `StoreSolution`, Integrator.tcc 148-162; `none` for a write outside the arrays.  The offset
`ntimesteps*N` is computed in 32 bits. -/
def storeSolution (N : Nat) (junk : Nat → ℝ) (s : Store) (t : ℝ) (y yp : Nat → ℝ) : Option Store :=
  let s1 := growStore N junk s
  let off := (s1.n * N) % W
  if s1.n < s1.alloc ∧ off + N ≤ N * s1.alloc then
    some ⟨s1.alloc, (s1.n + 1) % W, fun i => if i = s1.n then t else s1.time i,
      copyTo N off y s1.sol, copyTo N off yp s1.der, s1.ralloc, s1.rc⟩
  else none

/-- `TimeAt`, `SolutionAt`, `DerivativeAt`, Integrator.tcc 171-195 (component `j` of the latter
two). -/
def timeAt (s : Store) (i : Nat) : ℝ := s.time i
def solutionAt (N : Nat) (s : Store) (i j : Nat) : ℝ := s.sol ((i * N) % W + j)
def derivativeAt (N : Nat) (s : Store) (i j : Nat) : ℝ := s.der ((i * N) % W + j)

/-- An integrator without storage, Integrator.tcc 18-26. -/
def emptyStore (junk : Nat → ℝ) : Store := ⟨0, 0, junk, junk, junk, 0, fun _ => junk⟩

/-- `InitialValue`, Integrator.tcc 47-55 and RungeKutta.tcc 71-78. -/
def initialValue (N : Nat) (junk : Nat → ℝ) (s : Store) (y0 yp0 : Nat → ℝ) : Option Store :=
  storeSolution N junk ⟨s.alloc, 0, s.time, s.sol, s.der, s.ralloc, s.rc⟩ 0 y0 yp0

/-! ### step control -/

/-- An error estimate: NaN, infinite, or a number. -/
inductive Err where
  | nan
  | inf
  | val (e : ℝ)

/-- Parameters, RungeKutta.h 23-28. -/
structure Par where
  safe : ℝ
  alpha : ℝ
  beta : ℝ
  minscale : ℝ
  maxscale : ℝ

/-- The defaults (`alpha = 0.2 - 0*0.75`). -/
def Par.default : Par := ⟨9 / 10, 1 / 5, 0, 1 / 5, 10⟩

/-- Control members. -/
structure Ctl where
  optimal : ℝ
  errold : ℝ
  rejected : Bool

/-- State after construction, RungeKutta.tcc 22-27 and RungeKutta.h 11. -/
def Ctl.init : Ctl := ⟨1, 1 / 10000, false⟩

/-- `UpdateTimestep`, RungeKutta.tcc 144-176, for the step `h`. -/
def updateTimestep (fl : ℝ → ℝ) (p : Par) (c : Ctl) (h : ℝ) : Err → Bool × Ctl
  | .nan => (false, ⟨fl (h * (1 / 10)), c.errold, true⟩)
  -- `pow` of infinity with a negative exponent is zero
  | .inf => (false, ⟨fl (h * max 0 p.minscale), c.errold, true⟩)
  | .val e =>
    if e ≤ 1 then
      let scale :=
        if e = 0 then p.maxscale
        else
          let x := p.safe * e ^ (-p.alpha) * c.errold ^ p.beta
          let x := if x < p.minscale then p.minscale else x
          if x > p.maxscale then p.maxscale else x
      (true, ⟨fl (if c.rejected then h * min scale 1 else h * scale), max e (1 / 10000), false⟩)
    else
      (false, ⟨fl (h * max (p.safe * e ^ (-p.alpha)) p.minscale), c.errold, true⟩)

/-- Result of the loop in `Step`. -/
inductive LoopRes where
  /-- not finished within the given number of rounds -/
  | fuel
  /-- the exception of line 101 -/
  | underflow
  /-- accepted with step `h` -/
  | accepted (h : ℝ) (c : Ctl)

/-- The loop in `Step`, RungeKutta.tcc 94-102; `err h` is the error estimate of the trial step
`h` from time `T`, `eps` is `REAL_EPSILON`. -/
def stepLoop (fl : ℝ → ℝ) (p : Par) (eps T : ℝ) (err : ℝ → Err) : Nat → ℝ → Ctl → LoopRes
  | 0, _, _ => .fuel
  | k + 1, h, c =>
    match updateTimestep fl p c h (err h) with
    | (true, c') => .accepted h c'
    | (false, c') =>
      if |c'.optimal| ≤ |T| * eps then .underflow
      else stepLoop fl p eps T err k c'.optimal c'

/-- What a trial step delivers (`InnerStep` and `EstimateError`). -/
structure Trial where
  yout : Nat → ℝ
  dydxout : Nat → ℝ
  err : Err
  k3 : Nat → ℝ
  k4 : Nat → ℝ
  k5 : Nat → ℝ
  k6 : Nat → ℝ

/-! ### dense output -/

/-- Component `i` of the five arrays written by `PrepareDense`. -/
def rcVal (h : ℝ) (y1 y2 dydx1 dydx2 k3 k4 k5 k6 : ℝ) : Fin 5 → ℝ :=
  let r := prepareDense (V := ℝ) h y1 y2 dydx1 dydx2 k3 k4 k5 k6
  ![r.r1, r.r2, r.r3, r.r4, r.r5]

/-- `PrepareDense`, RKDP45.tcc 55-82, on the arrays; `none` for a write outside. -/
def storeDense (N : Nat) (junk : Nat → ℝ) (s : Store) (h : ℝ) (y1 y2 dy1 dy2 : Nat → ℝ) (q : Trial) :
    Option Store :=
  let off := ((s.n - 2) * N) % W
  let s1 : Store :=
    if s.ralloc < s.alloc then
      ⟨s.alloc, s.n, s.time, s.sol, s.der, s.alloc,
       fun m => regrow (N * s.ralloc) (N * s.alloc) junk (s.rc m)⟩
    else s
  if off + N ≤ N * s1.ralloc then
    some ⟨s1.alloc, s1.n, s1.time, s1.sol, s1.der, s1.ralloc, fun m =>
      copyTo N off (fun i => rcVal h (y1 i) (y2 i) (dy1 i) (dy2 i) (q.k3 i) (q.k4 i) (q.k5 i) (q.k6 i) m) (s1.rc m)⟩
  else none

/-- Result of `Step`. -/
inductive StepRes where
  | fuel
  | underflow
  | ub
  | ok (t : ℝ) (s : Store) (c : Ctl)

/-- `Step` and `RungeKutta::StoreSolution`, RungeKutta.tcc 86-133; `trial T h y dydx` is the
trial step. -/
def rkStep (N : Nat) (junk : Nat → ℝ) (fl : ℝ → ℝ) (p : Par) (eps : ℝ) (dense : Bool)
    (trial : ℝ → ℝ → (Nat → ℝ) → (Nat → ℝ) → Trial) (fuel : Nat) (s : Store) (c : Ctl) : StepRes :=
  if s.n = 0 then .ub else
  let y := solutionAt N s (s.n - 1)
  let dydx := derivativeAt N s (s.n - 1)
  let T := timeAt s (s.n - 1)
  match stepLoop fl p eps T (fun h => (trial T h y dydx).err) fuel c.optimal c with
  | .fuel => .fuel
  | .underflow => .underflow
  | .accepted h c' =>
    let q := trial T h y dydx
    match storeSolution N junk s (T + h) q.yout q.dydxout with
    | none => .ub
    | some s1 =>
      if dense && decide (s1.n > 1) then
        match storeDense N junk s1 h y q.yout dydx q.dydxout q with
        | none => .ub
        | some s2 => .ok (T + h) s2 c'
      else .ok (T + h) s1 c'

/-- Result of `OutputDense`. -/
inductive DenseRes where
  /-- reading a time that was never stored, or outside the coefficient arrays (null when dense
  output was never enabled) -/
  | ub
  /-- the exception of lines 105-109 -/
  | beyond
  | ok (out : List (Nat → ℝ))

/-- The search loop, RKDP45.tcc 102-103. -/
def advance (time : Nat → ℝ) (n : Nat) (T : ℝ) (it : Nat) : Nat :=
  if h : it + 2 < n ∧ time (it + 1) < T then advance time n T (it + 1) else it
termination_by n - it

/-- `OutputDense(nt, time, out)`, RKDP45.tcc 94-120, from interval `it` on. -/
def outputDense (N : Nat) (s : Store) : List ℝ → Nat → DenseRes
  | [], _ => .ok []
  | T :: Ts, it0 =>
    if s.n < 2 then .ub else
    let it := advance s.time s.n T it0
    if s.time (it + 1) < T then .beyond
    else if ¬ ∀ j, j < N → (it * N + j) % W < N * s.ralloc then .ub
    else
      let stepsize := s.time (it + 1) - s.time it
      let x := (T - s.time it) / stepsize
      let out : Nat → ℝ := fun j =>
        denseEval (V := ℝ) ⟨s.rc 0 ((it * N + j) % W), s.rc 1 ((it * N + j) % W), s.rc 2 ((it * N + j) % W),
          s.rc 3 ((it * N + j) % W), s.rc 4 ((it * N + j) % W)⟩ x
      match outputDense N s Ts it with
      | .ok rest => .ok (out :: rest)
      | e => e

/-! ### uniform times -/

/-- The time array of `OutputDense(nt, tmin, tmax, …)`, Integrator.tcc 99-119; `none` stands for
an exception. -/
def uniformTimes (nt : Nat) (tmin tmax : ℝ) : Option (List ℝ) :=
  if nt > 1 then
    let dt := (tmax - tmin) / ((nt : ℝ) - 1)
    some (((List.range nt).map (fun i : Nat => tmin + i * dt)).set (nt - 1) tmax)
  else if nt = 1 then
    if tmin ≠ tmax then none
    else some (((List.range nt).map (fun i : Nat => tmin + i * (1 : ℝ))).set (nt - 1) tmax)
  else none

end

end Softlib.Integrator
