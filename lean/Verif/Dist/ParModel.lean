/-
Several threads evaluating CODE distribution functions.

Source: /repo/src/DistributionFunction/CODEDistributionFunction.cpp 184-198
(`ComputeLegendrePolynomials`), 238-259 (`Eval`), 342-348 (`MinClone`).

The evaluation of `CodeModel.lean`, cut into steps with one access to the object each: every read of an
entry of `legendre`, every write of one, the comparison with and the assignment of `xileg`.  The steps
of different threads are interleaved in any order, with each access seen at once by all threads; the
C++ memory model guarantees that when no two threads access the same location with one of them
writing.  The grid, the values and the interpolation objects are only read.  The accelerator of GSL is
left out: it does not change results, and every clone has its own.
-/
import Verif.Dist.CodeModel

namespace Softlib.Dist

variable {K : Type} [Field K] [LinearOrder K]

/-- Where a thread is in `Eval`. -/
inductive EvalPc (K : Type) where
  /-- before the tests of lines 243 and 246 -/
  | start
  /-- 185: about to write `legendre[0]` -/
  | w0
  /-- 187: about to write `legendre[1]` -/
  | w1
  /-- 194-197: about to read `legendre[i+1]`, `k` iterations to go -/
  | rec1 (k i : Nat)
  /-- about to read `legendre[i]` -/
  | rec2 (k i : Nat) (u : K)
  /-- about to write `legendre[i+2]` -/
  | rec3 (k i : Nat) (u v : K)
  /-- 248: about to write `xileg` -/
  | wx
  /-- 251-254: about to add term `i`, with sign `sgn`, to the sum `s` -/
  | sum (i : Nat) (sgn s : K)
  /-- undefined behaviour has happened -/
  | dead

/-- What one step does: go on with the object changed, or return a value. -/
inductive EvalStep (K : Type) where
  | next (c : Code K) (pc : EvalPc K)
  | ret (v : K)

/-- A write to `legendre`. -/
def writeLeg (c : Code K) (i : Nat) (v : K) (pc : EvalPc K) : EvalStep K :=
  match setAt c.leg i v with
  | some l => .next { c with leg := l } pc
  | none => .next c .dead

/-- One step of `Eval(p, xi)`. -/
def evalStep (c : Code K) (p xi : K) : EvalPc K → EvalStep K
  | .start =>
    if p > c.pmax ∨ p < c.pmin then .ret 0
    else if c.xileg = some xi then .next c (.sum 0 1 0)
    else .next c .w0
  | .w0 => writeLeg c 0 1 .w1
  | .w1 => if c.modes.length ≥ 1 then writeLeg c 1 xi (.rec1 (c.modes.length - 2) 0) else .next c (.rec1 (c.modes.length - 2) 0)
  | .rec1 0 _ => .next c .wx
  | .rec1 (k + 1) i =>
    match c.leg[i + 1]? with
    | some u => .next c (.rec2 k i u)
    | none => .next c .dead
  | .rec2 k i u =>
    match c.leg[i]? with
    | some v => .next c (.rec3 k i u v)
    | none => .next c .dead
  | .rec3 k i u v =>
    let n : K := (i : K) + 1
    writeLeg c (i + 2) ((2 * n + 1) / (n + 1) * xi * u - n / (n + 1) * v) (.rec1 k (i + 1))
  | .wx => .next { c with xileg := some xi } (.sum 0 1 0)
  | .sum i sgn s =>
    match c.modes[i]? with
    | none => .ret (if s ≤ 0 then 0 else s)
    | some f =>
      match c.leg[i]? with
      | some l => .next c (.sum (i + 1) (-sgn) (s + f p * l * sgn))
      | none => .next c .dead
  | .dead => .next c .dead

/-- A thread: the evaluations `(object, p, xi)` still to do, the one it is in, and the values returned
so far. -/
structure EvalThread (K : Type) where
  todo : List (Nat × K × K)
  cur : Option ((Nat × K × K) × EvalPc K)
  out : List K

/-- The objects, by number, and the threads, by number. -/
structure ParState (K : Type) where
  objs : Nat → Code K
  threads : Nat → EvalThread K

def setFn {α : Type} (f : Nat → α) (i : Nat) (x : α) : Nat → α := fun j => if j = i then x else f j

/-- Thread `k` does one step. -/
def parStep (s : ParState K) (k : Nat) : ParState K :=
  let t := s.threads k
  match t.cur with
  | none =>
    match t.todo with
    | [] => s
    | e :: es => ⟨s.objs, setFn s.threads k ⟨es, some (e, .start), t.out⟩⟩
  | some (e, pc) =>
    match evalStep (s.objs e.1) e.2.1 e.2.2 pc with
    | .next c pc' => ⟨setFn s.objs e.1 c, setFn s.threads k ⟨t.todo, some (e, pc'), t.out⟩⟩
    | .ret v => ⟨s.objs, setFn s.threads k ⟨t.todo, none, t.out ++ [v]⟩⟩

/-- A schedule: the thread that does the next step, each time. -/
def parRun (s : ParState K) : List Nat → ParState K
  | [] => s
  | k :: ks => parRun (parStep s k) ks

/-- All threads before their first step. -/
def parStart (objs : Nat → Code K) (tasks : Nat → List (Nat × K × K)) : ParState K :=
  ⟨objs, fun k => ⟨tasks k, none, []⟩⟩

end Softlib.Dist
