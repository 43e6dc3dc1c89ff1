/-
The order in which the functions of an integrator are called.

Source: /repo/include/softlib/Integrator/Integrator.tcc 18-36 (constructors), 46-55 and RungeKutta.tcc 71-78 (`InitialValue`),
61-86 (`LastTime`, `LastSolution`, `LastDerivative`), 131 (`SetEquation`), 148-162 (`StoreSolution`), 171-195 (`TimeAt`,
`SolutionAt`, `DerivativeAt`); RungeKutta.tcc 86-112 (`Step`), 125-133, 192 (`ToggleDenseOutput`);
/repo/include/softlib/Integrator/RKDP45.tcc 55-82 (`PrepareDense`), 94-120 (`OutputDense`);
/repo/include/softlib/Integrator/GeneralEquation.tcc 11-37; /repo/include/softlib/Integrator.h 15-29 (the member `eqn` has no
initial value).

What is computed is left open: an accepted step comes with its time, a step that is not accepted throws.  Instead every entry of
the arrays carries where it comes from: the number of the integration (of the call of `InitialValue`), its place, its time, and
the function that the equation called.  Entries of the arrays that were never written, or lie outside of them, are not told
apart: to read either is undefined, `none`.  Equations are not destroyed before the integrator; the counters do not wrap
around.
-/

import Mathlib.Order.Defs.LinearOrder
import Mathlib.Logic.Function.Basic

namespace Softlib.Integrator.Order

/-- Where an entry comes from. -/
structure Entry (F α : Type) where
  /-- number of the integration -/
  of : Nat
  /-- place in it -/
  place : Nat
  t : α
  /-- the function that was called for the derivative -/
  by_ : F
  deriving DecidableEq

/-- The member `eqn`. -/
inductive Ref where
  | garbage
  | null
  | obj (k : Nat)

/-- The integrator, with the equations that were made. -/
structure St (F α : Type) where
  /-- objects `GeneralEquation`: the member `equation`, `none` is the null pointer -/
  eqs : List (Option F)
  eqn : Ref
  /-- `store_dense_coeffs` -/
  dense : Bool
  /-- the entries of `time` (and `solution`, `derivative`) that were written: always an initial part of the array -/
  arr : List (Entry F α)
  /-- `ntimesteps` -/
  n : Nat
  /-- the entries of `rcont1`, …, `rcont5` that were written: integration and step -/
  coef : Nat → Option (Nat × Nat)
  /-- how often an initial value was set; not a member -/
  runs : Nat

variable {F α : Type}

/-- The constructors of RKDP45, RungeKutta and Integrator (18-26). -/
def St.new : St F α := ⟨[], .garbage, true, [], 0, fun _ => none, 0⟩

/-- The function that `eqn->Evaluate` calls; `none`: undefined. -/
def St.function (s : St F α) : Option F :=
  match s.eqn with
  | .obj k => (s.eqs[k]?).join
  | _ => none

/-- `StoreSolution`, writing one entry of an array of which an initial part was written. -/
def write (l : List (Entry F α)) (i : Nat) (e : Entry F α) : List (Entry F α) :=
  if i < l.length then l.set i e else l ++ [e]

/-- What may be called. -/
inductive Call (F α : Type) where
  /-- a new GeneralEquation -/
  | equation (f : Option F)
  /-- `SetDerivative` of one of them -/
  | derivative (k : Nat) (f : Option F)
  /-- `SetEquation`; `none` is the null pointer -/
  | setEquation (k : Option Nat)
  | toggle (d : Bool)
  | initialValue
  /-- `Step`: the time of the accepted step, or none is accepted -/
  | step (t : Option α)
  | lastTime
  /-- `LastSolution` (or `LastDerivative`) and reading what it points to -/
  | lastSolution
  /-- `TimeAt`, or `SolutionAt` or `DerivativeAt` and reading what these point to -/
  | timeAt (i : Nat)
  | outputDense (ts : List α)

/-- What the caller gets. -/
inductive Ans (F α : Type) where
  | done
  /-- an exception -/
  | thrown
  /-- the value 0 of `LastTime` -/
  | zero
  | entry (e : Entry F α)
  /-- for every time the coefficients that were used: integration and step -/
  | poly (l : List (Nat × Nat))
  deriving DecidableEq

/-- RungeKutta.tcc 125-133 at the end of a step: the entry, and the coefficients if asked for. -/
def stored (s : St F α) (t : α) (f : F) : St F α :=
  ⟨s.eqs, s.eqn, s.dense, write s.arr s.n ⟨s.runs - 1, s.n, t, f⟩, s.n + 1,
    if s.dense then Function.update s.coef (s.n - 1) (some (s.runs - 1, s.n - 1)) else s.coef, s.runs⟩

/-- RungeKutta.tcc 71-78. -/
def begun [Zero α] (s : St F α) (f : F) : St F α := ⟨s.eqs, s.eqn, s.dense, write s.arr 0 ⟨s.runs, 0, 0, f⟩, 1, s.coef, s.runs + 1⟩

variable [LinearOrder α]

/-- The search loop, RKDP45.tcc 102-103; within `ntimesteps` all entries were written. -/
def seek (arr : List (Entry F α)) (n : Nat) (T : α) (it : Nat) : Nat :=
  if _h : it + 2 < n ∧ (arr[it + 1]?).any (fun e => decide (e.t < T)) then seek arr n T (it + 1) else it
termination_by n - it

/-- `OutputDense`, from interval `it0` on: `none` is undefined, an inner `none` the exception. -/
def output (s : St F α) : List α → Nat → Option (Option (List (Nat × Nat)))
  | [], _ => some (some [])
  | T :: ts, it0 =>
    let it := seek s.arr s.n T it0
    match s.arr[it + 1]? with
    | none => none
    | some e =>
      if e.t < T then some none
      else
        match s.coef it with
        | none => none
        | some c => (output s ts it).map fun r => r.map fun l => c :: l

/-- One call; `none` is undefined. -/
def call [Zero α] (s : St F α) : Call F α → Option (St F α × Ans F α)
  | .equation f => some ({ s with eqs := s.eqs ++ [f] }, .done)
  | .derivative k f => some ({ s with eqs := s.eqs.set k f }, .done)
  | .setEquation none => some ({ s with eqn := .null }, .done)
  | .setEquation (some k) => some ({ s with eqn := .obj k }, .done)
  | .toggle d => some ({ s with dense := d }, .done)
  | .initialValue => s.function.map fun f => (begun s f, .done)
  | .step t =>
    if s.n = 0 then none
    else s.function.map fun f =>
      match t with
      | none => (s, .thrown)
      | some t => (stored s t f, .done)
  | .lastTime => if s.n = 0 then some (s, .zero) else (s.arr[s.n - 1]?).map fun e => (s, .entry e)
  | .lastSolution => if s.n = 0 then none else (s.arr[s.n - 1]?).map fun e => (s, .entry e)
  | .timeAt i => (s.arr[i]?).map fun e => (s, .entry e)
  | .outputDense ts => (output s ts 0).map fun r => (s, match r with | none => .thrown | some l => .poly l)

/-- Many calls; the answers. -/
def calls [Zero α] (s : St F α) : List (Call F α) → Option (St F α × List (Ans F α))
  | [] => some (s, [])
  | c :: cs => (call s c).bind fun p => (calls p.1 cs).map fun q => (q.1, p.2 :: q.2)

end Softlib.Integrator.Order
