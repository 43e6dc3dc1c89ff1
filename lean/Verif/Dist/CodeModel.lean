/-
Model of the CODE distribution function: Legendre modes, evaluation with its cache, conversion.

Source: /repo/src/DistributionFunction/CODEDistributionFunction.cpp 184-198
(`ComputeLegendrePolynomials`), 238-259 (`Eval`), 264-273 (`GetPMax`, `GetPMin`), 279-290
(`Initialize`), 342-348 (`MinClone`), 362-404 (`ToMomentumSpace`), 140-151 (time index in `Load`).

Exact arithmetic in an ordered field.  Arrays are lists of the allocated size; access outside is
`none` (undefined behaviour).  The interpolation of mode `i` in momentum (GSL) is an arbitrary
function of `p`, `modes[i]`.  Allocation of the interpolation objects is in `interpSlots`.
-/
import Mathlib.Algebra.Field.Basic
import Mathlib.Algebra.Order.Field.Basic

namespace Softlib.Dist

variable {K : Type} [Field K]

/-- An array write. -/
def setAt (a : List K) (i : Nat) (v : K) : Option (List K) := if i < a.length then some (a.set i v) else none

/-- The loop, 194-197: `k` iterations from `i`. -/
def legLoop (xi : K) : Nat → Nat → List K → Option (List K)
  | 0, _, a => some a
  | k + 1, i, a =>
    match a[i + 1]?, a[i]? with
    | some u, some v =>
      let n : K := (i : K) + 1
      match setAt a (i + 2) ((2 * n + 1) / (n + 1) * xi * u - n / (n + 1) * v) with
      | some a' => legLoop xi k (i + 1) a'
      | none => none
    | _, _ => none

/-- `ComputeLegendrePolynomials`, 184-198, writing to the array `leg`. -/
def computeLegendre (leg : List K) (xi : K) (nleg : Nat) : Option (List K) :=
  match setAt leg 0 1 with
  | none => none
  | some a =>
    match (if nleg ≥ 1 then setAt a 1 xi else some a) with
    | none => none
    | some b => legLoop xi (nleg - 2) 0 b

/-- Members used by the evaluation.  `xileg = none` is the NaN of the constructor, which differs from
every number. -/
structure Code (K : Type) where
  p0 : K
  pN : K
  modes : List (K → K)
  leg : List K
  xileg : Option K

variable [LinearOrder K]

def Code.pmax (c : Code K) : K := if c.pN > c.p0 then c.pN else c.p0
def Code.pmin (c : Code K) : K := if c.pN > c.p0 then c.p0 else c.pN

/-- The sum of lines 251-254, with alternating sign `s`. -/
def altSum : K → List K → List K → K
  | _, [], _ => 0
  | _, _, [] => 0
  | s, f :: fs, l :: ls => f * l * s + altSum (-s) fs ls

/-- `Eval`, 238-259: value and new state. -/
def Code.eval (c : Code K) (p xi : K) : Option (K × Code K) :=
  if p > c.pmax ∨ p < c.pmin then some (0, c)
  else
    let c' : Option (Code K) :=
      if c.xileg = some xi then some c
      else (computeLegendre c.leg xi c.modes.length).map fun l => { c with leg := l, xileg := some xi }
    match c' with
    | none => none
    | some c' =>
      let s := altSum 1 (c'.modes.map fun f => f p) c'.leg
      some (if s ≤ 0 then 0 else s, c')

/-- The pitch loop of `ToMomentumSpace`, 375-390: for each pitch the modes are computed in the member
array and the values at the momenta `js` are summed from the nodal values `nodes j` of the modes. -/
def Code.tabulate (nodes : Nat → List K) (np : Nat) (logarithmic : Bool) : Code K → List K → Option (List K × Code K)
  | c, [] => some ([], c)
  | c, x :: rest =>
    match computeLegendre c.leg x c.modes.length with
    | none => none
    | some l =>
      let row := (List.range np).map fun j =>
        let v := altSum 1 (nodes j) l
        if logarithmic = true ∧ v < 0 then 0 else v
      match Code.tabulate nodes np logarithmic { c with leg := l } rest with
      | none => none
      | some (rows, c') => some (row ++ rows, c')

/-- `Initialize`, 279-290: the array of Legendre values has arbitrary contents. -/
def Code.new (p0 pN : K) (modes : List (K → K)) (garbage : List K) : Code K := ⟨p0, pN, modes, garbage, none⟩

/-- `MinClone`, 342-348. -/
def Code.clone (c : Code K) (garbage : List K) : Code K := Code.new c.p0 c.pN c.modes garbage

/-- `InitInterpolation`, 300-330: `interp` has `np` entries and entry `i` is written for every
`i < nleg`.  True if all writes are inside. -/
def interpSlots (np nleg : Nat) : Bool := (List.range nleg).all fun i => decide (i < np)

/-- The time index of `Load`, 145-151: `none` is the exception. -/
def codeTime (ntimes : Nat) (time : Int) : Option Int :=
  let t := if time < 0 then (ntimes : Int) + time else time
  if t ≥ ntimes ∨ t < 0 then none else some t

end Softlib.Dist
