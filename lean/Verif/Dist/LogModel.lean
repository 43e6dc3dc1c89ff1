/-
Model of numeric distribution functions made from the logarithm of their values.

Source: /repo/src/DistributionFunction/NumericDistributionFunction.cpp 130-167 (`Initialize`, the
momentum distributions), 191-215 (`InitializeLog`), 253-265 and 276-302
(`InsertMomentumSpaceDistribution`, `InsertMomentumSpaceDistributionLog`);
/repo/include/softlib/DistributionFunction/NumericMomentumSpaceDistributionFunction.h 53
(`SetLogarithmic`).

Floating point values are numbers, minus infinity or NaN (`FV`).  The array of the caller is a list;
what it is afterwards is part of the result.  Not modelled: the state of the object and the array
after an exception, and the array that is leaked with `alloc`.
-/
import Verif.Dist.LoadModel
import Verif.Dist.MomentumModel
import Mathlib.Data.Real.Basic

namespace Softlib.Dist

noncomputable section

/-- Lines 204-209 and 288-293: the logarithm, minus infinity for values that are not positive (NaN
stays NaN). -/
def clampLog : FV → FV
  | .nan => .nan
  | .negInf => .negInf
  | .num v => if v ≤ 0 then .negInf else .num (Real.log v)

/-- Outcome. -/
inductive GRes (α : Type) where
  | ub
  /-- error handler of GSL -/
  | aborts
  | throws
  | ok (a : α)

/-- `SetLogarithmic(true)`. -/
def NMom.setLog (m : NMom) : NMom := { m with logarithmic := true }

/-- The momentum distributions of `Initialize`, 158-166, for the slices of the array, and the loop
of lines 213-214. -/
def initSlices (p xi : List ℝ) (it : Int) : List (List FV) → GRes (List NMom)
  | [] => .ok []
  | s :: rest =>
    match NMom.initialize ⟨p, xi, s, it⟩ false false with
    | .ub => .ub
    | .aborts => .aborts
    | .throws => .throws
    | .ok m =>
      match initSlices p xi it rest with
      | .ub => .ub
      | .aborts => .aborts
      | .throws => .throws
      | .ok ms => .ok (m.setLog :: ms)

/-- The slices `f + i*(np*nxi)`. -/
def slicesOf (nr n : Nat) (f : List FV) : List (List FV) := (List.range nr).map fun i => (f.drop (i * n)).take n

/-- `InitializeLog`, 191-215, on a new object: the distribution and the array of the caller.  With
`alloc` and two radii or more, line 201 computes with elements of the new array that have no value
yet, which is undefined. -/
def initializeLog (alloc : Bool) (rs p xi : List ℝ) (f : List FV) (it : Int) : GRes (NDist NMom ℝ × List FV) :=
  if alloc = true ∧ rs.length ≥ 2 then .ub
  else if f.length < rs.length * (p.length * xi.length) then .ub
  else
    match (NDist.initialize rs ([] : List NMom)) with
    | .ub => .ub
    | .throws => .throws
    | .ok d =>
      match initSlices p xi it (slicesOf rs.length (p.length * xi.length) (f.map clampLog)) with
      | .ub => .ub
      | .aborts => .aborts
      | .throws => .throws
      | .ok ms => .ok ({ d with msdf := ms }, if alloc then f else f.map clampLog)

/-- `InsertMomentumSpaceDistributionLog`, 276-302.  Line 296 passes the array of the caller, which
has the logarithms only without `alloc`. -/
def insertLog (alloc : Bool) (d : NDist NMom ℝ) (r : ℝ) (p xi : List ℝ) (f : List FV) (it : Int) :
    GRes (NDist NMom ℝ × List FV) :=
  if f.length < p.length * xi.length then .ub
  else
    let caller := if alloc then f else f.map clampLog
    match NMom.initialize ⟨p, xi, caller, it⟩ false false with
    | .ub => .ub
    | .aborts => .aborts
    | .throws => .throws
    | .ok m =>
      match d.insert r m.setLog with
      | none => .ub
      | some d' => .ok (d', caller)

end

end Softlib.Dist
