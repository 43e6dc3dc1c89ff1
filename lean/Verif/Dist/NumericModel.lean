/-
Model of the numeric distribution function: radial grid search, evaluation and construction.

Source: /repo/src/DistributionFunction/NumericDistributionFunction.cpp 28-72 (`Eval`), 84-110
(`__FindNearestR`), 130-167 (`Initialize`), 231-265 (`InsertMomentumSpaceDistribution`), 308-318
(`MinClone`); /repo/src/DistributionFunction/GOCODEDistributionFunction.cpp 35-72 (`Eval`), 84-109
(`__FindNearestR`), 114-118 (`Initialize`), 207-221 (`MinClone`).

Exact arithmetic in an ordered field `K`.  Momentum-space distributions are an arbitrary type `M`
with an evaluation `ev : M → P → K`, `P` being the type of (p, xi).  Reading outside a vector and
overflow of `int` are undefined behaviour.
-/
import Mathlib.Algebra.Field.Basic
import Mathlib.Algebra.Order.Field.Basic

namespace Softlib.Dist

variable {K : Type} [Field K] [LinearOrder K] {M P : Type}

/-- The bisection, lines 93-100.  `none`: `iu+il` overflows. -/
def searchLoop (asc : Bool) (g : List K) (x : K) (il iu : Nat) : Option Nat :=
  if iu - il > 1 then
    if iu + il > 2147483647 then none
    else
      match g[(iu + il) / 2]? with
      | none => none
      | some v =>
        if decide (x ≥ v) = asc then searchLoop asc g x ((iu + il) / 2) iu
        else searchLoop asc g x il ((iu + il) / 2)
  else some il
termination_by iu - il
decreasing_by all_goals omega

/-- `__FindNearestR`, 84-110.  The test `il > nnr-1` never holds.  The size is converted to `int`;
sizes above 2^31-1 are not considered. -/
def findNearest (g : List K) (x : K) : Option Int :=
  match g with
  | [] => some (-1)
  | [_] => some 0
  | g0 :: g1 :: rest =>
    match searchLoop (decide (g1 > g0)) (g0 :: g1 :: rest) x 0 (rest.length + 1) with
    | none => none
    | some il =>
      if x < g0 then some (-1)
      else if x > (g1 :: rest).getLast (by simp) then some (rest.length + 1)
      else some il

/-- Outcome of an evaluation. -/
inductive EvalRes (K : Type) where
  | ub
  | throws
  /-- division by zero: infinity or NaN -/
  | divZero
  | ok (v : K)

/-- Members. -/
structure NDist (M K : Type) where
  r : List K
  msdf : List M
  rmin : K
  rmax : K
  allow : Bool

/-- A new object (rmin, rmax are not initialised; zero here, no theorem depends on it). -/
def NDist.empty : NDist M K := ⟨[], [], 0, 0, true⟩

/-- Line 71. -/
def lerp (r0 r1 f0 f1 rho : K) : EvalRes K :=
  if r1 - r0 = 0 then .divZero else .ok (((r1 - rho) * f0 + (rho - r0) * f1) / (r1 - r0))

/-- The branch for the first interval and below, 50-57. -/
def evalFirst (ev : M → P → K) (d : NDist M K) (p : P) (rho : K) : EvalRes K :=
  match d.r[0]?, d.r[1]?, d.msdf[0]?, d.msdf[1]? with
  | some r1, some r2, some m1, some m2 =>
    if r2 - r1 = 0 then .divZero
    else lerp 0 r1 ((r2 * ev m1 p - r1 * ev m2 p) / (r2 - r1)) (ev m1 p) rho
  | _, _, _, _ => .ub

/-- The branch above the grid, 58-63. -/
def evalLast (ev : M → P → K) (d : NDist M K) (p : P) (rho : K) : EvalRes K :=
  match d.r[d.r.length - 1]?, d.r[d.r.length - 2]?, d.msdf[d.r.length - 1]?, d.msdf[d.r.length - 2]? with
  | some r0, some r', some m0, some m' =>
    lerp r0 (r0 + (2 * r0 - r')) (ev m0 p) (2 * ev m0 p - ev m' p) rho
  | _, _, _, _ => .ub

/-- The branch between two radii, 64-69. -/
def evalMid (ev : M → P → K) (d : NDist M K) (p : P) (rho : K) (i : Nat) : EvalRes K :=
  match d.r[i]?, d.r[i + 1]?, d.msdf[i]?, d.msdf[i + 1]? with
  | some r0, some r1, some m0, some m1 => lerp r0 r1 (ev m0 p) (ev m1 p) rho
  | _, _, _, _ => .ub

/-- The branch for one radius, 43-48. -/
def evalOne (ev : M → P → K) (d : NDist M K) (p : P) (rho : K) : EvalRes K :=
  match d.msdf[0]? with
  | some m => lerp rho 0 (ev m p) 0 rho
  | none => .ub

/-- `Eval`, 28-72. -/
def NDist.eval (ev : M → P → K) (d : NDist M K) (r : K) (p : P) (shift : K) : EvalRes K :=
  let rho := r - shift
  if d.allow = false ∧ (rho < d.rmin ∨ rho > d.rmax) then .throws
  else
    match findNearest d.r rho with
    | none => .ub
    | some ir =>
      if d.r.length = 1 then evalOne ev d p rho
      else if ir ≤ 0 then evalFirst ev d p rho
      else if ir.toNat ≥ d.r.length - 1 then evalLast ev d p rho
      else evalMid ev d p rho ir.toNat

/-- `InsertMomentumSpaceDistribution`, 231-250.  `none` is undefined behaviour. -/
def NDist.insert (d : NDist M K) (r : K) (m : M) : Option (NDist M K) :=
  match findNearest d.r r with
  | none => none
  | some ir =>
    let i := (ir + 1).toNat
    if i > d.msdf.length then none
    else
      some { r := if ir = -1 then d.r ++ [r] else d.r.insertIdx i r
             msdf := d.msdf.insertIdx i m
             rmin := if d.r.length = 0 then r else if r > d.rmax then d.rmin else if r < d.rmin then r else d.rmin
             rmax := if d.r.length = 0 then r else if r > d.rmax then r else d.rmax
             allow := d.allow }

/-- A sequence of insertions. -/
def NDist.insertAll : NDist M K → List (K × M) → Option (NDist M K)
  | d, [] => some d
  | d, (r, m) :: rest =>
    match d.insert r m with
    | none => none
    | some d' => NDist.insertAll d' rest

/-- The check of lines 142-144 for the rest of the grid after `a`. -/
def monotoneFrom (asc : Bool) : K → List K → Bool
  | _, [] => true
  | a, b :: rest => if (asc = true ∧ a ≥ b) ∨ (asc = false ∧ a ≤ b) then false else monotoneFrom asc b rest

/-- Outcome of `Initialize`. -/
inductive InitRes (M K : Type) where
  | ub
  | throws
  | ok (d : NDist M K)

/-- `Initialize`, 130-167, on a new object; `ms` are the momentum distributions made from the
slices of `f`, one for each radius.  The loop that copies the radii starts at the second. -/
def NDist.initialize (rs : List K) (ms : List M) : InitRes M K :=
  match rs with
  | [] => .ub
  | r0 :: rest =>
    let asc : Bool := match rest with
      | r1 :: _ :: _ => decide (r1 ≥ r0)
      | _ => true
    if monotoneFrom asc r0 rest = false then .throws
    else
      let last := (r0 :: rest).getLast (by simp)
      .ok { r := rest, msdf := ms, rmin := if r0 > last then last else r0, rmax := if r0 > last then r0 else last, allow := true }

/-- `MinClone`, 308-318; `mc` is the clone of a momentum distribution. -/
def NDist.clone (mc : M → M) (d : NDist M K) : Option (NDist M K) :=
  if d.msdf.length < d.r.length then none
  else NDist.insertAll NDist.empty ((d.r.zip d.msdf).map fun q => (q.1, mc q.2))

/-! ### GO+CODE -/

/-- GOCODE `__FindNearestR`, 84-109: as above without the test for an empty grid (`rho[1]` is read:
undefined). -/
def gFindNearest (g : List K) (x : K) : Option Int :=
  if g.isEmpty then none else findNearest g x

/-- GOCODE `Eval`, 35-72.  The index is converted to `unsigned int`, so that -1 becomes 2^32-1 and
goes to the branch above the grid. There is no branch for one radius. `rho` and `code` have the
same length; the members of the extrapolation check are as above. -/
def gEval (ev : M → P → K) (d : NDist M K) (r : K) (p : P) (shift : K) : EvalRes K :=
  let rho := r - shift
  if d.allow = false ∧ (rho < d.rmin ∨ rho > d.rmax) then .throws
  else
    match gFindNearest d.r rho with
    | none => .ub
    | some ir =>
      let u : Nat := if ir < 0 then 4294967295 else ir.toNat
      if u = 0 then evalFirst ev d p rho
      else if u ≥ d.r.length - 1 then evalLast ev d p rho
      else evalMid ev d p rho u

/-- GOCODE `MinClone`, 207-221: grid and distributions are copied, `rhomin`, `rhomax` are not set
(zero here) and extrapolation is allowed. -/
def gClone (mc : M → M) (d : NDist M K) : NDist M K := ⟨d.r, d.msdf.map mc, 0, 0, true⟩

end Softlib.Dist
