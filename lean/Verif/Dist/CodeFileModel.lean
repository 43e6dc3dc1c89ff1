/-
Model of the reader of CODE distributions, and of what their interpolation requires.

Source: /repo/src/DistributionFunction/CODEDistributionFunction.cpp 70-180 (`Load`), 238-259 (`Eval`, in CodeModel), 279-290
(`Initialize`), 299-336 (`InitInterpolation`); the types of interpolation CODEDistributionFunction.h 52-60.

The file is given by the matrices that the SFile object returns (`none`: no such variable); a matrix without rows is undefined
behaviour of the reader of matrices itself (C76).  Exact real arithmetic, with the outcome `nonfinite` where the normalisation is no
number.  Sizes that do not fit an `int` are the outcome `large`, and not followed further.  Memory is CodeMemModel.

Of the GNU Scientific Library (interp.c, linear.c, accel.c and the `min_size` of the types): every type has a least number of points,
and the abscissae must increase strictly; otherwise the error handler aborts the program.  Linear interpolation is written out; the
other types are left open (`spl`).
-/
import Verif.Dist.LoadModel
import Verif.Magnetic.LukeModel
import Mathlib.Analysis.Real.Pi.Bounds

namespace Softlib.Dist

noncomputable section

/-- Outcome. -/
inductive CodeRes (α : Type) where
  | ub
  | aborts
  | nonfinite
  | large
  | throws
  | ok (a : α)

def CodeRes.bind {α β : Type} (r : CodeRes α) (k : α → CodeRes β) : CodeRes β :=
  match r with
  | .ub => .ub
  | .aborts => .aborts
  | .nonfinite => .nonfinite
  | .large => .large
  | .throws => .throws
  | .ok a => k a

/-- The variables of a file. -/
structure CodeFile where
  y : Option (Mat ℝ)
  delta : Option (Mat ℝ)
  nref : Option (Mat ℝ)
  Tref : Option (Mat ℝ)
  Nxi : Option (Mat ℝ)
  f : Option (Mat ℝ)

/-- `GetDoubles`. -/
def codeGet : Option (Mat ℝ) → CodeRes (Mat ℝ)
  | none => .throws
  | some m => if m.rows = 0 then .ub else .ok m

/-- A number, 87-89 and the like. -/
def codeNumber (m : Option (Mat ℝ)) : CodeRes ℝ :=
  (codeGet m).bind fun m =>
    if m.rows ≠ 1 ∨ m.cols ≠ 1 then .throws
    else
      match m.data[0]? with
      | none => .ub
      | some v => .ok v

/-- An optional number, 92-117. -/
def codeReference : Option (Mat ℝ) → CodeRes ℝ
  | none => .ok 1
  | some m => codeNumber (some m)

/-- `(int)` of a `double`. -/
def realToInt (x : ℝ) : Option Int :=
  let t := if 0 ≤ x then ⌊x⌋ else ⌈x⌉
  if -2147483648 ≤ t ∧ t < 2147483648 then some t else none

/-- Linear interpolation of GSL: `linear_eval`.  The last line is not reached by arrays that GSL accepts. -/
def linear1 (xs ys : List ℝ) (x : ℝ) : ℝ :=
  let i := Magnetic.cellOf xs x
  match xs[i]?, xs[i + 1]?, ys[i]?, ys[i + 1]? with
  | some x0, some x1, some y0, some y1 => y0 + (x - x0) / (x1 - x0) * (y1 - y0)
  | _, _, _, _ => 0

/-- The least number of points of a type of interpolation; `none`: not one of the types. -/
def codeLeast (itype : Int) : Option Nat :=
  if itype = 0 then some 2        -- linear
  else if itype = 1 then some 3   -- polynomial
  else if itype = 2 then some 3   -- cubic spline
  else if itype = 3 then some 3   -- periodic cubic spline: allocated with 2, but the cyclic system is refused then
  else if itype = 4 then some 5   -- Akima
  else if itype = 5 then some 5   -- periodic Akima
  else if itype = 6 then some 3   -- Steffen
  else none

/-- The interpolation of one mode. -/
def codeMode (spl : Int → List ℝ → List ℝ → ℝ → ℝ) (itype : Int) (pp ff : List ℝ) (i : Nat) : ℝ → ℝ :=
  let ys := (ff.drop (i * pp.length)).take pp.length
  if itype = 0 then linear1 pp ys else spl itype pp ys

open Classical in
/-- The loop of `InitInterpolation`, 309-334: `k` modes from mode `i` on.  The array of objects has as many elements as there are
momenta. -/
def codeInterp (spl : Int → List ℝ → List ℝ → ℝ → ℝ) (itype : Int) (pp ff : List ℝ) : Nat → Nat → CodeRes (List (ℝ → ℝ))
  | 0, _ => .ok []
  | k + 1, i =>
    match codeLeast itype with
    | none => .throws
    | some least =>
      if pp.length < least then .aborts
      else if pp.length ≤ i then .ub
      else if ¬ Magnetic.increasing pp then .aborts
      else (codeInterp spl itype pp ff k (i + 1)).bind fun ms => .ok (codeMode spl itype pp ff i :: ms)

/-- `Load`, 70-180, with `Initialize`, 279-290.  `me` is the mass of the electron, `garbage n` the contents of a new array of `n`
elements.  The first and the last momentum are 0 here if there are no momenta (then there are no modes either). -/
def codeLoad (me : ℝ) (spl : Int → List ℝ → List ℝ → ℝ → ℝ) (garbage : Nat → List ℝ) (F : CodeFile) (time itype : Int) :
    CodeRes (Code ℝ) :=
  (codeGet F.y).bind fun y =>
  match y.vecLen with
  | none => .throws
  | some np =>
  if 2147483648 ≤ np then .large else
  (codeNumber F.delta).bind fun delta =>
  (codeReference F.nref).bind fun nref =>
  (codeReference F.Tref).bind fun Tref =>
  (codeNumber F.Nxi).bind fun Nxi =>
  match realToInt Nxi with
  | none => .ub
  | some nleg =>
  if y.data.length < np then .ub else
  let pp := (y.data.take np).map (· * delta)
  (codeGet F.f).bind fun f =>
  if (f.cols : Int) ≠ ((np : Int) * nleg) % 18446744073709551616 then .throws else
  if 2147483648 ≤ f.rows then .large else
  match codeTime f.rows time with
  | none => .throws
  | some t =>
  let total := (np : Int) * nleg
  if total < -2147483648 ∨ 2147483648 ≤ total then .ub else
  if total < 0 then .throws else
  let d := 2 * Real.pi * me * Tref
  if d ≤ 0 ∧ 0 < total then .nonfinite else
  let norm := nref / (Real.sqrt d * d)
  let row := (f.data.drop (t.toNat * f.cols)).take total.toNat
  if row.length < total.toNat then .ub else
  let ff := row.map (· * norm)
  let modes := (nleg % 4294967296).toNat
  (codeInterp spl itype pp ff modes 0).bind fun ms =>
    .ok (Code.new (pp.headD 0) (pp.getLastD 0) ms (garbage modes))

end

end Softlib.Dist
