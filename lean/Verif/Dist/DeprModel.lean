/-
Model of the reader of distributions in the old SOFT format.

Source: /repo/src/DistributionFunction/deprSOFTDistributionFunction.cpp 38-57 (`Load`), 82-112 (`LoadMomentumSpace`),
124-231 (`__Load`), 257-285 (`Verify`); /repo/include/softlib/DistributionFunction/deprSOFTDistributionFunction.h 9;
/repo/include/softlib/constants.h 7 and 10.

The numbers of grid points are `unsigned int`, and so are their products; sizes in the file are 64 bits.  Numbers are
rational numbers of a format and the results of operations are rounded (RoundModel.lean); infinities and NaN are in
`verdictE`.  Build with `double`: the arrays are handed over, not copied.  A matrix of the file holds `rows * cols` numbers
in the order of its rows.  Memory that is not released is not modelled.
-/
import Verif.Dist.LoadModel
import Verif.General.RoundModel
import Verif.General.SpecialModel

namespace Softlib.Dist

open Softlib.General

/-- Conversion to `unsigned int`. -/
def toU32 (n : Nat) : Nat := n % 4294967296

/-- Sequence of steps of the reader. -/
def LRes.andThen {α β : Type} (x : LRes α) (k : α → LRes β) : LRes β :=
  match x with
  | .ub => .ub
  | .throws => .throws
  | .ok a => k a

/-! ### Verify -/

/-- Lines 275-281 for the entry `a` of the verification vector and the value `b`: true if the loop goes on. -/
def verdictR {u : ℚ} (R : Rnd u) (eps a b : ℚ) : Bool :=
  let err := |R.fl (a - b)|
  if a = 0 then !decide (err > eps) else !decide (R.fl (err / |a|) > eps)

open Classical in
/-- The same with infinities and NaN, without rounding. -/
noncomputable def verdictE (eps : ℝ) (a b : Special.EF) : Bool :=
  let err := (a - b).abs
  if Special.EF.eq a (.fin 0) then !decide (Special.EF.lt (.fin eps) err)
  else !decide (Special.EF.lt (.fin eps) (err / a.abs))

/-- The loop, 274-282.  `none`: a read outside the data. -/
def verifyWith {α : Type} (good : α → α → Bool) (v : List α) (step : Nat) : Nat → List α → Option Bool
  | _, [] => some true
  | i, a :: rest =>
    match v[i * step]? with
    | none => none
    | some b => if good a b then verifyWith good v step (i + 1) rest else some false

/-- `Verify`, 257-285, for the verification vector of the file (`none`: absent, or cannot be read). -/
def verifyMat {α : Type} (good : α → α → Bool) (v : List α) (n step : Nat) (f0 : Option (Mat α)) : LRes Bool :=
  match f0 with
  | none => .ok true
  | some m =>
    if m.rows = 1 ∧ m.cols ≤ n then
      match verifyWith good v step 0 m.data with
      | none => .ub
      | some b => .ok b
    else if m.cols = 1 ∧ m.rows ≤ n then
      match verifyWith good v step 0 m.data with
      | none => .ub
      | some b => .ok b
    else .throws

/-! ### The file -/

/-- What is read; `none`: absent. -/
structure DeprFile where
  r : Option (Mat ℚ)
  p : Option (Mat ℚ)
  xi : Option (Mat ℚ)
  f : Option (Mat ℚ)
  fp0 : Option (Mat ℚ)
  fxi0 : Option (Mat ℚ)
  fr0 : Option (Mat ℚ)
  punits : Option String

/-- `struct deprsoftdf_data`. -/
structure DeprData where
  nr : Nat
  np : Nat
  nxi : Nat
  r : List ℚ
  p : List ℚ
  xi : List ℚ
  f : List ℚ
  deriving DecidableEq

/-- `ELECTRON_MASS_EV`, as written. -/
def massEV : ℚ := 5109989461 / 10000

/-- `ELECTRON_MASS` and `LIGHTSPEED`, as written. -/
def massKg : ℚ := 910938356 / 10 ^ 39
def lightspeed : ℚ := 299792458

/-- A vector, 134-149: the data and the number of points as `unsigned int`. -/
def readVec (m : Option (Mat ℚ)) : LRes (Nat × List ℚ) :=
  match m with
  | none => .throws
  | some m =>
    match m.vecLen with
    | none => .throws
    | some n => .ok (toU32 n, m.data)

/-- The check of the size of `f`, 155-158. -/
def fShape (m : Mat ℚ) (nr np nxi : Nat) : Bool :=
  decide ((m.rows = nr ∧ m.cols = toU32 (np * nxi)) ∨
    (m.rows = 1 ∧ m.cols = toU32 (toU32 (np * nxi) * nr)) ∨
    (m.cols = 1 ∧ m.rows = toU32 (toU32 (np * nxi) * nr)))

/-- A verification that has to succeed, 161-166. -/
def mustVerify (x : LRes Bool) : LRes Unit :=
  match x with
  | .ub => .ub
  | .throws => .throws
  | .ok b => if b then .ok () else .throws

/-- The factor of the unit, 175-182. -/
def unitFactor {u : ℚ} (R : Rnd u) (s : String) : Option ℚ :=
  if s = "ev" then some (R.fl massEV)
  else if s = "normalized" then some 1
  else if s = "si" then some (R.fl (R.fl massKg * R.fl lightspeed))
  else none

/-- The momenta, 184-186: the first `np` elements are divided. -/
def scaleP {u : ℚ} (R : Rnd u) (normf : ℚ) (np : Nat) (p : List ℚ) : LRes (List ℚ) :=
  if normf = 1 then .ok p
  else if p.length < np then .ub
  else .ok ((p.take np).map (fun x => R.fl (x / normf)) ++ p.drop np)

/-- `__Load`, 124-231; `eps` is `DBL_EPSILON`. -/
def deprLoad {u : ℚ} (R : Rnd u) (eps : ℚ) (F : DeprFile) : LRes DeprData :=
  (readVec F.r).andThen fun r =>
  (readVec F.p).andThen fun p =>
  (readVec F.xi).andThen fun xi =>
  match F.f with
  | none => .throws
  | some f =>
    if fShape f r.1 p.1 xi.1 = false then .throws
    else
      (mustVerify (verifyMat (verdictR R eps) f.data p.1 1 F.fp0)).andThen fun _ =>
      (mustVerify (verifyMat (verdictR R eps) f.data xi.1 p.1 F.fxi0)).andThen fun _ =>
      (mustVerify (verifyMat (verdictR R eps) f.data r.1 (toU32 (p.1 * xi.1)) F.fr0)).andThen fun _ =>
      match F.punits with
      | none => .throws
      | some s =>
        match unitFactor R s with
        | none => .throws
        | some normf =>
          (scaleP R normf p.1 p.2).andThen fun ps =>
          .ok ⟨r.1, p.1, xi.1, r.2, ps, xi.2, f.data⟩

/-- The values `f + i*(np*nxi)` up to the next block: NumericDistributionFunction.cpp 158-166 and line 99 here.  `none`: a
read outside the array. -/
def DeprData.slice (d : DeprData) (i : Nat) : Option (List ℚ) :=
  let n := toU32 (d.np * d.nxi)
  let off := toU32 (i * n)
  if d.f.length < off + n then none else some ((d.f.drop off).take n)

/-- The values handed over by `LoadMomentumSpace`, 92-99. -/
def deprMomentum {u : ℚ} (R : Rnd u) (eps : ℚ) (F : DeprFile) (radindex : Nat) : LRes (List ℚ) :=
  (deprLoad R eps F).andThen fun d =>
    if radindex ≥ d.nr then .throws
    else
      match d.slice radindex with
      | none => .ub
      | some s => .ok s

/-- The slices for all radii. -/
def DeprData.slices (d : DeprData) : Option (List (List ℚ)) := (List.range d.nr).mapM d.slice

/-- `Load`, 38-57, without the logarithm; `mk` makes a momentum distribution from the grids and the values.  (With the
logarithm: `initializeLog` of LogModel.lean, the same radii.) -/
def deprLoadDist {u : ℚ} {M : Type} (R : Rnd u) (eps : ℚ) (mk : List ℚ → List ℚ → List ℚ → M) (F : DeprFile) : LRes (NDist M ℚ) :=
  (deprLoad R eps F).andThen fun d =>
    if d.r.length < d.nr then .ub
    else
      match d.slices with
      | none => .ub
      | some ss =>
        match NDist.initialize (d.r.take d.nr) (ss.map (mk d.p d.xi)) with
        | .ub => .ub
        | .throws => .throws
        | .ok x => .ok x

end Softlib.Dist
