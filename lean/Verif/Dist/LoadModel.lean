/-
Model of the loaders of distribution files.

Source: /repo/src/DistributionFunction/SOFTDistributionFunction.cpp 35-64 (`Load`), 142-197
(`__Load`), 209-265 (`__LoadRadius`); DREAMDistributionFunction.cpp 37-43 (destructor), 54-80
(`Load`), 129-192 (end of `__Load`); GOCODEDistributionFunction.cpp 133-202 (`Load`);
LUKEDistributionFunction.cpp 118-217 (`__Load`, radial grid and dimensions);
deprSOFTDistributionFunction.cpp `__Load` (dimensions) and `Verify`.

The file is given by the values that the SFile object returns (its readers are modelled in
Verif/SFile); a matrix is its numbers of rows and columns and its values in row order.  Exact
arithmetic in an ordered field `K`.  Memory that is leaked is not modelled.  `axis = none` is the
null pointer that is the default argument for the magnetic field.
-/
import Verif.Dist.NumericModel
import Verif.Dist.CodeModel

namespace Softlib.Dist

variable {K : Type} [Field K] [LinearOrder K] {M : Type}

/-- Outcome of a loader. -/
inductive LRes (α : Type) where
  | ub
  | throws
  | ok (a : α)
  deriving DecidableEq

/-- A matrix read by `GetDoubles`. -/
structure Mat (K : Type) where
  rows : Nat
  cols : Nat
  data : List K

/-- The length of a matrix used as a vector: SOFT 155-158 and everywhere else.  `none`: exception. -/
def Mat.vecLen (m : Mat K) : Option Nat :=
  if m.rows = 1 then some m.cols else if m.cols = 1 then some m.rows else none

/-- The loop that shifts and checks the radii, SOFT 188-193, DREAM 184-189, GO+CODE 166-171, from the
second radius on; `prev` is the shifted previous radius. -/
def shiftRest (axis prev : K) : List K → Option (List K)
  | [] => some []
  | x :: rest =>
    if x + axis ≤ prev then none
    else
      match shiftRest axis (x + axis) rest with
      | none => none
      | some l => some ((x + axis) :: l)

/-- The whole loop.  `none`: exception. -/
def shiftRadii (axis : K) : List K → Option (List K)
  | [] => some []
  | x :: rest =>
    match shiftRest axis (x + axis) rest with
    | none => none
    | some l => some ((x + axis) :: l)

/-- The same loop with a field that may be the null pointer. -/
def shiftBy (axis : Option K) (r : List K) : LRes (List K) :=
  match axis, r with
  | _, [] => .ok []
  | none, _ :: _ => .ub
  | some a, r =>
    match shiftRadii a r with
    | none => .throws
    | some l => .ok l

/-! ### SOFT -/

/-- The data of one radius. -/
structure RadiusData (K : Type) where
  p : Mat K
  xi : Mat K
  f : Mat K

/-- `__LoadRadius`, 209-265: the checks of the dimensions.  True if the data are accepted. -/
def RadiusData.check (d : RadiusData K) : Bool :=
  match d.p.vecLen, d.xi.vecLen with
  | some np, some nxi => decide (d.f.rows = nxi ∧ d.f.cols = np)
  | _, _ => false

/-- `Load` and `__Load`: the type string if present, the radii, the data of each radius (`mk` makes
the momentum distribution), the shift, the insertions in the order of the file. -/
def softLoad (magic : String) (type : Option String) (rmat : Mat K) (radii : List (RadiusData K)) (axis : Option K)
    (mk : RadiusData K → M) : LRes (NDist M K) :=
  if type.isSome = true ∧ type ≠ some magic then .throws
  else
    match rmat.vecLen with
    | none => .throws
    | some nr =>
      if radii.length < nr then .throws            -- a group is missing: the reader throws
      else if (radii.take nr).all (fun d => d.check) = false then .throws
      else if rmat.data.length < nr then .ub
      else
        match shiftBy axis (rmat.data.take nr) with
        | .ub => .ub
        | .throws => .throws
        | .ok rs =>
          match NDist.insertAll NDist.empty (rs.zip ((radii.take nr).map mk)) with
          | none => .ub
          | some d => .ok d

/-! ### DREAM -/

/-- Arithmetic of `sfilesize_t`. -/
def u64 (x : Int) : Nat := (x % 18446744073709551616).toNat

/-- The time index, 137-148: the offset in the data, or the exception. -/
def dreamOffset (nt nr np nxi : Nat) (timestep : Int) : Option Nat :=
  let ti : Nat :=
    if timestep < 0 then u64 (u64 (nt + timestep) * nr * np * nxi) else u64 (timestep * nr * np * nxi)
  if ti > u64 ((nt : Int) * nr * np * nxi) then none else some ti

/-- The slice of the data from which the distributions are made, 156 and 60-79; reading past the end
is undefined. -/
def dreamSlice (data : List K) (nt nr np nxi : Nat) (timestep : Int) : LRes (List K) :=
  match dreamOffset nt nr np nxi timestep with
  | none => .throws
  | some off => if data.length < off + nr * np * nxi then .ub else .ok ((data.drop off).take (nr * np * nxi))

/-- The destructor, 37-43: the pointer `f` that is released is `tf + offset`, where `tf` was
allocated.  True if it is an allocated pointer. -/
def dreamDestroyOk (off : Nat) : Bool := off == 0

/-- `__Load` after the names are resolved: dimensions, time index, shift; then the insertions. -/
def dreamLoad (fdims : List Nat) (data : List K) (nt : Nat) (r : List K) (np nxi : Nat) (timestep : Int)
    (axis : Option K) (mk : List K → M) : LRes (NDist M K) :=
  match fdims with
  | [_, d1, d2, d3] =>
    if d1 ≠ r.length ∨ d2 ≠ nxi ∨ d3 ≠ np then .throws
    else
      match dreamSlice data nt r.length np nxi timestep with
      | .ub => .ub
      | .throws => .throws
      | .ok f =>
        match shiftBy axis r with
        | .ub => .ub
        | .throws => .throws
        | .ok rs =>
          let slices := (List.range r.length).map fun i => mk ((f.drop (i * (np * nxi))).take (np * nxi))
          match NDist.insertAll NDist.empty (rs.zip slices) with
          | none => .ub
          | some d => .ok d
  | _ => .throws

/-! ### GO+CODE -/

/-- `Load`, 133-202.  `code t i` is the CODE distribution in group `t<t>/r<i>/`, which may fail to
load. -/
def goLoad (magic : String) (type : Option String) (rmat : Mat K) (ntimes : Nat) (time : Int) (axis : Option K)
    (code : Int → Nat → Option M) : LRes (NDist M K) :=
  if type.isSome = true ∧ type ≠ some magic then .throws
  else
    match rmat.vecLen with
    | none => .throws
    | some nr =>
      if rmat.data.length < nr then .ub
      else
        match shiftBy axis (rmat.data.take nr) with
        | .ub => .ub
        | .throws => .throws
        | .ok [] => .ub                           -- rho[0] of an empty array
        | .ok (r0 :: rs) =>
          match codeTime ntimes time with
          | none => .throws
          | some t =>
            match (List.range nr).mapM (code t) with
            | none => .throws
            | some ms => .ok ⟨r0 :: rs, ms, r0, (r0 :: rs).getLast (by simp), true⟩

/-! ### LUKE -/

/-- The radial grid, 128-136: from normalised radius to major radius. -/
def lukeRadii (minr maxr : K) (r : List K) : List K := r.map fun x => minr + x * (maxr - minr)

/-! ### deprSOFT -/

/-- `Verify`, for the verification vector `f0` (`none`: not in the file) against the data `v`, with
machine epsilon `eps`.  `none` inside: a read outside the data. -/
def verifyLoop (eps : K) (v : List K) (step : Nat) : Nat → List K → Option Bool
  | _, [] => some true
  | i, a :: rest =>
    match v[i * step]? with
    | none => none
    | some b =>
      let err := |a - b|
      if a = 0 then
        if err > eps then some false else verifyLoop eps v step (i + 1) rest
      else
        if err / |a| > eps then some false else verifyLoop eps v step (i + 1) rest

/-- The whole function. -/
def deprVerify (eps : K) (v : List K) (n step : Nat) (f0 : Option (Mat K)) : LRes Bool :=
  match f0 with
  | none => .ok true
  | some m =>
    let len : Option Nat := if m.rows = 1 ∧ m.cols ≤ n then some m.cols
      else if m.cols = 1 ∧ m.rows ≤ n then some m.rows else none
    match len with
    | none => .throws
    | some l =>
      if m.data.length < l then .ub
      else
        match verifyLoop eps v step 0 (m.data.take l) with
        | none => .ub
        | some b => .ok b

end Softlib.Dist
