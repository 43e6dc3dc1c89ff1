/-
Model of the numeric magnetic field.

Source: /repo/src/MagneticField/MagneticFieldNumeric2D.cpp 115-165 (`Clone`), 175-196
(`FindMaxRadius`, `FindMinRadius`), 213-256 (`Init`), 262-291 (`InitInterpolation`), 300-321
(`Eval`), 333-395 (`__EvalJacobian`), 397-431 (`EvalDerivatives`), 439-475 (flux), 488-700
(`Load`, `Transpose`), 737-792 (`Save`); /repo/src/SFile/SFile_SDT.cpp 381-383,
/repo/src/SFile/SFile_HDF5.cpp 195-226 (`GetDoubles`), 253-279 (`GetDoubles1D`), 423-440
(`WriteList`), 461-474 (`WriteMultiArray`), 370-384 (`WriteArray`).

The GSL bicubic splines are opaque: a spline is three functions (value and the two partial
derivatives), made from grid and data by an unspecified function.  Exact real arithmetic, so
`double` and `slibreal_t` are the same.  The arrays `rsep`, `zsep` (and `rwall`, `zwall`) are
one list of points; a null pointer is `none`.
-/
import Verif.Magnetic.DomainModel
import Verif.Magnetic.AnalyticModel

namespace Softlib.Magnetic

noncomputable section

/-- A two-dimensional spline. -/
structure Spl where
  val : ℝ → ℝ → ℝ
  dr : ℝ → ℝ → ℝ
  dz : ℝ → ℝ → ℝ

/-- What the evaluation functions use. -/
structure NGrid where
  rmin : ℝ
  rmax : ℝ
  zmin : ℝ
  zmax : ℝ
  br : Spl
  bphi : Spl
  bz : Spl
  psi : Option Spl

/-- Lines 304-308 and 340-343. -/
def clampTo (lo hi x : ℝ) : ℝ := if x < lo then lo else if x > hi then hi else x

/-- `Eval`, 300-321. -/
def NGrid.eval (g : NGrid) (x y z : ℝ) : ℝ × ℝ × ℝ :=
  let r := clampTo g.rmin g.rmax (hyp x y)
  let zz := clampTo g.zmin g.zmax z
  let br := g.br.val r zz
  let bphi := g.bphi.val r zz
  let bz := g.bz.val r zz
  let sin0 := if r ≠ 0 then y / r else 0
  let cos0 := if r ≠ 0 then x / r else 1
  (br * cos0 - bphi * sin0, br * sin0 + bphi * cos0, bz)

/-- `__EvalJacobian`, 333-395: the 3x3 matrix and the field. -/
def NGrid.jacobian (g : NGrid) (x y z : ℝ) : (Fin 3 → Fin 3 → ℝ) × (ℝ × ℝ × ℝ) :=
  let r := clampTo g.rmin g.rmax (hyp x y)
  let zz := clampTo g.zmin g.zmax z
  let dBr_dr := g.br.dr r zz
  let dBr_dz := g.br.dz r zz
  let dB0_dr := g.bphi.dr r zz
  let dB0_dz := g.bphi.dz r zz
  let dBz_dr := g.bz.dr r zz
  let dBz_dz := g.bz.dz r zz
  let br := g.br.val r zz
  let b0 := g.bphi.val r zz
  let bz := g.bz.val r zz
  let sin0 := if r ≠ 0 then y / r else 0
  let cos0 := if r ≠ 0 then x / r else 1
  let sin20 := sin0 * sin0
  let cos20 := cos0 * cos0
  let sc0 := sin0 * cos0
  let dsin0_dx := if r ≠ 0 then -sc0 / r else 0
  let dcos0_dx := if r ≠ 0 then sin20 / r else 0
  let dsin0_dy := if r ≠ 0 then cos20 / r else 0
  let dcos0_dy := if r ≠ 0 then -sc0 / r else 0
  (![![cos20 * dBr_dr + br * dcos0_dx - sc0 * dB0_dr - b0 * dsin0_dx,
       sc0 * dBr_dr + br * dcos0_dy - sin20 * dB0_dr - b0 * dsin0_dy,
       cos0 * dBr_dz - sin0 * dB0_dz],
     ![sc0 * dBr_dr + br * dsin0_dx + cos20 * dB0_dr + b0 * dcos0_dx,
       sin20 * dBr_dr + br * dsin0_dy + sc0 * dB0_dr + b0 * dcos0_dy,
       sin0 * dBr_dz + cos0 * dB0_dz],
     ![cos0 * dBz_dr, sin0 * dBz_dr, dBz_dz]],
   (br * cos0 - b0 * sin0, br * sin0 + b0 * cos0, bz))

/-- Lines 408-417: the norm.  With a zero field the quotients are 0/0: `none` (NaN). -/
def babsOf (Bx By Bz : ℝ) : Option ℝ :=
  if Bx = 0 ∧ By = 0 ∧ Bz = 0 then none
  else if |Bx| > |By| ∧ |Bx| > |Bz| then
    some (|Bx| * Real.sqrt (1 + |By| / |Bx| * (|By| / |Bx|) + |Bz| / |Bx| * (|Bz| / |Bx|)))
  else if |By| > |Bz| then
    some (|By| * Real.sqrt (1 + |Bx| / |By| * (|Bx| / |By|) + |Bz| / |By| * (|Bz| / |By|)))
  else
    some (|Bz| * Real.sqrt (1 + |Bx| / |Bz| * (|Bx| / |Bz|) + |By| / |Bz| * (|By| / |Bz|)))

/-- `EvalDerivatives`, 397-431; `none` when the strength and its gradient are NaN. -/
def NGrid.evalDerivatives (g : NGrid) (x y z : ℝ) : Option MagData :=
  let JB := g.jacobian x y z
  let J := JB.1
  let Bx := JB.2.1
  let By := JB.2.2.1
  let Bz := JB.2.2.2
  (babsOf Bx By Bz).map fun babs =>
    { B := (Bx, By, Bz)
      babs := babs
      gradB := ((Bx * J 0 0 + By * J 1 0 + Bz * J 2 0) / babs,
                (Bx * J 0 1 + By * J 1 1 + Bz * J 2 1) / babs,
                (Bx * J 0 2 + By * J 1 2 + Bz * J 2 2) / babs)
      curlB := (J 2 1 - J 1 2, J 0 2 - J 2 0, J 1 0 - J 0 1)
      J := J }

/-- `EvalFlux`, 439-447: `none` is the exception.  No clamping. -/
def NGrid.flux (g : NGrid) (x y z : ℝ) : Option ℝ := g.psi.map fun s => s.val (hyp x y) z

/-- `EvalFluxDerivatives`, 463-475. -/
def NGrid.fluxDerivatives (g : NGrid) (x y z : ℝ) : Option (ℝ × ℝ × ℝ) :=
  g.psi.map fun s => (s.val (hyp x y) z, s.dr (hyp x y) z, s.dz (hyp x y) z)

/-! ### the object -/

/-- Members.  `nr`, `nz`, `nsep`, `nwall` are the lengths. -/
structure NField where
  name : String
  desc : String
  R : List ℝ
  Z : List ℝ
  Br : List ℝ
  Bphi : List ℝ
  Bz : List ℝ
  Psi : Option (List ℝ)
  axis : Pt
  sep : Option (List Pt)
  wall : Option (List Pt)
  /-- the domain and the cached radii of `MagneticField2D` -/
  dom : List Pt
  maxradius : ℝ
  minradius : ℝ
  /-- number of points of the separatrix metadata -/
  separatrix : List Pt

/-- Outcome of an operation. -/
inductive Res (α : Type) where
  | ub
  | throws
  | ok (a : α)

/-- Which contour `FindMaxRadius` uses, 175-180. -/
def radiusDom (sep wall : Option (List Pt)) : List Pt :=
  if (sep.getD []).length > 0 then sep.getD [] else wall.getD []

/-- Lines 245-248 (and the end of `Load`, 690-693). -/
def domainOf (sep wall : Option (List Pt)) : List Pt :=
  match wall with
  | some w => w
  | none => sep.getD []

/-- The end of `Init` and of `Load`: `SetDomain` (which calls the overridden `FindMaxRadius`) and
`SetSeparatrix`. -/
def finish (name desc : String) (R Z Br Bphi Bz : List ℝ) (Psi : Option (List ℝ)) (axis : Pt)
    (sep wall : Option (List Pt)) : Res NField :=
  match findMaxRadius axis (radiusDom sep wall) with
  | .ub => .ub
  | .notInside => .throws
  | .ok mx mn => .ok ⟨name, desc, R, Z, Br, Bphi, Bz, Psi, axis, sep, wall, domainOf sep wall, mx, mn, sep.getD []⟩

/-- `Init`, 213-256 (without the splines, see `NField.grid`). -/
def nInit (name desc : String) (R Z Br Bphi Bz : List ℝ) (Psi : Option (List ℝ)) (axis : Pt)
    (sep wall : Option (List Pt)) : Res NField :=
  if sep.isNone ∧ wall.isNone then .throws
  else finish name desc R Z Br Bphi Bz Psi axis sep wall

/-- `Clone`, 115-165: new arrays are allocated for separatrix and wall even when there are none. -/
def NField.clone (f : NField) : Res NField :=
  nInit f.name f.desc f.R f.Z f.Br f.Bphi f.Bz f.Psi f.axis (some (f.sep.getD [])) (some (f.wall.getD []))

/-- `InitInterpolation`, 262-291; `mk R Z data` is the spline. -/
def NField.grid (mk : List ℝ → List ℝ → List ℝ → Spl) (f : NField) : NGrid :=
  ⟨f.R.headD 0, f.R.getLastD 0, f.Z.headD 0, f.Z.getLastD 0, mk f.R f.Z f.Br, mk f.R f.Z f.Bphi, mk f.R f.Z f.Bz,
   f.Psi.map (mk f.R f.Z)⟩

/-! ### files -/

/-- A variable in a file.  Arrays have one or two dimensions and row-major data. -/
inductive FVal where
  | str (s : String)
  | arr (dims : List Nat) (data : List ℝ)

abbrev FData := List (String × FVal)

def FData.get (f : FData) (n : String) : Option FVal := (f.find? fun p => p.1 = n).map Prod.snd

/-- Backends: the MAT backend inherits the array functions of HDF5. -/
inductive Backend where
  | sdt
  | hdf5
  deriving DecidableEq

/-- `GetString`: `none` is the exception. -/
def FData.string (f : FData) (n : String) : Option String :=
  match f.get n with
  | some (.str s) => some s
  | _ => none

/-- `GetList`, SFile_HDF5.cpp 253-279: a matrix is read as a list. -/
def FData.list (f : FData) (n : String) : Option (List ℝ) :=
  match f.get n with
  | some (.arr _ d) => some d
  | _ => none

/-- Row pointers into the data. -/
def rowsOf (a b : Nat) (d : List ℝ) : List (List ℝ) := (List.range a).map fun i => (d.drop (i * b)).take b

/-- `GetDoubles`, SFile_HDF5.cpp 195-226: first dimension and rows. -/
def FData.doubles (f : FData) (n : String) : Option (Nat × Nat × List (List ℝ)) :=
  match f.get n with
  | some (.arr [k] d) => some (1, k, [d])
  | some (.arr [a, b] d) => some (a, b, rowsOf a b d)
  | _ => none

/-- `a[j][i]` with row pointers into one block (SFile_HDF5.cpp 211-220; `Transpose`, 713-717): a
column beyond the end of a row is read from the rows that follow; `none` outside the rows or outside
the block. -/
def at2 (a : List (List ℝ)) (j i : Nat) : Option ℝ :=
  if j < a.length then a.flatten[j * (a.headD []).length + i]? else none

/-- `Transpose`, 710-726. -/
def transposeM (a : List (List ℝ)) (rows cols : Nat) : Option (List (List ℝ)) :=
  (List.range cols).mapM fun i => (List.range rows).mapM fun j => at2 a j i

/-- Lines 512-520: transpose unless the first dimension is `nz`. -/
def orient (nz : Nat) (m : Nat × Nat × List (List ℝ)) : Option (List (List ℝ)) :=
  if m.1 ≠ nz then transposeM m.2.2 m.1 m.2.1 else some m.2.2

/-- Lines 527-561: verification vector; `none` is undefined, `some false` the exception. -/
def verified (nr : Nat) (rows : List (List ℝ)) (ver : Option (List ℝ)) : Option Bool :=
  match ver with
  | none => some true
  | some v =>
    if v.length > nr then some false
    else
      match (List.range v.length).mapM (fun i => at2 rows 0 i) with
      | none => none
      | some r => some (decide (r = v))

/-- Lines 636-659: element (i, j) goes to position i + j*nr. -/
def cells (nr nz : Nat) (rows : List (List ℝ)) : Option (List ℝ) :=
  ((List.range nz).mapM fun j => (List.range nr).mapM fun i => at2 rows j i).map List.flatten

/-- Lines 567-618: a contour; outer `none` undefined, inner `none` absent. -/
def contour (m : Option (Nat × Nat × List (List ℝ))) : Option (Option (List Pt)) :=
  match m with
  | none => some none
  | some (a, b, rows) =>
    if a = 2 then ((List.range b).mapM fun i => (at2 rows 0 i).bind fun r => (at2 rows 1 i).map fun z => (⟨r, z⟩ : Pt)).map some
    else ((List.range a).mapM fun i => (at2 rows i 0).bind fun r => (at2 rows i 1).map fun z => (⟨r, z⟩ : Pt)).map some

/-- The variables written by `Save`, 739-790. -/
def NField.dump (f : NField) (psi : List ℝ) : FData :=
  let nr := f.R.length
  let nz := f.Z.length
  let sep := f.sep.getD []
  let wall := f.wall.getD []
  [("Bphi", .arr [nz, nr] f.Bphi), ("Br", .arr [nz, nr] f.Br), ("Bz", .arr [nz, nr] f.Bz),
   ("desc", .str f.desc), ("name", .str f.name), ("maxis", .arr [2] [f.axis.r, f.axis.z]),
   ("Psi", .arr [nz, nr] psi), ("r", .arr [nr] f.R), ("z", .arr [nz] f.Z),
   ("verBphi", .arr [nr] (f.Bphi.take nr)), ("verBr", .arr [nr] (f.Br.take nr)), ("verBz", .arr [nr] (f.Bz.take nr))]
  ++ ((if sep.length > 0 then [("separatrix", .arr [2, sep.length] (sep.map Pt.r ++ sep.map Pt.z))] else [])
  ++ (if wall.length > 0 then [("wall", .arr [2, wall.length] (wall.map Pt.r ++ wall.map Pt.z))] else []))

/-- `Save`, 737-792.  The SDT backend throws in the first `WriteMultiArray`; without flux the null
pointer is handed to the library as data (`ub`); the verification vectors read `nr` elements. -/
def NField.save (be : Backend) (f : NField) : Res FData :=
  match be with
  | .sdt => .throws
  | .hdf5 =>
    match f.Psi with
    | none => .ub
    | some psi =>
      if f.Br.length < f.R.length ∨ f.Bphi.length < f.R.length ∨ f.Bz.length < f.R.length then .ub
      else .ok (f.dump psi)

/-- Outcome of a step that can throw (`none`). -/
def orThrow {α β : Type} (o : Option α) (k : α → Res β) : Res β :=
  match o with
  | none => .throws
  | some a => k a

/-- Outcome of a step that can be undefined (`none`). -/
def orUB {α β : Type} (o : Option α) (k : α → Res β) : Res β :=
  match o with
  | none => .ub
  | some a => k a

def guardThrow {β : Type} (b : Bool) (k : Res β) : Res β := if b then k else .throws

/-- `Load`, 488-700, of an open file. -/
def nLoad (f : FData) : Res NField :=
  orThrow (f.string "name") fun name =>
  orThrow (f.string "desc") fun desc =>
  orThrow (f.list "maxis") fun maxis =>
  guardThrow (decide (maxis.length = 2)) <|
  orThrow (f.list "r") fun R =>
  orThrow (f.list "z") fun Z =>
  orThrow (f.doubles "Br") fun br => orUB (orient Z.length br) fun br =>
  orThrow (f.doubles "Bphi") fun bphi => orUB (orient Z.length bphi) fun bphi =>
  orThrow (f.doubles "Bz") fun bz => orUB (orient Z.length bz) fun bz =>
  orUB (match f.doubles "Psi" with
        | none => some none
        | some m => (orient Z.length m).map some) fun psi =>
  orUB (verified R.length br (f.list "verBr")) fun v1 => guardThrow v1 <|
  orUB (verified R.length bphi (f.list "verBphi")) fun v2 => guardThrow v2 <|
  orUB (verified R.length bz (f.list "verBz")) fun v3 => guardThrow v3 <|
  orUB (contour (f.doubles "wall")) fun wall =>
  orUB (contour (f.doubles "separatrix")) fun sep =>
  orUB (cells R.length Z.length br) fun br' =>
  orUB (cells R.length Z.length bphi) fun bphi' =>
  orUB (cells R.length Z.length bz) fun bz' =>
  orUB (match psi with
        | none => some none
        | some p => (cells R.length Z.length p).map some) fun psi' =>
  if wall.isNone ∧ sep.isNone then .throws
  else finish name desc R Z br' bphi' bz' psi' ⟨maxis.getD 0 0, maxis.getD 1 0⟩ sep wall

end

end Softlib.Magnetic
