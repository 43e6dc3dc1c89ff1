/-
Model of magnetic equilibria in the format of LUKE.

Source: /repo/src/MagneticField/MagneticFieldLUKE.cpp 95-284 (`Load`), 297-344 (`LoadWall`);
/repo/src/SFile/SFile.cpp 153-169 (`GetList`), 299-313 (`GetScalar`).

The data of a file are as in `NumericModel`.  Of the GNU Scientific Library the bilinear
interpolation is written out (interp2d.c, bilinear.c, accel.c: sizes of at least 2 and strictly
increasing abscissae are required, otherwise the default error handler aborts the program; the
interval search is clamped to the table, and `eval_extrap` extrapolates).  Exact real arithmetic;
a division by zero is the separate outcome `nonfinite`.  `atan2(y, x)` is the argument of the
complex number x + iy.  Not modelled: when `Load` throws inside the constructor, the base class
destructor reads `nwall` and `nsep` before they are set (null pointers are then deleted).
-/
import Verif.Magnetic.NumericModel
import Mathlib.Analysis.SpecialFunctions.Complex.Arg

namespace Softlib.Magnetic

noncomputable section

/-- Outcome. -/
inductive LRes (α : Type) where
  | ub
  /-- error handler of the library -/
  | aborts
  | nonfinite
  | throws
  | ok (a : α)

def LRes.bind {α β : Type} (r : LRes α) (k : α → LRes β) : LRes β :=
  match r with
  | .ub => .ub
  | .aborts => .aborts
  | .nonfinite => .nonfinite
  | .throws => .throws
  | .ok a => k a

def ofRes {α : Type} : Res α → LRes α
  | .ub => .ub
  | .throws => .throws
  | .ok a => .ok a

def must {α : Type} : Option α → LRes α
  | none => .throws
  | some a => .ok a

def inside {α : Type} : Option α → LRes α
  | none => .ub
  | some a => .ok a

def check (b : Bool) : LRes Unit := if b then .ok () else .throws

/-- `GetScalar`, SFile.cpp 299-313. -/
def FData.scalar (f : FData) (n : String) : LRes ℝ :=
  (must (f.doubles n)).bind fun m => (check (decide (m.1 = 1 ∧ m.2.1 = 1))).bind fun _ => inside (at2 m.2.2 0 0)

/-- `GetList`, SFile.cpp 153-169: one row or one column; `arr[0]` has all elements.  Without rows
there is no `arr[0]`. -/
def FData.vector (f : FData) (n : String) : LRes (List ℝ) :=
  (must (f.doubles n)).bind fun m => (check (decide (m.1 = 1 ∨ m.2.1 = 1))).bind fun _ =>
    if m.1 = 0 then .ub else .ok m.2.2.flatten

/-- A table that must have `a` rows and `b` columns. -/
def FData.table (f : FData) (n : String) (a b : Nat) : LRes (List (List ℝ)) :=
  (must (f.doubles n)).bind fun m => (check (decide (m.1 = a ∧ m.2.1 = b))).bind fun _ => .ok m.2.2

/-- Strictly increasing, as required by `gsl_interp2d_init`. -/
def increasing (xs : List ℝ) : Prop := xs.Pairwise (· < ·)

open Classical in
/-- `gsl_interp2d_alloc` and `gsl_interp2d_init`. -/
def gslInit (xs ys : List ℝ) : LRes Unit :=
  if 2 ≤ xs.length ∧ 2 ≤ ys.length ∧ increasing xs ∧ increasing ys then .ok () else .aborts

/-- `gsl_interp_accel_find` (`gsl_interp_bsearch`): the last interval that starts at or before
`x`, and the first one if there is none. -/
def cellOf (xs : List ℝ) (x : ℝ) : Nat := ((xs.drop 1).dropLast.takeWhile fun a => decide (a ≤ x)).length

/-- `bilinear_eval`; element (i, j) of the table is `z j i`. -/
def bilinear (xs ys : List ℝ) (z : List (List ℝ)) (x y : ℝ) : Option ℝ :=
  let i := cellOf xs x
  let j := cellOf ys y
  (xs[i]?).bind fun x0 => (xs[i + 1]?).bind fun x1 => (ys[j]?).bind fun y0 => (ys[j + 1]?).bind fun y1 =>
  (at2 z j i).bind fun z00 => (at2 z j (i + 1)).bind fun z10 => (at2 z (j + 1) i).bind fun z01 => (at2 z (j + 1) (i + 1)).bind fun z11 =>
    let t := (x - x0) / (x1 - x0)
    let u := (y - y0) / (y1 - y0)
    some ((1 - t) * (1 - u) * z00 + t * (1 - u) * z10 + (1 - t) * u * z01 + t * u * z11)

/-- Lines 133-136. -/
def lukeAngle (x y : ℝ) : ℝ :=
  let a := Complex.arg ⟨x, y⟩
  if a < 0 then 2 * Real.pi + a else a

/-- Lines 219-228 for one component: position i + j*nr. -/
def lukeField (xs ys : List ℝ) (psin : List (List ℝ)) (psig tsig : List ℝ) (B : List (List ℝ)) : Option (List ℝ) :=
  ((List.range ys.length).mapM fun j => (List.range xs.length).mapM fun i =>
    (xs[i]?).bind fun x => (ys[j]?).bind fun y => (at2 psin j i).bind fun p =>
      bilinear psig tsig B |p| (lukeAngle x y)).map List.flatten

/-- Line 222. -/
def lukeFlux (nx ny : Nat) (psin : List (List ℝ)) (psia : ℝ) : Option (List ℝ) :=
  ((List.range ny).mapM fun j => (List.range nx).mapM fun i => (at2 psin j i).map (· * psia)).map List.flatten

/-- Lines 162-163: every element is divided by the last one, which itself is divided last. -/
def normalised (psi : List ℝ) : LRes (List ℝ) :=
  if psi = [] then .ok []
  else if psi.getLastD 0 = 0 then .nonfinite
  else .ok (psi.map fun p => |p / psi.getLastD 0|)

/-- Lines 251-255: the last column. -/
def lukeSep (nt np : Nat) (axis : Pt) (ptx pty : List (List ℝ)) : Option (List Pt) :=
  (List.range nt).mapM fun i => (at2 ptx i (np - 1)).bind fun x => (at2 pty i (np - 1)).map fun y =>
    (⟨x + axis.r, y + axis.z⟩ : Pt)

/-- Lines 303-336: the wall of the second file, if one is named. -/
def lukeWall : Option FData → LRes (Option (List Pt))
  | none => .ok none
  | some w =>
    (must (w.doubles "wall")).bind fun m =>
      if m.1 = 2 then
        (inside ((List.range m.2.1).mapM fun i => (at2 m.2.2 0 i).bind fun r => (at2 m.2.2 1 i).map fun z => (⟨r, z⟩ : Pt))).bind
          fun c => .ok (some c)
      else if m.2.1 = 2 then
        if m.1 = 0 then .ub
        else (inside ((List.range m.1).mapM fun i => (at2 m.2.2 i 0).bind fun r => (at2 m.2.2 i 1).map fun z => (⟨r, z⟩ : Pt))).bind
          fun c => .ok (some c)
      else .throws

/-- `Load`, 95-284, with `LoadWall`, 297-344. -/
def lukeLoad (f : FData) (w : Option FData) : LRes NField :=
  (must (f.string "equil/id")).bind fun name =>
  (f.scalar "equil/Rp").bind fun rp =>
  (f.scalar "equil/Zp").bind fun zp =>
  (f.vector "equil/eqdsk/x").bind fun xs =>
  (f.vector "equil/eqdsk/y").bind fun ys =>
  (f.table "equil/eqdsk/xypsin" ys.length xs.length).bind fun psin =>
  (f.scalar "equil/eqdsk/psia").bind fun psia =>
  if ys = [] then .ub else
  (f.vector "equil/psi_apRp").bind fun psi =>
  (normalised psi).bind fun psig =>
  (f.vector "equil/theta").bind fun tsig =>
  (f.table "equil/ptBx" tsig.length psi.length).bind fun bx =>
  (f.table "equil/ptBy" tsig.length psi.length).bind fun bz =>
  (f.table "equil/ptBPHI" tsig.length psi.length).bind fun bt =>
  (gslInit psig tsig).bind fun _ =>
  (inside (lukeFlux xs.length ys.length psin psia)).bind fun flux =>
  (inside (lukeField xs ys psin psig tsig bx)).bind fun br =>
  (inside (lukeField xs ys psin psig tsig bt)).bind fun bphi =>
  (inside (lukeField xs ys psin psig tsig bz)).bind fun bz' =>
  (f.table "equil/ptx" tsig.length psi.length).bind fun ptx =>
  (f.table "equil/pty" tsig.length psi.length).bind fun pty =>
  (inside (lukeSep tsig.length psi.length ⟨rp, zp⟩ ptx pty)).bind fun sep =>
  (lukeWall w).bind fun wall =>
    ofRes (finish name name (xs.map (· + rp)) (ys.map (· + zp)) br bphi bz' (some flux) ⟨rp, zp⟩ (some sep) wall)

end

end Softlib.Magnetic
