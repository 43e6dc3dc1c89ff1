/-
Numbers with infinities and NaN, and the routines that are asked about a position, computed with them.

Source: /repo/src/MagneticField/MagneticField2D.cpp 33-73 (`CrossesDomain`), 367-457 (`IntersectsDomain3D`);
/repo/src/MagneticField/MagneticFieldAnalytical2D.cpp 113-130 (`Eval`);
/repo/src/MagneticField/MagneticFieldNumeric2D.cpp 300-321 (`Eval`);
/repo/include/softlib/ImageGenerator/ImageColormap.h 34-60 (`Eval`);
/repo/src/DistributionFunction/LinearRadialProfile.cpp 18-40, PowerRadialProfile.cpp 24-50,
GaussianRadialProfile.cpp 21-53, BesselRadialProfile.cpp 24-47 (constructors and `Eval`);
/repo/src/DistributionFunction/NumericDistributionFunction.cpp 28-110 (`Eval`, `__FindNearestR`);
/repo/src/DistributionFunction/NumericMomentumSpaceDistributionFunction.cpp 25-49 (`Eval`);
/repo/src/DistributionFunction/CODEDistributionFunction.cpp 184-198 and 238-259 (`Eval`).

Finite numbers are real numbers, without rounding, overflow or the sign of zero: a quotient by zero has the sign of its
numerator.  NaN is not equal to anything, and every comparison with it is false (IEEE 754).  The vertices of the
domain, the grids and the members of a profile are finite.
-/
import Verif.Magnetic.DomainModel
import Verif.Image.ImageModel
import Verif.Dist.ProfileModel

namespace Softlib.Special

open Softlib.Magnetic Softlib.Image

noncomputable section

/-- A floating point number. -/
inductive EF where
  | nan
  | pinf
  | ninf
  | fin (x : ℝ)

namespace EF

/-- The number is neither infinite nor NaN. -/
def IsFin : EF → Prop
  | .fin _ => True
  | _ => False

def neg : EF → EF
  | .nan => .nan
  | .pinf => .ninf
  | .ninf => .pinf
  | .fin x => .fin (-x)

def add : EF → EF → EF
  | .nan, _ => .nan
  | _, .nan => .nan
  | .pinf, .ninf => .nan
  | .ninf, .pinf => .nan
  | .pinf, _ => .pinf
  | _, .pinf => .pinf
  | .ninf, _ => .ninf
  | _, .ninf => .ninf
  | .fin x, .fin y => .fin (x + y)

/-- An infinity times a finite number. -/
def infMul (positive : Bool) (x : ℝ) : EF :=
  if x = 0 then .nan else if (0 < x) = (positive = true) then .pinf else .ninf

def mul : EF → EF → EF
  | .nan, _ => .nan
  | _, .nan => .nan
  | .pinf, .pinf => .pinf
  | .ninf, .ninf => .pinf
  | .pinf, .ninf => .ninf
  | .ninf, .pinf => .ninf
  | .pinf, .fin x => infMul true x
  | .ninf, .fin x => infMul false x
  | .fin x, .pinf => infMul true x
  | .fin x, .ninf => infMul false x
  | .fin x, .fin y => .fin (x * y)

def div : EF → EF → EF
  | .nan, _ => .nan
  | _, .nan => .nan
  | .fin x, .fin y => if y = 0 then (if x = 0 then .nan else if 0 < x then .pinf else .ninf) else .fin (x / y)
  | .fin _, _ => .fin 0
  | .pinf, .fin y => if 0 ≤ y then .pinf else .ninf
  | .ninf, .fin y => if 0 ≤ y then .ninf else .pinf
  | _, _ => .nan

instance : Add EF := ⟨add⟩
instance : Neg EF := ⟨neg⟩
instance : Sub EF := ⟨fun a b => add a (neg b)⟩
instance : Mul EF := ⟨mul⟩
instance : Div EF := ⟨div⟩

/-- `a < b`. -/
def lt : EF → EF → Prop
  | .nan, _ => False
  | _, .nan => False
  | .fin x, .fin y => x < y
  | .ninf, .ninf => False
  | .ninf, _ => True
  | _, .pinf => True
  | _, _ => False

/-- `a <= b`. -/
def le : EF → EF → Prop
  | .nan, _ => False
  | _, .nan => False
  | .fin x, .fin y => x ≤ y
  | .ninf, _ => True
  | _, .pinf => True
  | _, _ => False

/-- `a == b`. -/
def eq : EF → EF → Prop
  | .fin x, .fin y => x = y
  | .pinf, .pinf => True
  | .ninf, .ninf => True
  | _, _ => False

open Classical in
instance (a b : EF) : Decidable (lt a b) := inferInstance
open Classical in
instance (a b : EF) : Decidable (le a b) := inferInstance
open Classical in
instance (a b : EF) : Decidable (eq a b) := inferInstance

def sqrt : EF → EF
  | .nan => .nan
  | .pinf => .pinf
  | .ninf => .nan
  | .fin x => if x < 0 then .nan else .fin (Real.sqrt x)

/-- `hypot`: infinite if one argument is, even if the other is NaN. -/
def hypot : EF → EF → EF
  | .pinf, _ => .pinf
  | .ninf, _ => .pinf
  | _, .pinf => .pinf
  | _, .ninf => .pinf
  | .nan, _ => .nan
  | _, .nan => .nan
  | .fin x, .fin y => .fin (Real.sqrt (x ^ 2 + y ^ 2))

def abs : EF → EF
  | .nan => .nan
  | .pinf => .pinf
  | .ninf => .pinf
  | .fin x => .fin |x|

def exp : EF → EF
  | .nan => .nan
  | .pinf => .pinf
  | .ninf => .fin 0
  | .fin x => .fin (Real.exp x)

/-- `pow(x, b)` with a finite exponent and a base that is NaN or finite and not negative: NaN to the power zero is one.
(Infinite bases do not occur.) -/
def pow (x : EF) (b : ℝ) : EF :=
  if b = 0 then .fin 1
  else
    match x with
    | .fin x => if x = 0 ∧ b < 0 then .pinf else .fin (x ^ b)
    | _ => .nan

end EF

open EF

/-! ### domain -/

/-- The loop of `CrossesDomain`, MagneticField2D.cpp 52-72; `pr`, `pz` is the first point, `dr`, `dz` the difference. -/
def crossesLoopE (pr pz dr dz : EF) : List Pt → Bool
  | v :: w :: rest =>
    let x11 : EF := .fin (w.r - v.r)
    let y11 : EF := .fin (w.z - v.z)
    let a := pr - .fin v.r
    let b := pz - .fin v.z
    if eq a (.fin 0) ∧ eq b (.fin 0) then crossesLoopE pr pz dr dz (w :: rest)
    else
      let det := x11 * dz - dr * y11
      if eq det (.fin 0) then true
      else
        let s := .fin 1 / det * (a * dz - b * dr)
        let t := -(.fin 1 / det) * (b * x11 - a * y11)
        if le (.fin 0) s ∧ le s (.fin 1) ∧ le (.fin 0) t ∧ le t (.fin 1) then true
        else crossesLoopE pr pz dr dz (w :: rest)
  | _ => false

/-- `CrossesDomain` between two points, MagneticField2D.cpp 42-73. -/
def crossesE (dom : List Pt) (x1 y1 z1 x2 y2 z2 : EF) : Option Bool :=
  if dom.isEmpty then none
  else
    let r := hypot x2 y2
    let x00 := hypot x1 y1
    some (crossesLoopE x00 z1 (r - x00) (z2 - z1) dom)

structure P3E where
  x : EF
  y : EF
  z : EF

/-- `__IntersectsDomain3D`, lines 406-457. -/
def tileHitE (np n : Pt) (p c : P3E) : Bool :=
  if np.z = n.z then
    if eq c.z p.z then false
    else
      let t1 := (.fin n.z - p.z) / (c.z - p.z)
      let ic : EF := .fin 1 / .fin (n.r - np.r)
      let term1 := p.x + (c.x - p.x) * t1
      let term2 := p.y + (c.y - p.y) * t1
      let sqr := EF.sqrt (term1 * term1 + term2 * term2)
      let s1 := ic * (.fin n.r + sqr)
      decide (le (.fin 0) s1 ∧ le s1 (.fin 1))
  else
    let izn : EF := .fin (1 / (np.z - n.z))
    let kz := (c.z - p.z) * izn
    let mz := (p.z - .fin n.z) * izn
    let a := c.x - p.x
    let b := c.y - p.y
    let cc := .fin (np.r - n.r) * kz
    let m := .fin n.r + mz * .fin (np.r - n.r)
    let abc := a * a + b * b - cc * cc
    if eq abc (.fin 0) then true
    else
      let iabc := .fin 1 / abc
      let term := (cc * m - a * p.x - b * p.y) * iabc
      let q := (m * m - p.x * p.x - p.y * p.y) * iabc
      let square := term * term + q
      if lt square (.fin 0) then false
      else
        let sqr := EF.sqrt square
        let t1 := term + sqr
        let t2 := term - sqr
        decide ((le (.fin 0) t1 ∧ le t1 (.fin 1)) ∨ (le (.fin 0) t2 ∧ le t2 (.fin 1)))

/-- One round of the loop, lines 376-396. -/
def tileTestE (axisR : ℝ) (outer : Bool) (p0 p1 : P3E) (v w : Pt) : Bool :=
  if outer = false ∧ v.r > axisR ∧ w.r > axisR then false
  else if (lt (.fin v.z) p1.z ∧ lt (.fin w.z) p1.z ∧ lt (.fin v.z) p0.z ∧ lt (.fin w.z) p0.z) ∨
      (lt p1.z (.fin v.z) ∧ lt p1.z (.fin w.z) ∧ lt p0.z (.fin v.z) ∧ lt p0.z (.fin w.z)) then false
  else tileHitE w v p1 p0

def tileLoopE (axisR : ℝ) (outer : Bool) (p0 p1 : P3E) (first : Pt) : List Pt → Bool
  | [] => false
  | [v] => tileTestE axisR outer p0 p1 v first
  | v :: w :: rest => tileTestE axisR outer p0 p1 v w || tileLoopE axisR outer p0 p1 first (w :: rest)

/-- `IntersectsDomain3D` with coordinates, lines 367-400. -/
def intersects3DE (axis : Pt) (dom : List Pt) (p0 p1 : P3E) (outer : Bool) : Bool :=
  match dom with
  | [] => false
  | v :: rest => tileLoopE axis.r outer p0 p1 v (v :: rest)

/-! ### fields -/

/-- Analytical `Eval`, cpp 113-130; the safety factor `q` is any function. -/
def analyticE (b0 rm zm sB sI : ℝ) (q : EF → EF) (x y z : EF) : EF × EF × EF :=
  let R := hypot x y
  let r := hypot (.fin rm - R) (z - .fin zm)
  let iR := .fin 1 / R
  let sintheta := if ¬ eq r (.fin 0) then (z - .fin zm) / r else .fin 0
  let costheta := if ¬ eq r (.fin 0) then (.fin rm - R) / r else .fin 0
  let sinphi := y * iR
  let cosphi := x * iR
  let pf := .fin (b0 * rm) * iR
  let t1 := r / (.fin rm * q r)
  (pf * (.fin sI * t1 * (sintheta * cosphi) - .fin sB * sinphi),
   pf * (.fin sI * t1 * (sintheta * sinphi) + .fin sB * cosphi),
   pf * (.fin sI * t1 * costheta))

/-- Numeric `Eval`, cpp 303-308. -/
def clampE (lo hi : ℝ) (x : EF) : EF := if lt x (.fin lo) then .fin lo else if lt (.fin hi) x then .fin hi else x

/-- Numeric `Eval`, cpp 300-321, with three splines. -/
def numericE (rmin rmax zmin zmax : ℝ) (sbr sbphi sbz : EF → EF → EF) (x y z : EF) : EF × EF × EF :=
  let r := clampE rmin rmax (hypot x y)
  let zz := clampE zmin zmax z
  let br := sbr r zz
  let bphi := sbphi r zz
  let bz := sbz r zz
  let sin0 := if ¬ eq r (.fin 0) then y / r else .fin 0
  let cos0 := if ¬ eq r (.fin 0) then x / r else .fin 1
  (br * cos0 - bphi * sin0, br * sin0 + bphi * cos0, bz)

/-! ### colours -/

/-- `Eval`, ImageColormap.h 34-60.  Converting a number that is not finite to `int` is undefined. -/
def colourE (tab : List Color) (vmin vmax : ℝ) (v : EF) : Option Color :=
  if tab.length = 0 then none
  else
    match (v - .fin vmin) / .fin vmax * .fin ((tab.length - 1 : Nat) : ℝ) with
    | .fin i =>
      let l := ⌊i⌋
      if ¬ (-2 ^ 31 ≤ l ∧ l < 2 ^ 31) then none
      else if l ≥ (tab.length : Int) - 1 then tab[tab.length - 1]?
      else if l < 0 then tab[0]?
      else
        let f := i - l
        match tab[l.toNat]?, tab[l.toNat + 1]? with
        | some a, some b => some ⟨mix f a.red b.red, mix f a.green b.green, mix f a.blue b.blue⟩
        | _, _ => none
    | _ => none

/-! ### radial profiles -/

/-- A radial profile whose members may be anything. -/
inductive ProfileE where
  | uniform
  | linear (rmin rmax delr : EF)
  | power (rmin rmax delr : EF) (b : ℝ)
  | gaussian (rmin rmax a b c : EF)
  | bessel (rmin rmax : EF)

/-- The constructors; `none`: exception. -/
def mkLinearE (rmin rmax : EF) : Option ProfileE :=
  if le rmax rmin then none else some (.linear rmin rmax (.fin 1 / (rmax - rmin)))

def mkPowerE (rmin rmax : EF) (b : ℝ) : Option ProfileE :=
  if le rmax rmin then none else some (.power rmin rmax (.fin 1 / (rmax - rmin)) b)

def mkGaussianE (rmin rmax a b c : EF) : Option ProfileE :=
  if le rmax rmin then none
  else if le a (.fin 0) then none
  else if le b (.fin 0) then none
  else if le c (.fin 0) then none
  else some (.gaussian rmin rmax a b c)

def mkBesselE (rmin rmax : EF) : Option ProfileE :=
  if le rmax rmin then none else some (.bessel rmin rmax)

/-- `Eval` of each profile; `J0` is the Bessel function of GSL. -/
def ProfileE.eval (J0 : EF → EF) (q : ProfileE) (r shift : EF) : EF :=
  let rho := r - shift
  match q with
  | .uniform => .fin 1
  | .linear rmin rmax delr =>
    if le rmax rho ∨ lt rho rmin then .fin 0 else .fin 1 - (rho - rmin) * delr
  | .power rmin rmax delr b =>
    if le rmax rho ∨ lt rho rmin then .fin 0 else .fin 1 - EF.pow ((rho - rmin) * delr) b
  | .gaussian rmin rmax a b c =>
    if le rmax rho ∨ lt rho rmin then .fin 0 else a * EF.exp (-(rho - b) * (rho - b) / (c * c))
  | .bessel rmin rmax =>
    if le rmax rho ∨ lt rho rmin then .fin 0
    else J0 ((rho - rmin) / (rmax - rmin) * .fin Dist.j0Zero)

/-! ### tabulated distributions -/

/-- The bisection of `__FindNearestR`, NumericDistributionFunction.cpp 93-100, on grids of fewer than 2^30 radii. -/
def searchE (asc : Bool) (g : List ℝ) (x : EF) (il iu : Nat) : Option Nat :=
  if iu - il > 1 then
    match g[(iu + il) / 2]? with
    | none => none
    | some v =>
      if decide (le (.fin v) x) = asc then searchE asc g x ((iu + il) / 2) iu
      else searchE asc g x il ((iu + il) / 2)
  else some il
termination_by iu - il
decreasing_by all_goals omega

/-- `__FindNearestR`, 84-110. -/
def findNearestE (g : List ℝ) (x : EF) : Option Int :=
  match g with
  | [] => some (-1)
  | [_] => some 0
  | g0 :: g1 :: rest =>
    match searchE (decide (g1 > g0)) (g0 :: g1 :: rest) x 0 (rest.length + 1) with
    | none => none
    | some il =>
      if lt x (.fin g0) then some (-1)
      else if lt (.fin ((g1 :: rest).getLast (by simp))) x then some (rest.length + 1)
      else some il

/-- Result of an evaluation. -/
inductive ResE where
  | ub
  | throws
  | ok (v : EF)

/-- NumericDistributionFunction.cpp 71. -/
def lerpE (r0 r1 f0 f1 rho : EF) : EF := ((r1 - rho) * f0 + (rho - r0) * f1) / (r1 - r0)

/-- `Eval`, NumericDistributionFunction.cpp 28-72; `fs` are the values of the momentum distributions at (p, xi). -/
def numericDistE (rs : List ℝ) (fs : List EF) (rmin rmax : ℝ) (allow : Bool) (r shift : EF) : ResE :=
  let rho := r - shift
  if allow = false ∧ (lt rho (.fin rmin) ∨ lt (.fin rmax) rho) then .throws
  else
    match findNearestE rs rho with
    | none => .ub
    | some ir =>
      if rs.length = 1 then
        match fs[0]? with
        | some f => .ok (lerpE rho (.fin 0) f (.fin 0) rho)
        | none => .ub
      else if ir ≤ 0 then
        match rs[0]?, rs[1]?, fs[0]?, fs[1]? with
        | some r1, some r2, some f1, some f2 =>
          .ok (lerpE (.fin 0) (.fin r1) ((.fin r2 * f1 - .fin r1 * f2) / .fin (r2 - r1)) f1 rho)
        | _, _, _, _ => .ub
      else if ir.toNat ≥ rs.length - 1 then
        match rs[rs.length - 1]?, rs[rs.length - 2]?, fs[rs.length - 1]?, fs[rs.length - 2]? with
        | some r0, some r', some f0, some f' => .ok (lerpE (.fin r0) (.fin (r0 + (2 * r0 - r'))) f0 (.fin 2 * f0 - f') rho)
        | _, _, _, _ => .ub
      else
        match rs[ir.toNat]?, rs[ir.toNat + 1]?, fs[ir.toNat]?, fs[ir.toNat + 1]? with
        | some r0, some r1, some f0, some f1 => .ok (lerpE (.fin r0) (.fin r1) f0 f1 rho)
        | _, _, _, _ => .ub

/-- `Eval` of a momentum-space table, NumericMomentumSpaceDistributionFunction.cpp 25-49. -/
def tableE (spline : EF → EF → EF) (pmin pmax ximin ximax : ℝ) (logarithmic flip : Bool) (p xi : EF) : EF :=
  if lt p (.fin pmin) ∨ lt (.fin pmax) p then .fin 0
  else if flip = true ∧ (lt xi (.fin (-ximax)) ∨ lt (.fin (-ximin)) xi) then .fin 0
  else if flip = false ∧ (lt xi (.fin ximin) ∨ lt (.fin ximax) xi) then .fin 0
  else
    let fval := if flip then spline p (-xi) else spline p xi
    if logarithmic then
      match fval with
      | .nan => .fin 0
      | v => EF.exp v
    else fval

/-- The Legendre polynomials of CODE, CODEDistributionFunction.cpp 184-198: the last two of `legendre[0..n]`, latest
first. -/
def legE (xi : EF) : Nat → EF × EF
  | 0 => (.fin 1, .fin 0)
  | 1 => (xi, .fin 1)
  | n + 2 =>
    let q := legE xi (n + 1)
    (.fin ((2 * ((n : ℝ) + 1) + 1) / ((n : ℝ) + 1 + 1)) * xi * q.1 - .fin (((n : ℝ) + 1) / ((n : ℝ) + 1 + 1)) * q.2, q.1)

/-- `Eval` of a CODE distribution, 238-259; `modes` are the interpolated modes as functions of the momentum, and the
cached polynomials are those for `xi` (the comparison `xileg != xi` is true for NaN). -/
def codeE (pmin pmax : ℝ) (modes : List (EF → EF)) (p xi : EF) : EF :=
  if lt (.fin pmax) p ∨ lt p (.fin pmin) then .fin 0
  else
    let s := (modes.zipIdx).foldl (fun s m => s + m.1 p * (legE xi m.2).1 * .fin ((-1) ^ m.2)) (.fin 0)
    if le s (.fin 0) then .fin 0 else s

end

end Softlib.Special
