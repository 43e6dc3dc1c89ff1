/-
Model of the three-dimensional wall test with rounded arithmetic.

Source: /repo/src/MagneticField/MagneticField2D.cpp 367-400 (`IntersectsDomain3D`), 406-457 (`__IntersectsDomain3D`).

Every operation is rounded, in the order in which C++ makes it.  `sqrt` is a parameter.  As in `Verif/General/RoundModel.lean` the exponent is
not limited, so a difference is zero only if the numbers are equal, and nothing overflows or underflows.
-/
import Verif.Magnetic.DomainRoundModel

namespace Softlib.Magnetic

open Softlib.General

/-- A point in space. -/
structure Q3 where
  x : ℚ
  y : ℚ
  z : ℚ

/-- The same point for the models with real numbers. -/
noncomputable def Q3.real (p : Q3) : P3 := ⟨(p.x : ℝ), (p.y : ℝ), (p.z : ℝ)⟩

/-- The numbers of lines 432-443 for a sloping tile: `abc`, and the numerators of `term` and `q`. -/
structure WallCoef where
  abc : ℚ
  num : ℚ
  con : ℚ

/-- Lines 432-438, and the brackets of 442 and 443. -/
def wallCoefR {u : ℚ} (R : Rnd u) (np n : Q2) (p c : Q3) : WallCoef :=
  let izn := R.fl (1 / R.fl (np.z - n.z))
  let kz := R.fl (R.fl (c.z - p.z) * izn)
  let mz := R.fl (R.fl (p.z - n.z) * izn)
  let a := R.fl (c.x - p.x)
  let b := R.fl (c.y - p.y)
  let cc := R.fl (R.fl (np.r - n.r) * kz)
  let m := R.fl (n.r + R.fl (mz * R.fl (np.r - n.r)))
  ⟨R.fl (R.fl (R.fl (a * a) + R.fl (b * b)) - R.fl (cc * cc)),
   R.fl (R.fl (R.fl (cc * m) - R.fl (a * p.x)) - R.fl (b * p.y)),
   R.fl (R.fl (R.fl (m * m) - R.fl (p.x * p.x)) - R.fl (p.y * p.y))⟩

/-- Lines 444-453, from `term` and `q`. -/
def wallRootsR {u : ℚ} (R : Rnd u) (sq : ℚ → ℚ) (term q : ℚ) : Bool :=
  let square := R.fl (R.fl (term * term) + q)
  if square < 0 then false
  else
    let sqr := sq square
    let t1 := R.fl (term + sqr)
    let t2 := R.fl (term - sqr)
    decide ((t1 ≥ 0 ∧ t1 ≤ 1) ∨ (t2 ≥ 0 ∧ t2 ≤ 1))

/-- `__IntersectsDomain3D`, 406-457.  A horizontal tile of zero width makes `ic` infinite, and `s1` infinite or not a number: false. -/
def tileHitR {u : ℚ} (R : Rnd u) (sq : ℚ → ℚ) (np n : Q2) (p c : Q3) : Bool :=
  if np.z = n.z then
    if c.z = p.z then false
    else if n.r = np.r then false
    else
      let t1 := R.fl (R.fl (n.z - p.z) / R.fl (c.z - p.z))
      let ic := R.fl (1 / R.fl (n.r - np.r))
      let term1 := R.fl (p.x + R.fl (R.fl (c.x - p.x) * t1))
      let term2 := R.fl (p.y + R.fl (R.fl (c.y - p.y) * t1))
      let sqr := sq (R.fl (R.fl (term1 * term1) + R.fl (term2 * term2)))
      let s1 := R.fl (ic * R.fl (n.r + sqr))
      decide (s1 ≥ 0 ∧ s1 ≤ 1)
  else
    let k := wallCoefR R np n p c
    if k.abc = 0 then true
    else
      let iabc := R.fl (1 / k.abc)
      wallRootsR R sq (R.fl (k.num * iabc)) (R.fl (k.con * iabc))

/-- One round of the loop, 376-396: tile from `v` to `w`. -/
def tileTestR {u : ℚ} (R : Rnd u) (sq : ℚ → ℚ) (axisR : ℚ) (outer : Bool) (p0 p1 : Q3) (v w : Q2) : Bool :=
  if outer = false ∧ v.r > axisR ∧ w.r > axisR then false
  else if (v.z < p1.z ∧ w.z < p1.z ∧ v.z < p0.z ∧ w.z < p0.z) ∨ (v.z > p1.z ∧ w.z > p1.z ∧ v.z > p0.z ∧ w.z > p0.z) then false
  else tileHitR R sq w v p1 p0

/-- The loop with the tile from the last to the first vertex at the end. -/
def tileLoopR {u : ℚ} (R : Rnd u) (sq : ℚ → ℚ) (axisR : ℚ) (outer : Bool) (p0 p1 : Q3) (first : Q2) : List Q2 → Bool
  | [] => false
  | [v] => tileTestR R sq axisR outer p0 p1 v first
  | v :: w :: rest => tileTestR R sq axisR outer p0 p1 v w || tileLoopR R sq axisR outer p0 p1 first (w :: rest)

/-- `IntersectsDomain3D` with coordinates, 367-400. -/
def intersects3DR {u : ℚ} (R : Rnd u) (sq : ℚ → ℚ) (axis : Q2) (dom : List Q2) (p0 p1 : Q3) (outer : Bool) : Bool :=
  match dom with
  | [] => false
  | v :: rest => tileLoopR R sq axis.r outer p0 p1 v (v :: rest)

end Softlib.Magnetic
