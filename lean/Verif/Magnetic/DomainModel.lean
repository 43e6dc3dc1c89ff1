/-
Model of the domain (wall) functions of `MagneticField2D`.

Source: /repo/src/MagneticField/MagneticField2D.cpp 33-73 (`CrossesDomain`), 141-170
(`GetDomainBounds`), 210-249 (`FindMaxRadius`), 293-323 (`FindMaxMin`), 360-457
(`IntersectsDomain3D`), 459-465 (`SetDomain`).

A domain is the list of its vertices (R, z), fewer than 2^32 of them.  Exact real arithmetic.
Reading or writing outside an array is undefined behaviour.
-/
import Mathlib.Analysis.SpecialFunctions.Pow.Real
import Mathlib.Data.Real.Basic
import Mathlib.Analysis.SpecialFunctions.Trigonometric.Basic

namespace Softlib.Magnetic

noncomputable section

/-- A point of the poloidal plane. -/
structure Pt where
  r : ℝ
  z : ℝ

@[ext] theorem Pt.ext {p q : Pt} (h1 : p.r = q.r) (h2 : p.z = q.z) : p = q := by
  cases p; cases q; simp only at h1 h2; rw [h1, h2]

/-! ### CrossesDomain -/

/-- The loop, MagneticField2D.cpp 52-72, over consecutive vertices; `p` is (x00, y00), `d` is
(x01, y01). -/
def crossesLoop (p d : Pt) : List Pt → Bool
  | v :: w :: rest =>
    let x11 := w.r - v.r
    let y11 := w.z - v.z
    if p.r - v.r = 0 ∧ p.z - v.z = 0 then crossesLoop p d (w :: rest)
    else
      let det := x11 * d.z - d.r * y11
      if det = 0 then true
      else
        let s := 1 / det * ((p.r - v.r) * d.z - (p.z - v.z) * d.r)
        let t := -(1 / det) * ((p.z - v.z) * x11 - (p.r - v.r) * y11)
        if s ≥ 0 ∧ s ≤ 1 ∧ t ≥ 0 ∧ t ≤ 1 then true
        else crossesLoop p d (w :: rest)
  | _ => false

/-- `CrossesDomain` between two points, MagneticField2D.cpp 42-73.  With an empty domain the
loop bound `ndomain-1` wraps around and the arrays are read outside: `none`. -/
def crossesDomain (dom : List Pt) (x1 y1 z1 x2 y2 z2 : ℝ) : Option Bool :=
  if dom.isEmpty then none
  else
    let r := Real.sqrt (x2 ^ 2 + y2 ^ 2)
    let x00 := Real.sqrt (x1 ^ 2 + y1 ^ 2)
    some (crossesLoop ⟨x00, z1⟩ ⟨r - x00, z2 - z1⟩ dom)

/-! ### domain, bounds -/

/-- The rectangle. -/
structure Box where
  rmin : ℝ
  rmax : ℝ
  zmin : ℝ
  zmax : ℝ

/-- Members concerned with the domain. -/
structure Dom where
  axis : Pt
  dom : List Pt
  boundsSet : Bool
  bounds : Box

/-- One round of the loop, MagneticField2D.cpp 154-162. -/
def boxAdd (b : Box) (v : Pt) : Box :=
  let b1 : Box := if v.r < b.rmin then ⟨v.r, b.rmax, b.zmin, b.zmax⟩
    else if v.r > b.rmax then ⟨b.rmin, v.r, b.zmin, b.zmax⟩ else b
  if v.z < b1.zmin then ⟨b1.rmin, b1.rmax, v.z, b1.zmax⟩
  else if v.z > b1.zmax then ⟨b1.rmin, b1.rmax, b1.zmin, v.z⟩ else b1

/-- `GetDomainBounds`, MagneticField2D.cpp 141-170. -/
def getBounds (s : Dom) : Dom × Box :=
  if s.boundsSet then (s, s.bounds)
  else
    let b := s.dom.foldl boxAdd ⟨s.axis.r, s.axis.r, s.axis.z, s.axis.z⟩
    (⟨s.axis, s.dom, true, b⟩, b)

/-- `SetDomain`, MagneticField2D.cpp 459-465: the assignments (the call of `FindMaxRadius` does
not change these members). -/
def setDomain (s : Dom) (d : List Pt) : Dom := ⟨s.axis, d, s.boundsSet, s.bounds⟩

/-! ### FindMaxRadius -/

/-- Condition of lines 217-218. -/
def spans (za : ℝ) (v w : Pt) : Prop := (v.z ≥ za ∧ w.z ≤ za) ∨ (v.z ≤ za ∧ w.z ≥ za)

instance (za : ℝ) (v w : Pt) : Decidable (spans za v w) := by unfold spans; infer_instance

/-- Lines 219-222. -/
def crossR (za : ℝ) (v w : Pt) : ℝ :=
  if w.z = v.z then max v.r w.r else v.r + (w.r - v.r) * (za - v.z) / (w.z - v.z)

/-- The loop, lines 216-224: it stops at the end or when two points have been found. -/
def rpointsLoop (za : ℝ) : List Pt → List ℝ → List ℝ
  | v :: w :: rest, acc =>
    if acc.length < 2 then
      if spans za v w then rpointsLoop za (w :: rest) (acc ++ [crossR za v w])
      else rpointsLoop za (w :: rest) acc
    else acc
  | _, acc => acc

/-- Result of `FindMaxRadius`. -/
inductive MaxRes where
  | ub
  /-- the exception of line 236 -/
  | notInside
  | ok (maxradius minradius : ℝ)

/-- Lines 239-246. -/
def maxMin : ℝ → ℝ → List ℝ → ℝ × ℝ
  | mx, mn, [] => (mx, mn)
  | mx, mn, x :: xs => if x > mx then maxMin x mn xs else if x < mn then maxMin mx x xs else maxMin mx mn xs

def rpointsResult : List ℝ → MaxRes
  | [] => .notInside
  | x :: xs => let m := maxMin x x xs; .ok m.1 m.2

/-- `FindMaxRadius`, lines 210-249.  In the block for the last and first point (227-233) the
index `i` is either `n-1`, so that element `n` is read, or the loop stopped with two points, so
that `rpoints[2]` is written: undefined in both cases. -/
def findMaxRadius (axis : Pt) (dom : List Pt) : MaxRes :=
  match dom.head?, dom.getLast? with
  | some v0, some vl =>
    if spans axis.z vl v0 then .ub else rpointsResult (rpointsLoop axis.z dom [])
  | _, _ => .ub

/-- `FindMaxMin`, lines 293-323, with `y` as constraint: (value, constraint) pairs as points.
An empty domain makes the loop read outside. -/
def findMaxMin (dom : List Pt) (a : ℝ) : MaxRes :=
  if dom = [] then .ub else rpointsResult (rpointsLoop a dom [])

/-- Domain of an analytical field, MagneticFieldAnalytical2D.cpp 86-105: `N` points on a circle
(N = 50), the last one repeating the first. -/
def circleDomain (N : Nat) (rm zm rminor : ℝ) : List Pt :=
  let pt (i : Nat) : Pt := ⟨rm + rminor * Real.cos (2 * Real.pi * (i / (N - 1 : ℕ))), zm + rminor * Real.sin (2 * Real.pi * (i / (N - 1 : ℕ)))⟩
  (List.range (N - 1)).map pt ++ [pt 0]

/-! ### IntersectsDomain3D -/

structure P3 where
  x : ℝ
  y : ℝ
  z : ℝ

/-- `__IntersectsDomain3D`, lines 406-457: tile from (xn, zn) to (xnp, znp), line from `p`
(t = 0) to `c` (t = 1).  A horizontal tile of zero width divides by zero (`ic` infinite, `s1`
infinite or NaN): false. -/
def tileHit (np n : Pt) (p c : P3) : Bool :=
  if np.z = n.z then
    if c.z = p.z then false
    else if n.r = np.r then false
    else
      let t1 := (n.z - p.z) / (c.z - p.z)
      let ic := 1 / (n.r - np.r)
      let term1 := p.x + (c.x - p.x) * t1
      let term2 := p.y + (c.y - p.y) * t1
      let sqr := Real.sqrt (term1 * term1 + term2 * term2)
      let s1 := ic * (n.r + sqr)
      decide (s1 ≥ 0 ∧ s1 ≤ 1)
  else
    let izn := 1 / (np.z - n.z)
    let kz := (c.z - p.z) * izn
    let mz := (p.z - n.z) * izn
    let a := c.x - p.x
    let b := c.y - p.y
    let cc := (np.r - n.r) * kz
    let m := n.r + mz * (np.r - n.r)
    let abc := a * a + b * b - cc * cc
    if abc = 0 then true
    else
      let iabc := 1 / abc
      let term := (cc * m - a * p.x - b * p.y) * iabc
      let q := (m * m - p.x * p.x - p.y * p.y) * iabc
      let square := term * term + q
      if square < 0 then false
      else
        let sqr := Real.sqrt square
        let t1 := term + sqr
        let t2 := term - sqr
        decide ((t1 ≥ 0 ∧ t1 ≤ 1) ∨ (t2 ≥ 0 ∧ t2 ≤ 1))

/-- One round of the loop, lines 376-396: tile from `v` to `w`. -/
def tileTest (axisR : ℝ) (outer : Bool) (p0 p1 : P3) (v w : Pt) : Bool :=
  if outer = false ∧ v.r > axisR ∧ w.r > axisR then false
  else if (v.z < p1.z ∧ w.z < p1.z ∧ v.z < p0.z ∧ w.z < p0.z) ∨ (v.z > p1.z ∧ w.z > p1.z ∧ v.z > p0.z ∧ w.z > p0.z) then false
  else tileHit w v p1 p0

/-- The loop with the tile from the last to the first vertex at the end. -/
def tileLoop (axisR : ℝ) (outer : Bool) (p0 p1 : P3) (first : Pt) : List Pt → Bool
  | [] => false
  | [v] => tileTest axisR outer p0 p1 v first
  | v :: w :: rest => tileTest axisR outer p0 p1 v w || tileLoop axisR outer p0 p1 first (w :: rest)

/-- `IntersectsDomain3D` with coordinates, lines 367-400. -/
def intersects3D (axis : Pt) (dom : List Pt) (p0 p1 : P3) (outer : Bool) : Bool :=
  match dom with
  | [] => false
  | v :: rest => tileLoop axis.r outer p0 p1 v (v :: rest)

/-- `IntersectsDomain3D` with pointers, lines 360-366: the third coordinate of the first point is
taken from `xyz0[1]`. -/
def intersects3DPtr (axis : Pt) (dom : List Pt) (p0 p1 : P3) (outer : Bool) : Bool :=
  intersects3D axis dom ⟨p0.x, p0.y, p0.y⟩ p1 outer

end

end Softlib.Magnetic
