/-
The wall with rounded arithmetic.

Source: /repo/src/MagneticField/MagneticField2D.cpp 42-73 (`CrossesDomain`), 210-249 (`FindMaxRadius`), 293-323
(`FindMaxMin`).

The models of DomainModel.lean with every operation rounded (RoundModel.lean).  The positions are given in the poloidal
plane: what `hypot` makes of x and y is a parameter.  Negation is exact.  The factors are rounded one by one: no fused
multiply-add.
-/
import Verif.General.RoundModel
import Verif.Magnetic.DomainModel

namespace Softlib.Magnetic

open Softlib.General

/-- A point of the poloidal plane, of numbers that are rational. -/
structure Q2 where
  r : ℚ
  z : ℚ

/-- The same point for the models with real numbers. -/
noncomputable def Q2.real (p : Q2) : Pt := ⟨(p.r : ℝ), (p.z : ℝ)⟩

variable {u : ℚ}

/-- `a*b - c*d`. -/
def detR (R : Rnd u) (a b c d : ℚ) : ℚ := R.fl (R.fl (a * b) - R.fl (c * d))

/-- The loop, MagneticField2D.cpp 52-72; `p` is (x00, y00), `d` is (x01, y01). -/
def crossesLoopR (R : Rnd u) (p d : Q2) : List Q2 → Bool
  | v :: w :: rest =>
    let x11 := R.fl (w.r - v.r)
    let y11 := R.fl (w.z - v.z)
    let a := R.fl (p.r - v.r)
    let b := R.fl (p.z - v.z)
    if a = 0 ∧ b = 0 then crossesLoopR R p d (w :: rest)
    else
      let det := detR R x11 d.z d.r y11
      if det = 0 then true
      else
        let s := R.fl (R.fl (1 / det) * detR R a d.z b d.r)
        let t := R.fl (-R.fl (1 / det) * detR R b x11 a y11)
        if s ≥ 0 ∧ s ≤ 1 ∧ t ≥ 0 ∧ t ≤ 1 then true
        else crossesLoopR R p d (w :: rest)
  | _ => false

/-- `CrossesDomain` between two points of the poloidal plane, 46-73; without vertices the arrays are read outside. -/
def crossesR (R : Rnd u) (dom : List Q2) (p q : Q2) : Option Bool :=
  if dom.isEmpty then none else some (crossesLoopR R p ⟨R.fl (q.r - p.r), R.fl (q.z - p.z)⟩ dom)

/-- Lines 217-218 and 301-302. -/
def spansQ (za : ℚ) (v w : Q2) : Prop := (v.z ≥ za ∧ w.z ≤ za) ∨ (v.z ≤ za ∧ w.z ≥ za)

instance (za : ℚ) (v w : Q2) : Decidable (spansQ za v w) := by unfold spansQ; infer_instance

/-- Lines 219-222 and 303-306. -/
def crossRR (R : Rnd u) (za : ℚ) (v w : Q2) : ℚ :=
  if w.z = v.z then max v.r w.r
  else R.fl (v.r + R.fl (R.fl (R.fl (w.r - v.r) * R.fl (za - v.z)) / R.fl (w.z - v.z)))

/-- The loop, lines 216-224 and 300-308. -/
def rpointsLoopR (R : Rnd u) (za : ℚ) : List Q2 → List ℚ → List ℚ
  | v :: w :: rest, acc =>
    if acc.length < 2 then
      if spansQ za v w then rpointsLoopR R za (w :: rest) (acc ++ [crossRR R za v w])
      else rpointsLoopR R za (w :: rest) acc
    else acc
  | _, acc => acc

/-- Result of `FindMaxRadius` and `FindMaxMin`. -/
inductive MaxResQ where
  | ub
  | notInside
  | ok (mx mn : ℚ)
  deriving DecidableEq

/-- Lines 239-246 and 314-322. -/
def maxMinQ : ℚ → ℚ → List ℚ → ℚ × ℚ
  | mx, mn, [] => (mx, mn)
  | mx, mn, x :: xs => if x > mx then maxMinQ x mn xs else if x < mn then maxMinQ mx x xs else maxMinQ mx mn xs

def rpointsResultQ : List ℚ → MaxResQ
  | [] => .notInside
  | x :: xs => let m := maxMinQ x x xs; .ok m.1 m.2

/-- `FindMaxRadius`, lines 210-249. -/
def findMaxRadiusR (R : Rnd u) (axis : Q2) (dom : List Q2) : MaxResQ :=
  match dom.head?, dom.getLast? with
  | some v0, some vl => if spansQ axis.z vl v0 then .ub else rpointsResultQ (rpointsLoopR R axis.z dom [])
  | _, _ => .ub

/-- `FindMaxMin`, lines 293-323. -/
def findMaxMinR (R : Rnd u) (dom : List Q2) (a : ℚ) : MaxResQ :=
  if dom.isEmpty then .ub else rpointsResultQ (rpointsLoopR R a dom [])

end Softlib.Magnetic
