/-
Several threads asking one magnetic field about its radii and its domain.

Source: /repo/src/MagneticField/MagneticField2D.cpp 141-170 (`GetDomainBounds`), 179-196 (`GetMaxRadius`,
`FindMaxRadius`, `GetMinRadius`, `FindMinRadius`), 210-249 (`FindMaxRadius` with a contour), 337-340
(`FindMinRadius`);
/repo/include/softlib/MagneticField/MagneticField2D.h 24.

The functions of `DomainModel.lean`, cut into steps with one access each to the
members they change: `maxradius`, `minradius`, `bounds_set` and the four numbers in `bounds`.  The
contour and the axis are only read; what is computed from them (the crossing radii and the rectangle)
is local to the thread and the same for every one.  The steps of different threads are interleaved in
any order, with each access seen at once by all threads.  C++ guarantees that only where no two threads
access the same member with one of them writing (`QRace`); otherwise the behaviour is undefined.  Exact
real arithmetic.
-/
import Verif.Magnetic.DomainModel

namespace Softlib.Magnetic

noncomputable section

/-- The members that the queries change; `b` are `bounds.rmin`, `rmax`, `zmin`, `zmax`. -/
structure QObj where
  maxr : ℝ
  minr : ℝ
  bset : Bool
  b : Nat → ℝ

/-- What the queries compute from the contour: the crossing radii (`none`: undefined behaviour while
looking for them) and the rectangle. -/
structure Contour where
  pts : Option (List ℝ)
  box : Nat → ℝ

/-- Lines 211-233: the array `rpoints`, as in `findMaxRadius`. -/
def rpoints (axis : Pt) (dom : List Pt) : Option (List ℝ) :=
  match dom.head?, dom.getLast? with
  | some v0, some vl => if spans axis.z vl v0 then none else some (rpointsLoop axis.z dom [])
  | _, _ => none

/-- The four numbers of a rectangle, in the order in which they are written, 165-168. -/
def Box.nth (b : Box) : Nat → ℝ
  | 0 => b.rmin
  | 1 => b.rmax
  | 2 => b.zmin
  | _ => b.zmax

/-- The contour of a field. -/
def Contour.of (axis : Pt) (dom : List Pt) : Contour :=
  ⟨rpoints axis dom, (dom.foldl boxAdd ⟨axis.r, axis.r, axis.z, axis.z⟩).nth⟩

/-- The functions that are called. -/
inductive QOp where
  | getMax | getMin | findMax | findMin | bounds
  deriving DecidableEq

/-- Where a thread is in a call. -/
inductive QPc where
  /-- before the test of 180, 189 or 142 -/
  | start
  /-- 181, 190: about to read the member that is returned -/
  | reread
  /-- 239: about to write `maxradius`; the first and the other points -/
  | wmax0 (x : ℝ) (xs : List ℝ)
  /-- 240: about to write `minradius` -/
  | wmin0 (x : ℝ) (xs : List ℝ)
  /-- 242: about to compare the next point with `maxradius` -/
  | cmpMax (xs : List ℝ)
  /-- 243: about to write `maxradius` -/
  | wmax (y : ℝ) (xs : List ℝ)
  /-- 244: about to compare the point with `minradius` -/
  | cmpMin (y : ℝ) (xs : List ℝ)
  /-- 245: about to write `minradius` -/
  | wmin (y : ℝ) (xs : List ℝ)
  /-- 248: about to read `maxradius` -/
  | readMax
  /-- 339: about to read `minradius` -/
  | readMin
  /-- 143-146: about to read number `i` of `bounds` -/
  | rb (i : Nat) (acc : List ℝ)
  /-- 165-168: about to write number `i` of `bounds` -/
  | wb (i : Nat)
  /-- 169: about to set `bounds_set` -/
  | wset
  /-- undefined behaviour has happened -/
  | dead

/-- What one step does: go on, return, or throw. -/
inductive QStep where
  | next (o : QObj) (pc : QPc)
  | ret (o : QObj) (v : List ℝ)
  | throws

/-- The beginning of `FindMaxRadius` with the points found, 211-237. -/
def qFind (c : Contour) (o : QObj) : QStep :=
  match c.pts with
  | none => .next o .dead
  | some [] => .throws
  | some (x :: xs) => .next o (.wmax0 x xs)

/-- One step of a call. -/
def qStep (c : Contour) (o : QObj) (q : QOp) : QPc → QStep
  | .start =>
    match q with
    | .getMax => if o.maxr > 0 then .next o .reread else qFind c o
    | .getMin => if o.minr ≥ 0 then .next o .reread else qFind c o
    | .findMax => qFind c o
    | .findMin => qFind c o
    | .bounds => if o.bset then .next o (.rb 0 []) else .next o (.wb 0)
  | .reread =>
    match q with
    | .getMin => .ret o [o.minr]
    | _ => .ret o [o.maxr]
  | .wmax0 x xs => .next { o with maxr := x } (.wmin0 x xs)
  | .wmin0 x xs => .next { o with minr := x } (.cmpMax xs)
  | .cmpMax [] => .next o .readMax
  | .cmpMax (y :: xs) => if y > o.maxr then .next o (.wmax y xs) else .next o (.cmpMin y xs)
  | .wmax y xs => .next { o with maxr := y } (.cmpMax xs)
  | .cmpMin y xs => if y < o.minr then .next o (.wmin y xs) else .next o (.cmpMax xs)
  | .wmin y xs => .next { o with minr := y } (.cmpMax xs)
  | .readMax =>
    match q with
    | .getMin => .next o .readMin
    | .findMin => .next o .readMin
    | _ => .ret o [o.maxr]
  | .readMin => .ret o [o.minr]
  | .rb i acc => if i < 3 then .next o (.rb (i + 1) (acc ++ [o.b i])) else .ret o (acc ++ [o.b i])
  | .wb i => .next { o with b := fun j => if j = i then c.box i else o.b j } (if i < 3 then .wb (i + 1) else .wset)
  | .wset => .ret { o with bset := true } [c.box 0, c.box 1, c.box 2, c.box 3]
  | .dead => .next o .dead

/-- The members that can be accessed. -/
inductive QLoc where
  | maxr | minr | bset | b (i : Nat)
  deriving DecidableEq

/-- The member accessed by the next step, and whether it is written. -/
def qAccess (q : QOp) : QPc → Option (QLoc × Bool)
  | .start =>
    match q with
    | .getMax => some (.maxr, false)
    | .getMin => some (.minr, false)
    | .bounds => some (.bset, false)
    | _ => none
  | .reread =>
    match q with
    | .getMin => some (.minr, false)
    | _ => some (.maxr, false)
  | .wmax0 _ _ => some (.maxr, true)
  | .wmin0 _ _ => some (.minr, true)
  | .cmpMax [] => none
  | .cmpMax (_ :: _) => some (.maxr, false)
  | .wmax _ _ => some (.maxr, true)
  | .cmpMin _ _ => some (.minr, false)
  | .wmin _ _ => some (.minr, true)
  | .readMax => some (.maxr, false)
  | .readMin => some (.minr, false)
  | .rb i _ => some (.b i, false)
  | .wb i => some (.b i, true)
  | .wset => some (.bset, true)
  | .dead => none

/-- A thread: the call it is in, the calls it will make, and the calls that have ended with what they
returned (`none`: the exception of line 236). -/
structure QThread where
  cur : Option (QOp × QPc)
  todo : List QOp
  out : List (QOp × Option (List ℝ))

structure QState where
  obj : QObj
  th : Nat → QThread

/-- Replace one thread. -/
def QState.put (s : QState) (o : QObj) (k : Nat) (t : QThread) : QState :=
  ⟨o, fun j => if j = k then t else s.th j⟩

/-- Thread `k` takes a step: it makes its next call, or goes on with the one it is in. -/
def qThreadStep (c : Contour) (s : QState) (k : Nat) : QState :=
  let t := s.th k
  match t.cur with
  | none =>
    match t.todo with
    | [] => s
    | q :: rest => s.put s.obj k ⟨some (q, .start), rest, t.out⟩
  | some (q, pc) =>
    match qStep c s.obj q pc with
    | .next o pc' => s.put o k ⟨some (q, pc'), t.todo, t.out⟩
    | .ret o v => s.put o k ⟨none, t.todo, t.out ++ [(q, some v)]⟩
    | .throws => s.put s.obj k ⟨none, t.todo, t.out ++ [(q, none)]⟩

/-- The threads take steps in the order given. -/
def qRun (c : Contour) (s : QState) (sched : List Nat) : QState := sched.foldl (qThreadStep c) s

/-- All threads before their first call. -/
def qStart (o : QObj) (tasks : Nat → List QOp) : QState := ⟨o, fun k => ⟨none, tasks k, []⟩⟩

/-- Two threads are about to access the same member and one of them writes it: a data race. -/
def QRace (s : QState) : Prop :=
  ∃ i j qi pi qj pj l wi wj, i ≠ j ∧ (s.th i).cur = some (qi, pi) ∧ (s.th j).cur = some (qj, pj) ∧
    qAccess qi pi = some (l, wi) ∧ qAccess qj pj = some (l, wj) ∧ (wi = true ∨ wj = true)

end

end Softlib.Magnetic
