/-
Model of numeric fields and tables as memory that several threads evaluate.

Source: /repo/src/MagneticField/MagneticFieldNumeric2D.cpp 66-107 (the members `interpval`, `jacobian`), 262-291
(`InitInterpolation`: one pair of accelerators per object), 300-321 (`Eval`), 333-395 (`__EvalJacobian`), 397-431
(`EvalDerivatives`), 439-475 (flux); /repo/include/softlib/MagneticField/MagneticField2D.h 8-18, 43 (`magdata`);
/repo/src/DistributionFunction/NumericMomentumSpaceDistributionFunction.cpp 26-49 (`Eval`), 86-97 (accelerators), 136-142
(`MinClone`).

The search for the cell is written out from the GNU Scientific Library: bsearch.c (`gsl_interp_bsearch`), accel.c
(`gsl_interp_accel_alloc`, `gsl_interp_accel_find`: the cell found last is tried first, and the result is read from the
accelerator), interp2d.c (the check of the range).  The counters of hits and misses, which nothing reads, are left out.  In a
cell the spline is an arbitrary function of cell and point.

An evaluation is a program whose steps are the accesses to what it may change: the accelerators and the buffers in which results
are shown.  The copying of the result by the caller belongs to the evaluation.  Grids and splines are only read.  The steps of
different threads are interleaved in any order, each access seen at once by all threads; the C++ memory model guarantees that
when no two threads access the same location with one of them writing.  After the error handler of GSL, or undefined behaviour,
nothing happens any more.  Exact real arithmetic; a field that vanishes (`.nonfinite`) leaves `magdata` as it is (it is filled
with NaN in the code; the next evaluation overwrites it).
-/
import Verif.Magnetic.GslModel
import Verif.Dist.MomentumModel

namespace Softlib.Magnetic

noncomputable section

/-! ### programs -/

/-- The buffers of a field: `interpval`, the block of `jacobian`, `magdata` (without the pointer), `flux_data`. -/
inductive Shown where
  | vec
  | jac
  | data
  | flux
  deriving DecidableEq

/-- What evaluations change: the cells kept by the accelerators, and the buffers. -/
structure Scratch where
  acc : Nat → Nat
  buf : Shown → Nat → ℝ

def Scratch.setAcc (m : Scratch) (i n : Nat) : Scratch := ⟨fun j => if j = i then n else m.acc j, m.buf⟩

def Scratch.setBuf (m : Scratch) (b : Shown) (i : Nat) (v : ℝ) : Scratch :=
  ⟨m.acc, fun b' j => if b' = b ∧ j = i then v else m.buf b' j⟩

/-- A program, by its accesses. -/
inductive Access (α : Type) where
  | ret (a : α)
  | getAcc (i : Nat) (k : Nat → Access α)
  | setAcc (i n : Nat) (k : Access α)
  | getBuf (b : Shown) (i : Nat) (k : ℝ → Access α)
  | setBuf (b : Shown) (i : Nat) (v : ℝ) (k : Access α)

/-- One after the other. -/
def Access.seq {α β : Type} : Access (LRes α) → (α → Access (LRes β)) → Access (LRes β)
  | .ret (.ok a), f => f a
  | .ret .ub, _ => .ret .ub
  | .ret .aborts, _ => .ret .aborts
  | .ret .nonfinite, _ => .ret .nonfinite
  | .ret .throws, _ => .ret .throws
  | .getAcc i k, f => .getAcc i fun n => (k n).seq f
  | .setAcc i n k, f => .setAcc i n (k.seq f)
  | .getBuf b i k, f => .getBuf b i fun v => (k v).seq f
  | .setBuf b i v k, f => .setBuf b i v (k.seq f)

/-- One access. -/
def Access.step {α : Type} : Access α → Scratch → Access α × Scratch
  | .ret a, m => (.ret a, m)
  | .getAcc i k, m => (k (m.acc i), m)
  | .setAcc i n k, m => (k, m.setAcc i n)
  | .getBuf b i k, m => (k (m.buf b i), m)
  | .setBuf b i v k, m => (k, m.setBuf b i v)

/-- All accesses, undisturbed. -/
def Access.run {α : Type} : Access α → Scratch → α × Scratch
  | .ret a, m => (a, m)
  | .getAcc i k, m => (k (m.acc i)).run m
  | .setAcc i n k, m => k.run (m.setAcc i n)
  | .getBuf b i k, m => (k (m.buf b i)).run m
  | .setBuf b i v k, m => k.run (m.setBuf b i v)

/-- Write a list into a buffer, from position `i` on. -/
def storeFrom {α : Type} (b : Shown) : Nat → List ℝ → Access α → Access α
  | _, [], k => k
  | i, v :: vs, k => .setBuf b i v (storeFrom b (i + 1) vs k)

/-- Read `n` entries of a buffer, from position `i` on. -/
def fetchFrom {α : Type} (b : Shown) : Nat → Nat → (List ℝ → Access α) → Access α
  | _, 0, k => k []
  | i, n + 1, k => .getBuf b i fun v => fetchFrom b (i + 1) n fun vs => k (v :: vs)

/-! ### the search for the cell -/

/-- `gsl_interp_bsearch`. -/
def bsearch (xs : List ℝ) (x : ℝ) (lo hi : Nat) : LRes Nat :=
  if lo + 1 < hi then
    match xs[(hi + lo) / 2]? with
    | none => .ub
    | some v => if v > x then bsearch xs x lo ((hi + lo) / 2) else bsearch xs x ((hi + lo) / 2) hi
  else .ok lo
termination_by hi - lo
decreasing_by all_goals omega

/-- `gsl_interp_accel_find`: a new search, and its result to the accelerator. -/
def accelSearch (a : Nat) (xs : List ℝ) (x : ℝ) (lo hi : Nat) : Access (LRes Unit) :=
  match bsearch xs x lo hi with
  | .ok i => .setAcc a i (.ret (.ok ()))
  | _ => .ret .ub

/-- `gsl_interp_accel_find`, before its result is read from the accelerator. -/
def accelUpdate (a : Nat) (xs : List ℝ) (x : ℝ) : Access (LRes Unit) :=
  .getAcc a fun c =>
    match xs[c]? with
    | none => .ret .ub
    | some u =>
      if x < u then accelSearch a xs x 0 c
      else
        match xs[c + 1]? with
        | none => .ret .ub
        | some v => if x ≥ v then accelSearch a xs x c (xs.length - 1) else .ret (.ok ())

/-- `gsl_interp_accel_find` with accelerator `a`. -/
def accelFind (a : Nat) (xs : List ℝ) (x : ℝ) : Access (LRes Nat) :=
  (accelUpdate a xs x).seq fun _ => .getAcc a fun c => .ret (.ok c)

/-! ### fields -/

/-- A spline, cell by cell. -/
structure CellSpl where
  val : Nat → Nat → ℝ → ℝ → ℝ
  dr : Nat → Nat → ℝ → ℝ → ℝ
  dz : Nat → Nat → ℝ → ℝ → ℝ

/-- The functions it stands for. -/
def CellSpl.spl (s : CellSpl) (R Z : List ℝ) : Spl :=
  ⟨fun r z => s.val (cellOf R r) (cellOf Z z) r z, fun r z => s.dr (cellOf R r) (cellOf Z z) r z,
   fun r z => s.dz (cellOf R r) (cellOf Z z) r z⟩

/-- What the evaluation functions only read. -/
structure CField where
  R : List ℝ
  Z : List ℝ
  br : CellSpl
  bphi : CellSpl
  bz : CellSpl
  psi : Option CellSpl

/-- The field as functions (`NumericModel.lean`). -/
def CField.grid (f : CField) : NGrid :=
  ⟨f.R.headD 0, f.R.getLastD 0, f.Z.headD 0, f.Z.getLastD 0, f.br.spl f.R f.Z, f.bphi.spl f.R f.Z, f.bz.spl f.R f.Z,
   f.psi.map fun s => s.spl f.R f.Z⟩

/-- The members that are only read, made from the arrays; `cells R Z data` is `gsl_spline2d_init`. -/
def NField.cells (cells : List ℝ → List ℝ → List ℝ → CellSpl) (f : NField) : CField :=
  ⟨f.R, f.Z, cells f.R f.Z f.Br, cells f.R f.Z f.Bphi, cells f.R f.Z f.Bz, f.Psi.map (cells f.R f.Z)⟩

/-- `gsl_spline2d_eval` and its derivatives, with the accelerators 0 (`ra`) and 1 (`za`). -/
def CField.ask (f : CField) (s : Nat → Nat → ℝ → ℝ → ℝ) (r z : ℝ) : Access (LRes ℝ) :=
  if r < f.R.headD 0 ∨ r > f.R.getLastD 0 then .ret .aborts
  else if z < f.Z.headD 0 ∨ z > f.Z.getLastD 0 then .ret .aborts
  else (accelFind 0 f.R r).seq fun i => (accelFind 1 f.Z z).seq fun j => .ret (.ok (s i j r z))

/-- `Eval`, 300-319: until the result is in `interpval`. -/
def CField.storeVec (f : CField) (x y z : ℝ) : Access (LRes Unit) :=
  let r := clampTo (f.R.headD 0) (f.R.getLastD 0) (hyp x y)
  let zz := clampTo (f.Z.headD 0) (f.Z.getLastD 0) z
  (f.ask f.br.val r zz).seq fun br =>
  (f.ask f.bphi.val r zz).seq fun bphi =>
  (f.ask f.bz.val r zz).seq fun bz =>
    let sin0 := if r ≠ 0 then y / r else 0
    let cos0 := if r ≠ 0 then x / r else 1
    storeFrom .vec 0 [br * cos0 - bphi * sin0, br * sin0 + bphi * cos0, bz] (.ret (.ok ()))

/-- `Eval`, 300-321, and a copy of the result. -/
def CField.askVec (f : CField) (x y z : ℝ) : Access (LRes (List ℝ)) :=
  (f.storeVec x y z).seq fun _ => fetchFrom .vec 0 3 fun l => .ret (.ok l)

/-- `__EvalJacobian`, 333-395. -/
def CField.storeJac (f : CField) (x y z : ℝ) : Access (LRes Unit) :=
  let r := clampTo (f.R.headD 0) (f.R.getLastD 0) (hyp x y)
  let zz := clampTo (f.Z.headD 0) (f.Z.getLastD 0) z
  (f.ask f.br.dr r zz).seq fun dBr_dr =>
  (f.ask f.br.dz r zz).seq fun dBr_dz =>
  (f.ask f.bphi.dr r zz).seq fun dB0_dr =>
  (f.ask f.bphi.dz r zz).seq fun dB0_dz =>
  (f.ask f.bz.dr r zz).seq fun dBz_dr =>
  (f.ask f.bz.dz r zz).seq fun dBz_dz =>
  (f.ask f.br.val r zz).seq fun br =>
  (f.ask f.bphi.val r zz).seq fun b0 =>
  (f.ask f.bz.val r zz).seq fun bz =>
    let sin0 := if r ≠ 0 then y / r else 0
    let cos0 := if r ≠ 0 then x / r else 1
    let sin20 := sin0 * sin0
    let cos20 := cos0 * cos0
    let sc0 := sin0 * cos0
    let dsin0_dx := if r ≠ 0 then -sc0 / r else 0
    let dcos0_dx := if r ≠ 0 then sin20 / r else 0
    let dsin0_dy := if r ≠ 0 then cos20 / r else 0
    let dcos0_dy := if r ≠ 0 then -sc0 / r else 0
    storeFrom .vec 0 [br * cos0 - b0 * sin0, br * sin0 + b0 * cos0, bz] <|
    storeFrom .jac 0
      [cos20 * dBr_dr + br * dcos0_dx - sc0 * dB0_dr - b0 * dsin0_dx,
       sc0 * dBr_dr + br * dcos0_dy - sin20 * dB0_dr - b0 * dsin0_dy,
       cos0 * dBr_dz - sin0 * dB0_dz,
       sc0 * dBr_dr + br * dsin0_dx + cos20 * dB0_dr + b0 * dcos0_dx,
       sin20 * dBr_dr + br * dsin0_dy + sc0 * dB0_dr + b0 * dcos0_dy,
       sin0 * dBr_dz + cos0 * dB0_dz,
       cos0 * dBz_dr, sin0 * dBz_dr, dBz_dz] <|
    .ret (.ok ())

/-- `EvalDerivatives`, 397-431, and a copy of the result (`Babs`, `B`, `gradB`, `curlB` and the matrix at `J`). -/
def CField.askDeriv (f : CField) (x y z : ℝ) : Access (LRes (List ℝ)) :=
  (f.storeJac x y z).seq fun _ =>
  fetchFrom .jac 0 9 fun l =>
  fetchFrom .vec 0 3 fun v =>
    let J : Nat → Nat → ℝ := fun i j => l.getD (3 * i + j) 0
    let Bx := v.getD 0 0
    let By := v.getD 1 0
    let Bz := v.getD 2 0
    match babsOf Bx By Bz with
    | none => .ret .nonfinite
    | some babs =>
      storeFrom .data 0
        [babs, Bx, By, Bz,
         (Bx * J 0 0 + By * J 1 0 + Bz * J 2 0) / babs,
         (Bx * J 0 1 + By * J 1 1 + Bz * J 2 1) / babs,
         (Bx * J 0 2 + By * J 1 2 + Bz * J 2 2) / babs,
         J 2 1 - J 1 2, J 0 2 - J 2 0, J 1 0 - J 0 1] <|
      fetchFrom .data 0 10 fun d => fetchFrom .jac 0 9 fun jac => .ret (.ok (d ++ jac))

/-- `EvalFlux`, 439-447. -/
def CField.askFlux (f : CField) (x y z : ℝ) : Access (LRes (List ℝ)) :=
  match f.psi with
  | none => .ret .throws
  | some s => (f.ask s.val (hyp x y) z).seq fun v => .ret (.ok [v])

/-- `EvalFluxDerivatives`, 463-475, and a copy of the result. -/
def CField.askFluxDeriv (f : CField) (x y z : ℝ) : Access (LRes (List ℝ)) :=
  match f.psi with
  | none => .ret .throws
  | some s =>
    (f.ask s.val (hyp x y) z).seq fun v =>
    .setBuf .flux 0 v <| (f.ask s.dr (hyp x y) z).seq fun u =>
    .setBuf .flux 1 u <| (f.ask s.dz (hyp x y) z).seq fun w =>
    .setBuf .flux 2 w <| fetchFrom .flux 0 3 fun l => .ret (.ok l)

/-- The evaluation functions, with the point. -/
inductive Ask where
  | vec (x y z : ℝ)
  | deriv (x y z : ℝ)
  | flux (x y z : ℝ)
  | fluxDeriv (x y z : ℝ)

def CField.prog (f : CField) : Ask → Access (LRes (List ℝ))
  | .vec x y z => f.askVec x y z
  | .deriv x y z => f.askDeriv x y z
  | .flux x y z => f.askFlux x y z
  | .fluxDeriv x y z => f.askFluxDeriv x y z

/-! ### tables -/

/-- `Eval` of a table, 25-49, with the accelerators 0 (`pa`) and 1 (`xia`); `val` is the interpolation in a cell. -/
def tableAsk (val : Dist.Table → Nat → Nat → ℝ → ℝ → Dist.FV) (t : Dist.Table) (p xi : ℝ) : Access (LRes Dist.FV) :=
  if p < t.p.headD 0 ∨ p > t.p.getLastD 0 then .ret .aborts
  else if xi < t.xi.headD 0 ∨ xi > t.xi.getLastD 0 then .ret .aborts
  else (accelFind 0 t.p p).seq fun i => (accelFind 1 t.xi xi).seq fun j => .ret (.ok (val t i j p xi))

def tableProg (val : Dist.Table → Nat → Nat → ℝ → ℝ → Dist.FV) (m : Dist.NMom) (q : ℝ × ℝ) : Access (LRes Dist.FV) :=
  if q.1 < m.pmin ∨ q.1 > m.pmax then .ret (.ok (.num 0))
  else if m.flip = true then
    if q.2 < -m.ximax ∨ q.2 > -m.ximin then .ret (.ok (.num 0))
    else (tableAsk val m.table q.1 (-q.2)).seq fun v => .ret (.ok (Dist.unlog m.logarithmic v))
  else
    if q.2 < m.ximin ∨ q.2 > m.ximax then .ret (.ok (.num 0))
    else (tableAsk val m.table q.1 q.2).seq fun v => .ret (.ok (Dist.unlog m.logarithmic v))

/-! ### threads -/

/-- A thread: the evaluations (object and arguments) still to do, the one it is in, and the results so far. -/
structure Worker (C β : Type) where
  todo : List (Nat × C)
  cur : Option (Nat × Access (LRes β))
  out : List (LRes β)

/-- The objects' memory, the threads, and whether the process has ended. -/
structure Pool (C β : Type) where
  mem : Nat → Scratch
  workers : Nat → Worker C β
  ended : Bool

def LRes.fatal {β : Type} : LRes β → Bool
  | .aborts => true
  | .ub => true
  | _ => false

def Pool.setWorker {C β : Type} (s : Pool C β) (k : Nat) (w : Worker C β) : Pool C β :=
  ⟨s.mem, fun j => if j = k then w else s.workers j, s.ended⟩

def Pool.setMem {C β : Type} (s : Pool C β) (o : Nat) (m : Scratch) : Pool C β :=
  ⟨fun j => if j = o then m else s.mem j, s.workers, s.ended⟩

/-- Thread `k` does one step; `prog o c` is the evaluation of object `o` with arguments `c`. -/
def poolStep {C β : Type} (prog : Nat → C → Access (LRes β)) (s : Pool C β) (k : Nat) : Pool C β :=
  if s.ended = true then s
  else
    match (s.workers k).cur with
    | none =>
      match (s.workers k).todo with
      | [] => s
      | e :: es => s.setWorker k ⟨es, some (e.1, prog e.1 e.2), (s.workers k).out⟩
    | some (_, .ret v) =>
      { s.setWorker k ⟨(s.workers k).todo, none, (s.workers k).out ++ [v]⟩ with ended := v.fatal }
    | some (o, p) =>
      (s.setMem o (p.step (s.mem o)).2).setWorker k ⟨(s.workers k).todo, some (o, (p.step (s.mem o)).1), (s.workers k).out⟩

/-- A schedule: the thread that does the next step, each time. -/
def poolRun {C β : Type} (prog : Nat → C → Access (LRes β)) (s : Pool C β) : List Nat → Pool C β
  | [] => s
  | k :: ks => poolRun prog (poolStep prog s k) ks

/-- All threads before their first step. -/
def poolStart {C β : Type} (mem : Nat → Scratch) (tasks : Nat → List (Nat × C)) : Pool C β :=
  ⟨mem, fun k => ⟨tasks k, none, []⟩, false⟩

/-- Several evaluations of one object, one after the other. -/
def runAll {C β : Type} (prog : C → Access (LRes β)) : List C → Scratch → List (LRes β)
  | [], _ => []
  | c :: cs, m => ((prog c).run m).1 :: runAll prog cs ((prog c).run m).2

end

end Softlib.Magnetic
