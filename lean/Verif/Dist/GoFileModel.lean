/-
Model of the reader of GO+CODE distributions and of their evaluation, with the state of the CODE distributions they are made of.

Source: /repo/src/DistributionFunction/GOCODEDistributionFunction.cpp 35-72 (`Eval`), 133-202 (`Load`), 207-221 (`MinClone`); the CODE
distributions are CodeFileModel (paths: CODEDistributionFunction.cpp 79-84) and CodeModel, the search is in NumericModel.

The file is given by what the SFile object returns for every name.  Exact real arithmetic; divisions by zero are a separate outcome.
Memory is CodeMemModel.
-/
import Verif.Dist.CodeFileModel

namespace Softlib.Dist

noncomputable section

/-- A file. -/
structure GoFile where
  type : Option String
  vars : String → Option (Mat ℝ)

/-- The CODE distribution in a group, whose path ends in a slash: CODEDistributionFunction.cpp 79-84 and the names read after. -/
def codeGroup (vars : String → Option (Mat ℝ)) (path : String) : CodeFile :=
  ⟨vars (path ++ "y"), vars (path ++ "delta"), vars (path ++ "nref"), vars (path ++ "Tref"), vars (path ++ "Nxi"), vars (path ++ "f")⟩

/-- The name of a group, 195-197. -/
def goGroup (t : Int) (i : Nat) : String := "t" ++ toString t ++ "/" ++ "r" ++ toString i ++ "/"

/-- The time index, 181-190. -/
def goTime (ntimes time : Int) : CodeRes Int :=
  if time < 0 then
    if ntimes + time < -2147483648 then .ub else
    if ntimes + time ≥ ntimes ∨ ntimes + time < 0 then .throws else .ok (ntimes + time)
  else if time ≥ ntimes then .throws else .ok time

/-- The loop 196-200: `n` distributions from number `i` on.  The array of Legendre values of each has arbitrary contents. -/
def goCodes (me : ℝ) (spl : Int → List ℝ → List ℝ → ℝ → ℝ) (garbage : Nat → Nat → List ℝ) (vars : String → Option (Mat ℝ)) (t : Int)
    (itype : Int) : Nat → Nat → CodeRes (List (Code ℝ))
  | 0, _ => .ok []
  | n + 1, i =>
    (codeLoad me spl (garbage i) (codeGroup vars (goGroup t i)) 0 itype).bind fun c =>
    (goCodes me spl garbage vars t itype n (i + 1)).bind fun cs => .ok (c :: cs)

/-- `Load`, 133-202.  `axis` is the radius of the magnetic axis (`none`: no magnetic field). -/
def goFileLoad (me : ℝ) (spl : Int → List ℝ → List ℝ → ℝ → ℝ) (garbage : Nat → Nat → List ℝ) (F : GoFile) (axis : Option ℝ)
    (time itype : Int) : CodeRes (NDist (Code ℝ) ℝ) :=
  if F.type.isSome = true ∧ F.type ≠ some "distribution/gocode" then .throws else
  (codeGet (F.vars "r")).bind fun rmat =>
  match rmat.vecLen with
  | none => .throws
  | some nr =>
  if 4294967296 ≤ nr then .large else
  if rmat.data.length < nr then .ub else
  match shiftBy axis (rmat.data.take nr) with
  | .ub => .ub
  | .throws => .throws
  | .ok [] => .ub                           -- rho[0] of an empty array
  | .ok (r0 :: rs) =>
  (codeNumber (F.vars "nt")).bind fun nt =>
  match realToInt nt with
  | none => .ub
  | some ntimes =>
  (goTime ntimes time).bind fun t =>
  (goCodes me spl garbage F.vars t itype nr 0).bind fun cs =>
  .ok ⟨r0 :: rs, cs, r0, (r0 :: rs).getLast (by simp), true⟩

/-- Two of the CODE distributions are evaluated, `i` first.  `none`: undefined behaviour. -/
def evalTwo (cs : List (Code ℝ)) (i j : Nat) (p xi : ℝ) : Option (ℝ × ℝ × List (Code ℝ)) :=
  match cs[i]? with
  | none => none
  | some c =>
    match c.eval p xi with
    | none => none
    | some (v, c') =>
      match (cs.set i c')[j]? with
      | none => none
      | some b =>
        match b.eval p xi with
        | none => none
        | some (w, b') => some (v, w, (cs.set i c').set j b')

/-- `Eval`, 35-72: the value, or the exception, and the new state.  `none`: undefined behaviour.  The index is converted to
`unsigned int`, so that -1 becomes 2^32-1 and goes to the branch above the grid. -/
def goEval (d : NDist (Code ℝ) ℝ) (r p xi shift : ℝ) : Option (EvalRes ℝ × NDist (Code ℝ) ℝ) :=
  let rho := r - shift
  if d.allow = false ∧ (rho < d.rmin ∨ rho > d.rmax) then some (.throws, d)
  else
    match gFindNearest d.r rho with
    | none => none
    | some ir =>
      let u : Nat := if ir < 0 then 4294967295 else ir.toNat
      if u = 0 then
        match d.r[0]?, d.r[1]?, evalTwo d.msdf 0 1 p xi with
        | some r1, some r2, some (f1, f2, cs) =>
          some (if r2 - r1 = 0 then .divZero else lerp 0 r1 ((r2 * f1 - r1 * f2) / (r2 - r1)) f1 rho, { d with msdf := cs })
        | _, _, _ => none
      else if u ≥ d.r.length - 1 then
        match d.r[d.r.length - 1]?, d.r[d.r.length - 2]?, evalTwo d.msdf (d.r.length - 1) (d.r.length - 2) p xi with
        | some r0, some r', some (f0, f', cs) => some (lerp r0 (r0 + (2 * r0 - r')) f0 (2 * f0 - f') rho, { d with msdf := cs })
        | _, _, _ => none
      else
        match d.r[u]?, d.r[u + 1]?, evalTwo d.msdf u (u + 1) p xi with
        | some r0, some r1, some (f0, f1, cs) => some (lerp r0 r1 f0 f1 rho, { d with msdf := cs })
        | _, _, _ => none

/-- A position to evaluate at. -/
structure GoPos where
  r : ℝ
  p : ℝ
  xi : ℝ
  shift : ℝ

/-- The state after evaluations. -/
def goRun : NDist (Code ℝ) ℝ → List GoPos → Option (NDist (Code ℝ) ℝ)
  | d, [] => some d
  | d, q :: qs =>
    match goEval d q.r q.p q.xi q.shift with
    | none => none
    | some (_, d') => goRun d' qs

/-- `MinClone`, 207-221: the CODE distributions are cloned. -/
def goClone (garbage : Nat → Nat → List ℝ) (d : NDist (Code ℝ) ℝ) : NDist (Code ℝ) ℝ :=
  ⟨d.r, d.msdf.mapIdx fun i c => c.clone (garbage i c.modes.length), 0, 0, true⟩

end

end Softlib.Dist
