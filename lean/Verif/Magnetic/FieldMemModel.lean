/-
What the readers of magnetic fields allocate and release.

Source: /repo/src/MagneticField/MagneticFieldNumeric2D.cpp 21-62 (constructors, destructor), 67-79 (`BaseInit`), 262-289
(`InitInterpolation`), 485-700 (`Load`), 710-726 (`Transpose`), 734-792 (`Save`); MagneticFieldLUKE.cpp 50-69 (constructors), 83-284
(`Load`), 294-344 (`LoadWall`); /repo/include/softlib/MagneticField/MagneticFieldNumeric2D.h (the pointers of the object start as
`nullptr`, the counts `nwall` and `nsep` are not initialised); MagneticField2D.cpp 235-236, 459-465 (`SetDomain` throws if the axis is
not within the contour); /repo/src/SFile/SFile.cpp 34-64 (`Create`), 150-166 (`GetList`); SFile_HDF5.cpp 195-235 (`GetDoubles`: an array
of rows and an array of numbers).

A function is the list of its allocations, releases and of the places where an exception can leave it, in the order of the code.  What
is in the arrays does not matter here.  `slibreal_t` is `double`; memory does not run out; the files are HDF5 files (for SDT files see
C24); an error inside of GSL ends the program.  `GetDoubles` either throws without leaving anything behind or succeeds.
`_zwall = _temp[1]` points into a block and is never released itself; it is left out.  A block is named by the variable that holds
it first and by a number that tells apart the blocks of different loads, and the matrices before and after `Transpose`.  The memory
of the object itself is left out.
-/

namespace Softlib.Magnetic.FieldMem

/-- How a block was allocated: `new T`, `new T[n]`, or by GSL. -/
inductive FKind where
  | one
  | arr
  | gsl
  deriving DecidableEq

/-- Variables.  `x` is the array of numbers `_x[0]`, `xR` the array of rows `_x`; the names from `mR` on are of blocks that are
made for the object. -/
inductive FBase where
  | sf | sfWall | maxis | maxisR | rg | rgR | zg | zgR | br | brR | bphi | bphiR | bz | bzR | psi | psiR
  | verBr | verBrR | verBphi | verBphiR | verBz | verBzR | wall | wallR | rwallN | zwallN | sep | sepR | rsepN | zsepN
  | theta | thetaR | psig | psigR | tsig | tsigR | ptx | ptxR | pty | ptyR
  | wspaceR | wspaceZ | wspaceT | raccR | raccZ | raccT | zaccR | zaccZ | zaccT
  | out | outR
  | mR | mZ | mBr | mBphi | mBz | mPsi | mrwall | mzwall | mrsep | mzsep | interpval | jacobian | jacobianR
  | ra | za | sBr | sBphi | sBz | sPsi
  deriving DecidableEq

abbrev FSlot := FBase × Nat

/-- The pointers of the object that its destructor looks at. -/
inductive FMem where
  | R | Z | Br | Bphi | Bz | Psi | rwall | zwall | rsep | zsep | interpval | jacobian | jacobianR
  deriving DecidableEq

inductive FCnt where
  | nwall
  | nsep
  deriving DecidableEq

inductive FCmd where
  | new (s : FSlot) (k : FKind)
  | del (s : FSlot) (k : FKind)
  /-- `this->m = new …[…]` -/
  | newM (m : FMem) (s : FSlot)
  /-- `this->m = nullptr` -/
  | nullM (m : FMem)
  /-- `delete [] m`, which does nothing to `nullptr` -/
  | delM (m : FMem)
  /-- `c` is given a value; `pos`: a positive one -/
  | setC (c : FCnt) (pos : Bool)
  /-- `if (c > 0) delete [] a, delete [] b` -/
  | delC (c : FCnt) (a b : FMem)
  /-- a place where an exception can be thrown -/
  | check
  /-- a place where an exception is thrown whenever it is reached -/
  | fail
  deriving DecidableEq

structure FSt where
  live : List (FSlot × FKind)
  /-- `none`: `nullptr` -/
  ptr : FMem → Option FSlot
  /-- Is the count positive?  `none`: not initialised -/
  cnt : FCnt → Option Bool

inductive FOut where
  /-- something is released that is not allocated, or by the wrong operator; or an indeterminate value is read -/
  | ub
  | throws (s : FSt)
  | ok (s : FSt)

/-- `delete [] m`. -/
def fRelease (m : FMem) (s : FSt) : Option FSt :=
  match s.ptr m with
  | none => some s
  | some b => if (b, .arr) ∈ s.live then some { s with live := s.live.erase (b, .arr) } else none

/-- Execution; the exception is thrown at place number `p`. -/
def fExec : List FCmd → Nat → FSt → FOut
  | [], _, s => .ok s
  | .new b k :: c, p, s => fExec c p { s with live := (b, k) :: s.live }
  | .del b k :: c, p, s => if (b, k) ∈ s.live then fExec c p { s with live := s.live.erase (b, k) } else .ub
  | .newM m b :: c, p, s => fExec c p { s with live := (b, .arr) :: s.live, ptr := fun x => if x = m then some b else s.ptr x }
  | .nullM m :: c, p, s => fExec c p { s with ptr := fun x => if x = m then none else s.ptr x }
  | .delM m :: c, p, s =>
    match fRelease m s with
    | none => .ub
    | some s' => fExec c p s'
  | .setC x n :: c, p, s => fExec c p { s with cnt := fun y => if y = x then some n else s.cnt y }
  | .delC x a b :: c, p, s =>
    match s.cnt x with
    | none => .ub
    | some false => fExec c p s
    | some true =>
      match (fRelease a s).bind (fRelease b) with
      | none => .ub
      | some s' => fExec c p s'
  | .check :: _, 0, s => .throws s
  | .check :: c, p + 1, s => fExec c p s
  | .fail :: _, _, s => .throws s

/-- What can be seen of an outcome: the blocks that are allocated. -/
inductive FView where
  | ub
  | throws (l : List (FSlot × FKind))
  | ok (l : List (FSlot × FKind))
  deriving DecidableEq

def FOut.view : FOut → FView
  | .ub => .ub
  | .throws s => .throws s.live
  | .ok s => .ok s.live

/-- Before anything happened. -/
def FSt.start : FSt := ⟨[], fun _ => none, fun _ => none⟩

/-! ### Parts -/

/-- `SFile::Create`: an unknown type is refused first, then the object is made and the file opened. -/
def fCreate (f : FBase) (g : Nat) : List FCmd := [.check, .new (f, g) .one, .check]

/-- `GetDoubles`. -/
def fGetDoubles (b r : FBase) (g : Nat) : List FCmd := [.check, .new (b, g) .arr, .new (r, g) .arr]

/-- `GetList`, SFile.cpp 150-166: a matrix is refused after it was read. -/
def fGetList (b r : FBase) (g : Nat) : List FCmd := fGetDoubles b r g ++ [.check, .del (r, g) .arr]

/-- `Transpose`, 710-726. -/
def transpose (b r : FBase) (g : Nat) : List FCmd :=
  [.new (r, g + 1) .arr, .new (b, g + 1) .arr, .del (b, g) .arr, .del (r, g) .arr]

/-- The number of the matrix in use. -/
def genOf (g : Nat) (t : Bool) : Nat := if t then g + 1 else g

/-- A component of the field, 510-518; `t`: it has to be transposed. -/
def getField (b r : FBase) (g : Nat) (t : Bool) : List FCmd := fGetDoubles b r g ++ (if t then transpose b r g else [])

/-- A verification vector in a file: none, a list, or something that is not a list. -/
inductive Ver where
  | absent
  | list
  | matrix
  deriving DecidableEq

/-- Reading of a verification vector, 528-539; exceptions are caught. -/
def readVer (b r : FBase) (g : Nat) : Ver → List FCmd
  | .absent => []
  | .list => [.new (b, g) .arr, .new (r, g) .arr, .del (r, g) .arr]
  | .matrix => [.new (b, g) .arr, .new (r, g) .arr]

/-- Comparison with the verification vector, 542-561: two exceptions. -/
def compareVer : Ver → List FCmd
  | .list => [.check, .check]
  | _ => []

/-- Its release, 563-565 (`nullptr` if it was not read). -/
def dropVer (b : FBase) (g : Nat) : Ver → List FCmd
  | .list => [.del (b, g) .arr]
  | _ => []

/-- A contour in a file: `2 × n` or `n × m` with `n ≠ 2`. -/
inductive FContour where
  | rows (n : Nat)
  | cols (n : Nat)
  deriving DecidableEq

def FContour.length : FContour → Nat
  | .rows n => n
  | .cols n => n

/-- Reading of a contour, 567-591 and 593-617. -/
def readContour (b r x y : FBase) (c : FCnt) (a z : FMem) (g : Nat) : Option FContour → List FCmd
  | none => [.setC c false, .nullM a, .nullM z]
  | some (.rows n) => [.new (b, g) .arr, .new (r, g) .arr, .setC c (decide (0 < n)), .del (r, g) .arr]
  | some (.cols n) => [.new (b, g) .arr, .new (r, g) .arr, .setC c (decide (0 < n)), .new (x, g) .arr, .new (y, g) .arr, .del (b, g) .arr,
      .del (r, g) .arr]

/-- Its copy into the object, 669-690: `delete [] _rwall`. -/
def copyContour (b x : FBase) (ma mz : FBase) (a z : FMem) (g : Nat) : Option FContour → List FCmd
  | none => []
  | some (.rows _) => [.newM a (ma, g), .newM z (mz, g), .del (b, g) .arr]
  | some (.cols _) => [.newM a (ma, g), .newM z (mz, g), .del (x, g) .arr]

/-! ### Numeric fields -/

/-- What matters of a file with a numeric field: the matrices that have to be transposed, the flux (and whether it has to be
transposed), the verification vectors, the contours. -/
structure NumFile where
  tr : Bool
  tphi : Bool
  tz : Bool
  psi : Option Bool
  vr : Ver
  vphi : Ver
  vz : Ver
  wall : Option FContour
  sep : Option FContour
  deriving DecidableEq

/-- `Psi`, 520-525; exceptions are caught. -/
def readPsi (g : Nat) : Option Bool → List FCmd
  | none => []
  | some t => [.new (.psi, g) .arr, .new (.psiR, g) .arr] ++ (if t then transpose .psi .psiR g else [])

/-- 650-659. -/
def copyPsi (g : Nat) : Option Bool → List FCmd
  | none => [.nullM .Psi]
  | some _ => [.newM .Psi (.mPsi, g)]

/-- 666-667. -/
def needContour (wall sep : Option FContour) : List FCmd := if wall.isNone && sep.isNone then [.fail] else []

/-- `Load`, 485-560: everything up to the verification. -/
def numRead (g : Nat) (f : NumFile) : List FCmd :=
  fCreate .sf g ++ [.check, .check] ++ fGetList .maxis .maxisR g ++ [.check] ++ fGetList .rg .rgR g ++ fGetList .zg .zgR g ++
    getField .br .brR g f.tr ++ getField .bphi .bphiR g f.tphi ++ getField .bz .bzR g f.tz ++ readPsi g f.psi ++
    readVer .verBr .verBrR g f.vr ++ readVer .verBphi .verBphiR g f.vphi ++ readVer .verBz .verBzR g f.vz ++
    compareVer f.vr ++ compareVer f.vphi ++ compareVer f.vz

/-- 563-664: contours, copies, and releases. -/
def numCopy (g : Nat) (f : NumFile) : List FCmd :=
  dropVer .verBr g f.vr ++ dropVer .verBphi g f.vphi ++ dropVer .verBz g f.vz ++
    readContour .wall .wallR .rwallN .zwallN .nwall .rwall .zwall g f.wall ++
    readContour .sep .sepR .rsepN .zsepN .nsep .rsep .zsep g f.sep ++
    [.newM .R (.mR, g), .newM .Z (.mZ, g), .newM .Br (.mBr, g), .newM .Bphi (.mBphi, g), .newM .Bz (.mBz, g)] ++ copyPsi g f.psi ++
    [.del (.maxis, g) .arr, .del (.rg, g) .arr, .del (.zg, g) .arr,
      .del (.br, genOf g f.tr) .arr, .del (.bphi, genOf g f.tphi) .arr, .del (.bz, genOf g f.tz) .arr,
      .del (.brR, genOf g f.tr) .arr, .del (.bphiR, genOf g f.tphi) .arr, .del (.bzR, genOf g f.tz) .arr]

/-- 666-700. -/
def numContours (g : Nat) (f : NumFile) : List FCmd :=
  needContour f.wall f.sep ++ copyContour .wall .rwallN .mrwall .mzwall .rwall .zwall g f.wall ++
    copyContour .sep .rsepN .mrsep .mzsep .rsep .zsep g f.sep ++ [.check]

/-- `Load`, 485-700. -/
def numLoad (g : Nat) (f : NumFile) : List FCmd := numRead g f ++ numCopy g f ++ numContours g f

/-- `InitInterpolation`, 262-289. -/
def initInterp (flux : Bool) : List FCmd :=
  [.new (.ra, 0) .gsl, .new (.za, 0) .gsl, .new (.sBr, 0) .gsl, .new (.sBphi, 0) .gsl, .new (.sBz, 0) .gsl] ++
    (if flux then [.new (.sPsi, 0) .gsl] else [])

/-- `BaseInit`, 67-79. -/
def baseInit : List FCmd :=
  [.newM .interpval (.interpval, 0), .newM .jacobianR (.jacobianR, 0), .newM .jacobian (.jacobian, 0)]

/-- The destructor, 43-62. -/
def fDestroy : List FCmd :=
  [.delM .interpval, .delM .jacobian, .delM .jacobianR, .delM .R, .delM .Z, .delM .Br, .delM .Bphi, .delM .Bz,
    .delC .nwall .rwall .zwall, .delC .nsep .rsep .zsep]

/-- The constructors from a file, 31-42. -/
def numConstruct (f : NumFile) : List FCmd := numLoad 0 f ++ initInterp f.psi.isSome ++ baseInit

/-- The object is made; its own destructor does not run if that ends in an exception. -/
def numNew (f : NumFile) (p : Nat) : FOut := fExec (numConstruct f) p FSt.start

/-- The object is destroyed. -/
def deleteField (s : FSt) : FOut := fExec fDestroy 0 s

/-- A field is loaded and destroyed. -/
def numLife (f : NumFile) (p : Nat) : FOut :=
  match numNew f p with
  | .ok s => deleteField s
  | o => o

/-! ### LUKE -/

/-- What matters of LUKE files: the number of poloidal angles, and the wall, if there is one. -/
structure LukeMF where
  ntheta : Nat
  wall : Option Nat
  deriving DecidableEq

/-- `LoadWall`, 297-344. -/
def loadWall (g : Nat) (f : LukeMF) : List FCmd :=
  [.setC .nwall false, .nullM .rwall, .nullM .zwall] ++
    (match f.wall with
    | none => []
    | some n => fCreate .sfWall g ++ fGetDoubles .wall .wallR g ++ [.check, .setC .nwall (decide (0 < n)), .newM .rwall (.mrwall, g),
        .newM .zwall (.mzwall, g), .del (.wall, g) .arr, .del (.wallR, g) .arr]) ++ [.check]

/-- `Load`, 95-245, without the wall; `b` and `bphi` stand for `_Br`, `_Bt`. -/
def lukeFieldRead (g : Nat) : List FCmd :=
  fCreate .sf g ++ [.check, .check, .check] ++ fGetList .rg .rgR g ++ fGetList .zg .zgR g ++ fGetDoubles .psi .psiR g ++ [.check, .check] ++
    [.new (.thetaR, g) .arr, .new (.theta, g) .arr, .newM .R (.mR, g), .newM .Z (.mZ, g)] ++ fGetList .psig .psigR g ++
    fGetList .tsig .tsigR g ++ fGetDoubles .br .brR g ++ [.check] ++ fGetDoubles .bz .bzR g ++ [.check] ++ fGetDoubles .bphi .bphiR g ++
    [.check] ++ [.new (.wspaceR, g) .gsl, .new (.wspaceZ, g) .gsl, .new (.wspaceT, g) .gsl, .new (.raccR, g) .gsl, .new (.raccZ, g) .gsl,
      .new (.raccT, g) .gsl, .new (.zaccR, g) .gsl, .new (.zaccZ, g) .gsl, .new (.zaccT, g) .gsl, .newM .Br (.mBr, g),
      .newM .Bphi (.mBphi, g), .newM .Bz (.mBz, g), .newM .Psi (.mPsi, g)] ++ fGetDoubles .ptx .ptxR g ++ [.check] ++
    fGetDoubles .pty .ptyR g ++ [.check]

/-- 247-281. -/
def lukeDrop (g : Nat) (f : LukeMF) : List FCmd :=
  [.setC .nsep (decide (0 < f.ntheta)), .newM .rsep (.mrsep, g), .newM .zsep (.mzsep, g), .del (.wspaceT, g) .gsl, .del (.wspaceZ, g) .gsl,
    .del (.wspaceR, g) .gsl, .del (.raccR, g) .gsl, .del (.raccT, g) .gsl, .del (.raccZ, g) .gsl, .del (.zaccR, g) .gsl,
    .del (.zaccT, g) .gsl, .del (.zaccZ, g) .gsl, .del (.rg, g) .arr, .del (.zg, g) .arr, .del (.psi, g) .arr, .del (.psiR, g) .arr,
    .del (.theta, g) .arr, .del (.thetaR, g) .arr, .del (.psig, g) .arr, .del (.tsig, g) .arr, .del (.br, g) .arr, .del (.brR, g) .arr,
    .del (.bphi, g) .arr, .del (.bphiR, g) .arr, .del (.bz, g) .arr, .del (.bzR, g) .arr, .del (.ptyR, g) .arr, .del (.ptxR, g) .arr]

def lukeFieldLoad (g : Nat) (f : LukeMF) : List FCmd := lukeFieldRead g ++ lukeDrop g f ++ loadWall g f

/-- The object is made: the base part is complete before the file is read; after an exception its destructor runs. -/
def lukeNew (f : LukeMF) (p : Nat) : FOut :=
  match fExec (baseInit ++ lukeFieldLoad 0 f ++ initInterp true) p FSt.start with
  | .throws s => fExec (fDestroy ++ [.fail]) 0 s
  | o => o

def lukeLife (f : LukeMF) (p : Nat) : FOut :=
  match lukeNew f p with
  | .ok s => deleteField s
  | o => o

/-! ### Loading again, saving -/

/-- `Load` (public) is called again `n` times, with the files of the list, on an object; no exceptions: `p` is beyond all places. -/
def numLoads : List NumFile → Nat → List FCmd
  | [], _ => []
  | f :: fs, g => numLoad g f ++ numLoads fs (g + 2)

/-- One contour in `Save`, 759-789. -/
def saveContour (n : Nat) : List FCmd :=
  if n = 0 then [] else [.new (.outR, 0) .arr, .new (.out, 0) .arr, .check, .del (.out, 0) .arr, .del (.outR, 0) .arr]

/-- `Save`, 737-792: twelve variables and up to two contours are written. -/
def numSave (nsep nwall : Nat) : List FCmd :=
  fCreate .sf 0 ++ List.replicate 12 .check ++ saveContour nsep ++ saveContour nwall

end Softlib.Magnetic.FieldMem
