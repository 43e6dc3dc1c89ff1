/-
What the readers of numeric distributions allocate and release.

Source: /repo/src/DistributionFunction/SOFTDistributionFunction.cpp 39-64 (`Load`), 90-127 (`LoadMomentumSpace`), 140-197
(`__Load`), 209-265 (`__LoadRadius`); deprSOFTDistributionFunction.cpp 38-57, 82-112, 124-231, 257-285 (`Verify`);
LUKEDistributionFunction.cpp 36-54, 76-106, 118-217; DREAMDistributionFunction.cpp 37-43 (destructor), 54-80 (`Load`), 85-192
(`__Load`); NumericDistributionFunction.cpp 130-167, 191-215, 231-318; NumericMomentumSpaceDistributionFunction.cpp 63-98, 114-130;
/repo/include/softlib/DistributionFunction/NumericDistributionFunction.h and NumericMomentumSpaceDistributionFunction.h, which
declare no destructor; /repo/src/SFile/SFile.cpp 34-64 (`Create`: `new` and `Open`), SFile_HDF5.cpp 195-235 (`GetDoubles`: an array
of rows and an array of numbers).

A reader is the list of its allocations, releases and of the places where an exception can leave it, in the order of the code; what
is in the arrays does not matter here.  `slibreal_t` is `double`.  A call that reads from the file either throws without leaving
anything behind or succeeds.  GSL objects are blocks of their own kind.  Members of `std::vector` and `std::string` type release
what they own and are left out.
-/

namespace Softlib.Dist.ReaderMem

/-- How a block was allocated: `new T`, `new T[n]`, or by GSL. -/
inductive BKind where
  | one
  | arr
  | gsl
  deriving DecidableEq

/-- The variables of the code.  `x` is the array of numbers `tx[0]`, `xRows` the array of rows `tx`. -/
inductive Base where
  | sf | r | rRows | p | pRows | xi | xiRows | f | fRows | ver | verRows | beta | betaRows | t
  | dat | fr | slice | logf | msdf | pa | xia | spline | self
  deriving DecidableEq

/-- A variable; the number tells the rounds of a loop apart. -/
abbrev Slot := Base × Nat

inductive Cmd where
  | new (v : Slot) (k : BKind)
  | del (v : Slot) (k : BKind)
  /-- a place where an exception can be thrown -/
  | check
  deriving DecidableEq

/-- What is allocated. -/
abbrev Live := List (Slot × BKind)

inductive Out where
  /-- something was released that is not allocated, or by the wrong operator -/
  | ub
  | throws (l : Live)
  | ok (l : Live)
  deriving DecidableEq

/-- Execution; `ts` says at which of the places an exception is thrown (at none after its end). -/
def exec : List Cmd → List Bool → Live → Out
  | [], _, l => .ok l
  | .new v k :: c, ts, l => exec c ts ((v, k) :: l)
  | .del v k :: c, ts, l => if (v, k) ∈ l then exec c ts (l.erase (v, k)) else .ub
  | .check :: c, [], l => exec c [] l
  | .check :: c, b :: ts, l => if b then .throws l else exec c ts l

/-- `SFile::Create`. -/
def create : List Cmd := [.new (.sf, 0) .one, .check]

/-- `GetDoubles` and the check of the size behind it. -/
def getMatrix (rows data : Base) (i : Nat) : List Cmd := [.check, .new (data, i) .arr, .new (rows, i) .arr, .check]

/-- `NumericMomentumSpaceDistributionFunction::Initialize`, 70-103: two checks, the accelerators, the spline. -/
def initMomentum (i : Nat) : List Cmd :=
  [.check, .check, .new (.pa, i) .gsl, .new (.xia, i) .gsl, .new (.spline, i) .gsl]

/-- `NumericMomentumSpaceDistributionFunction::InitializeLog`, 119-136. -/
def initMomentumLog (i : Nat) : List Cmd := [.new (.logf, i) .arr, .check] ++ initMomentum i

/-- `NumericDistributionFunction::Initialize` (129-160, also within `InitializeLog` without `alloc`, 195-221) and the calls of
`InsertMomentumSpaceDistribution` (255-300) in a loop: the objects of the radii. -/
def initRadii (nr : Nat) : List Cmd := (List.range nr).flatMap fun i => Cmd.new (.msdf, i) .one :: initMomentum i

/-! ### LUKE -/

/-- `__Load`, 118-217. -/
def lukeRead : List Cmd :=
  create ++ getMatrix .rRows .r 0 ++ [.check] ++ getMatrix .pRows .p 0 ++ getMatrix .betaRows .beta 0 ++ getMatrix .xiRows .xi 0 ++
    [.check, .new (.f, 0) .arr, .check, .check, .new (.dat, 0) .one]

/-- `Load`, 36-54; the radial grid is checked before anything is made. -/
def lukeLoad (nr : Nat) : List Cmd := lukeRead ++ [.check] ++ initRadii nr ++ [.del (.dat, 0) .one]

/-- `LoadMomentumSpace`, 76-106 (and 82-112 of the old SOFT format), after `__Load`. -/
def pickMomentum (log : Bool) : List Cmd :=
  [.check, .new (.slice, 0) .arr] ++ (if log then initMomentumLog 0 else initMomentum 0) ++
    [.del (.r, 0) .arr, .del (.f, 0) .arr, .del (.dat, 0) .one]

def lukeMomentumMem (log : Bool) : List Cmd := Cmd.new (.msdf, 0) .one :: lukeRead ++ pickMomentum log

/-! ### Old SOFT format -/

/-- `Verify`, 257-285, for vectors that are in the file (`has`): the matrix is not released. -/
def verifyMem (has : Bool) (i : Nat) : List Cmd :=
  if has then [.new (.ver, i) .arr, .new (.verRows, i) .arr, .check] else []

/-- `__Load`, 124-231. -/
def deprRead (h1 h2 h3 : Bool) : List Cmd :=
  create ++ getMatrix .rRows .r 0 ++ getMatrix .pRows .p 0 ++ getMatrix .xiRows .xi 0 ++ getMatrix .fRows .f 0 ++
    verifyMem h1 0 ++ [.check] ++ verifyMem h2 1 ++ [.check] ++ verifyMem h3 2 ++ [.check] ++
    [.del (.fRows, 0) .arr, .check, .check, .new (.dat, 0) .one]

def deprMem (h1 h2 h3 : Bool) (nr : Nat) : List Cmd := deprRead h1 h2 h3 ++ [.check] ++ initRadii nr ++ [.del (.dat, 0) .one]

def deprMomentumMem (h1 h2 h3 log : Bool) : List Cmd := Cmd.new (.msdf, 0) .one :: deprRead h1 h2 h3 ++ pickMomentum log

/-! ### SOFT -/

/-- `__LoadRadius`, 209-265. -/
def softRadiusMem (i : Nat) : List Cmd :=
  getMatrix .pRows .p (i + 1) ++ getMatrix .xiRows .xi (i + 1) ++
    [.check, .new (.f, i + 1) .arr, .new (.fRows, i + 1) .arr, .del (.fRows, i + 1) .one, .check]

/-- `__Load`, 140-197. -/
def softRead (nr : Nat) : List Cmd :=
  create ++ [.check, .check] ++ getMatrix .rRows .r 0 ++ [.new (.dat, 0) .one, .new (.fr, 0) .arr] ++
    (List.range nr).flatMap softRadiusMem ++ [.check]

/-- `Load`, 39-64. -/
def softMem (nr : Nat) : List Cmd := softRead nr ++ initRadii nr ++ [.del (.r, 0) .arr, .del (.dat, 0) .one]

/-! ### DREAM -/

/-- `__Load`, 85-192, followed by `Load`, 54-80. -/
def dreamMem (nr : Nat) : List Cmd :=
  create ++ [.check, .check, .check, .new (.dat, 0) .one, .check, .new (.f, 0) .arr, .check, .new (.t, 0) .arr, .check,
    .new (.r, 0) .arr, .check, .new (.p, 0) .arr, .check, .new (.xi, 0) .arr, .check, .check, .del (.t, 0) .arr, .check] ++ initRadii nr

/-- The destructor, 37-43, with the data of the first time step (`tf + 0`, see C73 for the others). -/
def dreamDestroy : List Cmd :=
  [.del (.f, 0) .arr, .del (.r, 0) .arr, .del (.p, 0) .arr, .del (.xi, 0) .arr, .del (.dat, 0) .one]

/-- An object made by `new`, loaded by `load`, and destroyed; `dtor` is what its destructor releases. -/
def lifetime (load dtor : List Cmd) : List Cmd := Cmd.new (.self, 0) .one :: load ++ dtor ++ [.del (.self, 0) .one]

end Softlib.Dist.ReaderMem
