/-
Model of the formatted messages of exceptions and of the progress lines.

Source: /repo/include/softlib/SOFTLibException.h 17-36, /repo/src/General/SOFTLibException.cpp 15-17,
/repo/include/softlib/ConfigurationException.h 12-26, /repo/include/softlib/SFileException.h 10-11,
/repo/src/General/ProgressTracker.cpp 118-145, and every place that throws an exception with arguments: `sites`, `signSites`,
`mismatchedSites`, `fileNameFormat` and the messages of the interpreter, together all of them in /repo/src and /repo/include.

The conversions of `snprintf` that the code uses, without flags, widths and precisions; any other conversion gives `other`.  An argument
that has not the type of its conversion is undefined behaviour, except that the signed and the unsigned type of the same size may be
exchanged if both can represent the value (C11 7.16.1.1).  `unsigned long` and `unsigned long long` are not distinguished, both have
64 bits; enumerations are unsigned.  How `%e` writes a number is a parameter.  The header of MAT files (MatHeaderModel.lean) is not
repeated here.
-/
import Verif.General.TimerProps

namespace Softlib.General.Fmt

inductive Conv where
  | d | u | lld | llu | zu | e | s
  deriving DecidableEq

/-- Types of arguments. -/
inductive Ty where
  | i32 | u32 | i64 | u64 | f64 | str
  deriving DecidableEq

/-- Arguments; `F` is the type of numbers. -/
inductive Arg (F : Type) where
  | i32 (v : Int)
  | u32 (n : Nat)
  | i64 (v : Int)
  | u64 (n : Nat)
  | f64 (x : F)
  | str (t : List Char)

variable {F : Type}

def Arg.ty : Arg F → Ty
  | .i32 _ => .i32
  | .u32 _ => .u32
  | .i64 _ => .i64
  | .u64 _ => .u64
  | .f64 _ => .f64
  | .str _ => .str

inductive FRes where
  | ub
  /-- a conversion that is not modelled -/
  | other
  | ok (t : List Char)
  deriving DecidableEq

def FRes.andThen (x : FRes) (k : List Char → FRes) : FRes :=
  match x with
  | .ub => .ub
  | .other => .other
  | .ok t => k t

/-- Text in front. -/
def FRes.pre (t : List Char) (x : FRes) : FRes := x.andThen fun r => .ok (t ++ r)

/-- Decimal digits. -/
def natText (n : Nat) : List Char := Nat.toDigits 10 n

def intText (v : Int) : List Char := if v < 0 then '-' :: natText v.natAbs else natText v.natAbs

/-- A string as C sees it. -/
def cStr (t : List Char) : List Char := t.takeWhile (fun c => c ≠ Char.ofNat 0)

/-- One conversion. -/
def put (fe : F → List Char) : Conv → Arg F → FRes
  | .d, .i32 v => .ok (intText v)
  | .d, .u32 n => if n ≤ 2147483647 then .ok (natText n) else .ub
  | .u, .u32 n => .ok (natText n)
  | .u, .i32 v => if 0 ≤ v then .ok (intText v) else .ub
  | .lld, .i64 v => .ok (intText v)
  | .lld, .u64 n => if n ≤ 9223372036854775807 then .ok (natText n) else .ub
  | .llu, .u64 n => .ok (natText n)
  | .llu, .i64 v => if 0 ≤ v then .ok (intText v) else .ub
  | .zu, .u64 n => .ok (natText n)
  | .zu, .i64 v => if 0 ≤ v then .ok (intText v) else .ub
  | .e, .f64 x => .ok (fe x)
  | .s, .str t => .ok (cStr t)
  | _, _ => .ub

/-- How far a conversion has been read. -/
inductive Mode where
  | lit | pct | l | ll | z

/-- A conversion takes the next argument; there has to be one. -/
def use (fe : F → List Char) (c : Conv) (rest : List (Arg F) → FRes) : List (Arg F) → FRes
  | [] => .ub
  | a :: as => (put fe c a).andThen fun t => (rest as).pre t

/-- `snprintf` with a buffer that is large enough. -/
def fmt (fe : F → List Char) : Mode → List Char → List (Arg F) → FRes
  | .lit, [], _ => .ok []
  | _, [], _ => .ub
  | .lit, c :: r, as => if c = '%' then fmt fe .pct r as else (fmt fe .lit r as).pre [c]
  | .pct, c :: r, as =>
    if c = '%' then (fmt fe .lit r as).pre ['%']
    else if c = 'd' then use fe .d (fmt fe .lit r) as
    else if c = 'u' then use fe .u (fmt fe .lit r) as
    else if c = 'e' then use fe .e (fmt fe .lit r) as
    else if c = 's' then use fe .s (fmt fe .lit r) as
    else if c = 'l' then fmt fe .l r as
    else if c = 'z' then fmt fe .z r as
    else .other
  | .l, c :: r, as => if c = 'l' then fmt fe .ll r as else .other
  | .ll, c :: r, as =>
    if c = 'u' then use fe .llu (fmt fe .lit r) as
    else if c = 'd' then use fe .lld (fmt fe .lit r) as
    else .other
  | .z, c :: r, as => if c = 'u' then use fe .zu (fmt fe .lit r) as else .other

/-- The text of an exception made from a message and arguments: without arguments the constructor that takes a string is preferred to
the template. -/
def exception (fe : F → List Char) (msg : List Char) (args : List (Arg F)) : FRes :=
  match args with
  | [] => .ok msg
  | _ => (fmt fe .lit (cStr msg) args).andThen fun t => .ok (constructErrorMessage msg (some t))

/-! ### The places -/

/-- Literal text and conversions. -/
inductive Piece where
  | lit (t : List Char)
  | arg (c : Conv)

def Conv.letters : Conv → List Char
  | .d => ['d']
  | .u => ['u']
  | .lld => ['l', 'l', 'd']
  | .llu => ['l', 'l', 'u']
  | .zu => ['z', 'u']
  | .e => ['e']
  | .s => ['s']

/-- The string in the code. -/
def source : List Piece → List Char
  | [] => []
  | .lit t :: p => t ++ source p
  | .arg c :: p => '%' :: (c.letters ++ source p)

/-- A place: the message and the types of the arguments. -/
structure Site where
  file : String
  line : Nat
  pieces : List Piece
  types : List Ty

/-- Position in a script, ConfigurationException.h 25. -/
def position (p : List Piece) : List Piece :=
  .arg .s :: .lit [':'] :: .arg .zu :: .lit [':'] :: .arg .zu :: .lit [':', ' '] :: p

/-- Names of tokens, /repo/src/Configuration/Script/Interpreter.cpp 113-128. -/
def tokenNames : List String :=
  ["name", "value", "=", "(", ")", "block-type", "block-name", "{", "}", ";", "<EOF>", "<invalid>"]

/-- Interpreter.cpp 80. -/
def expectSites : List Site :=
  tokenNames.flatMap fun a => tokenNames.map fun b =>
    ⟨"src/Configuration/Script/Interpreter.cpp", 80,
      position [.lit "Expected ".toList, .lit a.toList, .lit " but got ".toList, .lit b.toList], [.str, .u64, .u64]⟩

/-- Interpreter.cpp 196. -/
def statementSites : List Site :=
  tokenNames.map fun b =>
    ⟨"src/Configuration/Script/Interpreter.cpp", 196,
      position [.lit "Syntax error: Expected name or block-type, but got ".toList, .lit b.toList], [.str, .u64, .u64]⟩

/-- Places with fixed messages whose arguments have the types of the conversions. -/
def fixedSites : List Site :=
[
  ⟨"include/softlib/Integrator/Integrator.tcc", 109, [.lit "Invalid number of timesteps requested: ".toList, .arg .u, .lit ".".toList], [.u32]⟩,
  ⟨"include/softlib/Integrator/RKDP45.tcc", 106, [.lit "The requested tmax requires extrapolation. T = ".toList, .arg .e, .lit ", tmax = ".toList, .arg .e, .lit ", n = ".toList, .arg .u, .lit ", i = ".toList, .arg .u], [.f64, .f64, .u32, .u32]⟩,
  ⟨"src/Configuration/ConfigBlock.cpp", 395, [.lit "No setting with name '".toList, .arg .s, .lit "' in block '".toList, .arg .s, .lit "'.".toList], [.str, .str]⟩,
  ⟨"src/Configuration/SFile/SettingSFile.cpp", 56, [.lit "The data in setting '".toList, .arg .s, .lit "' is of unrecognized type.".toList], [.str]⟩,
  ⟨"src/Configuration/SFile/SettingSFile.cpp", 117, [.lit "The data in setting '".toList, .arg .s, .lit "' is of unrecognized type.".toList], [.str]⟩,
  ⟨"src/Configuration/SFile/SettingSFile.cpp", 128, [.lit "The data in setting '".toList, .arg .s, .lit "' is not of boolean type.".toList], [.str]⟩,
  ⟨"src/Configuration/SFile/SettingSFile.cpp", 139, [.lit "The data in setting '".toList, .arg .s, .lit "' is not of integer type.".toList], [.str]⟩,
  ⟨"src/Configuration/SFile/SettingSFile.cpp", 155, [.lit "The data in setting '".toList, .arg .s, .lit "' is not of numeric type.".toList], [.str]⟩,
  ⟨"src/Configuration/SFile/SettingSFile.cpp", 162, [.lit "The data in setting '".toList, .arg .s, .lit "' is not of string type.".toList], [.str]⟩,
  ⟨"src/Configuration/SFile/SettingSFile.cpp", 190, [.lit "The data in setting '".toList, .arg .s, .lit "' is of unrecognized type.".toList], [.str]⟩,
  ⟨"src/Configuration/SFile/SettingSFile.cpp", 199, [.lit "The data in setting '".toList, .arg .s, .lit "' is not of string type.".toList], [.str]⟩,
  ⟨"src/Configuration/SFile/SettingSFile.cpp", 213, [.lit "The data in setting '".toList, .arg .s, .lit "' is of unrecognized type.".toList], [.str]⟩,
  ⟨"src/Configuration/Script/Interpreter.cpp", 192, [.arg .s, .lit ":".toList, .arg .zu, .lit ":".toList, .arg .zu, .lit ": Syntax error: Mismatched '{'.".toList], [.str, .u64, .u64]⟩,
  ⟨"src/Configuration/Script/Interpreter.cpp", 208, [.arg .s, .lit ":".toList, .arg .zu, .lit ":".toList, .arg .zu, .lit ": Mismatched '{'. Document was not closed.".toList], [.str, .u64, .u64]⟩,
  ⟨"src/Configuration/Script/Lexer.cpp", 141, [.arg .s, .lit ":".toList, .arg .zu, .lit ":".toList, .arg .zu, .lit ": Unable to open included configuration file '".toList, .arg .s, .lit "'.".toList], [.str, .u64, .u64, .str]⟩,
  ⟨"src/DistributionFunction/BesselRadialProfile.cpp", 26, [.lit "Bessel radial profile: rmin must be less than rmax. rmin = ".toList, .arg .e, .lit ", rmax = ".toList, .arg .e, .lit ".".toList], [.f64, .f64]⟩,
  ⟨"src/DistributionFunction/CODEDistributionFunction.cpp", 91, [.lit "Invalid size of CODE distribution function momentum grid: ".toList, .arg .llu, .lit " x ".toList, .arg .llu, .lit ".".toList], [.u64, .u64]⟩,
  ⟨"src/DistributionFunction/CODEDistributionFunction.cpp", 95, [.lit "Invalid size of CODE distribution 'delta' variable: ".toList, .arg .llu, .lit " x ".toList, .arg .llu, .lit ".".toList], [.u64, .u64]⟩,
  ⟨"src/DistributionFunction/CODEDistributionFunction.cpp", 101, [.lit "Invalid size of CODE distribution 'nref' variable: ".toList, .arg .llu, .lit " x ".toList, .arg .llu, .lit ".".toList], [.u64, .u64]⟩,
  ⟨"src/DistributionFunction/CODEDistributionFunction.cpp", 114, [.lit "Invalid size of CODE distribution 'Tref' variable: ".toList, .arg .llu, .lit " x ".toList, .arg .llu, .lit ".".toList], [.u64, .u64]⟩,
  ⟨"src/DistributionFunction/CODEDistributionFunction.cpp", 125, [.lit "Invalid size of CODE distribution 'Nxi' variable: ".toList, .arg .llu, .lit " x ".toList, .arg .llu, .lit ".".toList], [.u64, .u64]⟩,
  ⟨"src/DistributionFunction/CODEDistributionFunction.cpp", 136, [.lit "Invalid size of CODE distribution 'f' variable: ".toList, .arg .llu, .lit " x ".toList, .arg .llu, .lit ".".toList], [.u64, .u64]⟩,
  ⟨"src/DistributionFunction/CODEDistributionFunction.cpp", 150, [.lit "Invalid time index selected for CODE distribution function: ".toList, .arg .d, .lit ".".toList], [.i32]⟩,
  ⟨"src/DistributionFunction/CODEDistributionFunction.cpp", 332, [.lit "CODE distribution function: Unrecognized interpolation method requested: ".toList, .arg .d, .lit ".".toList], [.i32]⟩,
  ⟨"src/DistributionFunction/DREAMDistributionFunction.cpp", 100, [.lit "DREAMDistributionFunction: No distribution function found in file '".toList, .arg .s, .lit "'. Try to explicitly give the name of the distribution function.".toList], [.str]⟩,
  ⟨"src/DistributionFunction/DREAMDistributionFunction.cpp", 107, [.lit "DREAMDistributionFunction: No distribution function found in file '".toList, .arg .s, .lit "'. Try to explicitly give the name of the distribution function.".toList], [.str]⟩,
  ⟨"src/DistributionFunction/DREAMDistributionFunction.cpp", 115, [.lit "DREAMDistributionFunction: Unrecognized type of distribution function specified: '".toList, .arg .s, .lit "'. Unable to determine which momentum grid to use.".toList], [.str]⟩,
  ⟨"src/DistributionFunction/DREAMDistributionFunction.cpp", 132, [.lit "DREAMDistributionFunction: Invalid dimensions of distribution functions (".toList, .arg .llu, .lit "). The grid has size ".toList, .arg .llu, .lit "x".toList, .arg .llu, .lit "x".toList, .arg .llu, .lit ", but f has size ".toList, .arg .llu, .lit "x".toList, .arg .llu, .lit "x".toList, .arg .llu, .lit ".".toList], [.u64, .u64, .u64, .u64, .u64, .u64, .u64]⟩,
  ⟨"src/DistributionFunction/DREAMDistributionFunction.cpp", 145, [.lit "DREAMDistributionFunction: Invalid time step specified. The distribution contains ".toList, .arg .llu, .lit " time steps.".toList], [.u64]⟩,
  ⟨"src/DistributionFunction/GOCODEDistributionFunction.cpp", 43, [.lit "GOCODEDistributionFunction: No data avilable for particle position. rho = ".toList, .arg .e, .lit ", (shifted by ".toList, .arg .e, .lit " from r = ".toList, .arg .e, .lit ").".toList], [.f64, .f64, .f64]⟩,
  ⟨"src/DistributionFunction/GOCODEDistributionFunction.cpp", 152, [.lit "Invalid size of GO+CODE distribution function 'x_CODE' vector: ".toList, .arg .llu, .lit " x ".toList, .arg .llu, .lit ".".toList], [.u64, .u64]⟩,
  ⟨"src/DistributionFunction/GOCODEDistributionFunction.cpp", 189, [.lit "Invalid time index select for GO+CODE distribution function: ".toList, .arg .d, .lit ".".toList], [.i32]⟩,
  ⟨"src/DistributionFunction/GaussianRadialProfile.cpp", 23, [.lit "Gaussian radial profile: rmin must be less than rmax. rmin = ".toList, .arg .e, .lit ", rmax = ".toList, .arg .e, .lit ".".toList], [.f64, .f64]⟩,
  ⟨"src/DistributionFunction/GaussianRadialProfile.cpp", 25, [.lit "Gaussian radial profile: a must be positive. a = ".toList, .arg .e, .lit ".".toList], [.f64]⟩,
  ⟨"src/DistributionFunction/GaussianRadialProfile.cpp", 27, [.lit "Gaussian radial profile: b must be positive. b = ".toList, .arg .e, .lit ".".toList], [.f64]⟩,
  ⟨"src/DistributionFunction/GaussianRadialProfile.cpp", 29, [.lit "Gaussian radial profile: c must be positive. c = ".toList, .arg .e, .lit ".".toList], [.f64]⟩,
  ⟨"src/DistributionFunction/LUKEDistributionFunction.cpp", 89, [.lit "Invalid radial index selected for the LUKE distribution function: ".toList, .arg .u, .lit " > ".toList, .arg .u, .lit " (number of radial points).".toList], [.u32, .u32]⟩,
  ⟨"src/DistributionFunction/LUKEDistributionFunction.cpp", 130, [.lit "Invalid size of LUKE distribution function 'xrhoG' vector: ".toList, .arg .llu, .lit " x ".toList, .arg .llu, .lit ".".toList], [.u64, .u64]⟩,
  ⟨"src/DistributionFunction/LUKEDistributionFunction.cpp", 144, [.lit "Invalid size of LUKE distribution function 'pn' vector: ".toList, .arg .llu, .lit " x ".toList, .arg .llu, .lit ".".toList], [.u64, .u64]⟩,
  ⟨"src/DistributionFunction/LUKEDistributionFunction.cpp", 148, [.lit "Invalid size of LUKE distribution function 'betath_ref' variable: ".toList, .arg .llu, .lit " x ".toList, .arg .llu, .lit ".".toList], [.u64, .u64]⟩,
  ⟨"src/DistributionFunction/LUKEDistributionFunction.cpp", 158, [.lit "Invalid size of LUKE distribution function 'mhu' vector: ".toList, .arg .llu, .lit " x ".toList, .arg .llu, .lit ".".toList], [.u64, .u64]⟩,
  ⟨"src/DistributionFunction/LUKEDistributionFunction.cpp", 165, [.lit "Invalid number of dimensions in LUKE distribution function 'f': ".toList, .arg .llu, .lit ".".toList], [.u64]⟩,
  ⟨"src/DistributionFunction/LinearRadialProfile.cpp", 20, [.lit "Linear radial profile: rmin must be less than rmax. rmin = ".toList, .arg .e, .lit ", rmax = ".toList, .arg .e, .lit ".".toList], [.f64, .f64]⟩,
  ⟨"src/DistributionFunction/NumericDistributionFunction.cpp", 36, [.lit "Numeric distribution function: No data available for particle position. rho = ".toList, .arg .e, .lit ", (shifted by ".toList, .arg .e, .lit " from r = ".toList, .arg .e, .lit ").".toList], [.f64, .f64, .f64]⟩,
  ⟨"src/DistributionFunction/PowerRadialProfile.cpp", 27, [.lit "Power radial profile: rmin must be less than rmax. rmin = ".toList, .arg .e, .lit ", rmax = ".toList, .arg .e, .lit ".".toList], [.f64, .f64]⟩,
  ⟨"src/DistributionFunction/SOFTDistributionFunction.cpp", 102, [.lit "Invalid radial index selected for the SOFT distribution function: ".toList, .arg .u, .lit " > ".toList, .arg .u, .lit " (number of radial points).".toList], [.u32, .u32]⟩,
  ⟨"src/DistributionFunction/SOFTDistributionFunction.cpp", 160, [.lit "Invalid size of SOFT distribution function 'r' vector: ".toList, .arg .llu, .lit " x ".toList, .arg .llu, .lit ".".toList], [.u64, .u64]⟩,
  ⟨"src/DistributionFunction/SOFTDistributionFunction.cpp", 219, [.lit "Invalid size of SOFT distribution function '".toList, .arg .s, .lit "p' vector: ".toList, .arg .llu, .lit " x ".toList, .arg .llu, .lit ".".toList], [.str, .u64, .u64]⟩,
  ⟨"src/DistributionFunction/SOFTDistributionFunction.cpp", 225, [.lit "Invalid size of SOFT distribution function '".toList, .arg .s, .lit "xi' vector: ".toList, .arg .llu, .lit " x ".toList, .arg .llu, .lit ".".toList], [.str, .u64, .u64]⟩,
  ⟨"src/DistributionFunction/deprSOFTDistributionFunction.cpp", 95, [.lit "Invalid radial index selected for the SOFT distribution function: ".toList, .arg .u, .lit " > ".toList, .arg .u, .lit " (number of radial points).".toList], [.u32, .u32]⟩,
  ⟨"src/DistributionFunction/deprSOFTDistributionFunction.cpp", 137, [.lit "Invalid size of SOFT distribution function 'r' vector: ".toList, .arg .llu, .lit " x ".toList, .arg .llu, .lit ".".toList], [.u64, .u64]⟩,
  ⟨"src/DistributionFunction/deprSOFTDistributionFunction.cpp", 143, [.lit "Invalid size of SOFT distribution function 'p' vector: ".toList, .arg .llu, .lit " x ".toList, .arg .llu, .lit ".".toList], [.u64, .u64]⟩,
  ⟨"src/DistributionFunction/deprSOFTDistributionFunction.cpp", 149, [.lit "Invalid size of SOFT distribution function 'xi' vector: ".toList, .arg .llu, .lit " x ".toList, .arg .llu, .lit ".".toList], [.u64, .u64]⟩,
  ⟨"src/DistributionFunction/deprSOFTDistributionFunction.cpp", 158, [.lit "Invalid size of SOFT distribution function 'f' vector: ".toList, .arg .llu, .lit " x ".toList, .arg .llu, .lit ".".toList], [.u64, .u64]⟩,
  ⟨"src/DistributionFunction/deprSOFTDistributionFunction.cpp", 182, [.lit "Unrecognized momentum units of SOFT distribution function: '".toList, .arg .s, .lit "'.".toList], [.str]⟩,
  ⟨"src/DistributionFunction/deprSOFTDistributionFunction.cpp", 272, [.lit "Invalid size of SOFT distribution function verification vector '".toList, .arg .s, .lit "': ".toList, .arg .llu, .lit " x ".toList, .arg .llu, .lit ".".toList], [.str, .u64, .u64]⟩,
  ⟨"src/General/ProgressTracker.cpp", 120, [.lit "\x1b[1;32mPROGRESS\x1b[0m (".toList, .arg .lld, .lit "/".toList, .arg .lld, .lit ") :: ".toList, .arg .s, .lit " / ".toList, .arg .s, .lit " passed, ".toList, .arg .s, .lit " remaining (".toList, .arg .s, .lit " total)\n".toList], [.i64, .i64, .str, .str, .str, .str]⟩,
  ⟨"src/General/ProgressTracker.cpp", 126, [.lit "\x1b[1;32mPROGRESS\x1b[0m (".toList, .arg .lld, .lit "/".toList, .arg .lld, .lit ") :: ".toList, .arg .s, .lit " / ".toList, .arg .s, .lit " passed\n".toList], [.i64, .i64, .str, .str]⟩,
  ⟨"src/General/ProgressTracker.cpp", 133, [.lit "PROGRESS (".toList, .arg .lld, .lit "/".toList, .arg .lld, .lit ") :: ".toList, .arg .s, .lit " / ".toList, .arg .s, .lit " passed, ".toList, .arg .s, .lit " remaining (".toList, .arg .s, .lit " total)\n".toList], [.i64, .i64, .str, .str, .str, .str]⟩,
  ⟨"src/General/ProgressTracker.cpp", 139, [.lit "PROGRESS (".toList, .arg .lld, .lit "/".toList, .arg .lld, .lit ") :: ".toList, .arg .s, .lit " / ".toList, .arg .s, .lit " passed\n".toList], [.i64, .i64, .str, .str]⟩,
  ⟨"src/MagneticField/MagneticFieldLUKE.cpp", 117, [.arg .s, .lit ": The normalized flux grid has the wrong dimensions: ".toList, .arg .zu, .lit " x ".toList, .arg .zu, .lit ". Expected ".toList, .arg .zu, .lit " x ".toList, .arg .zu, .lit ".".toList], [.str, .u64, .u64, .u64, .u64]⟩,
  ⟨"src/MagneticField/MagneticFieldLUKE.cpp", 171, [.arg .s, .lit ": Invalid dimensions of magnetic field variable 'ptBx': ".toList, .arg .zu, .lit " x ".toList, .arg .zu, .lit ". Expected ".toList, .arg .zu, .lit " x ".toList, .arg .zu, .lit ".".toList], [.str, .u64, .u64, .u64, .u64]⟩,
  ⟨"src/MagneticField/MagneticFieldLUKE.cpp", 178, [.arg .s, .lit ": Invalid dimensions of magnetic field variable 'ptBy': ".toList, .arg .zu, .lit " x ".toList, .arg .zu, .lit ". Expected ".toList, .arg .zu, .lit " x ".toList, .arg .zu, .lit ".".toList], [.str, .u64, .u64, .u64, .u64]⟩,
  ⟨"src/MagneticField/MagneticFieldLUKE.cpp", 185, [.arg .s, .lit ": Invalid dimensions of magnetic field variable 'ptBPHI': ".toList, .arg .zu, .lit " x ".toList, .arg .zu, .lit ". Expected ".toList, .arg .zu, .lit " x ".toList, .arg .zu, .lit ".".toList], [.str, .u64, .u64, .u64, .u64]⟩,
  ⟨"src/MagneticField/MagneticFieldLUKE.cpp", 235, [.arg .s, .lit ": Invalid dimensions of variable 'ptx': ".toList, .arg .zu, .lit " x ".toList, .arg .zu, .lit ". Expected ".toList, .arg .zu, .lit " x ".toList, .arg .zu, .lit ".".toList], [.str, .u64, .u64, .u64, .u64]⟩,
  ⟨"src/MagneticField/MagneticFieldLUKE.cpp", 242, [.arg .s, .lit ": Invalid dimensions of variable 'pty': ".toList, .arg .zu, .lit " x ".toList, .arg .zu, .lit ". Expected ".toList, .arg .zu, .lit " x ".toList, .arg .zu, .lit ".".toList], [.str, .u64, .u64, .u64, .u64]⟩,
  ⟨"src/MagneticField/MagneticFieldLUKE.cpp", 330, [.arg .s, .lit ": Invalid dimensions of wall: ".toList, .arg .zu, .lit " x ".toList, .arg .zu, .lit ". Expected 2 x many.".toList], [.str, .u64, .u64]⟩,
  ⟨"src/SFile/SFile.cpp", 55, [.lit "Trying to open file of unrecognized format: '".toList, .arg .s, .lit "'.".toList], [.str]⟩,
  ⟨"src/SFile/SFile.cpp", 162, [.arg .s, .lit ": The requested variable is not a list: '".toList, .arg .s, .lit "'.".toList], [.str, .str]⟩,
  ⟨"src/SFile/SFile.cpp", 226, [.arg .s, .lit ": Unable to load the variable '".toList, .arg .s, .lit "' as an array of the desired type.".toList], [.str, .str]⟩,
  ⟨"src/SFile/SFile.cpp", 247, [.arg .s, .lit ": Unable to load the variable '".toList, .arg .s, .lit "' as an array of the desired type.".toList], [.str, .str]⟩,
  ⟨"src/SFile/SFile.cpp", 269, [.arg .s, .lit ": Unable to load the variable '".toList, .arg .s, .lit "' as an array of the desired type.".toList], [.str, .str]⟩,
  ⟨"src/SFile/SFile.cpp", 305, [.arg .s, .lit ": The requested variable is not a scalar: '".toList, .arg .s, .lit "'.".toList], [.str, .str]⟩,
  ⟨"src/SFile/SFile_HDF5.cpp", 49, [.arg .s, .lit ": Unable to open HDF5 file.\n".toList, .arg .s], [.str, .str]⟩,
  ⟨"src/SFile/SFile_HDF5.cpp", 137, [.lit "Unable to read attribute string '".toList, .arg .s, .lit "'. HDF5 error: ".toList, .arg .s], [.str, .str]⟩,
  ⟨"src/SFile/SFile_HDF5.cpp", 158, [.lit "Unable to read attribute string '".toList, .arg .s, .lit "'. HDF5 error: ".toList, .arg .s], [.str, .str]⟩,
  ⟨"src/SFile/SFile_HDF5.cpp", 171, [.lit "A variable with the name '".toList, .arg .s, .lit "' does not exist in the file '".toList, .arg .s, .lit "'.".toList], [.str, .str]⟩,
  ⟨"src/SFile/SFile_HDF5.cpp", 198, [.lit "A variable with the name '".toList, .arg .s, .lit "' does not exist in the file '".toList, .arg .s, .lit "'.".toList], [.str, .str]⟩,
  ⟨"src/SFile/SFile_HDF5.cpp", 262, [.lit "A variable with the name '".toList, .arg .s, .lit "' does not exist in the file '".toList, .arg .s, .lit "'.".toList], [.str, .str]⟩,
  ⟨"src/SFile/SFile_HDF5.cpp", 309, [.lit "A variable with the name '".toList, .arg .s, .lit "' does not exist in the file '".toList, .arg .s, .lit "'.".toList], [.str, .str]⟩,
  ⟨"src/SFile/SFile_MAT.HDF5.cpp", 48, [.arg .s, .lit ": Unable to open HDF5 file.\n".toList, .arg .s], [.str, .str]⟩,
  ⟨"src/SFile/SFile_MAT.HDF5.cpp", 105, [.lit "Error when writing MAT file header: string too long (".toList, .arg .d, .lit " bytes too many).".toList], [.i32]⟩,
  ⟨"src/SFile/SFile_MAT.HDF5.cpp", 122, [.lit "Unable to create MAT file '".toList, .arg .s, .lit "'.".toList], [.str]⟩,
  ⟨"src/SFile/SFile_MAT.HDF5.cpp", 189, [.lit "A variable with the name '".toList, .arg .s, .lit "' does not exist in the file '".toList, .arg .s, .lit "'.".toList], [.str, .str]⟩,
  ⟨"src/SFile/SFile_MAT.HDF5.cpp", 199, [.lit "Invalid number of dimensions (".toList, .arg .llu, .lit ") for string: ".toList, .arg .s, .lit ".".toList], [.u64, .str]⟩,
  ⟨"src/SFile/SFile_MAT.Matlab.cpp", 385, [.lit "While attempting to create struct '".toList, .arg .s, .lit "': SFile with official MATLAB libraries does not support creating structs.".toList], [.str]⟩,
  ⟨"src/SFile/SFile_MAT.Matlab.cpp", 403, [.lit "Unable to allocate MATLAB array for variable '".toList, .arg .s, .lit "'.".toList], [.str]⟩,
  ⟨"src/SFile/SFile_MAT.Matlab.cpp", 412, [.lit "Unable to write variable '".toList, .arg .s, .lit "' to MATLAB file.".toList], [.str]⟩,
  ⟨"src/SFile/SFile_MAT.Matlab.cpp", 417, [.lit "Unable to allocate MATLAB array for variable '".toList, .arg .s, .lit "'.".toList], [.str]⟩,
  ⟨"src/SFile/SFile_MAT.Matlab.cpp", 426, [.lit "Unable to write variable '".toList, .arg .s, .lit "' to MATLAB file.".toList], [.str]⟩,
  ⟨"src/SFile/SFile_MAT.Matlab.cpp", 472, [.lit "Unable to allocate MATLAB array for variable '".toList, .arg .s, .lit "'.".toList], [.str]⟩,
  ⟨"src/SFile/SFile_MAT.Matlab.cpp", 486, [.lit "Unable to write variable '".toList, .arg .s, .lit "' to MATLAB file.".toList], [.str]⟩,
  ⟨"src/SFile/SFile_SDT.cpp", 134, [.lit "No matrix named '".toList, .arg .s, .lit "' in the SDT file.".toList], [.str]⟩,
  ⟨"src/SFile/SFile_SDT.cpp", 197, [.lit "When loading variable '".toList, .arg .s, .lit "': The SDT format has no support for multidimensional arrays.".toList], [.str]⟩,
  ⟨"src/SFile/SFile_SDT.cpp", 212, [.lit "No vector named '".toList, .arg .s, .lit "' in the SDT file.".toList], [.str]⟩,
  ⟨"src/SFile/SFile_SDT.cpp", 219, [.lit "The requested variable is not a vector: '".toList, .arg .s, .lit "'.".toList], [.str]⟩,
  ⟨"src/SFile/SFile_SDT.cpp", 273, [.lit "No attribute scalar named '".toList, .arg .s, .lit "' for dataset '".toList, .arg .s, .lit "' in the SDT file.".toList], [.str, .str]⟩,
  ⟨"src/SFile/SFile_SDT.cpp", 276, [.lit "The requested variable in dataset '".toList, .arg .s, .lit "' is not a scalar: '".toList, .arg .s, .lit "'.".toList], [.str, .str]⟩,
  ⟨"src/SFile/SFile_SDT.cpp", 294, [.lit "No attribute string named '".toList, .arg .s, .lit "' for dataset '".toList, .arg .s, .lit "' in the SDT file.".toList], [.str, .str]⟩,
  ⟨"src/SFile/SFile_SDT.cpp", 309, [.lit "No string named '".toList, .arg .s, .lit "' in the SDT file.".toList], [.str]⟩,
  ⟨"src/SFile/SFile_SDT.cpp", 382, [.lit "Trying to write variable '".toList, .arg .s, .lit "': The SDT format does not support higher than 2-dimensional arrays.".toList], [.str]⟩,
  ⟨"src/SFile/SFile_SDT.cpp", 385, [.lit "Trying to write variable '".toList, .arg .s, .lit "': The SDT format does not support higher than 2-dimensional arrays.".toList], [.str]⟩,
  ⟨"src/SFile/SFile_SDT.cpp", 388, [.lit "Trying to write variable '".toList, .arg .s, .lit "': The SDT format does not support higher than 2-dimensional arrays.".toList], [.str]⟩,
  ⟨"src/SFile/SFile_SDT.cpp", 391, [.lit "Trying to write variable '".toList, .arg .s, .lit "': The SDT format does not support higher than 2-dimensional arrays.".toList], [.str]⟩,
  ⟨"src/SFile/SFile_SDT.cpp", 394, [.lit "Trying to write variable '".toList, .arg .s, .lit "': The SDT format does not support higher than 2-dimensional arrays.".toList], [.str]⟩,
  ⟨"src/SFile/SFile_SDT.load.cpp", 49, [.lit "Expected data type specifier, but found token: '".toList, .arg .s, .lit "'.".toList], [.str]⟩]

def sites : List Site := fixedSites ++ expectSites ++ statementSites

/-- Places with an unsigned argument for `%d`. -/
def signSites : List Site :=
[
  ⟨"include/softlib/General/Matrix.tcc", 65, [.lit "Matrix linear index is out of bounds: ".toList, .arg .d, .lit ".\n".toList], [.u32]⟩,
  ⟨"include/softlib/General/Matrix.tcc", 73, [.lit "Matrix linear index is out of bounds: ".toList, .arg .d, .lit ".\n".toList], [.u32]⟩,
  ⟨"include/softlib/General/Matrix.tcc", 82, [.lit "Matrix row index is out of bounds: ".toList, .arg .d, .lit ".\n".toList], [.u32]⟩,
  ⟨"include/softlib/General/Matrix.tcc", 84, [.lit "Matrix column index is out of bounds: ".toList, .arg .d, .lit ".\n".toList], [.u32]⟩,
  ⟨"include/softlib/General/Matrix.tcc", 94, [.lit "Matrix row index is out of bounds: ".toList, .arg .d, .lit ".\n".toList], [.u32]⟩,
  ⟨"include/softlib/General/Matrix.tcc", 96, [.lit "Matrix column index is out of bounds: ".toList, .arg .d, .lit ".\n".toList], [.u32]⟩,
  ⟨"include/softlib/ImageGenerator/ImageGenerator.h", 56, [.lit "Unrecognized colormap requested: ".toList, .arg .d, .lit ".".toList], [.u32]⟩,
  ⟨"src/ImageGenerator/ImageGenerator.cpp", 58, [.lit "Unrecognized image format specified to 'ImageGenerator': '".toList, .arg .d, .lit "'.".toList], [.u32]⟩,
  ⟨"src/SFile/SFile_SDT.cpp", 64, [.lit "Unrecognized option for opening the SDT file: ".toList, .arg .d, .lit ".".toList], [.u32]⟩]

/-- Places with an argument of another size than its conversion. -/
def mismatchedSites : List Site :=
[
  ⟨"src/DistributionFunction/LUKEDistributionFunction.cpp", 167, [.lit "Invalid size of LUKE distribution function 'f': ".toList, .arg .llu, .lit " x ".toList, .arg .llu, .lit " x ".toList, .arg .llu, .lit ". Expected ".toList, .arg .llu, .lit " x ".toList, .arg .llu, .lit " x ".toList, .arg .llu, .lit ".".toList], [.u64, .u64, .u64, .u32, .u32, .u32]⟩,
  ⟨"src/DistributionFunction/SOFTDistributionFunction.cpp", 233, [.lit "Invalid size of SOFT distribution function '".toList, .arg .s, .lit "f' vector: ".toList, .arg .llu, .lit " x ".toList, .arg .llu, .lit ". Must have size nxi-by-np (".toList, .arg .llu, .lit " x ".toList, .arg .llu, .lit ").".toList], [.str, .u64, .u64, .u32, .u32]⟩,
  ⟨"src/SFile/SFile_SDT.load.cpp", 75, [.lit "Invalid format of matrix '".toList, .arg .s, .lit "' at index (".toList, .arg .u, .lit ", ".toList, .arg .u, .lit ").".toList], [.str, .u64, .u64]⟩]

/-- /repo/src/MagneticField/MagneticFieldNumeric2D.cpp 543, 550, 557: the name of the file is part of the format; `v` is the name of
the vector. -/
def fileNameFormat (filename v : List Char) : List Char :=
  filename ++ ": Verification vector '".toList ++ v ++ "' has more than nr (= %u) elements.".toList

end Softlib.General.Fmt
