/-
Model of `Vector<N,T>` with integer elements (`T = int`) and with complex elements
(`T = std::complex<double>`).

Source: /repo/include/softlib/General/Vector.tcc 13-31 (constructors and conversions), 97-205 (arithmetic),
285-289 (`operator/`).

An integer vector is the list of its elements.  Integers are those of 32 bits; overflow of signed integers
and conversion of a floating-point number outside of the range to an integer are undefined behaviour and
end the execution (`none`).  Floating-point numbers are rationals, rounded as in
`Verif/General/RoundModel.lean`.  Complex arithmetic is exact.  That operands may be the same object is the
business of `Verif/General/VectorModel.lean`.
-/
import Verif.General.RoundModel
import Mathlib.Analysis.Complex.Basic

namespace Softlib.General

/-- The result of an operation on `int`; `none` is undefined behaviour. -/
def inInt (z : ℤ) : Option ℤ := if -2 ^ 31 ≤ z ∧ z ≤ 2 ^ 31 - 1 then some z else none

/-- The integer part of a number. -/
def truncQ (x : ℚ) : ℤ := if 0 ≤ x then ⌊x⌋ else ⌈x⌉

/-- Conversion of a floating-point number to `int`. -/
def dblToInt (x : ℚ) : Option ℤ := inInt (truncQ x)

/-- `elems[i] += v[i]` for all elements, Vector.tcc 97-102. -/
def addIV : List ℤ → List ℤ → Option (List ℤ)
  | x :: a, y :: b => do
    let z ← inInt (x + y)
    let r ← addIV a b
    return z :: r
  | _, _ => some []

/-- `elems[i] *= s` for all elements, Vector.tcc 139-144. -/
def mulIV (s : ℤ) : List ℤ → Option (List ℤ)
  | x :: a => do
    let z ← inInt (x * s)
    let r ← mulIV s a
    return z :: r
  | [] => some []

/-- `1.0/s` passed as a `const int&`, Vector.tcc 153: the quotient is converted to a temporary of type
`int`.  Division by zero gives an infinity, which is not in the range of `int`. -/
def recipInt {u : ℚ} (R : Rnd u) (s : ℤ) : Option ℤ :=
  if s = 0 then none else dblToInt (R.fl (1 / s))

/-- `operator/=`, Vector.tcc 152-155, and `operator/`, 285-289. -/
def divIV {u : ℚ} (R : Rnd u) (v : List ℤ) (s : ℤ) : Option (List ℤ) := do
  let r ← recipInt R s
  mulIV r v

/-- One step of `Dot`, Vector.tcc 178: `s += elems[i] * v[i]`. -/
def dotStep (s x y : ℤ) : Option ℤ := do
  let p ← inInt (x * y)
  inInt (s + p)

/-- The loop of `Dot`, Vector.tcc 175-181. -/
def dotLoop : ℤ → List ℤ → List ℤ → Option ℤ
  | s, x :: a, y :: b => do
    let s' ← dotStep s x y
    dotLoop s' a b
  | s, _, _ => some s

def dotIV (a b : List ℤ) : Option ℤ := dotLoop 0 a b

/-- One step of `Norm`, Vector.tcc 190: `s += std::norm(elems[i])`.  The square is of type `double`; the sum
is formed in `double` and converted to `int`. -/
def normStep {u : ℚ} (R : Rnd u) (s x : ℤ) : Option ℤ := dblToInt (R.fl (s + R.fl (x * x)))

/-- The loop of `Norm`, Vector.tcc 187-191. -/
def normLoop {u : ℚ} (R : Rnd u) : ℤ → List ℤ → Option ℤ
  | s, x :: a => do
    let s' ← normStep R s x
    normLoop R s' a
  | s, [] => some s

/-- `Norm`, Vector.tcc 187-193: the square root of an `int` is a `double`, which is converted to `int`.
The root of a number below `2^31` has the right integer part in `double`. -/
def normIV {u : ℚ} (R : Rnd u) (v : List ℤ) : Option ℤ := do
  let s ← normLoop R 0 v
  return (Nat.sqrt s.toNat : ℤ)

/-- `Normalize`, Vector.tcc 199. -/
def normalizeIV {u : ℚ} (R : Rnd u) (v : List ℤ) : Option (List ℤ) := do
  let n ← normIV R v
  divIV R v n

/-- `Vector<N,int>(const Vector<N,double>&)`, Vector.tcc 26-29. -/
def convToInt : List ℚ → Option (List ℤ)
  | x :: v => do
    let z ← dblToInt x
    let r ← convToInt v
    return z :: r
  | [] => some []

/-- `Vector<N,double>(const Vector<N,int>&)`, Vector.tcc 26-29. -/
def convToDbl {u : ℚ} (R : Rnd u) (v : List ℤ) : List ℚ := v.map (fun x : ℤ => R.fl (x : ℚ))

/-! ### complex elements -/

/-- `Dot`, Vector.tcc 175-181. -/
noncomputable def dotCV (n : ℕ) (a b : ℕ → ℂ) : ℂ := (List.range n).foldl (fun s i => s + a i * b i) 0

/-- `std::sqrt` of a complex number: the root in the right half plane; on the negative real axis that with
positive imaginary part. -/
noncomputable def csqrt (z : ℂ) : ℂ :=
  ⟨Real.sqrt ((‖z‖ + z.re) / 2), if 0 ≤ z.im then Real.sqrt ((‖z‖ - z.re) / 2) else -Real.sqrt ((‖z‖ - z.re) / 2)⟩

/-- `Norm`, Vector.tcc 187-193, with `std::norm` the square of the absolute value. -/
noncomputable def normCV (n : ℕ) (a : ℕ → ℂ) : ℂ :=
  csqrt ((List.range n).foldl (fun s i => s + (Complex.normSq (a i) : ℂ)) 0)

/-- `operator/=`, Vector.tcc 152-155. -/
noncomputable def divCV (a : ℕ → ℂ) (s : ℂ) : ℕ → ℂ := fun i => a i * (1 / s)

/-- `Normalize`, Vector.tcc 199. -/
noncomputable def normalizeCV (n : ℕ) (a : ℕ → ℂ) : ℕ → ℂ := divCV a (normCV n a)

end Softlib.General
