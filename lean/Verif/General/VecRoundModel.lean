/-
Model of the arithmetic of `Vector<N,T>` with rounding.

Source: /repo/include/softlib/General/Vector.tcc 97-181 and 225-315.

Vectors are functions of the index; the memory of objects, and which operands may be the same object, is
the business of `Verif/General/VectorModel.lean`.  As in `Verif/General/RoundModel.lean` the exponent is not
limited.
-/
import Verif.General.RoundModel

namespace Softlib.General

/-- `operator+` on vectors, Vector.tcc 97-102 and 230-235. -/
def addRV {u : ℚ} (R : Rnd u) (a b : ℕ → ℚ) (i : ℕ) : ℚ := R.fl (a i + b i)

/-- `operator-` on vectors, Vector.tcc 119-124 and 248-253. -/
def subRV {u : ℚ} (R : Rnd u) (a b : ℕ → ℚ) (i : ℕ) : ℚ := R.fl (a i - b i)

/-- `operator*` by a scalar, Vector.tcc 139-144 and 273-278. -/
def mulRV {u : ℚ} (R : Rnd u) (a : ℕ → ℚ) (s : ℚ) (i : ℕ) : ℚ := R.fl (a i * s)

/-- `operator/` by a scalar, Vector.tcc 152-155 and 285-289: the reciprocal is rounded. -/
def divRV {u : ℚ} (R : Rnd u) (a : ℕ → ℚ) (s : ℚ) : ℕ → ℚ := mulRV R a (R.fl (1 / s))

/-- `Dot`, Vector.tcc 175-181. -/
def dotRV {u : ℚ} (R : Rnd u) (n : ℕ) (a b : ℕ → ℚ) : ℚ :=
  (List.range n).foldl (fun s i => R.fl (s + R.fl (a i * b i))) 0

/-- `Cross`, Vector.tcc 310-312, into a third object. -/
def crossRV {u : ℚ} (R : Rnd u) (a b : ℕ → ℚ) : ℕ → ℚ
  | 0 => R.fl (R.fl (a 1 * b 2) - R.fl (a 2 * b 1))
  | 1 => R.fl (R.fl (a 2 * b 0) - R.fl (a 0 * b 2))
  | 2 => R.fl (R.fl (a 0 * b 1) - R.fl (a 1 * b 0))
  | _ => 0

end Softlib.General
