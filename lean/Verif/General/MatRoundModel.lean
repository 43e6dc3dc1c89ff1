/-
Model of the products of `Matrix<M,N,T>` with rounding.

Source: /repo/include/softlib/General/Matrix.tcc 52-56, 292-306, 329-341.

Matrices are functions of the two indices; the memory of objects is the business of
`Verif/General/VectorModel.lean`.  As in `Verif/General/RoundModel.lean` the exponent is not limited, and
products and sums are not contracted to fused operations.
-/
import Verif.General.RoundModel

namespace Softlib.General

/-- `operator*(const Matrix&, const Matrix&)`, Matrix.tcc 292-306: `N` columns of the first factor. -/
def mulRM {u : ℚ} (R : Rnd u) (N : ℕ) (a b : ℕ → ℕ → ℚ) (i j : ℕ) : ℚ :=
  (List.range N).foldl (fun s k => R.fl (s + R.fl (a i k * b k j))) 0

/-- `operator*(const Matrix&, const Vector&)`, Matrix.tcc 329-341. -/
def mulRMV {u : ℚ} (R : Rnd u) (N : ℕ) (a : ℕ → ℕ → ℚ) (v : ℕ → ℚ) (i : ℕ) : ℚ :=
  (List.range N).foldl (fun s j => R.fl (s + R.fl (a i j * v j))) 0

/-- `Matrix(const Vector&, const Vector&)`, Matrix.tcc 52-56. -/
def outerRM {u : ℚ} (R : Rnd u) (a b : ℕ → ℚ) (i j : ℕ) : ℚ := R.fl (a i * b j)

end Softlib.General
