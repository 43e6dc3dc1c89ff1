/-
Model of the templates `Vector<N,T>` and `Matrix<M,N,T>` on a memory of objects.

Source: /repo/include/softlib/General/Vector.tcc, /repo/include/softlib/General/Matrix.tcc.

Objects are numbered; `mem o i` is element `i` of object `o`.  Every loop of the source is a
loop over memory, so that operands may be the same object, and scalars passed by reference may
be elements of a vector.  Arithmetic is that of a field (exact, no rounding).
-/
import Mathlib.Algebra.Field.Basic

namespace Softlib.General

variable {α : Type} [Field α]

abbrev Mem (α : Type) := Nat → Nat → α

/-- Store `x` in element `i` of object `o`. -/
def put (m : Mem α) (o i : Nat) (x : α) : Mem α :=
  fun o' i' => if o' = o ∧ i' = i then x else m o' i'

/-- `for (i = 0; i < n; i++) body` -/
def loop (n : Nat) (body : Nat → Mem α → Mem α) (m : Mem α) : Mem α :=
  (List.range n).foldl (fun m i => body i m) m

/-- A `const T&` argument: a temporary, or an element of an object. -/
inductive SRef (α : Type) where
  | tmp (x : α)
  | elem (o i : Nat)

/-- The value seen through the reference now. -/
def SRef.val (m : Mem α) : SRef α → α
  | .tmp x => x
  | .elem o i => m o i

/-! ### vectors -/

/-- `Vector()`, Vector.tcc 13-16. -/
def vzero (n o : Nat) (m : Mem α) : Mem α := loop n (fun i m => put m o i 0) m
/-- `Vector(const Vector&)` 21-24, `operator=` 45-50. -/
def vcopy (n o v : Nat) (m : Mem α) : Mem α := loop n (fun i m => put m o i (m v i)) m
/-- `operator=(const T&)` 72-77. -/
def vfill (n o : Nat) (s : SRef α) (m : Mem α) : Mem α := loop n (fun i m => put m o i (s.val m)) m
/-- `operator+=(const Vector&)` 97-102. -/
def vaddA (n o v : Nat) (m : Mem α) : Mem α := loop n (fun i m => put m o i (m o i + m v i)) m
/-- `operator+=(const T&)` 104-109. -/
def vaddS (n o : Nat) (s : SRef α) (m : Mem α) : Mem α := loop n (fun i m => put m o i (m o i + s.val m)) m
/-- `operator-=(const Vector&)` 119-124. -/
def vsubA (n o v : Nat) (m : Mem α) : Mem α := loop n (fun i m => put m o i (m o i - m v i)) m
/-- `operator-=(const T&)` 126-131. -/
def vsubS (n o : Nat) (s : SRef α) (m : Mem α) : Mem α := loop n (fun i m => put m o i (m o i - s.val m)) m
/-- `operator*=(const T&)` 139-144. -/
def vmulS (n o : Nat) (s : SRef α) (m : Mem α) : Mem α := loop n (fun i m => put m o i (m o i * s.val m)) m
/-- `operator/=(const T&)` 152-155: the reciprocal is a temporary. -/
def vdivS (n o : Nat) (s : SRef α) (m : Mem α) : Mem α := vmulS n o (.tmp (1 / s.val m)) m
/-- Unary minus 161-167, result in the new object `r`. -/
def vneg (n r v : Nat) (m : Mem α) : Mem α := loop n (fun i m => put m r i (-(m v i))) (vzero n r m)
/-- `Dot` 175-181. -/
def vdot (n a b : Nat) (m : Mem α) : α := (List.range n).foldl (fun s i => s + m a i * m b i) 0
/-- The sum under the root in `Norm` 187-193, for real elements. -/
def vnormSq (n a : Nat) (m : Mem α) : α := (List.range n).foldl (fun s i => s + m a i * m a i) 0

/-- `operator+` 230-242, result in the new object `r`. -/
def vadd (n r a b : Nat) (m : Mem α) : Mem α := vaddA n r b (vcopy n r a m)
def vaddScalar (n r a : Nat) (s : SRef α) (m : Mem α) : Mem α := vaddS n r s (vcopy n r a m)
/-- `operator-` 248-258. -/
def vsub (n r a b : Nat) (m : Mem α) : Mem α := vsubA n r b (vcopy n r a m)
def vsubScalar (n r a : Nat) (s : SRef α) (m : Mem α) : Mem α := vsubS n r s (vcopy n r a m)
/-- `operator-(const T&, const Vector&)` 260-267. -/
def scalarSubV (n r : Nat) (s : SRef α) (a : Nat) (m : Mem α) : Mem α :=
  loop n (fun i m => put m r i (s.val m - m r i)) (vcopy n r a m)
/-- `operator*` 273-279. -/
def vmulScalar (n r a : Nat) (s : SRef α) (m : Mem α) : Mem α := vmulS n r s (vcopy n r a m)
/-- `operator/` 285-289. -/
def vdivScalar (n r a : Nat) (s : SRef α) (m : Mem α) : Mem α := vdivS n r s (vcopy n r a m)
/-- `Cross(a, b, c)` 305-315, for `N = 3`. -/
def vcross3 (a b c : Nat) (m : Mem α) : Mem α :=
  let m1 := put m c 0 (m a 1 * m b 2 - m a 2 * m b 1)
  let m2 := put m1 c 1 (m1 a 2 * m1 b 0 - m1 a 0 * m1 b 2)
  put m2 c 2 (m2 a 0 * m2 b 1 - m2 a 1 * m2 b 0)
/-- `Cross(a, b)` 296-303, result in the new object `r`; `none` is the exception for `N ≠ 3`. -/
def vcross (n r a b : Nat) (m : Mem α) : Option (Mem α) :=
  if n ≠ 3 then none else some (vcross3 a b r (vzero 3 r m))

/-! ### matrices -/

/-- Element `(i, j)` of a matrix with `n` columns, Matrix.tcc 79-100 (bounds check compiled out). -/
def el (m : Mem α) (n o i j : Nat) : α := m o (i * n + j)

/-- `Matrix(const T**)` 25-29, from a table of rows. -/
def mrows (rows cols o : Nat) (t : Nat → Nat → α) (m : Mem α) : Mem α :=
  loop rows (fun i => loop cols (fun j m => put m o (i * cols + j) (t i j))) m
/-- `Matrix(const Vector&, const Vector&)` 52-56. -/
def mouter (rows cols o a b : Nat) (m : Mem α) : Mem α :=
  loop rows (fun i => loop cols (fun j m => put m o (i * cols + j) (m a i * m b j))) m
/-- `Matrix(const Matrix&)` 32-35. -/
def mcopy (rows cols o a : Nat) (m : Mem α) : Mem α := vcopy (rows * cols) o a m
/-- `operator+=(const T)` 152-157 (by value). -/
def maddS (rows cols o : Nat) (s : α) (m : Mem α) : Mem α := vaddS (rows * cols) o (.tmp s) m
/-- `operator-=(const Matrix&)` 165-170. -/
def msubA (rows cols o a : Nat) (m : Mem α) : Mem α := vsubA (rows * cols) o a m
/-- `operator-=(const T)` 180-185. -/
def msubS (rows cols o : Nat) (s : α) (m : Mem α) : Mem α := vsubS (rows * cols) o (.tmp s) m
/-- `operator*=(const T)` 214-219. -/
def mmulS (rows cols o : Nat) (s : α) (m : Mem α) : Mem α := vmulS (rows * cols) o (.tmp s) m
/-- Unary minus 225-230: acts on the operand itself. -/
def mneg (rows cols o : Nat) (m : Mem α) : Mem α := loop (rows * cols) (fun i m => put m o i (-(m o i))) m
/-- `operator*=(const Matrix&)` 194-206, on an `M × N` matrix with an `N × M` argument;
`none` when an element outside the `M*N` elements of the object is written. -/
def mmulA (M N o a : Nat) (m : Mem α) : Option (Mem α) :=
  (List.range M).foldlM (fun m i =>
    (List.range M).foldlM (fun m j =>
      let sum := (List.range N).foldl (fun s k => s + m o (i * N + k) * el m M a k j) 0
      if i * N + j < M * N then some (put m o (i * N + j) sum) else none) m) m

/-- `operator+(const Matrix&, const T)` and `operator+(const T, const Matrix&)` 250-260. -/
def maddScalar (rows cols r a : Nat) (s : α) (m : Mem α) : Mem α := maddS rows cols r s (mcopy rows cols r a m)
/-- `operator-(const Matrix&, const Matrix&)` 266-270. -/
def msub (rows cols r a b : Nat) (m : Mem α) : Mem α := msubA rows cols r b (mcopy rows cols r a m)
/-- `operator-(const Matrix&, const T)` 276-280. -/
def msubScalar (rows cols r a : Nat) (s : α) (m : Mem α) : Mem α := msubS rows cols r s (mcopy rows cols r a m)
/-- `operator-(const T, const Matrix&)` 282-286: subtracts the scalar from the matrix. -/
def scalarSubM (rows cols r : Nat) (s : α) (a : Nat) (m : Mem α) : Mem α :=
  msubS rows cols r s (mcopy rows cols r a m)
/-- `operator*(const Matrix&, const T)` and `operator*(const T, const Matrix&)` 312-322: adds. -/
def mmulScalar (rows cols r a : Nat) (s : α) (m : Mem α) : Mem α := maddS rows cols r s (mcopy rows cols r a m)
/-- `operator*(const Matrix&, const Matrix&)` 292-306; `M × N` times `N × K`. -/
def mmul (M N K r a b : Nat) (m : Mem α) : Mem α :=
  loop M (fun i => loop K (fun j m =>
    put m r (i * K + j) ((List.range N).foldl (fun s k => s + el m N a i k * el m K b k j) 0)))
    (vzero (M * K) r m)
/-- `operator*(const Matrix&, const Vector&)` 329-341. -/
def mvmul (M N r a v : Nat) (m : Mem α) : Mem α :=
  loop M (fun i m =>
    put m r i ((List.range N).foldl (fun s j => s + el m N a i j * m v j) 0)) (vzero M r m)

end Softlib.General
