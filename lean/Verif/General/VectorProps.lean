/-
Properties C32, C33 and C67: vectors and matrices.
-/
import Verif.General.VectorModel
import Mathlib.Algebra.BigOperators.Ring.Finset
import Mathlib.Algebra.BigOperators.Fin
import Mathlib.Data.Real.Sqrt
import Mathlib.Tactic.Ring
import Mathlib.Tactic.FieldSimp
import Mathlib.Tactic.NormNum

namespace Softlib

open Softlib.General

variable {α : Type} [Field α]

theorem put_same (m : Mem α) (o i : Nat) (x : α) : put m o i x o i = x := by simp [put]

theorem put_other (m : Mem α) {o i o' i' : Nat} (x : α) (h : o' ≠ o ∨ i' ≠ i) : put m o i x o' i' = m o' i' := by
  unfold put
  rw [if_neg]
  rintro ⟨h1, h2⟩
  rcases h with h | h
  · exact h h1
  · exact h h2

theorem loop_succ (n : Nat) (body : Nat → Mem α → Mem α) (m : Mem α) :
    loop (n + 1) body m = body n (loop n body m) := by
  unfold loop
  rw [List.range_succ, List.foldl_append]
  rfl

/-- A loop writing element `i` of one object in round `i`. -/
theorem loop_put (o : Nat) (g : Nat → Mem α → α) :
    ∀ (n : Nat) (m : Mem α),
    (∀ i, i < n → ∀ m1 : Mem α, (∀ o' j, (o' ≠ o ∨ i ≤ j) → m1 o' j = m o' j) → g i m1 = g i m) →
      (∀ i, i < n → loop n (fun i m => put m o i (g i m)) m o i = g i m) ∧
      (∀ o' i, (o' ≠ o ∨ n ≤ i) → loop n (fun i m => put m o i (g i m)) m o' i = m o' i) := by
  intro n
  induction n with
  | zero => intro m _; exact ⟨fun i h => absurd h (Nat.not_lt_zero i), fun _ _ _ => rfl⟩
  | succ n ih =>
    intro m hg
    obtain ⟨h1, h2⟩ := ih m (fun i hi => hg i (by omega))
    refine ⟨?_, ?_⟩
    · intro i hi
      rw [loop_succ]
      by_cases e : i = n
      · subst e
        rw [put_same]
        exact hg i hi _ h2
      · rw [put_other _ _ (.inr e)]
        exact h1 i (by omega)
    · intro o' i h
      rw [loop_succ, put_other _ _ (by rcases h with h | h; exact .inl h; exact .inr (by omega))]
      exact h2 o' i (by rcases h with h | h; exact .inl h; exact .inr (by omega))

/-- The memory of a fresh object `r` has the values `f` in its first `n` places and everything
else is as before. -/
def Result (m m' : Mem α) (r n : Nat) (f : Nat → α) : Prop :=
  (∀ i, i < n → m' r i = f i) ∧ (∀ o i, o ≠ r → m' o i = m o i)

theorem sref_ok (s : SRef α) (r : Nat) (h : ∀ i, s ≠ .elem r i) (m m' : Mem α)
    (hm : ∀ o i, o ≠ r → m' o i = m o i) : s.val m' = s.val m := by
  cases s with
  | tmp x => rfl
  | elem o i =>
    show m' o i = m o i
    apply hm
    intro e
    exact h i (by rw [e])

theorem vcopy_result (n r v : Nat) (m : Mem α) : Result m (vcopy n r v m) r n (m v) := by
  have := loop_put r (fun i (m : Mem α) => m v i) n m (fun i _ m1 h1 => h1 v i (.inr (Nat.le_refl _)))
  exact ⟨this.1, fun o i h => this.2 o i (.inl h)⟩

theorem vzero_result (n r : Nat) (m : Mem α) : Result m (vzero n r m) r n (fun _ => 0) := by
  have := loop_put r (fun i (m : Mem α) => 0) n m (fun i _ m1 h1 => rfl)
  exact ⟨this.1, fun o i h => this.2 o i (.inl h)⟩

/-- In-place elementwise operation with a vector, aliasing allowed. -/
theorem inplace_vec (op : α → α → α) (n o v : Nat) (m : Mem α) :
    Result m (loop n (fun i m => put m o i (op (m o i) (m v i))) m) o n (fun i => op (m o i) (m v i)) := by
  have := loop_put o (fun i (m : Mem α) => op (m o i) (m v i)) n m
    (fun i _ m1 h1 => by
      show op (m1 o i) (m1 v i) = op (m o i) (m v i)
      rw [h1 o i (.inr (Nat.le_refl _)), h1 v i (.inr (Nat.le_refl _))])
  exact ⟨this.1, fun o' i h => this.2 o' i (.inl h)⟩

/-- In-place elementwise operation with a scalar that is not an element of the vector. -/
theorem inplace_scalar (op : α → α → α) (n o : Nat) (s : SRef α) (m : Mem α) (hs : ∀ i, s ≠ .elem o i) :
    Result m (loop n (fun i m => put m o i (op (m o i) (s.val m))) m) o n (fun i => op (m o i) (s.val m)) := by
  have := loop_put o (fun i (m : Mem α) => op (m o i) (s.val m)) n m
    (fun i _ m1 h1 => by
      show op (m1 o i) (s.val m1) = op (m o i) (s.val m)
      rw [h1 o i (.inr (Nat.le_refl _)), sref_ok s o hs m m1 (fun o' j h => h1 o' j (.inl h))])
  exact ⟨this.1, fun o' i h => this.2 o' i (.inl h)⟩

/-- Composition: copy into a fresh object, then operate in place. -/
theorem Result.trans {m m1 m2 : Mem α} {r n : Nat} {f g : Nat → α} (h1 : Result m m1 r n f)
    (h2 : Result m1 m2 r n g) : Result m m2 r n g :=
  ⟨h2.1, fun o i h => (h2.2 o i h).trans (h1.2 o i h)⟩

theorem Result.congr {m m1 : Mem α} {r n : Nat} {f g : Nat → α} (h1 : Result m m1 r n f)
    (h2 : ∀ i, i < n → f i = g i) : Result m m1 r n g :=
  ⟨fun i hi => (h1.1 i hi).trans (h2 i hi), h1.2⟩

/-- Copy then combine with a vector: `a op b`. -/
theorem binary_vec (op : α → α → α) (n r a b : Nat) (hb : b ≠ r) (m : Mem α) :
    Result m (loop n (fun i m => put m r i (op (m r i) (m b i))) (vcopy n r a m)) r n
      (fun i => op (m a i) (m b i)) := by
  have h1 := vcopy_result n r a m
  refine (h1.trans (inplace_vec op n r b _)).congr ?_
  intro i hi
  show op (vcopy n r a m r i) (vcopy n r a m b i) = op (m a i) (m b i)
  rw [h1.1 i hi, h1.2 b i hb]

theorem binary_scalar (op : α → α → α) (n r a : Nat) (s : SRef α) (hs : ∀ i, s ≠ .elem r i) (m : Mem α) :
    Result m (loop n (fun i m => put m r i (op (m r i) (s.val m))) (vcopy n r a m)) r n
      (fun i => op (m a i) (s.val m)) := by
  have h1 := vcopy_result n r a m
  refine (h1.trans (inplace_scalar op n r s _ hs)).congr ?_
  intro i hi
  show op (vcopy n r a m r i) (s.val (vcopy n r a m)) = op (m a i) (s.val m)
  rw [h1.1 i hi, sref_ok s r hs _ _ h1.2]

/-! ### C32 -/

/-- C32, sums and differences, for every length; the operands may be the same vector, the
result is a fresh object `r`, nothing else changes. -/
theorem C32_add_sub (n r a b : Nat) (hb : b ≠ r) (m : Mem α) :
    Result m (vadd n r a b m) r n (fun i => m a i + m b i) ∧
    Result m (vsub n r a b m) r n (fun i => m a i - m b i) :=
  ⟨binary_vec (· + ·) n r a b hb m, binary_vec (· - ·) n r a b hb m⟩

/-- C32, operations with a scalar, which may be an element of the vector operand (the result
object `r` is fresh, so no reference to it exists). -/
theorem C32_scalar_ops (n r a : Nat) (s : SRef α) (hs : ∀ i, s ≠ .elem r i) (m : Mem α) :
    Result m (vaddScalar n r a s m) r n (fun i => m a i + s.val m) ∧
    Result m (vsubScalar n r a s m) r n (fun i => m a i - s.val m) ∧
    Result m (scalarSubV n r s a m) r n (fun i => s.val m - m a i) ∧
    Result m (vmulScalar n r a s m) r n (fun i => m a i * s.val m) ∧
    Result m (vdivScalar n r a s m) r n (fun i => m a i / s.val m) := by
  refine ⟨binary_scalar (· + ·) n r a s hs m, binary_scalar (· - ·) n r a s hs m,
    binary_scalar (fun x y => y - x) n r a s hs m, binary_scalar (· * ·) n r a s hs m, ?_⟩
  have h1 := vcopy_result n r a m
  have e : (s.val (vcopy n r a m)) = s.val m := sref_ok s r hs _ _ h1.2
  have := binary_scalar (· * ·) n r a (.tmp (1 / s.val m)) (by intro i h; cases h) m
  refine (show Result m (vdivScalar n r a s m) r n (fun i => m a i * (1 / s.val m)) from ?_).congr ?_
  · rw [vdivScalar, vdivS, e]
    exact this
  · intro i _
    rw [mul_one_div]

/-- C32, unary minus. -/
theorem C32_neg (n r a : Nat) (ha : a ≠ r) (m : Mem α) : Result m (vneg n r a m) r n (fun i => - m a i) := by
  have h1 := vzero_result n r m
  have := loop_put r (fun i (m : Mem α) => - m a i) n (vzero n r m) (fun i _ m1 h => by
    show - m1 a i = - _
    rw [h a i (.inl ha)])
  refine ⟨?_, ?_⟩
  · intro i hi
    rw [vneg, this.1 i hi, h1.2 a i ha]
  · intro o i h
    rw [vneg, this.2 o i (.inl h), h1.2 o i h]

theorem foldl_sum (f : Nat → α) (n : Nat) :
    (List.range n).foldl (fun s i => s + f i) 0 = ∑ i ∈ Finset.range n, f i := by
  induction n with
  | zero => rfl
  | succ n ih => rw [List.range_succ, List.foldl_append, ih, Finset.sum_range_succ]; rfl

/-- C32, the scalar product. -/
theorem C32_dot (n a b : Nat) (m : Mem α) : vdot n a b m = ∑ i ∈ Finset.range n, m a i * m b i :=
  foldl_sum (fun i => m a i * m b i) n

/-- C32, the norm (real entries). -/
theorem C32_norm (n a : Nat) (m : Mem ℝ) :
    Real.sqrt (vnormSq n a m) = Real.sqrt (∑ i ∈ Finset.range n, (m a i) ^ 2) ∧
    (Real.sqrt (vnormSq n a m)) ^ 2 = ∑ i ∈ Finset.range n, (m a i) ^ 2 := by
  have e : vnormSq n a m = ∑ i ∈ Finset.range n, (m a i) ^ 2 := by
    rw [vnormSq, foldl_sum (fun i => m a i * m a i) n]
    exact Finset.sum_congr rfl (fun i _ => by ring)
  refine ⟨by rw [e], ?_⟩
  rw [e]
  exact Real.sq_sqrt (Finset.sum_nonneg (fun i _ => sq_nonneg _))

/-- C32, `Normalize`: a vector with non-zero norm gets norm 1. -/
theorem C32_normalize (n o : Nat) (m : Mem ℝ) (h : 0 < vnormSq n o m) :
    vnormSq n o (vdivS n o (.tmp (Real.sqrt (vnormSq n o m))) m) = 1 := by
  have hr := inplace_scalar (· * ·) n o (.tmp (1 / Real.sqrt (vnormSq n o m))) m (by intro i h; cases h)
  have e : ∀ m : Mem ℝ, vnormSq n o m = ∑ i ∈ Finset.range n, m o i * m o i := fun m =>
    foldl_sum (fun i => m o i * m o i) n
  have e2 : vnormSq n o (vdivS n o (.tmp (Real.sqrt (vnormSq n o m))) m) =
      ∑ i ∈ Finset.range n, (m o i * m o i) * (1 / vnormSq n o m) := by
    rw [e]
    refine Finset.sum_congr rfl ?_
    intro i hi
    have : vdivS n o (.tmp (Real.sqrt (vnormSq n o m))) m o i = m o i * (1 / Real.sqrt (vnormSq n o m)) :=
      hr.1 i (Finset.mem_range.1 hi)
    rw [this]
    have hs : Real.sqrt (vnormSq n o m) * Real.sqrt (vnormSq n o m) = vnormSq n o m :=
      Real.mul_self_sqrt (le_of_lt h)
    have : (1 / Real.sqrt (vnormSq n o m)) * (1 / Real.sqrt (vnormSq n o m)) = 1 / vnormSq n o m := by
      rw [div_mul_div_comm, hs, mul_one]
    rw [← this]
    ring
  rw [e2, ← Finset.sum_mul, ← e]
  exact mul_one_div_cancel (ne_of_gt h)

/-- C32, the cross product of three-vectors, for operands that may be the same vector; other
lengths give an exception. -/
theorem C32_cross (n r a b : Nat) (ha : a ≠ r) (hb : b ≠ r) (m : Mem α) :
    (n ≠ 3 → vcross n r a b m = none) ∧
    (n = 3 → ∃ m', vcross n r a b m = some m' ∧ Result m m' r 3 (fun i =>
      m a ((i + 1) % 3) * m b ((i + 2) % 3) - m a ((i + 2) % 3) * m b ((i + 1) % 3))) := by
  refine ⟨fun h => by simp [vcross, h], fun h => ?_⟩
  have hz := vzero_result 3 r m
  refine ⟨vcross3 a b r (vzero 3 r m), by simp [vcross, h], ?_, ?_⟩
  · intro i hi
    have h3 : i = 0 ∨ i = 1 ∨ i = 2 := by omega
    rcases h3 with rfl | rfl | rfl <;>
      simp only [vcross3, put, ha, hb, false_and, if_false, true_and, if_true, hz.2 a _ ha, hz.2 b _ hb] <;>
      simp
  · intro o i ho
    simp only [vcross3, put, ho, false_and, if_false]
    exact hz.2 o i ho

/-- `(1,2) + (1,2)` with both operands the same object. -/
example : ((vadd 2 1 0 0 (fun _ i => (i : ℚ) + 1) : Mem ℚ) 1 0, (vadd 2 1 0 0 (fun _ i => (i : ℚ) + 1) : Mem ℚ) 1 1) = (2, 4) := by
  have := (C32_add_sub 2 1 0 0 (by omega) (fun _ i => (i : ℚ) + 1)).1.1
  rw [this 0 (by omega), this 1 (by omega)]
  norm_num

/-! ### C67: compound assignment -/

/-- C67: `+=` and `-=` with a vector give the textbook value even when both sides are the same
vector. -/
theorem C67_vector_compound (n o v : Nat) (m : Mem α) :
    Result m (vaddA n o v m) o n (fun i => m o i + m v i) ∧
    Result m (vsubA n o v m) o n (fun i => m o i - m v i) ∧
    Result m (vcopy n o v m) o n (fun i => m v i) :=
  ⟨inplace_vec (· + ·) n o v m, inplace_vec (· - ·) n o v m, vcopy_result n o v m⟩

/-- C67: `+=`, `-=`, `*=` with a scalar that is not an element of the vector, and `/=` with any
scalar.  Missing: a scalar that is an element of the vector, see `C67_refuted`. -/
theorem C67_scalar_compound_partial (n o : Nat) (s : SRef α) (m : Mem α) :
    ((∀ i, s ≠ .elem o i) →
      Result m (vaddS n o s m) o n (fun i => m o i + s.val m) ∧
      Result m (vsubS n o s m) o n (fun i => m o i - s.val m) ∧
      Result m (vmulS n o s m) o n (fun i => m o i * s.val m)) ∧
    Result m (vdivS n o s m) o n (fun i => m o i / s.val m) := by
  refine ⟨fun hs => ⟨inplace_scalar (· + ·) n o s m hs, inplace_scalar (· - ·) n o s m hs,
    inplace_scalar (· * ·) n o s m hs⟩, ?_⟩
  refine (inplace_scalar (· * ·) n o (.tmp (1 / s.val m)) m (by intro i h; cases h)).congr ?_
  intro i _
  show m o i * (1 / s.val m) = m o i / s.val m
  rw [mul_one_div]

/-- C67: assigning a scalar to all elements, also one that is an element of the vector. -/
theorem C67_fill (n o : Nat) (s : SRef α) (m : Mem α) :
    Result m (vfill n o s m) o n (fun _ => s.val m) := by
  have key : ∀ n, (∀ i, i < n → vfill n o s m o i = s.val m) ∧
      (∀ i, n ≤ i → vfill n o s m o i = m o i) ∧ (∀ o' i, o' ≠ o → vfill n o s m o' i = m o' i) ∧
      s.val (vfill n o s m) = s.val m := by
    intro n
    induction n with
    | zero => exact ⟨fun i h => absurd h (Nat.not_lt_zero i), fun _ _ => rfl, fun _ _ _ => rfl, rfl⟩
    | succ n ih =>
      obtain ⟨h1, h2, h3, h4⟩ := ih
      have e : vfill (n + 1) o s m = put (vfill n o s m) o n (s.val m) := by
        unfold vfill at h4 ⊢
        rw [loop_succ, h4]
      rw [e]
      refine ⟨?_, ?_, ?_, ?_⟩
      · intro i hi
        by_cases hin : i = n
        · subst hin; rw [put_same]
        · rw [put_other _ _ (.inr hin)]; exact h1 i (by omega)
      · intro i hi
        rw [put_other _ _ (.inr (by omega))]; exact h2 i (by omega)
      · intro o' i ho
        rw [put_other _ _ (.inl ho)]; exact h3 o' i ho
      · cases s with
        | tmp x => rfl
        | elem o' i =>
          show put (vfill n o (.elem o' i) m) o n (m o' i) o' i = m o' i
          by_cases hh : o' = o ∧ i = n
          · obtain ⟨rfl, rfl⟩ := hh; rw [put_same]
          · rw [put_other _ _ (by by_cases h : o' = o; exact .inr (fun h' => hh ⟨h, h'⟩); exact .inl h)]
            exact h4
  exact ⟨(key n).1, fun o' i h => (key n).2.2.1 o' i h⟩

/-- C67 as stated is refuted: `v *= v[0]` on `(2, 2)` yields `(4, 8)` since the factor changes
during the loop, and `v -= v[0]` leaves the second element unchanged. -/
theorem C67_refuted :
    (vmulS 2 0 (.elem 0 0) (fun _ _ => (2 : ℚ)) 0 0, vmulS 2 0 (.elem 0 0) (fun _ _ => (2 : ℚ)) 0 1) = (4, 8) ∧
    vsubS 2 0 (.elem 0 0) (fun _ _ => (2 : ℚ)) 0 1 = 2 := by
  refine ⟨?_, ?_⟩ <;> simp [vmulS, vsubS, loop, List.range_succ, put, SRef.val] <;> norm_num

/-- C67, `Cross(a, b, c)` with an output different from both inputs. -/
theorem C67_cross_output (a b c : Nat) (ha : a ≠ c) (hb : b ≠ c) (m : Mem α) :
    Result m (vcross3 a b c m) c 3 (fun i =>
      m a ((i + 1) % 3) * m b ((i + 2) % 3) - m a ((i + 2) % 3) * m b ((i + 1) % 3)) := by
  refine ⟨?_, ?_⟩
  · intro i hi
    have h3 : i = 0 ∨ i = 1 ∨ i = 2 := by omega
    rcases h3 with rfl | rfl | rfl <;> simp [vcross3, put, ha, hb]
  · intro o i ho
    simp only [vcross3, put, ho, false_and, if_false]

/-- C67 as stated is refuted for `Cross(a, b, a)`: with `a = (0,1,0)`, `b = (1,1,1)` the third
component is `-1`, the code delivers `2`, since it uses the components just overwritten. -/
theorem C67_cross_refuted :
    let m : Mem ℚ := fun o i => if o = 0 then (if i = 1 then 1 else 0) else 1
    vcross3 0 1 0 m 0 2 = 2 ∧ m 0 0 * m 1 1 - m 0 1 * m 1 0 = -1 := by
  simp only [vcross3, put]
  norm_num

/-! ### C33 -/

/-- Rows of a matrix do not overlap. -/
theorem rowmajor_inj {n i j i' j' : Nat} (hj : j < n) (hj' : j' < n) (h : i * n + j = i' * n + j') :
    i = i' ∧ j = j' := by
  have hn : 0 < n := by omega
  have h1 : (i * n + j) / n = i := by
    rw [Nat.mul_comm, Nat.mul_add_div hn, Nat.div_eq_of_lt hj, Nat.add_zero]
  have h2 : (i' * n + j') / n = i' := by
    rw [Nat.mul_comm, Nat.mul_add_div hn, Nat.div_eq_of_lt hj', Nat.add_zero]
  have : i = i' := by rw [← h1, h, h2]
  subst this
  exact ⟨rfl, by omega⟩

theorem rowmajor_lt {rows cols i j : Nat} (hi : i < rows) (hj : j < cols) : i * cols + j < rows * cols := by
  calc i * cols + j < i * cols + cols := by omega
    _ = (i + 1) * cols := by rw [Nat.add_mul, Nat.one_mul]
    _ ≤ rows * cols := Nat.mul_le_mul_right cols hi

/-- Object `r` holds the `rows × cols` matrix `f`; nothing else has changed. -/
def MResult (m m' : Mem α) (r rows cols : Nat) (f : Nat → Nat → α) : Prop :=
  (∀ i j, i < rows → j < cols → el m' cols r i j = f i j) ∧ (∀ o i, o ≠ r → m' o i = m o i)

theorem Result.toM {m m' : Mem α} {r rows cols : Nat} {f : Nat → α} (h : Result m m' r (rows * cols) f) :
    MResult m m' r rows cols (fun i j => f (i * cols + j)) :=
  ⟨fun _ _ hi hj => h.1 _ (rowmajor_lt hi hj), h.2⟩

/-- A double loop writing element `(i, j)` of the fresh object `r`, with values computed from
other objects. -/
theorem loop2_put (r cols : Nat) (g : Nat → Nat → Mem α → α)
    (hg : ∀ i j (m m' : Mem α), (∀ o k, o ≠ r → m' o k = m o k) → g i j m' = g i j m) (m : Mem α) :
    ∀ rows : Nat,
      (∀ i j, i < rows → j < cols →
        loop rows (fun i => loop cols (fun j m => put m r (i * cols + j) (g i j m))) m r (i * cols + j) = g i j m) ∧
      (∀ o k, o ≠ r →
        loop rows (fun i => loop cols (fun j m => put m r (i * cols + j) (g i j m))) m o k = m o k) := by
  have inner : ∀ (i : Nat) (m : Mem α) (c : Nat), c ≤ cols →
      (∀ j, j < c → loop c (fun j m => put m r (i * cols + j) (g i j m)) m r (i * cols + j) = g i j m) ∧
      (∀ o k, (o ≠ r ∨ ∀ j, j < c → k ≠ i * cols + j) →
        loop c (fun j m => put m r (i * cols + j) (g i j m)) m o k = m o k) := by
    intro i m c
    induction c with
    | zero => intro _; exact ⟨fun j h => absurd h (Nat.not_lt_zero j), fun _ _ _ => rfl⟩
    | succ c ih =>
      intro hc
      obtain ⟨h1, h2⟩ := ih (by omega)
      refine ⟨?_, ?_⟩
      · intro j hj
        rw [loop_succ]
        by_cases e : j = c
        · subst e
          rw [put_same]
          exact hg i j _ _ (fun o k ho => h2 o k (.inl ho))
        · rw [put_other _ _ (.inr (by omega))]
          exact h1 j (by omega)
      · intro o k h
        rw [loop_succ, put_other _ _ (by
          rcases h with h | h
          · exact .inl h
          · exact .inr (h c (by omega)))]
        exact h2 o k (by
          rcases h with h | h
          · exact .inl h
          · exact .inr (fun j hj => h j (by omega)))
  intro rows
  induction rows with
  | zero => exact ⟨fun i j h => absurd h (Nat.not_lt_zero i), fun _ _ _ => rfl⟩
  | succ rows ih =>
    obtain ⟨h1, h2⟩ := ih
    obtain ⟨k1, k2⟩ := inner rows
      (loop rows (fun i => loop cols (fun j m => put m r (i * cols + j) (g i j m))) m) cols (Nat.le_refl _)
    refine ⟨?_, ?_⟩
    · intro i j hi hj
      rw [loop_succ]
      by_cases e : i = rows
      · subst e
        rw [k1 j hj]
        exact hg i j _ _ h2
      · rw [k2 r (i * cols + j) (.inr (fun j' hj' h => e (rowmajor_inj hj hj' h).1))]
        exact h1 i j (by omega) hj
    · intro o k ho
      rw [loop_succ, k2 o k (.inl ho)]
      exact h2 o k ho

/-- C33, differences, scalar sums and differences, scaling in place; every shape. -/
theorem C33_elementwise_partial (rows cols r a b : Nat) (s : α) (hb : b ≠ r) (m : Mem α) :
    MResult m (msub rows cols r a b m) r rows cols (fun i j => el m cols a i j - el m cols b i j) ∧
    MResult m (maddScalar rows cols r a s m) r rows cols (fun i j => el m cols a i j + s) ∧
    MResult m (msubScalar rows cols r a s m) r rows cols (fun i j => el m cols a i j - s) ∧
    MResult m (mmulS rows cols a s m) a rows cols (fun i j => el m cols a i j * s) ∧
    MResult m (mcopy rows cols r a m) r rows cols (fun i j => el m cols a i j) := by
  have ht : ∀ o, ∀ i, (SRef.tmp s : SRef α) ≠ .elem o i := by intro o i h; cases h
  exact ⟨(binary_vec (· - ·) _ r a b hb m).toM, (binary_scalar (· + ·) _ r a (.tmp s) (ht r) m).toM,
    (binary_scalar (· - ·) _ r a (.tmp s) (ht r) m).toM, (inplace_scalar (· * ·) _ a (.tmp s) m (ht a)).toM,
    (vcopy_result _ r a m).toM⟩

/-- C33, the matrix product of an `M × N` and an `N × K` matrix, for every shape; the operands
may be the same matrix and stay unchanged. -/
theorem C33_matrix_product (M N K r a b : Nat) (ha : a ≠ r) (hb : b ≠ r) (m : Mem α) :
    MResult m (mmul M N K r a b m) r M K
      (fun i j => ∑ k ∈ Finset.range N, el m N a i k * el m K b k j) := by
  have hz := vzero_result (M * K) r m
  have key := loop2_put r K (fun i j (m : Mem α) => (List.range N).foldl (fun s k => s + el m N a i k * el m K b k j) 0)
    (fun i j m m' h => by
      simp only [el]
      congr 1
      funext s k
      rw [h a _ ha, h b _ hb])
    (vzero (M * K) r m) M
  refine ⟨?_, ?_⟩
  · intro i j hi hj
    show mmul M N K r a b m r (i * K + j) = _
    rw [mmul, key.1 i j hi hj, foldl_sum (fun k => el (vzero (M * K) r m) N a i k * el (vzero (M * K) r m) K b k j)]
    refine Finset.sum_congr rfl ?_
    intro k _
    simp only [el, hz.2 a _ ha, hz.2 b _ hb]
  · intro o k ho
    rw [mmul, key.2 o k ho, hz.2 o k ho]

/-- C33, the product of a matrix and a vector. -/
theorem C33_matrix_vector (M N r a v : Nat) (ha : a ≠ r) (hv : v ≠ r) (m : Mem α) :
    Result m (mvmul M N r a v m) r M (fun i => ∑ j ∈ Finset.range N, el m N a i j * m v j) := by
  have hz := vzero_result M r m
  have key := loop_put r (fun i (m : Mem α) => (List.range N).foldl (fun s j => s + el m N a i j * m v j) 0) M
    (vzero M r m) (fun i _ m1 h => by
      simp only [el]
      congr 1
      funext s k
      rw [h a _ (.inl ha), h v _ (.inl hv)])
  refine ⟨?_, ?_⟩
  · intro i hi
    rw [mvmul, key.1 i hi, foldl_sum (fun j => el (vzero M r m) N a i j * (vzero M r m) v j)]
    refine Finset.sum_congr rfl ?_
    intro k _
    simp only [el, hz.2 a _ ha, hz.2 v _ hv]
  · intro o k ho
    rw [mvmul, key.2 o k (.inl ho), hz.2 o k ho]

/-- C33, building a matrix from rows and as an outer product. -/
theorem C33_construction (rows cols r a b : Nat) (ha : a ≠ r) (hb : b ≠ r) (t : Nat → Nat → α) (m : Mem α) :
    MResult m (mrows rows cols r t m) r rows cols t ∧
    MResult m (mouter rows cols r a b m) r rows cols (fun i j => m a i * m b j) := by
  refine ⟨?_, ?_⟩
  · have := loop2_put r cols (fun i j (_ : Mem α) => t i j) (fun _ _ _ _ _ => rfl) m rows
    exact ⟨this.1, this.2⟩
  · have := loop2_put r cols (fun i j (m : Mem α) => m a i * m b j)
      (fun i j m m' h => by rw [h a i ha, h b j hb]) m rows
    exact ⟨this.1, this.2⟩

/-- C33, what scalar multiples and "scalar minus matrix" really compute, for every shape. -/
theorem C33_scalar_actual (rows cols r a : Nat) (s : α) (m : Mem α) :
    MResult m (mmulScalar rows cols r a s m) r rows cols (fun i j => el m cols a i j + s) ∧
    MResult m (scalarSubM rows cols r s a m) r rows cols (fun i j => el m cols a i j - s) := by
  have ht : ∀ i, (SRef.tmp s : SRef α) ≠ .elem r i := by intro i h; cases h
  exact ⟨(binary_scalar (· + ·) _ r a (.tmp s) ht m).toM, (binary_scalar (· - ·) _ r a (.tmp s) ht m).toM⟩

/-- C33, unary minus overwrites its operand with the negative. -/
theorem C33_neg_in_place (rows cols a : Nat) (m : Mem α) :
    MResult m (mneg rows cols a m) a rows cols (fun i j => - el m cols a i j) :=
  (inplace_vec (fun x _ => -x) (rows * cols) a a m).toM

/-- C33 as stated is refuted: `2 * (3)` is `(5)`, `2 - (3)` is `(1)`, and `-A` changes `A`. -/
theorem C33_refuted :
    el (mmulScalar 1 1 1 0 2 (fun _ _ => (3 : ℚ))) 1 1 0 0 = 5 ∧
    el (scalarSubM 1 1 1 2 0 (fun _ _ => (3 : ℚ))) 1 1 0 0 = 1 ∧
    el (mneg 1 1 0 (fun _ _ => (3 : ℚ))) 1 0 0 0 = -3 := by
  refine ⟨?_, ?_, ?_⟩
  · rw [(C33_scalar_actual 1 1 1 0 2 _).1.1 0 0 (by omega) (by omega)]; norm_num [el]
  · rw [(C33_scalar_actual 1 1 1 0 2 _).2.1 0 0 (by omega) (by omega)]; norm_num [el]
  · rw [(C33_neg_in_place 1 1 0 _).1 0 0 (by omega) (by omega)]; norm_num [el]

/-- C33 as stated is refuted for `A *= B`: with all entries 1 in 2 × 2 matrices the product is
`2`, the code gives `3` in the second column, since the row is overwritten while in use; and on
a 2 × 1 matrix it writes outside the object. -/
theorem C33_mul_assign_refuted :
    ((mmulA 2 2 0 1 (fun _ _ => (1 : ℚ))).map (fun m => (el m 2 0 0 0, el m 2 0 0 1))) = some (2, 3) ∧
    (mmulA 2 1 0 1 (fun _ _ => (1 : ℚ))).isNone = true := by
  refine ⟨?_, ?_⟩ <;>
    simp [mmulA, el, put, List.range_succ] <;> norm_num

/-- More rows than columns: `*=` always writes outside the object, whatever the entries. -/
theorem C33_mul_assign_out_of_bounds (M N o a : Nat) (h : N < M) (m : Mem α) : mmulA M N o a m = none := by
  have inner : ∀ (i : Nat), i < M → M * N ≤ i * N + (M - 1) → ∀ m : Mem α,
      (List.range M).foldlM (fun m j =>
        let sum := (List.range N).foldl (fun s k => s + m o (i * N + k) * el m M a k j) 0
        if i * N + j < M * N then some (put m o (i * N + j) sum) else none) m = none := by
    intro i hi hb m
    obtain ⟨c, rfl⟩ : ∃ c, M = c + 1 := ⟨M - 1, by omega⟩
    rw [List.range_succ, List.foldlM_append]
    rw [show c + 1 - 1 = c from rfl] at hb
    cases hl : (List.range c).foldlM (fun m j =>
        let sum := (List.range N).foldl (fun s k => s + m o (i * N + k) * el m (c + 1) a k j) 0
        if i * N + j < (c + 1) * N then some (put m o (i * N + j) sum) else none) m with
    | none => rfl
    | some m' =>
      simp only [Option.bind_eq_bind, Option.bind_some, List.foldlM_cons, List.foldlM_nil]
      rw [if_neg (by omega)]
      rfl
  obtain ⟨c, rfl⟩ : ∃ c, M = c + 1 := ⟨M - 1, by omega⟩
  unfold mmulA
  have hlast := inner c (by omega) (by
    rw [Nat.add_mul]
    omega)
  rw [List.range_succ, List.foldlM_append]
  rw [List.range_succ] at hlast
  cases hl : (List.range c).foldlM (fun m i =>
    (List.range c ++ [c]).foldlM (fun m j =>
      let sum := (List.range N).foldl (fun s k => s + m o (i * N + k) * el m (c + 1) a k j) 0
      if i * N + j < (c + 1) * N then some (put m o (i * N + j) sum) else none) m) m with
  | none => rfl
  | some m' =>
    simp only [Option.bind_eq_bind, Option.bind_some, List.foldlM_cons, List.foldlM_nil]
    rw [hlast m']
    rfl

end Softlib
