/-
C131: vectors of integers and of complex numbers.
-/
import Verif.General.ElemModel
import Mathlib.Tactic.Linarith
import Mathlib.Tactic.Ring
import Mathlib.Tactic.Positivity
import Mathlib.Tactic.FieldSimp
import Mathlib.Tactic.NormNum
import Mathlib.Algebra.BigOperators.Group.Finset.Basic
import Mathlib.Algebra.BigOperators.Intervals
import Mathlib.Algebra.BigOperators.Field
import Mathlib.Data.Complex.BigOperators
import Mathlib.Algebra.Order.BigOperators.Group.Finset

namespace Softlib
open Softlib.General

/-- An `int`. -/
def IsInt32 (z : ℤ) : Prop := -2 ^ 31 ≤ z ∧ z ≤ 2 ^ 31 - 1

/-- A floating-point format in which all integers up to `2^53` are numbers, and rounding does not double a
number. -/
def DoubleLike {u : ℚ} (R : Rnd u) : Prop := u < 1 ∧ ∀ z : ℤ, |z| ≤ 2 ^ 53 → R.fl z = z

theorem inInt_some {z : ℤ} (h : IsInt32 z) : inInt z = some z := if_pos h
theorem inInt_none {z : ℤ} (h : ¬ IsInt32 z) : inInt z = none := if_neg h

theorem dbl_int {z : ℤ} : dblToInt z = inInt z := by
  unfold dblToInt truncQ
  congr 1
  split_ifs <;> simp

/-- The doubles are such a format. -/
theorem doubleLike_bits : DoubleLike (rndBits 52) := by
  refine ⟨by norm_num, fun z hz => ?_⟩
  have := flBits_exact 52 (e := 0) (m := z) hz
  simpa [rndBits] using this

/-- The converted reciprocal. -/
theorem recip_one {u : ℚ} {R : Rnd u} (hR : DoubleLike R) : recipInt R 1 = some 1 := by
  have := hR.2 1 (by norm_num)
  rw [recipInt, if_neg (by norm_num)]
  simp only [Int.cast_one, div_one] at this ⊢
  rw [this, show (1 : ℚ) = ((1 : ℤ) : ℚ) by norm_num, dbl_int]
  exact inInt_some (by constructor <;> norm_num)

theorem recip_neg_one {u : ℚ} {R : Rnd u} (hR : DoubleLike R) : recipInt R (-1) = some (-1) := by
  have := hR.2 (-1) (by norm_num)
  rw [recipInt, if_neg (by norm_num)]
  rw [show (1 : ℚ) / ((-1 : ℤ) : ℚ) = ((-1 : ℤ) : ℚ) by norm_num, this, dbl_int]
  exact inInt_some (by constructor <;> norm_num)

theorem recip_zero {u : ℚ} {R : Rnd u} (hR : DoubleLike R) (s : ℤ) (hs : 2 ≤ |s|) : recipInt R s = some 0 := by
  have hs0 : s ≠ 0 := by rintro rfl; norm_num at hs
  rw [recipInt, if_neg hs0]
  have hsq : (2 : ℚ) ≤ |(s : ℚ)| := by exact_mod_cast hs
  have ha : |1 / (s : ℚ)| ≤ 1 / 2 := by
    rw [abs_div, abs_one]
    exact one_div_le_one_div_of_le (by norm_num) hsq
  have hrel := R.rel (1 / (s : ℚ))
  have hlt : |R.fl (1 / (s : ℚ))| < 1 := by
    have h1 : |R.fl (1 / (s : ℚ))| ≤ |R.fl (1 / (s : ℚ)) - 1 / (s : ℚ)| + |1 / (s : ℚ)| := by
      have := abs_add_le (R.fl (1 / (s : ℚ)) - 1 / (s : ℚ)) (1 / (s : ℚ))
      simpa using this
    have hu : u * |1 / (s : ℚ)| < 1 * |1 / (s : ℚ)| :=
      mul_lt_mul_of_pos_right hR.1 (abs_pos.mpr (by positivity))
    linarith
  obtain ⟨hl, hr⟩ := abs_lt.mp hlt
  generalize R.fl (1 / (s : ℚ)) = y at hl hr
  have ht : truncQ y = 0 := by
    unfold truncQ
    split_ifs with h
    · exact Int.floor_eq_zero_iff.mpr ⟨h, hr⟩
    · rw [Int.ceil_eq_zero_iff]
      exact ⟨hl, (not_le.mp h).le⟩
  rw [dblToInt, ht]
  exact inInt_some (by constructor <;> norm_num)

theorem mulIV_one (v : List ℤ) (h : ∀ x ∈ v, IsInt32 x) : mulIV 1 v = some v := by
  induction v with
  | nil => rfl
  | cons x v ih =>
    rw [mulIV, mul_one, inInt_some (h x (by simp)), ih (fun y hy => h y (by simp [hy]))]
    rfl

theorem mulIV_zero (v : List ℤ) : mulIV 0 v = some (v.map (fun _ => 0)) := by
  induction v with
  | nil => rfl
  | cons x v ih =>
    rw [mulIV, mul_zero, inInt_some (by constructor <;> norm_num), ih]
    rfl

/-- The outcome of multiplying by a scalar: all products, if all are integers of 32 bits. -/
theorem mulIV_iff (s : ℤ) (v w : List ℤ) : mulIV s v = some w ↔ w = v.map (· * s) ∧ ∀ x ∈ v, IsInt32 (x * s) := by
  induction v generalizing w with
  | nil => simp [mulIV, eq_comm]
  | cons x v ih =>
    by_cases h : IsInt32 (x * s)
    · rw [mulIV, inInt_some h]
      cases hm : mulIV s v with
      | none =>
        have := fun w => (ih w).not.mp (by rw [hm]; simp)
        constructor
        · intro h; simp at h
        · rintro ⟨rfl, h'⟩
          exact absurd ⟨rfl, fun y hy => h' y (by simp [hy])⟩ (this (v.map (· * s)))
      | some r =>
        obtain ⟨rfl, hr⟩ := (ih r).mp hm
        constructor
        · intro h'
          simp at h'
          subst h'
          exact ⟨rfl, by simpa using ⟨h, hr⟩⟩
        · rintro ⟨rfl, _⟩
          rfl
    · rw [mulIV, inInt_none h]
      constructor
      · intro h'; simp at h'
      · rintro ⟨_, h'⟩
        exact absurd (h' x (by simp)) h

/-- C131: dividing by one leaves an integer vector unchanged. -/
theorem C131_divide_one {u : ℚ} (R : Rnd u) (hR : DoubleLike R) (v : List ℤ) (h : ∀ x ∈ v, IsInt32 x) :
    divIV R v 1 = some v := by
  rw [divIV, recip_one hR]
  exact mulIV_one v h

/-- C131: dividing by minus one negates the vector; an element `-2^31` makes the behaviour undefined. -/
theorem C131_divide_minus_one {u : ℚ} (R : Rnd u) (hR : DoubleLike R) (v : List ℤ) (h : ∀ x ∈ v, IsInt32 x) :
    divIV R v (-1) = if -2 ^ 31 ∈ v then none else some (v.map (fun x => -x)) := by
  have e : divIV R v (-1) = mulIV (-1) v := by rw [divIV, recip_neg_one hR]; rfl
  rw [e]
  split_ifs with hm
  · cases hv : mulIV (-1) v with
    | none => rfl
    | some w =>
      have := ((mulIV_iff _ _ _).mp hv).2 _ hm
      exact absurd this.2 (by norm_num)
  · refine (mulIV_iff _ _ _).mpr ⟨by simp, fun x hx => ?_⟩
    have hx' := h x hx
    have hne : x ≠ -2 ^ 31 := fun e => hm (e ▸ hx)
    constructor
    · have := hx'.2; omega
    · have := hx'.1; omega

/-- C131, refuted: dividing an integer vector by any other number gives the zero vector. -/
theorem C131_refuted_divide {u : ℚ} (R : Rnd u) (hR : DoubleLike R) (v : List ℤ) (s : ℤ) (hs : 2 ≤ |s|) :
    divIV R v s = some (v.map (fun _ => 0)) := by
  rw [divIV, recip_zero hR s hs]
  exact mulIV_zero v

/-- ... which is not the vector of the quotients as soon as one element is not smaller than the divisor. -/
theorem C131_refuted_quotient {u : ℚ} (R : Rnd u) (hR : DoubleLike R) (v : List ℤ) (s : ℤ) (hs : 2 ≤ |s|)
    (h : ∃ x ∈ v, |s| ≤ |x|) : divIV R v s ≠ some (v.map (fun x => x.tdiv s)) := by
  rw [C131_refuted_divide R hR v s hs]
  intro e
  obtain ⟨x, hx, hl⟩ := h
  have e' := Option.some.inj e
  have := (List.map_inj_left.mp e') x hx
  have hz : (x.tdiv s).natAbs = x.natAbs / s.natAbs := Int.natAbs_tdiv x s
  rw [← this] at hz
  rw [Int.abs_eq_natAbs, Int.abs_eq_natAbs] at hl
  rw [Int.abs_eq_natAbs] at hs
  have hp : 0 < x.natAbs / s.natAbs := Nat.div_pos (by omega) (by omega)
  omega

/-- C131: division by zero is undefined behaviour. -/
theorem C131_divide_zero {u : ℚ} (R : Rnd u) (v : List ℤ) : divIV R v 0 = none := by
  rw [divIV, recipInt, if_pos rfl]; rfl

/-- The hypotheses hold: the vector (6, -9, 4) divided by three, in `double`. -/
example : divIV (rndBits 52) [6, -9, 4] 3 = some [0, 0, 0] ∧
    divIV (rndBits 52) [6, -9, 4] 3 ≠ some ([6, -9, 4].map (fun x : ℤ => x.tdiv 3)) :=
  ⟨C131_refuted_divide _ doubleLike_bits _ 3 (by decide),
    C131_refuted_quotient _ doubleLike_bits _ 3 (by decide) ⟨6, by simp, by decide⟩⟩

/-! ### the norm of integer vectors -/

/-- The sum of the squares. -/
def sumSq (v : List ℤ) : ℤ := (v.map (fun x => x * x)).sum

theorem sumSq_nonneg (v : List ℤ) : 0 ≤ sumSq v := by
  induction v with
  | nil => simp [sumSq]
  | cons x v ih => simp only [sumSq, List.map_cons, List.sum_cons] at *; nlinarith [mul_self_nonneg x]

theorem normStep_eq {u : ℚ} (R : Rnd u) (hR : DoubleLike R) (s x : ℤ) (hs : IsInt32 s) (hs0 : 0 ≤ s) :
    normStep R s x = inInt (s + x * x) := by
  have hx0 := mul_self_nonneg x
  by_cases hb : x * x ≤ 2 ^ 52
  · have e1 : R.fl ((x : ℚ) * x) = ((x * x : ℤ) : ℚ) := by
      have := hR.2 (x * x) (by rw [abs_of_nonneg hx0]; omega)
      push_cast at this ⊢
      exact this
    have e2 : R.fl ((s : ℚ) + ((x * x : ℤ) : ℚ)) = ((s + x * x : ℤ) : ℚ) := by
      have := hR.2 (s + x * x) (by rw [abs_of_nonneg (by omega)]; have := hs.2; omega)
      push_cast at this ⊢
      exact this
    rw [normStep, e1, e2, dbl_int]
  · rw [inInt_none (by rintro ⟨_, h⟩; omega)]
    have b1 : ((2 ^ 52 : ℤ) : ℚ) ≤ R.fl ((x : ℚ) * x) := by
      rw [← hR.2 (2 ^ 52) (by norm_num)]
      refine R.mono _ _ ?_
      have : (2 ^ 52 : ℤ) ≤ x * x := by omega
      exact_mod_cast this
    have b2 : ((2 ^ 52 : ℤ) : ℚ) ≤ R.fl (s + R.fl ((x : ℚ) * x)) := by
      rw [← hR.2 (2 ^ 52) (by norm_num)]
      refine R.mono _ _ (b1.trans ?_)
      have : (0 : ℚ) ≤ s := by exact_mod_cast hs0
      linarith
    rw [normStep, dblToInt]
    refine inInt_none ?_
    rintro ⟨_, h⟩
    have h2 : (2 ^ 52 : ℤ) ≤ truncQ (R.fl (s + R.fl ((x : ℚ) * x))) := by
      rw [truncQ, if_pos (le_trans (by norm_num) b2)]
      exact Int.le_floor.mpr b2
    omega

theorem normLoop_eq {u : ℚ} (R : Rnd u) (hR : DoubleLike R) (v : List ℤ) (s : ℤ) (hs : IsInt32 s) (hs0 : 0 ≤ s) :
    normLoop R s v = inInt (s + sumSq v) := by
  induction v generalizing s with
  | nil => rw [normLoop, sumSq]; simp [inInt_some hs]
  | cons x v ih =>
    have hx0 := mul_self_nonneg x
    have hv := sumSq_nonneg v
    have e : s + sumSq (x :: v) = s + x * x + sumSq v := by simp [sumSq]; ring
    rw [normLoop, normStep_eq R hR s x hs hs0]
    by_cases h : IsInt32 (s + x * x)
    · rw [inInt_some h, e]
      exact ih _ h (by omega)
    · rw [inInt_none h, e, inInt_none]
      · rfl
      · rintro ⟨h1, h2⟩
        exact h ⟨by omega, by omega⟩

/-- C131: the norm of an integer vector is the integer part of the root of the sum of the squares, if this
sum is an integer of 32 bits; otherwise the behaviour is undefined. -/
theorem C131_norm {u : ℚ} (R : Rnd u) (hR : DoubleLike R) (v : List ℤ) :
    normIV R v = if sumSq v ≤ 2 ^ 31 - 1 then some (Nat.sqrt (sumSq v).toNat : ℤ) else none := by
  have hv := sumSq_nonneg v
  rw [normIV, normLoop_eq R hR v 0 (by constructor <;> norm_num) le_rfl, zero_add]
  split_ifs with h
  · rw [inInt_some ⟨by omega, h⟩]; rfl
  · rw [inInt_none (fun h' => h h'.2)]; rfl

/-- ... so that a value is returned which is at most the norm, and differs from it by less than one. -/
theorem C131_norm_bounds {u : ℚ} (R : Rnd u) (hR : DoubleLike R) (v : List ℤ) (n : ℤ) (h : normIV R v = some n) :
    0 ≤ n ∧ n * n ≤ sumSq v ∧ sumSq v < (n + 1) * (n + 1) := by
  have hv := sumSq_nonneg v
  rw [C131_norm R hR] at h
  split_ifs at h
  have h' := Option.some.inj h
  have h1 := Nat.sqrt_le (sumSq v).toNat
  have h3 := Nat.lt_succ_sqrt (sumSq v).toNat
  subst h'
  refine ⟨by positivity, ?_, ?_⟩
  · have : ((Nat.sqrt (sumSq v).toNat * Nat.sqrt (sumSq v).toNat : ℕ) : ℤ) ≤ ((sumSq v).toNat : ℤ) := by exact_mod_cast h1
    rw [Int.toNat_of_nonneg hv] at this
    push_cast at this
    exact this
  · have : ((sumSq v).toNat : ℤ) < ((Nat.succ (Nat.sqrt (sumSq v).toNat) * Nat.succ (Nat.sqrt (sumSq v).toNat) : ℕ) : ℤ) := by
      exact_mod_cast h3
    rw [Int.toNat_of_nonneg hv] at this
    push_cast at this
    simpa using this

/-- C131: what `Normalize` makes of an integer vector: undefined behaviour for the zero vector and for vectors
too long, the same vector if the sum of the squares is 1, 2 or 3, and otherwise the zero vector. -/
theorem C131_normalize {u : ℚ} (R : Rnd u) (hR : DoubleLike R) (v : List ℤ) (hi : ∀ x ∈ v, IsInt32 x) :
    normalizeIV R v =
      if sumSq v = 0 ∨ 2 ^ 31 ≤ sumSq v then none
      else if sumSq v ≤ 3 then some v else some (v.map (fun _ => 0)) := by
  have hv := sumSq_nonneg v
  rw [normalizeIV]
  cases hn : normIV R v with
  | none =>
    rw [C131_norm R hR] at hn
    split_ifs at hn with h1
    rw [if_pos (Or.inr (by omega))]; rfl
  | some n =>
    obtain ⟨h0, h1, h2⟩ := C131_norm_bounds R hR v n hn
    rw [C131_norm R hR] at hn
    split_ifs at hn with hb
    show divIV R v n = _
    by_cases hz : sumSq v = 0
    · rw [if_pos (Or.inl hz)]
      have : n = 0 := by nlinarith
      rw [this, C131_divide_zero]
    · rw [if_neg (by rintro (h | h) <;> omega)]
      have hn0 : n ≠ 0 := by rintro rfl; omega
      split_ifs with h3
      · have : n = 1 := by nlinarith [show 1 ≤ n by omega]
        rw [this, C131_divide_one R hR v hi]
      · have : 2 ≤ n := by
          by_contra hc
          have : n = 1 := by omega
          subst this; omega
        exact C131_refuted_divide R hR v n (by rw [abs_of_nonneg h0]; exact this)

/-- C131, refuted: an integer vector is normalised to a vector of norm one only if it has norm one already
(up to its integer part); every longer one becomes the zero vector. -/
theorem C131_refuted_normalize {u : ℚ} (R : Rnd u) (hR : DoubleLike R) (v w : List ℤ) (hi : ∀ x ∈ v, IsInt32 x)
    (h : normalizeIV R v = some w) (h4 : 4 ≤ sumSq v) : (∀ x ∈ w, x = 0) ∧ sumSq w = 0 := by
  rw [C131_normalize R hR v hi] at h
  split_ifs at h with h1 h2
  · omega
  · have := Option.some.inj h
    subst this
    refine ⟨by simp, ?_⟩
    clear h h1 h2 h4 hi
    induction v with
    | nil => rfl
    | cons x v ih => simpa [sumSq] using ih

/-- The hypotheses hold: (3, 4) is normalised to (0, 0), and (1, 1) stays. -/
example : normalizeIV (rndBits 52) [3, 4] = some [0, 0] ∧ normalizeIV (rndBits 52) [1, 1] = some [1, 1] := by
  constructor
  · rw [C131_normalize _ doubleLike_bits _ (by intro x hx; simp at hx; rcases hx with rfl | rfl <;> constructor <;> norm_num)]
    decide
  · rw [C131_normalize _ doubleLike_bits _ (by intro x hx; simp at hx; subst hx; constructor <;> norm_num)]
    decide

/-- C131: the scalar product of integer vectors is right if the products of the elements add up, in absolute
value, to an integer of 32 bits. -/
theorem C131_dot {a b : List ℤ} (hl : a.length = b.length)
    (h : ((a.zip b).map (fun p => |p.1 * p.2|)).sum ≤ 2 ^ 31 - 1) :
    dotIV a b = some ((a.zip b).map (fun p => p.1 * p.2)).sum := by
  have key : ∀ (a b : List ℤ) (s : ℤ), |s| + ((a.zip b).map (fun p => |p.1 * p.2|)).sum ≤ 2 ^ 31 - 1 →
      dotLoop s a b = some (s + ((a.zip b).map (fun p => p.1 * p.2)).sum) := by
    intro a
    induction a with
    | nil => intro b s _; simp [dotLoop]
    | cons x a ih =>
      intro b s hs
      cases b with
      | nil => simp [dotLoop]
      | cons y b =>
        have hp : 0 ≤ ((a.zip b).map (fun p => |p.1 * p.2|)).sum := by
          refine List.sum_nonneg ?_
          simp only [List.mem_map]
          rintro z ⟨p, -, rfl⟩
          exact abs_nonneg _
        simp only [List.zip_cons_cons, List.map_cons, List.sum_cons] at hs ⊢
        have hs0 := abs_nonneg s
        have hq0 := abs_nonneg (x * y)
        have hadd := abs_add_le s (x * y)
        have i1 : IsInt32 (x * y) := by
          have := abs_le.mp (show |x * y| ≤ 2 ^ 31 - 1 by omega)
          exact ⟨by omega, this.2⟩
        have i2 : IsInt32 (s + x * y) := by
          have := abs_le.mp (show |s + x * y| ≤ 2 ^ 31 - 1 by omega)
          exact ⟨by omega, this.2⟩
        have e : dotStep s x y = some (s + x * y) := by
          rw [dotStep, inInt_some i1]
          exact inInt_some i2
        rw [dotLoop, e]
        have := ih b (s + x * y) (by omega)
        rw [← add_assoc]
        exact this
  have := key a b 0 (by simpa using h)
  rw [zero_add] at this
  exact this

/-- The hypotheses hold. -/
example : dotIV [1, -2, 3] [4, 5, 6] = some 12 := C131_dot (by decide) (by decide)

/-- ... and whenever a value is returned, it is the scalar product. -/
theorem C131_dot_sound {a b : List ℤ} {z : ℤ} (h : dotIV a b = some z) :
    z = ((a.zip b).map (fun p => p.1 * p.2)).sum := by
  have key : ∀ (a b : List ℤ) (s z : ℤ), dotLoop s a b = some z →
      z = s + ((a.zip b).map (fun p => p.1 * p.2)).sum := by
    intro a
    induction a with
    | nil => intro b s z h; simp [dotLoop] at h; simp [h]
    | cons x a ih =>
      intro b s z h
      cases b with
      | nil => simp [dotLoop] at h; simp [h]
      | cons y b =>
        by_cases i1 : IsInt32 (x * y)
        · by_cases i2 : IsInt32 (s + x * y)
          · have e : dotStep s x y = some (s + x * y) := by
              rw [dotStep, inInt_some i1]
              exact inInt_some i2
            rw [dotLoop, e] at h
            have := ih b _ z h
            simp only [List.zip_cons_cons, List.map_cons, List.sum_cons]
            rw [this]; ring
          · have e : dotStep s x y = none := by
              rw [dotStep, inInt_some i1]
              exact inInt_none i2
            rw [dotLoop, e] at h
            simp at h
        · have e : dotStep s x y = none := by
            rw [dotStep, inInt_none i1]; rfl
          rw [dotLoop, e] at h
          simp at h
  have := key a b 0 z h
  rwa [zero_add] at this

/-- C131, refuted: a scalar product which is an `int` need not be returned: the order of the elements
decides. -/
theorem C131_refuted_dot :
    dotIV [2 ^ 30, 2 ^ 30, -(2 ^ 30)] [1, 1, 1] = none ∧ dotIV [2 ^ 30, -(2 ^ 30), 2 ^ 30] [1, 1, 1] = some (2 ^ 30) := by
  decide +kernel

/-- C131: vectors of integers are added element by element; the behaviour is defined if and only if all sums
are integers of 32 bits. -/
theorem C131_add (a b : List ℤ) (w : List ℤ) :
    addIV a b = some w ↔ w = List.zipWith (· + ·) a b ∧ ∀ p ∈ a.zip b, IsInt32 (p.1 + p.2) := by
  induction a generalizing b w with
  | nil => simp [addIV, eq_comm]
  | cons x a ih =>
    cases b with
    | nil => simp [addIV, eq_comm]
    | cons y b =>
      by_cases h : IsInt32 (x + y)
      · rw [addIV, inInt_some h]
        cases hm : addIV a b with
        | none =>
          constructor
          · intro h; simp at h
          · rintro ⟨rfl, h'⟩
            have := (ih b (List.zipWith (· + ·) a b)).mpr ⟨rfl, fun p hp => h' p (by simp [hp])⟩
            rw [hm] at this; simp at this
        | some r =>
          obtain ⟨rfl, hr⟩ := (ih b r).mp hm
          constructor
          · intro h'
            simp at h'
            subst h'
            refine ⟨rfl, ?_⟩
            intro p hp
            simp only [List.zip_cons_cons, List.mem_cons] at hp
            rcases hp with rfl | hp
            · exact h
            · exact hr p hp
          · rintro ⟨rfl, _⟩
            rfl
      · rw [addIV, inInt_none h]
        constructor
        · intro h'; simp at h'
        · rintro ⟨_, h'⟩
          exact absurd (h' (x, y) (by simp)) h

/-- C131: multiplication by a scalar, in the same way. -/
theorem C131_multiply (s : ℤ) (v w : List ℤ) :
    mulIV s v = some w ↔ w = v.map (· * s) ∧ ∀ x ∈ v, IsInt32 (x * s) := mulIV_iff s v w

/-- C131: converting a vector of doubles to integers drops the fractions; the behaviour is defined if and only
if all integer parts are integers of 32 bits. -/
theorem C131_convert (v : List ℚ) (w : List ℤ) :
    convToInt v = some w ↔ w = v.map truncQ ∧ ∀ x ∈ v, IsInt32 (truncQ x) := by
  induction v generalizing w with
  | nil => simp [convToInt, eq_comm]
  | cons x v ih =>
    by_cases h : IsInt32 (truncQ x)
    · rw [convToInt, dblToInt, inInt_some h]
      cases hm : convToInt v with
      | none =>
        constructor
        · intro h; simp at h
        · rintro ⟨rfl, h'⟩
          have := (ih (v.map truncQ)).mpr ⟨rfl, fun y hy => h' y (by simp [hy])⟩
          rw [hm] at this; simp at this
      | some r =>
        obtain ⟨rfl, hr⟩ := (ih r).mp hm
        constructor
        · intro h'
          simp at h'
          subst h'
          exact ⟨rfl, by simpa using ⟨h, hr⟩⟩
        · rintro ⟨rfl, _⟩
          rfl
    · rw [convToInt, dblToInt, inInt_none h]
      constructor
      · intro h'; simp at h'
      · rintro ⟨_, h'⟩
        exact absurd (h' x (by simp)) h

/-- The integer part lies between zero and the number, less than one from it. -/
theorem C131_convert_part (x : ℚ) : |x - truncQ x| < 1 ∧ |(truncQ x : ℚ)| ≤ |x| := by
  unfold truncQ
  split_ifs with h
  · have h1 := Int.floor_le x
    have h2 := Int.lt_floor_add_one x
    have h3 : (0 : ℚ) ≤ (⌊x⌋ : ℤ) := by exact_mod_cast Int.floor_nonneg.mpr h
    rw [abs_of_nonneg (by linarith), abs_of_nonneg h3, abs_of_nonneg h]
    exact ⟨by linarith, h1⟩
  · have h1 := Int.le_ceil x
    have h2 := Int.ceil_lt_add_one x
    have h4 : ⌈x⌉ ≤ 0 := Int.ceil_le.mpr (by push_cast; exact (not_le.mp h).le)
    have h3 : ((⌈x⌉ : ℤ) : ℚ) ≤ 0 := by exact_mod_cast h4
    rw [abs_of_nonpos (by linarith), abs_of_nonpos h3, abs_of_nonpos (not_le.mp h).le]
    exact ⟨by linarith, by linarith⟩

/-- C131: converting integers to doubles and back gives the same vector. -/
theorem C131_round_trip {u : ℚ} (R : Rnd u) (hR : DoubleLike R) (v : List ℤ) (hi : ∀ x ∈ v, IsInt32 x) :
    convToInt (convToDbl R v) = some v := by
  have e : ∀ x ∈ v, R.fl (x : ℚ) = x := by
    intro x hx
    refine hR.2 x (abs_le.mpr ?_)
    have := hi x hx
    constructor
    · have := this.1; omega
    · have := this.2; omega
  have t : ∀ x : ℤ, truncQ (x : ℚ) = x := by
    intro x; unfold truncQ; split_ifs <;> simp
  refine (C131_convert _ _).mpr ⟨?_, ?_⟩
  · rw [convToDbl, List.map_map]
    conv_lhs => rw [← List.map_id v]
    refine List.map_congr_left fun x hx => ?_
    simp [e x hx, t]
  · intro y hy
    rw [convToDbl, List.mem_map] at hy
    obtain ⟨x, hx, rfl⟩ := hy
    rw [e x hx, t]
    exact hi x hx

/-! ### complex elements -/

theorem foldl_csum {α : Type} [AddCommMonoid α] (n : ℕ) (f : ℕ → α) :
    (List.range n).foldl (fun s i => s + f i) 0 = ∑ i ∈ Finset.range n, f i := by
  induction n with
  | zero => simp
  | succ n ih => rw [List.range_succ, List.foldl_append, ih, Finset.sum_range_succ]; rfl

theorem csqrt_real {x : ℝ} (hx : 0 ≤ x) : csqrt (x : ℂ) = (Real.sqrt x : ℂ) := by
  have hn : ‖(x : ℂ)‖ = x := by rw [Complex.norm_real, Real.norm_eq_abs, abs_of_nonneg hx]
  apply Complex.ext
  · rw [csqrt, hn, Complex.ofReal_re, Complex.ofReal_re]
    congr 1; ring
  · rw [csqrt, hn, Complex.ofReal_re, Complex.ofReal_im, Complex.ofReal_im]
    simp

/-- C131: the complex root that is used for the norm is a root, in the right half plane. -/
theorem C131_root (z : ℂ) : csqrt z ^ 2 = z ∧ 0 ≤ (csqrt z).re := by
  refine ⟨?_, Real.sqrt_nonneg _⟩
  have h1 : 0 ≤ (‖z‖ + z.re) / 2 := by
    have := (abs_le.mp (Complex.abs_re_le_norm z)).1
    linarith
  have h2 : 0 ≤ (‖z‖ - z.re) / 2 := by
    have := (abs_le.mp (Complex.abs_re_le_norm z)).2
    linarith
  have hn : ‖z‖ ^ 2 = z.re ^ 2 + z.im ^ 2 := by
    rw [← Complex.normSq_eq_norm_sq, Complex.normSq_apply]; ring
  have hm : Real.sqrt ((‖z‖ + z.re) / 2) * Real.sqrt ((‖z‖ - z.re) / 2) = |z.im| / 2 := by
    rw [← Real.sqrt_mul h1, show (‖z‖ + z.re) / 2 * ((‖z‖ - z.re) / 2) = (z.im / 2) ^ 2 by nlinarith [hn], Real.sqrt_sq_eq_abs,
      abs_div, abs_two]
  have q1 := Real.mul_self_sqrt h1
  have q2 := Real.mul_self_sqrt h2
  rw [sq]
  apply Complex.ext
  · rw [Complex.mul_re]
    unfold csqrt
    by_cases h : 0 ≤ z.im
    · simp only [if_pos h, q1, q2]; ring
    · simp only [if_neg h, neg_mul_neg, q1, q2]; ring
  · rw [Complex.mul_im]
    unfold csqrt
    by_cases h : 0 ≤ z.im
    · simp only [if_pos h]
      rw [mul_comm (Real.sqrt ((‖z‖ - z.re) / 2)), hm, abs_of_nonneg h]; ring
    · simp only [if_neg h]
      rw [mul_neg, neg_mul, mul_comm (Real.sqrt ((‖z‖ - z.re) / 2)), hm, abs_of_neg (not_le.mp h)]; ring

/-- C131: the norm of a complex vector is the root of the sum of the squared absolute values, with
imaginary part zero. -/
theorem C131_complex_norm (n : ℕ) (a : ℕ → ℂ) :
    normCV n a = (Real.sqrt (∑ i ∈ Finset.range n, ‖a i‖ ^ 2) : ℂ) := by
  rw [normCV, foldl_csum n (fun i => (Complex.normSq (a i) : ℂ))]
  have : ∑ i ∈ Finset.range n, (Complex.normSq (a i) : ℂ) = ((∑ i ∈ Finset.range n, ‖a i‖ ^ 2 : ℝ) : ℂ) := by
    push_cast
    refine Finset.sum_congr rfl fun i _ => ?_
    rw [Complex.normSq_eq_norm_sq]; push_cast; rfl
  rw [this]
  exact csqrt_real (Finset.sum_nonneg fun i _ => by positivity)

/-- C131: a complex vector with an element that is not zero is normalised to norm one. -/
theorem C131_complex_normalize (n : ℕ) (a : ℕ → ℂ) (h : ∃ i < n, a i ≠ 0) : normCV n (normalizeCV n a) = 1 := by
  have hs : 0 < ∑ i ∈ Finset.range n, ‖a i‖ ^ 2 := by
    obtain ⟨i, hi, ha⟩ := h
    refine Finset.sum_pos' (fun j _ => by positivity) ⟨i, Finset.mem_range.mpr hi, ?_⟩
    have := norm_pos_iff.mpr ha
    positivity
  rw [C131_complex_norm]
  have e : ∀ i, ‖normalizeCV n a i‖ ^ 2 = ‖a i‖ ^ 2 / ∑ i ∈ Finset.range n, ‖a i‖ ^ 2 := by
    intro i
    rw [normalizeCV, divCV, C131_complex_norm, norm_mul, norm_div, Complex.norm_real, norm_one, Real.norm_eq_abs,
      abs_of_nonneg (Real.sqrt_nonneg _), mul_pow, div_pow, Real.sq_sqrt hs.le]
    ring
  rw [Finset.sum_congr rfl fun i _ => e i, ← Finset.sum_div, div_self hs.ne', Real.sqrt_one]
  norm_num

/-- C131: for complex elements the scalar product is bilinear, and not linear in one and antilinear in the
other argument. -/
theorem C131_complex_dot (n : ℕ) (a b : ℕ → ℂ) (c : ℂ) :
    dotCV n (fun i => c * a i) b = c * dotCV n a b ∧ dotCV n a (fun i => c * b i) = c * dotCV n a b ∧
      dotCV n a b = dotCV n b a := by
  simp only [dotCV, foldl_csum, Finset.mul_sum]
  refine ⟨Finset.sum_congr rfl fun i _ => by ring, Finset.sum_congr rfl fun i _ => by ring,
    Finset.sum_congr rfl fun i _ => by ring⟩

/-- C131, refuted in general and decided exactly: the scalar product of a complex vector with itself is the
square of its norm if and only if all elements are real. -/
theorem C131_complex_square (n : ℕ) (a : ℕ → ℂ) : dotCV n a a = normCV n a ^ 2 ↔ ∀ i < n, (a i).im = 0 := by
  rw [C131_complex_norm, dotCV, foldl_csum, ← Complex.ofReal_pow,
    Real.sq_sqrt (Finset.sum_nonneg fun i _ => by positivity)]
  have hre : ∀ i, (a i * a i).re = ‖a i‖ ^ 2 - 2 * (a i).im ^ 2 := by
    intro i
    rw [← Complex.normSq_eq_norm_sq, Complex.normSq_apply, Complex.mul_re]; ring
  constructor
  · intro h i hi
    have h' := congrArg Complex.re h
    rw [Complex.re_sum, Finset.sum_congr rfl fun i _ => hre i, Finset.sum_sub_distrib, Complex.ofReal_re] at h'
    have hz : ∑ i ∈ Finset.range n, 2 * (a i).im ^ 2 = 0 := by linarith
    have := (Finset.sum_eq_zero_iff_of_nonneg (fun i _ => by positivity)).mp hz i (Finset.mem_range.mpr hi)
    have h2 : (a i).im ^ 2 = 0 := by linarith
    exact pow_eq_zero_iff (by norm_num) |>.mp h2
  · intro h
    rw [Complex.ofReal_sum]
    refine Finset.sum_congr rfl fun i hi => ?_
    have him := h i (Finset.mem_range.mp hi)
    apply Complex.ext
    · rw [hre i, him]; simp [← Complex.ofReal_pow]
    · rw [Complex.mul_im, him]; simp [← Complex.ofReal_pow]

/-- C131, refuted: a vector of norm √2 whose scalar product with itself is zero. -/
theorem C131_refuted_complex :
    ∃ a : ℕ → ℂ, dotCV 2 a a = 0 ∧ normCV 2 a = (Real.sqrt 2 : ℂ) := by
  refine ⟨fun i => if i = 0 then 1 else Complex.I, ?_, ?_⟩
  · rw [dotCV, foldl_csum]
    simp [Finset.sum_range_succ]
  · rw [C131_complex_norm]
    simp [Finset.sum_range_succ]
    norm_num

end Softlib
