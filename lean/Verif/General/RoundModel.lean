/-
Rounded arithmetic.

Source: /repo/include/softlib/config.h 8-18: `slibreal_t` is `double`, or `float` in another build.
Every finite `double` is a rational number, and the result of an operation is the rounded exact
result.  The other models compute exactly; the properties named `…_rounded…` say what remains when
each operation is rounded.  Overflow and underflow are left out: the exponent is not limited.

Also /repo/include/softlib/Integrator/Integrator.tcc 99-119 (output times),
/repo/include/softlib/ImageGenerator/ImageColormap.h 34-60 (colours),
/repo/src/DistributionFunction/NumericDistributionFunction.cpp 28-72 (interpolation in radius) and
/repo/src/DistributionFunction/LinearRadialProfile.cpp 18-40 (linear profile), for the build with
`double`: conversions of 32-bit integers are exact.
-/
import Verif.Image.ImageModel
import Verif.Dist.NumericModel
import Mathlib.Data.Int.Log
import Mathlib.Data.Rat.Floor
import Mathlib.Algebra.Order.Field.Rat
import Mathlib.Tactic.Linarith
import Mathlib.Tactic.Ring
import Mathlib.Tactic.FieldSimp
import Mathlib.Tactic.Positivity
import Mathlib.Tactic.NormNum

namespace Softlib.General

/-- What is used about the rounding of a format: it keeps the order, makes a relative error of at most
`u`, and leaves alone the numbers it produces. -/
structure Rnd (u : ℚ) where
  fl : ℚ → ℚ
  mono : ∀ x y, x ≤ y → fl x ≤ fl y
  rel : ∀ x, |fl x - x| ≤ u * |x|
  idem : ∀ x, fl (fl x) = fl x

/-- A number of the format. -/
def Rnd.Is {u : ℚ} (R : Rnd u) (x : ℚ) : Prop := R.fl x = x

/-- The nearest integer, and of two the even one (IEEE 754, round to nearest, ties to even). -/
def rne (x : ℚ) : ℤ :=
  if x - ⌊x⌋ < 1 / 2 then ⌊x⌋
  else if 1 / 2 < x - ⌊x⌋ then ⌊x⌋ + 1
  else if ⌊x⌋ % 2 = 0 then ⌊x⌋ else ⌊x⌋ + 1

/-- The exponent of the last binary digit of a number of `p + 1` digits. -/
def lastExp (p : ℕ) (x : ℚ) : ℤ := Int.log 2 |x| - p

/-- Rounding to `p + 1` binary digits: `p = 52` for `double`, `p = 23` for `float`. -/
def flBits (p : ℕ) (x : ℚ) : ℚ := rne (x / 2 ^ lastExp p x) * 2 ^ lastExp p x

theorem floor_le_rne (x : ℚ) : ⌊x⌋ ≤ rne x := by
  unfold rne; split_ifs <;> omega

theorem rne_le_floor (x : ℚ) : rne x ≤ ⌊x⌋ + 1 := by
  unfold rne; split_ifs <;> omega

theorem rne_mono {x y : ℚ} (h : x ≤ y) : rne x ≤ rne y := by
  have hf := Int.floor_mono h
  rcases lt_or_eq_of_le hf with hlt | heq
  · exact le_trans (rne_le_floor x) (le_trans hlt (floor_le_rne y))
  · unfold rne
    rw [heq]
    have h' : x - (⌊y⌋ : ℚ) ≤ y - ⌊y⌋ := by linarith
    split_ifs <;> first | omega | (exfalso; linarith)

theorem rne_int (n : ℤ) : rne n = n := by
  unfold rne
  simp

theorem rne_error (x : ℚ) : |(rne x : ℚ) - x| ≤ 1 / 2 := by
  have h1 := Int.floor_le x
  have h2 := Int.lt_floor_add_one x
  unfold rne
  rw [abs_le]
  split_ifs <;> push_cast <;> constructor <;> linarith

theorem rne_neg (x : ℚ) : rne (-x) = - rne x := by
  by_cases hi : x = ⌊x⌋
  · rw [hi, ← Int.cast_neg, rne_int, rne_int]
  · have h1 : (⌊x⌋ : ℚ) < x := lt_of_le_of_ne (Int.floor_le x) (Ne.symm hi)
    have h2 := Int.lt_floor_add_one x
    have hf : ⌊-x⌋ = -⌊x⌋ - 1 := by
      rw [Int.floor_eq_iff]
      push_cast
      constructor <;> linarith
    unfold rne
    rw [hf]
    push_cast
    split_ifs <;> first | omega | (exfalso; linarith)

theorem two_zpow_pos (e : ℤ) : (0 : ℚ) < 2 ^ e := zpow_pos (by norm_num) e

theorem lastExp_neg (p : ℕ) (x : ℚ) : lastExp p (-x) = lastExp p x := by
  unfold lastExp; rw [abs_neg]

theorem flBits_zero (p : ℕ) : flBits p 0 = 0 := by
  unfold flBits
  rw [zero_div, show (0 : ℚ) = ((0 : ℤ) : ℚ) by simp, rne_int]
  simp

theorem flBits_neg (p : ℕ) (x : ℚ) : flBits p (-x) = - flBits p x := by
  unfold flBits
  rw [lastExp_neg, neg_div, rne_neg]
  push_cast
  ring

/-- A positive number between its powers of two. -/
theorem pow_bounds (p : ℕ) {x : ℚ} (hx : 0 < x) :
    (2 : ℚ) ^ (p : ℤ) * 2 ^ lastExp p x ≤ x ∧ x < 2 ^ ((p : ℤ) + 1) * 2 ^ lastExp p x := by
  have h1 := Int.zpow_log_le_self (b := 2) (by norm_num) hx
  have h2 := Int.lt_zpow_succ_log_self (b := 2) (by norm_num) x
  rw [← zpow_add₀ (by norm_num), ← zpow_add₀ (by norm_num)]
  unfold lastExp
  rw [abs_of_pos hx]
  rw [show (p : ℤ) + (Int.log 2 x - p) = Int.log 2 x by ring,
    show (p : ℤ) + 1 + (Int.log 2 x - p) = Int.log 2 x + 1 by ring]
  exact ⟨by exact_mod_cast h1, by exact_mod_cast h2⟩

theorem flBits_bounds (p : ℕ) {x : ℚ} (hx : 0 < x) :
    (2 : ℚ) ^ (p : ℤ) * 2 ^ lastExp p x ≤ flBits p x ∧ flBits p x ≤ 2 ^ ((p : ℤ) + 1) * 2 ^ lastExp p x := by
  obtain ⟨h1, h2⟩ := pow_bounds p hx
  have he := two_zpow_pos (lastExp p x)
  have e1 : (2 : ℚ) ^ (p : ℤ) = (((2 : ℤ) ^ p : ℤ) : ℚ) := by push_cast; exact zpow_natCast _ _
  have e2 : (2 : ℚ) ^ ((p : ℤ) + 1) = (((2 : ℤ) ^ (p + 1) : ℤ) : ℚ) := by
    push_cast; rw [← zpow_natCast]; push_cast; rfl
  constructor
  · apply mul_le_mul_of_nonneg_right _ he.le
    rw [e1]
    have : ((2 : ℤ) ^ p) ≤ rne (x / 2 ^ lastExp p x) := by
      rw [← rne_int ((2 : ℤ) ^ p)]
      apply rne_mono
      rw [← e1, le_div_iff₀ he]
      exact h1
    exact_mod_cast this
  · apply mul_le_mul_of_nonneg_right _ he.le
    rw [e2]
    have : rne (x / 2 ^ lastExp p x) ≤ ((2 : ℤ) ^ (p + 1)) := by
      rw [← rne_int ((2 : ℤ) ^ (p + 1))]
      apply rne_mono
      rw [← e2, div_le_iff₀ he]
      exact h2.le
    exact_mod_cast this

theorem flBits_mono_pos (p : ℕ) {x y : ℚ} (hx : 0 < x) (h : x ≤ y) : flBits p x ≤ flBits p y := by
  have hy : 0 < y := lt_of_lt_of_le hx h
  have hl : lastExp p x ≤ lastExp p y := by
    unfold lastExp
    rw [abs_of_pos hx, abs_of_pos hy]
    have := Int.log_mono_right (b := 2) hx h
    omega
  rcases lt_or_eq_of_le hl with hlt | heq
  · obtain ⟨-, h2⟩ := flBits_bounds p hx
    obtain ⟨h3, -⟩ := flBits_bounds p hy
    refine le_trans h2 (le_trans ?_ h3)
    rw [← zpow_add₀ (by norm_num), ← zpow_add₀ (by norm_num)]
    apply zpow_le_zpow_right₀ (by norm_num)
    omega
  · unfold flBits
    rw [heq]
    have he := two_zpow_pos (lastExp p y)
    apply mul_le_mul_of_nonneg_right _ he.le
    have : rne (x / 2 ^ lastExp p y) ≤ rne (y / 2 ^ lastExp p y) :=
      rne_mono (div_le_div_of_nonneg_right h he.le)
    exact_mod_cast this

theorem flBits_nonneg (p : ℕ) {x : ℚ} (hx : 0 ≤ x) : 0 ≤ flBits p x := by
  rcases hx.eq_or_lt with rfl | hx
  · rw [flBits_zero]
  · have := (flBits_bounds p hx).1
    have := two_zpow_pos (lastExp p x)
    have : (0 : ℚ) < 2 ^ (p : ℤ) * 2 ^ lastExp p x := mul_pos (two_zpow_pos _) (two_zpow_pos _)
    linarith

theorem flBits_mono (p : ℕ) (x y : ℚ) (h : x ≤ y) : flBits p x ≤ flBits p y := by
  rcases lt_or_ge 0 x with hx | hx
  · exact flBits_mono_pos p hx h
  · rcases lt_or_ge y 0 with hy | hy
    · have := flBits_mono_pos p (x := -y) (y := -x) (by linarith) (by linarith)
      rw [flBits_neg, flBits_neg] at this
      linarith
    · have h1 := flBits_nonneg p hy
      have h2 := flBits_nonneg p (x := -x) (by linarith)
      rw [flBits_neg] at h2
      linarith

theorem flBits_rel_pos (p : ℕ) {x : ℚ} (hx : 0 < x) : |flBits p x - x| ≤ (1 / 2 / 2 ^ p) * |x| := by
  obtain ⟨h1, -⟩ := pow_bounds p hx
  have he := two_zpow_pos (lastExp p x)
  have hr := rne_error (x / 2 ^ lastExp p x)
  have e : flBits p x - x = (rne (x / 2 ^ lastExp p x) - x / 2 ^ lastExp p x) * 2 ^ lastExp p x := by
    unfold flBits; field_simp
  rw [e, abs_mul, abs_of_pos he, abs_of_pos hx]
  rw [zpow_natCast] at h1
  have hp : (0 : ℚ) < 2 ^ p := by positivity
  calc |(rne (x / 2 ^ lastExp p x) : ℚ) - x / 2 ^ lastExp p x| * 2 ^ lastExp p x
      ≤ 1 / 2 * 2 ^ lastExp p x := mul_le_mul_of_nonneg_right hr he.le
    _ = 1 / 2 / 2 ^ p * (2 ^ p * 2 ^ lastExp p x) := by field_simp
    _ ≤ 1 / 2 / 2 ^ p * x := mul_le_mul_of_nonneg_left h1 (by positivity)

theorem flBits_rel (p : ℕ) (x : ℚ) : |flBits p x - x| ≤ (1 / 2 / 2 ^ p) * |x| := by
  rcases lt_trichotomy x 0 with hx | rfl | hx
  · have := flBits_rel_pos p (x := -x) (by linarith)
    rw [flBits_neg, abs_neg] at this
    rw [show -flBits p x - -x = -(flBits p x - x) by ring, abs_neg] at this
    exact this
  · rw [flBits_zero]; simp
  · exact flBits_rel_pos p hx

/-- What it takes to know the rounding of a number. -/
theorem flBits_eq (p : ℕ) {x : ℚ} {e m : ℤ} (h1 : (2 : ℚ) ^ (p + e) ≤ |x|) (h2 : |x| < 2 ^ (p + e + 1))
    (h3 : |x / 2 ^ e - m| < 1 / 2) : flBits p x = m * 2 ^ e := by
  have hx : 0 < |x| := lt_of_lt_of_le (two_zpow_pos _) h1
  have hlog : Int.log 2 |x| = p + e := by
    apply le_antisymm
    · have := (Int.lt_zpow_iff_log_lt (b := 2) (by norm_num) (x := p + e + 1) hx).1 (by exact_mod_cast h2)
      omega
    · exact (Int.zpow_le_iff_le_log (b := 2) (by norm_num) hx).1 (by exact_mod_cast h1)
  have hl : lastExp p x = e := by unfold lastExp; rw [hlog]; ring
  unfold flBits
  rw [hl]
  have hr : rne (x / 2 ^ e) = m := by
    have h4 := rne_error (x / 2 ^ e)
    rw [abs_lt] at h3
    rw [abs_le] at h4
    have h5 : ((rne (x / 2 ^ e) - m : ℤ) : ℚ) < 1 := by push_cast; linarith [h4.1, h4.2, h3.1, h3.2]
    have h6 : (-1 : ℚ) < ((rne (x / 2 ^ e) - m : ℤ) : ℚ) := by push_cast; linarith [h4.1, h4.2, h3.1, h3.2]
    have h5' : rne (x / 2 ^ e) - m < 1 := by exact_mod_cast h5
    have h6' : -1 < rne (x / 2 ^ e) - m := by exact_mod_cast h6
    omega
  rw [hr]

/-- Numbers of at most `p + 1` digits are left alone. -/
theorem flBits_exact (p : ℕ) {e m : ℤ} (hm : |m| ≤ 2 ^ (p + 1)) : flBits p (m * 2 ^ e) = m * 2 ^ e := by
  by_cases h0 : m = 0
  · subst h0; simp [flBits_zero]
  have hx : (0 : ℚ) < |(m : ℚ) * 2 ^ e| := by
    apply abs_pos.2
    exact mul_ne_zero (by exact_mod_cast h0) (two_zpow_pos e).ne'
  have hl : lastExp p (m * 2 ^ e) ≤ e + (if |m| = 2 ^ (p + 1) then (1 : ℤ) else 0) := by
    unfold lastExp
    have hlt : |(m : ℚ) * 2 ^ e| < 2 ^ ((p : ℤ) + e + (if |m| = 2 ^ (p + 1) then (1 : ℤ) else 0) + 1) := by
      rw [abs_mul, abs_of_pos (two_zpow_pos e)]
      have hmq : (|m| : ℚ) = ((|m| : ℤ) : ℚ) := by push_cast; rfl
      split_ifs with hc
      · rw [hmq, hc, show (p : ℤ) + e + 1 + 1 = (p + 1 + 1 : ℕ) + e by push_cast; ring, zpow_add₀ (by norm_num)]
        apply mul_lt_mul_of_pos_right _ (two_zpow_pos e)
        rw [zpow_natCast]
        push_cast
        exact pow_lt_pow_right₀ (by norm_num) (by omega)
      · rw [show (p : ℤ) + e + 0 + 1 = (p + 1 : ℕ) + e by push_cast; ring, zpow_add₀ (by norm_num)]
        apply mul_lt_mul_of_pos_right _ (two_zpow_pos e)
        rw [zpow_natCast, hmq]
        have : |m| < 2 ^ (p + 1) := lt_of_le_of_ne hm hc
        exact_mod_cast this
    generalize (if |m| = 2 ^ (p + 1) then (1 : ℤ) else 0) = c at hlt ⊢
    have := (Int.lt_zpow_iff_log_lt (b := 2) (by norm_num) (x := (p : ℤ) + e + c + 1) hx).1 (by exact_mod_cast hlt)
    omega
  unfold flBits
  generalize lastExp p (m * 2 ^ e) = l at hl
  suffices h : ∃ k : ℤ, (m : ℚ) * 2 ^ e / 2 ^ l = k by
    obtain ⟨k, hk⟩ := h
    rw [hk, rne_int, ← hk]
    field_simp
  rw [mul_div_assoc, ← zpow_sub₀ (by norm_num)]
  by_cases hle : l ≤ e
  · obtain ⟨n, hn⟩ := Int.eq_ofNat_of_zero_le (show 0 ≤ e - l by omega)
    rw [hn]
    exact ⟨m * 2 ^ n, by push_cast; rw [zpow_natCast]⟩
  · have hc : |m| = 2 ^ (p + 1) := by
      by_contra hc
      rw [if_neg hc] at hl
      omega
    rw [if_pos hc] at hl
    have hle' : e - l = -1 := by omega
    rw [hle']
    rcases abs_eq (by positivity) |>.1 hc with h | h
    · exact ⟨2 ^ p, by rw [h]; push_cast; rw [pow_succ]; norm_num; ring⟩
    · exact ⟨-2 ^ p, by rw [h]; push_cast; rw [pow_succ]; norm_num; ring⟩

theorem flBits_idem (p : ℕ) (x : ℚ) : flBits p (flBits p x) = flBits p x := by
  have key : ∀ y : ℚ, 0 < y → flBits p (flBits p y) = flBits p y := by
    intro y hy
    have h2 := (flBits_bounds p hy).2
    have h1 := flBits_nonneg p hy.le
    have he := two_zpow_pos (lastExp p y)
    conv_lhs => rw [show flBits p y = (rne (y / 2 ^ lastExp p y) : ℚ) * 2 ^ lastExp p y from rfl]
    rw [flBits_exact p, ← show flBits p y = (rne (y / 2 ^ lastExp p y) : ℚ) * 2 ^ lastExp p y from rfl]
    have e2 : (2 : ℚ) ^ ((p : ℤ) + 1) = (((2 : ℤ) ^ (p + 1) : ℤ) : ℚ) := by
      push_cast; rw [← zpow_natCast]; push_cast; rfl
    have h3 : (rne (y / 2 ^ lastExp p y) : ℚ) ≤ (((2 : ℤ) ^ (p + 1) : ℤ) : ℚ) := by
      rw [← e2]
      exact le_of_mul_le_mul_right h2 he
    have h4 : (0 : ℚ) ≤ (rne (y / 2 ^ lastExp p y) : ℚ) := by
      by_contra hc
      have : flBits p y < 0 := mul_neg_of_neg_of_pos (not_le.1 hc) he
      linarith
    rw [abs_of_nonneg (by exact_mod_cast h4)]
    exact_mod_cast h3
  rcases lt_trichotomy x 0 with hx | rfl | hx
  · have := key (-x) (by linarith)
    rw [flBits_neg, flBits_neg] at this
    linarith
  · rw [flBits_zero, flBits_zero]
  · exact key x hx

/-- Arithmetic with `p + 1` binary digits. -/
def rndBits (p : ℕ) : Rnd (1 / 2 / 2 ^ p) := ⟨flBits p, flBits_mono p, flBits_rel p, flBits_idem p⟩

/-- No rounding. -/
def exactRnd : Rnd 0 := ⟨id, fun _ _ h => h, fun x => by simp, fun _ => rfl⟩

/-! ### Output times -/

/-- The distance of the output times, Integrator.tcc 104. -/
def stepR {u : ℚ} (R : Rnd u) (nt : ℕ) (tmin tmax : ℚ) : ℚ := R.fl (R.fl (tmax - tmin) / ((nt : ℚ) - 1))

/-- The times of `OutputDense`, Integrator.tcc 99-119, for two points or more. -/
def timesR {u : ℚ} (R : Rnd u) (nt : ℕ) (tmin tmax : ℚ) : List ℚ :=
  ((List.range nt).map (fun i : ℕ => R.fl (tmin + R.fl (i * stepR R nt tmin tmax)))).set (nt - 1) tmax

/-! ### Colours -/

/-- One channel, ImageColormap.h 54-56. -/
def mixR {u : ℚ} (R : Rnd u) (f : ℚ) (a b : ℕ) : ℕ := ⌊R.fl (R.fl (R.fl (1 - f) * a) + R.fl (f * b))⌋₊

/-- The scaled value, ImageColormap.h 38. -/
def scaleR {u : ℚ} (R : Rnd u) (n : ℕ) (vmin vmax v : ℚ) : ℚ := R.fl (R.fl (R.fl (v - vmin) / vmax) * ((n - 1 : ℕ) : ℚ))

/-- `Eval`, ImageColormap.h 34-60. -/
def evalR {u : ℚ} (R : Rnd u) (tab : List Image.Color) (vmin vmax v : ℚ) : Option Image.Color :=
  if tab.length = 0 ∨ vmax = 0 then none
  else
    let i := scaleR R tab.length vmin vmax v
    let l := ⌊i⌋
    if ¬ (-2 ^ 31 ≤ l ∧ l < 2 ^ 31) then none
    else if l ≥ (tab.length : Int) - 1 then tab[tab.length - 1]?
    else if l < 0 then tab[0]?
    else
      let f := R.fl (i - l)
      match tab[l.toNat]?, tab[l.toNat + 1]? with
      | some a, some b => some ⟨mixR R f a.red b.red, mixR R f a.green b.green, mixR R f a.blue b.blue⟩
      | _, _ => none

/-! ### Interpolation in radius -/

section
open Softlib.Dist
variable {M P : Type}

/-- NumericDistributionFunction.cpp 71. -/
def lerpR {u : ℚ} (R : Rnd u) (r0 r1 f0 f1 rho : ℚ) : EvalRes ℚ :=
  if R.fl (r1 - r0) = 0 then .divZero
  else .ok (R.fl (R.fl (R.fl (R.fl (r1 - rho) * f0) + R.fl (R.fl (rho - r0) * f1)) / R.fl (r1 - r0)))

/-- The branch for the first interval and below, 50-56. -/
def evalFirstR {u : ℚ} (R : Rnd u) (ev : M → P → ℚ) (d : NDist M ℚ) (p : P) (rho : ℚ) : EvalRes ℚ :=
  match d.r[0]?, d.r[1]?, d.msdf[0]?, d.msdf[1]? with
  | some r1, some r2, some m1, some m2 =>
    if R.fl (r2 - r1) = 0 then .divZero
    else lerpR R 0 r1 (R.fl (R.fl (R.fl (r2 * ev m1 p) - R.fl (r1 * ev m2 p)) / R.fl (r2 - r1))) (ev m1 p) rho
  | _, _, _, _ => .ub

/-- The branch above the grid, 57-62. -/
def evalLastR {u : ℚ} (R : Rnd u) (ev : M → P → ℚ) (d : NDist M ℚ) (p : P) (rho : ℚ) : EvalRes ℚ :=
  match d.r[d.r.length - 1]?, d.r[d.r.length - 2]?, d.msdf[d.r.length - 1]?, d.msdf[d.r.length - 2]? with
  | some r0, some r', some m0, some m' =>
    lerpR R r0 (R.fl (r0 + R.fl (R.fl (2 * r0) - r'))) (ev m0 p) (R.fl (R.fl (2 * ev m0 p) - ev m' p)) rho
  | _, _, _, _ => .ub

/-- The branch between two radii, 63-69. -/
def evalMidR {u : ℚ} (R : Rnd u) (ev : M → P → ℚ) (d : NDist M ℚ) (p : P) (rho : ℚ) (i : Nat) : EvalRes ℚ :=
  match d.r[i]?, d.r[i + 1]?, d.msdf[i]?, d.msdf[i + 1]? with
  | some r0, some r1, some m0, some m1 => lerpR R r0 r1 (ev m0 p) (ev m1 p) rho
  | _, _, _, _ => .ub

/-- The branch for one radius, 43-48. -/
def evalOneR {u : ℚ} (R : Rnd u) (ev : M → P → ℚ) (d : NDist M ℚ) (p : P) (rho : ℚ) : EvalRes ℚ :=
  match d.msdf[0]? with
  | some m => lerpR R rho 0 (ev m p) 0 rho
  | none => .ub

/-- `NumericDistributionFunction::Eval`, 28-72; the search only compares. -/
def distR {u : ℚ} (R : Rnd u) (ev : M → P → ℚ) (d : NDist M ℚ) (r : ℚ) (p : P) (shift : ℚ) : EvalRes ℚ :=
  let rho := R.fl (r - shift)
  if d.allow = false ∧ (rho < d.rmin ∨ rho > d.rmax) then .throws
  else
    match findNearest d.r rho with
    | none => .ub
    | some ir =>
      if d.r.length = 1 then evalOneR R ev d p rho
      else if ir ≤ 0 then evalFirstR R ev d p rho
      else if ir.toNat ≥ d.r.length - 1 then evalLastR R ev d p rho
      else evalMidR R ev d p rho ir.toNat

end

/-! ### The linear profile -/

/-- LinearRadialProfile.cpp 24 and 33-40. -/
def linearR {u : ℚ} (R : Rnd u) (rmin rmax r shift : ℚ) : ℚ :=
  let delr := R.fl (1 / R.fl (rmax - rmin))
  let rho := R.fl (r - shift)
  if rho ≥ rmax ∨ rho < rmin then 0 else R.fl (1 - R.fl (R.fl (rho - rmin) * delr))

end Softlib.General
