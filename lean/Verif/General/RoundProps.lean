/-
What remains of the exact statements when every operation is rounded: output times (C39), colours
(C40), interpolation in radius (C56) and the linear radial profile (C63).
-/
import Verif.General.RoundModel
import Verif.Integrator.RKModel
import Verif.Dist.ProfileModel
import Verif.Dist.EvalProps
import Mathlib.Tactic.GCongr

namespace Softlib.General

namespace Rnd

variable {u : ℚ} (R : Rnd u)

include R in
theorem u_nonneg : 0 ≤ u := by
  have := R.rel 1
  rw [abs_one, mul_one] at this
  exact le_trans (abs_nonneg _) this

theorem fl_zero : R.fl 0 = 0 := by
  have := R.rel 0
  simpa using this

theorem fl_nonneg {x : ℚ} (h : 0 ≤ x) : 0 ≤ R.fl x := by
  have := R.mono 0 x h
  rwa [R.fl_zero] at this

theorem fl_nonpos {x : ℚ} (h : x ≤ 0) : R.fl x ≤ 0 := by
  have := R.mono x 0 h
  rwa [R.fl_zero] at this

theorem fl_le {x : ℚ} (h : 0 ≤ x) : R.fl x ≤ (1 + u) * x := by
  have := R.rel x
  rw [abs_of_nonneg h, abs_le] at this
  linarith [this.2]

theorem fl_ge {x : ℚ} (h : 0 ≤ x) : (1 - u) * x ≤ R.fl x := by
  have := R.rel x
  rw [abs_of_nonneg h, abs_le] at this
  linarith [this.1]

theorem fl_pos (hu : u < 1) {x : ℚ} (h : 0 < x) : 0 < R.fl x :=
  lt_of_lt_of_le (mul_pos (by linarith) h) (R.fl_ge h.le)

theorem fl_neg (hu : u < 1) {x : ℚ} (h : x < 0) : R.fl x < 0 := by
  have := R.rel x
  rw [abs_of_neg h, abs_le] at this
  nlinarith [this.2]

/-- Rounding does not carry a number past a number of the format. -/
theorem fl_le_of {x y : ℚ} (hy : R.Is y) (h : x ≤ y) : R.fl x ≤ y := by
  have := R.mono x y h
  rwa [hy] at this

theorem le_fl_of {x y : ℚ} (hx : R.Is x) (h : x ≤ y) : x ≤ R.fl y := by
  have := R.mono x y h
  rwa [hx] at this

end Rnd

/-! ### Output times -/

theorem timesR_get {u : ℚ} (R : Rnd u) {nt : ℕ} {tmin tmax : ℚ} {i : ℕ} (hi : i + 1 < nt) :
    (timesR R nt tmin tmax)[i]? = some (R.fl (tmin + R.fl (i * stepR R nt tmin tmax))) := by
  unfold timesR
  rw [List.getElem?_set_ne (by omega), List.getElem?_map, List.getElem?_range (by omega)]
  rfl

theorem timesR_last {u : ℚ} (R : Rnd u) {nt : ℕ} {tmin tmax : ℚ} (hn : 1 ≤ nt) :
    (timesR R nt tmin tmax)[nt - 1]? = some tmax := by
  unfold timesR
  rw [List.getElem?_set_self (by simp; omega)]

theorem stepR_nonneg {u : ℚ} (R : Rnd u) {nt : ℕ} {tmin tmax : ℚ} (hn : 2 ≤ nt) (ht : tmin ≤ tmax) :
    0 ≤ stepR R nt tmin tmax := by
  have h2 : (2 : ℚ) ≤ nt := by exact_mod_cast hn
  exact R.fl_nonneg (div_nonneg (R.fl_nonneg (by linarith)) (by linarith))

/-- The last offset that is computed stays in the interval. -/
theorem offset_le {u : ℚ} (R : Rnd u) {nt : ℕ} {tmin tmax : ℚ} (hn : 2 ≤ nt) (ht : tmin ≤ tmax)
    (hu : (1 + u) ^ 3 * ((nt : ℚ) - 2) ≤ (nt : ℚ) - 1) {i : ℕ} (hi : i + 1 < nt) :
    R.fl (i * stepR R nt tmin tmax) ≤ tmax - tmin := by
  have h2 : (2 : ℚ) ≤ nt := by exact_mod_cast hn
  have hu0 := R.u_nonneg
  have hD : 0 ≤ tmax - tmin := by linarith
  have hi' : (i : ℚ) ≤ (nt : ℚ) - 2 := by
    have : ((i + 2 : ℕ) : ℚ) ≤ nt := by exact_mod_cast (by omega : i + 2 ≤ nt)
    push_cast at this
    linarith
  have hi0 : (0 : ℚ) ≤ i := Nat.cast_nonneg i
  have hs := stepR_nonneg R hn ht
  have h1 : stepR R nt tmin tmax ≤ (1 + u) * ((1 + u) * (tmax - tmin) / ((nt : ℚ) - 1)) := by
    unfold stepR
    refine le_trans (R.fl_le (div_nonneg (R.fl_nonneg hD) (by linarith))) ?_
    apply mul_le_mul_of_nonneg_left _ (by linarith)
    exact div_le_div_of_nonneg_right (R.fl_le hD) (by linarith)
  have h3 : R.fl (i * stepR R nt tmin tmax) ≤ (1 + u) * (i * stepR R nt tmin tmax) := R.fl_le (mul_nonneg hi0 hs)
  have hpos : (0 : ℚ) < (nt : ℚ) - 1 := by linarith
  calc R.fl (i * stepR R nt tmin tmax) ≤ (1 + u) * (i * stepR R nt tmin tmax) := h3
    _ ≤ (1 + u) * (((nt : ℚ) - 2) * ((1 + u) * ((1 + u) * (tmax - tmin) / ((nt : ℚ) - 1)))) := by gcongr
    _ = ((1 + u) ^ 3 * ((nt : ℚ) - 2)) * ((tmax - tmin) / ((nt : ℚ) - 1)) := by field_simp
    _ ≤ ((nt : ℚ) - 1) * ((tmax - tmin) / ((nt : ℚ) - 1)) :=
        mul_le_mul_of_nonneg_right hu (div_nonneg hD hpos.le)
    _ = tmax - tmin := by field_simp

/-- With the precision of `double`, 32-bit numbers of points are small enough. -/
theorem double_points {nt : ℕ} (h : nt < 2 ^ 32) : (1 + (1 / 2 / 2 ^ 52 : ℚ)) ^ 3 * ((nt : ℚ) - 2) ≤ (nt : ℚ) - 1 := by
  have : (nt : ℚ) ≤ 2 ^ 32 := by exact_mod_cast h.le
  nlinarith

/-! ### Colours -/

/-- A channel is at most the larger of the two colours and at least one less than the smaller. -/
theorem mixR_bounds {u : ℚ} (R : Rnd u) (h1 : R.Is 1) {f : ℚ} (hf0 : 0 ≤ f) (hf1 : f ≤ 1) {a b : ℕ}
    (hu : ((1 + u) ^ 3 - 1) * (max a b : ℕ) < 1) (hu1 : u ≤ 1) :
    min a b ≤ mixR R f a b + 1 ∧ mixR R f a b ≤ max a b := by
  have hu0 := R.u_nonneg
  have ha : (a : ℚ) ≤ (max a b : ℕ) := by exact_mod_cast le_max_left a b
  have hb : (b : ℚ) ≤ (max a b : ℕ) := by exact_mod_cast le_max_right a b
  have ha' : ((min a b : ℕ) : ℚ) ≤ a := by exact_mod_cast min_le_left a b
  have hb' : ((min a b : ℕ) : ℚ) ≤ b := by exact_mod_cast min_le_right a b
  have hm0 : (0 : ℚ) ≤ (min a b : ℕ) := Nat.cast_nonneg _
  have hmM : ((min a b : ℕ) : ℚ) ≤ (max a b : ℕ) := by exact_mod_cast min_le_max
  have ha0 : (0 : ℚ) ≤ a := Nat.cast_nonneg a
  have hb0 : (0 : ℚ) ≤ b := Nat.cast_nonneg b
  have g0 : 0 ≤ R.fl (1 - f) := R.fl_nonneg (by linarith)
  have gle : R.fl (1 - f) ≤ (1 + u) * (1 - f) := R.fl_le (by linarith)
  have gge : (1 - u) * (1 - f) ≤ R.fl (1 - f) := R.fl_ge (by linarith)
  have x0 : 0 ≤ R.fl (R.fl (1 - f) * a) := R.fl_nonneg (mul_nonneg g0 ha0)
  have xle : R.fl (R.fl (1 - f) * a) ≤ (1 + u) * (R.fl (1 - f) * a) := R.fl_le (mul_nonneg g0 ha0)
  have xge : (1 - u) * (R.fl (1 - f) * a) ≤ R.fl (R.fl (1 - f) * a) := R.fl_ge (mul_nonneg g0 ha0)
  have y0 : 0 ≤ R.fl (f * b) := R.fl_nonneg (mul_nonneg hf0 hb0)
  have yle : R.fl (f * b) ≤ (1 + u) * (f * b) := R.fl_le (mul_nonneg hf0 hb0)
  have yge : (1 - u) * (f * b) ≤ R.fl (f * b) := R.fl_ge (mul_nonneg hf0 hb0)
  have zle := R.fl_le (add_nonneg x0 y0)
  have zge := R.fl_ge (add_nonneg x0 y0)
  have z0 := R.fl_nonneg (add_nonneg x0 y0)
  have hg : 0 ≤ 1 - f := by linarith
  have up : R.fl (R.fl (R.fl (1 - f) * a) + R.fl (f * b)) ≤ (1 + u) ^ 3 * (max a b : ℕ) := by
    calc R.fl (R.fl (R.fl (1 - f) * a) + R.fl (f * b))
        ≤ (1 + u) * (R.fl (R.fl (1 - f) * a) + R.fl (f * b)) := zle
      _ ≤ (1 + u) * ((1 + u) * (((1 + u) * (1 - f)) * (max a b : ℕ)) + (1 + u) * (f * (max a b : ℕ))) := by
          have h1 : R.fl (R.fl (1 - f) * a) ≤ (1 + u) * (((1 + u) * (1 - f)) * (max a b : ℕ)) := by
            refine le_trans xle ?_
            gcongr
          have h2 : R.fl (f * b) ≤ (1 + u) * (f * (max a b : ℕ)) := by
            refine le_trans yle ?_
            gcongr
          gcongr
      _ ≤ (1 + u) * ((1 + u) * (((1 + u) * (1 - f)) * (max a b : ℕ)) + (1 + u) * ((1 + u) * f * (max a b : ℕ))) := by
          have hM : (0 : ℚ) ≤ (max a b : ℕ) := Nat.cast_nonneg _
          have : f * (max a b : ℕ) ≤ (1 + u) * f * (max a b : ℕ) := by
            have := mul_nonneg hu0 (mul_nonneg hf0 hM)
            nlinarith
          gcongr
      _ = (1 + u) ^ 3 * (max a b : ℕ) := by ring
  have lo : (1 - u) ^ 3 * (min a b : ℕ) ≤ R.fl (R.fl (R.fl (1 - f) * a) + R.fl (f * b)) := by
    have hu2 : 0 ≤ 1 - u := by linarith
    calc (1 - u) ^ 3 * (min a b : ℕ)
        = (1 - u) * ((1 - u) * (((1 - u) * (1 - f)) * (min a b : ℕ)) + (1 - u) * ((1 - u) * f * (min a b : ℕ))) := by ring
      _ ≤ (1 - u) * ((1 - u) * (((1 - u) * (1 - f)) * (min a b : ℕ)) + (1 - u) * (f * (min a b : ℕ))) := by
          have : (1 - u) * f * (min a b : ℕ) ≤ f * (min a b : ℕ) := by
            have := mul_nonneg hu0 (mul_nonneg hf0 hm0)
            nlinarith
          gcongr
      _ ≤ (1 - u) * (R.fl (R.fl (1 - f) * a) + R.fl (f * b)) := by
          have h1 : (1 - u) * (((1 - u) * (1 - f)) * (min a b : ℕ)) ≤ R.fl (R.fl (1 - f) * a) := by
            refine le_trans ?_ xge
            gcongr
          have h2 : (1 - u) * (f * (min a b : ℕ)) ≤ R.fl (f * b) := by
            refine le_trans ?_ yge
            gcongr
          gcongr
      _ ≤ _ := zge
  have fl1 := Nat.floor_le z0
  have fl2 := Nat.lt_floor_add_one (R.fl (R.fl (R.fl (1 - f) * a) + R.fl (f * b)))
  unfold mixR
  generalize ⌊R.fl (R.fl (R.fl (1 - f) * a) + R.fl (f * b))⌋₊ = k at *
  constructor
  · have hc : (1 - u) ^ 3 ≥ 1 - ((1 + u) ^ 3 - 1) := by nlinarith [sq_nonneg u]
    have h3 : ((1 + u) ^ 3 - 1) * (min a b : ℕ) ≤ ((1 + u) ^ 3 - 1) * (max a b : ℕ) :=
      mul_le_mul_of_nonneg_left hmM (by nlinarith [pow_nonneg hu0 3, sq_nonneg u])
    have h4 : (1 - ((1 + u) ^ 3 - 1)) * (min a b : ℕ) ≤ (1 - u) ^ 3 * (min a b : ℕ) := mul_le_mul_of_nonneg_right hc hm0
    have h5 : ((min a b : ℕ) : ℚ) < ((k + 2 : ℕ) : ℚ) := by push_cast at *; linarith
    have h6 : min a b < k + 2 := by exact_mod_cast h5
    omega
  · have h5 : (k : ℚ) < ((max a b + 1 : ℕ) : ℚ) := by push_cast at *; linarith
    have h6 : k < max a b + 1 := by exact_mod_cast h5
    omega

/-- Interpolation with factors that are not negative is a positive combination, up to rounding. -/
theorem lerpR_bounds {u : ℚ} (R : Rnd u) (hu : u < 1) {r0 r1 f0 f1 rho : ℚ} (h01 : r0 < r1) (h0 : r0 ≤ rho) (h1 : rho ≤ r1)
    (hf0 : 0 ≤ f0) (hf1 : 0 ≤ f1) :
    ∃ v, lerpR R r0 r1 f0 f1 rho = .ok v ∧ 0 ≤ v ∧
      (1 - u) ^ 4 / (1 + u) * (((r1 - rho) * f0 + (rho - r0) * f1) / (r1 - r0)) ≤ v ∧
      v ≤ (1 + u) ^ 4 / (1 - u) * (((r1 - rho) * f0 + (rho - r0) * f1) / (r1 - r0)) := by
  have hu0 := R.u_nonneg
  have hv0 : 0 ≤ 1 - u := by linarith
  have hD : 0 < r1 - r0 := by linarith
  have hE := R.fl_pos hu hD
  have Ele := R.fl_le hD.le
  have Ege := R.fl_ge hD.le
  have ha : 0 ≤ r1 - rho := by linarith
  have hb : 0 ≤ rho - r0 := by linarith
  have a0 := R.fl_nonneg ha
  have ale := R.fl_le ha
  have age := R.fl_ge ha
  have b0 := R.fl_nonneg hb
  have ble := R.fl_le hb
  have bge := R.fl_ge hb
  have x0 := R.fl_nonneg (mul_nonneg a0 hf0)
  have xle := R.fl_le (mul_nonneg a0 hf0)
  have xge := R.fl_ge (mul_nonneg a0 hf0)
  have y0 := R.fl_nonneg (mul_nonneg b0 hf1)
  have yle := R.fl_le (mul_nonneg b0 hf1)
  have yge := R.fl_ge (mul_nonneg b0 hf1)
  have n0 := R.fl_nonneg (add_nonneg x0 y0)
  have nle := R.fl_le (add_nonneg x0 y0)
  have nge := R.fl_ge (add_nonneg x0 y0)
  have v0 := R.fl_nonneg (div_nonneg n0 hE.le)
  have vle := R.fl_le (div_nonneg n0 hE.le)
  have vge := R.fl_ge (div_nonneg n0 hE.le)
  refine ⟨_, if_neg hE.ne', v0, ?_, ?_⟩
  · refine le_trans ?_ vge
    have xx : (1 - u) ^ 2 * ((r1 - rho) * f0) ≤ R.fl (R.fl (r1 - rho) * f0) := by
      refine le_trans ?_ xge
      calc (1 - u) ^ 2 * ((r1 - rho) * f0) = (1 - u) * (((1 - u) * (r1 - rho)) * f0) := by ring
        _ ≤ _ := by gcongr
    have yy : (1 - u) ^ 2 * ((rho - r0) * f1) ≤ R.fl (R.fl (rho - r0) * f1) := by
      refine le_trans ?_ yge
      calc (1 - u) ^ 2 * ((rho - r0) * f1) = (1 - u) * (((1 - u) * (rho - r0)) * f1) := by ring
        _ ≤ _ := by gcongr
    have nn : (1 - u) ^ 3 * ((r1 - rho) * f0 + (rho - r0) * f1) ≤ R.fl (R.fl (R.fl (r1 - rho) * f0) + R.fl (R.fl (rho - r0) * f1)) := by
      refine le_trans ?_ nge
      calc (1 - u) ^ 3 * ((r1 - rho) * f0 + (rho - r0) * f1)
          = (1 - u) * ((1 - u) ^ 2 * ((r1 - rho) * f0) + (1 - u) ^ 2 * ((rho - r0) * f1)) := by ring
        _ ≤ _ := by gcongr
    have s0 : 0 ≤ (r1 - rho) * f0 + (rho - r0) * f1 := add_nonneg (mul_nonneg ha hf0) (mul_nonneg hb hf1)
    calc (1 - u) ^ 4 / (1 + u) * (((r1 - rho) * f0 + (rho - r0) * f1) / (r1 - r0))
        = (1 - u) * (((1 - u) ^ 3 * ((r1 - rho) * f0 + (rho - r0) * f1)) / ((1 + u) * (r1 - r0))) := by
          field_simp
      _ ≤ _ := by
          apply mul_le_mul_of_nonneg_left _ hv0
          exact div_le_div₀ n0 nn hE Ele
  · refine le_trans vle ?_
    have xx : R.fl (R.fl (r1 - rho) * f0) ≤ (1 + u) ^ 2 * ((r1 - rho) * f0) := by
      refine le_trans xle ?_
      calc _ ≤ (1 + u) * (((1 + u) * (r1 - rho)) * f0) := by gcongr
        _ = (1 + u) ^ 2 * ((r1 - rho) * f0) := by ring
    have yy : R.fl (R.fl (rho - r0) * f1) ≤ (1 + u) ^ 2 * ((rho - r0) * f1) := by
      refine le_trans yle ?_
      calc _ ≤ (1 + u) * (((1 + u) * (rho - r0)) * f1) := by gcongr
        _ = (1 + u) ^ 2 * ((rho - r0) * f1) := by ring
    have nn : R.fl (R.fl (R.fl (r1 - rho) * f0) + R.fl (R.fl (rho - r0) * f1)) ≤ (1 + u) ^ 3 * ((r1 - rho) * f0 + (rho - r0) * f1) := by
      refine le_trans nle ?_
      calc _ ≤ (1 + u) * ((1 + u) ^ 2 * ((r1 - rho) * f0) + (1 + u) ^ 2 * ((rho - r0) * f1)) := by gcongr
        _ = (1 + u) ^ 3 * ((r1 - rho) * f0 + (rho - r0) * f1) := by ring
    have s0 : 0 ≤ (r1 - rho) * f0 + (rho - r0) * f1 := add_nonneg (mul_nonneg ha hf0) (mul_nonneg hb hf1)
    have hv : 0 < 1 - u := by linarith
    calc _ ≤ (1 + u) * (((1 + u) ^ 3 * ((r1 - rho) * f0 + (rho - r0) * f1)) / ((1 - u) * (r1 - r0))) := by
          apply mul_le_mul_of_nonneg_left _ (by linarith)
          exact div_le_div₀ (mul_nonneg (by positivity) s0) nn (mul_pos hv hD) Ege
      _ = (1 + u) ^ 4 / (1 - u) * (((r1 - rho) * f0 + (rho - r0) * f1) / (r1 - r0)) := by
          field_simp

/-- At the left node only the product and the quotient are rounded. -/
theorem lerpR_node {u : ℚ} (R : Rnd u) (hu : u < 1) {r0 r1 f0 f1 : ℚ} (h01 : r0 < r1) :
    ∃ v, lerpR R r0 r1 f0 f1 r0 = .ok v ∧ |v - f0| ≤ ((1 + u) ^ 2 - 1) * |f0| := by
  have hu0 := R.u_nonneg
  have hD : 0 < r1 - r0 := by linarith
  have hE := R.fl_pos hu hD
  refine ⟨_, if_neg hE.ne', ?_⟩
  rw [sub_self, R.fl_zero, zero_mul, R.fl_zero, add_zero, R.idem]
  generalize R.fl (r1 - r0) = E at hE
  have h1 := R.rel (E * f0)
  have h2 := R.rel (R.fl (E * f0) / E)
  generalize R.fl (E * f0) = n at *
  generalize R.fl (n / E) = v at *
  have e1 : |n / E - f0| ≤ u * |f0| := by
    have : n / E - f0 = (n - E * f0) / E := by field_simp
    rw [this, abs_div, abs_of_pos hE, div_le_iff₀ hE]
    rw [abs_mul, abs_of_pos hE] at h1
    linarith
  have e2 : |n / E| ≤ (1 + u) * |f0| := by
    have := abs_sub_abs_le_abs_sub (n / E) f0
    linarith
  have e3 : |v - f0| ≤ |v - n / E| + |n / E - f0| := by
    have := abs_add_le (v - n / E) (n / E - f0)
    rwa [sub_add_sub_cancel] at this
  have e4 : u * |n / E| ≤ u * ((1 + u) * |f0|) := by gcongr
  nlinarith

end Softlib.General

namespace Softlib

open General

/-! ### C39 -/

/-- **C39** Without rounding these are the times of the exact model. -/
theorem C39_rounded_exact (nt : ℕ) (tmin tmax : ℚ) (hn : 2 ≤ nt) :
    Integrator.uniformTimes nt (tmin : ℝ) (tmax : ℝ) = some ((timesR exactRnd nt tmin tmax).map (fun q : ℚ => (q : ℝ))) := by
  unfold Integrator.uniformTimes
  rw [if_pos (by omega)]
  simp only [timesR, stepR, exactRnd, id, List.map_set, List.map_map]
  congr 2
  apply List.map_congr_left
  intro i _
  simp

/-- **C39** With every operation rounded there are still `nt` times, the first is the first requested
time, the last is the last, no time is before the one before it, and none is before the first.  If
the points are few for the precision none is after the last. -/
theorem C39_rounded {u : ℚ} (R : Rnd u) (nt : ℕ) (tmin tmax : ℚ) (hn : 2 ≤ nt) (ht : tmin ≤ tmax)
    (h0 : R.Is tmin) (h1 : R.Is tmax) (hu : (1 + u) ^ 3 * ((nt : ℚ) - 2) ≤ (nt : ℚ) - 1) :
    (timesR R nt tmin tmax).length = nt ∧ (timesR R nt tmin tmax)[0]? = some tmin ∧
      (timesR R nt tmin tmax)[nt - 1]? = some tmax ∧
      (∀ (i j : ℕ) (a b : ℚ), i ≤ j → (timesR R nt tmin tmax)[i]? = some a → (timesR R nt tmin tmax)[j]? = some b → a ≤ b) ∧
      (∀ a ∈ timesR R nt tmin tmax, tmin ≤ a ∧ a ≤ tmax) := by
  have hlen : (timesR R nt tmin tmax).length = nt := by simp [timesR]
  have hfirst : (timesR R nt tmin tmax)[0]? = some tmin := by
    rw [timesR_get R (by omega)]
    rw [Nat.cast_zero, zero_mul, R.fl_zero, add_zero, h0]
  have hlast := timesR_last R (tmin := tmin) (tmax := tmax) (nt := nt) (by omega)
  have hmono : ∀ (i j : ℕ) (a b : ℚ), i ≤ j → (timesR R nt tmin tmax)[i]? = some a →
      (timesR R nt tmin tmax)[j]? = some b → a ≤ b := by
    intro i j a b hij ha hb
    have hj : j < nt := by
      by_contra hc
      rw [List.getElem?_eq_none (by omega)] at hb
      cases hb
    rcases Nat.lt_or_ge (i + 1) nt with hi | hi
    · rw [timesR_get R hi] at ha
      injection ha with ha
      rcases Nat.lt_or_ge (j + 1) nt with hj' | hj'
      · rw [timesR_get R hj'] at hb
        injection hb with hb
        rw [← ha, ← hb]
        refine R.mono _ _ ?_
        have hij' : (i : ℚ) ≤ j := by exact_mod_cast hij
        have := R.mono _ _ (mul_le_mul_of_nonneg_right hij' (stepR_nonneg R hn ht))
        linarith
      · have e : j = nt - 1 := by omega
        rw [e, hlast] at hb
        injection hb with hb
        rw [← ha, ← hb]
        refine R.fl_le_of h1 ?_
        linarith [offset_le R hn ht hu hi]
    · have e : i = nt - 1 := by omega
      have e' : j = nt - 1 := by omega
      rw [e, hlast] at ha
      rw [e', hlast] at hb
      injection ha with ha
      injection hb with hb
      rw [← ha, ← hb]
  refine ⟨hlen, hfirst, hlast, hmono, ?_⟩
  intro a ha
  obtain ⟨i, hi⟩ := List.mem_iff_getElem?.mp ha
  have hi' : i < nt := by
    by_contra hc
    rw [List.getElem?_eq_none (by omega)] at hi
    cases hi
  exact ⟨hmono 0 i _ _ (Nat.zero_le _) hfirst hi, hmono i (nt - 1) _ _ (by omega) hi hlast⟩

/-- **C39** In `double` precision this covers every number of points that fits in 32 bits. -/
theorem C39_rounded_double (nt : ℕ) (tmin tmax : ℚ) (hn : 2 ≤ nt) (hn' : nt < 2 ^ 32) (ht : tmin ≤ tmax)
    (h0 : (rndBits 52).Is tmin) (h1 : (rndBits 52).Is tmax) :
    (timesR (rndBits 52) nt tmin tmax)[0]? = some tmin ∧ (timesR (rndBits 52) nt tmin tmax)[nt - 1]? = some tmax ∧
      (timesR (rndBits 52) nt tmin tmax).Pairwise (· ≤ ·) := by
  obtain ⟨-, h3, h4, h5, -⟩ := C39_rounded (rndBits 52) nt tmin tmax hn ht h0 h1 (double_points hn')
  refine ⟨h3, h4, ?_⟩
  rw [List.pairwise_iff_getElem]
  intro i j hi hj hij
  exact h5 i j _ _ hij.le (List.getElem?_eq_getElem hi) (List.getElem?_eq_getElem hj)

/-- The premises are met by the interval from zero to one. -/
example : (rndBits 52).Is 0 ∧ (rndBits 52).Is 1 ∧ (2 : ℕ) ≤ 1000 ∧ 1000 < 2 ^ 32 := by
  refine ⟨(rndBits 52).fl_zero, ?_, by norm_num, by norm_num⟩
  have := flBits_exact 52 (e := 0) (m := 1) (by norm_num)
  simpa [Rnd.Is, rndBits] using this

/-- **C39** Strict increase is lost: between neighbouring numbers there is no room for four times. -/
theorem C39_refuted_rounded :
    timesR (rndBits 52) 4 1 (1 + 1 / 2 ^ 52) = [1, 1, 1 + 1 / 2 ^ 52, 1 + 1 / 2 ^ 52] := by
  have e1 : (rndBits 52).fl (1 + 1 / 2 ^ 52 - 1) = 1 / 2 ^ 52 := by
    have := flBits_exact 52 (e := -52) (m := 1) (by norm_num)
    simp only [rndBits]
    norm_num at this ⊢
    exact this
  have e2 : stepR (rndBits 52) 4 1 (1 + 1 / 2 ^ 52) = 6004799503160661 / 2 ^ 106 := by
    unfold stepR
    rw [e1]
    have := flBits_eq 52 (x := 1 / 2 ^ 52 / (((4 : ℕ) : ℚ) - 1)) (e := -106) (m := 6004799503160661)
      (by norm_num) (by norm_num) (by norm_num)
    simp only [rndBits]
    rw [this]
    norm_num
  have f0 : (rndBits 52).fl 1 = 1 := by
    have := flBits_exact 52 (e := 0) (m := 1) (by norm_num)
    simpa [rndBits] using this
  have f1 : (rndBits 52).fl (1 + 6004799503160661 / 2 ^ 106) = 1 := by
    have := flBits_eq 52 (x := 1 + 6004799503160661 / 2 ^ 106) (e := -52) (m := 2 ^ 52)
      (by norm_num) (by norm_num) (by norm_num)
    simp only [rndBits]
    rw [this]
    norm_num
  have f2 : (rndBits 52).fl (1 + 6004799503160661 / 2 ^ 105) = 1 + 1 / 2 ^ 52 := by
    have := flBits_eq 52 (x := 1 + 6004799503160661 / 2 ^ 105) (e := -52) (m := 2 ^ 52 + 1)
      (by norm_num) (by norm_num) (by norm_num)
    simp only [rndBits]
    rw [this]
    norm_num
  have g1 : (rndBits 52).fl (6004799503160661 / 2 ^ 106) = 6004799503160661 / 2 ^ 106 := by
    have := flBits_exact 52 (e := -106) (m := 6004799503160661) (by norm_num)
    simp only [rndBits]
    norm_num at this ⊢
    exact this
  have g2 : (rndBits 52).fl (2 * (6004799503160661 / 2 ^ 106)) = 6004799503160661 / 2 ^ 105 := by
    have := flBits_exact 52 (e := -105) (m := 6004799503160661) (by norm_num)
    simp only [rndBits]
    norm_num at this ⊢
    exact this
  unfold timesR
  rw [e2]
  simp only [List.range, List.range.loop, List.map, List.set, Nat.cast_zero, Nat.cast_one, Nat.cast_ofNat, zero_mul, one_mul,
    (rndBits 52).fl_zero, add_zero, g1, g2, f0, f1, f2]

/-! ### C40 -/

/-- **C40** Without rounding this is `Eval` of the exact model. -/
theorem C40_rounded_exact (tab : List Image.Color) (vmin vmax v : ℚ) :
    evalR exactRnd tab vmin vmax v = Image.eval tab vmin vmax v := rfl

/-- A scaled value at or below zero gives the first colour. -/
theorem evalR_nonpos {u : ℚ} (R : Rnd u) (h1 : R.Is 1) (c : Image.Color) (cs : List Image.Color) (vmin vmax v : ℚ) (hv : 0 < vmax)
    (hc : R.Is c.red ∧ R.Is c.green ∧ R.Is c.blue) (hi : scaleR R (cs.length + 1) vmin vmax v ≤ 0)
    (hbig : -2 ^ 31 ≤ scaleR R (cs.length + 1) vmin vmax v) : evalR R (c :: cs) vmin vmax v = some c := by
  unfold evalR
  rw [if_neg (by simp [hv.ne'])]
  simp only [List.length_cons]
  generalize scaleR R (cs.length + 1) vmin vmax v = i at *
  have hl : ⌊i⌋ ≤ 0 := by
    have := Int.floor_mono hi
    simpa using this
  have hl' : -2 ^ 31 ≤ ⌊i⌋ := by
    have : ((-2 ^ 31 : ℤ) : ℚ) ≤ i := by push_cast; exact hbig
    exact Int.le_floor.mpr this
  rw [if_neg (by push Not; exact ⟨hl', by omega⟩)]
  split_ifs with h2 h3
  · cases cs with
    | nil => rfl
    | cons d ds => simp at h2; omega
  · rfl
  · have e : ⌊i⌋ = 0 := by omega
    have e' : i = 0 := le_antisymm hi (by have := Int.floor_le i; rw [e] at this; simpa using this)
    cases cs with
    | nil => simp [e] at h2
    | cons d ds =>
      rw [e', Int.floor_zero]
      simp only [Int.toNat_zero, List.getElem?_cons_zero, List.getElem?_cons_succ, zero_add, Int.cast_zero, sub_zero, R.fl_zero]
      unfold mixR
      rw [sub_zero, h1]
      simp only [one_mul, zero_mul, R.fl_zero, add_zero]
      rw [hc.1, hc.2.1, hc.2.2]
      rw [hc.1, hc.2.1, hc.2.2]
      simp

/-- **C40** At or below the minimum the first colour comes out with rounding, too.  Where the index
does not fit in an `int` the conversion is undefined (`C40_refuted_huge`). -/
theorem C40_rounded_low {u : ℚ} (R : Rnd u) (h1 : R.Is 1) (c : Image.Color) (cs : List Image.Color) (vmin vmax v : ℚ) (hv : 0 < vmax)
    (hc : R.Is c.red ∧ R.Is c.green ∧ R.Is c.blue) (hlow : v ≤ vmin)
    (hbig : -2 ^ 31 ≤ scaleR R (cs.length + 1) vmin vmax v) : evalR R (c :: cs) vmin vmax v = some c := by
  refine evalR_nonpos R h1 c cs vmin vmax v hv hc ?_ hbig
  unfold scaleR
  refine R.fl_nonpos (mul_nonpos_of_nonpos_of_nonneg (R.fl_nonpos ?_) (Nat.cast_nonneg _))
  exact div_nonpos_of_nonpos_of_nonneg (R.fl_nonpos (by linarith)) hv.le

/-- **C40** From `vmin + vmax` on the last colour comes out with rounding, too. -/
theorem C40_rounded_high {u : ℚ} (R : Rnd u) (h1 : R.Is 1) (tab : List Image.Color) (c : Image.Color) (vmin vmax v : ℚ) (hv : 0 < vmax)
    (hm : R.Is vmax) (hn : R.Is ((tab.length : ℕ) : ℚ)) (hhigh : vmin + vmax ≤ v)
    (hbig : scaleR R (tab.length + 1) vmin vmax v < 2 ^ 31) : evalR R (tab ++ [c]) vmin vmax v = some c := by
  unfold evalR
  rw [if_neg (by simp [hv.ne'])]
  simp only [List.length_append, List.length_cons, List.length_nil, zero_add]
  have hi : (tab.length : ℚ) ≤ scaleR R (tab.length + 1) vmin vmax v := by
    unfold scaleR
    refine R.le_fl_of hn ?_
    have a1 : vmax ≤ R.fl (v - vmin) := R.le_fl_of hm (by linarith)
    have a2 : 1 ≤ R.fl (R.fl (v - vmin) / vmax) := R.le_fl_of h1 (by rw [le_div_iff₀ hv]; linarith)
    rw [Nat.add_sub_cancel]
    have : (0 : ℚ) ≤ tab.length := Nat.cast_nonneg _
    nlinarith
  generalize scaleR R (tab.length + 1) vmin vmax v = i at *
  have hl : (tab.length : ℤ) ≤ ⌊i⌋ := Int.le_floor.mpr (by exact_mod_cast hi)
  have hl' : ⌊i⌋ < 2 ^ 31 := Int.floor_lt.mpr (by push_cast; exact hbig)
  rw [if_neg (by push Not; exact ⟨by omega, hl'⟩), if_pos (by push_cast; omega)]
  simp

/-- Where a channel lies between two neighbours, give or take one below. -/
def NearBetween (x a b : ℕ) : Prop := min a b ≤ x + 1 ∧ x ≤ max a b

/-- **C40** In between, with rounding, each channel is at most the larger of the neighbouring
colours, and at least one less than the smaller; `hu` holds in `double` precision for all 32-bit
channels. -/
theorem C40_rounded_between {u : ℚ} (R : Rnd u) (h1 : R.Is 1) (hu1 : u ≤ 1) (tab : List Image.Color) (vmin vmax v : ℚ) (hv : 0 < vmax)
    (N : ℕ) (hN : ∀ c ∈ tab, c.red ≤ N ∧ c.green ≤ N ∧ c.blue ≤ N) (hu : ((1 + u) ^ 3 - 1) * N < 1) (hs : tab.length ≤ 2 ^ 31)
    (h0 : 0 ≤ scaleR R tab.length vmin vmax v) (h2 : scaleR R tab.length vmin vmax v < (tab.length : ℚ) - 1) :
    ∃ (k : ℕ) (a b c : Image.Color), k = ⌊scaleR R tab.length vmin vmax v⌋ ∧ tab[k]? = some a ∧ tab[k + 1]? = some b ∧
      evalR R tab vmin vmax v = some c ∧
      NearBetween c.red a.red b.red ∧ NearBetween c.green a.green b.green ∧ NearBetween c.blue a.blue b.blue := by
  have hl0 : 0 ≤ ⌊scaleR R tab.length vmin vmax v⌋ := Int.floor_nonneg.mpr h0
  have hl2 : ⌊scaleR R tab.length vmin vmax v⌋ < (tab.length : ℤ) - 1 := Int.floor_lt.mpr (by push_cast; exact h2)
  have hf0 := Int.floor_le (scaleR R tab.length vmin vmax v)
  have hf1 := (Int.lt_floor_add_one (scaleR R tab.length vmin vmax v)).le
  have hne : tab.length ≠ 0 := by omega
  have key : ∀ i : ℚ, scaleR R tab.length vmin vmax v = i → ∃ (k : ℕ) (a b c : Image.Color), k = ⌊i⌋ ∧ tab[k]? = some a ∧ tab[k + 1]? = some b ∧
      evalR R tab vmin vmax v = some c ∧
      NearBetween c.red a.red b.red ∧ NearBetween c.green a.green b.green ∧ NearBetween c.blue a.blue b.blue := by
    intro i ei
    unfold evalR
    rw [if_neg (by simp [hne, hv.ne'])]
    simp only [ei] at *
    rw [if_neg (by push Not; constructor <;> omega), if_neg (by omega), if_neg (by omega)]
    have hk1 : ⌊i⌋.toNat + 1 < tab.length := by omega
    have hk0 : ⌊i⌋.toNat < tab.length := by omega
    have g0 : 0 ≤ R.fl (i - ⌊i⌋) := R.fl_nonneg (by linarith)
    have g1 : R.fl (i - ⌊i⌋) ≤ 1 := R.fl_le_of h1 (by linarith)
    have hu0 := R.u_nonneg
    have mx : ∀ a b : ℕ, a ≤ N → b ≤ N → NearBetween (mixR R (R.fl (i - ⌊i⌋)) a b) a b := by
      intro a b ha hb
      refine mixR_bounds R h1 g0 g1 (lt_of_le_of_lt ?_ hu) hu1
      have : ((max a b : ℕ) : ℚ) ≤ N := by exact_mod_cast max_le ha hb
      apply mul_le_mul_of_nonneg_left this
      nlinarith [pow_nonneg hu0 3, sq_nonneg u]
    have ma := hN _ (List.getElem_mem hk0)
    have mb := hN _ (List.getElem_mem hk1)
    refine ⟨⌊i⌋.toNat, tab[⌊i⌋.toNat], tab[⌊i⌋.toNat + 1],
      ⟨mixR R (R.fl (i - ⌊i⌋)) tab[⌊i⌋.toNat].red tab[⌊i⌋.toNat + 1].red, mixR R (R.fl (i - ⌊i⌋)) tab[⌊i⌋.toNat].green tab[⌊i⌋.toNat + 1].green,
        mixR R (R.fl (i - ⌊i⌋)) tab[⌊i⌋.toNat].blue tab[⌊i⌋.toNat + 1].blue⟩, by omega, List.getElem?_eq_getElem hk0, List.getElem?_eq_getElem hk1, ?_,
      mx _ _ ma.1 mb.1, mx _ _ ma.2.1 mb.2.1, mx _ _ ma.2.2 mb.2.2⟩
    rw [List.getElem?_eq_getElem hk0, List.getElem?_eq_getElem hk1]
  exact key _ rfl

/-- The premise about the precision, for `double` and 32-bit channels. -/
example : ((1 + (1 / 2 / 2 ^ 52 : ℚ)) ^ 3 - 1) * ((2 ^ 32 : ℕ) : ℚ) < 1 := by norm_num

/-- **C40** The one below happens: between two equal colours another comes out.  The value is the
`double` next to 0.04. -/
theorem C40_refuted_rounded :
    evalR (rndBits 52) [⟨255, 255, 255⟩, ⟨255, 255, 255⟩] 0 1 (5764607523034235 * 2 ^ (-57 : ℤ)) = some ⟨254, 254, 254⟩ := by
  have ex : ∀ (m e : ℤ), |m| ≤ 2 ^ 53 → (rndBits 52).fl (m * 2 ^ e) = m * 2 ^ e := fun m e h => flBits_exact 52 h
  have e0 : (rndBits 52).fl (5764607523034235 * 2 ^ (-57 : ℤ)) = 5764607523034235 * 2 ^ (-57 : ℤ) := by
    have := ex 5764607523034235 (-57) (by norm_num)
    exact_mod_cast this
  have e1 : (rndBits 52).fl (1 - 5764607523034235 * 2 ^ (-57 : ℤ)) = 8646911284551352 * 2 ^ (-53 : ℤ) := by
    have := flBits_eq 52 (x := 1 - 5764607523034235 * 2 ^ (-57 : ℤ)) (e := -53) (m := 8646911284551352)
      (by norm_num) (by norm_num) (by norm_num)
    exact_mod_cast this
  have e2 : (rndBits 52).fl (8646911284551352 * 2 ^ (-53 : ℤ) * 255) = 8613134287346073 * 2 ^ (-45 : ℤ) := by
    have := flBits_eq 52 (x := 8646911284551352 * 2 ^ (-53 : ℤ) * 255) (e := -45) (m := 8613134287346073)
      (by norm_num) (by norm_num) (by norm_num)
    exact_mod_cast this
  have e3 : (rndBits 52).fl (5764607523034235 * 2 ^ (-57 : ℤ) * 255) = 5742089524897383 * 2 ^ (-49 : ℤ) := by
    have := flBits_eq 52 (x := 5764607523034235 * 2 ^ (-57 : ℤ) * 255) (e := -49) (m := 5742089524897383)
      (by norm_num) (by norm_num) (by norm_num)
    exact_mod_cast this
  have e4 : (rndBits 52).fl (8613134287346073 * 2 ^ (-45 : ℤ) + 5742089524897383 * 2 ^ (-49 : ℤ)) = 8972014882652159 * 2 ^ (-45 : ℤ) := by
    have := flBits_eq 52 (x := 8613134287346073 * 2 ^ (-45 : ℤ) + 5742089524897383 * 2 ^ (-49 : ℤ)) (e := -45) (m := 8972014882652159)
      (by norm_num) (by norm_num) (by norm_num)
    exact_mod_cast this
  have es : scaleR (rndBits 52) 2 0 1 (5764607523034235 * 2 ^ (-57 : ℤ)) = 5764607523034235 * 2 ^ (-57 : ℤ) := by
    unfold scaleR
    rw [sub_zero, e0, div_one, e0]
    simp only [Nat.add_one_sub_one, Nat.cast_one, mul_one]
    rw [e0]
  have hfl : ⌊(5764607523034235 * 2 ^ (-57 : ℤ) : ℚ)⌋ = 0 := by
    rw [Int.floor_eq_iff]
    norm_num
  have hm : mixR (rndBits 52) (5764607523034235 * 2 ^ (-57 : ℤ)) 255 255 = 254 := by
    unfold mixR
    rw [e1]
    simp only [Nat.cast_ofNat]
    rw [e2, e3, e4]
    rw [Nat.floor_eq_iff (by norm_num)]
    norm_num
  unfold evalR
  simp only [List.length_cons, List.length_nil, zero_add, Nat.reduceAdd]
  rw [es, hfl]
  simp only [Int.cast_zero, sub_zero]
  rw [e0]
  rw [if_neg (by norm_num), if_neg (by norm_num), if_neg (by norm_num), if_neg (by norm_num)]
  simp only [Int.toNat_zero, List.getElem?_cons_zero, List.getElem?_cons_succ, zero_add, hm]

/-! ### C56 -/

section
open Softlib.Dist
variable {M P : Type}

/-- **C56** Without rounding this is `Eval` of the exact model. -/
theorem C56_rounded_exact (ev : M → P → ℚ) (d : NDist M ℚ) (r : ℚ) (p : P) (shift : ℚ) :
    distR exactRnd ev d r p shift = d.eval ev r p shift := by
  have hid : ∀ x : ℚ, exactRnd.fl x = x := fun _ => rfl
  have hl : ∀ r0 r1 f0 f1 rho : ℚ, lerpR exactRnd r0 r1 f0 f1 rho = lerp r0 r1 f0 f1 rho := fun r0 r1 f0 f1 rho => by
    unfold lerpR lerp
    simp only [hid]
  have h1 : ∀ rho : ℚ, evalOneR exactRnd ev d p rho = evalOne ev d p rho := fun rho => by
    unfold evalOneR evalOne
    cases d.msdf[0]? with
    | none => rfl
    | some m => exact hl _ _ _ _ _
  have h2 : ∀ rho : ℚ, evalFirstR exactRnd ev d p rho = evalFirst ev d p rho := fun rho => by
    unfold evalFirstR evalFirst
    cases d.r[0]? <;> cases d.r[1]? <;> cases d.msdf[0]? <;> cases d.msdf[1]? <;> first | rfl | skip
  have h3 : ∀ rho : ℚ, evalLastR exactRnd ev d p rho = evalLast ev d p rho := fun rho => by
    unfold evalLastR evalLast
    cases d.r[d.r.length - 1]? <;> cases d.r[d.r.length - 2]? <;> cases d.msdf[d.r.length - 1]? <;>
      cases d.msdf[d.r.length - 2]? <;> first | rfl | skip
  have h4 : ∀ (rho : ℚ) (i : ℕ), evalMidR exactRnd ev d p rho i = evalMid ev d p rho i := fun rho i => by
    unfold evalMidR evalMid
    cases d.r[i]? <;> cases d.r[i + 1]? <;> cases d.msdf[i]? <;> cases d.msdf[i + 1]? <;> first | rfl | skip
  unfold distR NDist.eval
  simp only [hid, h1, h2, h3, h4]
  by_cases hc : d.allow = false ∧ (r - shift < d.rmin ∨ r - shift > d.rmax)
  · rw [if_pos hc, if_pos hc]
  · rw [if_neg hc, if_neg hc]
    cases findNearest d.r (r - shift) with
    | none => rfl
    | some ir => rfl

theorem distR_mid {u : ℚ} (R : Rnd u) (ev : M → P → ℚ) (d : NDist M ℚ) (hd : GoodGrid d) (r shift : ℚ) (p : P) (k : ℕ) (hk : 1 ≤ k)
    (a b : ℚ) (m n : M) (ha : d.r[k]? = some a) (hb : d.r[k + 1]? = some b) (hm : d.msdf[k]? = some m) (hn : d.msdf[k + 1]? = some n)
    (h1 : a ≤ R.fl (r - shift)) (h3 : R.fl (r - shift) < b) (hadm : Admitted d (R.fl (r - shift))) :
    distR R ev d r p shift = lerpR R a b (ev m p) (ev n p) (R.fl (r - shift)) := by
  have lk1 := lt_of_getElem? hb
  have h1len : d.r.length ≠ 1 := by have := hd.two; omega
  simp only [distR, if_neg (admitted_not d _ hadm)]
  rw [C55_search_exact d.r _ hd.inc hd.small k a b ha hb h1 h3]
  simp only [if_neg h1len]
  rw [if_neg (by omega), if_neg (by simp only [Int.toNat_natCast]; omega)]
  simp only [evalMidR, Int.toNat_natCast, ha, hb, hm, hn]

/-- **C56** With rounding, between two radii after the first interval and for values that are not
negative: the result is not negative and differs from the straight line by a factor near one. -/
theorem C56_rounded_between {u : ℚ} (R : Rnd u) (hu : u < 1) (ev : M → P → ℚ) (d : NDist M ℚ) (hd : GoodGrid d) (r shift : ℚ) (p : P)
    (k : ℕ) (hk : 1 ≤ k) (a b : ℚ) (m n : M) (ha : d.r[k]? = some a) (hb : d.r[k + 1]? = some b) (hm : d.msdf[k]? = some m)
    (hn : d.msdf[k + 1]? = some n) (h1 : a ≤ R.fl (r - shift)) (h3 : R.fl (r - shift) < b) (hadm : Admitted d (R.fl (r - shift)))
    (hf0 : 0 ≤ ev m p) (hf1 : 0 ≤ ev n p) :
    ∃ v, distR R ev d r p shift = .ok v ∧ 0 ≤ v ∧
      (1 - u) ^ 4 / (1 + u) * lineThrough a b (ev m p) (ev n p) (R.fl (r - shift)) ≤ v ∧
      v ≤ (1 + u) ^ 4 / (1 - u) * lineThrough a b (ev m p) (ev n p) (R.fl (r - shift)) := by
  rw [distR_mid R ev d hd r shift p k hk a b m n ha hb hm hn h1 h3 hadm]
  have hab : a < b := lt_of_le_of_lt h1 h3
  have := lerpR_bounds R hu hab h1 h3.le hf0 hf1
  have e : ((b - R.fl (r - shift)) * ev m p + (R.fl (r - shift) - a) * ev n p) / (b - a) =
      lineThrough a b (ev m p) (ev n p) (R.fl (r - shift)) := by
    have h5 : b - a ≠ 0 := sub_ne_zero.mpr hab.ne'
    unfold lineThrough
    field_simp
    ring
  rwa [e] at this

/-- **C56** With rounding, at a radius of the grid that is neither the first nor the last: the value
inserted there up to two roundings. -/
theorem C56_rounded_grid {u : ℚ} (R : Rnd u) (hu : u < 1) (ev : M → P → ℚ) (d : NDist M ℚ) (hd : GoodGrid d) (r shift : ℚ) (p : P)
    (k : ℕ) (hk : 1 ≤ k) (b : ℚ) (m n : M) (ha : d.r[k]? = some (R.fl (r - shift))) (hb : d.r[k + 1]? = some b)
    (hm : d.msdf[k]? = some m) (hn : d.msdf[k + 1]? = some n) (hadm : Admitted d (R.fl (r - shift))) :
    ∃ v, distR R ev d r p shift = .ok v ∧ |v - ev m p| ≤ ((1 + u) ^ 2 - 1) * |ev m p| := by
  have hab : R.fl (r - shift) < b := by
    have lk1 := lt_of_getElem? hb
    rw [List.getElem?_eq_getElem (by omega)] at ha
    rw [List.getElem?_eq_getElem lk1] at hb
    injection ha with ha
    injection hb with hb
    rw [← ha, ← hb]
    exact List.pairwise_iff_getElem.mp hd.inc _ _ _ _ (by omega)
  rw [distR_mid R ev d hd r shift p k hk _ b m n ha hb hm hn le_rfl hab hadm]
  exact lerpR_node R hu hab

theorem rndBits_int (m : ℤ) (h : |m| ≤ 2 ^ 53) : (rndBits 52).fl m = m := by
  have := flBits_exact 52 (e := 0) (m := m) h
  simpa [rndBits] using this

/-- The premises of the two theorems are met. -/
example : GoodGrid (M := Unit) ⟨[1, 2, 4], [(), (), ()], 1, 4, false⟩ ∧ (rndBits 52).fl (2 - 0) = 2 ∧
    Admitted (M := Unit) (K := ℚ) ⟨[1, 2, 4], [(), (), ()], 1, 4, false⟩ 2 := by
  refine ⟨⟨by simp, by simp, by simp, by simp⟩, ?_, Or.inr ⟨by norm_num, by norm_num⟩⟩
  have := rndBits_int 2 (by norm_num)
  simpa using this

/-- **C56** At a radius of the grid the value inserted there does not come out exactly: with 0.9 (the
`double` next to it) at the radius 2 the number before it comes out. -/
theorem C56_refuted_rounded :
    distR (rndBits 52) (fun (m : ℚ) (_ : Unit) => m) ⟨[1, 2, 11], [0, 8106479329266893 * 2 ^ (-53 : ℤ), 0], 1, 11, false⟩ 2 () 0 =
      .ok (8106479329266892 * 2 ^ (-53 : ℤ)) := by
  have i2 : (rndBits 52).fl 2 = 2 := by have := rndBits_int 2 (by norm_num); simpa using this
  have i3 : (rndBits 52).fl 9 = 9 := by have := rndBits_int 9 (by norm_num); simpa using this
  rw [distR_mid (rndBits 52) _ _ ⟨by norm_num, by simp, by simp, by simp⟩ 2 0 () 1 (by norm_num) 2 11
    (8106479329266893 * 2 ^ (-53 : ℤ)) 0 rfl rfl rfl rfl (by rw [sub_zero, i2]) (by rw [sub_zero, i2]; norm_num)
    (Or.inr ⟨by rw [sub_zero, i2]; norm_num, by rw [sub_zero, i2]; norm_num⟩)]
  rw [sub_zero, i2]
  unfold lerpR
  rw [show (11 : ℚ) - 2 = 9 by norm_num, i3, if_neg (by norm_num), sub_self, mul_zero, (rndBits 52).fl_zero, add_zero, (rndBits 52).idem]
  have e1 : (rndBits 52).fl (9 * (8106479329266893 * 2 ^ (-53 : ℤ))) = 4559894622712627 * 2 ^ (-49 : ℤ) := by
    have := flBits_eq 52 (x := 9 * (8106479329266893 * 2 ^ (-53 : ℤ))) (e := -49) (m := 4559894622712627)
      (by norm_num) (by norm_num) (by norm_num)
    exact_mod_cast this
  have e2 : (rndBits 52).fl (4559894622712627 * 2 ^ (-49 : ℤ) / 9) = 8106479329266892 * 2 ^ (-53 : ℤ) := by
    have := flBits_eq 52 (x := 4559894622712627 * 2 ^ (-49 : ℤ) / 9) (e := -53) (m := 8106479329266892)
      (by norm_num) (by norm_num) (by norm_num)
    exact_mod_cast this
  rw [e1, e2]

/-- **C56** In the first interval a value below zero comes out of values that are not negative: the
line is continued to radius zero and back. -/
theorem C56_refuted_rounded_first :
    distR (rndBits 52) (fun (m : ℚ) (_ : Unit) => m) ⟨[1, 27], [1, 0], 1, 27, false⟩ 27 () 0 = .ok (-1 / 2 ^ 48) := by
  have iz : ∀ m : ℤ, |m| ≤ 2 ^ 53 → (rndBits 52).fl m = m := rndBits_int
  have i1 : (rndBits 52).fl 1 = 1 := by have := iz 1 (by norm_num); simpa using this
  have i27 : (rndBits 52).fl 27 = 27 := by have := iz 27 (by norm_num); simpa using this
  have i26 : (rndBits 52).fl 26 = 26 := by have := iz 26 (by norm_num); simpa using this
  have j26 : (rndBits 52).fl (-26) = -26 := by have := iz (-26) (by norm_num); simpa using this
  have e1 : (rndBits 52).fl (27 / 26) = 4676814997653977 * 2 ^ (-52 : ℤ) := by
    have := flBits_eq 52 (x := 27 / 26) (e := -52) (m := 4676814997653977) (by norm_num) (by norm_num) (by norm_num)
    exact_mod_cast this
  have e2 : (rndBits 52).fl (-26 * (4676814997653977 * 2 ^ (-52 : ℤ))) = -7599824371187713 * 2 ^ (-48 : ℤ) := by
    have := flBits_eq 52 (x := -26 * (4676814997653977 * 2 ^ (-52 : ℤ))) (e := -48) (m := -7599824371187713)
      (by norm_num) (by norm_num) (by norm_num)
    exact_mod_cast this
  have e3 : (rndBits 52).fl (-1 / 2 ^ 48) = -1 / 2 ^ 48 := by
    have := flBits_exact 52 (e := -48) (m := -1) (by norm_num)
    simp only [rndBits]
    norm_num at this ⊢
    exact this
  have hf : findNearest (K := ℚ) [1, 27] 27 = some 0 := by decide +kernel
  unfold distR
  simp only [sub_zero, i27]
  rw [if_neg (by norm_num), hf]
  simp only [evalFirstR, List.length_cons, List.length_nil, List.getElem?_cons_zero, List.getElem?_cons_succ]
  rw [if_neg (by norm_num), if_pos le_rfl]
  rw [show (27 : ℚ) - 1 = 26 by norm_num, i26, if_neg (by norm_num), mul_one, i27, mul_zero, (rndBits 52).fl_zero, sub_zero, i27, e1]
  unfold lerpR
  rw [sub_zero, i1, if_neg one_ne_zero, show (1 : ℚ) - 27 = -26 by norm_num, j26, e2, sub_zero, i27, mul_one, i27, div_one]
  rw [show (-7599824371187713 * 2 ^ (-48 : ℤ) + 27 : ℚ) = -1 / 2 ^ 48 by norm_num, e3, e3]

end

/-! ### C63 -/

/-- **C63** Without rounding this is the linear profile of the exact model. -/
theorem C63_rounded_exact (rmin rmax r shift : ℚ) (h : rmin < rmax) :
    ∃ q, Dist.Profile.mkLinear (rmin : ℝ) (rmax : ℝ) = some q ∧
      q.eval (r : ℝ) (shift : ℝ) = some ((linearR exactRnd rmin rmax r shift : ℚ) : ℝ) := by
  refine ⟨_, if_neg (by push Not; exact_mod_cast h), ?_⟩
  have e : ((r : ℝ) - shift ≥ rmax ∨ (r : ℝ) - shift < rmin) ↔ (r - shift ≥ rmax ∨ r - shift < rmin) := by
    norm_cast
  simp only [Dist.Profile.eval]
  by_cases hc : r - shift ≥ rmax ∨ r - shift < rmin
  · have hL : linearR exactRnd rmin rmax r shift = 0 := if_pos hc
    rw [if_pos (e.mpr hc), hL, Rat.cast_zero]
  · have hL : linearR exactRnd rmin rmax r shift = 1 - (r - shift - rmin) * (1 / (rmax - rmin)) := if_neg hc
    rw [if_neg (fun h' => hc (e.mp h')), hL]
    push_cast
    rfl

/-- **C63** With rounding the linear profile is still zero outside, one at the inner edge, between zero
and one, and does not increase.  `ht` is the tie at one: it goes to the even number. -/
theorem C63_rounded {u : ℚ} (R : Rnd u) (hu : u < 1) (h1 : R.Is 1) (ht : R.fl (1 + u) = 1) (rmin rmax : ℚ) (h : rmin < rmax) :
    (∀ r s, R.fl (r - s) < rmin ∨ rmax ≤ R.fl (r - s) → linearR R rmin rmax r s = 0) ∧
      (∀ r s, R.fl (r - s) = rmin → linearR R rmin rmax r s = 1) ∧
      (∀ r s, 0 ≤ linearR R rmin rmax r s ∧ linearR R rmin rmax r s ≤ 1) ∧
      (∀ r s r' s', rmin ≤ R.fl (r - s) → R.fl (r - s) ≤ R.fl (r' - s') → linearR R rmin rmax r' s' ≤ linearR R rmin rmax r s) := by
  have hD : 0 < R.fl (rmax - rmin) := R.fl_pos hu (by linarith)
  have hd : 0 ≤ R.fl (1 / R.fl (rmax - rmin)) := R.fl_nonneg (by positivity)
  have hin : ∀ x, rmin ≤ x → x < rmax → 0 ≤ R.fl (R.fl (x - rmin) * R.fl (1 / R.fl (rmax - rmin))) ∧
      R.fl (R.fl (x - rmin) * R.fl (1 / R.fl (rmax - rmin))) ≤ 1 := by
    intro x h2 h3
    have x0 := R.fl_nonneg (sub_nonneg.mpr h2)
    refine ⟨R.fl_nonneg (mul_nonneg x0 hd), ?_⟩
    refine le_trans (R.mono _ (1 + u) ?_) ht.le
    have a1 : R.fl (x - rmin) ≤ R.fl (rmax - rmin) := R.mono _ _ (by linarith)
    have a2 : R.fl (1 / R.fl (rmax - rmin)) ≤ (1 + u) * (1 / R.fl (rmax - rmin)) := R.fl_le (by positivity)
    calc R.fl (x - rmin) * R.fl (1 / R.fl (rmax - rmin))
        ≤ R.fl (rmax - rmin) * ((1 + u) * (1 / R.fl (rmax - rmin))) := mul_le_mul a1 a2 hd hD.le
      _ = 1 + u := by field_simp
  have hval : ∀ x, rmin ≤ x → x < rmax → 0 ≤ R.fl (1 - R.fl (R.fl (x - rmin) * R.fl (1 / R.fl (rmax - rmin)))) ∧
      R.fl (1 - R.fl (R.fl (x - rmin) * R.fl (1 / R.fl (rmax - rmin)))) ≤ 1 := by
    intro x h2 h3
    obtain ⟨h4, h5⟩ := hin x h2 h3
    exact ⟨R.fl_nonneg (by linarith), R.fl_le_of h1 (by linarith)⟩
  refine ⟨?_, ?_, ?_, ?_⟩
  · intro r s hx
    exact if_pos hx.symm
  · intro r s hx
    unfold linearR
    simp only [hx]
    rw [if_neg (by push Not; exact ⟨h, le_rfl⟩), sub_self, R.fl_zero, zero_mul, R.fl_zero, sub_zero, h1]
  · intro r s
    unfold linearR
    simp only
    split_ifs with hx
    · exact ⟨le_rfl, zero_le_one⟩
    · push Not at hx
      exact hval _ hx.2 hx.1
  · intro r s r' s' h2 h3
    unfold linearR
    simp only
    split_ifs with hx hy hy
    · exact le_rfl
    · push Not at hy
      exact (hval _ hy.2 hy.1).1
    · push Not at hx
      rcases hy with hy | hy
      · exfalso; linarith [hx.1]
      · exfalso; linarith
    · apply R.mono
      have := R.mono _ _ (mul_le_mul_of_nonneg_right (R.mono _ _ (sub_le_sub_right h3 rmin)) hd)
      linarith

/-- Half a unit in the last place after one goes back to one. -/
theorem flBits_tie (p : ℕ) (hp : 1 ≤ p) : flBits p (1 + 1 / 2 / 2 ^ p) = 1 := by
  have hpp : (1 : ℚ) ≤ 2 ^ p := one_le_pow₀ (by norm_num)
  have hx : |(1 + 1 / 2 / 2 ^ p : ℚ)| = 1 + 1 / 2 / 2 ^ p := abs_of_pos (by positivity)
  have hlt : (1 / 2 / 2 ^ p : ℚ) < 1 := by
    rw [div_lt_one (by positivity)]
    linarith
  have hpos : (0 : ℚ) < 1 / 2 / 2 ^ p := by positivity
  have hlog : Int.log 2 (1 + 1 / 2 / 2 ^ p : ℚ) = 0 := by
    apply le_antisymm
    · have := (Int.lt_zpow_iff_log_lt (b := 2) (by norm_num) (x := 1) (r := (1 + 1 / 2 / 2 ^ p : ℚ)) (by linarith)).1
        (by norm_num; norm_num at hlt; linarith)
      omega
    · exact (Int.zpow_le_iff_le_log (b := 2) (by norm_num) (by linarith)).1 (by rw [zpow_zero]; linarith)
  have hl : lastExp p (1 + 1 / 2 / 2 ^ p) = -p := by
    unfold lastExp
    rw [hx, hlog]
    ring
  unfold flBits
  rw [hl, zpow_neg, zpow_natCast]
  have e : (1 + 1 / 2 / 2 ^ p : ℚ) / (2 ^ p)⁻¹ = 2 ^ p + 1 / 2 := by field_simp
  rw [e]
  have hf : ⌊(2 ^ p + 1 / 2 : ℚ)⌋ = 2 ^ p := by
    rw [Int.floor_eq_iff]
    push_cast
    constructor <;> linarith
  have he : (2 ^ p : ℤ) % 2 = 0 := by
    obtain ⟨q, rfl⟩ : ∃ q, p = q + 1 := ⟨p - 1, by omega⟩
    rw [pow_succ]
    omega
  have hr : rne (2 ^ p + 1 / 2) = 2 ^ p := by
    unfold rne
    rw [hf]
    push_cast
    rw [if_neg (by linarith), if_neg (by linarith), if_pos he]
  rw [hr]
  push_cast
  field_simp

/-- **C63** In `double` precision the premises of `C63_rounded` hold. -/
theorem C63_rounded_double (rmin rmax : ℚ) (h : rmin < rmax) (r s : ℚ) :
    0 ≤ linearR (rndBits 52) rmin rmax r s ∧ linearR (rndBits 52) rmin rmax r s ≤ 1 := by
  have h1 : (rndBits 52).Is 1 := by
    have := rndBits_int 1 (by norm_num)
    simpa [Rnd.Is] using this
  exact (C63_rounded (rndBits 52) (by norm_num) h1 (flBits_tie 52 (by norm_num)) rmin rmax h).2.2.1 r s

end Softlib
