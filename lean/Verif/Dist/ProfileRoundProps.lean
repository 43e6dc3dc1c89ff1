/-
C145: the radial profiles in floating point.
-/
import Verif.Dist.ProfileRoundModel
import Verif.Dist.ProfileProps
import Verif.Dist.BesselProps
import Verif.Dist.FormulaRoundProps
import Verif.General.RoundProps

namespace Softlib
open Softlib.General Softlib.Dist Finset

noncomputable section

/-! ### shape -/

section
variable {u : ℚ} (R : Rnd u)

theorem powerArg_zero (rmin rmax : ℚ) : powerArg R rmin rmax rmin = 0 := by
  unfold powerArg; rw [sub_self, R.fl_zero, zero_mul, R.fl_zero]

theorem powerArg_mono (hu : u < 1) {rmin rmax x y : ℚ} (h : rmin < rmax) (hxy : x ≤ y) : powerArg R rmin rmax x ≤ powerArg R rmin rmax y := by
  have hD : 0 < R.fl (rmax - rmin) := R.fl_pos hu (by linarith)
  have hd : 0 ≤ R.fl (1 / R.fl (rmax - rmin)) := R.fl_nonneg (by positivity)
  exact R.mono _ _ (mul_le_mul_of_nonneg_right (R.mono _ _ (sub_le_sub_right hxy rmin)) hd)

/-- The argument of `pow` is between zero and one. -/
theorem powerArg_range (hu : u < 1) (ht : R.fl (1 + u) = 1) {rmin rmax x : ℚ} (h2 : rmin ≤ x) (h3 : x < rmax) :
    0 ≤ powerArg R rmin rmax x ∧ powerArg R rmin rmax x ≤ 1 := by
  have hD : 0 < R.fl (rmax - rmin) := R.fl_pos hu (by linarith)
  have hd : 0 ≤ R.fl (1 / R.fl (rmax - rmin)) := R.fl_nonneg (by positivity)
  have x0 := R.fl_nonneg (sub_nonneg.mpr h2)
  refine ⟨R.fl_nonneg (mul_nonneg x0 hd), ?_⟩
  refine le_trans (R.mono _ (1 + u) ?_) ht.le
  have a1 : R.fl (x - rmin) ≤ R.fl (rmax - rmin) := R.mono _ _ (by linarith)
  have a2 : R.fl (1 / R.fl (rmax - rmin)) ≤ (1 + u) * (1 / R.fl (rmax - rmin)) := R.fl_le (by positivity)
  calc R.fl (x - rmin) * R.fl (1 / R.fl (rmax - rmin))
      ≤ R.fl (rmax - rmin) * ((1 + u) * (1 / R.fl (rmax - rmin))) := mul_le_mul a1 a2 hd hD.le
    _ = 1 + u := by field_simp

/-- A profile as evaluated in floating point: zero where `r - shift`, rounded, is outside, `top` at the inner edge, between zero and `top`,
and not increasing. -/
def RoundedCutOff (f : ℚ → ℚ → ℚ) (rmin rmax top : ℚ) : Prop :=
  (∀ r s, R.fl (r - s) < rmin ∨ rmax ≤ R.fl (r - s) → f r s = 0) ∧
    (∀ r s, R.fl (r - s) = rmin → f r s = top) ∧
    (∀ r s, 0 ≤ f r s ∧ f r s ≤ top) ∧
    (∀ r s r' s', rmin ≤ R.fl (r - s) → R.fl (r - s) ≤ R.fl (r' - s') → f r' s' ≤ f r s)

/-- What has to be shown about the values inside. -/
theorem roundedCutOff_of (g : ℚ → ℚ) (rmin rmax top : ℚ) (h : rmin < rmax) (h0 : 0 ≤ top) (he : g rmin = top)
    (hr : ∀ x, rmin ≤ x → x < rmax → 0 ≤ g x ∧ g x ≤ top) (hm : ∀ x y, rmin ≤ x → x ≤ y → y < rmax → g y ≤ g x) :
    RoundedCutOff R (fun r s => if R.fl (r - s) ≥ rmax ∨ R.fl (r - s) < rmin then 0 else g (R.fl (r - s))) rmin rmax top := by
  refine ⟨?_, ?_, ?_, ?_⟩
  · intro r s hx
    exact if_pos hx.symm
  · intro r s hx
    simp only [hx]
    rw [if_neg (by push Not; exact ⟨h, le_rfl⟩), he]
  · intro r s
    simp only
    split_ifs with hx
    · exact ⟨le_rfl, h0⟩
    · push Not at hx
      exact hr _ hx.2 hx.1
  · intro r s r' s' h2 h3
    simp only
    split_ifs with hx hy hy
    · exact le_rfl
    · push Not at hy
      exact (hr _ hy.2 hy.1).1
    · push Not at hx
      rcases hy with hy | hy
      · exfalso; linarith [hx.1]
      · exfalso; linarith
    · push Not at hx
      exact hm _ _ h2 h3 hx.1

/-- **C145** With a `pow` that is monotone between zero and one and exact at both ends, the power profile is zero outside, one at the inner
edge, between zero and one, and does not increase. -/
theorem C145_power (hu : u < 1) (h1 : R.Is 1) (ht : R.fl (1 + u) = 1) (pw : ℚ → ℚ → ℚ) (rmin rmax b : ℚ) (h : rmin < rmax)
    (p0 : pw 0 b = 0) (p1 : pw 1 b = 1) (pm : ∀ x y, 0 ≤ x → x ≤ y → y ≤ 1 → pw x b ≤ pw y b) :
    RoundedCutOff R (powerR R pw rmin rmax b) rmin rmax 1 := by
  refine roundedCutOff_of R (fun x => R.fl (1 - pw (powerArg R rmin rmax x) b)) rmin rmax 1 h zero_le_one ?_ ?_ ?_
  · simp only [powerArg_zero, p0, sub_zero]; exact h1
  · intro x h2 h3
    obtain ⟨a0, a1⟩ := powerArg_range R hu ht h2 h3
    have q0 := pm 0 _ le_rfl a0 a1
    have q1 := pm _ 1 a0 a1 le_rfl
    rw [p0] at q0
    rw [p1] at q1
    exact ⟨R.fl_nonneg (by linarith), R.fl_le_of h1 (by linarith)⟩
  · intro x y h2 h3 h4
    have a0 := (powerArg_range R hu ht h2 (lt_of_le_of_lt h3 h4)).1
    have a1 := (powerArg_range R hu ht (le_trans h2 h3) h4).2
    exact R.mono _ _ (by linarith [pm _ _ a0 (powerArg_mono R hu h h3) a1])

theorem j0ZeroR_nonneg : 0 ≤ j0ZeroR R := R.fl_nonneg (by norm_num)

theorem besselArg_mono (hu : u < 1) {rmin rmax x y : ℚ} (h : rmin < rmax) (hxy : x ≤ y) : besselArg R rmin rmax x ≤ besselArg R rmin rmax y := by
  have hD : 0 < R.fl (rmax - rmin) := R.fl_pos hu (by linarith)
  refine R.mono _ _ (mul_le_mul_of_nonneg_right (R.mono _ _ ?_) (j0ZeroR_nonneg R))
  exact div_le_div_of_nonneg_right (R.mono _ _ (sub_le_sub_right hxy rmin)) hD.le

/-- The argument of the Bessel function is at most the constant. -/
theorem besselArg_range (hu : u < 1) (h1 : R.Is 1) {rmin rmax x : ℚ} (h2 : rmin ≤ x) (h3 : x < rmax) :
    0 ≤ besselArg R rmin rmax x ∧ besselArg R rmin rmax x ≤ j0ZeroR R := by
  have hD : 0 < R.fl (rmax - rmin) := R.fl_pos hu (by linarith)
  have x0 := R.fl_nonneg (sub_nonneg.mpr h2)
  have q0 : 0 ≤ R.fl (R.fl (x - rmin) / R.fl (rmax - rmin)) := R.fl_nonneg (div_nonneg x0 hD.le)
  have q1 : R.fl (R.fl (x - rmin) / R.fl (rmax - rmin)) ≤ 1 :=
    R.fl_le_of h1 ((div_le_one hD).2 (R.mono _ _ (by linarith)))
  exact ⟨R.fl_nonneg (mul_nonneg q0 (j0ZeroR_nonneg R)),
    R.fl_le_of (R.idem _) (mul_le_of_le_one_left (j0ZeroR_nonneg R) q1)⟩

/-- **C145** With a Bessel function that is one at zero, does not increase up to the constant and is not negative there, the Bessel profile
is zero outside, one at the inner edge, between zero and one, and does not increase. -/
theorem C145_bessel (hu : u < 1) (h1 : R.Is 1) (J : ℚ → ℚ) (rmin rmax : ℚ) (h : rmin < rmax)
    (j0 : J 0 = 1) (jz : 0 ≤ J (j0ZeroR R)) (jm : ∀ x y, 0 ≤ x → x ≤ y → y ≤ j0ZeroR R → J y ≤ J x) :
    RoundedCutOff R (besselR R J rmin rmax) rmin rmax 1 := by
  refine roundedCutOff_of R (fun x => J (besselArg R rmin rmax x)) rmin rmax 1 h zero_le_one ?_ ?_ ?_
  · have : besselArg R rmin rmax rmin = 0 := by
      unfold besselArg; rw [sub_self, R.fl_zero, zero_div, R.fl_zero, zero_mul, R.fl_zero]
    simp only [this, j0]
  · intro x h2 h3
    obtain ⟨a0, a1⟩ := besselArg_range R hu h1 h2 h3
    have q0 := jm 0 _ le_rfl a0 a1
    have q1 := jm _ _ a0 a1 le_rfl
    rw [j0] at q0
    exact ⟨le_trans jz q1, q0⟩
  · intro x y h2 h3 h4
    have a0 := (besselArg_range R hu h1 h2 (lt_of_le_of_lt h3 h4)).1
    have a1 := (besselArg_range R hu h1 (le_trans h2 h3) h4).2
    exact jm _ _ a0 (besselArg_mono R hu h h3) a1

theorem gaussArg_nonpos (hu : u < 1) (b c x : ℚ) : gaussArg R b c x ≤ 0 := by
  have hc : 0 ≤ R.fl (c * c) := R.fl_nonneg (mul_self_nonneg c)
  refine R.fl_nonpos (div_nonpos_of_nonpos_of_nonneg (R.fl_nonpos ?_) hc)
  nlinarith [mul_self_nonneg (R.fl (x - b))]

theorem gaussArg_anti {b c x y : ℚ} (h : |R.fl (x - b)| ≤ |R.fl (y - b)|) : gaussArg R b c y ≤ gaussArg R b c x := by
  have hc : 0 ≤ R.fl (c * c) := R.fl_nonneg (mul_self_nonneg c)
  refine R.mono _ _ (div_le_div_of_nonneg_right (R.mono _ _ ?_) hc)
  have := sq_le_sq.2 h
  nlinarith

/-- Farther away on the same side. -/
theorem gaussDist {b x y : ℚ} (h : b ≤ x ∧ x ≤ y ∨ y ≤ x ∧ x ≤ b) : |R.fl (x - b)| ≤ |R.fl (y - b)| := by
  rcases h with ⟨h1, h2⟩ | ⟨h1, h2⟩
  · have a := R.fl_nonneg (sub_nonneg.2 h1)
    have m := R.mono _ _ (sub_le_sub_right h2 b)
    rw [abs_of_nonneg a, abs_of_nonneg (le_trans a m)]; exact m
  · have a := R.fl_nonpos (sub_nonpos.2 h2)
    have m := R.mono _ _ (sub_le_sub_right h1 b)
    rw [abs_of_nonpos a, abs_of_nonpos (le_trans m a)]; linarith

/-- **C145** With a monotone `exp` that is one at zero and not negative, the Gaussian profile is zero outside, between zero and `a`, equal
to `a` at the centre, and on each side of the centre it does not increase away from it. -/
theorem C145_gaussian (hu : u < 1) (ex : ℚ → ℚ) (e0 : ex 0 = 1) (ep : ∀ x, 0 ≤ ex x) (em : ∀ x y, x ≤ y → y ≤ 0 → ex x ≤ ex y)
    (rmin rmax a b c : ℚ) (ha : 0 < a) (hia : R.Is a) :
    (∀ r s, R.fl (r - s) < rmin ∨ rmax ≤ R.fl (r - s) → gaussianR R ex rmin rmax a b c r s = 0) ∧
      (∀ r s, R.fl (r - s) = b → rmin ≤ b → b < rmax → gaussianR R ex rmin rmax a b c r s = a) ∧
      (∀ r s, 0 ≤ gaussianR R ex rmin rmax a b c r s ∧ gaussianR R ex rmin rmax a b c r s ≤ a) ∧
      (∀ r s r' s', rmin ≤ R.fl (r - s) → R.fl (r - s) < rmax →
        (b ≤ R.fl (r - s) ∧ R.fl (r - s) ≤ R.fl (r' - s') ∨ R.fl (r' - s') ≤ R.fl (r - s) ∧ R.fl (r - s) ≤ b) →
        gaussianR R ex rmin rmax a b c r' s' ≤ gaussianR R ex rmin rmax a b c r s) := by
  have hval : ∀ x, 0 ≤ R.fl (a * ex (gaussArg R b c x)) ∧ R.fl (a * ex (gaussArg R b c x)) ≤ a := by
    intro x
    have h1 := em _ 0 (gaussArg_nonpos R hu b c x) le_rfl
    rw [e0] at h1
    exact ⟨R.fl_nonneg (mul_nonneg ha.le (ep _)), R.fl_le_of hia (mul_le_of_le_one_right ha.le h1)⟩
  refine ⟨fun r s hx => if_pos hx.symm, ?_, ?_, ?_⟩
  · intro r s hx h2 h3
    unfold gaussianR
    simp only [hx]
    have : gaussArg R b c b = 0 := by
      unfold gaussArg; rw [sub_self, R.fl_zero, mul_zero, R.fl_zero, zero_div, R.fl_zero]
    rw [if_neg (by push Not; exact ⟨h3, h2⟩), this, e0, mul_one]; exact hia
  · intro r s
    unfold gaussianR
    simp only
    split_ifs with hx
    · exact ⟨le_rfl, ha.le⟩
    · exact hval _
  · intro r s r' s' h2 h3 h4
    unfold gaussianR
    simp only
    split_ifs with hx hy hy
    · exact le_rfl
    · exact (hval _).1
    · exfalso
      rcases hy with hy | hy <;> linarith
    · exact R.mono _ _ (mul_le_mul_of_nonneg_left (em _ _ (gaussArg_anti R (gaussDist R h4)) (gaussArg_nonpos R hu _ _ _)) ha.le)

/-! ### accuracy -/

/-- The rounding of a negative number. -/
theorem logNear_fl_neg (hu : (u : ℝ) ≤ 1 / 2) {B x : ℝ} {x' : ℚ} (h : LogNear B (-(x' : ℝ)) x) : LogNear (B + 2 * u) (-(R.fl x' : ℝ)) x := by
  have h1 := fl_relR R x'
  have hn : (x' : ℝ) < 0 := by linarith [h.2.1]
  rw [abs_of_neg hn] at h1
  have h2 : |(-(R.fl x' : ℝ)) - (-(x' : ℝ))| ≤ u * (-(x' : ℝ)) := by
    rw [show (-(R.fl x' : ℝ)) - (-(x' : ℝ)) = -((R.fl x' : ℝ) - x') by ring, abs_neg]; exact h1
  have := logNear_trans (logNear_of_abs h.2.1 h2 hu) h
  rwa [add_comm] at this

theorem logNear_rat {q : ℚ} (h : 0 < q) : LogNear 0 ((q : ℚ) : ℝ) (q : ℝ) := logNear_refl (by exact_mod_cast h)

theorem powerArg_near (hu : (u : ℝ) ≤ 1 / 2) {rmin rmax x : ℚ} (h : rmin < rmax) (hx : rmin < x) :
    LogNear (8 * u) (powerArg R rmin rmax x : ℝ) (((x : ℝ) - rmin) * (1 / ((rmax : ℝ) - rmin))) := by
  have a := logNear_fl R hu (logNear_rat (sub_pos.2 hx))
  have d := logNear_fl R hu (logNear_rat (sub_pos.2 h))
  have e := logNear_fl R hu (x' := 1 / R.fl (rmax - rmin)) (x := 1 / ((rmax - rmin : ℚ) : ℝ)) (B := 0 + (0 + 2 * u)) (by
    push_cast
    have := logNear_div (logNear_refl one_pos) d
    push_cast at this
    exact this)
  have f := logNear_fl R hu (x' := R.fl (x - rmin) * R.fl (1 / R.fl (rmax - rmin))) (by
    have := logNear_mul a e
    rw [← Rat.cast_mul] at this
    exact this)
  push_cast at f
  exact logNear_mono f (by ring_nf; exact le_rfl)

theorem logNear_rpow {B x' x b : ℝ} (hb : 0 ≤ b) (h : LogNear B x' x) : LogNear (b * B) (x' ^ b) (x ^ b) := by
  refine ⟨Real.rpow_pos_of_pos h.1 b, Real.rpow_pos_of_pos h.2.1 b, ?_⟩
  rw [Real.log_rpow h.2.1, Real.log_rpow h.1, ← mul_sub, abs_mul, abs_of_nonneg hb]
  exact mul_le_mul_of_nonneg_left h.2.2 hb

/-- **C145** The value of the power profile is within `16 b + 6` units of rounding of the exact profile at the same rounded radius, if
`pow` has a relative error of two units. -/
theorem C145_power_error (hu : (u : ℝ) ≤ 1 / 4) (ht : R.fl (1 + u) = 1) (pw : ℚ → ℚ → ℚ) (rmin rmax b : ℚ) (h : rmin < rmax) (hb : 0 < b)
    (hbu : 8 * b * u ≤ 1) (hp : ∀ x : ℚ, 0 ≤ x → x ≤ 1 → |(pw x b : ℝ) - (x : ℝ) ^ (b : ℝ)| ≤ 2 * u * (x : ℝ) ^ (b : ℝ)) (r s : ℚ) :
    ∃ q v, Profile.mkPower rmin rmax b = some q ∧ q.eval (R.fl (r - s) : ℝ) 0 = some v ∧
      |(powerR R pw rmin rmax b r s : ℝ) - v| ≤ (16 * b + 6) * u := by
  have hR : (rmin : ℝ) < rmax := by exact_mod_cast h
  have hu1 : u < 1 := by
    have : (u : ℝ) < 1 := by linarith
    exact_mod_cast this
  have u0 := rnd_unit_nonneg R
  have hbR : (0 : ℝ) < b := by exact_mod_cast hb
  have hbuR : 8 * (b : ℝ) * u ≤ 1 := by exact_mod_cast hbu
  refine ⟨.power rmin rmax b (1 / ((rmax : ℝ) - rmin)), ?_⟩
  rw [Profile.mkPower, if_neg (not_le.2 hR)]
  unfold powerR
  simp only [Profile.eval, sub_zero]
  set x := R.fl (r - s) with hx
  by_cases hc : x ≥ rmax ∨ x < rmin
  · have hcR : (x : ℝ) ≥ rmax ∨ (x : ℝ) < rmin := by
      rcases hc with hc | hc
      · exact Or.inl (by exact_mod_cast hc)
      · exact Or.inr (by exact_mod_cast hc)
    refine ⟨0, trivial, by rw [if_pos hcR], ?_⟩
    rw [if_pos hc]
    simp only [Rat.cast_zero, sub_zero, abs_zero]
    positivity
  have hcR : ¬((x : ℝ) ≥ rmax ∨ (x : ℝ) < rmin) := by
    rintro (h' | h')
    · exact hc (Or.inl (by exact_mod_cast h'))
    · exact hc (Or.inr (by exact_mod_cast h'))
  have hc2 := hc
  push Not at hc2
  obtain ⟨h3, h2⟩ := hc2
  obtain ⟨a0, a1⟩ := powerArg_range R hu1 ht h2 h3
  set A := ((x : ℝ) - rmin) * (1 / ((rmax : ℝ) - rmin)) with hA
  refine ⟨1 - A ^ (b : ℝ), trivial, ?_, ?_⟩
  · rw [if_neg hcR, cpow, if_neg (by rintro ⟨-, h'⟩; linarith)]
    rfl
  rw [if_neg hc]
  have h2R : (rmin : ℝ) ≤ x := by exact_mod_cast h2
  have h3R : (x : ℝ) < rmax := by exact_mod_cast h3
  have A0 : 0 ≤ A := mul_nonneg (by linarith) (one_div_nonneg.2 (by linarith))
  have A1 : A ≤ 1 := by
    rw [hA, mul_one_div, div_le_one (by linarith)]; linarith
  have Ab0 : 0 ≤ A ^ (b : ℝ) := Real.rpow_nonneg A0 _
  have Ab1 : A ^ (b : ℝ) ≤ 1 := Real.rpow_le_one A0 A1 hbR.le
  set p := powerArg R rmin rmax x with hpp
  have a0R : (0 : ℝ) ≤ p := by exact_mod_cast a0
  have a1R : (p : ℝ) ≤ 1 := by exact_mod_cast a1
  have k1 : |(p : ℝ) ^ (b : ℝ) - A ^ (b : ℝ)| ≤ 16 * b * u := by
    rcases h2.lt_or_eq with h2' | h2'
    · have n := logNear_abs (logNear_rpow hbR.le (powerArg_near R (by linarith) h h2')) (by linarith)
      rw [← hpp, ← hA] at n
      refine le_trans n ?_
      have : 2 * ((b : ℝ) * (8 * u)) * A ^ (b : ℝ) ≤ 2 * ((b : ℝ) * (8 * u)) * 1 := mul_le_mul_of_nonneg_left Ab1 (by positivity)
      linarith
    · have e1 : p = 0 := by rw [hpp, ← h2', powerArg_zero]
      have e2 : A = 0 := by rw [hA, ← h2', sub_self, zero_mul]
      rw [e1, e2]
      simp only [Rat.cast_zero, sub_self, abs_zero]
      positivity
  have k2 : |(pw p b : ℝ) - (p : ℝ) ^ (b : ℝ)| ≤ 2 * u := by
    refine le_trans (hp p a0 a1) ?_
    exact mul_le_of_le_one_right (by linarith) (Real.rpow_le_one a0R a1R hbR.le)
  have k3 : |((1 - pw p b : ℚ) : ℝ) - (1 - A ^ (b : ℝ))| ≤ (16 * b + 2) * u := by
    push_cast
    rw [show (1 - (pw p b : ℝ)) - (1 - A ^ (b : ℝ)) = -((pw p b : ℝ) - A ^ (b : ℝ)) by ring, abs_neg]
    have := abs_sub_le (pw p b : ℝ) ((p : ℝ) ^ (b : ℝ)) (A ^ (b : ℝ))
    linarith
  have k4 := fl_near_abs R k3 (A := 1) (by rw [abs_of_nonneg (by linarith)]; linarith)
  refine le_trans k4 ?_
  have : (16 * (b : ℝ) + 2) * u ≤ 3 := by linarith
  have := mul_le_mul_of_nonneg_left this u0
  linarith

theorem gaussArg_near (hu : (u : ℝ) ≤ 1 / 20) {b c x : ℚ} (hc : 0 < c) :
    |(gaussArg R b c x : ℝ) - (-((x : ℝ) - b) * ((x : ℝ) - b) / ((c : ℝ) * c))| ≤ 20 * u * (((x : ℝ) - b) ^ 2 / (c : ℝ) ^ 2) := by
  have u2 : (u : ℝ) ≤ 1 / 2 := by linarith
  by_cases hx : x = b
  · subst hx
    have : gaussArg R x c x = 0 := by
      unfold gaussArg; rw [sub_self, R.fl_zero, mul_zero, R.fl_zero, zero_div, R.fl_zero]
    rw [this]
    simp
  have hD : (x - b : ℚ) ≠ 0 := sub_ne_zero.2 hx
  have hDR : ((x : ℝ) - b) ≠ 0 := by exact_mod_cast hD
  have hcR : (0 : ℝ) < c := by exact_mod_cast hc
  have d : LogNear (2 * u) |((R.fl (x - b) : ℚ) : ℝ)| |(x : ℝ) - b| := by
    refine logNear_of_abs (abs_pos.2 hDR) ?_ u2
    refine le_trans (abs_abs_sub_abs_le_abs_sub _ _) ?_
    have := fl_relR R (x - b)
    push_cast at this
    exact this
  have m0 := logNear_mul d d
  rw [abs_mul_abs_self, abs_mul_abs_self] at m0
  have m := logNear_fl_neg R u2 (x' := -R.fl (x - b) * R.fl (x - b)) (by
    push_cast
    rw [neg_mul, neg_neg]
    exact m0)
  have k := logNear_fl R u2 (logNear_rat (mul_pos hc hc))
  have t := logNear_fl_neg R u2 (x' := R.fl (-R.fl (x - b) * R.fl (x - b)) / R.fl (c * c)) (by
    have := logNear_div m k
    rw [Rat.cast_div, ← neg_div]
    exact this)
  have t2 := logNear_abs t (by linarith)
  change |(-(gaussArg R b c x : ℝ)) - _| ≤ _ at t2
  push_cast at t2
  rw [show (gaussArg R b c x : ℝ) - (-((x : ℝ) - b) * ((x : ℝ) - b) / ((c : ℝ) * c)) =
    -(-(gaussArg R b c x : ℝ) - ((x : ℝ) - b) * ((x : ℝ) - b) / ((c : ℝ) * c)) by ring, abs_neg]
  refine le_trans t2 (le_of_eq ?_)
  rw [pow_two, pow_two]
  ring

/-- **C145** The logarithm of the value of the Gaussian profile is within `6 + 20 ((ρ - b) / c)²` units of rounding of that of the exact
profile at the same rounded radius. -/
theorem C145_gaussian_error {L : Magnetic.MathLib} (hL : GoodLib L u) (hu : (u : ℝ) ≤ 1 / 20) (rmin rmax a b c : ℚ) (h : rmin < rmax) (ha : 0 < a)
    (hb : 0 < b) (hc : 0 < c) (r s : ℚ) :
    ∃ q v, Profile.mkGaussian rmin rmax a b c = some q ∧ q.eval (R.fl (r - s) : ℝ) 0 = some v ∧
      (R.fl (r - s) < rmin ∨ rmax ≤ R.fl (r - s) → gaussianR R L.exp rmin rmax a b c r s = 0 ∧ v = 0) ∧
      (rmin ≤ R.fl (r - s) → R.fl (r - s) < rmax → 0 < v ∧ (0 : ℝ) < gaussianR R L.exp rmin rmax a b c r s ∧
        |Real.log (gaussianR R L.exp rmin rmax a b c r s) - Real.log v| ≤ (6 + 20 * (((R.fl (r - s) : ℝ) - b) ^ 2 / (c : ℝ) ^ 2)) * u) := by
  have hR : (rmin : ℝ) < rmax := by exact_mod_cast h
  have haR : (0 : ℝ) < a := by exact_mod_cast ha
  have hbR : (0 : ℝ) < b := by exact_mod_cast hb
  have hcR : (0 : ℝ) < c := by exact_mod_cast hc
  refine ⟨.gaussian rmin rmax a b c, ?_⟩
  rw [Profile.mkGaussian, if_neg (not_le.2 hR), if_neg (not_le.2 haR), if_neg (not_le.2 hbR), if_neg (not_le.2 hcR)]
  unfold gaussianR
  simp only [Profile.eval, sub_zero]
  set x := R.fl (r - s) with hx
  by_cases ho : x ≥ rmax ∨ x < rmin
  · have hoR : (x : ℝ) ≥ rmax ∨ (x : ℝ) < rmin := by
      rcases ho with ho | ho
      · exact Or.inl (by exact_mod_cast ho)
      · exact Or.inr (by exact_mod_cast ho)
    refine ⟨0, trivial, by rw [if_pos hoR], fun _ => ⟨if_pos ho, rfl⟩, ?_⟩
    intro h1 h2
    exfalso
    rcases ho with ho | ho <;> linarith
  have hoR : ¬((x : ℝ) ≥ rmax ∨ (x : ℝ) < rmin) := by
    rintro (h' | h')
    · exact ho (Or.inl (by exact_mod_cast h'))
    · exact ho (Or.inr (by exact_mod_cast h'))
  refine ⟨(a : ℝ) * Real.exp (-((x : ℝ) - b) * ((x : ℝ) - b) / ((c : ℝ) * c)), trivial, by rw [if_neg hoR], ?_, ?_⟩
  · intro h'
    exact absurd h'.symm ho
  intro h1 h2
  rw [if_neg ho]
  have e := lib_exp hL (by linarith) (gaussArg_near R hu (b := b) (x := x) hc)
  have m := logNear_fl R (by linarith) (x' := a * L.exp (gaussArg R b c x)) (by
    have := logNear_mul (logNear_rat ha) e
    rw [← Rat.cast_mul] at this
    exact this)
  refine ⟨m.1, m.2.1, le_trans m.2.2 (le_of_eq ?_)⟩
  ring

/-- J0 changes by at most a quarter of the change of the square of its argument. -/
theorem besselJ0_lip {x w : ℝ} (hx : 0 ≤ x) (hxw : x ≤ w) (hw : w ^ 2 / 4 ≤ 3 / 2) : |besselJ0 w - besselJ0 x| ≤ (w ^ 2 - x ^ 2) / 4 := by
  have hy : 0 ≤ x ^ 2 / 4 := by positivity
  have hyz : x ^ 2 / 4 ≤ w ^ 2 / 4 := by nlinarith
  have hz : 0 ≤ w ^ 2 / 4 := by positivity
  have hm : besselJ0 w ≤ besselJ0 x := by
    rcases hxw.lt_or_eq with h | h
    · exact (besselJ0_strictAnti hx h hw).le
    · rw [h]
  rw [abs_of_nonpos (by linarith), besselJ0_tail x, besselJ0_tail w]
  rw [show (w ^ 2 - x ^ 2) / 4 = w ^ 2 / 4 - x ^ 2 / 4 by ring]
  generalize x ^ 2 / 4 = y at *
  generalize w ^ 2 / 4 = z at *
  have s1 : Summable (fun k : ℕ => bTerm y (k + 1)) := (summable_nat_add_iff 1).mpr (bTerm_summable hy)
  have s2 : Summable (fun k : ℕ => bTerm z (k + 1)) := (summable_nat_add_iff 1).mpr (bTerm_summable hz)
  have s3 : Summable (fun k : ℕ => bTerm z (k + 1) - bTerm y (k + 1)) := s2.sub s1
  have h := (bDiff_antitone hy hyz hw).tendsto_le_alternating_series s3.tendsto_alternating_series_tsum 0
  have e : ∑' k : ℕ, (-1) ^ k * (bTerm z (k + 1) - bTerm y (k + 1)) =
      ∑' k : ℕ, (-1) ^ k * bTerm z (k + 1) - ∑' k : ℕ, (-1) ^ k * bTerm y (k + 1) := by
    rw [← s2.alternating.tsum_sub s1.alternating]
    congr 1
    funext k
    ring
  rw [e] at h
  generalize ∑' k : ℕ, (-1) ^ k * bTerm z (k + 1) = Z at h ⊢
  generalize ∑' k : ℕ, (-1) ^ k * bTerm y (k + 1) = Y at h ⊢
  simp only [mul_zero, zero_add, sum_range_one, bTerm, Nat.factorial] at h
  norm_num at h
  linarith

theorem besselArg_near (hu : (u : ℝ) ≤ 1 / 2) {rmin rmax x : ℚ} (h : rmin < rmax) (hx : rmin < x) :
    LogNear (10 * u) (besselArg R rmin rmax x : ℝ) (((x : ℝ) - rmin) / ((rmax : ℝ) - rmin) * j0Zero) := by
  have a := logNear_fl R hu (logNear_rat (sub_pos.2 hx))
  have d := logNear_fl R hu (logNear_rat (sub_pos.2 h))
  have z := logNear_fl R hu (logNear_rat (q := 240482555769577 / 100000000000000) (by norm_num))
  have e := logNear_fl R hu (x' := R.fl (x - rmin) / R.fl (rmax - rmin)) (by
    have := logNear_div a d
    rw [← Rat.cast_div] at this
    exact this)
  have f := logNear_fl R hu (x' := R.fl (R.fl (x - rmin) / R.fl (rmax - rmin)) * j0ZeroR R) (by
    have := logNear_mul e z
    rw [← Rat.cast_mul] at this
    exact this)
  have ez : (((240482555769577 / 100000000000000 : ℚ)) : ℝ) = j0Zero := by unfold j0Zero; norm_num
  rw [ez] at f
  push_cast at f
  exact logNear_mono f (by ring_nf; exact le_rfl)

/-- **C145** The value of the Bessel profile is within `δ` and sixty units of rounding of the exact profile at the same rounded radius,
where `δ` is the error of the Bessel function of the library. -/
theorem C145_bessel_error (hu : (u : ℝ) ≤ 1 / 100) (h1 : R.Is 1) (J : ℚ → ℚ) (δ : ℝ) (hδ : 0 ≤ δ) (rmin rmax : ℚ) (h : rmin < rmax)
    (hJ : ∀ x : ℚ, 0 ≤ x → x ≤ j0ZeroR R → |(J x : ℝ) - besselJ0 x| ≤ δ) (r s : ℚ) :
    ∃ q v, Profile.mkBessel rmin rmax = some q ∧ q.eval (R.fl (r - s) : ℝ) 0 = some v ∧
      |(besselR R J rmin rmax r s : ℝ) - v| ≤ δ + 60 * u := by
  have hR : (rmin : ℝ) < rmax := by exact_mod_cast h
  have u0 := rnd_unit_nonneg R
  have hu1 : u < 1 := by
    have : (u : ℝ) < 1 := by linarith
    exact_mod_cast this
  refine ⟨.bessel rmin rmax, ?_⟩
  rw [Profile.mkBessel, if_neg (not_le.2 hR)]
  unfold besselR
  simp only [Profile.eval, sub_zero]
  set x := R.fl (r - s) with hx
  by_cases hc : x ≥ rmax ∨ x < rmin
  · have hcR : (x : ℝ) ≥ rmax ∨ (x : ℝ) < rmin := by
      rcases hc with hc | hc
      · exact Or.inl (by exact_mod_cast hc)
      · exact Or.inr (by exact_mod_cast hc)
    refine ⟨0, trivial, by rw [if_pos hcR], ?_⟩
    rw [if_pos hc]
    simp only [Rat.cast_zero, sub_zero, abs_zero]
    positivity
  have hcR : ¬((x : ℝ) ≥ rmax ∨ (x : ℝ) < rmin) := by
    rintro (h' | h')
    · exact hc (Or.inl (by exact_mod_cast h'))
    · exact hc (Or.inr (by exact_mod_cast h'))
  have hc2 := hc
  push Not at hc2
  obtain ⟨h3, h2⟩ := hc2
  obtain ⟨a0, a1⟩ := besselArg_range R hu1 h1 h2 h3
  set A := ((x : ℝ) - rmin) / ((rmax : ℝ) - rmin) * j0Zero with hA
  refine ⟨besselJ0 A, trivial, by rw [if_neg hcR], ?_⟩
  rw [if_neg hc]
  have h2R : (rmin : ℝ) ≤ x := by exact_mod_cast h2
  have h3R : (x : ℝ) < rmax := by exact_mod_cast h3
  have jz : j0Zero ≤ 2405 / 1000 := by unfold j0Zero; norm_num
  have jp := j0Zero_pos
  have A0 : 0 ≤ A := mul_nonneg (div_nonneg (by linarith) (by linarith)) jp.le
  have A1 : A ≤ 2405 / 1000 := by
    refine le_trans (mul_le_of_le_one_left jp.le ?_) jz
    rw [div_le_one (by linarith)]; linarith
  have k0 := hJ _ a0 a1
  set p := besselArg R rmin rmax x with hp
  have p0 : (0 : ℝ) ≤ p := by exact_mod_cast a0
  have p1 : (p : ℝ) ≤ 243 / 100 := by
    have : (p : ℝ) ≤ j0ZeroR R := by exact_mod_cast a1
    have z := fl_relR R (240482555769577 / 100000000000000)
    change |(j0ZeroR R : ℝ) - _| ≤ _ at z
    rw [abs_of_pos (show (0 : ℝ) < ((240482555769577 / 100000000000000 : ℚ) : ℝ) by norm_num)] at z
    have := abs_le.1 z
    norm_num at this
    nlinarith
  have k1 : |(p : ℝ) - A| ≤ 481 / 10 * u := by
    rcases h2.lt_or_eq with h2' | h2'
    · have n := logNear_abs (besselArg_near R (by linarith) h h2') (by linarith)
      rw [← hp, ← hA] at n
      refine le_trans n ?_
      nlinarith
    · have e1 : p = 0 := by
        rw [hp, ← h2']
        unfold besselArg
        rw [sub_self, R.fl_zero, zero_div, R.fl_zero, zero_mul, R.fl_zero]
      have e2 : A = 0 := by rw [hA, ← h2', sub_self, zero_div, zero_mul]
      rw [e1, e2]
      simp only [Rat.cast_zero, sub_self, abs_zero]
      positivity
  have k2 : |besselJ0 p - besselJ0 A| ≤ 60 * u := by
    generalize (p : ℝ) = P at *
    rcases le_total A P with hle | hle
    · refine le_trans (besselJ0_lip A0 hle (by nlinarith)) ?_
      rw [abs_of_nonneg (by linarith)] at k1
      nlinarith
    · rw [abs_sub_comm]
      refine le_trans (besselJ0_lip p0 hle (by nlinarith)) ?_
      rw [abs_of_nonpos (by linarith)] at k1
      nlinarith
  have := abs_sub_le (J p : ℝ) (besselJ0 p) (besselJ0 A)
  linarith

end

/-! ### in double precision -/

theorem one_double : (rndBits 52).Is 1 := show (rndBits 52).fl 1 = 1 by decide +kernel

/-- **C145** In double precision the shape of the power and the Bessel profile is guaranteed by what the library promises. -/
theorem C145_double (pw : ℚ → ℚ → ℚ) (J : ℚ → ℚ) (rmin rmax b : ℚ) (h : rmin < rmax)
    (p0 : pw 0 b = 0) (p1 : pw 1 b = 1) (pm : ∀ x y, 0 ≤ x → x ≤ y → y ≤ 1 → pw x b ≤ pw y b)
    (j0 : J 0 = 1) (jz : 0 ≤ J (j0ZeroR (rndBits 52))) (jm : ∀ x y, 0 ≤ x → x ≤ y → y ≤ j0ZeroR (rndBits 52) → J y ≤ J x) :
    RoundedCutOff (rndBits 52) (powerR (rndBits 52) pw rmin rmax b) rmin rmax 1 ∧
      RoundedCutOff (rndBits 52) (besselR (rndBits 52) J rmin rmax) rmin rmax 1 :=
  ⟨C145_power _ (by norm_num) one_double (flBits_tie 52 (by norm_num)) pw rmin rmax b h p0 p1 pm,
    C145_bessel _ (by norm_num) one_double J rmin rmax h j0 jz jm⟩

/-- **C145** The bounds are absolute ones: just inside the outer edge the power profile with exponent one is exactly zero in double
precision although the exact profile is not, so the relative error is not bounded. -/
theorem C145_relative_needed (pw : ℚ → ℚ → ℚ) (p1 : pw 1 1 = 1) : ∃ r : ℚ, -1 ≤ r ∧ r < 1 ∧ (rndBits 52).fl (r - 0) = r ∧
    powerR (rndBits 52) pw (-1) 1 1 r 0 = 0 ∧ ∃ q v, Profile.mkPower (-1) 1 1 = some q ∧ q.eval r 0 = some v ∧ 0 < v := by
  have e1 : (rndBits 52).fl ((1 - 1 / 2 ^ 53 : ℚ) - 0) = 1 - 1 / 2 ^ 53 := by decide +kernel
  have e2 : powerArg (rndBits 52) (-1) 1 (1 - 1 / 2 ^ 53) = 1 := by decide +kernel
  refine ⟨1 - 1 / 2 ^ 53, by norm_num, by norm_num, e1, ?_, ?_⟩
  · unfold powerR
    simp only [e1, e2, p1]
    rw [if_neg (by norm_num), sub_self]
    exact (rndBits 52).fl_zero
  · refine ⟨.power (-1) 1 1 (1 / (1 - -1)), 1 - (((1 - 1 / 2 ^ 53 : ℚ) : ℝ) - 0 - -1) * (1 / (1 - -1)), ?_, ?_, ?_⟩
    · rw [Profile.mkPower, if_neg (by norm_num)]
    · simp only [Profile.eval]
      rw [if_neg (by norm_num), cpow, if_neg (by norm_num), Real.rpow_one]
      rfl
    · norm_num

/-- **C145** A `pow` that is only nearly right is not enough: with a result one unit in the last place above one, the profile is negative. -/
theorem C145_library_needed (pw : ℚ → ℚ → ℚ) (h : pw (1 / 2) (1 / 2 ^ 60) = 1 + 1 / 2 ^ 52) :
    powerR (rndBits 52) pw 0 1 (1 / 2 ^ 60) (1 / 2) 0 = -(1 / 2 ^ 52) := by
  have e1 : (rndBits 52).fl ((1 / 2 : ℚ) - 0) = 1 / 2 := by decide +kernel
  have e2 : powerArg (rndBits 52) 0 1 (1 / 2) = 1 / 2 := by decide +kernel
  have e3 : (rndBits 52).fl (1 - (1 + 1 / 2 ^ 52)) = -(1 / 2 ^ 52) := by decide +kernel
  unfold powerR
  simp only [e1, e2, h]
  rw [if_neg (by norm_num), e3]

/-- **C145** Because `r - shift` is rounded before the comparison, a particle that is inside by less than half a unit in the last place is
taken to be outside: where a Gaussian profile is cut off, its value jumps to zero. -/
theorem C145_edge_jump (ex : ℚ → ℚ) : ∃ r s : ℚ, (rndBits 52).fl r = r ∧ (rndBits 52).fl s = s ∧ 0 ≤ r - s ∧ r - s < 1 ∧
    gaussianR (rndBits 52) ex 0 1 1 1 1 r s = 0 ∧ ∃ q v, Profile.mkGaussian 0 1 1 1 1 = some q ∧ q.eval r s = some v ∧ 1 / 2 < v := by
  refine ⟨1, 1 / 2 ^ 60, by decide +kernel, by decide +kernel, by norm_num, by norm_num, ?_, ?_⟩
  · have e1 : (rndBits 52).fl (1 - 1 / 2 ^ 60) = 1 := by decide +kernel
    unfold gaussianR
    simp only [e1]
    rw [if_pos (Or.inl le_rfl)]
  · refine ⟨.gaussian 0 1 1 1 1, 1 * Real.exp (-(((1 : ℚ) : ℝ) - ((1 / 2 ^ 60 : ℚ) : ℝ) - 1) * (((1 : ℚ) : ℝ) - ((1 / 2 ^ 60 : ℚ) : ℝ) - 1) / (1 * 1)), ?_, ?_, ?_⟩
    · rw [Profile.mkGaussian]; norm_num
    · simp only [Profile.eval]
      rw [if_neg (by norm_num)]
    · rw [one_mul]
      refine lt_of_lt_of_le ?_ (Real.add_one_le_exp _)
      norm_num

/-- The premises of `C145_power` are met by the square and exact arithmetic, and the profile has the values of the square. -/
example : RoundedCutOff exactRnd (powerR exactRnd (fun x _ => x ^ 2) 1 3 2) 1 3 1 ∧ powerR exactRnd (fun x _ => x ^ 2) 1 3 2 4 2 = 3 / 4 := by
  refine ⟨C145_power exactRnd (by norm_num) rfl (by simp [exactRnd]) _ 1 3 2 (by norm_num) (by norm_num) (by norm_num)
    (fun x y h0 h _ => pow_le_pow_left₀ h0 h 2), ?_⟩
  unfold powerR powerArg exactRnd
  norm_num

/-- In double precision with the exponent one, where `pow` may return its argument. -/
example : RoundedCutOff (rndBits 52) (powerR (rndBits 52) (fun x _ => x) 0 (1 / 10) 1) 0 (1 / 10) 1 :=
  C145_power _ (by norm_num) one_double (flBits_tie 52 (by norm_num)) _ _ _ _ (by norm_num) rfl rfl (fun _ _ _ h _ => h)

example (r s : ℚ) : ∃ q v, Profile.mkPower (0 : ℚ) (1 / 10 : ℚ) (1 : ℚ) = some q ∧ q.eval ((rndBits 52).fl (r - s) : ℝ) 0 = some v ∧
    |(powerR (rndBits 52) (fun x _ => x) 0 (1 / 10) 1 r s : ℝ) - v| ≤ 22 / 2 ^ 53 := by
  obtain ⟨q, v, h1, h2, h3⟩ := C145_power_error (rndBits 52) (by norm_num) (flBits_tie 52 (by norm_num)) (fun x _ => x) 0 (1 / 10) 1
    (by norm_num) (by norm_num) (by norm_num) (fun x h0 _ => by
      have : (0 : ℝ) ≤ x := by exact_mod_cast h0
      rw [Rat.cast_one, Real.rpow_one, sub_self, abs_zero]
      positivity) r s
  refine ⟨q, v, h1, h2, le_trans h3 (by norm_num)⟩

/-- A library that is good enough for the Gaussian profile exists. -/
example : ∃ L : Magnetic.MathLib, GoodLib L (1 / 2 / 2 ^ 52) ∧ ∃ v : ℝ, 0 < v ∧
    |Real.log (gaussianR (rndBits 52) L.exp 0 2 3 1 1 1 (1 / 2)) - Real.log v| ≤ 11 / 2 ^ 53 := by
  obtain ⟨L, hL⟩ := goodLib_exists (u := 1 / 2 / 2 ^ 52) (by norm_num)
  obtain ⟨q, v, -, -, -, h4⟩ := C145_gaussian_error (rndBits 52) hL (by norm_num) 0 2 3 1 1 (by norm_num) (by norm_num) (by norm_num) (by norm_num) 1 (1 / 2)
  have e : (rndBits 52).fl (1 - 1 / 2) = 1 / 2 := by decide +kernel
  rw [e] at h4
  obtain ⟨h5, -, h7⟩ := h4 (by norm_num) (by norm_num)
  exact ⟨L, hL, v, h5, le_trans h7 (by norm_num)⟩

/-- Premises of `C145_gaussian` and `C145_bessel` met. -/
example : gaussianR (rndBits 52) (fun x => if x = 0 then 1 else 0) 0 2 3 1 1 (3 / 2) (1 / 2) = 3 :=
  (C145_gaussian (rndBits 52) (by norm_num) (fun x => if x = 0 then 1 else 0) rfl (fun x => by split_ifs <;> norm_num)
    (fun x y h1 h2 => by
      by_cases hy : y = 0
      · simp only [hy, if_true]; split_ifs <;> norm_num
      · have : x ≠ 0 := fun hx => hy (le_antisymm h2 (hx ▸ h1))
        simp [hy, this]) 0 2 3 1 1 (by norm_num) (show (rndBits 52).fl 3 = 3 by decide +kernel)).2.1 (3 / 2) (1 / 2)
    (by decide +kernel) (by norm_num) (by norm_num)

example : RoundedCutOff (rndBits 52) (besselR (rndBits 52) (fun x => if x = 0 then 1 else 0) 1 2) 1 2 1 :=
  C145_bessel _ (by norm_num) one_double _ 1 2 (by norm_num) rfl (by split_ifs <;> norm_num) (fun x y h0 h _ => by
    by_cases hx : x = 0
    · simp only [hx, if_true]; split_ifs <;> norm_num
    · have : y ≠ 0 := fun hy => hx (le_antisymm (hy ▸ h) h0)
      simp [hx, this])

/-- A Bessel function as good as `C145_bessel_error` asks for exists. -/
example (r s : ℚ) : ∃ J : ℚ → ℚ, ∃ q v, Profile.mkBessel (0 : ℚ) (1 : ℚ) = some q ∧ q.eval ((rndBits 52).fl (r - s) : ℝ) 0 = some v ∧
    |(besselR (rndBits 52) J 0 1 r s : ℝ) - v| ≤ 64 / 2 ^ 53 := by
  have key : ∀ x : ℚ, ∃ q : ℚ, |(q : ℝ) - besselJ0 x| ≤ 4 / 2 ^ 53 := by
    intro x
    obtain ⟨q, h1, h2⟩ := exists_rat_btwn (show besselJ0 x < besselJ0 x + 4 / 2 ^ 53 by linarith [show (0 : ℝ) < 4 / 2 ^ 53 by norm_num])
    exact ⟨q, by rw [abs_of_pos (by linarith)]; linarith⟩
  choose J hJ using key
  obtain ⟨q, v, h1, h2, h3⟩ := C145_bessel_error (rndBits 52) (by norm_num) one_double J (4 / 2 ^ 53) (by norm_num) 0 1 (by norm_num) (fun x _ _ => hJ x) r s
  exact ⟨J, q, v, h1, h2, le_trans h3 (by norm_num)⟩

end

end Softlib
