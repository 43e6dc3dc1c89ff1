/-
C141: rounding in the numeric magnetic field.
-/
import Verif.Magnetic.NumericRoundModel
import Verif.Magnetic.AnalyticRoundProps
import Verif.Magnetic.NumericProps
import Mathlib.Analysis.InnerProductSpace.PiL2

namespace Softlib
open Softlib.Magnetic Softlib.General

noncomputable section

/-- The exact grid with the limits of `g`, whose splines have everywhere the values that GSL returned at the computed
position. -/
def frozen (L : MathLib) (g : NGridR) (x y z : ℚ) : NGrid :=
  let at' (S : SplR) : Spl := ⟨fun _ _ => S.val (g.radius L x y) (g.height z), fun _ _ => S.dr (g.radius L x y) (g.height z),
    fun _ _ => S.dz (g.radius L x y) (g.height z)⟩
  ⟨g.rmin, g.rmax, g.zmin, g.zmax, at' g.br, at' g.bphi, at' g.bz, none⟩

/-- The radius of the point lies in the range of the grid. -/
def InRadii (g : NGridR) (x y : ℚ) : Prop := (g.rmin : ℝ) ≤ hyp x y ∧ hyp x y ≤ g.rmax

theorem within_between {G a c r : ℝ} (h : WithinF G a r) (hr : 0 ≤ r) (hc : (a ≤ c ∧ c ≤ r) ∨ (r ≤ c ∧ c ≤ a)) : WithinF G c r := by
  obtain ⟨g, θ, rfl, h1, h2⟩ := h
  rcases hr.eq_or_lt with h0 | h0
  · subst h0
    have : c = 0 := by rcases hc with ⟨p, q⟩ | ⟨p, q⟩ <;> linarith [mul_zero θ]
    rw [this]
    exact within_mono (within_refl 0) g
  · have hG : G⁻¹ ≤ 1 := inv_le_one_of_one_le₀ g
    refine ⟨g, c / r, (div_mul_cancel₀ _ h0.ne').symm, ?_, ?_⟩
    · rw [le_div_iff₀ h0]
      rcases hc with ⟨p, q⟩ | ⟨p, q⟩
      · exact le_trans (mul_le_mul_of_nonneg_right h1 h0.le) p
      · nlinarith
    · rw [div_le_iff₀ h0]
      rcases hc with ⟨p, q⟩ | ⟨p, q⟩
      · nlinarith
      · exact le_trans q (mul_le_mul_of_nonneg_right h2 h0.le)

section
variable {u : ℚ} (R : Rnd u) (L : MathLib) {H : ℝ} (g : NGridR) (x y z : ℚ)

/-- **C141** The radius at which the splines are evaluated is accurate. -/
theorem C141_radius (hL : AccurateHypot L H) (hr : InRadii g x y) : WithinF H (g.radius L x y : ℝ) (hyp x y) := by
  have h := hL x y
  have h0 := hyp_nonneg (x : ℝ) y
  obtain ⟨h1, h2⟩ := hr
  unfold NGridR.radius clampR
  split_ifs with c1 c2
  · have : (L.hypot x y : ℝ) < g.rmin := by exact_mod_cast c1
    exact within_between h h0 (Or.inl ⟨this.le, h1⟩)
  · have : (g.rmax : ℝ) < L.hypot x y := by exact_mod_cast c2
    exact within_between h h0 (Or.inr ⟨h2, this.le⟩)
  · exact h

/-- Sine and cosine in exact arithmetic. -/
def sinE (r y : ℝ) : ℝ := if r ≠ 0 then y / r else 0
def cosE (r x : ℝ) : ℝ := if r ≠ 0 then x / r else 1

theorem sinE_cosE (x y : ℝ) : sinE (hyp x y) y ^ 2 + cosE (hyp x y) x ^ 2 = 1 := by
  unfold sinE cosE
  by_cases h : hyp x y = 0
  · simp [h]
  · rw [if_pos h, if_pos h]
    have := hyp_mul_self x y
    field_simp
    linear_combination -this

theorem abs_sinE_le (x y : ℝ) : |sinE (hyp x y) y| ≤ 1 := by
  rw [← sq_le_one_iff_abs_le_one]; linarith [sinE_cosE x y, sq_nonneg (cosE (hyp x y) x)]

theorem abs_cosE_le (x y : ℝ) : |cosE (hyp x y) x| ≤ 1 := by
  rw [← sq_le_one_iff_abs_le_one]; linarith [sinE_cosE x y, sq_nonneg (sinE (hyp x y) y)]

variable {r' : ℚ} {r : ℝ}

theorem cast_ne_iff {G : ℝ} (h : WithinF G (r' : ℝ) r) : r' ≠ 0 ↔ r ≠ 0 := by
  rw [ne_eq, ne_eq, not_iff_not, ← within_eq_zero h]
  exact_mod_cast Iff.rfl

theorem sinR_within (hu : u < 1) (h : WithinF H (r' : ℝ) r) (y : ℚ) : WithinF (H * unitFactorR u) (sinR R r' y : ℝ) (sinE r y) := by
  unfold sinR sinE
  by_cases h0 : r = 0
  · have h0' : r' = 0 := not_not.1 fun e => (cast_ne_iff h).1 e h0
    rw [if_neg (not_not.2 h0), if_neg (not_not.2 h0'), Rat.cast_zero]
    exact within_mono (within_refl 0) (one_le_mul_of_one_le_of_one_le h.1 (fl_within R hu 1).1)
  · rw [if_pos h0, if_pos ((cast_ne_iff h).2 h0)]
    refine within_fl R hu ?_
    push_cast
    have := within_div (within_refl (y : ℝ)) h
    rwa [one_mul] at this

theorem cosR_within (hu : u < 1) (h : WithinF H (r' : ℝ) r) (x : ℚ) : WithinF (H * unitFactorR u) (cosR R r' x : ℝ) (cosE r x) := by
  unfold cosR cosE
  by_cases h0 : r = 0
  · have h0' : r' = 0 := not_not.1 fun e => (cast_ne_iff h).1 e h0
    rw [if_neg (not_not.2 h0), if_neg (not_not.2 h0'), Rat.cast_one]
    exact within_mono (within_refl 1) (one_le_mul_of_one_le_of_one_le h.1 (fl_within R hu 1).1)
  · rw [if_pos h0, if_pos ((cast_ne_iff h).2 h0)]
    refine within_fl R hu ?_
    push_cast
    have := within_div (within_refl (x : ℝ)) h
    rwa [one_mul] at this

/-- A rounded product of an accurate number and a given one. -/
theorem prodR_within (hu : u < 1) {G : ℝ} {a' : ℚ} {a : ℝ} (h : WithinF G (a' : ℝ) a) (b : ℚ) :
    WithinF (G * unitFactorR u) (R.fl (a' * b) : ℝ) (a * b) := by
  refine within_fl R hu ?_
  push_cast
  have := within_mul h (within_refl (b : ℝ))
  rwa [mul_one] at this

theorem prodR_within' (hu : u < 1) {G : ℝ} {a' : ℚ} {a : ℝ} (h : WithinF G (a' : ℝ) a) (b : ℚ) :
    WithinF (G * unitFactorR u) (R.fl (b * a') : ℝ) (b * a) := by
  rw [mul_comm b a', mul_comm (b : ℝ) a]
  exact prodR_within R hu h b

theorem within_neg {G a' a : ℝ} (h : WithinF G a' a) : WithinF G (-a') (-a) := by
  obtain ⟨g, θ, rfl, h1, h2⟩ := h
  exact ⟨g, θ, by ring, h1, h2⟩

/-- A rounded sum of two accurate numbers. -/
theorem sum2_approx (hu : u < 1) {K : ℝ} {a' b' : ℚ} {a b : ℝ} (ha : WithinF K (a' : ℝ) a) (hb : WithinF K (b' : ℝ) b) :
    Approx (K * unitFactorR u) (R.fl (a' + b') : ℝ) (a + b) (|a| + |b|) := by
  refine approx_fl R hu ?_
  push_cast
  exact approx_add (approx_of_within ha) (approx_of_within hb)

theorem sum2_approx_sub (hu : u < 1) {K : ℝ} {a' b' : ℚ} {a b : ℝ} (ha : WithinF K (a' : ℝ) a) (hb : WithinF K (b' : ℝ) b) :
    Approx (K * unitFactorR u) (R.fl (a' - b') : ℝ) (a - b) (|a| + |b|) := by
  refine approx_fl R hu ?_
  push_cast
  exact approx_sub (approx_of_within ha) (approx_of_within hb)

/-- A rounded sum of four accurate numbers. -/
theorem sum4_approx (hu : u < 1) {K : ℝ} {a' b' c' d' : ℚ} {a b c d : ℝ} (ha : WithinF K (a' : ℝ) a) (hb : WithinF K (b' : ℝ) b)
    (hc : WithinF K (c' : ℝ) c) (hd : WithinF K (d' : ℝ) d) :
    Approx (K * unitFactorR u ^ 3) (sum4R R a' b' c' d' : ℝ) (a + b + c + d) (|a| + |b| + |c| + |d|) := by
  have hE : 1 ≤ unitFactorR u := (fl_within R hu 1).1
  have hK := ha.1
  have h1 := sum2_approx R hu ha hb
  have m1 : K ≤ K * unitFactorR u := le_mul_of_one_le_right (by linarith) hE
  have m2 : K * unitFactorR u ≤ K * unitFactorR u * unitFactorR u := le_mul_of_one_le_right (by nlinarith) hE
  have h2 := approx_fl R hu (x' := R.fl (a' + b') + c') (by push_cast; exact approx_add h1 (approx_mono (approx_of_within hc) m1))
  have h3 := approx_fl R hu (x' := R.fl (R.fl (a' + b') + c') + d')
    (by push_cast; exact approx_add h2 (approx_mono (approx_of_within hd) (le_trans m1 m2)))
  rw [show K * unitFactorR u ^ 3 = K * unitFactorR u * unitFactorR u * unitFactorR u by ring]
  exact h3

theorem frozen_radius (hr : InRadii g x y) : clampTo (frozen L g x y z).rmin (frozen L g x y z).rmax (hyp x y) = hyp x y := by
  change clampTo (g.rmin : ℝ) (g.rmax : ℝ) (hyp x y) = hyp x y
  unfold clampTo
  rw [if_neg (not_lt.2 hr.1), if_neg (not_lt.2 hr.2)]

theorem frozen_eval (hr : InRadii g x y) : (frozen L g x y z).eval x y z =
    ((g.br.val (g.radius L x y) (g.height z) : ℝ) * cosE (hyp x y) x - (g.bphi.val (g.radius L x y) (g.height z) : ℝ) * sinE (hyp x y) y,
     (g.br.val (g.radius L x y) (g.height z) : ℝ) * sinE (hyp x y) y + (g.bphi.val (g.radius L x y) (g.height z) : ℝ) * cosE (hyp x y) x,
     (g.bz.val (g.radius L x y) (g.height z) : ℝ)) := by
  simp only [NGrid.eval, frozen_radius L g x y z hr]
  rfl

/-- The components of a turned vector are sums of two terms that are not larger than its length. -/
theorem turn_le (a b s c : ℝ) (h : s ^ 2 + c ^ 2 = 1) : |a * c| + |b * s| ≤ Real.sqrt (a ^ 2 + b ^ 2) := by
  refine Real.le_sqrt_of_sq_le ?_
  rw [abs_mul, abs_mul, ← sq_abs a, ← sq_abs b]
  rw [← sq_abs s, ← sq_abs c] at h
  generalize |a| = a at *
  generalize |b| = b at *
  generalize |s| = s at *
  generalize |c| = c at *
  nlinarith [sq_nonneg (a * s - b * c)]

/-- **C141** The field: each component differs from the exact one, for the values returned by GSL, by at most four roundings
of the length of the field; the vertical one does not differ. -/
theorem C141_field (hu : u < 1) (hL : AccurateHypot L H) (hr : InRadii g x y) :
    fieldError (g.eval R L x y z) ((frozen L g x y z).eval x y z) ≤
      (H * unitFactorR u ^ 3 - 1) * fieldNorm ((frozen L g x y z).eval x y z) ∧
    ((g.eval R L x y z).2.2 : ℝ) = ((frozen L g x y z).eval x y z).2.2 := by
  have hR := C141_radius L g x y hL hr
  have hs := sinR_within R hu hR y
  have hc := cosR_within R hu hR x
  have hsc := sinE_cosE (x : ℝ) y
  rw [frozen_eval L g x y z hr]
  refine ⟨?_, rfl⟩
  have ee : (g.eval R L x y z) = cartR R (sinR R (g.radius L x y) y) (cosR R (g.radius L x y) x) (g.br.val (g.radius L x y) (g.height z))
    (g.bphi.val (g.radius L x y) (g.height z)) (g.bz.val (g.radius L x y) (g.height z)) := rfl
  rw [ee]
  generalize g.br.val (g.radius L x y) (g.height z) = br
  generalize g.bphi.val (g.radius L x y) (g.height z) = bp
  generalize g.bz.val (g.radius L x y) (g.height z) = bz
  generalize sinR R (g.radius L x y) y = s' at *
  generalize cosR R (g.radius L x y) x = c' at *
  generalize sinE (hyp x y) y = s at *
  generalize cosE (hyp x y) x = c at *
  have hK : 0 ≤ H * unitFactorR u ^ 3 - 1 := by
    have := (within_mul hs (within_mul (fl_within R hu 1) (fl_within R hu 1))).1
    rw [show H * unitFactorR u * (unitFactorR u * unitFactorR u) = H * unitFactorR u ^ 3 by ring] at this
    linarith
  have hn : Real.sqrt ((br : ℝ) ^ 2 + (bp : ℝ) ^ 2) ≤ fieldNorm ((br : ℝ) * c - bp * s, (br : ℝ) * s + bp * c, (bz : ℝ)) := by
    refine Real.sqrt_le_sqrt ?_
    simp only
    nlinarith [sq_nonneg (bz : ℝ)]
  have e : H * unitFactorR u * unitFactorR u * unitFactorR u = H * unitFactorR u ^ 3 := by ring
  unfold fieldError
  refine max_le (max_le ?_ ?_) ?_
  · have h := sum2_approx_sub R hu (prodR_within' R hu hc br) (prodR_within' R hu hs bp)
    rw [e] at h
    exact le_trans h.2.2 (mul_le_mul_of_nonneg_left (le_trans (turn_le _ _ _ _ hsc) hn) hK)
  · have h := sum2_approx R hu (prodR_within' R hu hs br) (prodR_within' R hu hc bp)
    rw [e] at h
    refine le_trans h.2.2 (mul_le_mul_of_nonneg_left (le_trans (turn_le _ _ _ _ ?_) hn) hK)
    linarith
  · simp only [cartR, sub_self, abs_zero]
    exact mul_nonneg hK (Real.sqrt_nonneg _)

/-! ### the Jacobian -/

/-- The size of the terms that the Jacobian is made of. -/
def jacobianSize (L : MathLib) (g : NGridR) (x y z : ℚ) : ℝ :=
  let r := g.radius L x y
  let zz := g.height z
  |(g.br.dr r zz : ℝ)| + |(g.bphi.dr r zz : ℝ)| + |(g.bz.dr r zz : ℝ)| + |(g.br.dz r zz : ℝ)| + |(g.bphi.dz r zz : ℝ)| +
    |(g.bz.dz r zz : ℝ)| + (|(g.br.val r zz : ℝ)| + |(g.bphi.val r zz : ℝ)|) / hyp x y

/-- What is used about the exact products of sines and cosines. -/
structure TrigE where
  s2 : ℝ
  c2 : ℝ
  sc : ℝ
  dsx : ℝ
  dcx : ℝ
  dsy : ℝ
  dcy : ℝ

def trigE (r s c : ℝ) : TrigE :=
  ⟨s * s, c * c, s * c, if r ≠ 0 then -(s * c) / r else 0, if r ≠ 0 then s * s / r else 0, if r ≠ 0 then c * c / r else 0,
    if r ≠ 0 then -(s * c) / r else 0⟩

/-- The entries of the Jacobian in exact arithmetic. -/
def jacE (t : TrigE) (s c br b0 dBr_dr dBr_dz dB0_dr dB0_dz dBz_dr dBz_dz : ℝ) : Fin 3 → Fin 3 → ℝ :=
  ![![t.c2 * dBr_dr + br * t.dcx + -(t.sc * dB0_dr) + -(b0 * t.dsx),
      t.sc * dBr_dr + br * t.dcy + -(t.s2 * dB0_dr) + -(b0 * t.dsy),
      c * dBr_dz - s * dB0_dz],
    ![t.sc * dBr_dr + br * t.dsx + t.c2 * dB0_dr + b0 * t.dcx,
      t.s2 * dBr_dr + br * t.dsy + t.sc * dB0_dr + b0 * t.dcy,
      s * dBr_dz + c * dB0_dz],
    ![c * dBz_dr, s * dBz_dr, dBz_dz]]

theorem frozen_jacobian (hr : InRadii g x y) : ((frozen L g x y z).jacobian x y z).1 =
    jacE (trigE (hyp x y) (sinE (hyp x y) y) (cosE (hyp x y) x)) (sinE (hyp x y) y) (cosE (hyp x y) x)
      (g.br.val (g.radius L x y) (g.height z)) (g.bphi.val (g.radius L x y) (g.height z))
      (g.br.dr (g.radius L x y) (g.height z)) (g.br.dz (g.radius L x y) (g.height z))
      (g.bphi.dr (g.radius L x y) (g.height z)) (g.bphi.dz (g.radius L x y) (g.height z))
      (g.bz.dr (g.radius L x y) (g.height z)) (g.bz.dz (g.radius L x y) (g.height z)) := by
  simp only [NGrid.jacobian, frozen_radius L g x y z hr, jacE, trigE, ← sub_eq_add_neg]
  rfl

theorem prod_trig (hu : u < 1) (h : WithinF H (r' : ℝ) r) {a' b' : ℚ} {a b : ℝ} (ha : WithinF (H * unitFactorR u) (a' : ℝ) a)
    (hb : WithinF (H * unitFactorR u) (b' : ℝ) b) (k : ℚ) (hk : r = 0 → a * b = k) :
    WithinF (H ^ 2 * unitFactorR u ^ 3) ((if r' ≠ 0 then R.fl (a' * b') else k : ℚ) : ℝ) (a * b) := by
  have h1 := within_fl R hu (x' := a' * b') (by push_cast; exact within_mul ha hb)
  rw [show H ^ 2 * unitFactorR u ^ 3 = H * unitFactorR u * (H * unitFactorR u) * unitFactorR u by ring]
  by_cases h0 : r = 0
  · rw [if_neg fun e => (cast_ne_iff h).1 e h0, hk h0]
    exact within_mono (within_refl _) h1.1
  · rw [if_pos ((cast_ne_iff h).2 h0)]
    exact h1

theorem quot_trig (hu : u < 1) (h : WithinF H (r' : ℝ) r) {q' : ℚ} {q : ℝ} (hq : WithinF (H ^ 2 * unitFactorR u ^ 3) (q' : ℝ) q) :
    WithinF (H ^ 3 * unitFactorR u ^ 4) ((if r' ≠ 0 then R.fl (q' / r') else 0 : ℚ) : ℝ) (if r ≠ 0 then q / r else 0) := by
  have h1 := within_fl R hu (x' := q' / r') (by push_cast; exact within_div hq h)
  rw [show H ^ 3 * unitFactorR u ^ 4 = H ^ 2 * unitFactorR u ^ 3 * H * unitFactorR u by ring]
  by_cases h0 : r = 0
  · rw [if_neg fun e => (cast_ne_iff h).1 e h0, if_neg (not_not.2 h0), Rat.cast_zero]
    exact within_mono (within_refl _) h1.1
  · rw [if_pos ((cast_ne_iff h).2 h0), if_pos h0]
    exact h1

theorem approx_size {G x' x A B : ℝ} (h : Approx G x' x A) (hAB : A ≤ B) : Approx G x' x B :=
  ⟨h.1, le_trans h.2.1 hAB, le_trans h.2.2 (mul_le_mul_of_nonneg_left hAB (by linarith [h.1]))⟩

theorem mul_le_first {a b : ℝ} (h : |a| ≤ 1) : |a * b| ≤ |b| := by
  rw [abs_mul]
  exact mul_le_of_le_one_left (abs_nonneg _) h

theorem mul_le_over {r a b : ℝ} (hr : 0 ≤ r) (h : |a| ≤ 1) : |b * (if r ≠ 0 then a / r else 0)| ≤ |b| / r := by
  split_ifs with h0
  · rw [abs_mul, abs_div, abs_of_nonneg hr, div_eq_mul_inv, div_eq_mul_inv]
    exact mul_le_mul_of_nonneg_left (mul_le_of_le_one_left (inv_nonneg.2 hr) h) (abs_nonneg _)
  · rw [mul_zero, abs_zero]
    positivity

/-- The entries of the Jacobian, from the numbers of GSL. -/
theorem jacR_approx (hu : u < 1) (h : WithinF H (r' : ℝ) (hyp x y)) (br b0 drr drz d0r d0z dzr dzz : ℚ) (i j : Fin 3) :
    Approx (H ^ 3 * unitFactorR u ^ 8) (jacR R r' x y br b0 drr drz d0r d0z dzr dzz i j : ℝ)
      (jacE (trigE (hyp x y) (sinE (hyp x y) y) (cosE (hyp x y) x)) (sinE (hyp x y) y) (cosE (hyp x y) x) br b0 drr drz d0r d0z dzr dzz i j)
      (|(drr : ℝ)| + |(d0r : ℝ)| + |(dzr : ℝ)| + |(drz : ℝ)| + |(d0z : ℝ)| + |(dzz : ℝ)| + (|(br : ℝ)| + |(b0 : ℝ)|) / hyp x y) := by
  have hE : 1 ≤ unitFactorR u := (fl_within R hu 1).1
  have hH : 1 ≤ H := h.1
  have hs := sinR_within R hu h y
  have hc := cosR_within R hu h x
  have as := abs_sinE_le (x : ℝ) y
  have ac := abs_cosE_le (x : ℝ) y
  have hr0 := hyp_nonneg (x : ℝ) y
  have s0 : hyp (x : ℝ) y = 0 → sinE (hyp x y) y = 0 := fun h => by rw [sinE, if_neg (not_not.2 h)]
  have c0 : hyp (x : ℝ) y = 0 → cosE (hyp x y) x = 1 := fun h => by rw [cosE, if_neg (not_not.2 h)]
  unfold jacR trigE
  generalize sinR R r' y = s' at *
  generalize cosR R r' x = c' at *
  generalize sinE (hyp x y) y = s at *
  generalize cosE (hyp x y) x = c at *
  generalize hyp (x : ℝ) y = r at *
  have w_s2 := prod_trig R hu h hs hs 0 (fun e => by rw [s0 e]; simp)
  have w_c2 := prod_trig R hu h hc hc 1 (fun e => by rw [c0 e]; simp)
  have w_sc := prod_trig R hu h hs hc 0 (fun e => by rw [s0 e]; simp)
  generalize (if r' ≠ 0 then R.fl (s' * s') else 0 : ℚ) = s2' at *
  generalize (if r' ≠ 0 then R.fl (c' * c') else 1 : ℚ) = c2' at *
  generalize (if r' ≠ 0 then R.fl (s' * c') else 0 : ℚ) = sc' at *
  have w_nsc : WithinF (H ^ 2 * unitFactorR u ^ 3) ((-sc' : ℚ) : ℝ) (-(s * c)) := by push_cast; exact within_neg w_sc
  have q_sc := quot_trig R hu h w_nsc
  have q_s2 := quot_trig R hu h w_s2
  have q_c2 := quot_trig R hu h w_c2
  generalize (if r' ≠ 0 then R.fl (-sc' / r') else 0 : ℚ) = dsc at *
  generalize (if r' ≠ 0 then R.fl (s2' / r') else 0 : ℚ) = ds2 at *
  generalize (if r' ≠ 0 then R.fl (c2' / r') else 0 : ℚ) = dc2 at *
  have as2 : |s * s| ≤ 1 := le_trans (mul_le_first as) as
  have ac2 : |c * c| ≤ 1 := le_trans (mul_le_first ac) ac
  have asc : |s * c| ≤ 1 := le_trans (mul_le_first as) ac
  have ansc : |-(s * c)| ≤ 1 := by rwa [abs_neg]
  -- products
  have hHE : 1 ≤ H * unitFactorR u := one_le_mul_of_one_le_of_one_le hH hE
  have k1 : H ^ 2 * unitFactorR u ^ 3 * unitFactorR u ≤ H ^ 3 * unitFactorR u ^ 4 * unitFactorR u := by
    have : 0 ≤ H ^ 2 * unitFactorR u ^ 4 := by positivity
    nlinarith
  have big : ∀ {a' : ℚ} {a : ℝ} (b : ℚ), WithinF (H ^ 2 * unitFactorR u ^ 3) (a' : ℝ) a →
      WithinF (H ^ 3 * unitFactorR u ^ 4 * unitFactorR u) (R.fl (a' * b) : ℝ) (a * b) :=
    fun b hw => within_mono (prodR_within R hu hw b) k1
  have bneg : ∀ {G : ℝ} {a' : ℚ} {a : ℝ}, WithinF G (a' : ℝ) a → WithinF G ((-a' : ℚ) : ℝ) (-a) := by
    intro G a' a hw; push_cast; exact within_neg hw
  have e8 : H ^ 3 * unitFactorR u ^ 4 * unitFactorR u * unitFactorR u ^ 3 = H ^ 3 * unitFactorR u ^ 8 := by ring
  have p1 : 1 ≤ H ^ 2 * unitFactorR u ^ 5 := one_le_mul_of_one_le_of_one_le (one_le_pow₀ hH) (one_le_pow₀ hE)
  have k3 : H * unitFactorR u * unitFactorR u * unitFactorR u ≤ H ^ 3 * unitFactorR u ^ 8 := by
    rw [show H ^ 3 * unitFactorR u ^ 8 = H * unitFactorR u * unitFactorR u * unitFactorR u * (H ^ 2 * unitFactorR u ^ 5) by ring]
    exact le_mul_of_one_le_right (by positivity) p1
  have k2 : H * unitFactorR u * unitFactorR u ≤ H ^ 3 * unitFactorR u ^ 8 :=
    le_trans (le_mul_of_one_le_right (by positivity) hE) k3
  have k0 : 1 ≤ H ^ 3 * unitFactorR u ^ 8 := one_le_mul_of_one_le_of_one_le (one_le_pow₀ hH) (one_le_pow₀ hE)
  rw [add_div]
  have n1 := abs_nonneg (drr : ℝ)
  have n2 := abs_nonneg (d0r : ℝ)
  have n3 := abs_nonneg (dzr : ℝ)
  have n4 := abs_nonneg (drz : ℝ)
  have n5 := abs_nonneg (d0z : ℝ)
  have n6 := abs_nonneg (dzz : ℝ)
  have n7 : 0 ≤ |(br : ℝ)| / r := by positivity
  have n8 : 0 ≤ |(b0 : ℝ)| / r := by positivity
  have f1 : ∀ {a : ℝ} (b : ℝ), |a| ≤ 1 → |a * b| ≤ |b| := fun b h => mul_le_first h
  have f2 : ∀ {a : ℝ} (b : ℝ), |a| ≤ 1 → |b * (if r ≠ 0 then a / r else 0)| ≤ |b| / r := fun b h => mul_le_over hr0 h
  fin_cases i <;> fin_cases j <;>
    simp only [jacE, Fin.zero_eta, Fin.mk_one, Fin.reduceFinMk, Matrix.cons_val_zero, Matrix.cons_val_one, Matrix.cons_val]
  · have ha := sum4_approx R hu (big drr w_c2) (prodR_within' R hu q_s2 br) (bneg (big d0r w_sc)) (bneg (prodR_within' R hu q_sc b0))
    rw [e8] at ha
    refine approx_size ha ?_
    rw [abs_neg, abs_neg]
    linarith [f1 (drr : ℝ) ac2, f2 (br : ℝ) as2, f1 (d0r : ℝ) asc, f2 (b0 : ℝ) ansc]
  · have ha := sum4_approx R hu (big drr w_sc) (prodR_within' R hu q_sc br) (bneg (big d0r w_s2)) (bneg (prodR_within' R hu q_c2 b0))
    rw [e8] at ha
    refine approx_size ha ?_
    rw [abs_neg, abs_neg]
    linarith [f1 (drr : ℝ) asc, f2 (br : ℝ) ansc, f1 (d0r : ℝ) as2, f2 (b0 : ℝ) ac2]
  · have ha := sum2_approx_sub R hu (prodR_within R hu hc drz) (prodR_within R hu hs d0z)
    refine approx_size (approx_mono ha k3) ?_
    linarith [f1 (drz : ℝ) ac, f1 (d0z : ℝ) as]
  · have ha := sum4_approx R hu (big drr w_sc) (prodR_within' R hu q_sc br) (big d0r w_c2) (prodR_within' R hu q_s2 b0)
    rw [e8] at ha
    refine approx_size ha ?_
    linarith [f1 (drr : ℝ) asc, f2 (br : ℝ) ansc, f1 (d0r : ℝ) ac2, f2 (b0 : ℝ) as2]
  · have ha := sum4_approx R hu (big drr w_s2) (prodR_within' R hu q_c2 br) (big d0r w_sc) (prodR_within' R hu q_sc b0)
    rw [e8] at ha
    refine approx_size ha ?_
    linarith [f1 (drr : ℝ) as2, f2 (br : ℝ) ac2, f1 (d0r : ℝ) asc, f2 (b0 : ℝ) ansc]
  · have ha := sum2_approx R hu (prodR_within R hu hs drz) (prodR_within R hu hc d0z)
    refine approx_size (approx_mono ha k3) ?_
    linarith [f1 (drz : ℝ) as, f1 (d0z : ℝ) ac]
  · refine approx_size (approx_mono (approx_of_within (prodR_within R hu hc dzr)) k2) ?_
    linarith [f1 (dzr : ℝ) ac]
  · refine approx_size (approx_mono (approx_of_within (prodR_within R hu hs dzr)) k2) ?_
    linarith [f1 (dzr : ℝ) as]
  · refine approx_size (approx_mono (approx_of_within (within_refl (dzz : ℝ))) k0) ?_
    linarith

/-- **C141** The Jacobian: each entry differs from the exact one, for the values and derivatives returned by GSL, by at most
eleven roundings of the size of the terms it is made of. -/
theorem C141_jacobian (hu : u < 1) (hL : AccurateHypot L H) (hr : InRadii g x y) (i j : Fin 3) :
    |(g.jacobian R L x y z i j : ℝ) - ((frozen L g x y z).jacobian x y z).1 i j| ≤
      (H ^ 3 * unitFactorR u ^ 8 - 1) * jacobianSize L g x y z ∧
    |((frozen L g x y z).jacobian x y z).1 i j| ≤ jacobianSize L g x y z := by
  rw [frozen_jacobian L g x y z hr]
  have h := jacR_approx R x y hu (C141_radius L g x y hL hr) (g.br.val (g.radius L x y) (g.height z)) (g.bphi.val (g.radius L x y) (g.height z))
      (g.br.dr (g.radius L x y) (g.height z)) (g.br.dz (g.radius L x y) (g.height z))
      (g.bphi.dr (g.radius L x y) (g.height z)) (g.bphi.dz (g.radius L x y) (g.height z))
      (g.bz.dr (g.radius L x y) (g.height z)) (g.bz.dz (g.radius L x y) (g.height z)) i j
  exact ⟨h.2.2, h.2.1⟩

/-- **C141** The curl: at most twelve roundings of twice that size. -/
theorem C141_curl (hu : u < 1) (hL : AccurateHypot L H) (hr : InRadii g x y) (d : MagDataR) (hd : g.evalDerivatives R L x y z = some d) :
    let J := ((frozen L g x y z).jacobian x y z).1
    let K := H ^ 3 * unitFactorR u ^ 9 - 1
    |(d.curlB 0 : ℝ) - (J 2 1 - J 1 2)| ≤ K * (2 * jacobianSize L g x y z) ∧
    |(d.curlB 1 : ℝ) - (J 0 2 - J 2 0)| ≤ K * (2 * jacobianSize L g x y z) ∧
    |(d.curlB 2 : ℝ) - (J 1 0 - J 0 1)| ≤ K * (2 * jacobianSize L g x y z) := by
  have hE : 1 ≤ unitFactorR u := (fl_within R hu 1).1
  have hH : 1 ≤ H := (hL 0 0).1
  have key : ∀ i j k l, |(R.fl (g.jacobian R L x y z i j - g.jacobian R L x y z k l) : ℝ) -
      (((frozen L g x y z).jacobian x y z).1 i j - ((frozen L g x y z).jacobian x y z).1 k l)| ≤
      (H ^ 3 * unitFactorR u ^ 9 - 1) * (2 * jacobianSize L g x y z) := by
    intro i j k l
    have k0 : 1 ≤ H ^ 3 * unitFactorR u ^ 8 := one_le_mul_of_one_le_of_one_le (one_le_pow₀ hH) (one_le_pow₀ hE)
    have a1 := C141_jacobian R L g x y z hu hL hr i j
    have a2 := C141_jacobian R L g x y z hu hL hr k l
    have := approx_fl R hu (x' := g.jacobian R L x y z i j - g.jacobian R L x y z k l)
      (by push_cast; exact approx_sub (G := H ^ 3 * unitFactorR u ^ 8) ⟨k0, a1.2, a1.1⟩ ⟨k0, a2.2, a2.1⟩)
    rw [show H ^ 3 * unitFactorR u ^ 8 * unitFactorR u = H ^ 3 * unitFactorR u ^ 9 by ring, ← two_mul] at this
    exact this.2.2
  simp only [NGridR.evalDerivatives, Option.map_eq_some_iff] at hd
  obtain ⟨b, -, rfl⟩ := hd
  exact ⟨key 2 1 1 2, key 0 2 2 0, key 1 0 0 1⟩

/-! ### strength and gradient -/

/-- The vector as real numbers. -/
def castV (v : ℚ × ℚ × ℚ) : ℝ × ℝ × ℝ := (v.1, v.2.1, v.2.2)

theorem lengthR_within (hu : u < 1) {S : ℝ} (hS : AccurateSqrt L S) (m a b : ℚ) (hm : 0 < m) :
    WithinF (S * unitFactorR u ^ 6) (lengthR R L m a b : ℝ) (Real.sqrt ((m : ℝ) ^ 2 + (a : ℝ) ^ 2 + (b : ℝ) ^ 2)) := by
  have hE : 1 ≤ unitFactorR u := (fl_within R hu 1).1
  have hm' : (0 : ℝ) < m := by exact_mod_cast hm
  have q : ∀ a : ℚ, WithinF (unitFactorR u ^ 3) (R.fl (R.fl (a / m) * R.fl (a / m)) : ℝ) (((a : ℝ) / m) * ((a : ℝ) / m)) := by
    intro a
    have h1 : WithinF (unitFactorR u) (R.fl (a / m) : ℝ) ((a : ℝ) / m) := by
      have := fl_within R hu (a / m)
      push_cast at this
      exact this
    have h2 := within_fl R hu (x' := R.fl (a / m) * R.fl (a / m)) (by push_cast; exact within_mul h1 h1)
    rwa [show unitFactorR u * unitFactorR u * unitFactorR u = unitFactorR u ^ 3 by ring] at h2
  have h1 := within_fl R hu (x' := 1 + R.fl (R.fl (a / m) * R.fl (a / m)))
    (by push_cast; exact within_add_pos (within_mono (within_refl 1) (one_le_pow₀ hE)) (q a) zero_le_one (mul_self_nonneg _))
  rw [show unitFactorR u ^ 3 * unitFactorR u = unitFactorR u ^ 4 by ring] at h1
  have h2 := within_fl R hu (x' := R.fl (1 + R.fl (R.fl (a / m) * R.fl (a / m))) + R.fl (R.fl (b / m) * R.fl (b / m)))
    (by push_cast; exact within_add_pos h1 (within_mono (q b) (pow_le_pow_right₀ hE (by norm_num)))
          (by nlinarith [mul_self_nonneg ((a : ℝ) / m)]) (mul_self_nonneg _))
  rw [show unitFactorR u ^ 4 * unitFactorR u = unitFactorR u ^ 5 by ring] at h2
  have hpos : 0 ≤ R.fl (R.fl (1 + R.fl (R.fl (a / m) * R.fl (a / m))) + R.fl (R.fl (b / m) * R.fl (b / m))) := by
    obtain ⟨g1, θ, e, t1, -⟩ := h2
    have : (0 : ℝ) ≤ (R.fl (R.fl (1 + R.fl (R.fl (a / m) * R.fl (a / m))) + R.fl (R.fl (b / m) * R.fl (b / m))) : ℚ) := by
      rw [e]
      have : 0 ≤ θ := le_trans (inv_nonneg.2 (by linarith)) t1
      have := mul_self_nonneg ((a : ℝ) / m)
      have := mul_self_nonneg ((b : ℝ) / m)
      positivity
    exact_mod_cast this
  have h3 := within_trans (hS _ hpos) (within_sqrt h2)
  have h4 := within_fl R hu (x' := m * L.sqrt (R.fl (R.fl (1 + R.fl (R.fl (a / m) * R.fl (a / m))) + R.fl (R.fl (b / m) * R.fl (b / m)))))
    (by push_cast; exact within_mul (within_refl (m : ℝ)) h3)
  rw [show S * unitFactorR u ^ 6 = 1 * (unitFactorR u ^ 5 * S) * unitFactorR u by ring]
  have e : (m : ℝ) * Real.sqrt (1 + (a : ℝ) / m * (a / m) + (b : ℝ) / m * (b / m)) = Real.sqrt ((m : ℝ) ^ 2 + (a : ℝ) ^ 2 + (b : ℝ) ^ 2) := by
    rw [← Real.sqrt_sq hm'.le, ← Real.sqrt_mul (sq_nonneg _), Real.sqrt_sq hm'.le]
    congr 1
    field_simp
  rw [← e]
  exact h4

/-- **C141** The strength is accurate, relative to the computed vector, and NaN exactly if that is zero. -/
theorem C141_length (hu : u < 1) {S : ℝ} (hS : AccurateSqrt L S) (B : ℚ × ℚ × ℚ) :
    (babsR R L B = none ↔ B = 0) ∧
    ∀ b, babsR R L B = some b → WithinF (S * unitFactorR u ^ 6) (b : ℝ) (fieldNorm (castV B)) := by
  obtain ⟨p, q, s⟩ := B
  constructor
  · unfold babsR
    simp only
    split_ifs with h <;> simp_all [Prod.ext_iff]
  · intro b hb
    unfold babsR at hb
    simp only at hb
    unfold fieldNorm castV
    split_ifs at hb with h0 h1 h2
    · cases hb
      have := lengthR_within R L hu hS |p| |q| |s| (lt_of_le_of_lt (abs_nonneg _) h1.1)
      push_cast at this
      simpa only [sq_abs] using this
    · cases hb
      have := lengthR_within R L hu hS |q| |p| |s| (lt_of_le_of_lt (abs_nonneg _) h2)
      push_cast at this
      simp only [sq_abs] at this
      rwa [show (q : ℝ) ^ 2 + p ^ 2 + s ^ 2 = p ^ 2 + q ^ 2 + s ^ 2 by ring] at this
    · cases hb
      have hs : 0 < |s| := by
        rw [abs_pos]
        rintro rfl
        simp only [abs_zero, gt_iff_lt, abs_pos, ne_eq, not_not] at h2
        simp only [h2, abs_zero, gt_iff_lt, abs_pos, and_self, ne_eq, not_not] at h1
        exact h0 ⟨h1, h2, rfl⟩
      have := lengthR_within R L hu hS |s| |p| |q| hs
      push_cast at this
      simp only [sq_abs] at this
      rwa [show (s : ℝ) ^ 2 + p ^ 2 + q ^ 2 = p ^ 2 + q ^ 2 + s ^ 2 by ring] at this

/-- Lengths differ by no more than the vectors. -/
theorem norm_error (v : ℚ × ℚ × ℚ) (w : ℝ × ℝ × ℝ) : |fieldNorm (castV v) - fieldNorm w| ≤ 2 * fieldError v w := by
  have h1 : |(v.1 : ℝ) - w.1| ≤ fieldError v w := le_trans (le_max_left _ _) (le_max_left _ _)
  have h2 : |(v.2.1 : ℝ) - w.2.1| ≤ fieldError v w := le_trans (le_max_right _ _) (le_max_left _ _)
  have h3 : |(v.2.2 : ℝ) - w.2.2| ≤ fieldError v w := le_max_right _ _
  have h0 : 0 ≤ fieldError v w := le_trans (abs_nonneg _) h3
  let V : EuclideanSpace ℝ (Fin 3) := !₂[(v.1 : ℝ), v.2.1, v.2.2]
  let W : EuclideanSpace ℝ (Fin 3) := !₂[w.1, w.2.1, w.2.2]
  have e1 : fieldNorm (castV v) = ‖V‖ := by
    rw [EuclideanSpace.norm_eq, Fin.sum_univ_three]
    simp only [fieldNorm, castV, V, PiLp.toLp_apply, Matrix.cons_val_zero, Matrix.cons_val_one, Matrix.cons_val, Real.norm_eq_abs, sq_abs]
  have e2 : fieldNorm w = ‖W‖ := by
    rw [EuclideanSpace.norm_eq, Fin.sum_univ_three]
    simp [fieldNorm, W]
  rw [e1, e2]
  refine le_trans (abs_norm_sub_norm_le V W) ?_
  rw [EuclideanSpace.norm_eq, Fin.sum_univ_three]
  refine Real.sqrt_le_iff.2 ⟨by linarith, ?_⟩
  have q1 := pow_le_pow_left₀ (abs_nonneg _) h1 2
  have q2 := pow_le_pow_left₀ (abs_nonneg _) h2 2
  have q3 := pow_le_pow_left₀ (abs_nonneg _) h3 2
  simp only [V, W, PiLp.sub_apply, Real.norm_eq_abs]
  simp only [PiLp.toLp_apply, Matrix.cons_val_zero, Matrix.cons_val_one, Matrix.cons_val]
  nlinarith [sq_nonneg (fieldError v w)]

theorem frozen_norm_eq (w : ℝ × ℝ × ℝ) : fieldNorm w = Real.sqrt (normSq3 w) := rfl

/-- **C141** The strength, relative to the exact one. -/
theorem C141_strength (hu : u < 1) (hL : AccurateHypot L H) {S : ℝ} (hS : AccurateSqrt L S) (hr : InRadii g x y)
    (d : MagDataR) (hd : g.evalDerivatives R L x y z = some d) :
    |(d.babs : ℝ) - fieldNorm ((frozen L g x y z).eval x y z)| ≤
      (S * unitFactorR u ^ 6 * (1 + 2 * (H * unitFactorR u ^ 3 - 1)) - 1) * fieldNorm ((frozen L g x y z).eval x y z) := by
  have hE : 1 ≤ unitFactorR u := (fl_within R hu 1).1
  have hF := (C141_field R L g x y z hu hL hr).1
  simp only [NGridR.evalDerivatives, Option.map_eq_some_iff] at hd
  obtain ⟨b, hb, rfl⟩ := hd
  have h1 := (C141_length R L hu hS _).2 b hb
  have h2 := norm_error (g.eval R L x y z) ((frozen L g x y z).eval x y z)
  have h3 := (approx_of_within h1).2.2
  have hG := h1.1
  rw [abs_of_nonneg (show 0 ≤ fieldNorm (castV (g.eval R L x y z)) from Real.sqrt_nonneg _)] at h3
  simp only
  generalize fieldNorm (castV (g.eval R L x y z)) = n' at *
  generalize fieldNorm ((frozen L g x y z).eval x y z) = n at *
  generalize fieldError (g.eval R L x y z) ((frozen L g x y z).eval x y z) = e at *
  generalize S * unitFactorR u ^ 6 = G at *
  generalize H * unitFactorR u ^ 3 - 1 = K at *
  have h4 : n' ≤ (1 + 2 * K) * n := by
    have := (abs_le.1 h2).2
    linarith
  have h5 : (G - 1) * n' ≤ (G - 1) * ((1 + 2 * K) * n) := mul_le_mul_of_nonneg_left h4 (by linarith)
  calc |(b : ℝ) - n| ≤ |(b : ℝ) - n'| + |n' - n| := abs_sub_le _ _ _
    _ ≤ (G - 1) * ((1 + 2 * K) * n) + 2 * (K * n) := by linarith
    _ = (G * (1 + 2 * K) - 1) * n := by ring

theorem comp_le_norm (w : ℝ × ℝ × ℝ) (i : Fin 3) : |comp w i| ≤ fieldNorm w := by
  refine Real.abs_le_sqrt ?_
  fin_cases i <;> simp [comp] <;> nlinarith [sq_nonneg w.1, sq_nonneg w.2.1, sq_nonneg w.2.2]

theorem comp_error (v : ℚ × ℚ × ℚ) (w : ℝ × ℝ × ℝ) (i : Fin 3) : |comp (castV v) i - comp w i| ≤ fieldError v w := by
  fin_cases i
  · exact le_trans (le_max_left _ _) (le_max_left _ _)
  · exact le_trans (le_max_right _ _) (le_max_left _ _)
  · exact le_max_right _ _

/-- **C141** Strength and gradient are NaN exactly if the exact field, for the values returned by GSL, is zero. -/
theorem C141_nan (hu : u < 1) (hL : AccurateHypot L H) {S : ℝ} (hS : AccurateSqrt L S) (hr : InRadii g x y)
    (hK : H * unitFactorR u ^ 3 ≤ 3 / 2) :
    g.evalDerivatives R L x y z = none ↔ (frozen L g x y z).eval x y z = 0 := by
  have hF := (C141_field R L g x y z hu hL hr).1
  simp only [NGridR.evalDerivatives, Option.map_eq_none_iff]
  rw [(C141_length R L hu hS _).1]
  constructor
  · intro h0
    rw [h0] at hF
    generalize (frozen L g x y z).eval x y z = w at *
    have hn : 0 ≤ fieldNorm w := Real.sqrt_nonneg _
    have hb : fieldError 0 w ≤ 1 / 2 * fieldNorm w := le_trans hF (mul_le_mul_of_nonneg_right (by linarith) hn)
    have c : ∀ i, |comp w i| ≤ 1 / 2 * fieldNorm w := by
      intro i
      have := comp_error 0 w i
      rw [show comp (castV 0) i = 0 by fin_cases i <;> simp [comp, castV], zero_sub, abs_neg] at this
      linarith
    have c0 := pow_le_pow_left₀ (abs_nonneg _) (c 0) 2
    have c1 := pow_le_pow_left₀ (abs_nonneg _) (c 1) 2
    have c2 := pow_le_pow_left₀ (abs_nonneg _) (c 2) 2
    rw [sq_abs] at c0 c1 c2
    have hsq : fieldNorm w ^ 2 = w.1 ^ 2 + w.2.1 ^ 2 + w.2.2 ^ 2 := Real.sq_sqrt (by positivity)
    have z0 : w.1 ^ 2 + w.2.1 ^ 2 + w.2.2 ^ 2 ≤ 0 := by
      have e0 : comp w 0 = w.1 := rfl
      have e1 : comp w 1 = w.2.1 := rfl
      have e2 : comp w 2 = w.2.2 := rfl
      rw [e0] at c0; rw [e1] at c1; rw [e2] at c2
      nlinarith
    have a := sq_nonneg w.1
    have b := sq_nonneg w.2.1
    have c := sq_nonneg w.2.2
    have h1 : w.1 = 0 := pow_eq_zero_iff (two_ne_zero) |>.1 (by linarith)
    have h2 : w.2.1 = 0 := pow_eq_zero_iff (two_ne_zero) |>.1 (by linarith)
    have h3 : w.2.2 = 0 := pow_eq_zero_iff (two_ne_zero) |>.1 (by linarith)
    exact Prod.ext h1 (Prod.ext h2 h3)
  · intro h0
    rw [h0] at hF
    rw [show fieldNorm (0 : ℝ × ℝ × ℝ) = 0 by simp [fieldNorm], mul_zero] at hF
    have c : ∀ i, comp (castV (g.eval R L x y z)) i = 0 := by
      intro i
      have := comp_error (g.eval R L x y z) 0 i
      rw [show comp (0 : ℝ × ℝ × ℝ) i = 0 by fin_cases i <;> simp [comp], sub_zero] at this
      exact abs_nonpos_iff.1 (le_trans this hF)
    generalize g.eval R L x y z = v at *
    have c0 : (v.1 : ℝ) = 0 := c 0
    have c1 : (v.2.1 : ℝ) = 0 := c 1
    have c2 : (v.2.2 : ℝ) = 0 := c 2
    refine Prod.ext ?_ (Prod.ext ?_ ?_)
    · exact_mod_cast c0
    · exact_mod_cast c1
    · exact_mod_cast c2

/-- Directions differ by no more than three times the relative error of the vectors. -/
theorem direction_error {a a' n n' e : ℝ} (hn : 0 < n) (hn' : 0 < n') (ha : |a' - a| ≤ e * n) (hb : |a'| ≤ n') (hm : |n' - n| ≤ 2 * (e * n)) :
    |a' / n' - a / n| ≤ 3 * e := by
  have e1 : a' / n' - a / n = (a' - a) / n + a' / n' * ((n - n') / n) := by field_simp; ring
  rw [e1]
  have h1 : |(a' - a) / n| ≤ e := by rw [abs_div, abs_of_pos hn, div_le_iff₀ hn]; exact ha
  have h2 : |(n - n') / n| ≤ 2 * e := by
    rw [abs_div, abs_of_pos hn, div_le_iff₀ hn, abs_sub_comm]; linarith
  have h3 : |a' / n'| ≤ 1 := by rw [abs_div, abs_of_pos hn', div_le_iff₀ hn']; linarith
  have h4 := mul_le_first (b := (n - n') / n) h3
  calc |(a' - a) / n + a' / n' * ((n - n') / n)| ≤ |(a' - a) / n| + |a' / n' * ((n - n') / n)| := abs_add_le _ _
    _ ≤ 3 * e := by linarith

/-- **C141** The gradient of the strength. -/
theorem C141_gradient (hu : u < 1) (hL : AccurateHypot L H) {S : ℝ} (hS : AccurateSqrt L S) (hr : InRadii g x y)
    (d : MagDataR) (hd : g.evalDerivatives R L x y z = some d) (d' : MagData)
    (hd' : (frozen L g x y z).evalDerivatives x y z = some d') (j : Fin 3) :
    |(d.gradB j : ℝ) - comp d'.gradB j| ≤
      ((S * unitFactorR u ^ 10 - 1) * (3 * (H ^ 3 * unitFactorR u ^ 8)) + 3 * (H ^ 3 * unitFactorR u ^ 8 - 1) +
        9 * (H * unitFactorR u ^ 3 - 1)) * jacobianSize L g x y z := by
  have hE : 1 ≤ unitFactorR u := (fl_within R hu 1).1
  have hH : 1 ≤ H := (hL 0 0).1
  have hF := (C141_field R L g x y z hu hL hr).1
  have hB : (frozen L g x y z).eval x y z ≠ 0 := by
    intro hB
    rw [C52_zero_field _ _ _ _ hB] at hd'
    cases hd'
  obtain ⟨d2, hd2, hB1, hB2, hpos, hgr, -⟩ := C52_consistent (frozen L g x y z) x y z hB
  rw [hd2] at hd'
  cases hd'
  have hJ' : d'.J = ((frozen L g x y z).jacobian x y z).1 := by
    simp only [NGrid.evalDerivatives, Option.map_eq_some_iff] at hd2
    obtain ⟨b, -, rfl⟩ := hd2
    rfl
  have hgr := hgr j
  rw [hJ', hB1, Fin.sum_univ_three] at hgr
  rw [← frozen_norm_eq] at hB2
  have hJ := fun i => C141_jacobian R L g x y z hu hL hr i j
  simp only [NGridR.evalDerivatives, Option.map_eq_some_iff] at hd
  obtain ⟨b, hb, rfl⟩ := hd
  have hb1 := (C141_length R L hu hS _).2 b hb
  have hnm := norm_error (g.eval R L x y z) ((frozen L g x y z).eval x y z)
  have hce := comp_error (g.eval R L x y z) ((frozen L g x y z).eval x y z)
  have hcn := comp_le_norm (castV (g.eval R L x y z))
  have hv0 : fieldNorm (castV (g.eval R L x y z)) ≠ 0 := by
    intro h0
    have hne : g.eval R L x y z ≠ 0 := by
      intro e
      rw [(C141_length R L hu hS _).1.2 e] at hb
      cases hb
    refine hne ?_
    have c : ∀ i, comp (castV (g.eval R L x y z)) i = 0 := fun i => abs_nonpos_iff.1 (h0 ▸ hcn i)
    generalize g.eval R L x y z = v at *
    have c0 : (v.1 : ℝ) = 0 := c 0
    have c1 : (v.2.1 : ℝ) = 0 := c 1
    have c2 : (v.2.2 : ℝ) = 0 := c 2
    refine Prod.ext ?_ (Prod.ext ?_ ?_)
    · exact_mod_cast c0
    · exact_mod_cast c1
    · exact_mod_cast c2
  have hv1 : 0 < fieldNorm (castV (g.eval R L x y z)) := lt_of_le_of_ne (Real.sqrt_nonneg _) (Ne.symm hv0)
  simp only
  rw [hB2] at hgr hpos
  -- the rounded numerator and quotient
  have key : ∀ (B : ℚ × ℚ × ℚ) (j0 j1 j2 : ℚ), WithinF (S * unitFactorR u ^ 6) (b : ℝ) (fieldNorm (castV B)) →
      Approx (S * unitFactorR u ^ 10) (gradR R B b j0 j1 j2 : ℝ)
        ((comp (castV B) 0 * j0 + comp (castV B) 1 * j1 + comp (castV B) 2 * j2) * (fieldNorm (castV B))⁻¹)
        ((|comp (castV B) 0 * j0| + |comp (castV B) 1 * j1| + |comp (castV B) 2 * j2|) * |(fieldNorm (castV B))⁻¹|) := by
    intro B j0 j1 j2 hw
    have p : ∀ a c : ℚ, WithinF (unitFactorR u) (R.fl (a * c) : ℝ) ((a : ℝ) * c) := by
      intro a c
      have := fl_within R hu (a * c)
      push_cast at this
      exact this
    have s1 := sum2_approx R hu (p B.1 j0) (p B.2.1 j1)
    have s2 := approx_fl R hu (x' := R.fl (R.fl (B.1 * j0) + R.fl (B.2.1 * j1)) + R.fl (B.2.2 * j2))
      (by push_cast; exact approx_add s1 (approx_mono (approx_of_within (p B.2.2 j2)) (le_mul_of_one_le_right (by linarith) hE)))
    have s3 := approx_fl R hu (x' := R.fl (R.fl (R.fl (B.1 * j0) + R.fl (B.2.1 * j1)) + R.fl (B.2.2 * j2)) / b)
      (by push_cast; rw [div_eq_mul_inv]; exact approx_mul s2 (within_inv hw))
    rw [show unitFactorR u * unitFactorR u * unitFactorR u * (S * unitFactorR u ^ 6) * unitFactorR u = S * unitFactorR u ^ 10 by ring] at s3
    exact s3
  have k := key (g.eval R L x y z) (g.jacobian R L x y z 0 j) (g.jacobian R L x y z 1 j) (g.jacobian R L x y z 2 j) hb1
  have J0 := hJ 0
  have J1 := hJ 1
  have J2 := hJ 2
  have hG := k.1
  have hK' : 1 ≤ H ^ 3 * unitFactorR u ^ 8 := one_le_mul_of_one_le_of_one_le (one_le_pow₀ hH) (one_le_pow₀ hE)
  have k2 := k.2.2
  have hgr2 : comp d'.gradB j = (comp ((frozen L g x y z).eval x y z) 0 * ((frozen L g x y z).jacobian x y z).1 0 j +
      comp ((frozen L g x y z).eval x y z) 1 * ((frozen L g x y z).jacobian x y z).1 1 j +
      comp ((frozen L g x y z).eval x y z) 2 * ((frozen L g x y z).jacobian x y z).1 2 j) / fieldNorm ((frozen L g x y z).eval x y z) := by
    rw [eq_div_iff hpos.ne']; exact hgr
  rw [hgr2]
  have D := fun i => direction_error hpos hv1 (le_trans (hce i) hF) (hcn i) (le_trans hnm (mul_le_mul_of_nonneg_left hF (by norm_num)))
  have D0 := D 0
  have D1 := D 1
  have D2 := D 2
  have C0 := hcn 0
  have C1 := hcn 1
  have C2 := hcn 2
  clear key hJ hgr2 hgr hB2 hB1 hd2 hJ' D hcn hce hnm hb1 hb hv0 hB hF
  rw [abs_of_pos (inv_pos.2 hv1)] at k2
  generalize gradR R (g.eval R L x y z) b (g.jacobian R L x y z 0 j) (g.jacobian R L x y z 1 j) (g.jacobian R L x y z 2 j) = gr at *
  generalize (g.jacobian R L x y z 0 j : ℝ) = j0' at *
  generalize (g.jacobian R L x y z 1 j : ℝ) = j1' at *
  generalize (g.jacobian R L x y z 2 j : ℝ) = j2' at *
  generalize ((frozen L g x y z).jacobian x y z).1 0 j = j0 at *
  generalize ((frozen L g x y z).jacobian x y z).1 1 j = j1 at *
  generalize ((frozen L g x y z).jacobian x y z).1 2 j = j2 at *
  generalize fieldNorm (castV (g.eval R L x y z)) = n' at *
  generalize fieldNorm ((frozen L g x y z).eval x y z) = n at *
  generalize comp (castV (g.eval R L x y z)) 0 = b0' at *
  generalize comp (castV (g.eval R L x y z)) 1 = b1' at *
  generalize comp (castV (g.eval R L x y z)) 2 = b2' at *
  generalize comp ((frozen L g x y z).eval x y z) 0 = b0 at *
  generalize comp ((frozen L g x y z).eval x y z) 1 = b1 at *
  generalize comp ((frozen L g x y z).eval x y z) 2 = b2 at *
  generalize jacobianSize L g x y z = A at *
  generalize S * unitFactorR u ^ 10 = G at *
  generalize H ^ 3 * unitFactorR u ^ 8 = K' at *
  generalize H * unitFactorR u ^ 3 - 1 = e at *
  have hA : 0 ≤ A := le_trans (abs_nonneg _) J0.2
  -- the size of the computed terms
  have size : ∀ {t j' jj : ℝ}, |t| ≤ n' → |j' - jj| ≤ (K' - 1) * A ∧ |jj| ≤ A → |t * j'| * n'⁻¹ ≤ K' * A := by
    intro t j' jj ht hj
    have hj' : |j'| ≤ K' * A := by
      have := abs_add_le (j' - jj) jj
      rw [sub_add_cancel] at this
      linarith [hj.1, hj.2]
    have h0 : |t * n'⁻¹| ≤ 1 := by
      rw [abs_mul, abs_of_pos (inv_pos.2 hv1), ← div_eq_mul_inv, div_le_one hv1]; exact ht
    calc |t * j'| * n'⁻¹ = |t * n'⁻¹ * j'| := by rw [← abs_of_pos (inv_pos.2 hv1), ← abs_mul, abs_of_pos (inv_pos.2 hv1)]; ring_nf
      _ ≤ |j'| := mul_le_first h0
      _ ≤ K' * A := hj'
  have diff : ∀ {t t0 j' jj : ℝ}, |t| ≤ n' → |t / n' - t0 / n| ≤ 3 * e → |j' - jj| ≤ (K' - 1) * A ∧ |jj| ≤ A →
      |t / n' * j' - t0 / n * jj| ≤ (K' - 1) * A + 3 * e * A := by
    intro t t0 j' jj ht hdir hj
    have h0 : |t / n'| ≤ 1 := by rw [abs_div, abs_of_pos hv1, div_le_one hv1]; exact ht
    have e1 : t / n' * j' - t0 / n * jj = t / n' * (j' - jj) + (t / n' - t0 / n) * jj := by ring
    rw [e1]
    refine le_trans (abs_add_le _ _) (add_le_add (le_trans (mul_le_first h0) hj.1) ?_)
    rw [abs_mul]
    exact mul_le_mul hdir hj.2 (abs_nonneg _) (le_trans (abs_nonneg _) hdir)
  have S0 := size C0 J0
  have S1 := size C1 J1
  have S2 := size C2 J2
  have F0 := diff C0 D0 J0
  have F1 := diff C1 D1 J1
  have F2 := diff C2 D2 J2
  have ks : (|b0' * j0'| + |b1' * j1'| + |b2' * j2'|) * n'⁻¹ ≤ 3 * (K' * A) := by
    rw [add_mul, add_mul]; linarith
  have k3 : |(gr : ℝ) - (b0' * j0' + b1' * j1' + b2' * j2') * n'⁻¹| ≤ (G - 1) * (3 * (K' * A)) :=
    le_trans k2 (mul_le_mul_of_nonneg_left ks (by linarith))
  have e2 : (gr : ℝ) - (b0 * j0 + b1 * j1 + b2 * j2) / n = ((gr : ℝ) - (b0' * j0' + b1' * j1' + b2' * j2') * n'⁻¹) +
      ((b0' / n' * j0' - b0 / n * j0) + (b1' / n' * j1' - b1 / n * j1) + (b2' / n' * j2' - b2 / n * j2)) := by ring
  rw [e2]
  have t1 := abs_add_le ((gr : ℝ) - (b0' * j0' + b1' * j1' + b2' * j2') * n'⁻¹)
    ((b0' / n' * j0' - b0 / n * j0) + (b1' / n' * j1' - b1 / n * j1) + (b2' / n' * j2' - b2 / n * j2))
  have t2 := abs_add_le ((b0' / n' * j0' - b0 / n * j0) + (b1' / n' * j1' - b1 / n * j1)) (b2' / n' * j2' - b2 / n * j2)
  have t3 := abs_add_le (b0' / n' * j0' - b0 / n * j0) (b1' / n' * j1' - b1 / n * j1)
  have fin : ((G - 1) * (3 * K') + 3 * (K' - 1) + 9 * e) * A = (G - 1) * (3 * (K' * A)) + 3 * ((K' - 1) * A + 3 * e * A) := by ring
  rw [fin]
  linarith

/-- **C141** In units of rounding, if `hypot` and `sqrt` make at most one rounding. -/
theorem C141_units (hu : 44 * u ≤ 1) (hL : AccurateHypot L (unitFactorR u)) (hS : AccurateSqrt L (unitFactorR u)) (hr : InRadii g x y) :
    let B := (frozen L g x y z).eval x y z
    let J := ((frozen L g x y z).jacobian x y z).1
    let A := jacobianSize L g x y z
    fieldError (g.eval R L x y z) B ≤ 8 * u * fieldNorm B ∧
    (∀ i j, |(g.jacobian R L x y z i j : ℝ) - J i j| ≤ 22 * u * A) ∧
    (g.evalDerivatives R L x y z = none ↔ B = 0) ∧
    ∀ d d', g.evalDerivatives R L x y z = some d → (frozen L g x y z).evalDerivatives x y z = some d' →
      d.B = g.eval R L x y z ∧ d.J = g.jacobian R L x y z ∧
      |(d.babs : ℝ) - fieldNorm B| ≤ 44 * u * fieldNorm B ∧
      (∀ j, |(d.curlB j : ℝ) - comp d'.curlB j| ≤ 48 * u * A) ∧
      (∀ j, |(d.gradB j : ℝ) - comp d'.gradB j| ≤ 204 * u * A) := by
  have hu0 : 0 ≤ u := by
    have := R.rel 1
    rw [abs_one, mul_one] at this
    exact le_trans (abs_nonneg _) this
  have hu1 : u < 1 := by linarith
  have hE : 1 ≤ unitFactorR u := (fl_within R hu1 1).1
  have p4 := unitFactor_pow R hu1 4 (by push_cast; linarith)
  have p11 := unitFactor_pow R hu1 11 (by push_cast; linarith)
  have p12 := unitFactor_pow R hu1 12 (by push_cast; linarith)
  have p22 := unitFactor_pow R hu1 22 (by push_cast; linarith)
  have hu' : 44 * (u : ℝ) ≤ 1 := by exact_mod_cast hu
  push_cast at p4 p11 p12 p22
  have hA : 0 ≤ jacobianSize L g x y z := le_trans (abs_nonneg _) (C141_jacobian R L g x y z hu1 hL hr 0 0).2
  have hN : 0 ≤ fieldNorm ((frozen L g x y z).eval x y z) := Real.sqrt_nonneg _
  have e4 : unitFactorR u * unitFactorR u ^ 3 = unitFactorR u ^ 4 := by ring
  have e11 : unitFactorR u ^ 3 * unitFactorR u ^ 8 = unitFactorR u ^ 11 := by ring
  have e11' : unitFactorR u * unitFactorR u ^ 10 = unitFactorR u ^ 11 := by ring
  have e12 : unitFactorR u ^ 3 * unitFactorR u ^ 9 = unitFactorR u ^ 12 := by ring
  have e22 : unitFactorR u ^ 11 * unitFactorR u ^ 11 = unitFactorR u ^ 22 := by ring
  refine ⟨?_, ?_, ?_, ?_⟩
  · have h := (C141_field R L g x y z hu1 hL hr).1
    rw [e4] at h
    exact le_trans h (mul_le_mul_of_nonneg_right (by linarith) hN)
  · intro i j
    have h := (C141_jacobian R L g x y z hu1 hL hr i j).1
    rw [e11] at h
    exact le_trans h (mul_le_mul_of_nonneg_right (by linarith) hA)
  · refine C141_nan R L g x y z hu1 hL hS hr ?_
    rw [e4]
    linarith
  · intro d d' hd hd'
    refine ⟨?_, ?_, ?_, ?_, ?_⟩
    · simp only [NGridR.evalDerivatives, Option.map_eq_some_iff] at hd
      obtain ⟨b, -, rfl⟩ := hd
      rfl
    · simp only [NGridR.evalDerivatives, Option.map_eq_some_iff] at hd
      obtain ⟨b, -, rfl⟩ := hd
      rfl
    · refine le_trans (C141_strength R L g x y z hu1 hL hS hr d hd) (mul_le_mul_of_nonneg_right ?_ hN)
      rw [e4, show unitFactorR u * unitFactorR u ^ 6 * (1 + 2 * (unitFactorR u ^ 4 - 1)) - 1 =
        2 * (unitFactorR u ^ 11 - 1) + (1 - unitFactorR u ^ 7) by ring]
      have : 1 ≤ unitFactorR u ^ 7 := one_le_pow₀ hE
      linarith
    · have h := C141_curl R L g x y z hu1 hL hr d hd
      simp only [NGrid.evalDerivatives, Option.map_eq_some_iff] at hd'
      obtain ⟨b, -, rfl⟩ := hd'
      simp only [e12] at h
      have hb : (unitFactorR u ^ 12 - 1) * (2 * jacobianSize L g x y z) ≤ 48 * u * jacobianSize L g x y z := by
        nlinarith
      intro j
      fin_cases j
      · exact le_trans h.1 hb
      · exact le_trans h.2.1 hb
      · exact le_trans h.2.2 hb
    · intro j
      refine le_trans (C141_gradient R L g x y z hu1 hL hS hr d hd d' hd' j) (mul_le_mul_of_nonneg_right ?_ hA)
      rw [e4, e11, e11', show (unitFactorR u ^ 11 - 1) * (3 * unitFactorR u ^ 11) = 3 * (unitFactorR u ^ 11 * unitFactorR u ^ 11 - unitFactorR u ^ 11) by ring, e22]
      linarith

/-! ### the whole field -/

theorem clampR_cast (lo hi x : ℚ) : (clampR lo hi x : ℝ) = clampTo lo hi x := by
  unfold clampR clampTo
  have h1 : (x : ℝ) < lo ↔ x < lo := by exact_mod_cast Iff.rfl
  have h2 : (x : ℝ) > hi ↔ x > hi := by exact_mod_cast Iff.rfl
  simp only [h1, h2]
  split_ifs <;> rfl

theorem clampR_mem {lo hi : ℚ} (h : lo ≤ hi) (x : ℚ) : lo ≤ clampR lo hi x ∧ clampR lo hi x ≤ hi := by
  unfold clampR
  split_ifs with h1 h2
  · exact ⟨le_refl _, h⟩
  · exact ⟨h, le_refl _⟩
  · exact ⟨not_lt.1 h1, not_lt.1 h2⟩

/-- What GSL returns is within ε of the spline `S`, and the spline changes by no more than Λ per unit of length in the radius. -/
structure Faithful (g : NGridR) (T : SplR) (S : Spl) (ε Λ : ℝ) : Prop where
  near : ∀ r z : ℚ, g.rmin ≤ r → r ≤ g.rmax → g.zmin ≤ z → z ≤ g.zmax → |(T.val r z : ℝ) - S.val r z| ≤ ε
  slope : ∀ a b z : ℝ, g.rmin ≤ a → a ≤ g.rmax → g.rmin ≤ b → b ≤ g.rmax → g.zmin ≤ z → z ≤ g.zmax →
    |S.val a z - S.val b z| ≤ Λ * |a - b|

/-- **C141** The field that is returned against the exact field of the exact splines: what GSL gets wrong, what the splines change
over the error of the radius, and four roundings. -/
theorem C141_whole (hu : u < 1) (hL : AccurateHypot L H) (hr : InRadii g x y) (hz : g.zmin ≤ g.zmax) (S0 S1 S2 : Spl) (psi : Option Spl) (ε Λ : ℝ)
    (h0 : Faithful g g.br S0 ε Λ) (h1 : Faithful g g.bphi S1 ε Λ) (h2 : Faithful g g.bz S2 ε Λ) (hΛ : 0 ≤ Λ) :
    fieldError (g.eval R L x y z) (NGrid.eval ⟨g.rmin, g.rmax, g.zmin, g.zmax, S0, S1, S2, psi⟩ x y z) ≤
      (H * unitFactorR u ^ 3 - 1) * fieldNorm ((frozen L g x y z).eval x y z) + 2 * (ε + Λ * ((H - 1) * hyp x y)) := by
  have hR := C141_radius L g x y hL hr
  have hF := (C141_field R L g x y z hu hL hr).1
  have hrr : g.rmin ≤ g.rmax := by
    have := le_trans hr.1 hr.2
    exact_mod_cast this
  have hd := (approx_of_within hR).2.2
  rw [abs_of_nonneg (hyp_nonneg _ _)] at hd
  have mr := clampR_mem hrr (L.hypot x y)
  have mz := clampR_mem hz z
  have mz1 : (g.zmin : ℝ) ≤ g.height z := by exact_mod_cast mz.1
  have mz2 : (g.height z : ℝ) ≤ g.zmax := by exact_mod_cast mz.2
  have mr1 : (g.rmin : ℝ) ≤ g.radius L x y := by exact_mod_cast mr.1
  have mr2 : (g.radius L x y : ℝ) ≤ g.rmax := by exact_mod_cast mr.2
  have one : ∀ {T : SplR} {S : Spl}, Faithful g T S ε Λ →
      |(T.val (g.radius L x y) (g.height z) : ℝ) - S.val (hyp x y) (g.height z)| ≤ ε + Λ * ((H - 1) * hyp x y) := by
    intro T S hf
    have a := hf.near (g.radius L x y) (g.height z) mr.1 mr.2 mz.1 mz.2
    have b := hf.slope (g.radius L x y) (hyp x y) (g.height z) mr1 mr2 hr.1 hr.2 mz1 mz2
    have c := mul_le_mul_of_nonneg_left hd hΛ
    have := abs_sub_le (T.val (g.radius L x y) (g.height z) : ℝ) (S.val (g.radius L x y) (g.height z)) (S.val (hyp x y) (g.height z))
    linarith
  have o0 := one h0
  have o1 := one h1
  have o2 := one h2
  have hη : 0 ≤ ε + Λ * ((H - 1) * hyp x y) := le_trans (abs_nonneg _) o0
  have hev : NGrid.eval ⟨g.rmin, g.rmax, g.zmin, g.zmax, S0, S1, S2, psi⟩ x y z =
      (S0.val (hyp x y) (g.height z) * cosE (hyp x y) x - S1.val (hyp x y) (g.height z) * sinE (hyp x y) y,
       S0.val (hyp x y) (g.height z) * sinE (hyp x y) y + S1.val (hyp x y) (g.height z) * cosE (hyp x y) x,
       S2.val (hyp x y) (g.height z)) := by
    have e1 : clampTo (g.rmin : ℝ) g.rmax (hyp x y) = hyp x y := frozen_radius L g x y z hr
    have e2 : clampTo (g.zmin : ℝ) g.zmax z = (g.height z : ℝ) := (clampR_cast _ _ _).symm
    simp only [NGrid.eval, e1, e2]
    rfl
  rw [hev]
  rw [frozen_eval L g x y z hr] at hF ⊢
  have as := abs_sinE_le (x : ℝ) y
  have ac := abs_cosE_le (x : ℝ) y
  have f0 := le_trans (le_trans (le_max_left _ _) (le_max_left _ _)) hF
  have f1 := le_trans (le_trans (le_max_right _ _) (le_max_left _ _)) hF
  have f2 := le_trans (le_max_right _ _) hF
  simp only at f0 f1 f2
  have part : ∀ {a b k : ℝ}, |k| ≤ 1 → |a - b| ≤ ε + Λ * ((H - 1) * hyp x y) → |a * k - b * k| ≤ ε + Λ * ((H - 1) * hyp x y) := by
    intro a b k hk hab
    rw [← sub_mul, mul_comm]
    exact le_trans (mul_le_first hk) hab
  unfold fieldError
  simp only
  generalize (g.br.val (g.radius L x y) (g.height z) : ℝ) = b0 at *
  generalize (g.bphi.val (g.radius L x y) (g.height z) : ℝ) = b1 at *
  generalize (g.bz.val (g.radius L x y) (g.height z) : ℝ) = b2 at *
  generalize S0.val (hyp x y) (g.height z) = s0 at *
  generalize S1.val (hyp x y) (g.height z) = s1 at *
  generalize S2.val (hyp x y) (g.height z) = s2 at *
  generalize sinE (hyp x y) y = s at *
  generalize cosE (hyp x y) x = c at *
  generalize ε + Λ * ((H - 1) * hyp x y) = η at *
  have q1 := part ac o0
  have q2 := part as o0
  have q3 := part ac o1
  have q4 := part as o1
  refine max_le (max_le ?_ ?_) ?_
  · have t := abs_sub_le ((g.eval R L x y z).1 : ℝ) (b0 * c - b1 * s) (s0 * c - s1 * s)
    have t2 := abs_sub (b0 * c - s0 * c) (b1 * s - s1 * s)
    rw [show b0 * c - s0 * c - (b1 * s - s1 * s) = b0 * c - b1 * s - (s0 * c - s1 * s) by ring] at t2
    linarith
  · have t := abs_sub_le ((g.eval R L x y z).2.1 : ℝ) (b0 * s + b1 * c) (s0 * s + s1 * c)
    have t2 := abs_add_le (b0 * s - s0 * s) (b1 * c - s1 * c)
    rw [show b0 * s - s0 * s + (b1 * c - s1 * c) = b0 * s + b1 * c - (s0 * s + s1 * c) by ring] at t2
    linarith
  · have t := abs_sub_le ((g.eval R L x y z).2.2 : ℝ) b2 s2
    linarith

/-- The hypotheses of `C141_units` can be met, in double precision. -/
example : ∃ L : MathLib, AccurateHypot L (unitFactorR (1 / 2 ^ 53)) ∧ AccurateSqrt L (unitFactorR (1 / 2 ^ 53)) ∧
    (44 : ℚ) * (1 / 2 ^ 53) ≤ 1 := by
  obtain ⟨L, h, k⟩ := accurate_library (K := unitFactorR (1 / 2 ^ 53)) (by rw [unitFactorR]; norm_num)
  exact ⟨L, h, k, by norm_num⟩

example : InRadii ⟨1, 9, -1, 1, ⟨fun r _ => r, fun _ _ => 1, fun _ _ => 0⟩, ⟨0, 0, 0⟩, ⟨0, 0, 0⟩⟩ 3 4 := by
  have h : hyp ((3 : ℚ) : ℝ) ((4 : ℚ) : ℝ) = 5 := by
    unfold hyp
    rw [show (((3 : ℚ) : ℝ)) ^ 2 + ((4 : ℚ) : ℝ) ^ 2 = 5 ^ 2 by norm_num, Real.sqrt_sq (by norm_num)]
  unfold InRadii
  rw [h]
  norm_num

/-- Linear splines are faithful. -/
example : Faithful ⟨1, 9, -1, 1, ⟨fun r _ => r, fun _ _ => 1, fun _ _ => 0⟩, ⟨0, 0, 0⟩, ⟨0, 0, 0⟩⟩ ⟨fun r _ => r, fun _ _ => 1, fun _ _ => 0⟩
    ⟨fun r _ => r, fun _ _ => 1, fun _ _ => 0⟩ 0 1 :=
  ⟨fun r z _ _ _ _ => by simp, fun a b z _ _ _ _ _ _ => by simp⟩

/-- With exact arithmetic the field, the strength and the curl are those of the exact model. -/
example : ((NGridR.evalDerivatives exactRnd ⟨fun a b => if a = 3 ∧ b = 4 then 5 else 0, fun a => if a = 25 / 16 then 5 / 4 else 0, id, fun a _ => a⟩
    ⟨1, 9, -1, 1, ⟨fun r _ => r, fun _ _ => 1, fun _ _ => 0⟩, ⟨0, 0, 0⟩, ⟨0, 0, 0⟩⟩ 3 4 0).map fun d => (d.B, d.babs, d.curlB 2, d.gradB 0)) =
    some ((3, 4, 0), 5, 0, 3 / 5) := by
  decide +kernel

end

end

end Softlib
