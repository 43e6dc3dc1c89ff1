/-
C63: radial profiles; C64: analytical momentum distributions; C58: their clones.
-/
import Verif.Dist.BesselProps
import Mathlib.Analysis.SpecialFunctions.Arsinh
import Mathlib.Tactic.Ring

namespace Softlib

open Dist

/-! ### C63 -/

/-- A normalised cut-off: zero outside `[rmin, rmax)`, one at `rmin`, strictly decreasing inside and
decreasing from `rmin` on, between zero and one.  `g` is a function of the radius minus the shift. -/
structure IsCutOff (g : ℝ → ℝ) (rmin rmax : ℝ) : Prop where
  outside : ∀ x, x < rmin ∨ rmax ≤ x → g x = 0
  inner : g rmin = 1
  pos : ∀ x, rmin ≤ x → x < rmax → 0 < g x
  le_one : ∀ x, g x ≤ 1
  strict : ∀ x y, rmin ≤ x → x < y → y < rmax → g y < g x

theorem IsCutOff.nonneg {g : ℝ → ℝ} {rmin rmax : ℝ} (h : IsCutOff g rmin rmax) (x : ℝ) : 0 ≤ g x := by
  by_cases hx : rmin ≤ x ∧ x < rmax
  · exact le_of_lt (h.pos x hx.1 hx.2)
  · refine le_of_eq (h.outside x ?_).symm
    by_contra hc
    push Not at hc
    exact hx hc

theorem IsCutOff.antitone {g : ℝ → ℝ} {rmin rmax : ℝ} (h : IsCutOff g rmin rmax) (x y : ℝ) (hx : rmin ≤ x) (hxy : x ≤ y) :
    g y ≤ g x := by
  rcases hxy.lt_or_eq with hlt | rfl
  · by_cases hy : y < rmax
    · exact le_of_lt (h.strict x y hx hlt hy)
    · rw [h.outside y (Or.inr (not_lt.mp hy))]
      exact h.nonneg x
  · exact le_rfl

/-- The way each profile builds a cut-off: a strictly decreasing function of the normalised radius. -/
theorem cutOff_of {φ : ℝ → ℝ} (h0 : φ 0 = 1) (hpos : ∀ t, 0 ≤ t → t < 1 → 0 < φ t)
    (hs : ∀ s t, 0 ≤ s → s < t → t < 1 → φ t < φ s) {rmin rmax : ℝ} (h : rmin < rmax) :
    IsCutOff (fun x => if rmax ≤ x ∨ x < rmin then 0 else φ ((x - rmin) / (rmax - rmin))) rmin rmax := by
  have hd : 0 < rmax - rmin := sub_pos.mpr h
  have hn0 : ∀ x, rmin ≤ x → 0 ≤ (x - rmin) / (rmax - rmin) := fun x hx => div_nonneg (by linarith) hd.le
  have hn1 : ∀ x, x < rmax → (x - rmin) / (rmax - rmin) < 1 := fun x hx => by
    rw [div_lt_one hd]; linarith
  have hin : ∀ x, rmin ≤ x → x < rmax → ¬ (rmax ≤ x ∨ x < rmin) := fun x h1 h2 => by
    rintro (h | h) <;> linarith
  have hle : ∀ t, 0 ≤ t → t < 1 → φ t ≤ 1 := fun t ht0 ht1 => by
    rcases ht0.lt_or_eq with ht | ht
    · rw [← h0]
      exact (hs 0 t le_rfl ht ht1).le
    · rw [← ht, h0]
  constructor
  · intro x hx
    exact if_pos hx.symm
  · simp only [if_neg (hin rmin le_rfl h)]
    simp [h0]
  · intro x h1 h2
    simp only [if_neg (hin x h1 h2)]
    exact hpos _ (hn0 x h1) (hn1 x h2)
  · intro x
    by_cases hx : rmax ≤ x ∨ x < rmin
    · simp [hx]
    · simp only [if_neg hx]
      push Not at hx
      exact hle _ (hn0 x hx.2) (hn1 x hx.1)
  · intro x y h1 h2 h3
    simp only [if_neg (hin x h1 (h2.trans h3)), if_neg (hin y (h1.trans h2.le) h3)]
    refine hs _ _ (hn0 x h1) ?_ (hn1 y h3)
    exact div_lt_div_of_pos_right (by linarith) hd

/-- **C63** The linear profile is a normalised cut-off. -/
theorem C63_linear (rmin rmax : ℝ) (h : rmin < rmax) :
    ∃ (q : Profile) (g : ℝ → ℝ), Profile.mkLinear rmin rmax = some q ∧ (∀ r s, q.eval r s = some (g (r - s))) ∧ IsCutOff g rmin rmax := by
  refine ⟨_, _, if_neg (not_le.mpr h), ?_, cutOff_of (φ := fun t => 1 - t) (by simp) (fun t _ h => by simpa using h)
    (fun s t _ h _ => by simpa using h) h⟩
  intro r s
  simp only [Profile.eval, ge_iff_le]
  split
  · rfl
  · congr 1
    ring

/-- **C63** The power profile with a positive exponent is a normalised cut-off. -/
theorem C63_power_partial (rmin rmax b : ℝ) (h : rmin < rmax) (hb : 0 < b) :
    ∃ (q : Profile) (g : ℝ → ℝ), Profile.mkPower rmin rmax b = some q ∧ (∀ r s, q.eval r s = some (g (r - s))) ∧ IsCutOff g rmin rmax := by
  refine ⟨_, _, if_neg (not_le.mpr h), ?_, cutOff_of (φ := fun t => 1 - t ^ b) (by simp [Real.zero_rpow hb.ne'])
    (fun t h0 h1 => by simpa using Real.rpow_lt_one h0 h1 hb)
    (fun s t h0 h1 _ => by simpa using Real.rpow_lt_rpow h0 h1 hb) h⟩
  intro r s
  simp only [Profile.eval, ge_iff_le, cpow]
  split
  · rfl
  · rw [if_neg (by rintro ⟨-, h⟩; linarith)]
    simp only [Option.map_some]
    congr 2
    rw [mul_one_div]

/-- **C63** (refuted) Exponents that are not positive are accepted: with exponent zero the profile is
zero everywhere. -/
theorem C63_refuted_power_zero (rmin rmax : ℝ) (h : rmin < rmax) :
    ∃ q, Profile.mkPower rmin rmax 0 = some q ∧ ∀ r s, q.eval r s = some 0 := by
  refine ⟨_, if_neg (not_le.mpr h), fun r s => ?_⟩
  simp only [Profile.eval, cpow]
  split
  · rfl
  · simp

/-- **C63** (refuted) With a negative exponent the profile is infinite at the inner edge and negative
everywhere else inside. -/
theorem C63_refuted_power_negative (rmin rmax b : ℝ) (h : rmin < rmax) (hb : b < 0) :
    ∃ q, Profile.mkPower rmin rmax b = some q ∧ q.eval rmin 0 = none ∧
      ∀ x, rmin < x → x < rmax → ∃ v, q.eval x 0 = some v ∧ v < 0 := by
  have hd : 0 < rmax - rmin := sub_pos.mpr h
  refine ⟨_, if_neg (not_le.mpr h), ?_, fun x h1 h2 => ?_⟩
  · simp only [Profile.eval, cpow, sub_zero, sub_self, zero_mul]
    rw [if_neg (by rintro (h' | h') <;> linarith), if_pos ⟨trivial, hb⟩]
    rfl
  · simp only [Profile.eval, cpow, sub_zero]
    have hpos : 0 < (x - rmin) * (1 / (rmax - rmin)) := by
      have : 0 < x - rmin := by linarith
      positivity
    rw [if_neg (by rintro (h' | h') <;> linarith), if_neg (fun h' => hpos.ne' h'.1)]
    refine ⟨_, rfl, sub_neg.mpr (Real.one_lt_rpow_of_pos_of_lt_one_of_neg hpos ?_ hb)⟩
    rw [mul_one_div, div_lt_one hd]
    linarith

/-- **C63** The Bessel profile is a normalised cut-off. -/
theorem C63_bessel (rmin rmax : ℝ) (h : rmin < rmax) :
    ∃ (q : Profile) (g : ℝ → ℝ), Profile.mkBessel rmin rmax = some q ∧ (∀ r s, q.eval r s = some (g (r - s))) ∧ IsCutOff g rmin rmax := by
  have hj := j0Zero_pos
  refine ⟨_, _, if_neg (not_le.mpr h), ?_, cutOff_of (φ := fun t => besselJ0 (t * j0Zero)) (by simp [besselJ0_zero])
    (fun t h0 h1 => (besselJ0_range (by positivity) (by nlinarith)).1)
    (fun s t h0 h1 h2 => besselJ0_strictAnti (by positivity) (by nlinarith)
      (j0Zero_bound (mul_nonneg (by linarith) hj.le) (by nlinarith))) h⟩
  intro r s
  simp only [Profile.eval, ge_iff_le]
  split <;> rfl

/-- **C63** The Gaussian profile is zero outside its interval; inside it is positive, at most its
amplitude, and decreases with the distance from its centre. -/
theorem C63_gaussian (rmin rmax a b c : ℝ) (h : rmin < rmax) (ha : 0 < a) (hb : 0 < b) (hc : 0 < c) :
    ∃ (q : Profile) (g : ℝ → ℝ), Profile.mkGaussian rmin rmax a b c = some q ∧ (∀ r s, q.eval r s = some (g (r - s))) ∧
      (∀ x, x < rmin ∨ rmax ≤ x → g x = 0) ∧ (∀ x, rmin ≤ x → x < rmax → 0 < g x) ∧ (∀ x, g x ≤ a) ∧
      (rmin ≤ b → b < rmax → g b = a) ∧
      (∀ x y, rmin ≤ x → x < rmax → rmin ≤ y → y < rmax → |x - b| < |y - b| → g y < g x) := by
  have hin : ∀ x, rmin ≤ x → x < rmax → ¬ (x ≥ rmax ∨ x < rmin) := fun x h1 h2 => by
    rintro (h | h) <;> linarith
  refine ⟨.gaussian rmin rmax a b c, fun x => if x ≥ rmax ∨ x < rmin then 0 else a * Real.exp (-(x - b) * (x - b) / (c * c)),
    ?_, ?_, ?_, ?_, ?_, ?_, ?_⟩
  · simp only [Profile.mkGaussian]
    rw [if_neg (not_le.mpr h), if_neg (not_le.mpr ha), if_neg (not_le.mpr hb), if_neg (not_le.mpr hc)]
  · intro r s
    simp only [Profile.eval]
    split <;> rfl
  · intro x hx
    exact if_pos hx.symm
  · intro x h1 h2
    simp only [if_neg (hin x h1 h2)]
    positivity
  · intro x
    by_cases hx : x ≥ rmax ∨ x < rmin
    · simp only [if_pos hx]; exact ha.le
    · simp only [if_neg hx]
      refine mul_le_of_le_one_right ha.le (Real.exp_le_one_iff.mpr ?_)
      refine div_nonpos_of_nonpos_of_nonneg ?_ (by positivity)
      nlinarith [mul_self_nonneg (x - b)]
  · intro h1 h2
    simp only [if_neg (hin b h1 h2)]
    simp
  · intro x y h1 h2 h3 h4 h5
    simp only [if_neg (hin x h1 h2), if_neg (hin y h3 h4)]
    refine mul_lt_mul_of_pos_left (Real.exp_lt_exp.mpr ?_) ha
    refine div_lt_div_of_pos_right ?_ (by positivity)
    have := mul_self_lt_mul_self (abs_nonneg (x - b)) h5
    rw [abs_mul_abs_self, abs_mul_abs_self] at this
    linarith

/-- **C63** The Gaussian profile is not normalised to its inner edge, and not decreasing: amplitude 2
with centre inside the interval. -/
theorem C63_gaussian_not_cutOff : ∃ q, Profile.mkGaussian 0 2 2 1 1 = some q ∧
    ∃ v w, q.eval 0 0 = some v ∧ q.eval 1 0 = some w ∧ v < w ∧ w = 2 := by
  refine ⟨.gaussian 0 2 2 1 1, ?_, 2 * Real.exp (-1), 2, ?_, ?_, ?_, rfl⟩
  · simp [Profile.mkGaussian]
  · norm_num [Profile.eval]
  · norm_num [Profile.eval]
  · have : Real.exp (-1) < 1 := Real.exp_lt_one_iff.mpr (by norm_num)
    linarith

/-- **C63** Exactly the intervals that are empty, and for the Gaussian parameters that are not
positive, are rejected. -/
theorem C63_rejects (rmin rmax a b c : ℝ) :
    (Profile.mkLinear rmin rmax = none ↔ rmax ≤ rmin) ∧ (Profile.mkPower rmin rmax b = none ↔ rmax ≤ rmin) ∧
    (Profile.mkBessel rmin rmax = none ↔ rmax ≤ rmin) ∧
    (Profile.mkGaussian rmin rmax a b c = none ↔ rmax ≤ rmin ∨ a ≤ 0 ∨ b ≤ 0 ∨ c ≤ 0) := by
  refine ⟨?_, ?_, ?_, ?_⟩
  · simp only [Profile.mkLinear]; split <;> simp_all
  · simp only [Profile.mkPower]; split <;> simp_all
  · simp only [Profile.mkBessel]; split <;> simp_all
  · simp only [Profile.mkGaussian]
    split
    · simp_all
    · split
      · simp_all
      · split
        · simp_all
        · split <;> simp_all

/-- **C63** The uniform profile is one everywhere, and a distribution without a profile is its momentum
distribution. -/
theorem C63_uniform {M P : Type} (ev : M → P → Option ℝ) (m : M) (r : ℝ) (p : P) (s : ℝ) :
    (toRadial none m).eval ev r p s = ev m p := by
  simp only [toRadial, Radial.eval, Profile.eval]
  cases ev m p <;> simp

/-- **C63** A radial distribution with the unit momentum distribution is its profile. -/
theorem C63_unit (q : Profile) (r p xi s : ℝ) :
    (toRadial (some q) MomDist.unit).eval (fun m x => m.eval x.1 x.2) r (p, xi) s = q.eval r s := by
  simp only [toRadial, Radial.eval, MomDist.eval]
  cases q.eval r s <;> simp

/-- **C63** The value of a radial distribution is the product of its two parts. -/
theorem C63_product {M P : Type} (ev : M → P → Option ℝ) (q : Profile) (m : M) (r : ℝ) (p : P) (s x y : ℝ)
    (hx : q.eval r s = some x) (hy : ev m p = some y) : (toRadial (some q) m).eval ev r p s = some (x * y) := by
  simp only [toRadial, Radial.eval, hx, hy]

/-- **C63** Every profile depends on the radius minus the drift shift only. -/
theorem C63_shift (q : Profile) (r s t : ℝ) : q.eval (r + t) (s + t) = q.eval r s := by
  cases q <;> simp only [Profile.eval, add_sub_add_right_eq_sub]

example : ∃ q, Profile.mkLinear 1 3 = some q ∧ q.eval 2 0 = some (1 / 2) ∧ q.eval 3 0 = some 0 ∧ q.eval 4 2 = some (1 / 2) := by
  refine ⟨_, if_neg (by norm_num), ?_, ?_, ?_⟩ <;> norm_num [Profile.eval]

example : ∃ q v, Profile.mkBessel 0 1 = some q ∧ q.eval (1 / 2) 0 = some v ∧ 0 < v ∧ v < 1 := by
  obtain ⟨q, g, e, hg, hc⟩ := C63_bessel 0 1 (by norm_num)
  refine ⟨q, g (1 / 2), e, by simpa using hg (1 / 2) 0, hc.pos _ (by norm_num) (by norm_num), ?_⟩
  have := hc.strict 0 (1 / 2) le_rfl (by norm_num) (by norm_num)
  rwa [hc.inner] at this

/-! ### C64 -/

/-- **C64** Every analytical distribution is even in the pitch. -/
theorem C64_even (m : MomDist) (p xi : ℝ) : m.eval p (-xi) = m.eval p xi := by
  cases m <;> simp only [MomDist.eval, avalancheEval, connorHastieEval, abs_neg, neg_mul_neg]

/-- **C64** The exponential pitch distribution is positive, and increases with |xi| exactly if its
parameter is positive. -/
theorem C64_expPitch (C p : ℝ) : (∀ xi, ∃ v, (MomDist.expPitch C).eval p xi = some v ∧ 0 < v) ∧
    ((∀ x y v w, |x| < |y| → (MomDist.expPitch C).eval p x = some v → (MomDist.expPitch C).eval p y = some w → v < w) ↔ 0 < C) := by
  refine ⟨fun xi => ⟨_, rfl, Real.exp_pos _⟩, ?_⟩
  constructor
  · intro h
    have := h 0 1 _ _ (by simp) rfl rfl
    simpa using this
  · intro h x y v w hxy hv hw
    simp only [MomDist.eval, Option.some.injEq] at hv hw
    rw [← hv, ← hw]
    exact Real.exp_lt_exp.mpr (mul_lt_mul_of_pos_left hxy h)

/-- **C64** The avalanche distribution, for an electric field and an effective charge above -1 and a
positive Coulomb logarithm, is positive at every non-zero momentum and increases strictly with |xi|. -/
theorem C64_avalanche (EHat lnLambda Zeff p : ℝ) (hE : -1 < EHat) (hL : 0 < lnLambda) (hZ : -1 < Zeff) (hp : p ≠ 0) :
    ∃ g : ℝ → ℝ, (∀ xi, (MomDist.mkAvalanche EHat lnLambda Zeff).eval p xi = some (g |xi|)) ∧ (∀ u, 0 < g u) ∧
      StrictMono g := by
  have hA : 0 < (EHat + 1) / (Zeff + 1) * Real.sqrt (p * p + 1) := by
    have h1 : 0 < EHat + 1 := by linarith
    have h2 : 0 < Zeff + 1 := by linarith
    have h3 : 0 < Real.sqrt (p * p + 1) := Real.sqrt_pos.mpr (by nlinarith [mul_self_nonneg p])
    positivity
  have hg : 0 < lnLambda * Real.sqrt (Zeff + 5) := mul_pos hL (Real.sqrt_pos.mpr (by linarith))
  have hp2 : 0 < p * p := mul_self_pos.mpr hp
  simp only [MomDist.mkAvalanche, MomDist.eval, avalancheEval]
  generalize (EHat + 1) / (Zeff + 1) * Real.sqrt (p * p + 1) = A at *
  generalize lnLambda * Real.sqrt (Zeff + 5) = g0 at *
  have hden : 0 < 1 - Real.exp (-2 * A) := by
    have : Real.exp (-2 * A) < 1 := Real.exp_lt_one_iff.mpr (by linarith)
    linarith
  have hpi := Real.pi_pos
  have hm : 0 < electronMass := by norm_num [electronMass]
  have hc : 0 < lightSpeed := by norm_num [lightSpeed]
  refine ⟨fun u => electronMass * lightSpeed * A / (2 * Real.pi * g0 * (p * p)) *
    (Real.exp (-Real.sqrt (p * p + 1) / g0 - A * (1 - u)) / (1 - Real.exp (-2 * A))), ?_, ?_, ?_⟩
  · intro xi
    simp only [fdiv]
    rw [if_neg (by positivity), if_neg hg.ne']
    simp only [if_neg hden.ne', Option.bind_eq_bind, Option.bind_some]
    rfl
  · intro u
    have := Real.exp_pos (-Real.sqrt (p * p + 1) / g0 - A * (1 - u))
    positivity
  · intro u v huv
    simp only []
    refine mul_lt_mul_of_pos_left ?_ (by positivity)
    refine div_lt_div_of_pos_right (Real.exp_lt_exp.mpr ?_) hden
    nlinarith

/-- **C64** (refuted) At zero momentum the avalanche distribution divides by zero. -/
theorem C64_refuted_avalanche_zero (EHat lnLambda Zeff xi : ℝ) :
    (MomDist.mkAvalanche EHat lnLambda Zeff).eval 0 xi = none := by
  simp [MomDist.mkAvalanche, MomDist.eval, avalancheEval, fdiv]

/-- The cut-off factor of the Connor-Hastie distribution. -/
noncomputable def chCut (pMax deltaP p : ℝ) : ℝ :=
  if deltaP = 0 ∨ p < pMax then 1 else Real.exp (-((p - pMax) / deltaP * ((p - pMax) / deltaP)))

theorem chCut_pos (pMax deltaP p : ℝ) : 0 < chCut pMax deltaP p := by
  simp only [chCut]
  split
  · exact one_pos
  · exact Real.exp_pos _

theorem connorHastie_eq (EHat Zeff pMax deltaP p xi : ℝ) (hp : p ≠ 0) (hxi : xi ≠ 0) :
    (MomDist.mkConnorHastie EHat Zeff pMax deltaP).eval p xi = some (chCut pMax deltaP p *
      (1 / (p * |xi|) * Real.exp (-((EHat + 1) / (2 * (Zeff + 1)) * p * (1 - |xi| * |xi|) / |xi|)))) := by
  have hx : |xi| ≠ 0 := abs_ne_zero.mpr hxi
  simp only [MomDist.mkConnorHastie, MomDist.eval, connorHastieEval, chCut, fdiv]
  generalize (EHat + 1) / (2 * (Zeff + 1)) = D
  rw [abs_mul_abs_self]
  have e : -D * p * (1 - xi * xi) / |xi| = -(D * p * (1 - xi * xi) / |xi|) := by ring
  split
  · rw [if_neg (mul_ne_zero hp hx), e, one_mul]
    rfl
  · rename_i h
    push Not at h
    rw [if_neg h.1, if_neg (mul_ne_zero hp hx), e]
    show some _ = some _
    congr 1
    rw [sub_eq_add_neg, Real.exp_add]
    ring

/-- **C64** The Connor-Hastie distribution is positive at every positive momentum and non-zero pitch,
for all parameters, with and without the cut-off. -/
theorem C64_connorHastie_pos (EHat Zeff pMax deltaP p xi : ℝ) (hp : 0 < p) (hxi : xi ≠ 0) :
    ∃ v, (MomDist.mkConnorHastie EHat Zeff pMax deltaP).eval p xi = some v ∧ 0 < v := by
  refine ⟨_, connorHastie_eq EHat Zeff pMax deltaP p xi hp.ne' hxi, ?_⟩
  have := chCut_pos pMax deltaP p
  have := abs_pos.mpr hxi
  positivity

theorem log_lt_half {t : ℝ} (h : 1 < t) : Real.log t < (t - t⁻¹) / 2 := by
  rw [← Real.sinh_log (by linarith)]
  exact Real.self_lt_sinh_iff.mpr (Real.log_pos h)

/-- The core of the monotonicity, with `q = D p`. -/
theorem chCore_lt {q u v : ℝ} (hq : 1 / 2 ≤ q) (hu : 0 < u) (huv : u < v) (hv : v ≤ 1) :
    1 / u * Real.exp (-(q * (1 - u * u) / u)) < 1 / v * Real.exp (-(q * (1 - v * v) / v)) := by
  have hv0 : 0 < v := hu.trans huv
  have hlog := log_lt_half (show 1 < v / u by rw [one_lt_div hu]; exact huv)
  have hexp : ∀ w : ℝ, 0 < w → 1 / w = Real.exp (-Real.log w) := fun w hw => by
    rw [Real.exp_neg, Real.exp_log hw, one_div]
  rw [hexp u hu, hexp v hv0, ← Real.exp_add, ← Real.exp_add, Real.exp_lt_exp]
  rw [Real.log_div hv0.ne' hu.ne'] at hlog
  have e1 : (v / u - (v / u)⁻¹) / 2 = (v - u) * (u + v) / (2 * (u * v)) := by
    field_simp
    ring
  have e2 : q * (1 - u * u) / u - q * (1 - v * v) / v = q * (v - u) * (1 + u * v) / (u * v) := by
    field_simp
    ring
  have huv0 : 0 < u * v := mul_pos hu hv0
  have h3 : (v - u) * (u + v) / (2 * (u * v)) ≤ q * (v - u) * (1 + u * v) / (u * v) := by
    rw [div_le_div_iff₀ (by positivity) huv0]
    have h4 : (u + v) ≤ 2 * q * (1 + u * v) := by nlinarith [mul_nonneg (sub_nonneg.mpr hv) (sub_nonneg.mpr (huv.le.trans hv))]
    have h5 : 0 ≤ (v - u) * (u * v) := mul_nonneg (by linarith) huv0.le
    nlinarith [mul_le_mul_of_nonneg_left h4 h5]
  rw [e1] at hlog
  linarith

theorem chCore_gt {q : ℝ} (hq0 : 0 < q) (hq : q < 1 / 2) : ∃ u : ℝ, 0 < u ∧ u < 1 ∧
    1 / (1 : ℝ) * Real.exp (-(q * (1 - 1 * 1) / 1)) < 1 / u * Real.exp (-(q * (1 - u * u) / u)) := by
  have h1 : 0 < 1 - q := by linarith
  have hr : q / (1 - q) < 1 := by rw [div_lt_one h1]; linarith
  have hr0 : 0 < q / (1 - q) := div_pos hq0 h1
  obtain ⟨u, hul, hu1⟩ := exists_between hr
  have hu : 0 < u := hr0.trans hul
  refine ⟨u, hu, hu1, ?_⟩
  have e : (1 : ℝ) / 1 * Real.exp (-(q * (1 - 1 * 1) / 1)) = 1 := by norm_num
  have e2 : 1 / u = Real.exp (-Real.log u) := by rw [Real.exp_neg, Real.exp_log hu, one_div]
  rw [e, e2, ← Real.exp_add]
  refine Real.one_lt_exp_iff.mpr ?_
  have hl : Real.log u ≤ u - 1 := Real.log_le_sub_one_of_pos hu
  have hq2 : q * (1 + u) < u := by
    rw [div_lt_iff₀ h1] at hul
    linarith
  have e3 : q * (1 - u * u) / u = (1 - u) * (q * (1 + u) / u) := by
    field_simp
    ring
  have h4 : q * (1 + u) / u < 1 := by rw [div_lt_one hu]; exact hq2
  rw [e3]
  nlinarith

/-- **C64** At a given momentum the Connor-Hastie distribution increases with |xi| up to 1 exactly if
`D p ≥ 1/2`, where `D = (EHat + 1) / (2 (Zeff + 1))`. -/
theorem C64_connorHastie_partial (EHat Zeff pMax deltaP p : ℝ) (hE : -1 < EHat) (hZ : -1 < Zeff) (hp : 0 < p) :
    (∀ x y v w, x ≠ 0 → |x| < |y| → |y| ≤ 1 → (MomDist.mkConnorHastie EHat Zeff pMax deltaP).eval p x = some v →
      (MomDist.mkConnorHastie EHat Zeff pMax deltaP).eval p y = some w → v < w) ↔
    1 / 2 ≤ (EHat + 1) / (2 * (Zeff + 1)) * p := by
  have hD : 0 < (EHat + 1) / (2 * (Zeff + 1)) := div_pos (by linarith) (by linarith)
  have hcut := chCut_pos pMax deltaP p
  have split : ∀ u : ℝ, chCut pMax deltaP p * (1 / (p * u) *
      Real.exp (-((EHat + 1) / (2 * (Zeff + 1)) * p * (1 - u * u) / u))) = (chCut pMax deltaP p / p) *
      (1 / u * Real.exp (-((EHat + 1) / (2 * (Zeff + 1)) * p * (1 - u * u) / u))) := by
    intro u
    rw [one_div_mul_eq_div, one_div_mul_eq_div, div_mul_div_comm, ← mul_div_assoc]
  have hpre : 0 < chCut pMax deltaP p / p := div_pos hcut hp
  constructor
  · intro h
    by_contra hlt
    push Not at hlt
    obtain ⟨u, hu0, hu1, hu⟩ := chCore_gt (mul_pos hD hp) hlt
    have ha : |u| = u := abs_of_pos hu0
    have := h u 1 _ _ hu0.ne' (by rw [ha, abs_one]; exact hu1) (by rw [abs_one])
      (connorHastie_eq EHat Zeff pMax deltaP p u hp.ne' hu0.ne') (connorHastie_eq EHat Zeff pMax deltaP p 1 hp.ne' one_ne_zero)
    rw [split, split, ha, abs_one] at this
    have h2 := lt_of_mul_lt_mul_left this hpre.le
    exact absurd h2 (not_lt.mpr hu.le)
  · intro hq x y v w hx hxy hy hv hw
    have hx0 : 0 < |x| := abs_pos.mpr hx
    have hy0 : y ≠ 0 := by
      intro h
      rw [h, abs_zero] at hxy
      linarith
    rw [connorHastie_eq _ _ _ _ _ _ hp.ne' hx, split] at hv
    rw [connorHastie_eq _ _ _ _ _ _ hp.ne' hy0, split] at hw
    simp only [Option.some.injEq] at hv hw
    rw [← hv, ← hw]
    exact mul_lt_mul_of_pos_left (chCore_lt hq hx0 hxy hy) hpre

/-- **C64** (refuted) With EHat = Zeff = 1 and p = 1/2 the value at pitch 1/2 exceeds the one at 1. -/
theorem C64_refuted_connorHastie : ∃ v w, (MomDist.mkConnorHastie 1 1 0 0).eval (1 / 2) (1 / 2) = some v ∧
    (MomDist.mkConnorHastie 1 1 0 0).eval (1 / 2) 1 = some w ∧ w < v := by
  refine ⟨_, _, connorHastie_eq 1 1 0 0 (1 / 2) (1 / 2) (by norm_num) (by norm_num),
    connorHastie_eq 1 1 0 0 (1 / 2) 1 (by norm_num) (by norm_num), ?_⟩
  have ha : |(1 / 2 : ℝ)| = 1 / 2 := abs_of_pos (by norm_num)
  rw [ha, abs_one]
  simp only [chCut, true_or, if_true]
  norm_num
  have := Real.add_one_le_exp (-(3 / 8 : ℝ))
  linarith

/-- **C64** (refuted) At pitch zero, or zero momentum, the Connor-Hastie distribution divides by zero. -/
theorem C64_refuted_connorHastie_zero (EHat Zeff pMax deltaP p xi : ℝ) (h : p = 0 ∨ xi = 0) :
    (MomDist.mkConnorHastie EHat Zeff pMax deltaP).eval p xi = none := by
  have : p * |xi| = 0 := by rcases h with h | h <;> simp [h]
  simp only [MomDist.mkConnorHastie, MomDist.eval, connorHastieEval, fdiv, this, if_true]
  split
  · rfl
  · split <;> rfl

/-- **C64** The cut-off only reduces the distribution, by a factor that decreases with the momentum beyond
`pMax`. -/
theorem C64_cutoff (pMax deltaP p : ℝ) : chCut pMax deltaP p ≤ 1 ∧
    ∀ p', deltaP ≠ 0 → pMax ≤ p → p < p' → chCut pMax deltaP p' < chCut pMax deltaP p := by
  constructor
  · simp only [chCut]
    split
    · exact le_rfl
    · exact Real.exp_le_one_iff.mpr (neg_nonpos.mpr (mul_self_nonneg _))
  · intro p' hd h1 h2
    simp only [chCut]
    rw [if_neg (by rintro (h | h); exacts [hd h, by linarith]), if_neg (by rintro (h | h); exacts [hd h, by linarith])]
    refine Real.exp_lt_exp.mpr (neg_lt_neg ?_)
    rw [div_mul_div_comm, div_mul_div_comm]
    refine div_lt_div_of_pos_right ?_ (mul_self_pos.mpr hd)
    exact mul_self_lt_mul_self (by linarith) (by linarith)

example : ∃ v w, (MomDist.mkAvalanche 9 15 1).eval 10 (1 / 2) = some v ∧ (MomDist.mkAvalanche 9 15 1).eval 10 (-1) = some w ∧
    0 < v ∧ v < w := by
  obtain ⟨g, hg, hpos, hmono⟩ := C64_avalanche 9 15 1 10 (by norm_num) (by norm_num) (by norm_num) (by norm_num)
  refine ⟨_, _, hg _, hg _, hpos _, hmono ?_⟩
  rw [abs_neg, abs_one, abs_of_pos] <;> norm_num

/-! ### C58 -/

/-- **C58** The clone of a radial profile is the same profile. -/
theorem C58_profile (q : Profile) (h : q.Made) : q.clone = some q := by
  cases h with
  | uniform => rfl
  | linear h =>
    have h' := h
    simp only [Profile.mkLinear] at h'
    split at h'
    · cases h'
    · injection h' with h'
      subst h'
      exact h
  | power h =>
    have h' := h
    simp only [Profile.mkPower] at h'
    split at h'
    · cases h'
    · injection h' with h'
      subst h'
      exact h
  | bessel h =>
    have h' := h
    simp only [Profile.mkBessel] at h'
    split at h'
    · cases h'
    · injection h' with h'
      subst h'
      exact h
  | gaussian h =>
    have h' := h
    simp only [Profile.mkGaussian] at h'
    split at h'
    · cases h'
    · split at h'
      · cases h'
      · split at h'
        · cases h'
        · split at h'
          · cases h'
          · injection h' with h'
            subst h'
            exact h

/-- **C58** The clone of an analytical momentum distribution is the same distribution. -/
theorem C58_analytical (m : MomDist) (h : m.Made) : m.clone = m := by
  cases h <;> rfl

/-- **C58** The clone of a radial distribution evaluates identically, if the momentum distribution has a
faithful clone. -/
theorem C58_radial {M P : Type} (ev : M → P → Option ℝ) (mc : M → Option M) (d : Radial M) (hq : d.rp.Made) (m' : M)
    (hm : mc d.msdf = some m') (he : ∀ p, ev m' p = ev d.msdf p) :
    ∃ d', d.clone mc = some d' ∧ ∀ r p s, d'.eval ev r p s = d.eval ev r p s := by
  refine ⟨⟨d.rp, m'⟩, ?_, ?_⟩
  · simp only [Radial.clone, C58_profile d.rp hq, hm]
  · intro r p s
    simp only [Radial.eval, he]

example : ∃ d', (Radial.mk Profile.uniform (MomDist.mkAvalanche 9 15 1)).clone (fun m => some m.clone) = some d' ∧
    ∀ r p s, d'.eval (fun m (p : ℝ × ℝ) => m.eval p.1 p.2) r p s =
      (Radial.mk Profile.uniform (MomDist.mkAvalanche 9 15 1)).eval (fun m (p : ℝ × ℝ) => m.eval p.1 p.2) r p s :=
  C58_radial _ _ _ .uniform (MomDist.mkAvalanche 9 15 1) rfl (fun _ => rfl)

end Softlib
