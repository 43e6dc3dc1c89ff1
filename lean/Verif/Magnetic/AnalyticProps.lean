/-
Properties C48 to C51: the analytical magnetic field.
-/
import Verif.Magnetic.AnalyticModel
import Mathlib.Analysis.SpecialFunctions.Pow.Deriv
import Mathlib.Analysis.SpecialFunctions.Sqrt
import Mathlib.Analysis.SpecialFunctions.ExpDeriv
import Mathlib.Tactic.Linarith
import Mathlib.Tactic.FieldSimp
import Mathlib.Tactic.Ring
import Mathlib.Tactic.NormNum
import Mathlib.Tactic.FinCases

namespace Softlib

open Softlib.Magnetic

noncomputable section

/-- The profile can be evaluated and differentiated at `r`: no zero denominator, and for the
current profile at the axis a positive exponent. -/
def QProfile.Regular (p : QProfile) (rminor r : ℝ) : Prop :=
  0 < rminor ∧ safety p rminor r ≠ 0 ∧
  match p with
  | .current _ (some b) => b + 2 ≠ 0 ∧ 1 - 2 / (b + 2) * (r / rminor) ^ b ≠ 0 ∧ (r = 0 → 0 < b)
  | _ => True

/-! ### C51 -/

/-- C51: at every positive radius the profile is differentiable, and the reported value is the
radius times the derivative. -/
theorem C51_rdqdr (p : QProfile) (rminor r : ℝ) (hr : 0 < r) (h : QProfile.Regular p rminor r) :
    ∃ q', HasDerivAt (safety p rminor) q' r ∧ rdqdr p rminor r = r * q' := by
  obtain ⟨hm, -, h⟩ := h
  have hm' : rminor ≠ 0 := hm.ne'
  have hid : HasDerivAt (fun t : ℝ => t / rminor) (1 / rminor) r := (hasDerivAt_id r).div_const rminor
  cases p with
  | constant a => exact ⟨0, hasDerivAt_const r a, by simp [rdqdr]⟩
  | linear a b =>
    refine ⟨a * (1 / rminor), ?_, ?_⟩
    · exact (hid.const_mul a).add_const b
    · simp only [rdqdr]; field_simp
  | quadratic a b =>
    refine ⟨a * (1 / rminor) * (r / rminor) + a * (r / rminor) * (1 / rminor), ?_, ?_⟩
    · exact ((hid.const_mul a).mul hid).add_const b
    · simp only [rdqdr]; field_simp; ring
  | exponential a b =>
    refine ⟨Real.exp (r / rminor * a) * (1 / rminor * a), ?_, ?_⟩
    · exact ((hid.mul_const a).exp).add_const b
    · simp only [rdqdr]; field_simp
  | current a b =>
    cases b with
    | none => exact ⟨0, hasDerivAt_const r a, by simp [rdqdr]⟩
    | some b =>
      obtain ⟨h1, h2, -⟩ := h
      have hrn : r / rminor ≠ 0 := (div_pos hr hm).ne'
      have hp : HasDerivAt (fun t : ℝ => (t / rminor) ^ b) (1 / rminor * b * (r / rminor) ^ (b - 1)) r :=
        hid.rpow_const (.inl hrn)
      have hden := (hp.const_mul (2 / (b + 2))).const_sub 1
      refine ⟨_, (hasDerivAt_const r a).div hden h2, ?_⟩
      simp only [rdqdr]
      rw [Real.rpow_sub_one hrn]
      generalize (r / rminor) ^ b = an at h2 ⊢
      have h2' : b + 2 - 2 * an ≠ 0 := by
        intro h0
        apply h2
        field_simp
        linarith
      field_simp
      ring
  | other => exact ⟨0, hasDerivAt_const r (1 : ℝ), by simp [rdqdr]⟩

/-- C51 at the axis: the reported value is zero (radius zero times any derivative). -/
theorem C51_rdqdr_axis (p : QProfile) (rminor : ℝ) (h : QProfile.Regular p rminor 0) : rdqdr p rminor 0 = 0 := by
  obtain ⟨-, -, h⟩ := h
  cases p with
  | constant a => rfl
  | linear a b => simp [rdqdr]
  | quadratic a b => simp [rdqdr]
  | exponential a b => simp [rdqdr]
  | current a b =>
    cases b with
    | none => rfl
    | some b =>
      obtain ⟨-, -, h3⟩ := h
      simp only [rdqdr, zero_div, Real.zero_rpow (h3 rfl).ne', mul_zero]
  | other => rfl

/-- The profile is continuous, the axis included. -/
theorem safety_continuous (p : QProfile) (rminor r : ℝ) (hr : 0 ≤ r) (h : QProfile.Regular p rminor r) :
    ContinuousAt (safety p rminor) r := by
  rcases hr.lt_or_eq with hr | hr
  · obtain ⟨q', hq, -⟩ := C51_rdqdr p rminor r hr h
    exact hq.continuousAt
  · subst hr
    obtain ⟨hm, -, h⟩ := h
    have hid : HasDerivAt (fun t : ℝ => t / rminor) (1 / rminor) 0 := (hasDerivAt_id 0).div_const rminor
    cases p with
    | constant a => exact (hasDerivAt_const (0 : ℝ) a).continuousAt
    | linear a b => exact ((hid.const_mul a).add_const b).continuousAt
    | quadratic a b => exact (((hid.const_mul a).mul hid).add_const b).continuousAt
    | exponential a b => exact ((hid.mul_const a).exp.add_const b).continuousAt
    | current a b =>
      cases b with
      | none => exact (hasDerivAt_const (0 : ℝ) a).continuousAt
      | some b =>
        obtain ⟨h1, h2, h3⟩ := h
        have hp : ContinuousAt (fun t : ℝ => (t / rminor) ^ b) 0 :=
          ContinuousAt.rpow_const hid.continuousAt (.inr (h3 rfl).le)
        exact ContinuousAt.div continuousAt_const (continuousAt_const.sub (continuousAt_const.mul hp)) h2
    | other => exact (hasDerivAt_const (0 : ℝ) (1 : ℝ)).continuousAt

/-- A parabolic current profile: q = 2/(1 - r²/2), r q' = 4 at r = 1. -/
example : safety (.current 2 (some 2)) 1 1 = 4 ∧ rdqdr (.current 2 (some 2)) 1 1 = 8 := by
  constructor <;> norm_num [safety, rdqdr]

/-! ### geometry -/

theorem hyp_nonneg (a b : ℝ) : 0 ≤ hyp a b := Real.sqrt_nonneg _

theorem hyp_mul_self (a b : ℝ) : hyp a b * hyp a b = a ^ 2 + b ^ 2 := Real.mul_self_sqrt (by positivity)

theorem hyp_eq_zero {a b : ℝ} (h : hyp a b = 0) : a = 0 ∧ b = 0 := by
  have := hyp_mul_self a b
  rw [h] at this
  constructor <;> nlinarith [sq_nonneg a, sq_nonneg b]

theorem hyp_deriv {a b : ℝ → ℝ} {a' b' t : ℝ} (ha : HasDerivAt a a' t) (hb : HasDerivAt b b' t) (h : hyp (a t) (b t) ≠ 0) :
    HasDerivAt (fun s => hyp (a s) (b s)) ((a t * a' + b t * b') / hyp (a t) (b t)) t := by
  have h1 : HasDerivAt (fun s => a s ^ 2 + b s ^ 2) (2 * a t * a' + 2 * b t * b') t := by
    refine ((ha.pow 2).add (hb.pow 2)).congr_deriv ?_
    norm_num
  have hne : a t ^ 2 + b t ^ 2 ≠ 0 := by
    intro h0; apply h; unfold hyp; rw [h0, Real.sqrt_zero]
  have h2 := h1.sqrt hne
  refine h2.congr_deriv ?_
  show _ = _ / Real.sqrt (a t ^ 2 + b t ^ 2)
  have hs : Real.sqrt (a t ^ 2 + b t ^ 2) ≠ 0 := h
  field_simp

/-- The poloidal angle satisfies `r sin = Z` and `r cos = Rm - R`. -/
theorem theta_spec (a Z : ℝ) :
    hyp a Z * (if hyp a Z ≠ 0 then Z / hyp a Z else 0) = Z ∧ hyp a Z * (if hyp a Z ≠ 0 then a / hyp a Z else 0) = a := by
  by_cases h : hyp a Z = 0
  · obtain ⟨h1, h2⟩ := hyp_eq_zero h
    simp [h, h1, h2]
  · rw [if_pos h, if_pos h]
    constructor <;> field_simp

/-- Component of a triple. -/
def comp (v : ℝ × ℝ × ℝ) : Fin 3 → ℝ := ![v.1, v.2.1, v.2.2]

/-- The field in closed form. -/
theorem eval_closed (f : AField) (hrm : f.rm ≠ 0) (x y z : ℝ) :
    f.eval x y z =
      (f.sigmaI * f.b0 * ((z - f.zm) * (x / (safety f.q f.rminor (hyp (f.rm - hyp x y) (z - f.zm)) * (hyp x y * hyp x y)))) -
          f.sigmaB * f.b0 * f.rm * (y / (hyp x y * hyp x y)),
       f.sigmaI * f.b0 * ((z - f.zm) * (y / (safety f.q f.rminor (hyp (f.rm - hyp x y) (z - f.zm)) * (hyp x y * hyp x y)))) +
          f.sigmaB * f.b0 * f.rm * (x / (hyp x y * hyp x y)),
       f.sigmaI * f.b0 * ((f.rm - hyp x y) * (1 / (safety f.q f.rminor (hyp (f.rm - hyp x y) (z - f.zm)) * hyp x y)))) := by
  have hth := theta_spec (f.rm - hyp x y) (z - f.zm)
  unfold AField.eval
  simp only
  generalize safety f.q f.rminor (hyp (f.rm - hyp x y) (z - f.zm)) = q
  generalize (if hyp (f.rm - hyp x y) (z - f.zm) ≠ 0 then (z - f.zm) / hyp (f.rm - hyp x y) (z - f.zm) else 0) = sn at hth ⊢
  generalize (if hyp (f.rm - hyp x y) (z - f.zm) ≠ 0 then (f.rm - hyp x y) / hyp (f.rm - hyp x y) (z - f.zm) else 0) = cs at hth ⊢
  generalize hyp (f.rm - hyp x y) (z - f.zm) = r at hth ⊢
  rw [← hth.1]
  have hcs := hth.2
  generalize hyp x y = R at hcs ⊢
  have hone : f.rm * f.rm⁻¹ = 1 := mul_inv_cancel₀ hrm
  refine Prod.ext ?_ (Prod.ext ?_ ?_)
  · simp only [div_eq_mul_inv, mul_inv, one_mul]
    linear_combination (f.b0 * R⁻¹ * f.sigmaI * r * q⁻¹ * sn * x * R⁻¹) * hone
  · simp only [div_eq_mul_inv, mul_inv, one_mul]
    linear_combination (f.b0 * R⁻¹ * f.sigmaI * r * q⁻¹ * sn * y * R⁻¹) * hone
  · simp only [div_eq_mul_inv, mul_inv, one_mul]
    rw [← hcs]
    linear_combination (f.b0 * R⁻¹ * f.sigmaI * r * q⁻¹ * cs) * hone

/-- Product rule when one factor vanishes and the other is only continuous. -/
theorem deriv_mul_zero {g h : ℝ → ℝ} {g' t : ℝ} (hg : HasDerivAt g g' t) (h0 : g t = 0) (hh : ContinuousAt h t) :
    HasDerivAt (fun s => g s * h s) (g' * h t) t := by
  rw [hasDerivAt_iff_tendsto_slope] at hg ⊢
  have : slope (fun s => g s * h s) t = fun s => slope g t s * h s := by
    funext s
    simp only [slope_def_field, h0]
    ring
  rw [this]
  exact hg.mul (hh.tendsto.mono_left nhdsWithin_le_nhds)

/-! ### C48 -/

/-- Conditions on field and point: not on the symmetry axis, the profile can be evaluated. -/
structure OffAxis (f : AField) (x y z : ℝ) : Prop where
  rm : f.rm ≠ 0
  R : hyp x y ≠ 0
  reg : QProfile.Regular f.q f.rminor (hyp (f.rm - hyp x y) (z - f.zm))

/-- C48, Jacobian: along every differentiable curve through the point, the field components
returned by `Eval` change as the reported Jacobian says; the points of the magnetic axis are
included. -/
theorem C48_jacobian (f : AField) (x y z : ℝ → ℝ) (u v w t : ℝ) (hx : HasDerivAt x u t) (hy : HasDerivAt y v t) (hz : HasDerivAt z w t)
    (h : OffAxis f (x t) (y t) (z t)) (i : Fin 3) :
    HasDerivAt (fun s => comp (f.eval (x s) (y s) (z s)) i)
      ((f.evalDerivatives (x t) (y t) (z t)).J i 0 * u + (f.evalDerivatives (x t) (y t) (z t)).J i 1 * v +
        (f.evalDerivatives (x t) (y t) (z t)).J i 2 * w) t := by
  obtain ⟨hrm, hR, hreg⟩ := h
  have hR' := hyp_deriv hx hy hR
  have hZ : HasDerivAt (fun s => z s - f.zm) w t := hz.sub_const f.zm
  have ha : HasDerivAt (fun s => f.rm - hyp (x s) (y s)) (-((x t * u + y t * v) / hyp (x t) (y t))) t := hR'.const_sub f.rm
  have hq0 := hreg.2.1
  simp only [eval_closed f hrm]
  unfold AField.evalDerivatives
  simp only
  by_cases hr : hyp (f.rm - hyp (x t) (y t)) (z t - f.zm) = 0
  · -- on the magnetic axis
    obtain ⟨ha0, hZ0⟩ := hyp_eq_zero hr
    have hrd := C51_rdqdr_axis f.q f.rminor (by rw [hr] at hreg; exact hreg)
    have hcont : ContinuousAt (fun s => safety f.q f.rminor (hyp (f.rm - hyp (x s) (y s)) (z s - f.zm))) t := by
      have h1 : ContinuousAt (fun s => hyp (f.rm - hyp (x s) (y s)) (z s - f.zm)) t := by
        unfold hyp at ha ⊢
        exact ((ha.continuousAt.pow 2).add (hZ.continuousAt.pow 2)).sqrt
      exact ContinuousAt.comp (f := fun s => hyp (f.rm - hyp (x s) (y s)) (z s - f.zm)) (safety_continuous f.q f.rminor _ (hyp_nonneg _ _) hreg) h1
    have hRR := (hR'.mul hR')
    have hRRne : hyp (x t) (y t) * hyp (x t) (y t) ≠ 0 := mul_ne_zero hR hR
    have hr2 : hyp (f.rm - hyp (x t) (y t)) 0 = 0 := by rw [hZ0] at hr; exact hr
    simp only [hZ0, hr2, hrd, ne_eq, not_true_eq_false, if_false]
    rw [hr] at hq0
    have hrmR : f.rm = hyp (x t) (y t) := by linarith
    fin_cases i
    · have h1 := deriv_mul_zero hZ hZ0 (hx.continuousAt.div (hcont.mul hRR.continuousAt) (mul_ne_zero (by simp only [hr]; exact hq0) hRRne))
      have h2 := hy.div hRR hRRne
      have h3 := (h1.const_mul (f.sigmaI * f.b0)).sub (h2.const_mul (f.sigmaB * f.b0 * f.rm))
      refine h3.congr_deriv ?_
      simp only [Pi.mul_apply, Pi.div_apply, hr]
      simp
      field_simp
      ring
    · have h1 := deriv_mul_zero hZ hZ0 (hy.continuousAt.div (hcont.mul hRR.continuousAt) (mul_ne_zero (by simp only [hr]; exact hq0) hRRne))
      have h2 := hx.div hRR hRRne
      have h3 := (h1.const_mul (f.sigmaI * f.b0)).add (h2.const_mul (f.sigmaB * f.b0 * f.rm))
      refine h3.congr_deriv ?_
      simp only [Pi.mul_apply, Pi.div_apply, hr]
      simp
      field_simp
      ring
    · have h1 := deriv_mul_zero ha ha0 ((continuousAt_const (y := (1 : ℝ))).div (hcont.mul hR'.continuousAt) (mul_ne_zero (by simp only [hr]; exact hq0) hR))
      have h3 := h1.const_mul (f.sigmaI * f.b0)
      refine h3.congr_deriv ?_
      simp only [Pi.mul_apply, Pi.div_apply, hr]
      simp
      rw [hrmR]
      field_simp
      ring
  · have hrpos : 0 < hyp (f.rm - hyp (x t) (y t)) (z t - f.zm) := lt_of_le_of_ne (hyp_nonneg _ _) (Ne.symm hr)
    obtain ⟨q', hq', hrd⟩ := C51_rdqdr f.q f.rminor _ hrpos hreg
    have hr' := hyp_deriv ha hZ hr
    have hQ := HasDerivAt.comp (h := fun s => hyp (f.rm - hyp (x s) (y s)) (z s - f.zm)) t hq' hr'
    rw [hrd]
    simp only [if_pos hr]
    have hRR := (hR'.mul hR')
    have hRRne : hyp (x t) (y t) * hyp (x t) (y t) ≠ 0 := mul_ne_zero hR hR
    have e : (fun s => safety f.q f.rminor (hyp (f.rm - hyp (x s) (y s)) (z s - f.zm))) =
      (safety f.q f.rminor ∘ fun s => hyp (f.rm - hyp (x s) (y s)) (z s - f.zm)) := rfl
    rw [← e] at hQ
    fin_cases i
    · have h1 := hZ.mul (hx.div (hQ.mul hRR) (mul_ne_zero hq0 hRRne))
      have h2 := hy.div hRR hRRne
      have h3 := (h1.const_mul (f.sigmaI * f.b0)).sub (h2.const_mul (f.sigmaB * f.b0 * f.rm))
      refine h3.congr_deriv ?_
      simp
      field_simp
      ring
    · have h1 := hZ.mul (hy.div (hQ.mul hRR) (mul_ne_zero hq0 hRRne))
      have h2 := hx.div hRR hRRne
      have h3 := (h1.const_mul (f.sigmaI * f.b0)).add (h2.const_mul (f.sigmaB * f.b0 * f.rm))
      refine h3.congr_deriv ?_
      simp
      field_simp
      ring
    · have h1 := ha.mul ((hasDerivAt_const t (1 : ℝ)).div (hQ.mul hR') (mul_ne_zero hq0 hR))
      have h3 := h1.const_mul (f.sigmaI * f.b0)
      refine h3.congr_deriv ?_
      simp
      field_simp
      ring

/-- C48, partial derivatives: entry (i, j) of the reported Jacobian is the derivative of component
`i` along coordinate `j`. -/
theorem C48_partials (f : AField) (x y z : ℝ) (h : OffAxis f x y z) (i : Fin 3) :
    HasDerivAt (fun s => comp (f.eval s y z) i) ((f.evalDerivatives x y z).J i 0) x ∧
    HasDerivAt (fun s => comp (f.eval x s z) i) ((f.evalDerivatives x y z).J i 1) y ∧
    HasDerivAt (fun s => comp (f.eval x y s) i) ((f.evalDerivatives x y z).J i 2) z := by
  refine ⟨?_, ?_, ?_⟩
  · have := C48_jacobian f (fun s => s) (fun _ => y) (fun _ => z) 1 0 0 x (hasDerivAt_id x) (hasDerivAt_const x y) (hasDerivAt_const x z) h i
    simpa using this
  · have := C48_jacobian f (fun _ => x) (fun s => s) (fun _ => z) 0 1 0 y (hasDerivAt_const y x) (hasDerivAt_id y) (hasDerivAt_const y z) h i
    simpa using this
  · have := C48_jacobian f (fun _ => x) (fun _ => y) (fun s => s) 0 0 1 z (hasDerivAt_const z x) (hasDerivAt_const z y) (hasDerivAt_id z) h i
    simpa using this

/-- The angles satisfy sin² + cos² = 1 off the magnetic axis. -/
theorem theta_unit (a Z : ℝ) (h : hyp a Z ≠ 0) : (Z / hyp a Z) ^ 2 + (a / hyp a Z) ^ 2 = 1 := by
  have := hyp_mul_self a Z
  field_simp
  linarith

/-- C48, divergence: the trace of the Jacobian vanishes. -/
theorem C48_divergence (f : AField) (x y z : ℝ) (h : OffAxis f x y z) :
    (f.evalDerivatives x y z).J 0 0 + (f.evalDerivatives x y z).J 1 1 + (f.evalDerivatives x y z).J 2 2 = 0 := by
  obtain ⟨hrm, hR, hreg⟩ := h
  have hq := hreg.2.1
  have hRR := hyp_mul_self x y
  unfold AField.evalDerivatives
  simp only
  generalize safety f.q f.rminor _ = q at hq ⊢
  generalize rdqdr f.q f.rminor _ = rdq
  generalize (if hyp (f.rm - hyp x y) (z - f.zm) ≠ 0 then (z - f.zm) / hyp (f.rm - hyp x y) (z - f.zm) else 0) = sn
  generalize (if hyp (f.rm - hyp x y) (z - f.zm) ≠ 0 then (f.rm - hyp x y) / hyp (f.rm - hyp x y) (z - f.zm) else 0) = cs
  generalize hyp x y = R at hR hRR ⊢
  simp
  field_simp
  have : x ^ 2 = R ^ 2 - y ^ 2 := by linarith
  rw [this]
  ring

/-- C48, curl: the reported curl is the curl given by the (true) Jacobian. -/
theorem C48_curl (f : AField) (x y z : ℝ) (h : OffAxis f x y z) :
    (f.evalDerivatives x y z).curlB =
      ((f.evalDerivatives x y z).J 2 1 - (f.evalDerivatives x y z).J 1 2,
       (f.evalDerivatives x y z).J 0 2 - (f.evalDerivatives x y z).J 2 0,
       (f.evalDerivatives x y z).J 1 0 - (f.evalDerivatives x y z).J 0 1) := by
  obtain ⟨hrm, hR, hreg⟩ := h
  have hq := hreg.2.1
  have hRR := hyp_mul_self x y
  -- r q' (sin² + cos²) = r q'
  have hth : rdqdr f.q f.rminor (hyp (f.rm - hyp x y) (z - f.zm)) *
      ((if hyp (f.rm - hyp x y) (z - f.zm) ≠ 0 then (z - f.zm) / hyp (f.rm - hyp x y) (z - f.zm) else 0) ^ 2 +
       (if hyp (f.rm - hyp x y) (z - f.zm) ≠ 0 then (f.rm - hyp x y) / hyp (f.rm - hyp x y) (z - f.zm) else 0) ^ 2) =
      rdqdr f.q f.rminor (hyp (f.rm - hyp x y) (z - f.zm)) := by
    by_cases h0 : hyp (f.rm - hyp x y) (z - f.zm) = 0
    · rw [h0] at hreg ⊢
      rw [C51_rdqdr_axis f.q f.rminor hreg]
      ring
    · rw [if_pos h0, if_pos h0, theta_unit _ _ h0, mul_one]
  unfold AField.evalDerivatives
  simp only
  generalize safety f.q f.rminor _ = q at hq ⊢
  generalize rdqdr f.q f.rminor _ = rdq at hth ⊢
  generalize (if hyp (f.rm - hyp x y) (z - f.zm) ≠ 0 then (z - f.zm) / hyp (f.rm - hyp x y) (z - f.zm) else 0) = sn at hth ⊢
  generalize (if hyp (f.rm - hyp x y) (z - f.zm) ≠ 0 then (f.rm - hyp x y) / hyp (f.rm - hyp x y) (z - f.zm) else 0) = cs at hth ⊢
  generalize hyp x y = R at hR hRR ⊢
  refine Prod.ext ?_ (Prod.ext ?_ ?_)
  · simp
    field_simp
    linear_combination (-(R * f.b0 * f.sigmaI * y)) * hth
  · simp
    field_simp
    linear_combination ((R * f.b0 * f.sigmaI * x)) * hth
  · simp
    field_simp
    linear_combination (-2 * q ^ 2 * f.b0 * f.rm * f.sigmaB) * hRR

/-- C48: `EvalDerivatives` reports the same field vector as `Eval`. -/
theorem C48_same_field (f : AField) (x y z : ℝ) : (f.evalDerivatives x y z).B = f.eval x y z := rfl

/-- C48, strength: for positive field strength on axis, the reported strength is the norm.
The condition `0 ≤ B0 Rm` is needed: with `B0 < 0` the reported strength is minus the norm. -/
theorem C48_strength_partial (f : AField) (x y z : ℝ) (h : OffAxis f x y z) (hB : f.sigmaB ^ 2 = 1) (hI : f.sigmaI ^ 2 = 1)
    (hpos : 0 ≤ f.b0 * f.rm) :
    (f.evalDerivatives x y z).babs = Real.sqrt ((f.eval x y z).1 ^ 2 + (f.eval x y z).2.1 ^ 2 + (f.eval x y z).2.2 ^ 2) := by
  obtain ⟨hrm, hR, hreg⟩ := h
  have hq := hreg.2.1
  have hRR := hyp_mul_self x y
  have hRpos : 0 < hyp x y := lt_of_le_of_ne (hyp_nonneg _ _) (Ne.symm hR)
  have hrr := hyp_mul_self (f.rm - hyp x y) (z - f.zm)
  rw [eval_closed f hrm]
  unfold AField.evalDerivatives
  simp only
  generalize safety f.q f.rminor _ = q at hq ⊢
  generalize hyp (f.rm - hyp x y) (z - f.zm) = r at hrr ⊢
  generalize hyp x y = R at hR hRR hRpos hrr ⊢
  have h1 : 0 ≤ f.b0 * f.rm * (1 / R) := mul_nonneg hpos (by positivity)
  rw [← Real.sqrt_sq h1, ← Real.sqrt_mul (sq_nonneg _)]
  congr 1
  have e : (f.sigmaI * f.b0 * ((z - f.zm) * (x / (q * (R * R)))) - f.sigmaB * f.b0 * f.rm * (y / (R * R))) ^ 2 +
          (f.sigmaI * f.b0 * ((z - f.zm) * (y / (q * (R * R)))) + f.sigmaB * f.b0 * f.rm * (x / (R * R))) ^ 2 +
        (f.sigmaI * f.b0 * ((f.rm - R) * (1 / (q * R)))) ^ 2 =
      f.b0 ^ 2 * (f.sigmaI ^ 2 * (z - f.zm) ^ 2 * (x ^ 2 + y ^ 2) / (q ^ 2 * R ^ 4) + f.sigmaB ^ 2 * f.rm ^ 2 * (x ^ 2 + y ^ 2) / R ^ 4 +
        f.sigmaI ^ 2 * (f.rm - R) ^ 2 / (q ^ 2 * R ^ 2)) := by
    field_simp
    ring
  rw [e, hI, hB, ← hRR]
  field_simp
  linear_combination f.b0 ^ 2 * hrr

/-- C48, strength, without condition on the sign: the square of the reported strength is the square
of the norm. -/
theorem C48_strength_sq (f : AField) (x y z : ℝ) (h : OffAxis f x y z) (hB : f.sigmaB ^ 2 = 1) (hI : f.sigmaI ^ 2 = 1) :
    (f.evalDerivatives x y z).babs ^ 2 = (f.eval x y z).1 ^ 2 + (f.eval x y z).2.1 ^ 2 + (f.eval x y z).2.2 ^ 2 := by
  obtain ⟨hrm, hR, hreg⟩ := h
  have hq := hreg.2.1
  have hRR := hyp_mul_self x y
  have hrr := hyp_mul_self (f.rm - hyp x y) (z - f.zm)
  rw [eval_closed f hrm]
  unfold AField.evalDerivatives
  simp only
  generalize safety f.q f.rminor _ = q at hq ⊢
  generalize hyp (f.rm - hyp x y) (z - f.zm) = r at hrr ⊢
  generalize hyp x y = R at hR hRR hrr ⊢
  rw [mul_pow, Real.sq_sqrt (add_nonneg (mul_self_nonneg _) zero_le_one)]
  have e : (f.sigmaI * f.b0 * ((z - f.zm) * (x / (q * (R * R)))) - f.sigmaB * f.b0 * f.rm * (y / (R * R))) ^ 2 +
          (f.sigmaI * f.b0 * ((z - f.zm) * (y / (q * (R * R)))) + f.sigmaB * f.b0 * f.rm * (x / (R * R))) ^ 2 +
        (f.sigmaI * f.b0 * ((f.rm - R) * (1 / (q * R)))) ^ 2 =
      f.b0 ^ 2 * (f.sigmaI ^ 2 * (z - f.zm) ^ 2 * (x ^ 2 + y ^ 2) / (q ^ 2 * R ^ 4) + f.sigmaB ^ 2 * f.rm ^ 2 * (x ^ 2 + y ^ 2) / R ^ 4 +
        f.sigmaI ^ 2 * (f.rm - R) ^ 2 / (q ^ 2 * R ^ 2)) := by
    field_simp
    ring
  rw [e, hI, hB, ← hRR]
  field_simp
  linear_combination f.b0 ^ 2 * hrr

/-- The constructor produces signs with square one. -/
theorem mkAField_signs (b0 rm zm rminor : ℝ) (sB sI : FieldSign) (q : QProfile) :
    (mkAField b0 rm zm rminor sB sI q).sigmaB ^ 2 = 1 ∧ (mkAField b0 rm zm rminor sB sI q).sigmaI ^ 2 = 1 := by
  cases sB <;> cases sI <;> norm_num [mkAField, FieldSign.val]

/-- C48 as stated is refuted for a negative field strength on axis (which the constructor
accepts): the reported strength is negative. -/
theorem C48_refuted : (AField.evalDerivatives (mkAField (-1) 1 0 1 .ccw .ccw (.constant 1)) 1 0 0).babs = -1 := by
  norm_num [AField.evalDerivatives, mkAField, hyp, safety, FieldSign.val]

/-- The hypotheses hold, e.g., at a point beside the magnetic axis. -/
example : OffAxis (mkAField 5 2 0 1 .ccw .cw (.linear 2 1)) 3 0 0 := by
  have h3 : hyp 3 0 = 3 := by
    rw [hyp, show (3 : ℝ) ^ 2 + 0 ^ 2 = 3 ^ 2 from by norm_num]; exact Real.sqrt_sq (by norm_num)
  have h1 : hyp (-1) 0 = 1 := by norm_num [hyp]
  refine ⟨by norm_num [mkAField], by rw [h3]; norm_num, ⟨by norm_num [mkAField], ?_, trivial⟩⟩
  have : (2 : ℝ) - 3 = -1 := by norm_num
  simp only [mkAField, h3, this, sub_zero, h1]
  norm_num [safety]

/-! ### C49 -/

/-- The reported strength in closed form. -/
theorem babs_closed (f : AField) (x y z : ℝ) :
    (f.evalDerivatives x y z).babs = f.b0 * f.rm * ((hyp x y)⁻¹ *
      Real.sqrt ((hyp (f.rm - hyp x y) (z - f.zm) / (f.rm * safety f.q f.rminor (hyp (f.rm - hyp x y) (z - f.zm)))) ^ 2 + 1)) := by
  unfold AField.evalDerivatives
  simp only
  rw [one_div, mul_assoc, pow_two]

/-- Components of the outward normal of the circle r = const. -/
def rhat (f : AField) (x y z : ℝ) : ℝ × ℝ × ℝ :=
  let R := hyp x y
  let r := hyp (f.rm - R) (z - f.zm)
  (-((f.rm - R) / r * (x / R)), -((f.rm - R) / r * (y / R)), (z - f.zm) / r)

/-- The error of the reported gradient, as a multiple of `rhat`. -/
def gradErr (f : AField) (x y z : ℝ) : ℝ :=
  let R := hyp x y
  let r := hyp (f.rm - R) (z - f.zm)
  let q := safety f.q f.rminor r
  let rdq := rdqdr f.q f.rminor r
  f.b0 * f.rm / R * (r / (f.rm * q) / (f.rm * q) * (rdq - rdq / q) / Real.sqrt ((r / (f.rm * q)) ^ 2 + 1))

/-- C49, exactly: off the magnetic axis, the derivative of the reported strength along every
curve is the reported gradient plus an error along the normal of the circle r = const; the error
is proportional to r q' (1 - 1/q). -/
theorem C49_exact (f : AField) (x y z : ℝ → ℝ) (u v w t : ℝ) (hx : HasDerivAt x u t) (hy : HasDerivAt y v t) (hz : HasDerivAt z w t)
    (h : OffAxis f (x t) (y t) (z t)) (hr : hyp (f.rm - hyp (x t) (y t)) (z t - f.zm) ≠ 0) :
    HasDerivAt (fun s => (f.evalDerivatives (x s) (y s) (z s)).babs)
      (((f.evalDerivatives (x t) (y t) (z t)).gradB.1 + gradErr f (x t) (y t) (z t) * (rhat f (x t) (y t) (z t)).1) * u +
       ((f.evalDerivatives (x t) (y t) (z t)).gradB.2.1 + gradErr f (x t) (y t) (z t) * (rhat f (x t) (y t) (z t)).2.1) * v +
       ((f.evalDerivatives (x t) (y t) (z t)).gradB.2.2 + gradErr f (x t) (y t) (z t) * (rhat f (x t) (y t) (z t)).2.2) * w) t := by
  obtain ⟨hrm, hR, hreg⟩ := h
  have hR' := hyp_deriv hx hy hR
  have hZ : HasDerivAt (fun s => z s - f.zm) w t := hz.sub_const f.zm
  have ha : HasDerivAt (fun s => f.rm - hyp (x s) (y s)) (-((x t * u + y t * v) / hyp (x t) (y t))) t := hR'.const_sub f.rm
  have hq0 := hreg.2.1
  have hrpos : 0 < hyp (f.rm - hyp (x t) (y t)) (z t - f.zm) := lt_of_le_of_ne (hyp_nonneg _ _) (Ne.symm hr)
  obtain ⟨q', hq', hrd⟩ := C51_rdqdr f.q f.rminor _ hrpos hreg
  have hr' := hyp_deriv ha hZ hr
  have hQ := HasDerivAt.comp (h := fun s => hyp (f.rm - hyp (x s) (y s)) (z s - f.zm)) t hq' hr'
  have e : (fun s => safety f.q f.rminor (hyp (f.rm - hyp (x s) (y s)) (z s - f.zm))) =
    (safety f.q f.rminor ∘ fun s => hyp (f.rm - hyp (x s) (y s)) (z s - f.zm)) := rfl
  rw [← e] at hQ
  simp only [babs_closed]
  have hw : HasDerivAt (fun s => hyp (f.rm - hyp (x s) (y s)) (z s - f.zm) / (f.rm * safety f.q f.rminor (hyp (f.rm - hyp (x s) (y s)) (z s - f.zm)))) _ t :=
    hr'.div (hQ.const_mul f.rm) (mul_ne_zero hrm hq0)
  have hw2 : HasDerivAt (fun s => (hyp (f.rm - hyp (x s) (y s)) (z s - f.zm) / (f.rm * safety f.q f.rminor (hyp (f.rm - hyp (x s) (y s)) (z s - f.zm)))) ^ 2 + 1) _ t :=
    (hw.pow 2).add_const 1
  have hpos : ∀ a : ℝ, 0 < a ^ 2 + 1 := fun a => by positivity
  have hsq := hw2.sqrt (hpos _).ne'
  have h1 := ((hR'.inv hR).mul hsq).const_mul (f.b0 * f.rm)
  refine h1.congr_deriv ?_
  unfold AField.evalDerivatives gradErr rhat
  simp only [hrd, if_pos hr, Pi.inv_apply]
  have hth := theta_unit _ _ hr
  have hS := (Real.sqrt_pos.2 (hpos (hyp (f.rm - hyp (x t) (y t)) (z t - f.zm) / (f.rm * safety f.q f.rminor (hyp (f.rm - hyp (x t) (y t)) (z t - f.zm)))))).ne'
  rw [← pow_two (hyp (f.rm - hyp (x t) (y t)) (z t - f.zm) / (f.rm * safety f.q f.rminor (hyp (f.rm - hyp (x t) (y t)) (z t - f.zm))))]
  generalize Real.sqrt _ = S at hS ⊢
  generalize safety f.q f.rminor _ = q at hq0 ⊢
  generalize hyp (f.rm - hyp (x t) (y t)) (z t - f.zm) = r at hr hth ⊢
  generalize hyp (x t) (y t) = R at hR hth ⊢
  simp only [Nat.cast_ofNat, show 2 - 1 = 1 from rfl, pow_one]
  linear_combination (norm := skip) (f.b0 * f.rm * S * ((x t * u + y t * v) / R) / R ^ 2) * hth
  field_simp
  ring

/-- C49: the reported gradient is the gradient of the reported strength where the safety factor is
stationary (in particular for constant profiles) or equal to one.
Missing: all other points, where the reported gradient is wrong (`C49_refuted`), and the magnetic
axis, where it is reported as zero (`C49_refuted_axis`). -/
theorem C49_gradient_partial (f : AField) (x y z : ℝ → ℝ) (u v w t : ℝ) (hx : HasDerivAt x u t) (hy : HasDerivAt y v t) (hz : HasDerivAt z w t)
    (h : OffAxis f (x t) (y t) (z t)) (hr : hyp (f.rm - hyp (x t) (y t)) (z t - f.zm) ≠ 0)
    (hq : rdqdr f.q f.rminor (hyp (f.rm - hyp (x t) (y t)) (z t - f.zm)) = 0 ∨ safety f.q f.rminor (hyp (f.rm - hyp (x t) (y t)) (z t - f.zm)) = 1) :
    HasDerivAt (fun s => (f.evalDerivatives (x s) (y s) (z s)).babs)
      ((f.evalDerivatives (x t) (y t) (z t)).gradB.1 * u + (f.evalDerivatives (x t) (y t) (z t)).gradB.2.1 * v +
       (f.evalDerivatives (x t) (y t) (z t)).gradB.2.2 * w) t := by
  have h0 : gradErr f (x t) (y t) (z t) = 0 := by
    unfold gradErr
    simp only
    rcases hq with hq | hq <;> rw [hq] <;> simp
  have := C49_exact f x y z u v w t hx hy hz h hr
  simpa only [h0, zero_mul, add_zero] using this

/-- C49 as stated is refuted wherever the error does not vanish: with a non-zero derivative of q
and q different from one, no point beside the magnetic axis has a correct gradient. -/
theorem C49_refuted (f : AField) (x y z : ℝ) (h : OffAxis f x y z) (hb : f.b0 ≠ 0) (hr : hyp (f.rm - hyp x y) (z - f.zm) ≠ 0)
    (hq1 : rdqdr f.q f.rminor (hyp (f.rm - hyp x y) (z - f.zm)) ≠ 0) (hq2 : safety f.q f.rminor (hyp (f.rm - hyp x y) (z - f.zm)) ≠ 1) :
    ¬ (HasDerivAt (fun s => (f.evalDerivatives s y z).babs) (f.evalDerivatives x y z).gradB.1 x ∧
       HasDerivAt (fun s => (f.evalDerivatives x s z).babs) (f.evalDerivatives x y z).gradB.2.1 y ∧
       HasDerivAt (fun s => (f.evalDerivatives x y s).babs) (f.evalDerivatives x y z).gradB.2.2 z) := by
  rintro ⟨h1, h2, h3⟩
  have g1 := C49_exact f (fun s => s) (fun _ => y) (fun _ => z) 1 0 0 x (hasDerivAt_id x) (hasDerivAt_const x y) (hasDerivAt_const x z) h hr
  have g2 := C49_exact f (fun _ => x) (fun s => s) (fun _ => z) 0 1 0 y (hasDerivAt_const y x) (hasDerivAt_id y) (hasDerivAt_const y z) h hr
  have g3 := C49_exact f (fun _ => x) (fun _ => y) (fun s => s) 0 0 1 z (hasDerivAt_const z x) (hasDerivAt_const z y) (hasDerivAt_id z) h hr
  have e1 := g1.unique h1
  have e2 := g2.unique h2
  have e3 := g3.unique h3
  simp only [mul_one, mul_zero, add_zero, zero_add, add_eq_left] at e1 e2 e3
  obtain ⟨hrm, hR, hreg⟩ := h
  have hq0 := hreg.2.1
  have hne : gradErr f x y z ≠ 0 := by
    unfold gradErr
    simp only
    have hpos : ∀ a : ℝ, 0 < a ^ 2 + 1 := fun a => by positivity
    have hS := (Real.sqrt_pos.2 (hpos (hyp (f.rm - hyp x y) (z - f.zm) / (f.rm * safety f.q f.rminor (hyp (f.rm - hyp x y) (z - f.zm)))))).ne'
    generalize Real.sqrt _ = S at hS ⊢
    generalize safety f.q f.rminor _ = q at *
    generalize rdqdr f.q f.rminor _ = d at *
    have hd : d - d / q ≠ 0 := by
      intro h0
      apply hq2
      field_simp at h0
      rw [mul_zero] at h0
      rcases mul_eq_zero.1 h0 with h0 | h0
      · exact absurd h0 hq1
      · linarith
    positivity
  have k1 := (mul_eq_zero.1 e1).resolve_left hne
  have k2 := (mul_eq_zero.1 e2).resolve_left hne
  have k3 := (mul_eq_zero.1 e3).resolve_left hne
  unfold rhat at k1 k2 k3
  simp only at k1 k2 k3
  have hZ : z - f.zm = 0 := by
    rcases div_eq_zero_iff.1 k3 with h | h
    · exact h
    · exact absurd h hr
  have ha : f.rm - hyp x y = 0 := by
    by_contra hne'
    have hx0 : x = 0 := by
      rcases mul_eq_zero.1 (neg_eq_zero.1 k1) with h | h
      · rcases div_eq_zero_iff.1 h with h | h
        · exact absurd h hne'
        · exact absurd h hr
      · rcases div_eq_zero_iff.1 h with h | h
        · exact h
        · exact absurd h hR
    have hy0 : y = 0 := by
      rcases mul_eq_zero.1 (neg_eq_zero.1 k2) with h | h
      · rcases div_eq_zero_iff.1 h with h | h
        · exact absurd h hne'
        · exact absurd h hr
      · rcases div_eq_zero_iff.1 h with h | h
        · exact h
        · exact absurd h hR
    apply hR
    rw [hx0, hy0]
    norm_num [hyp]
  apply hr
  rw [ha, hZ]
  norm_num [hyp]

/-- C49: at the magnetic axis the reported gradient is zero. -/
theorem C49_axis_zero (f : AField) (x y z : ℝ) (hr : hyp (f.rm - hyp x y) (z - f.zm) = 0) :
    (f.evalDerivatives x y z).gradB = (0, 0, 0) := by
  unfold AField.evalDerivatives
  simp [hr]

/-! ### C50 -/

theorem sqrt_hyp (x y : ℝ) : Real.sqrt (x * x + y * y) = hyp x y := by
  unfold hyp; rw [pow_two, pow_two]

theorem hyp_comm (a b : ℝ) : hyp a b = hyp b a := by
  unfold hyp; rw [add_comm]

/-- Flux as a function of R and z in the poloidal plane. -/
theorem flux_closed (f : AField) (x y z : ℝ) :
    f.flux x y z = f.sigmaI * Real.pi * f.b0 * ((z - f.zm) ^ 2 + (f.rm - hyp x y) ^ 2) / safety f.q f.rminor (hyp (f.rm - hyp x y) (z - f.zm)) := by
  unfold AField.flux
  simp only [sqrt_hyp, hyp_comm (z - f.zm)]
  rw [← pow_two, ← pow_two]

/-- C50: `EvalFluxDerivatives` reports the same flux as `EvalFlux`. -/
theorem C50_same_flux (f : AField) (x y z : ℝ) : (f.fluxDerivatives x y z).1 = f.flux x y z := rfl

/-- C50: along every curve, the reported flux changes by the reported derivatives with respect to R
and z; in particular these are its partial derivatives.  The magnetic axis is included. -/
theorem C50_flux_derivatives (f : AField) (x y z : ℝ → ℝ) (u v w t : ℝ) (hx : HasDerivAt x u t) (hy : HasDerivAt y v t) (hz : HasDerivAt z w t)
    (h : OffAxis f (x t) (y t) (z t)) :
    HasDerivAt (fun s => f.flux (x s) (y s) (z s))
      ((f.fluxDerivatives (x t) (y t) (z t)).2.1 * ((x t * u + y t * v) / hyp (x t) (y t)) + (f.fluxDerivatives (x t) (y t) (z t)).2.2 * w) t := by
  obtain ⟨hrm, hR, hreg⟩ := h
  have hR' := hyp_deriv hx hy hR
  have hZ : HasDerivAt (fun s => z s - f.zm) w t := hz.sub_const f.zm
  have ha : HasDerivAt (fun s => f.rm - hyp (x s) (y s)) (-((x t * u + y t * v) / hyp (x t) (y t))) t := hR'.const_sub f.rm
  have hq0 := hreg.2.1
  have hr2 : HasDerivAt (fun s => (z s - f.zm) ^ 2 + (f.rm - hyp (x s) (y s)) ^ 2) _ t := (hZ.pow 2).add (ha.pow 2)
  simp only [flux_closed]
  unfold AField.fluxDerivatives
  simp only [sqrt_hyp, hyp_comm (z t - f.zm)]
  by_cases hr : hyp (f.rm - hyp (x t) (y t)) (z t - f.zm) = 0
  · obtain ⟨ha0, hZ0⟩ := hyp_eq_zero hr
    have hcont : ContinuousAt (fun s => safety f.q f.rminor (hyp (f.rm - hyp (x s) (y s)) (z s - f.zm))) t := by
      have h1 : ContinuousAt (fun s => hyp (f.rm - hyp (x s) (y s)) (z s - f.zm)) t := by
        unfold hyp at ha ⊢
        exact ((ha.continuousAt.pow 2).add (hZ.continuousAt.pow 2)).sqrt
      exact ContinuousAt.comp (f := fun s => hyp (f.rm - hyp (x s) (y s)) (z s - f.zm)) (safety_continuous f.q f.rminor _ (hyp_nonneg _ _) hreg) h1
    have h1 := deriv_mul_zero (hr2.const_mul (f.sigmaI * Real.pi * f.b0)) (by simp only [ha0, hZ0]; ring) (hcont.inv₀ hq0)
    simp only [div_eq_mul_inv]
    refine h1.congr_deriv ?_
    have : hyp (x t) (y t) - f.rm = 0 := by linarith
    simp [ha0, hZ0, this]
  · have hrpos : 0 < hyp (f.rm - hyp (x t) (y t)) (z t - f.zm) := lt_of_le_of_ne (hyp_nonneg _ _) (Ne.symm hr)
    obtain ⟨q', hq', hrd⟩ := C51_rdqdr f.q f.rminor _ hrpos hreg
    have hr' := hyp_deriv ha hZ hr
    have hQ := HasDerivAt.comp (h := fun s => hyp (f.rm - hyp (x s) (y s)) (z s - f.zm)) t hq' hr'
    have h1 := (hr2.const_mul (f.sigmaI * Real.pi * f.b0)).div hQ hq0
    have hmul := hyp_mul_self (f.rm - hyp (x t) (y t)) (z t - f.zm)
    refine h1.congr_deriv ?_
    rw [hrd]
    simp only [Function.comp]
    generalize safety f.q f.rminor _ = q at hq0 ⊢
    generalize hyp (f.rm - hyp (x t) (y t)) (z t - f.zm) = r at hr hmul ⊢
    generalize hyp (x t) (y t) = R at hR hmul ⊢
    generalize (x t * u + y t * v) / R = R'
    simp only [Nat.cast_ofNat, show 2 - 1 = 1 from rfl, pow_one]
    linear_combination (norm := skip) (f.sigmaI * Real.pi * f.b0 * q' * (-(f.rm - R) * R' + (z t - f.zm) * w) / (r * q ^ 2)) * hmul
    field_simp
    ring

/-- C50: the field is tangent to the surfaces of constant flux: its components across the surface
cancel. -/
theorem C50_tangent (f : AField) (x y z : ℝ) (h : OffAxis f x y z) :
    ((f.eval x y z).1 * x + (f.eval x y z).2.1 * y) / hyp x y * (f.fluxDerivatives x y z).2.1 +
      (f.eval x y z).2.2 * (f.fluxDerivatives x y z).2.2 = 0 := by
  obtain ⟨hrm, hR, hreg⟩ := h
  have hq0 := hreg.2.1
  have hRR := hyp_mul_self x y
  rw [eval_closed f hrm]
  unfold AField.fluxDerivatives
  simp only [sqrt_hyp, hyp_comm (z - f.zm)]
  generalize safety f.q f.rminor _ = q at hq0 ⊢
  generalize hyp (f.rm - hyp x y) (z - f.zm) = r
  generalize hyp x y = R at hR hRR ⊢
  linear_combination (norm := skip) (-(f.sigmaI * f.b0 * (z - f.zm) / (q * R ^ 3) * (f.sigmaI * Real.pi * f.b0 * (R - f.rm) / q * (2 - rdqdr f.q f.rminor r / q)))) * hRR
  field_simp
  ring

/-- C54, analytical fields: a clone of a constructed field is the field. -/
theorem C54_analytic_clone (b0 rm zm rminor : ℝ) (sB sI : FieldSign) (q : QProfile) :
    (mkAField b0 rm zm rminor sB sI q).clone = mkAField b0 rm zm rminor sB sI q := by
  cases sB <;> cases sI <;> norm_num [mkAField, AField.clone, FieldSign.val]

/-- C49 as stated is refuted on the magnetic axis: the strength of the field with constant q = 1,
B0 = 1, Rm = 1 decreases outwards there, but the reported gradient is zero. -/
theorem C49_refuted_axis : ¬ HasDerivAt (fun s => (AField.evalDerivatives (mkAField 1 1 0 1 .ccw .ccw (.constant 1)) s 0 0).babs)
    (AField.evalDerivatives (mkAField 1 1 0 1 .ccw .ccw (.constant 1)) 1 0 0).gradB.1 1 := by
  intro h
  rw [C49_axis_zero _ _ _ _ (by norm_num [mkAField, hyp])] at h
  have hid := hasDerivAt_id (1 : ℝ)
  have h1 : HasDerivAt (fun s : ℝ => s⁻¹ * Real.sqrt ((1 - s) ^ 2 + 1)) (-1) 1 := by
    have hi := hid.inv (by norm_num)
    have hs : HasDerivAt (fun s : ℝ => (1 - s) ^ 2 + 1) 0 1 := by
      refine (((hid.const_sub 1).pow 2).add_const 1).congr_deriv ?_
      norm_num
    have hq := hs.sqrt (by norm_num)
    refine (hi.mul hq).congr_deriv ?_
    norm_num
  have h2 : HasDerivAt (fun s => (AField.evalDerivatives (mkAField 1 1 0 1 .ccw .ccw (.constant 1)) s 0 0).babs) (-1) 1 := by
    refine h1.congr_of_eventuallyEq ?_
    filter_upwards [lt_mem_nhds (show (0 : ℝ) < 1 by norm_num)] with s hs
    rw [babs_closed]
    have e1 : hyp s 0 = s := by rw [hyp]; simp [Real.sqrt_sq hs.le]
    have e2 : hyp (1 - s) 0 ^ 2 = (1 - s) ^ 2 := by rw [hyp]; simp [Real.sq_sqrt (sq_nonneg _)]
    simp only [mkAField, safety, sub_zero, e1, mul_one, one_mul, div_one, e2]
  have := h2.unique h
  norm_num at this

/-- The hypotheses of `C49_refuted` hold for a linear profile (q = 3, r q' = 2 at distance 1). -/
example : ∃ f x y z, OffAxis f x y z ∧ f.b0 ≠ 0 ∧ hyp (f.rm - hyp x y) (z - f.zm) ≠ 0 ∧
    rdqdr f.q f.rminor (hyp (f.rm - hyp x y) (z - f.zm)) ≠ 0 ∧ safety f.q f.rminor (hyp (f.rm - hyp x y) (z - f.zm)) ≠ 1 := by
  have h3 : hyp 3 0 = 3 := by
    rw [hyp, show (3 : ℝ) ^ 2 + 0 ^ 2 = 3 ^ 2 from by norm_num]; exact Real.sqrt_sq (by norm_num)
  have h1 : hyp (-1) 0 = 1 := by norm_num [hyp]
  have e : (2 : ℝ) - 3 = -1 := by norm_num
  refine ⟨mkAField 5 2 0 1 .ccw .cw (.linear 2 1), 3, 0, 0, ⟨by norm_num [mkAField], by rw [h3]; norm_num, ⟨by norm_num [mkAField], ?_, trivial⟩⟩,
    by norm_num [mkAField], ?_, ?_, ?_⟩ <;> simp only [mkAField, h3, e, sub_zero, h1] <;> norm_num [safety, rdqdr]

/-- Flux and its derivatives for q = 1, B0 = 1 at distance 1 outside the axis. -/
example : AField.fluxDerivatives (mkAField 1 1 0 1 .ccw .ccw (.constant 1)) 2 0 0 = (Real.pi, 2 * Real.pi, 0) := by
  have h2 : Real.sqrt (2 * 2 + 0 * 0) = 2 := by
    rw [show (2 : ℝ) * 2 + 0 * 0 = 2 ^ 2 from by norm_num]; exact Real.sqrt_sq (by norm_num)
  simp only [AField.fluxDerivatives, mkAField, h2, safety, rdqdr, FieldSign.val]
  refine Prod.ext ?_ (Prod.ext ?_ ?_)
  · norm_num
  · norm_num; ring
  · norm_num

end

end Softlib
