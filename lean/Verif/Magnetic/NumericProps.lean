/-
Properties C52 to C54: the numeric magnetic field.
-/
import Verif.Magnetic.NumericModel
import Verif.Magnetic.AnalyticProps
import Mathlib.Analysis.Calculus.Deriv.Mul

namespace Softlib

open Softlib.Magnetic

noncomputable section

/-! ### C52 -/

/-- Rotation around the vertical axis by the angle with cosine `c` and sine `s`. -/
def rotZ (c s : ℝ) (v : ℝ × ℝ × ℝ) : ℝ × ℝ × ℝ := (c * v.1 - s * v.2.1, s * v.1 + c * v.2.1, v.2.2)

/-- Square of the norm of a vector. -/
def normSq3 (v : ℝ × ℝ × ℝ) : ℝ := v.1 ^ 2 + v.2.1 ^ 2 + v.2.2 ^ 2

/-- A constant spline. -/
def constSpl (a : ℝ) : Spl := ⟨fun _ _ => a, fun _ _ => 0, fun _ _ => 0⟩

theorem hyp_rot (c s x y : ℝ) (h : c ^ 2 + s ^ 2 = 1) : hyp (c * x - s * y) (s * x + c * y) = hyp x y := by
  unfold hyp
  congr 1
  linear_combination (x ^ 2 + y ^ 2) * h

/-- C52: turning the evaluation point around the torus axis turns the field vector, for every
point whose (clamped) radius is not zero. -/
theorem C52_axisymmetric_partial (g : NGrid) (x y z c s : ℝ) (h : c ^ 2 + s ^ 2 = 1)
    (h0 : clampTo g.rmin g.rmax (hyp x y) ≠ 0) :
    g.eval (c * x - s * y) (s * x + c * y) z = rotZ c s (g.eval x y z) := by
  simp only [NGrid.eval, rotZ, hyp_rot c s x y h, if_pos h0]
  refine Prod.ext ?_ (Prod.ext ?_ rfl)
  · simp only; ring
  · simp only; ring

/-- Without the restriction it fails: on the torus axis of a grid that reaches it, the field is
the same horizontal vector whatever the turn. -/
theorem C52_refuted_axis : ∃ (g : NGrid) (c s : ℝ), c ^ 2 + s ^ 2 = 1 ∧
    g.eval (c * 0 - s * 0) (s * 0 + c * 0) 0 ≠ rotZ c s (g.eval 0 0 0) := by
  refine ⟨⟨0, 1, -1, 1, constSpl 1, constSpl 0, constSpl 0, none⟩, 0, 1, by norm_num, ?_⟩
  simp [NGrid.eval, rotZ, clampTo, constSpl, hyp]

/-- C52: within the radial range of the grid the norm of the field is the norm of the tabulated
cylindrical components. -/
theorem C52_norm_partial (g : NGrid) (x y z : ℝ) (h1 : g.rmin ≤ hyp x y) (h2 : hyp x y ≤ g.rmax) :
    normSq3 (g.eval x y z) = g.br.val (hyp x y) (clampTo g.zmin g.zmax z) ^ 2
      + g.bphi.val (hyp x y) (clampTo g.zmin g.zmax z) ^ 2 + g.bz.val (hyp x y) (clampTo g.zmin g.zmax z) ^ 2 := by
  have hc : clampTo g.rmin g.rmax (hyp x y) = hyp x y := by
    unfold clampTo
    rw [if_neg (not_lt.mpr h1), if_neg (not_lt.mpr h2)]
  simp only [NGrid.eval, normSq3, hc]
  by_cases h0 : hyp x y = 0
  · rw [if_neg (not_not.mpr h0), if_neg (not_not.mpr h0)]; ring
  · rw [if_pos h0, if_pos h0]
    have hs := hyp_mul_self x y
    generalize hyp x y = r at *
    have hu : (x / r) ^ 2 + (y / r) ^ 2 = 1 := by field_simp; linarith
    generalize x / r = a at *
    generalize y / r = b at *
    linear_combination (g.br.val r (clampTo g.zmin g.zmax z) ^ 2 + g.bphi.val r (clampTo g.zmin g.zmax z) ^ 2) * hu

/-- Exactly, for every point: the horizontal components are scaled by the ratio of the true to
the clamped radius. -/
theorem C52_norm_exact (g : NGrid) (x y z : ℝ) (h0 : clampTo g.rmin g.rmax (hyp x y) ≠ 0) :
    normSq3 (g.eval x y z) = (hyp x y / clampTo g.rmin g.rmax (hyp x y)) ^ 2
        * (g.br.val (clampTo g.rmin g.rmax (hyp x y)) (clampTo g.zmin g.zmax z) ^ 2
          + g.bphi.val (clampTo g.rmin g.rmax (hyp x y)) (clampTo g.zmin g.zmax z) ^ 2)
      + g.bz.val (clampTo g.rmin g.rmax (hyp x y)) (clampTo g.zmin g.zmax z) ^ 2 := by
  simp only [NGrid.eval, normSq3, if_pos h0]
  have hs := hyp_mul_self x y
  generalize clampTo g.rmin g.rmax (hyp x y) = r at *
  generalize hyp x y = R at *
  generalize g.br.val r (clampTo g.zmin g.zmax z) = p
  generalize g.bphi.val r (clampTo g.zmin g.zmax z) = q
  field_simp
  linear_combination (-(p ^ 2 + q ^ 2)) * hs

/-- Outside the grid the norm is not kept: twice as far out, twice the field. -/
theorem C52_refuted_outside : ∃ (g : NGrid) (x y z : ℝ),
    normSq3 (g.eval x y z) ≠ g.br.val (clampTo g.rmin g.rmax (hyp x y)) (clampTo g.zmin g.zmax z) ^ 2
      + g.bphi.val (clampTo g.rmin g.rmax (hyp x y)) (clampTo g.zmin g.zmax z) ^ 2
      + g.bz.val (clampTo g.rmin g.rmax (hyp x y)) (clampTo g.zmin g.zmax z) ^ 2 := by
  refine ⟨⟨1, 2, -1, 1, constSpl 1, constSpl 0, constSpl 0, none⟩, 4, 0, 0, ?_⟩
  have h4 : hyp 4 0 = 4 := by
    unfold hyp
    rw [show (4 : ℝ) ^ 2 + 0 ^ 2 = 4 ^ 2 by norm_num, Real.sqrt_sq (by norm_num)]
  simp only [NGrid.eval, normSq3, clampTo, constSpl, h4]
  norm_num

/-- The strength computed with the scaling is the norm. -/
theorem babsOf_eq (a b c : ℝ) (h : ¬ (a = 0 ∧ b = 0 ∧ c = 0)) : babsOf a b c = some (Real.sqrt (a ^ 2 + b ^ 2 + c ^ 2)) := by
  have key : ∀ m u v : ℝ, 0 < m → m * Real.sqrt (1 + u / m * (u / m) + v / m * (v / m)) = Real.sqrt (m ^ 2 + u ^ 2 + v ^ 2) := by
    intro m u v hm
    rw [show m ^ 2 + u ^ 2 + v ^ 2 = m ^ 2 * (1 + u / m * (u / m) + v / m * (v / m)) by field_simp,
      Real.sqrt_mul (sq_nonneg m), Real.sqrt_sq hm.le]
  unfold babsOf
  rw [if_neg h]
  split
  · rename_i h1
    have hp : 0 < |a| := lt_of_le_of_lt (abs_nonneg b) h1.1
    rw [key _ _ _ hp, sq_abs, sq_abs, sq_abs]
  · rename_i h1
    split
    · rename_i h2
      have hp : 0 < |b| := lt_of_le_of_lt (abs_nonneg c) h2
      rw [key _ _ _ hp, sq_abs, sq_abs, sq_abs]
      congr 2; ring
    · rename_i h2
      have hp : 0 < |c| := by
        rcases (abs_nonneg c).lt_or_eq with hc | hc
        · exact hc
        · exfalso
          push Not at h1 h2
          rw [← hc] at h1 h2
          have hb : |b| = 0 := le_antisymm h2 (abs_nonneg b)
          have ha : |a| = 0 := by
            rcases (abs_nonneg a).lt_or_eq with ha | ha
            · have := h1 (by rw [hb]; exact ha)
              linarith
            · exact ha.symm
          exact h ⟨abs_eq_zero.mp ha, abs_eq_zero.mp hb, abs_eq_zero.mp hc.symm⟩
      rw [key _ _ _ hp, sq_abs, sq_abs, sq_abs]
      congr 2; ring

/-- C52: the derivatives come with the same field as `Eval`, |B| is its norm, the gradient of |B|
is the one following from the reported Jacobian, and the curl is the one of the Jacobian; for
every point, inside the grid or not, where the field is not zero. -/
theorem C52_consistent (g : NGrid) (x y z : ℝ) (hB : g.eval x y z ≠ 0) :
    ∃ d, g.evalDerivatives x y z = some d ∧ d.B = g.eval x y z ∧
      d.babs = Real.sqrt (normSq3 (g.eval x y z)) ∧ 0 < d.babs ∧
      (∀ j, comp d.gradB j * d.babs = ∑ i, comp d.B i * d.J i j) ∧
      comp d.curlB 0 = d.J 2 1 - d.J 1 2 ∧ comp d.curlB 1 = d.J 0 2 - d.J 2 0 ∧ comp d.curlB 2 = d.J 1 0 - d.J 0 1 := by
  have he : (g.jacobian x y z).2 = g.eval x y z := by simp only [NGrid.jacobian, NGrid.eval]
  have hne : ¬ ((g.eval x y z).1 = 0 ∧ (g.eval x y z).2.1 = 0 ∧ (g.eval x y z).2.2 = 0) := by
    rintro ⟨a, b, c⟩
    exact hB (Prod.ext a (Prod.ext b c))
  have hpos : 0 < (g.eval x y z).1 ^ 2 + (g.eval x y z).2.1 ^ 2 + (g.eval x y z).2.2 ^ 2 := by
    rcases lt_or_ge 0 ((g.eval x y z).1 ^ 2 + (g.eval x y z).2.1 ^ 2 + (g.eval x y z).2.2 ^ 2) with hp | hp
    · exact hp
    · exfalso
      refine hne ⟨?_, ?_, ?_⟩ <;> nlinarith [sq_nonneg (g.eval x y z).1, sq_nonneg (g.eval x y z).2.1, sq_nonneg (g.eval x y z).2.2]
  have hs := Real.sqrt_pos.mpr hpos
  refine ⟨_, by simp only [NGrid.evalDerivatives, he]; rw [babsOf_eq _ _ _ hne]; rfl, rfl, rfl, hs, ?_, rfl, rfl, rfl⟩
  intro j
  have hs' := hs.ne'
  simp only [Fin.sum_univ_three]
  fin_cases j <;> · simp [comp]; field_simp

/-- With a zero field strength and gradient are NaN. -/
theorem C52_zero_field (g : NGrid) (x y z : ℝ) (hB : g.eval x y z = 0) : g.evalDerivatives x y z = none := by
  have he : (g.jacobian x y z).2 = g.eval x y z := by simp only [NGrid.jacobian, NGrid.eval]
  simp only [NGrid.evalDerivatives, he, hB]
  simp [babsOf]

/-- The derivative functions of a spline are its derivatives at (r, z). -/
def Spl.Smooth (S : Spl) (r z : ℝ) : Prop :=
  ∀ (R Z : ℝ → ℝ) (u w t : ℝ), HasDerivAt R u t → HasDerivAt Z w t → R t = r → Z t = z →
    HasDerivAt (fun s => S.val (R s) (Z s)) (S.dr r z * u + S.dz r z * w) t

theorem ngrid_eval_inside (g : NGrid) (x y z : ℝ) (hr1 : g.rmin ≤ hyp x y) (hr2 : hyp x y ≤ g.rmax) (hz1 : g.zmin ≤ z) (hz2 : z ≤ g.zmax)
    (h0 : hyp x y ≠ 0) : g.eval x y z = (g.br.val (hyp x y) z * (x / hyp x y) - g.bphi.val (hyp x y) z * (y / hyp x y),
      g.br.val (hyp x y) z * (y / hyp x y) + g.bphi.val (hyp x y) z * (x / hyp x y), g.bz.val (hyp x y) z) := by
  simp only [NGrid.eval]
  rw [show clampTo g.rmin g.rmax (hyp x y) = hyp x y by
      unfold clampTo; rw [if_neg (not_lt.mpr hr1), if_neg (not_lt.mpr hr2)],
    show clampTo g.zmin g.zmax z = z by
      unfold clampTo; rw [if_neg (not_lt.mpr hz1), if_neg (not_lt.mpr hz2)],
    if_pos h0, if_pos h0]

/-- Inside the grid and off the torus axis the reported Jacobian is the true Jacobian of the field:
along every differentiable curve the field changes at the rate Jacobian times velocity. -/
theorem C52_jacobian (g : NGrid) (x y z : ℝ → ℝ) (u v w t : ℝ) (hx : HasDerivAt x u t) (hy : HasDerivAt y v t) (hz : HasDerivAt z w t)
    (h0 : hyp (x t) (y t) ≠ 0) (hr1 : g.rmin < hyp (x t) (y t)) (hr2 : hyp (x t) (y t) < g.rmax)
    (hz1 : g.zmin < z t) (hz2 : z t < g.zmax) (hbr : Spl.Smooth g.br (hyp (x t) (y t)) (z t))
    (hbp : Spl.Smooth g.bphi (hyp (x t) (y t)) (z t)) (hbz : Spl.Smooth g.bz (hyp (x t) (y t)) (z t)) (i : Fin 3) :
    HasDerivAt (fun s => comp (g.eval (x s) (y s) (z s)) i)
      ((g.jacobian (x t) (y t) (z t)).1 i 0 * u + (g.jacobian (x t) (y t) (z t)).1 i 1 * v + (g.jacobian (x t) (y t) (z t)).1 i 2 * w) t := by
  have hR := hyp_deriv hx hy h0
  have hRc : ContinuousAt (fun s => hyp (x s) (y s)) t := hR.continuousAt
  have hev : (fun s => comp (g.eval (x s) (y s) (z s)) i) =ᶠ[nhds t]
      (fun s => comp (g.br.val (hyp (x s) (y s)) (z s) * (x s / hyp (x s) (y s)) - g.bphi.val (hyp (x s) (y s)) (z s) * (y s / hyp (x s) (y s)),
        g.br.val (hyp (x s) (y s)) (z s) * (y s / hyp (x s) (y s)) + g.bphi.val (hyp (x s) (y s)) (z s) * (x s / hyp (x s) (y s)),
        g.bz.val (hyp (x s) (y s)) (z s)) i) := by
    filter_upwards [hRc.eventually (lt_mem_nhds hr1), hRc.eventually (gt_mem_nhds hr2), hz.continuousAt.eventually (lt_mem_nhds hz1),
      hz.continuousAt.eventually (gt_mem_nhds hz2), hRc.eventually (isOpen_ne.mem_nhds h0)] with s a1 a2 a3 a4 a5
    rw [ngrid_eval_inside g _ _ _ a1.le a2.le a3.le a4.le a5]
  refine HasDerivAt.congr_of_eventuallyEq ?_ hev
  have d1 := hbr _ _ _ _ t hR hz rfl rfl
  have d2 := hbp _ _ _ _ t hR hz rfl rfl
  have d3 := hbz _ _ _ _ t hR hz rfl rfl
  have hc : clampTo g.rmin g.rmax (hyp (x t) (y t)) = hyp (x t) (y t) := by
    unfold clampTo; rw [if_neg (not_lt.mpr hr1.le), if_neg (not_lt.mpr hr2.le)]
  have hcz : clampTo g.zmin g.zmax (z t) = z t := by
    unfold clampTo; rw [if_neg (not_lt.mpr hz1.le), if_neg (not_lt.mpr hz2.le)]
  have dcos : HasDerivAt (fun s => x s / hyp (x s) (y s)) _ t := hx.div hR h0
  have dsin : HasDerivAt (fun s => y s / hyp (x s) (y s)) _ t := hy.div hR h0
  have hs := hyp_mul_self (x t) (y t)
  fin_cases i
  · have hd : HasDerivAt (fun s => g.br.val (hyp (x s) (y s)) (z s) * (x s / hyp (x s) (y s)) - g.bphi.val (hyp (x s) (y s)) (z s) * (y s / hyp (x s) (y s))) _ t :=
      (d1.mul dcos).sub (d2.mul dsin)
    refine hd.congr_deriv ?_
    simp only [NGrid.jacobian, hc, hcz, if_pos h0, Matrix.cons_val_zero, Matrix.cons_val_one, Matrix.cons_val, Fin.zero_eta, Fin.mk_one, Fin.reduceFinMk]
    generalize hyp (x t) (y t) = r at *
    generalize g.br.val r (z t) = p
    generalize g.bphi.val r (z t) = q
    generalize x t = X at *
    generalize y t = Y at *
    have hX : r ^ 2 = X ^ 2 + Y ^ 2 := by rw [pow_two]; exact hs
    field_simp
    linear_combination (p * u - q * v) * hX
  · have hd : HasDerivAt (fun s => g.br.val (hyp (x s) (y s)) (z s) * (y s / hyp (x s) (y s)) + g.bphi.val (hyp (x s) (y s)) (z s) * (x s / hyp (x s) (y s))) _ t :=
      (d1.mul dsin).add (d2.mul dcos)
    refine hd.congr_deriv ?_
    simp only [NGrid.jacobian, hc, hcz, if_pos h0, Matrix.cons_val_zero, Matrix.cons_val_one, Matrix.cons_val, Fin.zero_eta, Fin.mk_one, Fin.reduceFinMk]
    generalize hyp (x t) (y t) = r at *
    generalize g.br.val r (z t) = p
    generalize g.bphi.val r (z t) = q
    generalize x t = X at *
    generalize y t = Y at *
    have hX : r ^ 2 = X ^ 2 + Y ^ 2 := by rw [pow_two]; exact hs
    field_simp
    linear_combination (p * v + q * u) * hX
  · refine d3.congr_deriv ?_
    simp only [NGrid.jacobian, hc, hcz, if_pos h0, Matrix.cons_val_zero, Matrix.cons_val_one, Matrix.cons_val, Fin.zero_eta, Fin.mk_one, Fin.reduceFinMk]
    field_simp

/-- Inside the grid the reported gradient is the true gradient of |B|: along every differentiable
curve the norm of the field changes at the rate gradient times velocity. -/
theorem C52_gradient (g : NGrid) (x y z : ℝ → ℝ) (u v w t : ℝ) (hx : HasDerivAt x u t) (hy : HasDerivAt y v t) (hz : HasDerivAt z w t)
    (h0 : hyp (x t) (y t) ≠ 0) (hr1 : g.rmin < hyp (x t) (y t)) (hr2 : hyp (x t) (y t) < g.rmax)
    (hz1 : g.zmin < z t) (hz2 : z t < g.zmax) (hbr : Spl.Smooth g.br (hyp (x t) (y t)) (z t))
    (hbp : Spl.Smooth g.bphi (hyp (x t) (y t)) (z t)) (hbz : Spl.Smooth g.bz (hyp (x t) (y t)) (z t))
    (d : MagData) (hd : g.evalDerivatives (x t) (y t) (z t) = some d) :
    HasDerivAt (fun s => Real.sqrt (normSq3 (g.eval (x s) (y s) (z s)))) (d.gradB.1 * u + d.gradB.2.1 * v + d.gradB.2.2 * w) t := by
  have hB : g.eval (x t) (y t) (z t) ≠ 0 := by
    intro hB
    rw [C52_zero_field g _ _ _ hB] at hd
    cases hd
  obtain ⟨d', hd', hB1, hB2, hpos, hgr, -⟩ := C52_consistent g (x t) (y t) (z t) hB
  rw [hd] at hd'
  cases hd'
  have hJ : d.J = (g.jacobian (x t) (y t) (z t)).1 := by
    unfold NGrid.evalDerivatives at hd
    simp only [Option.map_eq_some_iff] at hd
    obtain ⟨_, -, hd⟩ := hd
    rw [← hd]
  have e0 := C52_jacobian g x y z u v w t hx hy hz h0 hr1 hr2 hz1 hz2 hbr hbp hbz 0
  have e1 := C52_jacobian g x y z u v w t hx hy hz h0 hr1 hr2 hz1 hz2 hbr hbp hbz 1
  have e2 := C52_jacobian g x y z u v w t hx hy hz h0 hr1 hr2 hz1 hz2 hbr hbp hbz 2
  rw [← hJ] at e0 e1 e2
  have hne : (fun s => normSq3 (g.eval (x s) (y s) (z s))) t ≠ 0 := by
    intro h
    simp only at h
    rw [hB2, h, Real.sqrt_zero] at hpos
    exact lt_irrefl _ hpos
  have hsq : HasDerivAt (fun s => normSq3 (g.eval (x s) (y s) (z s))) _ t := ((e0.pow 2).add (e1.pow 2)).add (e2.pow 2)
  refine (hsq.sqrt hne).congr_deriv ?_
  rw [← hB2]
  have g0 := hgr 0
  have g1 := hgr 1
  have g2 := hgr 2
  simp only [Fin.sum_univ_three, hB1] at g0 g1 g2
  change d.gradB.1 * d.babs = _ at g0
  change d.gradB.2.1 * d.babs = _ at g1
  change d.gradB.2.2 * d.babs = _ at g2
  have hne' := hpos.ne'
  simp only [Nat.cast_ofNat, show 2 - 1 = 1 from rfl, pow_one]
  generalize comp (g.eval (x t) (y t) (z t)) 0 = b0 at *
  generalize comp (g.eval (x t) (y t) (z t)) 1 = b1 at *
  generalize comp (g.eval (x t) (y t) (z t)) 2 = b2 at *
  generalize d.babs = S at *
  field_simp
  linear_combination (-u) * g0 - v * g1 - w * g2

/-- Outside the vertical range of the grid the field does not change with height, but the reported
Jacobian takes the derivative at the edge. -/
theorem C52_outside_jacobian : ∃ (g : NGrid), Spl.Smooth g.bz 1 1 ∧ HasDerivAt (fun s => comp (g.eval 1 0 s) 2) 0 5 ∧
    (g.jacobian 1 0 5).1 2 2 = 1 := by
  have h1 : hyp 1 0 = 1 := by
    unfold hyp
    rw [show (1 : ℝ) ^ 2 + 0 ^ 2 = 1 by norm_num, Real.sqrt_one]
  refine ⟨⟨0, 2, 0, 1, constSpl 0, constSpl 0, ⟨fun _ z => z, fun _ _ => 0, fun _ _ => 1⟩, none⟩, ?_, ?_, ?_⟩
  · intro R Z u w t hR hZ _ _
    exact hZ.congr_deriv (by ring)
  · have hev : (fun s => comp (NGrid.eval ⟨0, 2, 0, 1, constSpl 0, constSpl 0, ⟨fun _ z => z, fun _ _ => 0, fun _ _ => 1⟩, none⟩ 1 0 s) 2)
        =ᶠ[nhds (5 : ℝ)] fun _ => (1 : ℝ) := by
      filter_upwards [lt_mem_nhds (show (1 : ℝ) < 5 by norm_num)] with s hs
      have hs' : ¬ s < 0 := by linarith
      simp [NGrid.eval, comp, clampTo, hs, hs']
    exact (hasDerivAt_const (5 : ℝ) (1 : ℝ)).congr_of_eventuallyEq hev
  · simp [NGrid.jacobian]

/-- The reported flux derivatives are the ones of the reported flux, and asking for a missing flux
throws. -/
theorem C52_flux (g : NGrid) (x y z : ℝ) :
    (g.fluxDerivatives x y z).map Prod.fst = g.flux x y z ∧ (g.flux x y z = none ↔ g.psi = none) := by
  constructor
  · simp only [NGrid.fluxDerivatives, NGrid.flux, Option.map_map]; rfl
  · simp [NGrid.flux]

/-- A field with a radial gradient, at the point (3, 4): radius 5. -/
example : ∃ g : NGrid, g.eval 3 4 0 = (3, 4, 7) := by
  refine ⟨⟨1, 9, -1, 1, ⟨fun r _ => r, fun _ _ => 1, fun _ _ => 0⟩, constSpl 0, constSpl 7, none⟩, ?_⟩
  have h : hyp 3 4 = 5 := by
    unfold hyp
    rw [show (3 : ℝ) ^ 2 + 4 ^ 2 = 5 ^ 2 by norm_num, Real.sqrt_sq (by norm_num)]
  simp only [NGrid.eval, clampTo, h, constSpl]
  norm_num

/-! ### C54 -/

/-- Questions a field object answers. -/
inductive NQuery where
  | name
  | desc
  | axis
  | eval (x y z : ℝ)
  | derivatives (x y z : ℝ)
  | hasFlux
  | flux (x y z : ℝ)
  | fluxDerivatives (x y z : ℝ)
  | crosses (x1 y1 z1 x2 y2 z2 : ℝ)
  | intersects (p0 p1 : P3) (outer : Bool)
  | domain
  | separatrix
  | bounds
  | getRadii
  | findRadii
  | maxZ (r : ℝ)

/-- Answers. -/
inductive NAnswer where
  | str (s : String)
  | point (p : Pt)
  | vec (v : ℝ × ℝ × ℝ)
  | data (d : Option MagData)
  | bool (b : Option Bool)
  | num (x : Option ℝ)
  | vec? (v : Option (ℝ × ℝ × ℝ))
  | points (l : List Pt)
  | box (b : Box)
  | radii (m : MaxRes)

/-- The answer of a field on which no bounds have been computed before. -/
def NField.answer (mk : List ℝ → List ℝ → List ℝ → Spl) (f : NField) : NQuery → NAnswer
  | .name => .str f.name
  | .desc => .str f.desc
  | .axis => .point f.axis
  | .eval x y z => .vec ((f.grid mk).eval x y z)
  | .derivatives x y z => .data ((f.grid mk).evalDerivatives x y z)
  | .hasFlux => .bool (some f.Psi.isSome)
  | .flux x y z => .num ((f.grid mk).flux x y z)
  | .fluxDerivatives x y z => .vec? ((f.grid mk).fluxDerivatives x y z)
  | .crosses x1 y1 z1 x2 y2 z2 => .bool (crossesDomain f.dom x1 y1 z1 x2 y2 z2)
  | .intersects p0 p1 outer => .bool (some (intersects3D f.axis f.dom p0 p1 outer))
  | .domain => .points f.dom
  | .separatrix => .points f.separatrix
  | .bounds => .box (getBounds ⟨f.axis, f.dom, false, ⟨0, 0, 0, 0⟩⟩).2
  | .getRadii => .radii (.ok f.maxradius f.minradius)
  | .findRadii => .radii (findMaxRadius f.axis (radiusDom f.sep f.wall))
  | .maxZ r => .radii (findMaxMin (f.dom.map fun p => ⟨p.z, p.r⟩) r)

/-- `f` is what the constructor makes. -/
def Constructed (f : NField) : Prop :=
  ∃ name desc R Z Br Bphi Bz Psi axis sep wall, nInit name desc R Z Br Bphi Bz Psi axis sep wall = .ok f

/-- C54: the clone of a field with a wall exists and answers every query like the original. -/
theorem C54_clone_partial (f : NField) (hf : Constructed f) (w : List Pt) (hw : f.wall = some w) :
    ∃ c, f.clone = .ok c ∧ ∀ mk q, NField.answer mk c q = NField.answer mk f q := by
  obtain ⟨name, desc, R, Z, Br, Bphi, Bz, Psi, axis, sep, wall, h⟩ := hf
  unfold nInit at h
  split at h
  · cases h
  · unfold finish at h
    cases hm : findMaxRadius axis (radiusDom sep wall) with
    | ub => rw [hm] at h; cases h
    | notInside => rw [hm] at h; cases h
    | ok mx mn =>
      rw [hm] at h
      simp only [Res.ok.injEq] at h
      subst h
      simp only at hw
      subst hw
      have hr : radiusDom (some (sep.getD [])) (some w) = radiusDom sep (some w) := rfl
      refine ⟨⟨name, desc, R, Z, Br, Bphi, Bz, Psi, axis, some (sep.getD []), some w, w, mx, mn, sep.getD []⟩, ?_, ?_⟩
      · simp only [NField.clone, nInit, finish, Option.getD_some, hr, hm, domainOf]
        rfl
      · intro mk q
        cases q <;> rfl

/-- A field given by its separatrix only: the clone has no domain any more, and asking whether a
line crosses it is undefined. -/
theorem C54_refuted_separatrix (f : NField) (hf : Constructed f) (hw : f.wall = none) (s : List Pt) (hs : f.sep = some s) :
    f.dom = s ∧ ∃ c, f.clone = .ok c ∧ c.dom = [] ∧ ∀ x1 y1 z1 x2 y2 z2, crossesDomain c.dom x1 y1 z1 x2 y2 z2 = none := by
  obtain ⟨name, desc, R, Z, Br, Bphi, Bz, Psi, axis, sep, wall, h⟩ := hf
  unfold nInit at h
  split at h
  · cases h
  · unfold finish at h
    cases hm : findMaxRadius axis (radiusDom sep wall) with
    | ub => rw [hm] at h; cases h
    | notInside => rw [hm] at h; cases h
    | ok mx mn =>
      rw [hm] at h
      simp only [Res.ok.injEq] at h
      subst h
      simp only at hw hs
      subst hw hs
      have hr : radiusDom (some s) (some []) = radiusDom (some s) none := rfl
      refine ⟨rfl, ⟨name, desc, R, Z, Br, Bphi, Bz, Psi, axis, some s, some [], [], mx, mn, s⟩, ?_, rfl, fun _ _ _ _ _ _ => rfl⟩
      simp only [NField.clone, nInit, finish, Option.getD_some, Option.getD_none, hr, hm, domainOf]
      rfl

/-- A square contour around (2, 0). -/
def squareWall : List Pt := [⟨1, 1⟩, ⟨1, -1⟩, ⟨3, -1⟩, ⟨3, 1⟩, ⟨1, 1⟩]

theorem squareWall_radius : findMaxRadius ⟨2, 0⟩ squareWall = .ok 3 1 := by
  norm_num [findMaxRadius, squareWall, spans, rpointsLoop, crossR, rpointsResult, maxMin]

theorem square_constructed (Psi : Option (List ℝ)) (sep wall : Option (List Pt)) (h : radiusDom sep wall = squareWall)
    (hs : sep.isSome ∨ wall.isSome) :
    nInit "n" "d" [1, 3] [-1, 1] [1, 2, 3, 4] [5, 6, 7, 8] [9, 10, 11, 12] Psi ⟨2, 0⟩ sep wall =
      .ok ⟨"n", "d", [1, 3], [-1, 1], [1, 2, 3, 4], [5, 6, 7, 8], [9, 10, 11, 12], Psi, ⟨2, 0⟩, sep, wall, domainOf sep wall, 3, 1, sep.getD []⟩ := by
  unfold nInit finish
  rw [if_neg (by cases sep <;> cases wall <;> simp_all), h, squareWall_radius]

/-- Fields with a wall, and fields with a separatrix only, are constructed. -/
example : (∃ f, Constructed f ∧ f.wall = some squareWall) ∧ ∃ f, Constructed f ∧ f.wall = none ∧ f.sep = some squareWall :=
  ⟨⟨_, ⟨_, _, _, _, _, _, _, _, _, _, _, square_constructed none none (some squareWall) rfl (.inr rfl)⟩, rfl⟩,
   ⟨_, ⟨_, _, _, _, _, _, _, _, _, _, _, square_constructed none (some squareWall) none rfl (.inl rfl)⟩, rfl, rfl⟩⟩

end

end Softlib
