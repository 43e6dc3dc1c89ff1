/-
C147: integrations of smooth equations do not fail and reach every time.
-/
import Verif.Integrator.ConvergeProps
import Verif.Integrator.ControlModel

namespace Softlib

open Softlib.Integrator

noncomputable section

/-! ### the error estimate of small steps -/

section
variable {V : Type} [NormedAddCommGroup V] [NormedSpace ℝ V]

/-- **C147** The error estimate of a step is at most `(L B + K) h² / 3`, where `B` is the size of the slope at its begin, `L` and `K` are the Lipschitz
constants in value and time, and `50 L h ≤ 1`. -/
theorem C147_estimate {f : ℝ → V → V} {L K B : ℝ} (hL0 : 0 ≤ L) (hK0 : 0 ≤ K)
    (hf : ∀ r t y z, ‖f r y - f t z‖ ≤ L * ‖y - z‖ + K * |r - t|) (t h : ℝ) (hh : 0 ≤ h) (hhL : 50 * (L * h) ≤ 1) (y : V) (hB : ‖f t y‖ ≤ B) :
    ‖(innerStep f t h y (f t y)).yerr‖ ≤ (L * B + K) * h ^ 2 / 3 := by
  have hB0 : 0 ≤ B := le_trans (norm_nonneg _) hB
  obtain ⟨d, hd⟩ : ∃ d, d = f t y := ⟨_, rfl⟩
  obtain ⟨x, hx⟩ : ∃ x, x = 2 / 3 * ((L * B + K) * h) := ⟨_, rfl⟩
  have hx0 : 0 ≤ x := by rw [hx]; positivity
  rw [← hd] at hB ⊢
  have hst : ∀ c, 0 ≤ c → c ≤ 1 → ∀ w, ‖w - c • d‖ ≤ 75 * x → ‖f (t + c * h) (y + h • w) - d‖ ≤ 3 * x := by
    intro c hc0 hc w hw
    have h1 := hf (t + c * h) t (y + h • w) y
    rw [add_sub_cancel_left, add_sub_cancel_left, abs_of_nonneg (mul_nonneg hc0 hh), norm_smul, Real.norm_eq_abs, abs_of_nonneg hh, ← hd] at h1
    have h2 : ‖w‖ ≤ B + 75 * x := by
      have a1 := norm_add_le (w - c • d) (c • d)
      rw [sub_add_cancel] at a1
      have a2 := norm_smul_le_of (c := c) (C := 1) (by rw [abs_of_nonneg hc0]; exact hc) hB
      linarith
    have h3 : L * (h * ‖w‖) ≤ L * (h * (B + 75 * x)) := mul_le_mul_of_nonneg_left (mul_le_mul_of_nonneg_left h2 hh) hL0
    have h4 : K * (c * h) ≤ K * h := mul_le_mul_of_nonneg_left (by nlinarith) hK0
    have h5 : L * h * (75 * x) ≤ 1 / 50 * (75 * x) := mul_le_mul_of_nonneg_right (by linarith) (by linarith)
    have h6 : 3 * x = 2 * (L * B * h + K * h) := by rw [hx]; ring
    nlinarith
  have n1 : ‖d - d‖ ≤ 3 * x := by rw [sub_self, norm_zero]; linarith
  obtain ⟨k2, h2⟩ : ∃ k, k = f (t + c2 * h) (y + (h * a21) • d) := ⟨_, rfl⟩
  have n2 : ‖k2 - d‖ ≤ 3 * x := by
    have s := sum_near (g := d) [(a21, d)] hx0 (by intro p hp; simp only [List.mem_cons, List.not_mem_nil, or_false] at hp; rcases hp with rfl <;> assumption) c2 25 (by norm_num [a21, c2]) (by norm_num [a21, abs_of_pos])
    have := hst c2 (by norm_num [c2]) (by norm_num [c2]) _ (le_trans s (by linarith))
    rw [h2]
    convert this using 4
    simp only [List.map_cons, List.map_nil, List.sum_cons, List.sum_nil]
    module
  obtain ⟨k3, h3⟩ : ∃ k, k = f (t + c3 * h) (y + (h * a31) • d + (h * a32) • k2) := ⟨_, rfl⟩
  have n3 : ‖k3 - d‖ ≤ 3 * x := by
    have s := sum_near (g := d) [(a31, d), (a32, k2)] hx0 (by intro p hp; simp only [List.mem_cons, List.not_mem_nil, or_false] at hp; rcases hp with rfl | rfl <;> assumption) c3 25 (by norm_num [a31, a32, c3])
      (by norm_num [a31, a32, abs_of_pos])
    have := hst c3 (by norm_num [c3]) (by norm_num [c3]) _ (le_trans s (by linarith))
    rw [h3]
    convert this using 4
    simp only [List.map_cons, List.map_nil, List.sum_cons, List.sum_nil]
    module
  obtain ⟨k4, h4⟩ : ∃ k, k = f (t + c4 * h) (y + (h * a41) • d + (h * a42) • k2 + (h * a43) • k3) := ⟨_, rfl⟩
  have n4 : ‖k4 - d‖ ≤ 3 * x := by
    have s := sum_near (g := d) [(a41, d), (a42, k2), (a43, k3)] hx0 (by intro p hp; simp only [List.mem_cons, List.not_mem_nil, or_false] at hp; rcases hp with rfl | rfl | rfl <;> assumption) c4 25 (by norm_num [a41, a42, a43, c4])
      (by norm_num [a41, a42, a43, abs_of_pos, abs_of_neg])
    have := hst c4 (by norm_num [c4]) (by norm_num [c4]) _ (le_trans s (by linarith))
    rw [h4]
    convert this using 4
    simp only [List.map_cons, List.map_nil, List.sum_cons, List.sum_nil]
    module
  obtain ⟨k5, h5⟩ : ∃ k, k = f (t + c5 * h) (y + (h * a51) • d + (h * a52) • k2 + (h * a53) • k3 + (h * a54) • k4) := ⟨_, rfl⟩
  have n5 : ‖k5 - d‖ ≤ 3 * x := by
    have s := sum_near (g := d) [(a51, d), (a52, k2), (a53, k3), (a54, k4)] hx0 (by intro p hp; simp only [List.mem_cons, List.not_mem_nil, or_false] at hp; rcases hp with rfl | rfl | rfl | rfl <;> assumption) c5 25
      (by norm_num [a51, a52, a53, a54, c5]) (by norm_num [a51, a52, a53, a54, abs_of_pos, abs_of_neg])
    have := hst c5 (by norm_num [c5]) (by norm_num [c5]) _ (le_trans s (by linarith))
    rw [h5]
    convert this using 4
    simp only [List.map_cons, List.map_nil, List.sum_cons, List.sum_nil]
    module
  obtain ⟨k6, h6⟩ : ∃ k, k = f (t + h) (y + (h * a61) • d + (h * a62) • k2 + (h * a63) • k3 + (h * a64) • k4 + (h * a65) • k5) := ⟨_, rfl⟩
  have n6 : ‖k6 - d‖ ≤ 3 * x := by
    have s := sum_near (g := d) [(a61, d), (a62, k2), (a63, k3), (a64, k4), (a65, k5)] hx0 (by intro p hp; simp only [List.mem_cons, List.not_mem_nil, or_false] at hp; rcases hp with rfl | rfl | rfl | rfl | rfl <;> assumption) 1 25
      (by norm_num [a61, a62, a63, a64, a65]) (by norm_num [a61, a62, a63, a64, a65, abs_of_pos, abs_of_neg])
    have := hst 1 (by norm_num) le_rfl _ (le_trans s (by linarith))
    rw [one_mul] at this
    rw [h6]
    convert this using 4
    simp only [List.map_cons, List.map_nil, List.sum_cons, List.sum_nil]
    module
  obtain ⟨k7, h7⟩ : ∃ k, k = f (t + h) (y + (h * a71) • d + (h * a73) • k3 + (h * a74) • k4 + (h * a75) • k5 + (h * a76) • k6) := ⟨_, rfl⟩
  have n7 : ‖k7 - d‖ ≤ 3 * x := by
    have s := sum_near (g := d) [(a71, d), (a73, k3), (a74, k4), (a75, k5), (a76, k6)] hx0 (by intro p hp; simp only [List.mem_cons, List.not_mem_nil, or_false] at hp; rcases hp with rfl | rfl | rfl | rfl | rfl <;> assumption) 1 25
      (by norm_num [a71, a73, a74, a75, a76]) (by norm_num [a71, a73, a74, a75, a76, abs_of_pos, abs_of_neg])
    have := hst 1 (by norm_num) le_rfl _ (le_trans s (by linarith))
    rw [one_mul] at this
    rw [h7]
    convert this using 4
    simp only [List.map_cons, List.map_nil, List.sum_cons, List.sum_nil]
    module
  have s := sum_near (g := d) [(e1, d), (e3, k3), (e4, k4), (e5, k5), (e6, k6), (e7, k7)] hx0
    (by intro p hp; simp only [List.mem_cons, List.not_mem_nil, or_false] at hp; rcases hp with rfl | rfl | rfl | rfl | rfl | rfl <;> assumption) 0 (1 / 6)
    (by norm_num [e1, e3, e4, e5, e6, e7]) (by norm_num [e1, e3, e4, e5, e6, e7, abs_of_pos, abs_of_neg])
  have s' := norm_smul_le_of (c := h) (C := h) (by rw [abs_of_nonneg hh]) s
  have eq : (innerStep f t h y d).yerr = (h * e1) • d + (h * e3) • k3 + (h * e4) • k4 + (h * e5) • k5 + (h * e6) • k6 + (h * e7) • k7 := by
    simp only [innerStep, ← h2, ← h3, ← h4, ← h5, ← h6, ← h7]
  rw [eq]
  simp only [List.map_cons, List.map_nil, List.sum_cons, List.sum_nil, zero_smul, sub_zero, add_zero, smul_add, smul_smul, ← add_assoc] at s'
  refine le_trans s' (le_of_eq ?_)
  rw [hx]
  ring

end

/-- The estimate as the step control sees it. -/
theorem estimate_small {N : Nat} (hN : 0 < N) (atol rtol : ℝ) (ha : 0 < atol) (hr : 0 ≤ rtol) (yerr : Fin N → ℝ) (y1 y2 : Nat → ℝ) :
    ∃ e, estimateError N atol rtol (arrOf yerr) y1 y2 = .val e ∧ 0 ≤ e ∧ e ≤ ‖yerr‖ / atol := by
  have tol : ∀ i, atol ≤ tolOf atol rtol (y1 i) (y2 i) := fun i => by
    have : 0 ≤ rtol * max |y1 i| |y2 i| := mul_nonneg hr (le_max_of_le_left (abs_nonneg _))
    unfold tolOf
    linarith
  refine ⟨_, C90_estimate N hN atol rtol _ y1 y2 (fun i _ => by have := tol i; linarith), Real.sqrt_nonneg _, ?_⟩
  have q0 : 0 ≤ ‖yerr‖ / atol := div_nonneg (norm_nonneg _) ha.le
  rw [← Real.sqrt_sq q0]
  refine Real.sqrt_le_sqrt ?_
  have hN' : (0 : ℝ) < N := by exact_mod_cast hN
  rw [div_le_iff₀ hN']
  calc ∑ i ∈ Finset.range N, (arrOf yerr i / tolOf atol rtol (y1 i) (y2 i)) ^ 2 ≤ ∑ _i ∈ Finset.range N, (‖yerr‖ / atol) ^ 2 := by
        refine Finset.sum_le_sum fun i hi => ?_
        have hi' := Finset.mem_range.1 hi
        rw [← sq_abs, abs_div]
        refine pow_le_pow_left₀ (by positivity) ?_ 2
        have t := tol i
        rw [abs_of_pos (show 0 < tolOf atol rtol (y1 i) (y2 i) by linarith)]
        have n : |arrOf yerr i| ≤ ‖yerr‖ := by
          simp only [arrOf, hi', dite_true]
          exact norm_le_pi_norm yerr ⟨i, hi'⟩
        exact div_le_div₀ (norm_nonneg _) n ha t
    _ = (‖yerr‖ / atol) ^ 2 * N := by rw [Finset.sum_const, Finset.card_range, nsmul_eq_mul, mul_comm]

/-! ### the loop of one step -/

/-- What is needed of an error estimate: it is a number, and small for small steps. -/
def SmallFor (err : ℝ → Err) (θ : ℝ) : Prop :=
  ∀ h, 0 < h → ∃ e, err h = .val e ∧ 0 ≤ e ∧ (h ≤ θ → e ≤ (h / θ) ^ 2)

/-- The next step after an accepted one. -/
theorem accepted_optimal (c : Ctl) (h e θ m : ℝ) (hm : m ≤ θ / 10) (hmh : m ≤ h) (hm0 : 0 < m) (he0 : 0 ≤ e) (he1 : e ≤ 1)
    (hs : h ≤ θ → e ≤ (h / θ) ^ 2) : (updateTimestep id Par.default c h (.val e)).1 = true ∧ m ≤ (updateTimestep id Par.default c h (.val e)).2.optimal := by
  have hh : 0 < h := by linarith
  have hθ : 0 < θ := by linarith
  simp only [updateTimestep, if_pos he1, id, true_and]
  obtain ⟨σ, hσ⟩ : ∃ σ, σ = (if e = 0 then Par.default.maxscale
        else if (if Par.default.safe * e ^ (-Par.default.alpha) * c.errold ^ Par.default.beta < Par.default.minscale then Par.default.minscale
            else Par.default.safe * e ^ (-Par.default.alpha) * c.errold ^ Par.default.beta) > Par.default.maxscale then Par.default.maxscale
          else if Par.default.safe * e ^ (-Par.default.alpha) * c.errold ^ Par.default.beta < Par.default.minscale then Par.default.minscale
            else Par.default.safe * e ^ (-Par.default.alpha) * c.errold ^ Par.default.beta) := ⟨_, rfl⟩
  have key : ∀ σ0 : ℝ, σ0 ≤ 1 → (e ≠ 0 → σ0 ≤ 9 / 10 * e ^ (-(1 / 5) : ℝ)) → σ0 ≤ σ := by
    intro σ0 h1 h2
    rw [hσ]
    by_cases e0 : e = 0
    · rw [if_pos e0]; norm_num [Par.default]; linarith
    · rw [if_neg e0]
      have := h2 e0
      have b : Par.default.safe * e ^ (-Par.default.alpha) * c.errold ^ Par.default.beta = 9 / 10 * e ^ (-(1 / 5) : ℝ) := by
        simp [Par.default]
      rw [b]
      have h10 : Par.default.maxscale = 10 := rfl
      have h5 : σ0 ≤ (if 9 / 10 * e ^ (-(1 / 5) : ℝ) < Par.default.minscale then Par.default.minscale else 9 / 10 * e ^ (-(1 / 5) : ℝ)) := by
        split <;> linarith
      rw [h10]
      generalize (if 9 / 10 * e ^ (-(1 / 5) : ℝ) < Par.default.minscale then Par.default.minscale else 9 / 10 * e ^ (-(1 / 5) : ℝ)) = z at h5 ⊢
      split <;> linarith
  have s9 : 9 / 10 ≤ σ := by
    refine key _ (by norm_num) fun e0 => ?_
    have : 1 ≤ e ^ (-(1 / 5) : ℝ) := Real.one_le_rpow_of_pos_of_le_one_of_nonpos (lt_of_le_of_ne he0 (Ne.symm e0)) he1 (by norm_num)
    linarith
  show m ≤ if c.rejected then h * min _ 1 else h * _
  rw [← hσ]
  rcases le_or_gt h (θ / 2) with hs2 | hs2
  · -- small: the step does not shrink
    have e4 : e ≤ 1 / 4 := by
      refine le_trans (hs (by linarith)) ?_
      have : h / θ ≤ 1 / 2 := by rw [div_le_iff₀ hθ]; linarith
      have := pow_le_pow_left₀ (div_nonneg hh.le hθ.le) this 2
      norm_num at this ⊢
      linarith
    have s1 : 1 ≤ σ := by
      refine key _ le_rfl fun e0 => ?_
      have ep : 0 < e := lt_of_le_of_ne he0 (Ne.symm e0)
      have a1 : (1 / 4 : ℝ) ^ (-(1 / 5) : ℝ) ≤ e ^ (-(1 / 5) : ℝ) := Real.rpow_le_rpow_of_nonpos ep e4 (by norm_num)
      have a2 : (10 / 9 : ℝ) ≤ (1 / 4 : ℝ) ^ (-(1 / 5) : ℝ) := by
        rw [show (1 / 4 : ℝ) = 4⁻¹ by norm_num, Real.inv_rpow (by norm_num), Real.rpow_neg (by norm_num), inv_inv]
        have : (10 / 9 : ℝ) = ((10 / 9 : ℝ) ^ (5 : ℕ)) ^ ((1 / 5 : ℝ)) := by
          rw [← Real.rpow_natCast, ← Real.rpow_mul (by norm_num)]; norm_num
        rw [this]
        exact Real.rpow_le_rpow (by norm_num) (by norm_num) (by norm_num)
      linarith
    split
    · rw [min_eq_right s1]; linarith
    · nlinarith
  · have b : ∀ σ', 9 / 10 ≤ σ' → m ≤ h * σ' := fun σ' h' => by nlinarith
    split
    · exact b _ (le_min s9 (by norm_num))
    · exact b _ s9

/-- **C147** The loop of a step ends with an accepted step of at least `m`, and proposes a step of at least `m`. -/
theorem C147_loop (eps T θ m : ℝ) (err : ℝ → Err) (hs : SmallFor err θ) (hm0 : 0 < m) (hm : m ≤ θ / 10) (heps : |T| * eps < m) (h : ℝ) (hmh : m ≤ h) (c : Ctl) :
    ∃ K h' c', m ≤ h' ∧ m ≤ c'.optimal ∧ ∀ fuel, K ≤ fuel → stepLoop id Par.default eps T err fuel h c = .accepted h' c' := by
  have hθ : 0 < θ := by linarith
  obtain ⟨n, hn⟩ : ∃ n : ℕ, h * (9 / 10) ^ n ≤ θ := by
    have hh : 0 < h := by linarith
    obtain ⟨n, hn⟩ := exists_pow_lt_of_lt_one (show 0 < θ / h by positivity) (show (9 / 10 : ℝ) < 1 by norm_num)
    refine ⟨n, ?_⟩
    rw [lt_div_iff₀ hh] at hn
    linarith
  induction n generalizing h c with
  | zero =>
    rw [pow_zero, mul_one] at hn
    obtain ⟨e, he, he0, he1⟩ := hs h (by linarith)
    have e1 : e ≤ 1 := le_trans (he1 hn) (pow_le_one₀ (div_nonneg (by linarith) hθ.le) (by rw [div_le_one hθ]; exact hn))
    obtain ⟨a1, a2⟩ := accepted_optimal c h e θ m hm hmh hm0 he0 e1 he1
    refine ⟨1, h, (updateTimestep id Par.default c h (.val e)).2, hmh, a2, fun fuel hf => ?_⟩
    obtain ⟨k, rfl⟩ : ∃ k, fuel = k + 1 := ⟨fuel - 1, by omega⟩
    rw [stepLoop, he]
    rcases hu : updateTimestep id Par.default c h (.val e) with ⟨b, c'⟩
    rw [hu] at a1
    simp only at a1
    subst a1
    rfl
  | succ n ih =>
    obtain ⟨e, he, he0, he1⟩ := hs h (by linarith)
    rcases le_or_gt e 1 with e1 | e1
    · obtain ⟨a1, a2⟩ := accepted_optimal c h e θ m hm hmh hm0 he0 e1 he1
      refine ⟨1, h, (updateTimestep id Par.default c h (.val e)).2, hmh, a2, fun fuel hf => ?_⟩
      obtain ⟨k, rfl⟩ : ∃ k, fuel = k + 1 := ⟨fuel - 1, by omega⟩
      rw [stepLoop, he]
      rcases hu : updateTimestep id Par.default c h (.val e) with ⟨b, c'⟩
      rw [hu] at a1
      simp only at a1
      subst a1
      rfl
    · have hθh : θ < h := by
        by_contra hc
        have := he1 (not_lt.1 hc)
        have := pow_le_one₀ (n := 2) (div_nonneg (show 0 ≤ h by linarith) hθ.le) (by rw [div_le_one hθ]; exact not_lt.1 hc)
        linarith
      have rej : (updateTimestep id Par.default c h (.val e)).1 = false := by
        simp [updateTimestep, not_le.2 e1]
      obtain ⟨r, hr, r1, r2⟩ := C36_rejected_shrinks c h (.val e) rej
      rcases hu : updateTimestep id Par.default c h (.val e) with ⟨b, c'⟩
      rw [hu] at rej hr
      simp only at rej hr
      subst rej
      have m' : m ≤ c'.optimal := by rw [hr]; nlinarith
      obtain ⟨K, h', c'', b1, b2, b3⟩ := ih c'.optimal m' c' (by
        rw [hr]
        have : h * r ≤ h * (9 / 10) := mul_le_mul_of_nonneg_left r2 (by linarith)
        have := mul_le_mul_of_nonneg_right this (show (0 : ℝ) ≤ (9 / 10) ^ n by positivity)
        rw [pow_succ] at hn
        linarith)
      refine ⟨K + 1, h', c'', b1, b2, fun fuel hf => ?_⟩
      obtain ⟨k, rfl⟩ : ∃ k, fuel = k + 1 := ⟨fuel - 1, by omega⟩
      rw [stepLoop, he, hu]
      simp only
      rw [if_neg (by rw [abs_of_pos (show 0 < c'.optimal by linarith)]; linarith)]
      exact b3 k (by omega)

/-! ### whole integrations -/

/-- **C147** A step from any state of an integration succeeds, goes ahead by at least `m`, and leaves a proposal of at least `m`. -/
theorem C147_step {N : Nat} (hN : 0 < N) (f : ℝ → (Fin N → ℝ) → (Fin N → ℝ)) (L K B atol rtol eps θ m : ℝ) (hL0 : 0 ≤ L) (hK0 : 0 ≤ K)
    (hf : ∀ r t y z, ‖f r y - f t z‖ ≤ L * ‖y - z‖ + K * |r - t|) (ha : 0 < atol) (hr : 0 ≤ rtol)
    (hθ1 : 50 * (L * θ) ≤ 1) (hθ2 : (L * B + K) * θ ^ 2 ≤ 3 * atol) (hm0 : 0 < m) (hm : m ≤ θ / 10)
    (y0 : Fin N → ℝ) (s : Store) (c : Ctl) (hd : DenseRun f atol rtol y0 s c) (hB : ‖f (lastTime s) (vecOf N (solutionAt N s (s.n - 1)))‖ ≤ B)
    (heps : |lastTime s| * eps < m) (hc : m ≤ c.optimal) (hw : s.n + 1000 < W) (hw2 : (s.n + 1) * N ≤ W) :
    ∃ Q t c', lastTime s + m ≤ t ∧ m ≤ c'.optimal ∧ ∀ junk, ∃ s', (∀ fuel, Q ≤ fuel → rkStep N junk id Par.default eps true (rkdpTrial f atol rtol) fuel s c = .ok t s' c') ∧
      DenseRun f atol rtol y0 s' c' ∧ s'.n = s.n + 1 ∧ lastTime s' = t := by
  obtain ⟨hrun, hreach⟩ := hd.run
  have hp := hreach.inv.pos
  have hlt : lastTime s = timeAt s (s.n - 1) := by unfold lastTime; rw [if_neg (show ¬ s.n = 0 by omega)]; rfl
  rw [hlt] at hB heps ⊢
  have hθ : 0 < θ := by linarith
  have hder : vecOf N (derivativeAt N s (s.n - 1)) = f (timeAt s (s.n - 1)) (vecOf N (solutionAt N s (s.n - 1))) := hrun.inv.der (s.n - 1) (by omega)
  have hs : SmallFor (fun h => (rkdpTrial f atol rtol (timeAt s (s.n - 1)) h (solutionAt N s (s.n - 1)) (derivativeAt N s (s.n - 1))).err) θ := by
    intro h hh
    obtain ⟨e, he, he0, he1⟩ := estimate_small hN atol rtol ha hr
      (innerStep f (timeAt s (s.n - 1)) h (vecOf N (solutionAt N s (s.n - 1))) (vecOf N (derivativeAt N s (s.n - 1)))).yerr (solutionAt N s (s.n - 1))
      (arrOf (innerStep f (timeAt s (s.n - 1)) h (vecOf N (solutionAt N s (s.n - 1))) (vecOf N (derivativeAt N s (s.n - 1)))).yout)
    refine ⟨e, he, he0, fun hθh => le_trans he1 ?_⟩
    rw [hder]
    have h1 := C147_estimate hL0 hK0 hf (timeAt s (s.n - 1)) h hh.le (by have := mul_le_mul_of_nonneg_left hθh hL0; linarith) (vecOf N (solutionAt N s (s.n - 1))) hB
    rw [div_le_iff₀ ha]
    refine le_trans h1 ?_
    have h2 : (L * B + K) * h ^ 2 / 3 = (h / θ) ^ 2 * ((L * B + K) * θ ^ 2) / 3 := by
      field_simp
    rw [h2]
    have h3 := mul_le_mul_of_nonneg_left hθ2 (sq_nonneg (h / θ))
    linarith
  obtain ⟨Q, h', c', b1, b2, b3⟩ := C147_loop eps (timeAt s (s.n - 1)) θ m _ hs hm0 hm heps c.optimal hc c
  refine ⟨Q, timeAt s (s.n - 1) + h', c', by linarith, b2, fun junk => ?_⟩
  have hs' : ∀ fuel, Q ≤ fuel → ∃ s', rkStep N junk id Par.default eps true (rkdpTrial f atol rtol) fuel s c = .ok (timeAt s (s.n - 1) + h') s' c' :=
    fun fuel hfu => step_succeeds junk eps _ fuel s c hreach.inv hw hw2 h' c' (b3 fuel hfu)
  obtain ⟨s', e'⟩ := hs' Q le_rfl
  obtain ⟨-, r2, -, r4, -⟩ := rkStep_points N _ _ _ _ _ _ _ s s' _ _ _ hrun.inv.le hw hw2 e'
  refine ⟨s', fun fuel hfu => ?_, DenseRun.step _ _ _ _ _ _ _ _ hd hw hw2 e', r2, ?_⟩
  · -- the result does not depend on the fuel
    have l1 := b3 Q le_rfl
    have l2 := b3 fuel hfu
    unfold rkStep at e' ⊢
    rw [if_neg (show ¬ s.n = 0 by omega)] at e' ⊢
    simp only [l1] at e'
    simp only [l2]
    exact e'
  · unfold lastTime
    rw [if_neg (by omega), r2, Nat.add_sub_cancel]
    exact r4

/-- **C147** Integrations reach every time.  For an equation that is bounded by `B` and Lipschitz, with a positive absolute tolerance, repeated calls of `Step`
succeed, each advances by at least `m`, and after at most `T / m + 1` of them the time `T` is reached (if the storage suffices for so many). -/
theorem C147_reaches {N : Nat} (hN : 0 < N) (f : ℝ → (Fin N → ℝ) → (Fin N → ℝ)) (L K B atol rtol eps θ m T : ℝ) (hL0 : 0 ≤ L) (hK0 : 0 ≤ K)
    (hf : ∀ r t y z, ‖f r y - f t z‖ ≤ L * ‖y - z‖ + K * |r - t|) (hB : ∀ t y, ‖f t y‖ ≤ B) (ha : 0 < atol) (hr : 0 ≤ rtol)
    (hθ1 : 50 * (L * θ) ≤ 1) (hθ2 : (L * B + K) * θ ^ 2 ≤ 3 * atol) (hm0 : 0 < m) (hm : m ≤ θ / 10) (heps0 : 0 ≤ eps) (heps : T * eps < m)
    (y0 : Fin N → ℝ) (junk : Nat → ℝ) (n : Nat) :
    ∀ (s : Store) (c : Ctl), DenseRun f atol rtol y0 s c → 0 ≤ lastTime s → m ≤ c.optimal → T ≤ lastTime s + n * m → s.n + n + 1000 ≤ W → (s.n + n) * N ≤ W →
      ∃ k ≤ n, ∃ Q s' c', DenseRun f atol rtol y0 s' c' ∧ T ≤ lastTime s' ∧ lastTime s + k * m ≤ lastTime s' ∧ s'.n = s.n + k ∧
        ∀ fuel, Q ≤ fuel → rkRun N (fun _ => junk) id Par.default eps (fun _ => true) (rkdpTrial f atol rtol) fuel k s c = .ok s' c' := by
  induction n with
  | zero =>
    intro s c hd _ _ hT _ _
    refine ⟨0, le_rfl, 0, s, c, hd, by simpa using hT, by simp, rfl, fun fuel _ => rfl⟩
  | succ n ih =>
    intro s c hd h0 hc hT hw hw2
    rcases le_or_gt T (lastTime s) with hd1 | hd1
    · exact ⟨0, Nat.zero_le _, 0, s, c, hd, hd1, by simp, rfl, fun fuel _ => rfl⟩
    · have hw2' : (s.n + 1) * N ≤ W := le_trans (Nat.mul_le_mul_right N (by omega)) hw2
      obtain ⟨Q, t, c', b1, b2, b3⟩ := C147_step hN f L K B atol rtol eps θ m hL0 hK0 hf ha hr hθ1 hθ2 hm0 hm y0 s c hd (hB _ _)
        (by rw [abs_of_nonneg h0]; exact lt_of_le_of_lt (mul_le_mul_of_nonneg_right hd1.le heps0) heps) hc (by omega) hw2'
      obtain ⟨s', b4, b5, b6, b7⟩ := b3 junk
      obtain ⟨k, hk, Q', s2, c2, g1, g2, g3, g4, g5⟩ := ih s' c' b5 (by rw [b7]; linarith) b2 (by rw [b7]; push_cast at hT; linarith) (by omega)
        (by rw [b6]; convert hw2 using 2; omega)
      refine ⟨k + 1, by omega, max Q Q', s2, c2, g1, g2, ?_, by omega, fun fuel hfu => ?_⟩
      · rw [b7] at g3; push_cast; linarith
      · rw [rkRun, b4 fuel (le_trans (le_max_left _ _) hfu)]
        exact g5 fuel (le_trans (le_max_right _ _) hfu)

/-- The equation `y' = 1` from zero: seven steps of at least one reach the time 7. -/
example : ∃ k ≤ 7, ∃ Q s s' c', initialValue 1 (fun _ => 0) (emptyStore fun _ => 0) (arrOf (0 : Fin 1 → ℝ)) (arrOf fun _ : Fin 1 => 1) = some s ∧ 7 ≤ lastTime s' ∧
    ∀ fuel, Q ≤ fuel → rkRun 1 (fun _ _ => 0) id Par.default (1 / 2 ^ 52) (fun _ => true) (rkdpTrial (fun (_ : ℝ) (_ : Fin 1 → ℝ) (_ : Fin 1) => (1 : ℝ)) (1 / 1000) 0) fuel k s Ctl.init = .ok s' c' := by
  have hW : W = 4294967296 := rfl
  obtain ⟨s1, hs1, hn, hrun, -⟩ := start_run (fun (_ : ℝ) (_ : Fin 1 → ℝ) (_ : Fin 1) => (1 : ℝ)) (1 / 1000) 0 0 (by decide)
  have hd1 : DenseRun (fun (_ : ℝ) (_ : Fin 1 → ℝ) (_ : Fin 1) => (1 : ℝ)) (1 / 1000) 0 0 s1 Ctl.init :=
    DenseRun.init _ _ _ _ (by simp [Ctl.init]) (by decide) hs1
  have hl : lastTime s1 = 0 := by
    unfold lastTime
    rw [hn]
    exact hrun.inv.t0
  obtain ⟨k, hk, Q, s', c', -, h1, -, -, h2⟩ := C147_reaches Nat.one_pos (fun _ _ _ => 1) 0 0 1 (1 / 1000) 0 (1 / 2 ^ 52) 10 1 7 le_rfl le_rfl (by simp) (fun _ _ => by
    refine (pi_norm_le_iff_of_nonneg zero_le_one).2 fun i => by simp) (by norm_num) le_rfl (by norm_num) (by norm_num) one_pos (by norm_num) (by positivity) (by norm_num) 0 (fun _ => 0) 7
    s1 Ctl.init hd1 (by rw [hl]) (by simp [Ctl.init]) (by rw [hl]; norm_num) (by omega) (by omega)
  exact ⟨k, hk, Q, s1, s', c', hs1, h1, h2⟩

end

end Softlib
