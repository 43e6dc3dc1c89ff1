/-
C146: integrations converge to the solution of the equation.
-/
import Verif.Integrator.ExactProps
import Verif.Integrator.StageRoundProps
import Mathlib.Analysis.Calculus.MeanValue
import Mathlib.Analysis.Calculus.Deriv.Shift
import Mathlib.Analysis.Calculus.Deriv.Prod
import Mathlib.Analysis.Normed.Module.FiniteDimension
import Mathlib.Analysis.SpecialFunctions.ExpDeriv
import Mathlib.Analysis.Normed.Module.Basic

namespace Softlib

open Softlib.Integrator Softlib.General

noncomputable section

/-! ### one step -/

section
variable {V : Type} [NormedAddCommGroup V] [NormedSpace ℝ V]

/-- `Y` solves the equation on the interval from `a` to `b`. -/
def SolvesOn (f : ℝ → V → V) (Y : ℝ → V) (a b : ℝ) : Prop :=
  ∀ t ∈ Set.Icc a b, HasDerivWithinAt Y (f t (Y t)) (Set.Icc a b) t

/-- A solution whose derivative changes by at most `M` times the time is near its tangent. -/
theorem near_tangent {f : ℝ → V → V} {Y : ℝ → V} {a b M : ℝ} (hY : SolvesOn f Y a b)
    (hM : ∀ s ∈ Set.Icc a b, ∀ t ∈ Set.Icc a b, ‖f s (Y s) - f t (Y t)‖ ≤ M * |s - t|) (hM0 : 0 ≤ M)
    {t d : ℝ} (ht : a ≤ t) (hd : 0 ≤ d) (htd : t + d ≤ b) : ‖Y (t + d) - Y t - d • f t (Y t)‖ ≤ M * d ^ 2 := by
  have hsub : Set.Icc t (t + d) ⊆ Set.Icc a b := Set.Icc_subset_Icc ht htd
  have key := Convex.norm_image_sub_le_of_norm_hasDerivWithin_le (f := fun s => Y s - s • f t (Y t))
    (f' := fun s => f s (Y s) - f t (Y t)) (s := Set.Icc t (t + d)) (C := M * d) (x := t) (y := t + d) (fun s hs => by
      have h1 := (hY s (hsub hs)).mono hsub
      have h2 : HasDerivWithinAt (fun s : ℝ => s • f t (Y t)) ((1 : ℝ) • f t (Y t)) (Set.Icc t (t + d)) s :=
        (hasDerivWithinAt_id s _).smul_const _
      rw [one_smul] at h2
      exact h1.sub h2) (fun s hs => by
      refine le_trans (hM s (hsub hs) t (hsub ⟨le_rfl, by linarith⟩)) (mul_le_mul_of_nonneg_left ?_ hM0)
      rw [abs_of_nonneg (by linarith [hs.1])]
      linarith [hs.2]) (convex_Icc _ _) ⟨le_rfl, by linarith⟩ ⟨by linarith, le_rfl⟩
  have e : (Y (t + d) - (t + d) • f t (Y t)) - (Y t - t • f t (Y t)) = Y (t + d) - Y t - d • f t (Y t) := by module
  rw [e, add_sub_cancel_left, Real.norm_eq_abs, abs_of_nonneg hd] at key
  exact le_trans key (le_of_eq (by ring))

theorem norm_smul_le_of {c C x : ℝ} {v : V} (hc : |c| ≤ C) (hv : ‖v‖ ≤ x) : ‖c • v‖ ≤ C * x := by
  rw [norm_smul, Real.norm_eq_abs]
  exact mul_le_mul hc hv (norm_nonneg _) (le_trans (abs_nonneg _) hc)

/-- A stage: what the argument and the slope are off. -/
theorem stage_bound {f : ℝ → V → V} {Y : ℝ → V} {L M h e t c x : ℝ} {y w : V} (hL0 : 0 ≤ L) (hM0 : 0 ≤ M) (hh : 0 ≤ h) (hhL : 50 * (L * h) ≤ 1)
    (hc0 : 0 ≤ c) (hc : c ≤ 1) (he : ‖y - Y t‖ ≤ e) (hx : x = L * e + M * h)
    (hw : ‖w - c • f t (Y t)‖ ≤ 75 * x)
    (hf : ‖f (t + c * h) (y + h • w) - f (t + c * h) (Y (t + c * h))‖ ≤ L * ‖y + h • w - Y (t + c * h)‖)
    (hT : ‖Y (t + c * h) - Y t - (c * h) • f t (Y t)‖ ≤ M * (c * h) ^ 2)
    (hg : ‖f (t + c * h) (Y (t + c * h)) - f t (Y t)‖ ≤ M * (c * h)) : ‖f (t + c * h) (y + h • w) - f t (Y t)‖ ≤ 3 * x := by
  have he0 : 0 ≤ e := le_trans (norm_nonneg _) he
  have hch : c * h ≤ h := by nlinarith
  have hch0 : 0 ≤ c * h := mul_nonneg hc0 hh
  have a1 : ‖y + h • w - Y (t + c * h)‖ ≤ e + h * (75 * x) + M * h ^ 2 := by
    have e1 : y + h • w - Y (t + c * h) = (y - Y t) + h • (w - c • f t (Y t)) - (Y (t + c * h) - Y t - (c * h) • f t (Y t)) := by module
    rw [e1]
    have b1 := norm_smul_le_of (c := h) (C := h) (by rw [abs_of_nonneg hh]) hw
    have b2 : M * (c * h) ^ 2 ≤ M * h ^ 2 := mul_le_mul_of_nonneg_left (pow_le_pow_left₀ hch0 hch 2) hM0
    exact le_trans (norm_sub_le _ _) (add_le_add (le_trans (norm_add_le _ _) (add_le_add he b1)) (le_trans hT b2))
  have a2 := mul_le_mul_of_nonneg_left a1 hL0
  have a3 : ‖f (t + c * h) (y + h • w) - f t (Y t)‖ ≤ L * (e + h * (75 * x) + M * h ^ 2) + M * h := by
    have := norm_sub_le_norm_sub_add_norm_sub (f (t + c * h) (y + h • w)) (f (t + c * h) (Y (t + c * h))) (f t (Y t))
    have : M * (c * h) ≤ M * h := mul_le_mul_of_nonneg_left hch hM0
    linarith
  refine le_trans a3 ?_
  have hx0 : 0 ≤ x := by rw [hx]; positivity
  have h1 : L * h * (75 * x) ≤ 1 / 50 * (75 * x) := mul_le_mul_of_nonneg_right (by linarith) (by linarith)
  have h2 : L * h * (M * h) ≤ 1 / 50 * (M * h) := mul_le_mul_of_nonneg_right (by linarith) (by positivity)
  have h3 : 0 ≤ L * e := by positivity
  have h4 : 0 ≤ M * h := by positivity
  nlinarith

/-- The sum of slopes, each of which is near `g`. -/
theorem sum_near {g : V} {x : ℝ} (ks : List (ℝ × V)) (hx : 0 ≤ x) (hk : ∀ p ∈ ks, ‖p.2 - g‖ ≤ 3 * x) (c C : ℝ)
    (hc : (ks.map Prod.fst).sum = c) (hC : (ks.map fun p => |p.1|).sum ≤ C) : ‖(ks.map fun p => p.1 • p.2).sum - c • g‖ ≤ 3 * C * x := by
  subst hc
  have key : ‖(ks.map fun p => p.1 • p.2).sum - (ks.map Prod.fst).sum • g‖ ≤ 3 * (ks.map fun p => |p.1|).sum * x := by
    clear hC
    induction ks with
    | nil => simp
    | cons p ks ih =>
      simp only [List.map_cons, List.sum_cons]
      have h1 := ih (fun q hq => hk q (List.mem_cons_of_mem _ hq))
      have h2 := norm_smul_le_of (c := p.1) (C := |p.1|) le_rfl (hk p List.mem_cons_self)
      have e : p.1 • p.2 + (ks.map fun p => p.1 • p.2).sum - (p.1 + (ks.map Prod.fst).sum) • g =
          p.1 • (p.2 - g) + ((ks.map fun p => p.1 • p.2).sum - (ks.map Prod.fst).sum • g) := by module
      rw [e]
      refine le_trans (norm_add_le _ _) ?_
      linarith
  refine le_trans key ?_
  have := mul_le_mul_of_nonneg_right hC hx
  linarith

/-- All slopes of a step are near the slope of the solution at its begin. -/
theorem stages_near {f : ℝ → V → V} {Y : ℝ → V} {a b L M : ℝ} (hL0 : 0 ≤ L) (hM0 : 0 ≤ M) (hY : SolvesOn f Y a b)
    (hL : ∀ t ∈ Set.Icc a b, ∀ y z, ‖f t y - f t z‖ ≤ L * ‖y - z‖)
    (hM : ∀ s ∈ Set.Icc a b, ∀ t ∈ Set.Icc a b, ‖f s (Y s) - f t (Y t)‖ ≤ M * |s - t|)
    {t h : ℝ} (ht : a ≤ t) (hh : 0 ≤ h) (hth : t + h ≤ b) (hhL : 50 * (L * h) ≤ 1) (y : V)
    {x : ℝ} (hx : x = L * ‖y - Y t‖ + M * h) :
    ‖f t y - f t (Y t)‖ ≤ 3 * x ∧ ‖(innerStep f t h y (f t y)).k3 - f t (Y t)‖ ≤ 3 * x ∧ ‖(innerStep f t h y (f t y)).k4 - f t (Y t)‖ ≤ 3 * x ∧
      ‖(innerStep f t h y (f t y)).k5 - f t (Y t)‖ ≤ 3 * x ∧ ‖(innerStep f t h y (f t y)).k6 - f t (Y t)‖ ≤ 3 * x := by
  obtain ⟨e, he⟩ : ∃ e, e = ‖y - Y t‖ := ⟨_, rfl⟩
  obtain ⟨g, hg⟩ : ∃ g, g = f t (Y t) := ⟨_, rfl⟩
  rw [← he] at hx
  have he0 : 0 ≤ e := by rw [he]; exact norm_nonneg _
  have hx0 : 0 ≤ x := by rw [hx]; positivity
  have tin : t ∈ Set.Icc a b := ⟨ht, by linarith⟩
  have hst : ∀ c, 0 ≤ c → c ≤ 1 → ∀ w, ‖w - c • g‖ ≤ 75 * x → ‖f (t + c * h) (y + h • w) - g‖ ≤ 3 * x := by
    intro c hc0 hc w hw
    have hch0 : 0 ≤ c * h := mul_nonneg hc0 hh
    have hch : c * h ≤ h := by nlinarith
    have cin : t + c * h ∈ Set.Icc a b := ⟨by linarith, by linarith⟩
    rw [hg] at hw ⊢
    refine stage_bound hL0 hM0 hh hhL hc0 hc he.ge hx hw (hL _ cin _ _) (near_tangent hY hM hM0 ht hch0 (by linarith)) ?_
    have := hM _ cin _ tin
    rwa [add_sub_cancel_left, abs_of_nonneg hch0] at this
  obtain ⟨d, hd⟩ : ∃ d, d = f t y := ⟨_, rfl⟩
  have n1 : ‖d - g‖ ≤ 3 * x := by
    rw [hd, hg]
    refine le_trans (hL _ tin _ _) ?_
    rw [← he]
    have : 0 ≤ M * h := by positivity
    have : 0 ≤ L * e := by positivity
    linarith
  obtain ⟨k2, h2⟩ : ∃ k, k = f (t + c2 * h) (y + (h * a21) • d) := ⟨_, rfl⟩
  have n2 : ‖k2 - g‖ ≤ 3 * x := by
    have s := sum_near (g := g) [(a21, d)] hx0 (by simpa using n1) c2 25 (by norm_num [a21, c2]) (by norm_num [a21, abs_of_pos])
    have := hst c2 (by norm_num [c2]) (by norm_num [c2]) _ (le_trans s (by linarith))
    rw [h2]
    convert this using 4
    simp only [List.map_cons, List.map_nil, List.sum_cons, List.sum_nil]
    module
  obtain ⟨k3, h3⟩ : ∃ k, k = f (t + c3 * h) (y + (h * a31) • d + (h * a32) • k2) := ⟨_, rfl⟩
  have n3 : ‖k3 - g‖ ≤ 3 * x := by
    have s := sum_near (g := g) [(a31, d), (a32, k2)] hx0 (by simpa using ⟨n1, n2⟩) c3 25 (by norm_num [a31, a32, c3])
      (by norm_num [a31, a32, abs_of_pos])
    have := hst c3 (by norm_num [c3]) (by norm_num [c3]) _ (le_trans s (by linarith))
    rw [h3]
    convert this using 4
    simp only [List.map_cons, List.map_nil, List.sum_cons, List.sum_nil]
    module
  obtain ⟨k4, h4⟩ : ∃ k, k = f (t + c4 * h) (y + (h * a41) • d + (h * a42) • k2 + (h * a43) • k3) := ⟨_, rfl⟩
  have n4 : ‖k4 - g‖ ≤ 3 * x := by
    have s := sum_near (g := g) [(a41, d), (a42, k2), (a43, k3)] hx0 (by simpa using ⟨n1, n2, n3⟩) c4 25 (by norm_num [a41, a42, a43, c4])
      (by norm_num [a41, a42, a43, abs_of_pos, abs_of_neg])
    have := hst c4 (by norm_num [c4]) (by norm_num [c4]) _ (le_trans s (by linarith))
    rw [h4]
    convert this using 4
    simp only [List.map_cons, List.map_nil, List.sum_cons, List.sum_nil]
    module
  obtain ⟨k5, h5⟩ : ∃ k, k = f (t + c5 * h) (y + (h * a51) • d + (h * a52) • k2 + (h * a53) • k3 + (h * a54) • k4) := ⟨_, rfl⟩
  have n5 : ‖k5 - g‖ ≤ 3 * x := by
    have s := sum_near (g := g) [(a51, d), (a52, k2), (a53, k3), (a54, k4)] hx0 (by simpa using ⟨n1, n2, n3, n4⟩) c5 25
      (by norm_num [a51, a52, a53, a54, c5]) (by norm_num [a51, a52, a53, a54, abs_of_pos, abs_of_neg])
    have := hst c5 (by norm_num [c5]) (by norm_num [c5]) _ (le_trans s (by linarith))
    rw [h5]
    convert this using 4
    simp only [List.map_cons, List.map_nil, List.sum_cons, List.sum_nil]
    module
  obtain ⟨k6, h6⟩ : ∃ k, k = f (t + h) (y + (h * a61) • d + (h * a62) • k2 + (h * a63) • k3 + (h * a64) • k4 + (h * a65) • k5) := ⟨_, rfl⟩
  have n6 : ‖k6 - g‖ ≤ 3 * x := by
    have s := sum_near (g := g) [(a61, d), (a62, k2), (a63, k3), (a64, k4), (a65, k5)] hx0 (by simpa using ⟨n1, n2, n3, n4, n5⟩) 1 25
      (by norm_num [a61, a62, a63, a64, a65]) (by norm_num [a61, a62, a63, a64, a65, abs_of_pos, abs_of_neg])
    have := hst 1 (by norm_num) le_rfl _ (le_trans s (by linarith))
    rw [one_mul] at this
    rw [h6]
    convert this using 4
    simp only [List.map_cons, List.map_nil, List.sum_cons, List.sum_nil]
    module
  simp only [innerStep, ← hd, ← hg, ← h2, ← h3, ← h4, ← h5, ← h6]
  exact ⟨n1, n3, n4, n5, n6⟩

/-- **C146** One step.  If the equation is Lipschitz with `L` in the value, the slope of the solution `Y` Lipschitz with `M` in time and
`50 L h ≤ 1`, then a step multiplies the distance from the solution by at most `1 + 5 L h` and adds at most `6 M h²`. -/
theorem C146_step {f : ℝ → V → V} {Y : ℝ → V} {a b L M : ℝ} (hL0 : 0 ≤ L) (hM0 : 0 ≤ M) (hY : SolvesOn f Y a b)
    (hL : ∀ t ∈ Set.Icc a b, ∀ y z, ‖f t y - f t z‖ ≤ L * ‖y - z‖)
    (hM : ∀ s ∈ Set.Icc a b, ∀ t ∈ Set.Icc a b, ‖f s (Y s) - f t (Y t)‖ ≤ M * |s - t|)
    {t h : ℝ} (ht : a ≤ t) (hh : 0 ≤ h) (hth : t + h ≤ b) (hhL : 50 * (L * h) ≤ 1) (y : V) :
    ‖(innerStep f t h y (f t y)).yout - Y (t + h)‖ ≤ (1 + 5 * L * h) * ‖y - Y t‖ + 6 * M * h ^ 2 := by
  obtain ⟨e, he⟩ : ∃ e, e = ‖y - Y t‖ := ⟨_, rfl⟩
  obtain ⟨x, hx⟩ : ∃ x, x = L * e + M * h := ⟨_, rfl⟩
  have he0 : 0 ≤ e := by rw [he]; exact norm_nonneg _
  have hx0 : 0 ≤ x := by rw [hx]; positivity
  obtain ⟨n1, n3, n4, n5, n6⟩ := stages_near hL0 hM0 hY hL hM ht hh hth hhL y (x := x) (by rw [hx, he])
  obtain ⟨g, hg⟩ : ∃ g, g = f t (Y t) := ⟨_, rfl⟩
  obtain ⟨q, hq⟩ : ∃ q, q = innerStep f t h y (f t y) := ⟨_, rfl⟩
  obtain ⟨d, hd⟩ : ∃ d, d = f t y := ⟨_, rfl⟩
  have eq : q.yout = y + (h * a71) • d + (h * a73) • q.k3 + (h * a74) • q.k4 + (h * a75) • q.k5 + (h * a76) • q.k6 := by rw [hq, hd]; rfl
  rw [← hg] at n1 n3 n4 n5 n6
  rw [← hq] at n3 n4 n5 n6 ⊢
  rw [← hd] at n1
  have s := sum_near (g := g) [(a71, d), (a73, q.k3), (a74, q.k4), (a75, q.k5), (a76, q.k6)] hx0 (by simpa using ⟨n1, n3, n4, n5, n6⟩) 1 (5 / 3)
    (by norm_num [a71, a73, a74, a75, a76]) (by norm_num [a71, a73, a74, a75, a76, abs_of_pos, abs_of_neg])
  have s' := norm_smul_le_of (c := h) (C := h) (by rw [abs_of_nonneg hh]) s
  have tan := near_tangent hY hM hM0 ht hh hth
  rw [← hg] at tan
  have e1 : q.yout - Y (t + h) = (y - Y t) +
      h • (([(a71, d), (a73, q.k3), (a74, q.k4), (a75, q.k5), (a76, q.k6)] : List (ℝ × V)).map (fun p => p.1 • p.2) |>.sum) - h • g
      - (Y (t + h) - Y t - h • g) := by
    rw [eq]
    simp only [List.map_cons, List.map_nil, List.sum_cons, List.sum_nil]
    module
  rw [e1, add_sub_assoc (y - Y t), ← smul_sub]
  rw [one_smul] at s'
  refine le_trans (norm_sub_le _ _) ?_
  have := norm_add_le (y - Y t) (h • ((([(a71, d), (a73, q.k3), (a74, q.k4), (a75, q.k5), (a76, q.k6)] : List (ℝ × V)).map (fun p => p.1 • p.2)).sum - g))
  rw [← he] at this ⊢
  rw [hx] at s'
  nlinarith

/-- The slope at the end of a step. -/
theorem end_slope {f : ℝ → V → V} {Y : ℝ → V} {a b L M : ℝ} (hL0 : 0 ≤ L) (hM0 : 0 ≤ M) (hY : SolvesOn f Y a b)
    (hL : ∀ t ∈ Set.Icc a b, ∀ y z, ‖f t y - f t z‖ ≤ L * ‖y - z‖)
    (hM : ∀ s ∈ Set.Icc a b, ∀ t ∈ Set.Icc a b, ‖f s (Y s) - f t (Y t)‖ ≤ M * |s - t|)
    {t h : ℝ} (ht : a ≤ t) (hh : 0 ≤ h) (hth : t + h ≤ b) (hhL : 50 * (L * h) ≤ 1) (y : V)
    {x : ℝ} (hx : x = L * ‖y - Y t‖ + M * h) : ‖(innerStep f t h y (f t y)).dydxout - f t (Y t)‖ ≤ 3 * x := by
  have h1 := C146_step hL0 hM0 hY hL hM ht hh hth hhL y
  have tin : t ∈ Set.Icc a b := ⟨ht, by linarith⟩
  have ein : t + h ∈ Set.Icc a b := ⟨by linarith, hth⟩
  have h2 := hL _ ein (innerStep f t h y (f t y)).yout (Y (t + h))
  have h3 := hM _ ein _ tin
  rw [add_sub_cancel_left, abs_of_nonneg hh] at h3
  have e1 : (innerStep f t h y (f t y)).dydxout = f (t + h) (innerStep f t h y (f t y)).yout := rfl
  rw [e1]
  have h4 := norm_sub_le_norm_sub_add_norm_sub (f (t + h) (innerStep f t h y (f t y)).yout) (f (t + h) (Y (t + h))) (f t (Y t))
  have he0 := norm_nonneg (y - Y t)
  generalize ‖y - Y t‖ = e at *
  have h5 := mul_le_mul_of_nonneg_left h1 hL0
  have q1 : L * h * (L * e) ≤ 1 / 50 * (L * e) := mul_le_mul_of_nonneg_right (by linarith) (by positivity)
  have q2 : L * h * (M * h) ≤ 1 / 50 * (M * h) := mul_le_mul_of_nonneg_right (by linarith) (by positivity)
  have q3 : 0 ≤ L * e := by positivity
  have q4 : 0 ≤ M * h := by positivity
  rw [hx]
  linarith

/-- **C146** The error estimate of a step is small: at most `(L e + M h) h / 2`, where `e` is the distance from the solution. -/
theorem C146_estimate {f : ℝ → V → V} {Y : ℝ → V} {a b L M : ℝ} (hL0 : 0 ≤ L) (hM0 : 0 ≤ M) (hY : SolvesOn f Y a b)
    (hL : ∀ t ∈ Set.Icc a b, ∀ y z, ‖f t y - f t z‖ ≤ L * ‖y - z‖)
    (hM : ∀ s ∈ Set.Icc a b, ∀ t ∈ Set.Icc a b, ‖f s (Y s) - f t (Y t)‖ ≤ M * |s - t|)
    {t h : ℝ} (ht : a ≤ t) (hh : 0 ≤ h) (hth : t + h ≤ b) (hhL : 50 * (L * h) ≤ 1) (y : V) :
    ‖(innerStep f t h y (f t y)).yerr‖ ≤ h * (L * ‖y - Y t‖ + M * h) / 2 := by
  obtain ⟨x, hx⟩ : ∃ x, x = L * ‖y - Y t‖ + M * h := ⟨_, rfl⟩
  have hx0 : 0 ≤ x := by rw [hx]; positivity
  obtain ⟨n1, n3, n4, n5, n6⟩ := stages_near hL0 hM0 hY hL hM ht hh hth hhL y hx
  have n7 := end_slope hL0 hM0 hY hL hM ht hh hth hhL y hx
  obtain ⟨q, hq⟩ : ∃ q, q = innerStep f t h y (f t y) := ⟨_, rfl⟩
  have eq : q.yerr = (h * e1) • f t y + (h * e3) • q.k3 + (h * e4) • q.k4 + (h * e5) • q.k5 + (h * e6) • q.k6 + (h * e7) • q.dydxout := by rw [hq]; rfl
  rw [← hq] at n3 n4 n5 n6 n7 ⊢
  have s := sum_near (g := f t (Y t)) [(e1, f t y), (e3, q.k3), (e4, q.k4), (e5, q.k5), (e6, q.k6), (e7, q.dydxout)] hx0
    (by simpa using ⟨n1, n3, n4, n5, n6, n7⟩) 0 (1 / 6)
    (by norm_num [e1, e3, e4, e5, e6, e7]) (by norm_num [e1, e3, e4, e5, e6, e7, abs_of_pos, abs_of_neg])
  have s' := norm_smul_le_of (c := h) (C := h) (by rw [abs_of_nonneg hh]) s
  rw [← hx, eq]
  simp only [List.map_cons, List.map_nil, List.sum_cons, List.sum_nil, zero_smul, sub_zero, add_zero, smul_add, smul_smul, ← add_assoc] at s'
  linarith

/-- **C146** Dense output within a step multiplies the distance from the solution by at most `1 + 81 L h` and adds at most `82 M h²`. -/
theorem C146_dense_step {f : ℝ → V → V} {Y : ℝ → V} {a b L M : ℝ} (hL0 : 0 ≤ L) (hM0 : 0 ≤ M) (hY : SolvesOn f Y a b)
    (hL : ∀ t ∈ Set.Icc a b, ∀ y z, ‖f t y - f t z‖ ≤ L * ‖y - z‖)
    (hM : ∀ s ∈ Set.Icc a b, ∀ t ∈ Set.Icc a b, ‖f s (Y s) - f t (Y t)‖ ≤ M * |s - t|)
    {t h : ℝ} (ht : a ≤ t) (hh : 0 ≤ h) (hth : t + h ≤ b) (hhL : 50 * (L * h) ≤ 1) (y : V) (θ : ℝ) (hθ0 : 0 ≤ θ) (hθ1 : θ ≤ 1) :
    let q := innerStep f t h y (f t y)
    ‖denseEval (prepareDense h y q.yout (f t y) q.dydxout q.k3 q.k4 q.k5 q.k6) θ - Y (t + θ * h)‖ ≤ (1 + 81 * L * h) * ‖y - Y t‖ + 82 * M * h ^ 2 := by
  intro q
  obtain ⟨x, hx⟩ : ∃ x, x = L * ‖y - Y t‖ + M * h := ⟨_, rfl⟩
  have hx0 : 0 ≤ x := by rw [hx]; positivity
  obtain ⟨n1, n3, n4, n5, n6⟩ := stages_near hL0 hM0 hY hL hM ht hh hth hhL y hx
  have n7 := end_slope hL0 hM0 hY hL hM ht hh hth hhL y hx
  have hθh : 0 ≤ θ * h := mul_nonneg hθ0 hh
  have hθh' : θ * h ≤ h := by nlinarith
  have tan := near_tangent hY hM hM0 ht hθh (by linarith)
  have eq : q.yout = y + (h * a71) • f t y + (h * a73) • q.k3 + (h * a74) • q.k4 + (h * a75) • q.k5 + (h * a76) • q.k6 := rfl
  change ‖q.k3 - _‖ ≤ _ at n3
  change ‖q.k4 - _‖ ≤ _ at n4
  change ‖q.k5 - _‖ ≤ _ at n5
  change ‖q.k6 - _‖ ≤ _ at n6
  change ‖q.dydxout - _‖ ≤ _ at n7
  obtain ⟨g, hg⟩ : ∃ g, g = f t (Y t) := ⟨_, rfl⟩
  obtain ⟨d, hd⟩ : ∃ d, d = f t y := ⟨_, rfl⟩
  rw [← hd] at n1 eq ⊢
  rw [← hg] at n1 n3 n4 n5 n6 n7 tan
  generalize q.k3 = k3 at *
  generalize q.k4 = k4 at *
  generalize q.k5 = k5 at *
  generalize q.k6 = k6 at *
  generalize q.dydxout = d2 at *
  rw [eq]
  obtain ⟨s, hs⟩ : ∃ s : V, s = a71 • d + a73 • k3 + a74 • k4 + a75 • k5 + a76 • k6 := ⟨_, rfl⟩
  obtain ⟨r, hr⟩ : ∃ r : V, r = d1 • d + d3 • k3 + d4 • k4 + d5 • k5 + d6 • k6 + d7 • d2 := ⟨_, rfl⟩
  have ns : ‖s - g‖ ≤ 5 * x := by
    have := sum_near (g := g) [(a71, d), (a73, k3), (a74, k4), (a75, k5), (a76, k6)] hx0 (by simpa using ⟨n1, n3, n4, n5, n6⟩) 1 (5 / 3)
      (by norm_num [a71, a73, a74, a75, a76]) (by norm_num [a71, a73, a74, a75, a76, abs_of_pos, abs_of_neg])
    simp only [List.map_cons, List.map_nil, List.sum_cons, List.sum_nil, one_smul, add_zero, ← add_assoc] at this
    rw [hs]
    linarith
  have nr : ‖r‖ ≤ 52 * x := by
    have := sum_near (g := g) [(d1, d), (d3, k3), (d4, k4), (d5, k5), (d6, k6), (d7, d2)] hx0 (by simpa using ⟨n1, n3, n4, n5, n6, n7⟩) 0 (52 / 3)
      (by norm_num [d1, d3, d4, d5, d6, d7]) (by norm_num [d1, d3, d4, d5, d6, d7, abs_of_pos, abs_of_neg])
    simp only [List.map_cons, List.map_nil, List.sum_cons, List.sum_nil, zero_smul, sub_zero, add_zero, ← add_assoc] at this
    rw [hr]
    linarith
  have e0 : denseEval (prepareDense h y (y + (h * a71) • d + (h * a73) • k3 + (h * a74) • k4 + (h * a75) • k5 + (h * a76) • k6) d d2 k3 k4 k5 k6) θ -
      Y (t + θ * h) = (y - Y t) + (θ * h) • ((s - g) + (1 - θ) • (((d - g) - (s - g)) + θ • (((s - g) - (d2 - g)) - ((d - g) - (s - g)) + (1 - θ) • r))) -
        (Y (t + θ * h) - Y t - (θ * h) • g) := by
    rw [hr, hs]
    simp only [denseEval, prepareDense]
    module
  rw [e0]
  have b1 : ‖(d - g) - (s - g)‖ ≤ 8 * x := le_trans (norm_sub_le _ _) (by linarith)
  have b2 : ‖((s - g) - (d2 - g)) - ((d - g) - (s - g))‖ ≤ 16 * x := le_trans (norm_sub_le _ _) (by linarith [norm_sub_le (s - g) (d2 - g)])
  have hθ : |1 - θ| ≤ 1 := by rw [abs_of_nonneg (by linarith)]; linarith
  have hθ' : |θ| ≤ 1 := by rw [abs_of_nonneg hθ0]; exact hθ1
  have b3 := norm_smul_le_of hθ nr
  have b4 := norm_smul_le_of hθ' (norm_add_le_of_le b2 b3)
  have b5 := norm_smul_le_of hθ (norm_add_le_of_le b1 b4)
  have b6 := norm_smul_le_of (c := θ * h) (C := h) (by rw [abs_of_nonneg hθh]; exact hθh') (norm_add_le_of_le ns b5)
  refine le_trans (norm_sub_le _ _) (le_trans (add_le_add (le_trans (norm_add_le _ _) (add_le_add_right b6 _)) tan) ?_)
  have b7 : M * (θ * h) ^ 2 ≤ M * h ^ 2 := mul_le_mul_of_nonneg_left (pow_le_pow_left₀ hθh hθh' 2) hM0
  rw [hx]
  linarith

/-! ### Taylor's formula -/

/-- Functions each of which is the derivative of the one before: the first is near its Taylor polynomial. -/
theorem taylor_chain (t C : ℝ) : ∀ (n : ℕ) (G : ℕ → ℝ → V) (d : ℝ), 0 ≤ d →
    (∀ i, i < n → ∀ s, t ≤ s → s ≤ t + d → HasDerivAt (G i) (G (i + 1) s) s) →
    (∀ s, t ≤ s → s ≤ t + d → ‖G n s‖ ≤ C) → ‖G 0 (t + d) - ∑ i ∈ Finset.range n, (d ^ i / (i.factorial : ℝ)) • G i t‖ ≤ C * d ^ n / n.factorial
  | 0, G, d, hd, _, hC => by
    have := hC (t + d) (by linarith) le_rfl
    simpa using this
  | n + 1, G, d, hd, hG, hC => by
    have hder : ∀ s, 0 ≤ s → s ≤ d → HasDerivAt (fun s => G 0 (t + s) - ∑ i ∈ Finset.range (n + 1), (s ^ i / (i.factorial : ℝ)) • G i t)
        (G 1 (t + s) - ∑ i ∈ Finset.range n, (s ^ i / (i.factorial : ℝ)) • G (i + 1) t) s := by
      intro s h0 h1
      have a1 : HasDerivAt (fun s => G 0 (t + s)) (G 1 (t + s)) s :=
        (hG 0 (by omega) (t + s) (by linarith) (by linarith)).comp_const_add t s
      have a2 : HasDerivAt (fun s : ℝ => ∑ i ∈ Finset.range (n + 1), (s ^ i / (i.factorial : ℝ)) • G i t)
          (∑ i ∈ Finset.range n, (s ^ i / (i.factorial : ℝ)) • G (i + 1) t) s := by
        have e : (fun s : ℝ => ∑ i ∈ Finset.range (n + 1), (s ^ i / (i.factorial : ℝ)) • G i t) =
            fun s : ℝ => ∑ i ∈ Finset.range n, (s ^ (i + 1) / ((i + 1).factorial : ℝ)) • G (i + 1) t + G 0 t := by
          funext s
          rw [Finset.sum_range_succ']
          simp
        rw [e]
        refine HasDerivAt.add_const _ (HasDerivAt.fun_sum fun i _ => ?_)
        have a3 : HasDerivAt (fun s : ℝ => s ^ (i + 1) / ((i + 1).factorial : ℝ)) (s ^ i / (i.factorial : ℝ)) s := by
          have := (hasDerivAt_pow (i + 1) s).div_const ((i + 1).factorial : ℝ)
          refine this.congr_deriv ?_
          rw [Nat.factorial_succ]
          push_cast
          have : (i.factorial : ℝ) ≠ 0 := by positivity
          have : (i : ℝ) + 1 ≠ 0 := by positivity
          field_simp
        exact a3.smul_const _
      exact a1.sub a2
    have hB : ∀ s, HasDerivAt (fun s : ℝ => C * s ^ (n + 1) / (n + 1).factorial) (C * s ^ n / n.factorial) s := by
      intro s
      have := ((hasDerivAt_pow (n + 1) s).const_mul C).div_const ((n + 1).factorial : ℝ)
      refine this.congr_deriv ?_
      rw [Nat.factorial_succ]
      push_cast
      have : (n.factorial : ℝ) ≠ 0 := by positivity
      have : (n : ℝ) + 1 ≠ 0 := by positivity
      field_simp
    refine image_norm_le_of_norm_deriv_right_le_deriv_boundary (a := 0) (b := d)
      (f := fun s => G 0 (t + s) - ∑ i ∈ Finset.range (n + 1), (s ^ i / (i.factorial : ℝ)) • G i t)
      (f' := fun s => G 1 (t + s) - ∑ i ∈ Finset.range n, (s ^ i / (i.factorial : ℝ)) • G (i + 1) t)
      (B := fun s => C * s ^ (n + 1) / (n + 1).factorial) (B' := fun s => C * s ^ n / n.factorial) ?_ ?_ ?_ hB ?_ ⟨hd, le_rfl⟩
    · exact fun s hs => (hder s hs.1 hs.2).continuousAt.continuousWithinAt
    · exact fun s hs => (hder s hs.1 hs.2.le).hasDerivWithinAt
    · rw [Finset.sum_range_succ']
      simp
    · intro s hs
      exact taylor_chain t C n (fun i => G (i + 1)) s hs.1 (fun i hi r h1 h2 => hG (i + 1) (by omega) r h1 (by linarith [hs.2]))
        (fun r h1 h2 => hC r h1 (by linarith [hs.2]))

end

/-! ### whole integrations -/

/-- Errors that grow by a factor and an amount in each step. -/
theorem err_grow {t e : ℕ → ℝ} {n : ℕ} {a D δ : ℝ} (ha : 0 ≤ a) (hD : 0 ≤ D) (hδ : 0 ≤ δ) (t0 : t 0 = 0) (e0 : e 0 ≤ δ)
    (hst : ∀ k, k + 1 < n → t k ≤ t (k + 1) ∧ e (k + 1) ≤ (1 + a * (t (k + 1) - t k)) * e k + D * (t (k + 1) - t k)) :
    ∀ k, k < n → 0 ≤ t k ∧ e k ≤ (δ + D * t k) * Real.exp (a * t k)
  | 0, _ => by rw [t0]; simpa using e0
  | k + 1, hk => by
    obtain ⟨h1, h2⟩ := err_grow ha hD hδ t0 e0 hst k (by omega)
    obtain ⟨h3, h4⟩ := hst k hk
    refine ⟨by linarith, ?_⟩
    obtain ⟨h, hh⟩ : ∃ h, h = t (k + 1) - t k := ⟨_, rfl⟩
    have e1 : t (k + 1) = t k + h := by rw [hh]; ring
    rw [← hh] at h4
    rw [e1]
    have hh0 : 0 ≤ h := by linarith
    have x1 : 1 + a * h ≤ Real.exp (a * h) := by have := Real.add_one_le_exp (a * h); linarith
    have x2 : Real.exp (a * (t k + h)) = Real.exp (a * h) * Real.exp (a * t k) := by rw [← Real.exp_add]; congr 1; ring
    have x3 : 1 ≤ Real.exp (a * (t k + h)) := Real.one_le_exp (mul_nonneg ha (by linarith))
    have x4 : (1 + a * h) * e k ≤ (δ + D * t k) * Real.exp (a * (t k + h)) := by
      have p : 0 ≤ (δ + D * t k) * Real.exp (a * t k) := by positivity
      calc (1 + a * h) * e k ≤ (1 + a * h) * ((δ + D * t k) * Real.exp (a * t k)) := mul_le_mul_of_nonneg_left h2 (by positivity)
        _ ≤ Real.exp (a * h) * ((δ + D * t k) * Real.exp (a * t k)) := mul_le_mul_of_nonneg_right x1 p
        _ = _ := by rw [x2]; ring
    have x5 : D * h ≤ D * h * Real.exp (a * (t k + h)) := le_mul_of_one_le_right (by positivity) x3
    nlinarith

/-- The steps of an integration go forward, are at most `H` long and stay below `T`. -/
def StepsWithin (s : Store) (H T : ℝ) : Prop :=
  (∀ k, k + 1 < s.n → timeAt s k ≤ timeAt s (k + 1) ∧ timeAt s (k + 1) - timeAt s k ≤ H) ∧ ∀ k, k < s.n → timeAt s k ≤ T

/-- **C146** Convergence.  Every stored point is near the solution: within the error of the initial value and `6 M H t`, times `exp (5 L t)`,
where `H` is the largest step.  Nothing is assumed about the control of the steps, which may be given in any way. -/
theorem C146_convergence {N : Nat} (hN : 0 < N) (f : ℝ → (Fin N → ℝ) → (Fin N → ℝ)) (Y : ℝ → Fin N → ℝ) (T L M H : ℝ) (atol rtol : ℝ)
    (y0 : Fin N → ℝ) (s : Store) (hr : DPRun f atol rtol y0 s) (hL0 : 0 ≤ L) (hM0 : 0 ≤ M) (hH0 : 0 ≤ H) (hY : SolvesOn f Y 0 T)
    (hL : ∀ t ∈ Set.Icc 0 T, ∀ y z, ‖f t y - f t z‖ ≤ L * ‖y - z‖)
    (hM : ∀ r ∈ Set.Icc 0 T, ∀ t ∈ Set.Icc 0 T, ‖f r (Y r) - f t (Y t)‖ ≤ M * |r - t|)
    (hs : StepsWithin s H T) (hH : 50 * (L * H) ≤ 1) (k : Nat) (hk : k < s.n) :
    ‖vecOf N (solutionAt N s k) - Y (timeAt s k)‖ ≤ (‖y0 - Y 0‖ + 6 * M * H * timeAt s k) * Real.exp (5 * L * timeAt s k) := by
  obtain ⟨-, t0, hy0, -, hst⟩ := C90_accepted_steps hN f atol rtol y0 s hr
  have mono : ∀ k, k < s.n → 0 ≤ timeAt s k := by
    intro k
    induction k with
    | zero => intro _; rw [t0]
    | succ k ih => intro hk; linarith [ih (by omega), (hs.1 k hk).1]
  refine (err_grow (t := timeAt s) (e := fun k => ‖vecOf N (solutionAt N s k) - Y (timeAt s k)‖) (n := s.n) (a := 5 * L) (D := 6 * M * H)
    (by positivity) (by positivity) (norm_nonneg _) t0 (by simp only [hy0, t0]; exact le_rfl) ?_ k hk).2
  intro k hk
  obtain ⟨h1, h2⟩ := hs.1 k hk
  refine ⟨h1, ?_⟩
  obtain ⟨h3, -⟩ := hst k hk
  rw [h3]
  have hh : 0 ≤ timeAt s (k + 1) - timeAt s k := by linarith
  have := C146_step hL0 hM0 hY hL hM (mono k (by omega)) hh (by rw [add_sub_cancel]; exact hs.2 _ hk)
    (by have := mul_le_mul_of_nonneg_left h2 hL0; linarith) (vecOf N (solutionAt N s k))
  rw [add_sub_cancel] at this
  refine le_trans this ?_
  have h4 : 6 * M * (timeAt s (k + 1) - timeAt s k) ^ 2 ≤ 6 * M * H * (timeAt s (k + 1) - timeAt s k) := by
    rw [pow_two, ← mul_assoc, mul_assoc (6 * M), mul_assoc (6 * M) H]
    exact mul_le_mul_of_nonneg_left (mul_le_mul_of_nonneg_right h2 hh) (by positivity)
  linarith

/-- **C146** So all stored points of all integrations with small enough steps are as near to the solution as one likes. -/
theorem C146_limit {N : Nat} (hN : 0 < N) (f : ℝ → (Fin N → ℝ) → (Fin N → ℝ)) (Y : ℝ → Fin N → ℝ) (T L M : ℝ) (hT : 0 ≤ T) (hL0 : 0 ≤ L) (hM0 : 0 ≤ M)
    (hY : SolvesOn f Y 0 T) (hL : ∀ t ∈ Set.Icc 0 T, ∀ y z, ‖f t y - f t z‖ ≤ L * ‖y - z‖)
    (hM : ∀ r ∈ Set.Icc 0 T, ∀ t ∈ Set.Icc 0 T, ‖f r (Y r) - f t (Y t)‖ ≤ M * |r - t|) (ε : ℝ) (hε : 0 < ε) :
    ∃ H > 0, ∀ (atol rtol : ℝ) (s : Store), DPRun f atol rtol (Y 0) s → StepsWithin s H T →
      ∀ k, k < s.n → ‖vecOf N (solutionAt N s k) - Y (timeAt s k)‖ ≤ ε := by
  have hE := Real.exp_pos (5 * L * T)
  refine ⟨min (1 / (50 * L + 1)) (ε / ((6 * M * T + 1) * Real.exp (5 * L * T))), lt_min (by positivity) (by positivity), ?_⟩
  intro atol rtol s hr hs k hk
  obtain ⟨H, hH⟩ : ∃ H, H = min (1 / (50 * L + 1)) (ε / ((6 * M * T + 1) * Real.exp (5 * L * T))) := ⟨_, rfl⟩
  rw [← hH] at hs
  have hH0 : 0 < H := by rw [hH]; exact lt_min (by positivity) (by positivity)
  have h1 : 50 * (L * H) ≤ 1 := by
    have : H ≤ 1 / (50 * L + 1) := by rw [hH]; exact min_le_left _ _
    rw [le_div_iff₀ (by positivity)] at this
    linarith
  have h2 : H * ((6 * M * T + 1) * Real.exp (5 * L * T)) ≤ ε := by
    rw [← le_div_iff₀ (by positivity), hH]
    exact min_le_right _ _
  have key := C146_convergence hN f Y T L M H atol rtol (Y 0) s hr hL0 hM0 hH0.le hY hL hM hs h1 k hk
  rw [sub_self, norm_zero, zero_add] at key
  refine le_trans key ?_
  have ht := hs.2 k hk
  have e1 : Real.exp (5 * L * timeAt s k) ≤ Real.exp (5 * L * T) := Real.exp_le_exp.2 (mul_le_mul_of_nonneg_left ht (by positivity))
  have e2 : 6 * M * H * timeAt s k ≤ 6 * M * H * T := mul_le_mul_of_nonneg_left ht (by positivity)
  calc 6 * M * H * timeAt s k * Real.exp (5 * L * timeAt s k)
      ≤ 6 * M * H * T * Real.exp (5 * L * timeAt s k) := mul_le_mul_of_nonneg_right e2 (Real.exp_pos _).le
    _ ≤ 6 * M * H * T * Real.exp (5 * L * T) := mul_le_mul_of_nonneg_left e1 (by positivity)
    _ ≤ H * ((6 * M * T + 1) * Real.exp (5 * L * T)) := by nlinarith
    _ ≤ ε := h2

/-- **C146** With the default parameters the steps go forward, so only their size matters. -/
theorem C146_forward {N : Nat} (f : ℝ → (Fin N → ℝ) → (Fin N → ℝ)) (atol rtol : ℝ) (y0 : Fin N → ℝ) (s : Store) (c : Ctl) (hr : DenseRun f atol rtol y0 s c)
    (H T : ℝ) (hH : ∀ k, k + 1 < s.n → timeAt s (k + 1) - timeAt s k ≤ H) (hT : lastTime s ≤ T) : StepsWithin s H T := by
  have inv := hr.run.2.inv
  have mono : ∀ j k, k < s.n → j ≤ k → timeAt s j ≤ timeAt s k := by
    intro j k hk hjk
    induction k with
    | zero => rw [Nat.le_zero.1 hjk]
    | succ k ih =>
      rcases Nat.lt_or_ge k j with h | h
      · rw [show j = k + 1 by omega]
      · exact le_trans (ih (by omega) h) (inv.inc k hk).le
  refine ⟨fun k hk => ⟨(inv.inc k hk).le, hH k hk⟩, fun k hk => le_trans (mono k (s.n - 1) (by omega) (by omega)) ?_⟩
  have := inv.pos
  unfold lastTime at hT
  rw [if_neg (show ¬ s.n = 0 by omega)] at hT
  exact hT

/-- **C146** Convergence of dense output: at sorted times within the integration it is as near to the solution as the stored points are, up to a factor
3 and `82 M H²`. -/
theorem C146_dense {N : Nat} (hN : 0 < N) (f : ℝ → (Fin N → ℝ) → (Fin N → ℝ)) (Y : ℝ → Fin N → ℝ) (T L M H : ℝ) (atol rtol : ℝ)
    (y0 : Fin N → ℝ) (s : Store) (c : Ctl) (hr : DenseRun f atol rtol y0 s c) (hn : 2 ≤ s.n) (hL0 : 0 ≤ L) (hM0 : 0 ≤ M) (hH0 : 0 ≤ H) (hY : SolvesOn f Y 0 T)
    (hL : ∀ t ∈ Set.Icc 0 T, ∀ y z, ‖f t y - f t z‖ ≤ L * ‖y - z‖)
    (hM : ∀ r ∈ Set.Icc 0 T, ∀ t ∈ Set.Icc 0 T, ‖f r (Y r) - f t (Y t)‖ ≤ M * |r - t|)
    (hst : ∀ k, k + 1 < s.n → timeAt s (k + 1) - timeAt s k ≤ H) (hT : lastTime s ≤ T) (hH : 50 * (L * H) ≤ 1)
    (Ts : List ℝ) (hs : Ts.Pairwise (· ≤ ·)) (hlo : ∀ t ∈ Ts, 0 ≤ t) (hhi : ∀ t ∈ Ts, t ≤ lastTime s) :
    ∃ outs, outputDense N s Ts 0 = .ok outs ∧ outs.length = Ts.length ∧ ∀ (i : Nat) (t : ℝ) (o : Nat → ℝ), Ts[i]? = some t → outs[i]? = some o →
      ‖vecOf N o - Y t‖ ≤ 3 * ((‖y0 - Y 0‖ + 6 * M * H * t) * Real.exp (5 * L * t)) + 82 * M * H ^ 2 := by
  obtain ⟨hrun, hreach⟩ := hr.run
  have hw := C146_forward f atol rtol y0 s c hr H T hst hT
  have ht0 : timeAt s 0 = 0 := hrun.inv.t0
  obtain ⟨outs, ho, hlen, hval⟩ := C38_values_partial N s c hreach hn Ts hs (by rw [ht0]; exact hlo) (by
    intro t ht
    have := hhi t ht
    unfold lastTime at this
    rw [if_neg (show ¬ s.n = 0 by omega)] at this
    exact this)
  refine ⟨outs, ho, hlen, ?_⟩
  intro i t o ht hO
  obtain ⟨k, hk, l1, l2, hv⟩ := hval i t o ht hO
  have hinc : timeAt s k < timeAt s (k + 1) := hreach.inv.inc k hk
  have mono : ∀ k, k < s.n → 0 ≤ timeAt s k := by
    intro k
    induction k with
    | zero => intro _; rw [ht0]
    | succ k ih => intro hk; linarith [ih (by omega), (hw.1 k hk).1]
  have hk0 := mono k (by omega)
  have conv := C146_convergence hN f Y T L M H atol rtol y0 s hrun hL0 hM0 hH0 hY hL hM hw hH k (by omega)
  obtain ⟨h, hh⟩ : ∃ h, h = timeAt s (k + 1) - timeAt s k := ⟨_, rfl⟩
  have hh0 : 0 < h := by rw [hh]; linarith
  have hhH : h ≤ H := by rw [hh]; exact hst k hk
  have hLh : 50 * (L * h) ≤ 1 := by have := mul_le_mul_of_nonneg_left hhH hL0; linarith
  have d := C146_dense_step hL0 hM0 hY hL hM hk0 hh0.le (by rw [hh, add_sub_cancel]; exact hw.2 _ hk) hLh (vecOf N (solutionAt N s k)) ((t - timeAt s k) / h)
    (div_nonneg (by linarith) hh0.le) (by rw [div_le_one hh0, hh]; linarith)
  simp only at d
  rw [div_mul_cancel₀ _ hh0.ne', add_sub_cancel] at d
  have key : vecOf N o = denseEval (prepareDense h (vecOf N (solutionAt N s k))
      (innerStep f (timeAt s k) h (vecOf N (solutionAt N s k)) (f (timeAt s k) (vecOf N (solutionAt N s k)))).yout
      (f (timeAt s k) (vecOf N (solutionAt N s k)))
      (innerStep f (timeAt s k) h (vecOf N (solutionAt N s k)) (f (timeAt s k) (vecOf N (solutionAt N s k)))).dydxout
      (innerStep f (timeAt s k) h (vecOf N (solutionAt N s k)) (f (timeAt s k) (vecOf N (solutionAt N s k)))).k3
      (innerStep f (timeAt s k) h (vecOf N (solutionAt N s k)) (f (timeAt s k) (vecOf N (solutionAt N s k)))).k4
      (innerStep f (timeAt s k) h (vecOf N (solutionAt N s k)) (f (timeAt s k) (vecOf N (solutionAt N s k)))).k5
      (innerStep f (timeAt s k) h (vecOf N (solutionAt N s k)) (f (timeAt s k) (vecOf N (solutionAt N s k)))).k6)
      ((t - timeAt s k) / h) := by
    rw [hh]
    funext i'
    rw [denseEval_apply]
    show o i' = _
    rw [hv i' i'.2]
    have hc := hr.coeffs k hk
    simp only [stepPoly, hc _ i']
    rfl
  rw [← key] at d
  refine le_trans d ?_
  have n0 := norm_nonneg (vecOf N (solutionAt N s k) - Y (timeAt s k))
  have m1 : (1 + 81 * L * h) * ‖vecOf N (solutionAt N s k) - Y (timeAt s k)‖ ≤ 3 * ‖vecOf N (solutionAt N s k) - Y (timeAt s k)‖ :=
    mul_le_mul_of_nonneg_right (by linarith) n0
  have m2 : 82 * M * h ^ 2 ≤ 82 * M * H ^ 2 := mul_le_mul_of_nonneg_left (pow_le_pow_left₀ hh0.le hhH 2) (by positivity)
  have m3 : (‖y0 - Y 0‖ + 6 * M * H * timeAt s k) * Real.exp (5 * L * timeAt s k) ≤ (‖y0 - Y 0‖ + 6 * M * H * t) * Real.exp (5 * L * t) := by
    have z := norm_nonneg (y0 - Y 0)
    have z1 : 6 * M * H * timeAt s k ≤ 6 * M * H * t := mul_le_mul_of_nonneg_left l1 (by positivity)
    have z2 : 0 ≤ 6 * M * H * timeAt s k := by positivity
    exact mul_le_mul (by linarith) (Real.exp_le_exp.2 (mul_le_mul_of_nonneg_left l1 (by positivity))) (Real.exp_pos _).le (by linarith)
  linarith

/-- **C146** The condition is needed: from zero, all integrations of `y' = 2 √|y|` stay zero, however small the steps, while `t²` is a solution too. -/
theorem C146_lipschitz_needed (atol rtol : ℝ) (s : Store)
    (hr : DPRun (fun (_ : ℝ) (y : Fin 1 → ℝ) (i : Fin 1) => 2 * Real.sqrt |y i|) atol rtol 0 s) :
    (∀ T, SolvesOn (fun (_ : ℝ) (y : Fin 1 → ℝ) (i : Fin 1) => 2 * Real.sqrt |y i|) (fun t _ => t ^ 2) 0 T) ∧
    ∀ k, k < s.n → ‖vecOf 1 (solutionAt 1 s k) - fun _ => timeAt s k ^ 2‖ = timeAt s k ^ 2 := by
  constructor
  · intro T t ht
    refine HasDerivAt.hasDerivWithinAt (hasDerivAt_pi.2 fun i => ?_)
    have e : 2 * Real.sqrt |t ^ 2| = (2 : ℕ) * t ^ (2 - 1) * 1 := by
      rw [abs_of_nonneg (by positivity), Real.sqrt_sq ht.1]; norm_num
    show HasDerivAt (fun t : ℝ => t ^ 2) (2 * Real.sqrt |t ^ 2|) t
    rw [e]
    exact (hasDerivAt_id t).pow 2
  · obtain ⟨-, -, hy0, -, hst⟩ := C90_accepted_steps Nat.one_pos _ atol rtol 0 s hr
    have z : ∀ k, k < s.n → vecOf 1 (solutionAt 1 s k) = 0 := by
      intro k
      induction k with
      | zero => intro _; exact hy0
      | succ k ih =>
        intro hk
        obtain ⟨h3, -⟩ := hst k hk
        rw [h3, ih (by omega)]
        have f0 : (fun i : Fin 1 => 2 * Real.sqrt |(0 : Fin 1 → ℝ) i|) = 0 := by funext i; simp
        simp only [innerStep, f0, smul_zero, add_zero]
    intro k hk
    rw [z k hk, zero_sub, norm_neg]
    simp

/-! ### order five -/

/-- **C146** Order five for integrals: if the slope depends on time only and has five derivatives, the last of them at most `C`, then every
stored point is within `C H⁵ t / 60` of the integral. -/
theorem C146_integrals {N : Nat} (hN : 0 < N) (g : ℝ → Fin N → ℝ) (Y : ℝ → Fin N → ℝ) (D : ℕ → ℝ → Fin N → ℝ) (T C H : ℝ) (atol rtol : ℝ)
    (y0 : Fin N → ℝ) (s : Store) (hr : DPRun (fun t _ => g t) atol rtol y0 s) (hC0 : 0 ≤ C) (hH0 : 0 ≤ H) (hD0 : D 0 = g)
    (hY : ∀ t ∈ Set.Icc 0 T, HasDerivAt Y (g t) t) (hD : ∀ i, i < 5 → ∀ t ∈ Set.Icc 0 T, HasDerivAt (D i) (D (i + 1) t) t)
    (hC : ∀ t ∈ Set.Icc 0 T, ‖D 5 t‖ ≤ C) (hs : StepsWithin s H T) (k : Nat) (hk : k < s.n) :
    ‖vecOf N (solutionAt N s k) - Y (timeAt s k)‖ ≤ ‖y0 - Y 0‖ + C * H ^ 5 / 60 * timeAt s k := by
  obtain ⟨-, t0, hy0, -, hst⟩ := C90_accepted_steps hN _ atol rtol y0 s hr
  have mono : ∀ k, k < s.n → 0 ≤ timeAt s k := by
    intro k
    induction k with
    | zero => intro _; rw [t0]
    | succ k ih => intro hk; linarith [ih (by omega), (hs.1 k hk).1]
  have key := (err_grow (t := timeAt s) (e := fun k => ‖vecOf N (solutionAt N s k) - Y (timeAt s k)‖) (n := s.n) (a := 0) (D := C * H ^ 5 / 60)
    le_rfl (by positivity) (norm_nonneg _) t0 (by simp only [hy0, t0]; exact le_rfl) ?_ k hk).2
  · simpa using key
  intro k hk
  obtain ⟨h1, h2⟩ := hs.1 k hk
  refine ⟨h1, ?_⟩
  obtain ⟨h3, -⟩ := hst k hk
  rw [h3]
  obtain ⟨t, ht⟩ : ∃ t, t = timeAt s k := ⟨_, rfl⟩
  obtain ⟨h, hh⟩ : ∃ h, h = timeAt s (k + 1) - timeAt s k := ⟨_, rfl⟩
  have et : timeAt s (k + 1) = t + h := by rw [hh, ht]; ring
  have hh0 : 0 ≤ h := by rw [hh]; linarith
  have ht0 : 0 ≤ t := by rw [ht]; exact mono k (by omega)
  have htT : t + h ≤ T := by rw [← et]; exact hs.2 _ hk
  rw [← hh, ← ht, et]
  obtain ⟨y, hy⟩ : ∃ y, y = vecOf N (solutionAt N s k) := ⟨_, rfl⟩
  rw [← hy]
  have hin : ∀ r, t ≤ r → r ≤ t + h → r ∈ Set.Icc 0 T := fun r a b => ⟨by linarith, by linarith⟩
  -- the remainders
  have rem : ∀ c, 0 ≤ c → c ≤ 1 → ‖g (t + c * h) - (D 0 t + (c * h) • D 1 t + ((c * h) ^ 2 / 2) • D 2 t + ((c * h) ^ 3 / 6) • D 3 t + ((c * h) ^ 4 / 24) • D 4 t)‖ ≤
      C * h ^ 5 / 120 := by
    intro c hc0 hc1
    have hch0 : 0 ≤ c * h := mul_nonneg hc0 hh0
    have hch : c * h ≤ h := by nlinarith
    have := taylor_chain t C 5 D (c * h) hch0 (fun i hi r a b => hD i hi r (hin r a (by linarith))) (fun r a b => hC r (hin r a (by linarith)))
    rw [← hD0]
    simp only [Finset.sum_range_succ, Finset.sum_range_zero, zero_add, Nat.factorial, pow_zero, pow_one] at this
    norm_num at this
    refine le_trans this ?_
    have := mul_le_mul_of_nonneg_left (pow_le_pow_left₀ hch0 hch 5) hC0
    linarith
  have remY : ‖Y (t + h) - (Y t + h • D 0 t + (h ^ 2 / 2) • D 1 t + (h ^ 3 / 6) • D 2 t + (h ^ 4 / 24) • D 3 t + (h ^ 5 / 120) • D 4 t)‖ ≤ C * h ^ 6 / 720 := by
    have := taylor_chain t C 6 (fun i => match i with | 0 => Y | j + 1 => D j) h hh0 (fun i hi r a b => by
      cases i with
      | zero => simp only; rw [hD0]; exact hY r (hin r a b)
      | succ j => exact hD j (by omega) r (hin r a b)) (fun r a b => hC r (hin r a b))
    simp only [Finset.sum_range_succ, Finset.sum_range_zero, zero_add, Nat.factorial, pow_zero, pow_one] at this
    norm_num at this
    exact this
  obtain ⟨P, hP⟩ : ∃ P : ℝ → Fin N → ℝ, P = fun c => D 0 t + (c * h) • D 1 t + ((c * h) ^ 2 / 2) • D 2 t + ((c * h) ^ 3 / 6) • D 3 t + ((c * h) ^ 4 / 24) • D 4 t := ⟨_, rfl⟩
  have rem' : ∀ c, 0 ≤ c → c ≤ 1 → ‖g (t + c * h) - P c‖ ≤ C * h ^ 5 / 120 := fun c a b => by rw [hP]; exact rem c a b
  have r1 := rem' 0 le_rfl zero_le_one
  have r3 := rem' c3 (by norm_num [c3]) (by norm_num [c3])
  have r4 := rem' c4 (by norm_num [c4]) (by norm_num [c4])
  have r5 := rem' c5 (by norm_num [c5]) (by norm_num [c5])
  have r6 := rem' 1 zero_le_one le_rfl
  rw [zero_mul, add_zero] at r1
  rw [one_mul] at r6
  have e1 : (innerStep (fun r _ => g r) t h y (g t)).yout - Y (t + h) = (y - Y t) +
      ((h * a71) • (g t - P 0) + (h * a73) • (g (t + c3 * h) - P c3) + (h * a74) • (g (t + c4 * h) - P c4) + (h * a75) • (g (t + c5 * h) - P c5) +
        (h * a76) • (g (t + h) - P 1)) -
      (Y (t + h) - (Y t + h • D 0 t + (h ^ 2 / 2) • D 1 t + (h ^ 3 / 6) • D 2 t + (h ^ 4 / 24) • D 3 t + (h ^ 5 / 120) • D 4 t)) := by
    rw [hP]
    simp only [innerStep, c3, c4, c5, a71, a73, a74, a75, a76]
    match_scalars <;> ring
  rw [e1]
  have w : ∀ (a A : ℝ) (v : Fin N → ℝ), |a| ≤ A → ‖v‖ ≤ C * h ^ 5 / 120 → ‖(h * a) • v‖ ≤ h * A * (C * h ^ 5 / 120) := by
    intro a A v ha hv
    refine norm_smul_le_of ?_ hv
    rw [abs_mul, abs_of_nonneg hh0]
    exact mul_le_mul_of_nonneg_left ha hh0
  have w1 := w a71 (92 / 1000) _ (by norm_num [a71, abs_of_pos]) r1
  have w3 := w a73 (45 / 100) _ (by norm_num [a73, abs_of_pos]) r3
  have w4 := w a74 (652 / 1000) _ (by norm_num [a74, abs_of_pos]) r4
  have w5 := w a75 (323 / 1000) _ (by norm_num [a75, abs_of_neg]) r5
  have w6 := w a76 (131 / 1000) _ (by norm_num [a76, abs_of_pos]) r6
  refine le_trans (norm_sub_le _ _) ?_
  refine le_trans (add_le_add (le_trans (norm_add_le _ _) (add_le_add_right (le_trans (norm_add_le _ _) (add_le_add (le_trans (norm_add_le _ _)
    (add_le_add (le_trans (norm_add_le _ _) (add_le_add (le_trans (norm_add_le _ _) (add_le_add w1 w3)) w4)) w5)) w6)) _)) remY) ?_
  have hH5 : h ^ 5 ≤ H ^ 5 := pow_le_pow_left₀ hh0 (by rw [hh]; exact h2) 5
  have hq : C * h * h ^ 5 ≤ C * h * H ^ 5 := mul_le_mul_of_nonneg_left hH5 (by positivity)
  have hq0 : 0 ≤ C * h * h ^ 5 := by positivity
  nlinarith

/-- One step of a linear equation. -/
theorem linear_step {N : Nat} (A : (Fin N → ℝ) →ₗ[ℝ] (Fin N → ℝ)) (Y : ℝ → Fin N → ℝ) (T Λ B h t : ℝ) (hΛ0 : 0 ≤ Λ) (hB0 : 0 ≤ B)
    (hA : ∀ v, ‖A v‖ ≤ Λ * ‖v‖) (hY : ∀ t ∈ Set.Icc 0 T, HasDerivAt Y (A (Y t)) t) (hB : ∀ t ∈ Set.Icc 0 T, ‖Y t‖ ≤ B)
    (hh0 : 0 ≤ h) (ht0 : 0 ≤ t) (htT : t + h ≤ T) (z1 : Λ * h ≤ 1) (y : Fin N → ℝ) :
    ‖y + h • A y + (h ^ 2 / 2) • A (A y) + (h ^ 3 / 6) • A (A (A y)) + (h ^ 4 / 24) • A (A (A (A y))) +
        (h ^ 5 / 120) • A (A (A (A (A y)))) + (h ^ 6 / 600) • A (A (A (A (A (A y))))) - Y (t + h)‖ ≤
      (1 + 2 * Λ * h) * ‖y - Y t‖ + Λ ^ 6 * B * h ^ 6 / 300 := by
  have hin : ∀ r, t ≤ r → r ≤ t + h → r ∈ Set.Icc 0 T := fun r a b => ⟨by linarith, by linarith⟩
  have hpow : ∀ (n : ℕ) (v : Fin N → ℝ), ‖(A^[n]) v‖ ≤ Λ ^ n * ‖v‖ := by
    intro n
    induction n with
    | zero => intro v; simp
    | succ n ih =>
      intro v
      rw [Function.iterate_succ_apply']
      refine le_trans (hA _) ?_
      have := mul_le_mul_of_nonneg_left (ih v) hΛ0
      rw [pow_succ]
      linarith
  have hAc : Continuous A := A.continuous_of_finiteDimensional
  have hder : ∀ (n : ℕ) (r : ℝ), r ∈ Set.Icc 0 T → HasDerivAt (fun r => (A^[n]) (Y r)) ((A^[n + 1]) (Y r)) r := by
    intro n
    induction n with
    | zero => intro r hr; exact hY r hr
    | succ n ih =>
      intro r hr
      have := (A.toContinuousLinearMap.hasFDerivAt (x := (A^[n]) (Y r))).comp_hasDerivAt r (ih r hr)
      have e : ∀ m v, (A^[m + 1]) v = A ((A^[m]) v) := fun m v => Function.iterate_succ_apply' A m v
      simp only [e]
      simp only [e] at this
      exact this
  have rem := taylor_chain t (Λ ^ 6 * B) 6 (fun n r => (A^[n]) (Y r)) h hh0 (fun i _ r a b => hder i r (hin r a b)) (fun r a b => by
    refine le_trans (hpow 6 _) (mul_le_mul_of_nonneg_left (hB r (hin r a b)) (by positivity)))
  simp only [Finset.sum_range_succ, Finset.sum_range_zero, zero_add, Nat.factorial, pow_zero, pow_one, Function.iterate_succ_apply', Function.iterate_zero,
    id] at rem
  norm_num at rem
  obtain ⟨d, hd⟩ : ∃ d, d = y - Y t := ⟨_, rfl⟩
  have ey : y = Y t + d := by rw [hd]; abel
  have e1 : y + h • A y + (h ^ 2 / 2) • A (A y) + (h ^ 3 / 6) • A (A (A y)) + (h ^ 4 / 24) • A (A (A (A y))) +
        (h ^ 5 / 120) • A (A (A (A (A y)))) + (h ^ 6 / 600) • A (A (A (A (A (A y))))) - Y (t + h) =
      (d + h • A d + (h ^ 2 / 2) • A (A d) + (h ^ 3 / 6) • A (A (A d)) + (h ^ 4 / 24) • A (A (A (A d))) +
        (h ^ 5 / 120) • A (A (A (A (A d)))) + (h ^ 6 / 600) • A (A (A (A (A (A d)))))) +
      (h ^ 6 / 600) • A (A (A (A (A (A (Y t)))))) -
      (Y (t + h) - (Y t + h • A (Y t) + (h ^ 2 / 2) • A (A (Y t)) + (h ^ 3 / 6) • A (A (A (Y t))) + (h ^ 4 / 24) • A (A (A (A (Y t)))) +
        (h ^ 5 / 120) • A (A (A (A (A (Y t))))))) := by
    rw [ey]
    simp only [map_add]
    module
  rw [e1]
  have z0 : 0 ≤ Λ * h := by positivity
  have n0 := norm_nonneg d
  have pw : ∀ (n : ℕ) (q : ℝ) (v : Fin N → ℝ), 0 ≤ q → ‖(h ^ n / q) • (A^[n]) v‖ ≤ (Λ * h) ^ n / q * ‖v‖ := by
    intro n q v hq
    have := norm_smul_le_of (c := h ^ n / q) (C := h ^ n / q) (by rw [abs_of_nonneg (by positivity)]) (hpow n v)
    refine le_trans this (le_of_eq ?_)
    rw [mul_pow]
    ring
  have p1 := pw 1 1 d (by norm_num)
  have p2 := pw 2 2 d (by norm_num)
  have p3 := pw 3 6 d (by norm_num)
  have p4 := pw 4 24 d (by norm_num)
  have p5 := pw 5 120 d (by norm_num)
  have p6 := pw 6 600 d (by norm_num)
  have p7 := pw 6 600 (Y t) (by norm_num)
  simp only [Function.iterate_succ_apply', Function.iterate_zero, id, pow_one, div_one] at p1 p2 p3 p4 p5 p6 p7
  have hBt := hB t (hin t le_rfl (by linarith))
  refine le_trans (norm_sub_le _ _) ?_
  refine le_trans (add_le_add (le_trans (norm_add_le _ _) (add_le_add (le_trans (norm_add_le _ _) (add_le_add (le_trans (norm_add_le _ _)
    (add_le_add (le_trans (norm_add_le _ _) (add_le_add (le_trans (norm_add_le _ _) (add_le_add (le_trans (norm_add_le _ _) (add_le_add
      (le_trans (norm_add_le _ _) (add_le_add le_rfl p1)) p2)) p3)) p4)) p5)) p6)) p7)) rem) ?_
  have q2 : (Λ * h) ^ 2 ≤ Λ * h := pow_le_of_le_one z0 z1 (by norm_num)
  have q3 : (Λ * h) ^ 3 ≤ Λ * h := pow_le_of_le_one z0 z1 (by norm_num)
  have q4 : (Λ * h) ^ 4 ≤ Λ * h := pow_le_of_le_one z0 z1 (by norm_num)
  have q5 : (Λ * h) ^ 5 ≤ Λ * h := pow_le_of_le_one z0 z1 (by norm_num)
  have q6 : (Λ * h) ^ 6 ≤ Λ * h := pow_le_of_le_one z0 z1 (by norm_num)
  have g1 : ‖d‖ + Λ * h * ‖d‖ + (Λ * h) ^ 2 / 2 * ‖d‖ + (Λ * h) ^ 3 / 6 * ‖d‖ + (Λ * h) ^ 4 / 24 * ‖d‖ + (Λ * h) ^ 5 / 120 * ‖d‖ +
      (Λ * h) ^ 6 / 600 * ‖d‖ ≤ (1 + 2 * Λ * h) * ‖d‖ := by
    rw [show ‖d‖ + Λ * h * ‖d‖ + (Λ * h) ^ 2 / 2 * ‖d‖ + (Λ * h) ^ 3 / 6 * ‖d‖ + (Λ * h) ^ 4 / 24 * ‖d‖ + (Λ * h) ^ 5 / 120 * ‖d‖ +
      (Λ * h) ^ 6 / 600 * ‖d‖ = (1 + Λ * h + (Λ * h) ^ 2 / 2 + (Λ * h) ^ 3 / 6 + (Λ * h) ^ 4 / 24 + (Λ * h) ^ 5 / 120 + (Λ * h) ^ 6 / 600) * ‖d‖ by ring]
    exact mul_le_mul_of_nonneg_right (by linarith) n0
  have g2 : (Λ * h) ^ 6 / 600 * ‖Y t‖ + Λ ^ 6 * B * h ^ 6 / 720 ≤ Λ ^ 6 * B * h ^ 6 / 300 := by
    have a1 : (Λ * h) ^ 6 / 600 * ‖Y t‖ ≤ (Λ * h) ^ 6 / 600 * B := mul_le_mul_of_nonneg_left hBt (by positivity)
    have a2 : (Λ * h) ^ 6 / 600 * B = Λ ^ 6 * B * h ^ 6 / 600 := by rw [mul_pow]; ring
    have a3 : 0 ≤ Λ ^ 6 * B * h ^ 6 := by positivity
    linarith
  rw [← hd]
  generalize ‖d‖ = dd at *
  generalize ‖Y t‖ = yy at *
  generalize (Λ * h) ^ 6 = z6 at *
  linarith

/-- **C146** Order five for linear equations: if `‖A v‖ ≤ Λ ‖v‖`, the solution stays below `B` and `Λ H ≤ 1`, then every stored point is
within the error of the initial value and `Λ⁶ B H⁵ t / 300`, times `exp (2 Λ t)`, of the solution. -/
theorem C146_linear {N : Nat} (hN : 0 < N) (A : (Fin N → ℝ) →ₗ[ℝ] (Fin N → ℝ)) (Y : ℝ → Fin N → ℝ) (T Λ B H : ℝ) (atol rtol : ℝ)
    (y0 : Fin N → ℝ) (s : Store) (hr : DPRun (fun _ y => A y) atol rtol y0 s) (hΛ0 : 0 ≤ Λ) (hB0 : 0 ≤ B) (hH0 : 0 ≤ H)
    (hA : ∀ v, ‖A v‖ ≤ Λ * ‖v‖) (hY : ∀ t ∈ Set.Icc 0 T, HasDerivAt Y (A (Y t)) t) (hB : ∀ t ∈ Set.Icc 0 T, ‖Y t‖ ≤ B)
    (hs : StepsWithin s H T) (hH : Λ * H ≤ 1) (k : Nat) (hk : k < s.n) :
    ‖vecOf N (solutionAt N s k) - Y (timeAt s k)‖ ≤ (‖y0 - Y 0‖ + Λ ^ 6 * B * H ^ 5 / 300 * timeAt s k) * Real.exp (2 * Λ * timeAt s k) := by
  obtain ⟨-, t0, hy0, -, -⟩ := C90_accepted_steps hN _ atol rtol y0 s hr
  have mono : ∀ k, k < s.n → 0 ≤ timeAt s k := by
    intro k
    induction k with
    | zero => intro _; rw [t0]
    | succ k ih => intro hk; linarith [ih (by omega), (hs.1 k hk).1]
  refine (err_grow (t := timeAt s) (e := fun k => ‖vecOf N (solutionAt N s k) - Y (timeAt s k)‖) (n := s.n) (a := 2 * Λ) (D := Λ ^ 6 * B * H ^ 5 / 300)
    (by positivity) (by positivity) (norm_nonneg _) t0 (by simp only [hy0, t0]; exact le_rfl) ?_ k hk).2
  intro k hk
  obtain ⟨h1, h2⟩ := hs.1 k hk
  refine ⟨h1, ?_⟩
  have h3 := C91_linear hN A atol rtol y0 s hr k hk
  rw [h3]
  obtain ⟨t, ht⟩ : ∃ t, t = timeAt s k := ⟨_, rfl⟩
  obtain ⟨h, hh⟩ : ∃ h, h = timeAt s (k + 1) - timeAt s k := ⟨_, rfl⟩
  have et : timeAt s (k + 1) = t + h := by rw [hh, ht]; ring
  have hh0 : 0 ≤ h := by rw [hh]; linarith
  have ht0 : 0 ≤ t := by rw [ht]; exact mono k (by omega)
  have htT : t + h ≤ T := by rw [← et]; exact hs.2 _ hk
  have hhH : h ≤ H := by rw [hh]; exact h2
  rw [← hh, ← ht, et]
  refine le_trans (linear_step A Y T Λ B h t hΛ0 hB0 hA hY hB hh0 ht0 htT (le_trans (mul_le_mul_of_nonneg_left hhH hΛ0) hH) _) (add_le_add_right ?_ _)
  have a2 : Λ ^ 6 * B * h * h ^ 5 ≤ Λ ^ 6 * B * h * H ^ 5 := mul_le_mul_of_nonneg_left (pow_le_pow_left₀ hh0 hhH 5) (by positivity)
  rw [show Λ ^ 6 * B * h ^ 6 / 300 = Λ ^ 6 * B * h * h ^ 5 / 300 by ring, show Λ ^ 6 * B * H ^ 5 / 300 * h = Λ ^ 6 * B * h * H ^ 5 / 300 by ring]
  linarith

/-! ### examples -/

/-- `y' = -y` from 1: the stored points of every integration with steps up to 1/50 are within `H t exp (5 t) · 6` of `exp (-t)`. -/
example (atol rtol H : ℝ) (s : Store) (hr : DPRun (fun (_ : ℝ) (y : Fin 1 → ℝ) => -y) atol rtol (fun _ => 1) s) (hH0 : 0 ≤ H) (hH : 50 * H ≤ 1)
    (hs : StepsWithin s H 10) (k : Nat) (hk : k < s.n) :
    ‖vecOf 1 (solutionAt 1 s k) - fun _ => Real.exp (-timeAt s k)‖ ≤ 6 * H * timeAt s k * Real.exp (5 * timeAt s k) := by
  have key := C146_convergence Nat.one_pos (fun (_ : ℝ) (y : Fin 1 → ℝ) => -y) (fun t _ => Real.exp (-t)) 10 1 1 H atol rtol (fun _ => 1) s hr zero_le_one
    zero_le_one hH0 (fun t _ => by
      refine HasDerivAt.hasDerivWithinAt (hasDerivAt_pi.2 fun i => ?_)
      have := (hasDerivAt_neg t).exp
      simpa using this) (fun t _ y z => by rw [one_mul, neg_sub_neg, norm_sub_rev]) (fun r hr' t ht => by
      rw [one_mul, neg_sub_neg]
      refine (pi_norm_le_iff_of_nonneg (abs_nonneg _)).2 fun i => ?_
      rw [Pi.sub_apply, Real.norm_eq_abs]
      have m : ∀ a b : ℝ, 0 ≤ a → a ≤ b → |Real.exp (-a) - Real.exp (-b)| ≤ b - a := by
        intro a b ha hab
        have e1 : Real.exp (-b) = Real.exp (-a) * Real.exp (a - b) := by rw [← Real.exp_add]; congr 1; ring
        have e2 : Real.exp (-a) ≤ 1 := Real.exp_le_one_iff.2 (by linarith)
        have e3 := Real.add_one_le_exp (a - b)
        have e4 : Real.exp (a - b) ≤ 1 := Real.exp_le_one_iff.2 (by linarith)
        have e5 := Real.exp_pos (-a)
        rw [e1, abs_of_nonneg (by nlinarith)]
        nlinarith
      rcases le_total r t with h | h
      · rw [abs_sub_comm, abs_sub_comm r t, abs_of_nonneg (show 0 ≤ t - r by linarith)]
        exact m r t hr'.1 h
      · rw [abs_of_nonneg (show 0 ≤ r - t by linarith)]
        exact m t r ht.1 h) hs (by linarith) k hk
  have e0 : (fun _ => 1 : Fin 1 → ℝ) - (fun _ => Real.exp (-0)) = 0 := by funext i; simp
  rw [e0, norm_zero, zero_add] at key
  simpa using key

/-- There are such integrations, of one step of length one (for the integral of `3 t²`). -/
example : ∃ s c, DenseRun (fun (t : ℝ) (_ : Fin 1 → ℝ) => (0 : Fin 1 → ℝ) + t • 0 + t ^ 2 • (fun _ => 3) + t ^ 3 • 0)
    (1 / 1000) (1 / 1000) (fun _ => 1) s c ∧ s.n = 2 ∧ StepsWithin s 1 1 := by
  obtain ⟨s1, hs1, hn, hrun, hreach⟩ := start_run
    (fun (t : ℝ) (_ : Fin 1 → ℝ) => (0 : Fin 1 → ℝ) + t • 0 + t ^ 2 • (fun _ => 3) + t ^ 3 • 0) (1 / 1000) (1 / 1000)
    (fun _ => 1) (by decide)
  have hW : W = 4294967296 := rfl
  have hd1 : DenseRun (fun (t : ℝ) (_ : Fin 1 → ℝ) => (0 : Fin 1 → ℝ) + t • 0 + t ^ 2 • (fun _ => 3) + t ^ 3 • 0)
    (1 / 1000) (1 / 1000) (fun _ => 1) s1 Ctl.init := DenseRun.init _ _ _ _ (by simp [Ctl.init]) (by decide) hs1
  obtain ⟨c', hl⟩ := C91_cubics_accepted (by omega) 0 0 (fun _ => 3) 0 (1 / 1000) (1 / 1000) 0 (by norm_num) (by norm_num)
    id Par.default Ctl.init 0 (fun _ => 1) s1 hrun 1
  obtain ⟨s2, hs2⟩ := step_succeeds (fun _ => 0) 0 _ 1 s1 Ctl.init hreach.inv (by omega) (by omega) 1 c' hl
  have hr2 := DenseRun.step _ _ _ _ _ _ _ _ hd1 (by omega) (by omega) hs2
  obtain ⟨-, r2, -, r4, -⟩ := rkStep_points 1 _ _ _ _ _ _ _ s1 s2 _ _ _ hrun.inv.le (by omega) (by omega) hs2
  have ht1 : timeAt s2 1 = 1 := by
    rw [hn] at r4
    have ht0 : timeAt s1 0 = 0 := hrun.inv.t0
    rw [timeAt, r4, ht0]; norm_num
  have ht0 : timeAt s2 0 = 0 := hr2.run.1.inv.t0
  have hn2 : s2.n = 2 := by omega
  refine ⟨s2, c', hr2, hn2, C146_forward _ _ _ _ s2 c' hr2 1 1 (fun k hk => ?_) ?_⟩
  · rw [show k = 0 by omega, ht1, ht0]; norm_num
  · rw [lastTime, if_neg (by omega), hn2]
    exact ht1.le

/-! ### floating point -/

/-- The first components of a rational vector, as a real vector. -/
def rvec (N : Nat) (y : ℕ → ℚ) : Fin N → ℝ := fun i => (y i : ℝ)

/-- The exact method on rational vectors is the one on real vectors. -/
theorem exact_yout {N : Nat} (f : ℚ → (ℕ → ℚ) → ℕ → ℚ) (G : ℝ → (Fin N → ℝ) → Fin N → ℝ)
    (hG : ∀ (t : ℚ) (y : ℕ → ℚ), G (t : ℝ) (rvec N y) = rvec N (f t y)) (T h : ℚ) (y d : ℕ → ℚ) :
    (innerStep G (T : ℝ) h (rvec N y) (rvec N d)).yout = rvec N (dpInnerR exactRnd f T h y d).yout := by
  have stage : ∀ (t : ℝ) (t' : ℚ) (v : Fin N → ℝ) (v' : ℕ → ℚ), t = t' → v = rvec N v' → G t v = rvec N (f t' v') := by
    rintro t t' v v' rfl rfl
    exact hG t' v'
  obtain ⟨q, hq⟩ : ∃ q, q = dpInnerR exactRnd f T h y d := ⟨_, rfl⟩
  rw [← hq]
  have q2 : q.k2 = f (T + 1 / 5 * h) fun i => rowE h (y i) [(1 / 5, d i)] := by
    simp only [← exactRow]; rw [hq]; rfl
  have q3 : q.k3 = f (T + 3 / 10 * h) fun i => rowE h (y i) [(3 / 40, d i), (9 / 40, q.k2 i)] := by
    simp only [← exactRow]; rw [hq]; rfl
  have q4 : q.k4 = f (T + 4 / 5 * h) fun i => rowE h (y i) [(44 / 45, d i), (-56 / 15, q.k2 i), (32 / 9, q.k3 i)] := by
    simp only [← exactRow]; rw [hq]; rfl
  have q5 : q.k5 = f (T + 8 / 9 * h) fun i =>
      rowE h (y i) [(19372 / 6561, d i), (-25360 / 2187, q.k2 i), (64448 / 6561, q.k3 i), (-212 / 729, q.k4 i)] := by
    simp only [← exactRow]; rw [hq]; rfl
  have q6 : q.k6 = f (T + h) fun i =>
      rowE h (y i) [(9017 / 3168, d i), (-355 / 33, q.k2 i), (46732 / 5247, q.k3 i), (49 / 176, q.k4 i), (-5103 / 18656, q.k5 i)] := by
    simp only [← exactRow]; rw [hq]; rfl
  have ey : q.yout = fun i => rowE h (y i) [(35 / 384, d i), (500 / 1113, q.k3 i), (125 / 192, q.k4 i), (-2187 / 6784, q.k5 i), (11 / 84, q.k6 i)] := by
    simp only [← exactRow]; rw [hq]; rfl
  have r2 : G ((T : ℝ) + c2 * h) (rvec N y + ((h : ℝ) * a21) • rvec N d) = rvec N q.k2 := by
    rw [q2]
    apply stage
    · simp only [c2]; push_cast; ring
    · funext i
      simp only [rvec, Pi.add_apply, Pi.smul_apply, smul_eq_mul, rowE, List.map_cons, List.map_nil, List.sum_cons, List.sum_nil, a21]
      push_cast; ring
  have r3 : G ((T : ℝ) + c3 * h) (rvec N y + ((h : ℝ) * a31) • rvec N d + ((h : ℝ) * a32) • rvec N q.k2) = rvec N q.k3 := by
    rw [q3]
    apply stage
    · simp only [c3]; push_cast; ring
    · funext i
      simp only [rvec, Pi.add_apply, Pi.smul_apply, smul_eq_mul, rowE, List.map_cons, List.map_nil, List.sum_cons, List.sum_nil, a31, a32]
      push_cast; ring
  have r4 : G ((T : ℝ) + c4 * h) (rvec N y + ((h : ℝ) * a41) • rvec N d + ((h : ℝ) * a42) • rvec N q.k2 + ((h : ℝ) * a43) • rvec N q.k3) = rvec N q.k4 := by
    rw [q4]
    apply stage
    · simp only [c4]; push_cast; ring
    · funext i
      simp only [rvec, Pi.add_apply, Pi.smul_apply, smul_eq_mul, rowE, List.map_cons, List.map_nil, List.sum_cons, List.sum_nil, a41, a42, a43]
      push_cast; ring
  have r5 : G ((T : ℝ) + c5 * h) (rvec N y + ((h : ℝ) * a51) • rvec N d + ((h : ℝ) * a52) • rvec N q.k2 + ((h : ℝ) * a53) • rvec N q.k3 + ((h : ℝ) * a54) • rvec N q.k4) =
      rvec N q.k5 := by
    rw [q5]
    apply stage
    · simp only [c5]; push_cast; ring
    · funext i
      simp only [rvec, Pi.add_apply, Pi.smul_apply, smul_eq_mul, rowE, List.map_cons, List.map_nil, List.sum_cons, List.sum_nil, a51, a52, a53, a54]
      push_cast; ring
  have r6 : G ((T : ℝ) + h) (rvec N y + ((h : ℝ) * a61) • rvec N d + ((h : ℝ) * a62) • rvec N q.k2 + ((h : ℝ) * a63) • rvec N q.k3 + ((h : ℝ) * a64) • rvec N q.k4 +
      ((h : ℝ) * a65) • rvec N q.k5) = rvec N q.k6 := by
    rw [q6]
    apply stage
    · push_cast; ring
    · funext i
      simp only [rvec, Pi.add_apply, Pi.smul_apply, smul_eq_mul, rowE, List.map_cons, List.map_nil, List.sum_cons, List.sum_nil, a61, a62, a63, a64, a65]
      push_cast; ring
  have ry : rvec N y + ((h : ℝ) * a71) • rvec N d + ((h : ℝ) * a73) • rvec N q.k3 + ((h : ℝ) * a74) • rvec N q.k4 + ((h : ℝ) * a75) • rvec N q.k5 +
      ((h : ℝ) * a76) • rvec N q.k6 = rvec N q.yout := by
    rw [ey]
    funext i
    simp only [rvec, Pi.add_apply, Pi.smul_apply, smul_eq_mul, rowE, List.map_cons, List.map_nil, List.sum_cons, List.sum_nil, a71, a73, a74, a75, a76]
    push_cast; ring
  simp only [innerStep, r2, r3, r4, r5, r6, ry]

/-- **C146** In floating point.  The stored values of an integration with rounded arithmetic, and with a function `f'` which is only near the right
one, are near the solution: the bound of C137 for the rounding, which is proportional to the unit of rounding, and the bound of `C146_convergence` for
the method, at the exact sums of the steps taken; and the stored times are near these. -/
theorem C146_rounded {u : ℚ} (R : Rnd u) {N : ℕ} (hN : 0 < N) {f' f : ℚ → (ℕ → ℚ) → ℕ → ℚ} {L K ε : ℚ} (S : Smooth N f' f L K ε) {y0 hs : ℕ → ℚ} {s : HistR}
    (F : Followed R f' y0 hs s) (B Q H : ℚ) (hB : ∀ j, j < s.n → ∀ i, i < N → |s.y j i| ≤ B)
    (hQ : ∀ j, j + 1 < s.n → Below (dpInnerR R f' (s.time j) (hs j) (s.y j) (s.dy j)) N (s.dy j) Q)
    (G : ℝ → (Fin N → ℝ) → Fin N → ℝ) (hG : ∀ (t : ℚ) (y : ℕ → ℚ), G (t : ℝ) (rvec N y) = rvec N (f t y))
    (Y : ℝ → Fin N → ℝ) (T M : ℝ) (hM0 : 0 ≤ M) (hY : SolvesOn G Y 0 T)
    (hL : ∀ t ∈ Set.Icc 0 T, ∀ y z, ‖G t y - G t z‖ ≤ L * ‖y - z‖)
    (hM : ∀ r ∈ Set.Icc 0 T, ∀ t ∈ Set.Icc 0 T, ‖G r (Y r) - G t (Y t)‖ ≤ M * |r - t|)
    (hH0 : 0 ≤ H) (hs0 : ∀ j, j + 1 < s.n → 0 ≤ hs j ∧ hs j ≤ H) (hH : 50 * (L * H) ≤ 1)
    (hT : ∀ k, k < s.n → ((∑ j ∈ Finset.range k, hs j : ℚ) : ℝ) ≤ T) (k : ℕ) (hk : k < s.n) :
    |s.time k - ∑ j ∈ Finset.range k, hs j| ≤ timeDrift u s.time hs k ∧
    ‖rvec N (s.y k) - Y (∑ j ∈ Finset.range k, hs j : ℚ)‖ ≤
      ((growth L hs k * ∑ j ∈ Finset.range k, stepError u K ε B Q s.time hs j : ℚ) : ℝ) +
        (‖rvec N y0 - Y 0‖ + 6 * M * H * (∑ j ∈ Finset.range k, hs j : ℚ)) * Real.exp (5 * L * (∑ j ∈ Finset.range k, hs j : ℚ)) := by
  have hsum : ∀ k, (exactRun f hs y0 k).1 = ∑ j ∈ Finset.range k, hs j := by
    intro k
    induction k with
    | zero => rfl
    | succ k ih => rw [Finset.sum_range_succ, ← ih]; rfl
  have hLH0 : ∀ j, j + 1 < s.n → L * |hs j| ≤ L * H := fun j hj => by
    rw [abs_of_nonneg (hs0 j hj).1]
    exact mul_le_mul_of_nonneg_left (hs0 j hj).2 S.L0
  have hL0 : (0 : ℝ) ≤ L := by exact_mod_cast S.L0
  have hH0' : (0 : ℝ) ≤ H := by exact_mod_cast hH0
  refine ⟨by rw [← hsum]; exact times_close R (f := f) F k hk, ?_⟩
  have h1 := C137_history R S F B Q (fun j hj => by have := hLH0 j hj; linarith) hB hQ k hk
  -- the exact method
  have key := (err_grow (t := fun k => ((∑ j ∈ Finset.range k, hs j : ℚ) : ℝ))
    (e := fun k => ‖rvec N (exactRun f hs y0 k).2 - Y (∑ j ∈ Finset.range k, hs j : ℚ)‖) (n := s.n) (a := 5 * L) (D := 6 * M * H)
    (δ := ‖rvec N y0 - Y 0‖) (by positivity) (by positivity) (norm_nonneg _) (by simp) (by simp [exactRun]) ?_ k hk).2
  · have h2 : ‖rvec N (s.y k) - rvec N (exactRun f hs y0 k).2‖ ≤ ((growth L hs k * ∑ j ∈ Finset.range k, stepError u K ε B Q s.time hs j : ℚ) : ℝ) := by
      refine (pi_norm_le_iff_of_nonneg ?_).2 fun i => ?_
      · exact_mod_cast le_trans (abs_nonneg _) (h1 0 hN)
      · have := h1 i i.2
        rw [Pi.sub_apply, Real.norm_eq_abs]
        simp only [rvec]
        exact_mod_cast this
    have h3 := norm_sub_le_norm_sub_add_norm_sub (rvec N (s.y k)) (rvec N (exactRun f hs y0 k).2) (Y (∑ j ∈ Finset.range k, hs j : ℚ))
    linarith
  intro j hj
  obtain ⟨a0, a1⟩ := hs0 j hj
  have a0' : (0 : ℝ) ≤ hs j := by exact_mod_cast a0
  have a1' : (hs j : ℝ) ≤ H := by exact_mod_cast a1
  have st : ((∑ i ∈ Finset.range (j + 1), hs i : ℚ) : ℝ) = ((∑ i ∈ Finset.range j, hs i : ℚ) : ℝ) + hs j := by
    rw [Finset.sum_range_succ]; push_cast; rfl
  have hT1 := hT (j + 1) hj
  rw [st] at hT1 ⊢
  have t0 : (0 : ℝ) ≤ ((∑ i ∈ Finset.range j, hs i : ℚ) : ℝ) := by
    exact_mod_cast Finset.sum_nonneg fun i hi => (hs0 i (by have := Finset.mem_range.1 hi; omega)).1
  refine ⟨by linarith, ?_⟩
  rw [add_sub_cancel_left]
  have ey : rvec N (exactRun f hs y0 (j + 1)).2 = (innerStep G ((∑ i ∈ Finset.range j, hs i : ℚ) : ℝ) (hs j) (rvec N (exactRun f hs y0 j).2)
      (G ((∑ i ∈ Finset.range j, hs i : ℚ) : ℝ) (rvec N (exactRun f hs y0 j).2))).yout := by
    rw [hG, exact_yout f G hG, ← hsum]
    rfl
  rw [ey]
  have hLs : 50 * ((L : ℝ) * hs j) ≤ 1 := by
    have := hLH0 j hj
    rw [abs_of_nonneg a0] at this
    exact_mod_cast (show 50 * (L * hs j) ≤ 1 by linarith)
  refine le_trans (C146_step hL0 hM0 hY hL hM t0 a0' hT1 hLs _) (add_le_add_right ?_ _)
  have h4 : 6 * M * (hs j : ℝ) ^ 2 ≤ 6 * M * H * hs j := by
    rw [pow_two, ← mul_assoc, mul_assoc (6 * M), mul_assoc (6 * M) (H : ℝ)]
    exact mul_le_mul_of_nonneg_left (mul_le_mul_of_nonneg_right a1' a0') (by positivity)
  exact h4

/-- A rounded integration of two points of `y' = -y`, whatever the rounding and the step. -/
example {u : ℚ} (R : Rnd u) (h : ℚ) : ∃ s : HistR, s.n = 2 ∧ Followed R (fun _ y i => -y i) (fun _ => 1) (fun _ => h) s := by
  refine ⟨⟨2, fun j => if j = 0 then 0 else R.fl (0 + h), fun j => if j = 0 then fun _ => 1 else (dpInnerR R (fun _ y i => -y i) 0 h (fun _ => 1) (fun _ => -1)).yout,
    fun j => if j = 0 then fun _ => -1 else fun i => -(dpInnerR R (fun _ y i => -y i) 0 h (fun _ => 1) (fun _ => -1)).yout i, fun _ _ => ⟨0, 0, 0, 0, 0⟩⟩, rfl, ?_⟩
  refine ⟨by norm_num, rfl, rfl, fun j hj => ?_, fun j hj => ?_, fun j hj => ?_⟩
  · rcases j with _ | j <;> rfl
  · obtain rfl : j = 0 := by simp only at hj; omega
    rfl
  · obtain rfl : j = 0 := by simp only at hj; omega
    rfl

/-- `G y = -y` extends the rational function. -/
example (t : ℚ) (y : ℕ → ℚ) : (fun (_ : ℝ) (v : Fin 1 → ℝ) => -v) (t : ℝ) (rvec 1 y) = rvec 1 ((fun (_ : ℚ) (y : ℕ → ℚ) i => -y i) t y) := by
  funext i
  simp [rvec]

end

end Softlib
