/-
Property C91: integrations with known results.
-/
import Verif.Integrator.ErrorProps
import Mathlib.Algebra.Module.LinearMap.Defs
import Mathlib.Algebra.Module.LinearMap.End
import Mathlib.LinearAlgebra.Pi

namespace Softlib

open Softlib.Integrator

noncomputable section

/-- C91: equations whose right-hand side is a polynomial in time of degree up to four are
integrated exactly: after any number of steps of any lengths, every stored point lies on the
solution. -/
theorem C91_polynomials {N : Nat} (hN : 0 < N) (u0 u1 u2 u3 u4 : Fin N → ℝ) (atol rtol : ℝ) (y0 : Fin N → ℝ) (s : Store)
    (h : DPRun (fun t _ => u0 + t • u1 + t ^ 2 • u2 + t ^ 3 • u3 + t ^ 4 • u4) atol rtol y0 s)
    (k : Nat) (hk : k < s.n) :
    let t := timeAt s k
    vecOf N (solutionAt N s k) =
      y0 + (t • u0 + (t ^ 2 / 2) • u1 + (t ^ 3 / 3) • u2 + (t ^ 4 / 4) • u3 + (t ^ 5 / 5) • u4) := by
  obtain ⟨-, h0, hy, -, hs⟩ := C90_accepted_steps hN _ atol rtol y0 s h
  induction k with
  | zero =>
    simp only [h0, hy]
    simp
  | succ k ih =>
    obtain ⟨h1, -⟩ := hs k hk
    have hp := C35_polynomials_exact u0 u1 u2 u3 u4 (timeAt s k) (timeAt s (k + 1) - timeAt s k) (vecOf N (solutionAt N s k))
    simp only at h1 hp ⊢
    rw [h1, hp, ih (by omega)]
    simp only [show timeAt s k + (timeAt s (k + 1) - timeAt s k) = timeAt s (k + 1) by ring]
    module

/-- C91: for a linear equation each step applies the polynomial
`1 + z + z²/2 + z³/6 + z⁴/24 + z⁵/120 + z⁶/600` in the step times the operator, which agrees with
the exponential up to the fifth power. -/
theorem C91_linear {N : Nat} (hN : 0 < N) (L : (Fin N → ℝ) →ₗ[ℝ] (Fin N → ℝ)) (atol rtol : ℝ) (y0 : Fin N → ℝ) (s : Store)
    (hr : DPRun (fun _ y => L y) atol rtol y0 s) (k : Nat) (hk : k + 1 < s.n) :
    let h := timeAt s (k + 1) - timeAt s k
    let y := vecOf N (solutionAt N s k)
    vecOf N (solutionAt N s (k + 1)) =
      y + h • L y + (h ^ 2 / 2) • L (L y) + (h ^ 3 / 6) • L (L (L y)) + (h ^ 4 / 24) • L (L (L (L y))) +
        (h ^ 5 / 120) • L (L (L (L (L y)))) + (h ^ 6 / 600) • L (L (L (L (L (L y))))) := by
  obtain ⟨-, -, -, -, hs⟩ := C90_accepted_steps hN _ atol rtol y0 s hr
  obtain ⟨h1, -⟩ := hs k hk
  simp only at h1 ⊢
  rw [h1]
  generalize vecOf N (solutionAt N s k) = y
  generalize timeAt s (k + 1) - timeAt s k = h
  simp only [innerStep, map_add, map_smul, a21, a31, a32, a41, a42, a43, a51, a52, a53, a54, a61, a62, a63, a64, a65,
    a71, a73, a74, a75, a76]
  match_scalars <;> ring

/-- C91: a linear quantity conserved by the equation is conserved by the integration. -/
theorem C91_linear_invariants {N : Nat} (hN : 0 < N) (f : ℝ → (Fin N → ℝ) → (Fin N → ℝ)) (w : (Fin N → ℝ) →ₗ[ℝ] ℝ)
    (hw : ∀ t y, w (f t y) = 0) (atol rtol : ℝ) (y0 : Fin N → ℝ) (s : Store) (h : DPRun f atol rtol y0 s)
    (k : Nat) (hk : k < s.n) : w (vecOf N (solutionAt N s k)) = w y0 := by
  obtain ⟨-, h0, hy, -, hs⟩ := C90_accepted_steps hN f atol rtol y0 s h
  induction k with
  | zero => rw [hy]
  | succ k ih =>
    obtain ⟨h1, -⟩ := hs k hk
    rw [h1]
    simp only [innerStep, map_add, map_smul, hw, smul_zero, add_zero]
    exact ih (by omega)

/-- C91: for right-hand sides polynomial in time of degree up to three no step is rejected, as
long as the tolerance is positive. -/
theorem C91_cubics_accepted {N : Nat} (hN : 0 < N) (u0 u1 u2 u3 : Fin N → ℝ) (atol rtol eps : ℝ) (ha : 0 < atol)
    (hr : 0 ≤ rtol) (fl : ℝ → ℝ) (p : Par) (c : Ctl) (fuel : Nat) (y0 : Fin N → ℝ) (s : Store)
    (h : DPRun (fun t _ => u0 + t • u1 + t ^ 2 • u2 + t ^ 3 • u3) atol rtol y0 s) (hh : ℝ) :
    ∃ c', stepLoop fl p eps (timeAt s (s.n - 1)) (fun h =>
      (rkdpTrial (fun t _ => u0 + t • u1 + t ^ 2 • u2 + t ^ 3 • u3) atol rtol (timeAt s (s.n - 1)) h
        (solutionAt N s (s.n - 1)) (derivativeAt N s (s.n - 1))).err) (fuel + 1) hh c = .accepted hh c' := by
  have hp := h.inv.pos
  obtain ⟨-, -, -, hd, -⟩ := C90_accepted_steps hN _ atol rtol y0 s h
  apply C90_good_steps_accepted hN
  intro i
  rw [hd (s.n - 1) (by omega)]
  have hz := C35_error_zero_for_cubics u0 u1 u2 u3 (timeAt s (s.n - 1)) hh (vecOf N (solutionAt N s (s.n - 1)))
  simp only at hz ⊢
  rw [hz]
  have : ∀ a b, 0 < tolOf atol rtol a b := by
    intro a b
    have : 0 ≤ rtol * max |a| |b| := mul_nonneg hr (le_max_of_le_left (abs_nonneg _))
    unfold tolOf
    linarith
  refine ⟨this _ _, ?_⟩
  simp only [Pi.zero_apply, abs_zero]
  exact (this _ _).le

/-- An integration with the default parameters, storing dense output: as `DPRun`, with the
control state passed on from step to step. -/
inductive DenseRun {N : Nat} (f : ℝ → (Fin N → ℝ) → (Fin N → ℝ)) (atol rtol : ℝ) (y0 : Fin N → ℝ) : Store → Ctl → Prop where
  | init (junk : Nat → ℝ) (s s' : Store) (c : Ctl) (hc : 0 < c.optimal) (hN : N ≤ W)
      (h : initialValue N junk s (arrOf y0) (arrOf (f 0 y0)) = some s') : DenseRun f atol rtol y0 s' c
  | step (junk : Nat → ℝ) (eps : ℝ) (fuel : Nat) (s s' : Store) (c c' : Ctl)
      (t : ℝ) (hr : DenseRun f atol rtol y0 s c) (hw : s.n + 1000 < W) (hw2 : (s.n + 1) * N ≤ W)
      (h : rkStep N junk id Par.default eps true (rkdpTrial f atol rtol) fuel s c = .ok t s' c') :
      DenseRun f atol rtol y0 s' c'

theorem DenseRun.run {N : Nat} {f : ℝ → (Fin N → ℝ) → (Fin N → ℝ)} {atol rtol : ℝ} {y0 : Fin N → ℝ} {s : Store} {c : Ctl}
    (h : DenseRun f atol rtol y0 s c) : DPRun f atol rtol y0 s ∧ Reach N s c := by
  induction h with
  | init junk s s' c hc hN h => exact ⟨DPRun.init _ _ _ hN h, Reach.init _ _ _ _ _ _ hc hN h⟩
  | step junk eps fuel s s' c c' t hr hw hw2 h ih =>
    exact ⟨DPRun.step _ _ _ _ _ _ _ _ _ _ _ ih.1 hw hw2 h, Reach.step _ _ _ _ _ _ _ _ _ ih.2 hw hw2 h⟩

/-- The stored coefficients are those of the steps taken. -/
theorem DenseRun.coeffs {N : Nat} {f : ℝ → (Fin N → ℝ) → (Fin N → ℝ)} {atol rtol : ℝ} {y0 : Fin N → ℝ} {s : Store} {c : Ctl}
    (h : DenseRun f atol rtol y0 s c) : ∀ k, k + 1 < s.n → ∀ (m : Fin 5) (i : Fin N),
      let hh := ptT s (k + 1) - ptT s k
      let y := ptY N s k
      let r := innerStep f (ptT s k) hh y (f (ptT s k) y)
      s.rc m (k * N + i) = rcVal hh (y i) (r.yout i) (f (ptT s k) y i) (r.dydxout i) (r.k3 i) (r.k4 i) (r.k5 i) (r.k6 i) m := by
  induction h with
  | init junk s s' c hc hN h =>
    have hn : s'.n = 1 := by
      obtain ⟨s1, hs1, p1, -⟩ :=
        store_one N junk ⟨s.alloc, 0, s.time, s.sol, s.der, s.ralloc, s.rc⟩ (Nat.zero_le _) (by show 0 + 1000 < W; decide)
          (by show (0 + 1) * N ≤ W; omega) 0 (arrOf y0) (arrOf (f 0 y0))
      unfold initialValue at h
      rw [hs1, Option.some.injEq] at h
      subst h
      exact p1
    intro k hk
    omega
  | step junk eps fuel s s' c c' t hr hw hw2 h ih =>
    obtain ⟨hrun, hreach⟩ := hr.run
    have hinv := hrun.inv
    have hinv' := (DPRun.step _ _ _ _ _ _ _ _ _ _ _ hrun hw hw2 h).inv
    obtain ⟨-, q1, q2, q3, q4, hh, q5, q6, q7, q8, q9⟩ :=
      (rkStep_full N junk eps _ fuel s c hreach.inv hw hw2).2 t s' c' h
    have hY : ∀ k, k < s.n → ptY N s' k = ptY N s k := by
      intro k hk
      funext i
      rw [ptY_apply (by omega) hinv'.small, ptY_apply hk hinv.small, (q4 k i hk i.2).1]
    have hT : ∀ k, k < s.n → ptT s' k = ptT s k := q3
    have hTn : ptT s' s.n = t := q2
    have hp := hinv.pos
    intro k hk m i
    rcases Nat.lt_or_ge (k + 1) s.n with hlt | hge
    · simp only
      rw [q8 m k i hlt i.2, ih k hlt m i]
      rw [hT (k + 1) hlt, hT k (by omega), hY k (by omega)]
    · have e : k + 1 = s.n := by omega
      have e' : k = s.n - 1 := by omega
      rw [e, hTn]
      subst e'
      rw [q9 m i i.2, hT _ (by omega), hY _ (by omega)]
      have ht : t - ptT s (s.n - 1) = hh := by rw [q6]; simp only [ptT, timeAt]; ring
      rw [ht]
      have hdd := hinv.der (s.n - 1) (by omega)
      have hd : derivativeAt N s (s.n - 1) i = f (ptT s (s.n - 1)) (ptY N s (s.n - 1)) i := by
        rw [← hdd]; rfl
      have hy : solutionAt N s (s.n - 1) i = ptY N s (s.n - 1) i := rfl
      have hr' : innerStep f (s.time (s.n - 1)) hh (vecOf N (solutionAt N s (s.n - 1))) (vecOf N (derivativeAt N s (s.n - 1))) =
          innerStep f (ptT s (s.n - 1)) hh (ptY N s (s.n - 1)) (f (ptT s (s.n - 1)) (ptY N s (s.n - 1))) := by
        rw [← hdd]; rfl
      rw [hd, hy]
      simp only [rkdpTrial, hr', arrOf, i.2, dite_true]

theorem denseEval_apply {N : Nat} (h s : ℝ) (a b d e k3 k4 k5 k6 : Fin N → ℝ) (i : Fin N) :
    denseEval (prepareDense h a b d e k3 k4 k5 k6) s i =
      denseEval (V := ℝ) ⟨rcVal h (a i) (b i) (d i) (e i) (k3 i) (k4 i) (k5 i) (k6 i) 0,
        rcVal h (a i) (b i) (d i) (e i) (k3 i) (k4 i) (k5 i) (k6 i) 1,
        rcVal h (a i) (b i) (d i) (e i) (k3 i) (k4 i) (k5 i) (k6 i) 2,
        rcVal h (a i) (b i) (d i) (e i) (k3 i) (k4 i) (k5 i) (k6 i) 3,
        rcVal h (a i) (b i) (d i) (e i) (k3 i) (k4 i) (k5 i) (k6 i) 4⟩ s := by
  simp [denseEval, prepareDense, rcVal]
  ring

/-- C91: dense output of such an integration at sorted times within it is exact as well, for
polynomials of degree up to three. -/
theorem C91_dense_cubics {N : Nat} (hN : 0 < N) (u0 u1 u2 u3 : Fin N → ℝ) (atol rtol : ℝ) (y0 : Fin N → ℝ) (s : Store) (c : Ctl)
    (h : DenseRun (fun t _ => u0 + t • u1 + t ^ 2 • u2 + t ^ 3 • u3) atol rtol y0 s c) (h2 : 2 ≤ s.n)
    (Ts : List ℝ) (hs : Ts.Pairwise (· ≤ ·)) (hlo : ∀ T ∈ Ts, 0 ≤ T) (hhi : ∀ T ∈ Ts, T ≤ lastTime s) :
    ∃ outs, outputDense N s Ts 0 = .ok outs ∧ outs.length = Ts.length ∧
      ∀ (i : Nat) (T : ℝ) (o : Nat → ℝ), Ts[i]? = some T → outs[i]? = some o →
        vecOf N o = y0 + (T • u0 + (T ^ 2 / 2) • u1 + (T ^ 3 / 3) • u2 + (T ^ 4 / 4) • u3) := by
  obtain ⟨hrun, hreach⟩ := h.run
  have ht0 : timeAt s 0 = 0 := hrun.inv.t0
  obtain ⟨outs, ho, hlen, hval⟩ := C38_values_partial N s c hreach h2 Ts hs (by rw [ht0]; exact hlo) (by
    intro T hT
    have := hhi T hT
    unfold lastTime at this
    rw [if_neg (show ¬ s.n = 0 by omega)] at this
    exact this)
  refine ⟨outs, ho, hlen, ?_⟩
  intro i T o hT hO
  obtain ⟨k, hk, -, -, hv⟩ := hval i T o hT hO
  have hpoly : vecOf N (solutionAt N s k) = y0 + (timeAt s k • u0 + (timeAt s k ^ 2 / 2) • u1 + (timeAt s k ^ 3 / 3) • u2 +
      (timeAt s k ^ 4 / 4) • u3) := by
    have hrun4 : DPRun (fun t _ => u0 + t • u1 + t ^ 2 • u2 + t ^ 3 • u3 + t ^ 4 • (0 : Fin N → ℝ)) atol rtol y0 s := by
      simpa using hrun
    have := C91_polynomials hN u0 u1 u2 u3 0 atol rtol y0 s hrun4 k (by omega)
    simpa using this
  have hinc : timeAt s k < timeAt s (k + 1) := hreach.inv.inc k hk
  have hcub := C68_cubics_exact u0 u1 u2 u3 (timeAt s k) (timeAt s (k + 1) - timeAt s k)
    ((T - timeAt s k) / (timeAt s (k + 1) - timeAt s k)) (vecOf N (solutionAt N s k))
  simp only at hcub
  have hTT : timeAt s k + (T - timeAt s k) / (timeAt s (k + 1) - timeAt s k) * (timeAt s (k + 1) - timeAt s k) = T := by
    have : timeAt s (k + 1) - timeAt s k ≠ 0 := by linarith
    field_simp
    ring
  simp only [hTT] at hcub
  have : vecOf N o = y0 + (timeAt s k • u0 + (timeAt s k ^ 2 / 2) • u1 + (timeAt s k ^ 3 / 3) • u2 +
      (timeAt s k ^ 4 / 4) • u3) + (T • u0 + (T ^ 2 / 2) • u1 + (T ^ 3 / 3) • u2 + (T ^ 4 / 4) • u3 -
      (timeAt s k • u0 + (timeAt s k ^ 2 / 2) • u1 + (timeAt s k ^ 3 / 3) • u2 + (timeAt s k ^ 4 / 4) • u3)) := by
    rw [← hpoly, ← hcub]
    funext i
    rw [denseEval_apply]
    show o i = _
    rw [hv i i.2]
    have hc := h.coeffs k hk
    simp only [stepPoly, hc _ i]
    rfl
  rw [this]
  module

/-- C91: dense output conserves linear quantities that the equation conserves. -/
theorem C91_dense_invariants {N : Nat} (hN : 0 < N) (f : ℝ → (Fin N → ℝ) → (Fin N → ℝ)) (w : (Fin N → ℝ) →ₗ[ℝ] ℝ)
    (hw : ∀ t y, w (f t y) = 0) (atol rtol : ℝ) (y0 : Fin N → ℝ) (s : Store) (c : Ctl)
    (h : DenseRun f atol rtol y0 s c) (h2 : 2 ≤ s.n)
    (Ts : List ℝ) (hs : Ts.Pairwise (· ≤ ·)) (hlo : ∀ T ∈ Ts, 0 ≤ T) (hhi : ∀ T ∈ Ts, T ≤ lastTime s) :
    ∃ outs, outputDense N s Ts 0 = .ok outs ∧ outs.length = Ts.length ∧ ∀ o ∈ outs, w (vecOf N o) = w y0 := by
  obtain ⟨hrun, hreach⟩ := h.run
  have ht0 : timeAt s 0 = 0 := hrun.inv.t0
  obtain ⟨outs, ho, hlen, hval⟩ := C38_values_partial N s c hreach h2 Ts hs (by rw [ht0]; exact hlo) (by
    intro T hT
    have := hhi T hT
    unfold lastTime at this
    rw [if_neg (show ¬ s.n = 0 by omega)] at this
    exact this)
  refine ⟨outs, ho, hlen, ?_⟩
  intro o hmem
  obtain ⟨i, hi⟩ := List.getElem?_of_mem hmem
  have hil : i < Ts.length := by
    rw [← hlen]
    exact (List.getElem?_eq_some_iff.1 hi).1
  obtain ⟨k, hk, -, -, hv⟩ := hval i Ts[i] o (List.getElem?_eq_getElem hil) hi
  have hwk := C91_linear_invariants hN f w hw atol rtol y0 s hrun k (by omega)
  have key : vecOf N o = denseEval (prepareDense (timeAt s (k + 1) - timeAt s k) (vecOf N (solutionAt N s k))
      (innerStep f (timeAt s k) (timeAt s (k + 1) - timeAt s k) (vecOf N (solutionAt N s k)) (f (timeAt s k) (vecOf N (solutionAt N s k)))).yout
      (f (timeAt s k) (vecOf N (solutionAt N s k)))
      (innerStep f (timeAt s k) (timeAt s (k + 1) - timeAt s k) (vecOf N (solutionAt N s k)) (f (timeAt s k) (vecOf N (solutionAt N s k)))).dydxout
      (innerStep f (timeAt s k) (timeAt s (k + 1) - timeAt s k) (vecOf N (solutionAt N s k)) (f (timeAt s k) (vecOf N (solutionAt N s k)))).k3
      (innerStep f (timeAt s k) (timeAt s (k + 1) - timeAt s k) (vecOf N (solutionAt N s k)) (f (timeAt s k) (vecOf N (solutionAt N s k)))).k4
      (innerStep f (timeAt s k) (timeAt s (k + 1) - timeAt s k) (vecOf N (solutionAt N s k)) (f (timeAt s k) (vecOf N (solutionAt N s k)))).k5
      (innerStep f (timeAt s k) (timeAt s (k + 1) - timeAt s k) (vecOf N (solutionAt N s k)) (f (timeAt s k) (vecOf N (solutionAt N s k)))).k6)
      ((Ts[i] - timeAt s k) / (timeAt s (k + 1) - timeAt s k)) := by
    funext i'
    rw [denseEval_apply]
    show o i' = _
    rw [hv i' i'.2]
    have hc := h.coeffs k hk
    simp only [stepPoly, hc _ i']
    rfl
  rw [key]
  simp only [denseEval, prepareDense, innerStep, map_add, map_sub, map_smul, hw, smul_zero, add_zero, sub_zero, sub_self]
  exact hwk

/-- The integration of `y' = 3 t²` from 1, after one step of length 1. -/
example : ∃ s c, DenseRun (fun (t : ℝ) (_ : Fin 1 → ℝ) => (0 : Fin 1 → ℝ) + t • 0 + t ^ 2 • (fun _ => 3) + t ^ 3 • 0)
    (1 / 1000) (1 / 1000) (fun _ => 1) s c ∧ s.n = 2 ∧ timeAt s 1 = 1 ∧ solutionAt 1 s 1 0 = 2 := by
  obtain ⟨s1, hs1, hn, hrun, hreach⟩ := start_run
    (fun (t : ℝ) (_ : Fin 1 → ℝ) => (0 : Fin 1 → ℝ) + t • 0 + t ^ 2 • (fun _ => 3) + t ^ 3 • 0) (1 / 1000) (1 / 1000)
    (fun _ => 1) (by decide)
  have hW : W = 4294967296 := rfl
  have hd1 : DenseRun (fun (t : ℝ) (_ : Fin 1 → ℝ) => (0 : Fin 1 → ℝ) + t • 0 + t ^ 2 • (fun _ => 3) + t ^ 3 • 0)
    (1 / 1000) (1 / 1000) (fun _ => 1) s1 Ctl.init := DenseRun.init _ _ _ _ (by simp [Ctl.init]) (by decide) hs1
  obtain ⟨c', hl⟩ := C91_cubics_accepted (by omega) 0 0 (fun _ => 3) 0 (1 / 1000) (1 / 1000) 0 (by norm_num) (by norm_num)
    id Par.default Ctl.init 0 (fun _ => 1) s1 hrun 1
  obtain ⟨s2, hs2⟩ := step_succeeds (fun _ => 0) 0 _ 1 s1 Ctl.init hreach.inv (by omega) (by omega) 1 c' hl
  have hr2 := DenseRun.step _ _ _ _ _ _ _ _ hd1 (by omega) (by omega) hs2
  obtain ⟨-, r2, -, r4, -⟩ := rkStep_points 1 _ _ _ _ _ _ _ s1 s2 _ _ _ hrun.inv.le (by omega) (by omega) hs2
  have ht1 : timeAt s2 1 = 1 := by
    rw [hn] at r4
    have ht0 : timeAt s1 0 = 0 := hrun.inv.t0
    rw [timeAt, r4, ht0]; norm_num
  refine ⟨s2, c', hr2, by omega, ht1, ?_⟩
  have hrun4 : DPRun (fun (t : ℝ) (_ : Fin 1 → ℝ) => (0 : Fin 1 → ℝ) + t • 0 + t ^ 2 • (fun _ => 3) + t ^ 3 • 0 + t ^ 4 • 0)
      (1 / 1000) (1 / 1000) (fun _ => 1) s2 := by simpa using hr2.run.1
  have := congrFun (C91_polynomials (by omega) 0 0 (fun _ => 3) 0 0 _ _ _ s2 hrun4 1 (by omega)) 0
  simp only [ht1] at this
  have e : solutionAt 1 s2 1 0 = vecOf 1 (solutionAt 1 s2 1) 0 := rfl
  rw [e, this]
  simp
  norm_num

end

end Softlib
