/-
C155: integrations do not depend on the order, the signs and the units of the variables.

Source: /repo/include/softlib/Integrator/RungeKutta.tcc 22-192, /repo/include/softlib/Integrator/RKDP45.tcc 16-41,
by the models of RKModel.lean and ErrorModel.lean.
-/
import Verif.Integrator.ControlProps
import Verif.Integrator.ErrorProps

namespace Softlib

open Softlib.Integrator

noncomputable section

/-- The components in another order, each multiplied by a factor. -/
def relab {N : Nat} (σ : Equiv.Perm (Fin N)) (ε : Fin N → ℝ) : (Fin N → ℝ) →ₗ[ℝ] (Fin N → ℝ) where
  toFun y := fun i => ε i * y (σ i)
  map_add' y z := by funext i; simp [mul_add]
  map_smul' r y := by funext i; simp; ring

theorem relab_apply {N : Nat} (σ : Equiv.Perm (Fin N)) (ε : Fin N → ℝ) (y : Fin N → ℝ) (i : Fin N) : relab σ ε y i = ε i * y (σ i) := rfl

/-- The equation in the other variables: time in units of `1 / μ`. -/
def SameEq {N : Nat} (σ : Equiv.Perm (Fin N)) (ε : Fin N → ℝ) (μ : ℝ) (f g : ℝ → (Fin N → ℝ) → (Fin N → ℝ)) : Prop :=
  ∀ t y, g (μ * t) (relab σ ε y) = μ⁻¹ • relab σ ε (f t y)

/-- One step of the method in the other variables. -/
theorem inner_relab {N : Nat} {σ : Equiv.Perm (Fin N)} {ε : Fin N → ℝ} {μ : ℝ} (hμ : μ ≠ 0) {f g : ℝ → (Fin N → ℝ) → (Fin N → ℝ)}
    (hf : SameEq σ ε μ f g) (T h : ℝ) (y d : Fin N → ℝ) :
    (innerStep g (μ * T) (μ * h) (relab σ ε y) (μ⁻¹ • relab σ ε d)).yout = relab σ ε (innerStep f T h y d).yout ∧
    (innerStep g (μ * T) (μ * h) (relab σ ε y) (μ⁻¹ • relab σ ε d)).dydxout = μ⁻¹ • relab σ ε (innerStep f T h y d).dydxout ∧
    (innerStep g (μ * T) (μ * h) (relab σ ε y) (μ⁻¹ • relab σ ε d)).yerr = relab σ ε (innerStep f T h y d).yerr := by
  have ht : ∀ c : ℝ, μ * T + c * (μ * h) = μ * (T + c * h) := fun c => by ring
  have ht1 : μ * T + μ * h = μ * (T + h) := by ring
  have hs : ∀ (a : ℝ) (v : Fin N → ℝ), (μ * h * a) • (μ⁻¹ • relab σ ε v) = relab σ ε ((h * a) • v) := by
    intro a v
    rw [smul_smul, map_smul]
    congr 1
    field_simp
  simp only [innerStep, ht, ht1, hs, ← map_add, hf _ _]
  exact ⟨trivial, trivial, trivial⟩

theorem arr_at {N : Nat} (v : Fin N → ℝ) (i : Fin N) : arrOf v i = v i := by
  simp [arrOf]

theorem tol_relab {e atol atol' : ℝ} (he : atol' = |e| * atol) (rtol a b : ℝ) :
    tolOf atol' rtol (e * a) (e * b) = |e| * tolOf atol rtol a b := by
  unfold tolOf
  rw [abs_mul, abs_mul, he, ← mul_max_of_nonneg _ _ (abs_nonneg e)]
  ring

/-- The error estimate in the other variables. -/
theorem estimate_relab {N : Nat} (hN : 0 < N) (σ : Equiv.Perm (Fin N)) (ε : Fin N → ℝ) (hε : ∀ i, ε i ≠ 0) {atol atol' : ℝ} (he : ∀ i, atol' = |ε i| * atol)
    (rtol : ℝ) (e a b : Fin N → ℝ) :
    estimateError N atol' rtol (arrOf (relab σ ε e)) (arrOf (relab σ ε a)) (arrOf (relab σ ε b)) =
      estimateError N atol rtol (arrOf e) (arrOf a) (arrOf b) := by
  have htol : ∀ i : Fin N, tolOf atol' rtol (arrOf (relab σ ε a) i) (arrOf (relab σ ε b) i) =
      |ε i| * tolOf atol rtol (arrOf a (σ i)) (arrOf b (σ i)) := by
    intro i
    rw [arr_at, arr_at, arr_at, arr_at, relab_apply, relab_apply, tol_relab (he i)]
  have htol0 : ∀ i : Fin N, tolOf atol' rtol (arrOf (relab σ ε a) i) (arrOf (relab σ ε b) i) = 0 ↔
      tolOf atol rtol (arrOf a (σ i)) (arrOf b (σ i)) = 0 := by
    intro i; rw [htol]; simp [hε i]
  have herr0 : ∀ i : Fin N, arrOf (relab σ ε e) i = 0 ↔ arrOf e (σ i) = 0 := by
    intro i; rw [arr_at, arr_at, relab_apply]; simp [hε i]
  cases hc : estimateError N atol rtol (arrOf e) (arrOf a) (arrOf b) with
  | nan =>
    rcases (C90_nan_iff N atol rtol _ _ _).1 hc with h0 | ⟨i, hi, h1, h2⟩
    · omega
    · refine (C90_nan_iff N _ rtol _ _ _).2 (.inr ⟨σ.symm ⟨i, hi⟩, (σ.symm ⟨i, hi⟩).2, ?_, ?_⟩)
      · rw [htol0, Equiv.apply_symm_apply]; exact h1
      · rw [herr0, Equiv.apply_symm_apply]; exact h2
  | inf =>
    obtain ⟨⟨i, hi, h1⟩, h2⟩ := (C90_infinite_iff N atol rtol _ _ _).1 hc
    refine (C90_infinite_iff N _ rtol _ _ _).2 ⟨⟨σ.symm ⟨i, hi⟩, (σ.symm ⟨i, hi⟩).2, ?_⟩, ?_⟩
    · rw [htol0, Equiv.apply_symm_apply]; exact h1
    · intro j hj h3 h4
      have h3' := (htol0 ⟨j, hj⟩).1 h3
      exact h2 (σ ⟨j, hj⟩) (σ ⟨j, hj⟩).2 h3' ((herr0 ⟨j, hj⟩).1 h4)
  | val v =>
    have hne := (C90_number_iff N hN atol rtol _ _ _).1 ⟨v, hc⟩
    rw [C90_estimate N hN atol rtol _ _ _ hne] at hc
    rw [← hc, C90_estimate N hN atol' rtol _ _ _ (by
      intro i hi h0
      exact hne (σ ⟨i, hi⟩) (σ ⟨i, hi⟩).2 ((htol0 ⟨i, hi⟩).1 h0))]
    congr 3
    rw [Finset.sum_range (fun i => (arrOf (relab σ ε e) i / tolOf atol' rtol (arrOf (relab σ ε a) i) (arrOf (relab σ ε b) i)) ^ 2),
      Finset.sum_range (fun i => (arrOf e i / tolOf atol rtol (arrOf a i) (arrOf b i)) ^ 2),
      ← Equiv.sum_comp σ (fun i : Fin N => (arrOf e i / tolOf atol rtol (arrOf a i) (arrOf b i)) ^ 2)]
    refine Finset.sum_congr rfl fun i _ => ?_
    rw [htol, arr_at (relab σ ε e), arr_at e, relab_apply, div_pow, div_pow, mul_pow, mul_pow, ← sq_abs (ε i)]
    have : |ε i| ^ 2 ≠ 0 := pow_ne_zero 2 (abs_ne_zero.2 (hε i))
    rw [mul_div_mul_left _ _ this]

/-- The control with the step in the other unit. -/
def scaleCtl (μ : ℝ) (c : Ctl) : Ctl := ⟨μ * c.optimal, c.errold, c.rejected⟩

def scaleLoop (μ : ℝ) : LoopRes → LoopRes
  | .fuel => .fuel
  | .underflow => .underflow
  | .accepted h c => .accepted (μ * h) (scaleCtl μ c)

theorem update_scale (μ : ℝ) (p : Par) (c : Ctl) (h : ℝ) (e : Err) :
    updateTimestep id p (scaleCtl μ c) (μ * h) e = ((updateTimestep id p c h e).1, scaleCtl μ (updateTimestep id p c h e).2) := by
  cases e with
  | nan => simp [updateTimestep, scaleCtl, mul_assoc]
  | inf => simp [updateTimestep, scaleCtl, mul_assoc]
  | val e =>
    simp only [updateTimestep, scaleCtl, id]
    by_cases h1 : e ≤ 1
    · by_cases h2 : c.rejected = true
      · simp only [if_pos h1, h2, if_true, mul_assoc]
      · simp only [if_pos h1, if_neg h2, mul_assoc]
    · simp only [if_neg h1, mul_assoc]

theorem loop_scale {μ : ℝ} (hμ : 0 < μ) (p : Par) (eps T : ℝ) {err err' : ℝ → Err} (he : ∀ h, err' (μ * h) = err h) :
    ∀ fuel h c, stepLoop id p eps (μ * T) err' fuel (μ * h) (scaleCtl μ c) = scaleLoop μ (stepLoop id p eps T err fuel h c) := by
  intro fuel
  induction fuel with
  | zero => intro h c; rfl
  | succ k ih =>
    intro h c
    simp only [stepLoop, he, update_scale]
    rcases hu : updateTimestep id p c h (err h) with ⟨b, c'⟩
    cases b with
    | true => rfl
    | false =>
      simp only
      have hiff : |(scaleCtl μ c').optimal| ≤ |μ * T| * eps ↔ |c'.optimal| ≤ |T| * eps := by
        simp only [scaleCtl]
        rw [abs_mul, abs_mul, abs_of_pos hμ, mul_assoc, mul_le_mul_iff_right₀ hμ]
      by_cases hd : |c'.optimal| ≤ |T| * eps
      · rw [if_pos hd, if_pos (hiff.2 hd)]; rfl
      · rw [if_neg hd, if_neg (fun h => hd (hiff.1 h))]
        exact ih c'.optimal c'

/-- The two integrators have stored the same points, in the two sets of variables. -/
structure SameIn {N : Nat} (σ : Equiv.Perm (Fin N)) (ε : Fin N → ℝ) (μ : ℝ) (s s' : Store) : Prop where
  n : s'.n = s.n
  time : ∀ k, k < s.n → timeAt s' k = μ * timeAt s k
  sol : ∀ k, k < s.n → vecOf N (solutionAt N s' k) = relab σ ε (vecOf N (solutionAt N s k))
  der : ∀ k, k < s.n → vecOf N (derivativeAt N s' k) = μ⁻¹ • relab σ ε (vecOf N (derivativeAt N s k))

theorem trial_relab {N : Nat} (hN : 0 < N) {σ : Equiv.Perm (Fin N)} {ε : Fin N → ℝ} {μ : ℝ} (hε : ∀ i, ε i ≠ 0) {atol atol' : ℝ} (he : ∀ i, atol' = |ε i| * atol) (hμ : μ ≠ 0)
    {f g : ℝ → (Fin N → ℝ) → (Fin N → ℝ)} (hf : SameEq σ ε μ f g) (rtol T h : ℝ) {y d y' d' : Nat → ℝ}
    (hy : vecOf N y' = relab σ ε (vecOf N y)) (hd : vecOf N d' = μ⁻¹ • relab σ ε (vecOf N d)) :
    (rkdpTrial g atol' rtol (μ * T) (μ * h) y' d').err = (rkdpTrial f atol rtol T h y d).err ∧
    vecOf N (rkdpTrial g atol' rtol (μ * T) (μ * h) y' d').yout = relab σ ε (vecOf N (rkdpTrial f atol rtol T h y d).yout) ∧
    vecOf N (rkdpTrial g atol' rtol (μ * T) (μ * h) y' d').dydxout =
      μ⁻¹ • relab σ ε (vecOf N (rkdpTrial f atol rtol T h y d).dydxout) := by
  obtain ⟨i1, i2, i3⟩ := inner_relab hμ hf T h (vecOf N y) (vecOf N d)
  have hva : ∀ v : Fin N → ℝ, vecOf N (arrOf v) = v := fun v => funext fun i => arr_at v i
  refine ⟨?_, ?_, ?_⟩
  · simp only [rkdpTrial, hy, hd, i1, i3]
    have e1 : estimateError N atol rtol (arrOf (innerStep f T h (vecOf N y) (vecOf N d)).yerr) y (arrOf (innerStep f T h (vecOf N y) (vecOf N d)).yout)
        = estimateError N atol rtol (arrOf (innerStep f T h (vecOf N y) (vecOf N d)).yerr) (arrOf (vecOf N y))
          (arrOf (innerStep f T h (vecOf N y) (vecOf N d)).yout) :=
      estimateError_congr (fun _ _ => rfl) (fun i hi => (arr_at (vecOf N y) ⟨i, hi⟩).symm) (fun _ _ => rfl)
    rw [e1, ← estimate_relab hN σ ε hε he rtol, ← hy]
    exact estimateError_congr (fun _ _ => rfl) (fun i hi => (arr_at (vecOf N y') ⟨i, hi⟩).symm) (fun _ _ => rfl)
  · simp only [rkdpTrial, hy, hd, i1, hva]
  · simp only [rkdpTrial, hy, hd, i2, hva]

/-- C155, one call of `Step` in the two sets of variables: it fails in both or stores the same point in both. -/
theorem C155_step {N : Nat} (hN : 0 < N) (σ : Equiv.Perm (Fin N)) (ε : Fin N → ℝ) (hε : ∀ i, ε i ≠ 0) (atol atol' : ℝ) (he : ∀ i, atol' = |ε i| * atol) (μ : ℝ) (hμ : 0 < μ)
    (f g : ℝ → (Fin N → ℝ) → (Fin N → ℝ)) (hf : SameEq σ ε μ f g) (rtol eps : ℝ) (p : Par) (junk junk' : Nat → ℝ) (dense dense' : Bool)
    (fuel k : Nat) (s s' : Store) (c : Ctl) (hs : Room N s (k + 1)) (hs' : Room N s' (k + 1)) (h : SameIn σ ε μ s s') :
    (rkStep N junk id p eps dense (rkdpTrial f atol rtol) fuel s c = .fuel ∧
      rkStep N junk' id p eps dense' (rkdpTrial g atol' rtol) fuel s' (scaleCtl μ c) = .fuel) ∨
    (rkStep N junk id p eps dense (rkdpTrial f atol rtol) fuel s c = .underflow ∧
      rkStep N junk' id p eps dense' (rkdpTrial g atol' rtol) fuel s' (scaleCtl μ c) = .underflow) ∨
    ∃ t s1 s2 c', rkStep N junk id p eps dense (rkdpTrial f atol rtol) fuel s c = .ok t s1 c' ∧
      rkStep N junk' id p eps dense' (rkdpTrial g atol' rtol) fuel s' (scaleCtl μ c) = .ok (μ * t) s2 (scaleCtl μ c') ∧
      SameIn σ ε μ s1 s2 ∧ Room N s1 k ∧ Room N s2 k ∧ s1.n = s.n + 1 := by
  have hW : (s.n + 1) * N ≤ W := Nat.le_trans (Nat.mul_le_mul_right N (by omega)) hs.size
  have hW' : (s'.n + 1) * N ≤ W := Nat.le_trans (Nat.mul_le_mul_right N (by omega)) hs'.size
  have hc := hs.count
  have hc' := hs'.count
  have hp := hs.pos
  have hn := h.n
  obtain ⟨a1, a2, a3⟩ := rkStep_general N junk id p eps dense (rkdpTrial f atol rtol) fuel s c hs.pos hs.le (by omega) hW
  obtain ⟨b1, b2, b3⟩ := rkStep_general N junk' id p eps dense' (rkdpTrial g atol' rtol) fuel s' (scaleCtl μ c) hs'.pos hs'.le (by omega) hW'
  have eT : s'.time (s'.n - 1) = μ * s.time (s.n - 1) := by
    rw [hn]; exact h.time (s.n - 1) (by omega)
  have hsol := h.sol (s.n - 1) (by omega)
  have hder := h.der (s.n - 1) (by omega)
  have etr := fun hh => trial_relab hN hε he hμ.ne' hf rtol (s.time (s.n - 1)) hh hsol hder
  rw [hn] at b1 b2 b3 eT
  simp only [eT] at b1 b2 b3
  have hloop := loop_scale hμ p eps (s.time (s.n - 1))
    (err := fun h => (rkdpTrial f atol rtol (s.time (s.n - 1)) h (solutionAt N s (s.n - 1)) (derivativeAt N s (s.n - 1))).err)
    (err' := fun h => (rkdpTrial g atol' rtol (μ * s.time (s.n - 1)) h (solutionAt N s' (s.n - 1)) (derivativeAt N s' (s.n - 1))).err)
    (fun h => (etr h).1) fuel c.optimal c
  have hopt : (scaleCtl μ c).optimal = μ * c.optimal := rfl
  rw [hopt, hloop] at b1 b2 b3
  cases hlp : stepLoop id p eps (s.time (s.n - 1))
    (fun h => (rkdpTrial f atol rtol (s.time (s.n - 1)) h (solutionAt N s (s.n - 1)) (derivativeAt N s (s.n - 1))).err) fuel c.optimal c with
  | fuel => exact .inl ⟨a1 hlp, b1 (by rw [hlp]; rfl)⟩
  | underflow => exact .inr (.inl ⟨a2 hlp, b2 (by rw [hlp]; rfl)⟩)
  | accepted hh c' =>
    obtain ⟨s1, x1, x2, x3, x4, x5, x6, x7, -⟩ := a3 hh c' hlp
    obtain ⟨s2, z1, z2, z3, z4, z5, z6, z7, -⟩ := b3 (μ * hh) (scaleCtl μ c') (by rw [hlp]; rfl)
    have r1 : Room N s1 k := ⟨by omega, x3, by omega, by
      rw [x2, Nat.add_right_comm, Nat.add_assoc]; exact hs.size⟩
    have r2 : Room N s2 k := ⟨by omega, z3, by omega, by
      rw [z2, Nat.add_right_comm, Nat.add_assoc]; exact hs.size⟩
    have hadd : μ * s.time (s.n - 1) + μ * hh = μ * (s.time (s.n - 1) + hh) := by ring
    rw [hadd] at z1 z4
    refine .inr (.inr ⟨_, s1, s2, c', x1, z1, ⟨by omega, ?_, ?_, ?_⟩, r1, r2, x2⟩)
    · intro i hi
      rcases Nat.lt_or_ge i s.n with h1 | h1
      · show s2.time i = μ * s1.time i
        rw [x6 i h1, z6 i (by omega)]; exact h.time i h1
      · have e : i = s.n := by omega
        subst e
        show s2.time s.n = μ * s1.time s.n
        rw [x4, z4]
    · intro i hi
      have m1 := small_index r1 i hi hN
      rcases Nat.lt_or_ge i s.n with h1 | h1
      · have old := h.sol i h1
        funext j
        have old' := congrFun old j
        rw [relab_apply] at old' ⊢
        simp only [vecOf, solutionAt, m1] at old' ⊢
        rw [(x7 i (σ j) h1 (σ j).2).1, (z7 i j (by omega) j.2).1]
        exact old'
      · have e : i = s.n := by omega
        subst e
        have new := (etr hh).2.1
        funext j
        have new' := congrFun new j
        rw [relab_apply] at new' ⊢
        simp only [vecOf, solutionAt, m1] at new' ⊢
        rw [(x5 (σ j) (σ j).2).1, (z5 j j.2).1]
        exact new'
    · intro i hi
      have m1 := small_index r1 i hi hN
      rcases Nat.lt_or_ge i s.n with h1 | h1
      · have old := h.der i h1
        funext j
        have old' := congrFun old j
        rw [Pi.smul_apply, relab_apply] at old' ⊢
        simp only [vecOf, derivativeAt, m1] at old' ⊢
        rw [(x7 i (σ j) h1 (σ j).2).2, (z7 i j (by omega) j.2).2]
        exact old'
      · have e : i = s.n := by omega
        subst e
        have new := (etr hh).2.2
        funext j
        have new' := congrFun new j
        rw [Pi.smul_apply, relab_apply] at new' ⊢
        simp only [vecOf, derivativeAt, m1] at new' ⊢
        rw [(x5 (σ j) (σ j).2).2, (z5 j j.2).2]
        exact new'

theorem run_relab {N : Nat} (hN : 0 < N) (σ : Equiv.Perm (Fin N)) (ε : Fin N → ℝ) (hε : ∀ i, ε i ≠ 0) (atol atol' : ℝ) (he : ∀ i, atol' = |ε i| * atol) (μ : ℝ) (hμ : 0 < μ)
    (f g : ℝ → (Fin N → ℝ) → (Fin N → ℝ)) (hf : SameEq σ ε μ f g) (rtol eps : ℝ) (p : Par) (junk junk' : Nat → Nat → ℝ) (dense dense' : Nat → Bool)
    (fuel : Nat) :
    ∀ (k : Nat) (s s' : Store) (c : Ctl), Room N s k → Room N s' k → SameIn σ ε μ s s' →
    (∃ i, rkRun N junk id p eps dense (rkdpTrial f atol rtol) fuel k s c = .fuel i ∧
      rkRun N junk' id p eps dense' (rkdpTrial g atol' rtol) fuel k s' (scaleCtl μ c) = .fuel i) ∨
    (∃ i, rkRun N junk id p eps dense (rkdpTrial f atol rtol) fuel k s c = .underflow i ∧
      rkRun N junk' id p eps dense' (rkdpTrial g atol' rtol) fuel k s' (scaleCtl μ c) = .underflow i) ∨
    ∃ s1 s2 c', rkRun N junk id p eps dense (rkdpTrial f atol rtol) fuel k s c = .ok s1 c' ∧
      rkRun N junk' id p eps dense' (rkdpTrial g atol' rtol) fuel k s' (scaleCtl μ c) = .ok s2 (scaleCtl μ c') ∧
      SameIn σ ε μ s1 s2 ∧ s1.n = s.n + k
  | 0, s, s', c, _, _, h => .inr (.inr ⟨s, s', c, rfl, rfl, h, rfl⟩)
  | k + 1, s, s', c, hs, hs', h => by
    rcases C155_step hN σ ε hε atol atol' he μ hμ f g hf rtol eps p (junk k) (junk' k) (dense k) (dense' k) fuel k s s' c hs hs' h with
      ⟨h1, h2⟩ | ⟨h1, h2⟩ | ⟨t, s1, s2, c', h1, h2, h3, h4, h5, h6⟩
    · refine .inl ⟨k, ?_, ?_⟩ <;> rw [rkRun]
      · rw [h1]
      · rw [h2]
    · refine .inr (.inl ⟨k, ?_, ?_⟩) <;> rw [rkRun]
      · rw [h1]
      · rw [h2]
    · rw [rkRun, rkRun, h1, h2]
      rcases run_relab hN σ ε hε atol atol' he μ hμ f g hf rtol eps p junk junk' dense dense' fuel k s1 s2 c' h4 h5 h3 with h | h | ⟨s3, s4, c3, y1, y2, y3, y4⟩
      · exact .inl h
      · exact .inr (.inl h)
      · exact .inr (.inr ⟨s3, s4, c3, y1, y2, y3, by omega⟩)

/-- C155: an integration from an initial value, of any number of steps, in the two sets of variables: the components are
in another order, have other signs and are measured in other units; time is measured in a unit `μ` times smaller.
If the absolute tolerance and the first step are given in the new units (the former is one number for all components, so either they all
get the same unit or it is 0), then the integrations fail at the same step for the same reason, or store the same points. -/
theorem C155_run {N : Nat} (hN : 0 < N) (σ : Equiv.Perm (Fin N)) (ε : Fin N → ℝ) (hε : ∀ i, ε i ≠ 0) (atol atol' : ℝ) (he : ∀ i, atol' = |ε i| * atol) (μ : ℝ) (hμ : 0 < μ)
    (f g : ℝ → (Fin N → ℝ) → (Fin N → ℝ)) (hf : SameEq σ ε μ f g) (rtol eps : ℝ) (p : Par) (junk junk' : Nat → Nat → ℝ) (dense dense' : Nat → Bool)
    (fuel k : Nat) (hw : k + 1001 ≤ W) (hw2 : (k + 1) * N ≤ W) (used used' : Store) (c : Ctl) (y0 : Fin N → ℝ) :
    ∃ s s', initialValue N (junk 0) used (arrOf y0) (arrOf (f 0 y0)) = some s ∧
      initialValue N (junk' 0) used' (arrOf (relab σ ε y0)) (arrOf (g 0 (relab σ ε y0))) = some s' ∧
    ((∃ i, rkRun N junk id p eps dense (rkdpTrial f atol rtol) fuel k s c = .fuel i ∧
        rkRun N junk' id p eps dense' (rkdpTrial g atol' rtol) fuel k s' (scaleCtl μ c) = .fuel i) ∨
      (∃ i, rkRun N junk id p eps dense (rkdpTrial f atol rtol) fuel k s c = .underflow i ∧
        rkRun N junk' id p eps dense' (rkdpTrial g atol' rtol) fuel k s' (scaleCtl μ c) = .underflow i) ∨
      ∃ s1 s2 c', rkRun N junk id p eps dense (rkdpTrial f atol rtol) fuel k s c = .ok s1 c' ∧
        rkRun N junk' id p eps dense' (rkdpTrial g atol' rtol) fuel k s' (scaleCtl μ c) = .ok s2 (scaleCtl μ c') ∧
        s1.n = k + 1 ∧ s2.n = k + 1 ∧ ∀ i, i < k + 1 → timeAt s2 i = μ * timeAt s1 i ∧
          ∀ j : Fin N, solutionAt N s2 i j = ε j * solutionAt N s1 i (σ j)) := by
  obtain ⟨s, h1, h2, h3, h4, h5, -, -⟩ := initialValue_room N (junk 0) used (arrOf y0) (arrOf (f 0 y0)) k hw hw2
  obtain ⟨s', g1, g2, g3, g4, g5, -, -⟩ := initialValue_room N (junk' 0) used' (arrOf (relab σ ε y0)) (arrOf (g 0 (relab σ ε y0))) k hw hw2
  refine ⟨s, s', h1, g1, ?_⟩
  have hs : SameIn σ ε μ s s' := by
    have e1 : vecOf N (solutionAt N s 0) = y0 := funext fun j => by rw [vecOf, (h5 j j.2).1, arr_at]
    have e2 : vecOf N (derivativeAt N s 0) = f 0 y0 := funext fun j => by rw [vecOf, (h5 j j.2).2, arr_at]
    have e3 : vecOf N (solutionAt N s' 0) = relab σ ε y0 := funext fun j => by rw [vecOf, (g5 j j.2).1, arr_at]
    have e4 : vecOf N (derivativeAt N s' 0) = g 0 (relab σ ε y0) := funext fun j => by rw [vecOf, (g5 j j.2).2, arr_at]
    refine ⟨by omega, ?_, ?_, ?_⟩
    · intro i hi
      have : i = 0 := by omega
      subst this; rw [h4, g4, mul_zero]
    · intro i hi
      have : i = 0 := by omega
      subst this; rw [e1, e3]
    · intro i hi
      have : i = 0 := by omega
      subst this
      have := hf 0 y0
      rw [mul_zero] at this
      rw [e2, e4, this]
  rcases run_relab hN σ ε hε atol atol' he μ hμ f g hf rtol eps p junk junk' dense dense' fuel k s s' c h2 g2 hs with h | h | ⟨s3, s4, c3, y1, y2, y3, y4⟩
  · exact .inl h
  · exact .inr (.inl h)
  · refine .inr (.inr ⟨s3, s4, c3, y1, y2, by omega, by rw [y3.n]; omega, ?_⟩)
    intro i hi
    refine ⟨y3.time i (by omega), ?_⟩
    intro j
    have := congrFun (y3.sol i (by omega)) j
    rw [relab_apply] at this
    exact this

/-- C155, dense output: between the ends of a step, at the same fraction of it, dense output gives the same point in the two sets of
variables. -/
theorem C155_dense {N : Nat} {σ : Equiv.Perm (Fin N)} {ε : Fin N → ℝ} {μ : ℝ} (hμ : μ ≠ 0) {f g : ℝ → (Fin N → ℝ) → (Fin N → ℝ)}
    (hf : SameEq σ ε μ f g) (T h : ℝ) (y d : Fin N → ℝ) (s : ℝ) (q q' : Inner (Fin N → ℝ)) (hq : q = innerStep f T h y d)
    (hq' : q' = innerStep g (μ * T) (μ * h) (relab σ ε y) (μ⁻¹ • relab σ ε d)) :
    denseEval (prepareDense (μ * h) (relab σ ε y) q'.yout (μ⁻¹ • relab σ ε d) q'.dydxout q'.k3 q'.k4 q'.k5 q'.k6) s =
      relab σ ε (denseEval (prepareDense h y q.yout d q.dydxout q.k3 q.k4 q.k5 q.k6) s) := by
  have ht : ∀ c : ℝ, μ * T + c * (μ * h) = μ * (T + c * h) := fun c => by ring
  have ht1 : μ * T + μ * h = μ * (T + h) := by ring
  have hs : ∀ (a : ℝ) (v : Fin N → ℝ), (μ * h * a) • (μ⁻¹ • relab σ ε v) = relab σ ε ((h * a) • v) := by
    intro a v
    rw [smul_smul, map_smul]
    congr 1
    field_simp
  obtain ⟨e1, e2, -⟩ := inner_relab hμ hf T h y d
  have e3 : q'.k3 = μ⁻¹ • relab σ ε q.k3 ∧ q'.k4 = μ⁻¹ • relab σ ε q.k4 ∧ q'.k5 = μ⁻¹ • relab σ ε q.k5 ∧ q'.k6 = μ⁻¹ • relab σ ε q.k6 := by
    subst hq hq'
    simp only [innerStep, ht, ht1, hs, ← map_add, hf _ _]
    exact ⟨trivial, trivial, trivial, trivial⟩
  rw [← hq, ← hq'] at e1 e2
  obtain ⟨e3, e4, e5, e6⟩ := e3
  have hk : ∀ v : Fin N → ℝ, (μ * h) • (μ⁻¹ • v) = h • v := by
    intro v
    rw [smul_smul]
    congr 1
    field_simp
  simp only [denseEval, prepareDense, e1, e2, e3, e4, e5, e6, ← smul_add, ← map_add, ← map_sub, ← map_smul, hk, smul_comm _ μ⁻¹]

/-- For every equation, order, signs and units there is the equation in the other variables. -/
theorem C155_exists {N : Nat} (σ : Equiv.Perm (Fin N)) (ε : Fin N → ℝ) (μ : ℝ) (hε : ∀ i, ε i ≠ 0) (hμ : μ ≠ 0) (f : ℝ → (Fin N → ℝ) → (Fin N → ℝ)) :
    ∃ g, SameEq σ ε μ f g := by
  refine ⟨fun t z => μ⁻¹ • relab σ ε (f (μ⁻¹ * t) (fun i => (ε (σ.symm i))⁻¹ * z (σ.symm i))), ?_⟩
  intro t y
  have e1 : μ⁻¹ * (μ * t) = t := by field_simp
  have e2 : (fun i => (ε (σ.symm i))⁻¹ * relab σ ε y (σ.symm i)) = y := by
    funext i
    rw [relab_apply, Equiv.apply_symm_apply, ← mul_assoc, inv_mul_cancel₀ (hε _), one_mul]
  simp only [e1, e2]

/-- The absolute tolerance has to be given in the new unit: otherwise the estimate changes with the unit. -/
theorem C155_atol_needed :
    estimateError 1 1 0 (fun _ => 2) (fun _ => 0) (fun _ => 0) = .val 2 ∧
    estimateError 1 1 0 (fun _ => 1 / 4 * 2) (fun _ => 1 / 4 * 0) (fun _ => 1 / 4 * 0) = .val (1 / 2) := by
  constructor
  · have e : Real.sqrt 4 = 2 := by
      rw [show (4 : ℝ) = 2 ^ 2 from by norm_num]; exact Real.sqrt_sq (by norm_num)
    norm_num [estimateError, errSum, errTerm, errAdd, e]
  · have e : Real.sqrt (1 / 4) = 1 / 2 := by
      rw [show (1 / 4 : ℝ) = (1 / 2) ^ 2 from by norm_num]; exact Real.sqrt_sq (by norm_num)
    norm_num [estimateError, errSum, errTerm, errAdd]
    norm_num at e
    exact e

/-- The first step has to be given in the new unit, and a new integrator always begins with the step 1: whatever the unit of
time, its first step has the length 1 if it is accepted. -/
theorem C155_first_step_needed (fl : ℝ → ℝ) (p : Par) (eps T : ℝ) (err : ℝ → Err) (e : ℝ) (he : err 1 = .val e) (h1 : e ≤ 1) (fuel : Nat) :
    ∃ c, stepLoop fl p eps T err (fuel + 1) Ctl.init.optimal Ctl.init = .accepted 1 c := by
  refine ⟨(updateTimestep fl p Ctl.init 1 (.val e)).2, ?_⟩
  simp only [stepLoop, Ctl.init, he, updateTimestep, if_pos h1]

/-- And it has to be one number: with an absolute tolerance, components in different units are not judged as before, whatever
tolerance is given in its place. -/
theorem C155_units_needed (atol' : ℝ) :
    ¬ ∀ e : Fin 2 → ℝ, estimateError 2 atol' 0 (arrOf (relab (Equiv.refl _) ![1, 2] e)) (arrOf (relab (Equiv.refl _) ![1, 2] 0))
      (arrOf (relab (Equiv.refl _) ![1, 2] 0)) = estimateError 2 1 0 (arrOf e) (arrOf (0 : Fin 2 → ℝ)) (arrOf (0 : Fin 2 → ℝ)) := by
  intro h
  have h1 := h ![1, 0]
  have h2 := h ![0, 1]
  have hne : ∀ i < 2, tolOf 1 0 (arrOf (0 : Fin 2 → ℝ) i) (arrOf (0 : Fin 2 → ℝ) i) ≠ 0 := by
    intro i _; simp [tolOf]
  rw [C90_estimate 2 (by norm_num) 1 0 _ _ _ hne] at h1 h2
  have hne' := (C90_number_iff 2 (by norm_num) atol' 0 _ _ _).1 ⟨_, h1⟩
  have ha : atol' ≠ 0 := by
    have := hne' 0 (by norm_num)
    simpa [tolOf] using this
  rw [C90_estimate 2 (by norm_num) atol' 0 _ _ _ hne'] at h1 h2
  simp only [Finset.sum_range_succ, Finset.sum_range_zero, tolOf, arrOf, relab_apply] at h1 h2
  simp only [Err.val.injEq] at h1 h2
  rw [Real.sqrt_inj (by positivity) (by positivity)] at h1 h2
  norm_num at h1 h2
  have h3 : atol' ^ 2 ≠ 0 := pow_ne_zero 2 ha
  field_simp at h1 h2
  rcases h1 with h1 | h1 <;> rcases h2 with h2 | h2 <;> linarith

/-- The hypotheses of `C155_run` hold, e.g., for two components exchanged, one of them with the other sign, in units a thousand times
smaller; and in different units if there is no absolute tolerance. -/
example : (∀ i, (![1000, -1000] : Fin 2 → ℝ) i ≠ 0) ∧ (∀ i, (1 : ℝ) = |(![1000, -1000] : Fin 2 → ℝ) i| * (1 / 1000)) ∧
    (∀ i, (0 : ℝ) = |(![1000, -1] : Fin 2 → ℝ) i| * 0) ∧
    SameEq (Equiv.swap 0 1) ![1000, -1000] 2 (fun _ y => ![y 1, 0]) (fun _ z => ![0, -(z 0 / 2)]) := by
  refine ⟨?_, ?_, ?_, ?_⟩
  · intro i; fin_cases i <;> norm_num
  · intro i; fin_cases i <;> norm_num
  · intro i; simp
  · intro t y
    funext i
    fin_cases i
    · simp [relab_apply]
    · simp [relab_apply]; ring

end

end Softlib
