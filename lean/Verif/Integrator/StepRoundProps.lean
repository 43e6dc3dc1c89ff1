/-
Properties C37 and C38 with rounded arithmetic: stored times and dense output at stored times.

Source: /repo/include/softlib/Integrator/RungeKutta.tcc 86-176, /repo/include/softlib/Integrator/RKDP45.tcc 55-120.
-/
import Verif.Integrator.StepRoundModel
import Verif.Integrator.RKModel
import Verif.General.RoundProps
import Verif.General.RoundEval

namespace Softlib

open Softlib.General Softlib.Integrator

/-! ### step control -/

theorem updateR_pos {u : ℚ} (R : Rnd u) (hu : u < 1) (pw : ℚ → ℚ → ℚ) (p : ParR) (hp : 0 < p.minscale)
    (hpm : p.minscale ≤ p.maxscale) (c : CtlR) (h : ℚ) (hh : 0 < h) (e : ErrR) :
    0 < (updateR R pw p c h e).2.optimal := by
  cases e with
  | nan => exact R.fl_pos hu (mul_pos hh (R.fl_pos hu (by norm_num)))
  | inf => exact R.fl_pos hu (mul_pos hh (lt_max_of_lt_right hp))
  | val e =>
    have clamp : ∀ x : ℚ, 0 < (if (if x < p.minscale then p.minscale else x) > p.maxscale then p.maxscale
        else (if x < p.minscale then p.minscale else x)) := by
      intro x
      split_ifs <;> linarith
    unfold updateR
    by_cases he : e ≤ 1
    · simp only [if_pos he]
      have hs : 0 < (if e = 0 then p.maxscale
          else
            if (if R.fl (R.fl (p.safe * pw e (-p.alpha)) * pw c.errold p.beta) < p.minscale then p.minscale
              else R.fl (R.fl (p.safe * pw e (-p.alpha)) * pw c.errold p.beta)) > p.maxscale then p.maxscale
            else (if R.fl (R.fl (p.safe * pw e (-p.alpha)) * pw c.errold p.beta) < p.minscale then p.minscale
              else R.fl (R.fl (p.safe * pw e (-p.alpha)) * pw c.errold p.beta))) := by
        by_cases h0 : e = 0
        · rw [if_pos h0]; linarith
        · rw [if_neg h0]; exact clamp _
      generalize (if e = 0 then p.maxscale
          else
            if (if R.fl (R.fl (p.safe * pw e (-p.alpha)) * pw c.errold p.beta) < p.minscale then p.minscale
              else R.fl (R.fl (p.safe * pw e (-p.alpha)) * pw c.errold p.beta)) > p.maxscale then p.maxscale
            else (if R.fl (R.fl (p.safe * pw e (-p.alpha)) * pw c.errold p.beta) < p.minscale then p.minscale
              else R.fl (R.fl (p.safe * pw e (-p.alpha)) * pw c.errold p.beta))) = sc at hs
      cases c.rejected with
      | true => exact R.fl_pos hu (mul_pos hh (lt_min hs one_pos))
      | false => exact R.fl_pos hu (mul_pos hh hs)
    · simp only [if_neg he]
      exact R.fl_pos hu (mul_pos hh (lt_max_of_lt_right hp))

theorem stepLoopR_accepted {u : ℚ} (R : Rnd u) (hu : u < 1) (pw : ℚ → ℚ → ℚ) (p : ParR) (hp : 0 < p.minscale)
    (hpm : p.minscale ≤ p.maxscale) (eps T : ℚ) (err : ℚ → ErrR) :
    ∀ (fuel : ℕ) (h : ℚ) (c : CtlR) (h' : ℚ) (c' : CtlR), 0 < h →
      stepLoopR R pw p eps T err fuel h c = .accepted h' c' →
      0 < h' ∧ 0 < c'.optimal ∧ (h' = h ∧ (updateR R pw p c h (err h)).1 = true ∨ R.fl (|T| * eps) < h') := by
  intro fuel
  induction fuel with
  | zero => intro h c h' c' _ e; cases e
  | succ k ih =>
    intro h c h' c' hh e
    rw [stepLoopR] at e
    have hpos := updateR_pos R hu pw p hp hpm c h hh (err h)
    rcases hU : updateR R pw p c h (err h) with ⟨b, cu⟩
    rw [hU] at e hpos
    cases b with
    | true =>
      simp only [LoopResR.accepted.injEq] at e
      obtain ⟨rfl, rfl⟩ := e
      exact ⟨hh, hpos, Or.inl ⟨rfl, rfl⟩⟩
    | false =>
      simp only at e hpos
      split_ifs at e with hun
      have hlt : R.fl (|T| * eps) < cu.optimal := by
        rw [abs_of_pos hpos] at hun
        exact not_le.1 hun
      obtain ⟨h1, h2, h3⟩ := ih cu.optimal cu h' c' hpos e
      refine ⟨h1, h2, Or.inr ?_⟩
      rcases h3 with ⟨rfl, -⟩ | h3
      · exact hlt
      · exact h3

/-- A step above the resolution increases a time that is not negative. -/
theorem fl_add_gt {u : ℚ} (R : Rnd u) (hu : u < 1) {eps T h : ℚ} (heps : u ≤ (1 - u) ^ 2 * eps) (hT : 0 ≤ T) (hh : 0 < h)
    (hlt : R.fl (|T| * eps) < h) : T < R.fl (T + h) := by
  have hu0 := R.u_nonneg
  have he0 : 0 ≤ eps := by
    by_contra hc
    have : (1 - u) ^ 2 * eps < 0 := mul_neg_of_pos_of_neg (by have : 0 < 1 - u := by linarith
                                                              positivity) (not_le.1 hc)
    linarith
  rw [abs_of_nonneg hT] at hlt
  have h1 := R.fl_ge (mul_nonneg hT he0)
  have h2 := R.fl_ge (add_nonneg hT hh.le)
  have h3 : (1 - u) * ((1 - u) * (T * eps)) < (1 - u) * h := mul_lt_mul_of_pos_left (lt_of_le_of_lt h1 hlt) (by linarith)
  have h4 : T * u ≤ T * ((1 - u) ^ 2 * eps) := mul_le_mul_of_nonneg_left heps hT
  nlinarith

/-- With exact arithmetic the step control is that of `Verif/Integrator/RKModel.lean`, if `pow` is exact for the numbers
at hand. -/
theorem C37_rounded_exact (pw : ℚ → ℚ → ℚ) (p : ParR) (c : CtlR) (h e : ℚ)
    (h1 : ((pw e (-p.alpha) : ℚ) : ℝ) = (e : ℝ) ^ (-(p.alpha : ℝ)))
    (h2 : ((pw c.errold p.beta : ℚ) : ℝ) = (c.errold : ℝ) ^ (p.beta : ℝ)) :
    updateTimestep id ⟨p.safe, p.alpha, p.beta, p.minscale, p.maxscale⟩ ⟨c.optimal, c.errold, c.rejected⟩ h (.val e) =
      ((updateR exactRnd pw p c h (.val e)).1, ⟨(updateR exactRnd pw p c h (.val e)).2.optimal,
        (updateR exactRnd pw p c h (.val e)).2.errold, (updateR exactRnd pw p c h (.val e)).2.rejected⟩) := by
  unfold updateTimestep updateR
  simp only [exactRnd, id, ← h1, ← h2]
  have c1 : (e : ℝ) ≤ 1 ↔ e ≤ 1 := by exact_mod_cast Iff.rfl
  have c2 : (e : ℝ) = 0 ↔ e = 0 := by exact_mod_cast Iff.rfl
  by_cases he : e ≤ 1
  · rw [if_pos (c1.2 he), if_pos he]
    simp only [Prod.mk.injEq, true_and, Ctl.mk.injEq, and_true]
    refine ⟨?_, by push_cast; ring_nf⟩
    have cl : ∀ x a b : ℚ, (if (if (x : ℝ) < a then (a : ℝ) else x) > b then (b : ℝ) else (if (x : ℝ) < a then (a : ℝ) else x)) =
        ((if (if x < a then a else x) > b then b else (if x < a then a else x) : ℚ) : ℝ) := by
      intro x a b
      by_cases g1 : x < a
      · have g1' : (x : ℝ) < a := by exact_mod_cast g1
        simp only [g1, g1', if_true]
        by_cases g2 : a > b
        · have g2' : (a : ℝ) > b := by exact_mod_cast g2
          simp only [g2, g2', if_true]
        · have g2' : ¬ (a : ℝ) > b := by exact_mod_cast g2
          simp only [g2, g2', if_false]
      · have g1' : ¬ (x : ℝ) < a := by exact_mod_cast g1
        simp only [g1, g1', if_false]
        by_cases g2 : x > b
        · have g2' : (x : ℝ) > b := by exact_mod_cast g2
          simp only [g2, g2', if_true]
        · have g2' : ¬ (x : ℝ) > b := by exact_mod_cast g2
          simp only [g2, g2', if_false]
    have cl' := cl (p.safe * pw e (-p.alpha) * pw c.errold p.beta) p.minscale p.maxscale
    rw [Rat.cast_mul, Rat.cast_mul] at cl'
    by_cases h0 : e = 0
    · rw [if_pos (c2.2 h0), if_pos h0]
      cases c.rejected <;> simp
    · rw [if_neg (fun hc => h0 (c2.1 hc)), if_neg h0, cl']
      cases c.rejected <;> simp only [if_true, if_false, Bool.false_eq_true] <;> push_cast <;> rfl
  · rw [if_neg (fun hc => he (c1.1 hc)), if_neg he]
    push_cast
    rfl

/-- The premises of `C37_rounded_exact`: error one, default exponents. -/
example : ((1 : ℚ) : ℝ) = ((1 : ℚ) : ℝ) ^ (-((1 / 5 : ℚ) : ℝ)) ∧ ((1 : ℚ) : ℝ) = ((1 / 10000 : ℚ) : ℝ) ^ ((0 : ℚ) : ℝ) := by
  constructor <;> simp

/-! ### stored points -/

/-- What holds of the stored points after any number of steps. -/
structure GoodHist {u : ℚ} (R : Rnd u) (s : HistR) (c : CtlR) : Prop where
  one : 1 ≤ s.n
  t0 : s.time 0 = 0
  isT : ∀ i, i < s.n → R.Is (s.time i)
  mono : ∀ i, i + 1 < s.n → s.time i ≤ s.time (i + 1)
  first : 2 ≤ s.n → 0 < s.time 1
  opt : 0 < c.optimal
  isY : ∀ i j, i < s.n → R.Is (s.y i j)
  r1 : ∀ i j, i + 1 < s.n → (s.rc i j).r1 = s.y i j
  r2 : ∀ i j, i + 1 < s.n → (s.rc i j).r2 = R.fl (s.y (i + 1) j - s.y i j)

theorem GoodHist.mono' {u : ℚ} {R : Rnd u} {s : HistR} {c : CtlR} (h : GoodHist R s c) :
    ∀ d i, i + d < s.n → s.time i ≤ s.time (i + d) := by
  intro d
  induction d with
  | zero => intro i _; exact le_refl _
  | succ d ih => intro i hi; exact le_trans (ih i (by omega)) (h.mono (i + d) (by omega))

theorem GoodHist.le {u : ℚ} {R : Rnd u} {s : HistR} {c : CtlR} (h : GoodHist R s c) {i j : ℕ} (hij : i ≤ j) (hj : j < s.n) :
    s.time i ≤ s.time j := by
  have := h.mono' (j - i) i (by omega)
  rwa [Nat.add_sub_cancel' hij] at this

theorem GoodHist.init {u : ℚ} (R : Rnd u) (y0 dy0 : ℕ → ℚ) (hy : ∀ j, R.Is (y0 j)) (c : CtlR) (hc : 0 < c.optimal) :
    GoodHist R (HistR.init y0 dy0) c where
  one := le_refl 1
  t0 := rfl
  isT := fun _ _ => R.fl_zero
  mono := fun _ _ => le_refl _
  first := fun h => absurd h (by simp [HistR.init])
  opt := hc
  isY := fun _ j _ => hy j
  r1 := fun _ _ h => absurd h (by simp [HistR.init])
  r2 := fun _ _ h => absurd h (by simp [HistR.init])

theorem GoodHist.store {u : ℚ} {R : Rnd u} (hu : u < 1) {s : HistR} {c : CtlR} (g : GoodHist R s c) (h : ℚ) (hh : 0 < h)
    (q : TrialR) (hq : ∀ j, R.Is (q.yout j)) (c' : CtlR) (hc' : 0 < c'.optimal) : GoodHist R (storeR R s h q) c' := by
  have hone := g.one
  refine ⟨?_, ?_, ?_, ?_, ?_, hc', ?_, ?_, ?_⟩
  · simp only [storeR]; omega
  · simp only [storeR]
    rw [if_neg (by omega)]
    exact g.t0
  · intro i hi
    simp only [storeR] at hi ⊢
    split_ifs with e
    · exact R.idem _
    · exact g.isT i (by omega)
  · intro i hi
    simp only [storeR] at hi ⊢
    rw [if_neg (by omega : ¬ i = s.n)]
    split_ifs with e
    · have : s.n - 1 = i := by omega
      rw [this]
      exact R.le_fl_of (g.isT i (by omega)) (by linarith)
    · exact g.mono i (by omega)
  · intro hn
    simp only [storeR] at hn ⊢
    split_ifs with e
    · have : s.n - 1 = 0 := by omega
      rw [this, g.t0, zero_add]
      exact R.fl_pos hu hh
    · exact g.first (by omega)
  · intro i j hi
    simp only [storeR] at hi ⊢
    split_ifs with e
    · exact hq j
    · exact g.isY i j (by omega)
  · intro i j hi
    simp only [storeR] at hi ⊢
    rw [if_neg (by omega : ¬ i = s.n)]
    split_ifs with e
    · simp only [prepareR]; rw [e]
    · exact g.r1 i j (by omega)
  · intro i j hi
    simp only [storeR] at hi ⊢
    rw [if_neg (by omega : ¬ i = s.n)]
    split_ifs with e e' e'
    · simp only [prepareR]; rw [e]
    · omega
    · omega
    · exact g.r2 i j (by omega)

theorem GoodHist.run {u : ℚ} {R : Rnd u} (hu : u < 1) (pw : ℚ → ℚ → ℚ) (p : ParR) (hp : 0 < p.minscale)
    (hpm : p.minscale ≤ p.maxscale) (eps : ℚ) (trial : ℚ → ℚ → (ℕ → ℚ) → (ℕ → ℚ) → TrialR)
    (htr : ∀ T h y dy j, R.Is ((trial T h y dy).yout j)) (fuel : ℕ) :
    ∀ (k : ℕ) (s : HistR) (c : CtlR) (s' : HistR) (c' : CtlR), GoodHist R s c →
      rkRunR R pw p eps trial fuel k s c = .ok s' c' → GoodHist R s' c' ∧ s'.n = s.n + k := by
  intro k
  induction k with
  | zero =>
    intro s c s' c' g e
    simp only [rkRunR, StepResR.ok.injEq] at e
    obtain ⟨rfl, rfl⟩ := e
    exact ⟨g, rfl⟩
  | succ k ih =>
    intro s c s' c' g e
    rw [rkRunR] at e
    unfold rkStepR at e
    simp only at e
    rcases hL : stepLoopR R pw p eps (s.time (s.n - 1)) (fun h => (trial (s.time (s.n - 1)) h (s.y (s.n - 1)) (s.dy (s.n - 1))).err)
        fuel c.optimal c with _ | _ | ⟨h, c1⟩
    · rw [hL] at e; cases e
    · rw [hL] at e; cases e
    · rw [hL] at e
      simp only at e
      obtain ⟨h1, h2, -⟩ := stepLoopR_accepted R hu pw p hp hpm eps _ _ fuel _ _ _ _ g.opt hL
      obtain ⟨g', hn⟩ := ih _ _ _ _ (g.store hu h h1 _ (fun j => htr _ _ _ _ j) c1 h2) e
      exact ⟨g', by rw [hn]; simp only [storeR]; omega⟩

/-! ### C37 -/

/-- **C37, rounded**: after any number of steps from the initial value the stored times do not decrease, the second is
greater than the first, all times are numbers of the format, and the next step is positive.  `pow` is arbitrary. -/
theorem C37_rounded {u : ℚ} (R : Rnd u) (hu : u < 1) (pw : ℚ → ℚ → ℚ) (p : ParR) (hp : 0 < p.minscale)
    (hpm : p.minscale ≤ p.maxscale) (eps : ℚ) (trial : ℚ → ℚ → (ℕ → ℚ) → (ℕ → ℚ) → TrialR)
    (htr : ∀ T h y dy j, R.Is ((trial T h y dy).yout j)) (fuel k : ℕ) (y0 dy0 : ℕ → ℚ) (hy : ∀ j, R.Is (y0 j))
    (c0 : CtlR) (hc0 : 0 < c0.optimal) (s : HistR) (c : CtlR)
    (h : rkRunR R pw p eps trial fuel k (HistR.init y0 dy0) c0 = .ok s c) :
    s.n = k + 1 ∧ s.time 0 = 0 ∧ (∀ i, i + 1 < s.n → s.time i ≤ s.time (i + 1)) ∧ (1 ≤ k → 0 < s.time 1) ∧
      (∀ i, i < s.n → R.Is (s.time i)) ∧ 0 < c.optimal := by
  obtain ⟨g, hn⟩ := GoodHist.run hu pw p hp hpm eps trial htr fuel k _ c0 s c (GoodHist.init R y0 dy0 hy c0 hc0) h
  have hn' : s.n = k + 1 := by rw [hn]; simp only [HistR.init]; omega
  exact ⟨hn', g.t0, g.mono, fun hk => g.first (by omega), g.isT, g.opt⟩

/-- **C37, rounded**: a step that was accepted after at least one rejection increases the time, and so does a step whose
first trial is longer than the resolution of the time.  For `double` precision the premise about `eps` holds with
`REAL_EPSILON`. -/
theorem C37_rounded_strict {u : ℚ} (R : Rnd u) (hu : u < 1) (pw : ℚ → ℚ → ℚ) (p : ParR) (hp : 0 < p.minscale)
    (hpm : p.minscale ≤ p.maxscale) (eps : ℚ) (heps : u ≤ (1 - u) ^ 2 * eps)
    (trial : ℚ → ℚ → (ℕ → ℚ) → (ℕ → ℚ) → TrialR) (fuel : ℕ) (s : HistR) (c : CtlR) (hT : 0 ≤ s.time (s.n - 1))
    (hc : 0 < c.optimal) (s' : HistR) (c' : CtlR) (h : rkStepR R pw p eps trial fuel s c = .ok s' c')
    (hrej : (updateR R pw p c c.optimal (trial (s.time (s.n - 1)) c.optimal (s.y (s.n - 1)) (s.dy (s.n - 1))).err).1 = false ∨
      R.fl (|s.time (s.n - 1)| * eps) < c.optimal) :
    s'.n = s.n + 1 ∧ s.time (s.n - 1) < s'.time s.n := by
  unfold rkStepR at h
  simp only at h
  rcases hL : stepLoopR R pw p eps (s.time (s.n - 1)) (fun h => (trial (s.time (s.n - 1)) h (s.y (s.n - 1)) (s.dy (s.n - 1))).err)
      fuel c.optimal c with _ | _ | ⟨h1, c1⟩
  · rw [hL] at h; cases h
  · rw [hL] at h; cases h
  · rw [hL] at h
    simp only [StepResR.ok.injEq] at h
    obtain ⟨rfl, rfl⟩ := h
    obtain ⟨hpos, -, hor⟩ := stepLoopR_accepted R hu pw p hp hpm eps _ _ fuel _ _ _ _ hc hL
    refine ⟨rfl, ?_⟩
    simp only [storeR, if_true]
    apply fl_add_gt R hu heps hT hpos
    rcases hor with ⟨rfl, ht⟩ | hlt
    · rcases hrej with hf | hf
      · rw [ht] at hf
        exact absurd hf (by simp)
      · exact hf
    · exact hlt

/-- The premises about the format in `C37_rounded_strict` hold for `double` and `float` with their `REAL_EPSILON`, and
the default parameters satisfy those about the scale factors. -/
example : (1 / 2 / 2 ^ 52 : ℚ) < 1 ∧ (1 / 2 / 2 ^ 52 : ℚ) ≤ (1 - 1 / 2 / 2 ^ 52) ^ 2 * (1 / 2 ^ 52) ∧
    (1 / 2 / 2 ^ 23 : ℚ) ≤ (1 - 1 / 2 / 2 ^ 23) ^ 2 * (1 / 2 ^ 23) ∧ 0 < (ParR.default (rndBits 52)).minscale ∧
    (ParR.default (rndBits 52)).minscale ≤ (ParR.default (rndBits 52)).maxscale := by
  refine ⟨by norm_num, by norm_num, by norm_num, ?_, ?_⟩ <;> rw [rndQ_eq] <;> decide +kernel

/-- **C37, rounded**: at a time other than zero the loop of rejections ends for every equation; the number of rounds
does not depend on the errors.  `q` bounds the factors of rejected steps. -/
theorem C37_rounded_rejections_end {u : ℚ} (R : Rnd u) (hu : u < 1) (pw : ℚ → ℚ → ℚ) (p : ParR) (q : ℚ)
    (hq : (1 + u) * q < 1) (h10 : R.fl (1 / 10) ≤ q) (hmin : p.minscale ≤ q) (hmin0 : 0 ≤ p.minscale)
    (hpw : ∀ e, 1 < e → R.fl (p.safe * pw e (-p.alpha)) ≤ q) (eps T : ℚ) (heps : 0 < eps) (hT : T ≠ 0) (h : ℚ) :
    ∃ K, ∀ (err : ℚ → ErrR) (c : CtlR) (fuel : ℕ), K ≤ fuel → stepLoopR R pw p eps T err fuel h c ≠ .fuel := by
  have hu0 := R.u_nonneg
  have hfl10 : 0 ≤ R.fl (1 / 10) := R.fl_nonneg (by norm_num)
  have hq0 : 0 ≤ q := le_trans hfl10 h10
  have hlim : 0 < R.fl (|T| * eps) := R.fl_pos hu (mul_pos (abs_pos.2 hT) heps)
  set w := (1 + u) * q with hw
  have hw0 : 0 ≤ w := mul_nonneg (by linarith) hq0
  obtain ⟨K, hK⟩ : ∃ K : ℕ, |h| * w ^ K ≤ R.fl (|T| * eps) := by
    rcases eq_or_ne h 0 with rfl | hh
    · exact ⟨0, by simpa using hlim.le⟩
    · obtain ⟨K, hK⟩ := exists_pow_lt_of_lt_one (show 0 < R.fl (|T| * eps) / |h| from div_pos hlim (abs_pos.2 hh)) hq
      refine ⟨K, ?_⟩
      have := (lt_div_iff₀ (abs_pos.2 hh)).1 hK
      linarith [mul_comm (w ^ K) |h|]
  -- a rejected step is shorter by the factor `w`
  have hrej : ∀ (c : CtlR) (x : ℚ) (e : ErrR) (c' : CtlR), updateR R pw p c x e = (false, c') → |c'.optimal| ≤ |x| * w := by
    have hb : ∀ x a : ℚ, 0 ≤ a → a ≤ q → |R.fl (x * a)| ≤ |x| * w := by
      intro x a ha haq
      have h1 := R.rel (x * a)
      have h2 : |R.fl (x * a)| ≤ |x * a| + u * |x * a| := by
        have := abs_sub_abs_le_abs_sub (R.fl (x * a)) (x * a)
        linarith
      rw [abs_mul, abs_of_nonneg ha] at h2
      have h3 : |x| * a ≤ |x| * q := mul_le_mul_of_nonneg_left haq (abs_nonneg x)
      have h4 : (1 + u) * (|x| * a) ≤ (1 + u) * (|x| * q) := mul_le_mul_of_nonneg_left h3 (by linarith)
      rw [hw]
      calc |R.fl (x * a)| ≤ (1 + u) * (|x| * a) := by linarith
        _ ≤ (1 + u) * (|x| * q) := h4
        _ = |x| * ((1 + u) * q) := by ring
    intro c x e c' hU
    cases e with
    | nan =>
      simp only [updateR, Prod.mk.injEq, true_and] at hU
      rw [← hU]; exact hb x _ hfl10 h10
    | inf =>
      simp only [updateR, Prod.mk.injEq, true_and] at hU
      rw [← hU]; exact hb x _ (le_max_left _ _) (max_le hq0 hmin)
    | val e =>
      simp only [updateR] at hU
      split_ifs at hU with he1 <;>
        simp only [Prod.mk.injEq, true_and, false_and, reduceCtorEq, Bool.true_eq_false] at hU
      rw [← hU]
      exact hb x _ (le_trans hmin0 (le_max_right _ _)) (max_le (hpw e (not_le.1 he1)) hmin)
  refine ⟨K + 1, ?_⟩
  have key : ∀ (m : ℕ) (x : ℚ), |x| * w ^ m ≤ R.fl (|T| * eps) → ∀ (err : ℚ → ErrR) (c : CtlR) (fuel : ℕ), m + 1 ≤ fuel →
      stepLoopR R pw p eps T err fuel x c ≠ .fuel := by
    intro m
    induction m with
    | zero =>
      intro x hx err c fuel hf
      obtain ⟨f, rfl⟩ : ∃ f, fuel = f + 1 := ⟨fuel - 1, by omega⟩
      rw [stepLoopR]
      rcases hU : updateR R pw p c x (err x) with ⟨b, cu⟩
      cases b with
      | true => simp
      | false =>
        have h1 := hrej c x _ cu hU
        have h2 : |cu.optimal| ≤ R.fl (|T| * eps) := by
          rw [pow_zero, mul_one] at hx
          have : |x| * w ≤ |x| * 1 := mul_le_mul_of_nonneg_left hq.le (abs_nonneg x)
          linarith
        simp only [h2, if_true]
        simp
    | succ m ih =>
      intro x hx err c fuel hf
      obtain ⟨f, rfl⟩ : ∃ f, fuel = f + 1 := ⟨fuel - 1, by omega⟩
      rw [stepLoopR]
      rcases hU : updateR R pw p c x (err x) with ⟨b, cu⟩
      cases b with
      | true => simp
      | false =>
        have h1 := hrej c x _ cu hU
        simp only
        split_ifs with hun
        · simp
        · apply ih cu.optimal _ err cu f (by omega)
          calc |cu.optimal| * w ^ m ≤ |x| * w * w ^ m := mul_le_mul_of_nonneg_right h1 (pow_nonneg hw0 m)
            _ = |x| * w ^ (m + 1) := by ring
            _ ≤ _ := hx
  exact fun err c fuel hf => key K h hK err c fuel hf

/-- The premises of `C37_rounded_rejections_end` for the default parameters in `double` precision, where `pow` of a
number above one is at most one. -/
example : (1 + 1 / 2 / 2 ^ 52) * (rndBits 52).fl (9 / 10) < 1 ∧ (rndBits 52).fl (1 / 10) ≤ (rndBits 52).fl (9 / 10) ∧
    (ParR.default (rndBits 52)).minscale ≤ (rndBits 52).fl (9 / 10) ∧
    (rndBits 52).fl ((ParR.default (rndBits 52)).safe * 1) ≤ (rndBits 52).fl (9 / 10) := by
  rw [rndQ_eq]; decide +kernel

/-- Trial steps that are rejected while longer than 1e-15 from time 1 on; all others have the error 1. -/
def shrinkTrial (T h : ℚ) (_ _ : ℕ → ℚ) : TrialR :=
  ⟨fun _ => 0, fun _ => 0, if T < 1 then .val 1 else if 1 / 10 ^ 15 < h then .nan else .val 1, fun _ => 0⟩

/-- The stored times at two places. -/
def timesAt (a b : ℕ) : StepResR → Option (ℚ × ℚ)
  | .ok s _ => some (s.time a, s.time b)
  | _ => none

/-- **C37, refuted** in `double` precision: steps are compared with the resolution only after a rejection, so that step
after step can shrink below it, be accepted, and leave the time as it is.  (`pow` is called with the base one or the
exponent zero only.) -/
theorem C37_refuted_rounded :
    timesAt 21 22 (rkRunR (rndBits 52) (fun _ _ => 1) (ParR.default (rndBits 52)) (1 / 2 ^ 52) shrinkTrial 30 22
      (HistR.init (fun _ => 0) (fun _ => 0)) (CtlR.init (rndBits 52))) = some (1 + 37 / 2 ^ 52, 1 + 37 / 2 ^ 52) := by
  rw [rndQ_eq]
  decide +kernel

end Softlib
