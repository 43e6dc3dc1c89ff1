/-
Property C38 with rounded arithmetic: dense output at stored times and between them.

Source: /repo/include/softlib/Integrator/RKDP45.tcc 55-120.
-/
import Verif.Integrator.StepRoundProps
import Verif.Integrator.TableauModel
import Mathlib.Tactic.Push
import Mathlib.Data.Rat.Cast.CharZero

namespace Softlib

open Softlib.General Softlib.Integrator

/-! ### the formula -/

/-- With exact arithmetic the coefficients and the formula are those of `Verif/Integrator/TableauModel.lean`. -/
theorem C38_rounded_exact (h y1 y2 dy1 dy2 k3 k4 k5 k6 s r5 : ℚ)
    (hr : (r5 : ℝ) = (prepareDense (V := ℝ) h y1 y2 dy1 dy2 k3 k4 k5 k6).r5) :
    ((denseEvalR exactRnd (prepareR exactRnd h y1 y2 dy1 dy2 r5) s : ℚ) : ℝ) =
      denseEval (V := ℝ) (prepareDense (V := ℝ) h y1 y2 dy1 dy2 k3 k4 k5 k6) s := by
  simp only [prepareDense] at hr
  simp only [denseEvalR, prepareR, exactRnd, denseEval, prepareDense, id, smul_eq_mul]
  push_cast
  rw [hr]
  simp only [smul_eq_mul]

/-- At the beginning of a step the formula gives the first coefficient. -/
theorem denseEvalR_zero {u : ℚ} (R : Rnd u) (c : RcR) (h : R.Is c.r1) : denseEvalR R c 0 = c.r1 := by
  unfold denseEvalR
  simp only [zero_mul, R.fl_zero, add_zero]
  exact h

/-- At the end of a step it gives the rounded sum of the first two. -/
theorem denseEvalR_one {u : ℚ} (R : Rnd u) (c : RcR) (h : R.Is c.r2) : denseEvalR R c 1 = R.fl (c.r1 + c.r2) := by
  unfold denseEvalR
  simp only [sub_self, R.fl_zero, zero_mul, add_zero, one_mul]
  rw [h, h]

/-- The fraction of the step stays between zero and one, and is exact at both ends. -/
theorem fraction_bounds {u : ℚ} (R : Rnd u) (hu : u < 1) (h1 : R.Is 1) {t0 t1 T : ℚ} (h01 : t0 < t1) (h0 : t0 ≤ T) (hT : T ≤ t1) :
    0 < R.fl (t1 - t0) ∧ 0 ≤ R.fl (R.fl (T - t0) / R.fl (t1 - t0)) ∧ R.fl (R.fl (T - t0) / R.fl (t1 - t0)) ≤ 1 ∧
      (T = t0 → R.fl (R.fl (T - t0) / R.fl (t1 - t0)) = 0) ∧ (T = t1 → R.fl (R.fl (T - t0) / R.fl (t1 - t0)) = 1) := by
  have hD : 0 < R.fl (t1 - t0) := R.fl_pos hu (by linarith)
  have hN : 0 ≤ R.fl (T - t0) := R.fl_nonneg (by linarith)
  refine ⟨hD, R.fl_nonneg (div_nonneg hN hD.le), ?_, ?_, ?_⟩
  · apply R.fl_le_of h1
    rw [div_le_one hD]
    exact R.mono _ _ (by linarith)
  · rintro rfl
    rw [sub_self, R.fl_zero, zero_div, R.fl_zero]
  · rintro rfl
    rw [div_self hD.ne']
    exact h1

/-! ### the search -/

theorem advanceR_spec (time : ℕ → ℚ) (n : ℕ) (T : ℚ) :
    ∀ (it : ℕ), it + 1 < n → it ≤ advanceR time T (n - 2 - it) it ∧ advanceR time T (n - 2 - it) it + 1 < n ∧
      (advanceR time T (n - 2 - it) it = it ∨ time (advanceR time T (n - 2 - it) it) < T) ∧
      (advanceR time T (n - 2 - it) it + 2 < n → T ≤ time (advanceR time T (n - 2 - it) it + 1)) := by
  intro it hit
  generalize hk : n - 2 - it = k
  induction k generalizing it with
  | zero => exact ⟨le_refl _, hit, Or.inl rfl, fun h => by simp only [advanceR] at h; omega⟩
  | succ k ih =>
    rw [advanceR]
    split_ifs with h
    · obtain ⟨a, b, c, d⟩ := ih (it + 1) (by omega) (by omega)
      refine ⟨by omega, b, Or.inr ?_, d⟩
      rcases c with c | c
      · rw [c]; exact h
      · exact c
    · exact ⟨le_refl _, hit, Or.inl rfl, fun _ => not_lt.1 h⟩

/-- Which step answers a request: the first that ends at or after it. -/
def Answers (s : HistR) (T : ℚ) (k : ℕ) : Prop :=
  k + 1 < s.n ∧ s.time k ≤ T ∧ T ≤ s.time (k + 1) ∧ ∀ i, i ≤ k → i ≠ 0 → s.time i < T

theorem outputDenseR_answers {u : ℚ} {R : Rnd u} (hu : u < 1) {s : HistR} {c : CtlR} (g : GoodHist R s c) (h2 : 2 ≤ s.n) :
    ∀ (Ts : List ℚ) (it : ℕ), it + 1 < s.n → Ts.Pairwise (· ≤ ·) → (∀ T ∈ Ts, it = 0 ∨ s.time it < T) →
      (∀ T ∈ Ts, 0 ≤ T ∧ T ≤ s.time (s.n - 1)) →
      ∃ outs, outputDenseR R s Ts it = .ok outs ∧ outs.length = Ts.length ∧
        ∀ (i : ℕ) (T : ℚ) (o : ℕ → ℚ), Ts[i]? = some T → outs[i]? = some o →
          ∃ k, Answers s T k ∧ s.time k < s.time (k + 1) ∧
            o = fun j => denseEvalR R (s.rc k j) (R.fl (R.fl (T - s.time k) / R.fl (s.time (k + 1) - s.time k))) := by
  intro Ts
  induction Ts with
  | nil =>
    intro it _ _ _ _
    exact ⟨[], rfl, rfl, fun i T o h => by simp at h⟩
  | cons T Ts ih =>
    intro it hit hs hlow hr
    obtain ⟨hs1, hs2⟩ := List.pairwise_cons.1 hs
    obtain ⟨a1, a2, a3, a4⟩ := advanceR_spec s.time s.n T it hit
    rw [outputDenseR, if_neg (by omega)]
    generalize advanceR s.time T (s.n - 2 - it) it = k at a1 a2 a3 a4
    have hT := hr T (List.mem_cons_self ..)
    have hk : k = 0 ∨ s.time k < T := by
      rcases a3 with rfl | h
      · exact hlow T (List.mem_cons_self ..)
      · exact Or.inr h
    have hup : T ≤ s.time (k + 1) := by
      by_cases hn : k + 2 < s.n
      · exact a4 hn
      · have : k + 1 = s.n - 1 := by omega
        rw [this]; exact hT.2
    have hlo : s.time k ≤ T := by
      rcases hk with rfl | h
      · rw [g.t0]; exact hT.1
      · exact h.le
    have hinc : s.time k < s.time (k + 1) := by
      rcases hk with rfl | h
      · rw [g.t0]; exact g.first h2
      · exact lt_of_lt_of_le h hup
    have hne : R.fl (s.time (k + 1) - s.time k) ≠ 0 := (R.fl_pos hu (by linarith)).ne'
    obtain ⟨outs, e, hl, ho⟩ := ih k a2 hs2
      (fun T' hT' => hk.imp id (fun h => lt_of_lt_of_le h (hs1 T' hT'))) (fun T' hT' => hr T' (List.mem_cons_of_mem _ hT'))
    simp only [if_neg (not_lt.2 hup), e, if_neg hne]
    refine ⟨_, rfl, by simp [hl], ?_⟩
    intro i T' o hi hoi
    cases i with
    | zero =>
      simp only [List.getElem?_cons_zero, Option.some.injEq] at hi hoi
      subst hi
      refine ⟨k, ⟨a2, hlo, hup, fun i hik hi0 => ?_⟩, hinc, hoi.symm⟩
      rcases hk with rfl | h
      · omega
      · exact lt_of_le_of_lt (g.le hik (by omega)) h
    | succ i =>
      simp only [List.getElem?_cons_succ] at hi hoi
      exact ho i T' o hi hoi

/-! ### C38 -/

/-- **C38, rounded**: after any run, sorted requests within the integrated interval are all answered by numbers, even if
some stored times are equal: the first step that ends at or after the request is used, it has a positive length, and
the fraction of it is rounded to a number between zero and one. -/
theorem C38_rounded {u : ℚ} (R : Rnd u) (hu : u < 1) (h1 : R.Is 1) (pw : ℚ → ℚ → ℚ) (p : ParR) (hp : 0 < p.minscale)
    (hpm : p.minscale ≤ p.maxscale) (eps : ℚ) (trial : ℚ → ℚ → (ℕ → ℚ) → (ℕ → ℚ) → TrialR)
    (htr : ∀ T h y dy j, R.Is ((trial T h y dy).yout j)) (fuel n : ℕ) (hn : 1 ≤ n) (y0 dy0 : ℕ → ℚ) (hy : ∀ j, R.Is (y0 j))
    (c0 : CtlR) (hc0 : 0 < c0.optimal) (s : HistR) (c : CtlR)
    (h : rkRunR R pw p eps trial fuel n (HistR.init y0 dy0) c0 = .ok s c)
    (Ts : List ℚ) (hs : Ts.Pairwise (· ≤ ·)) (hr : ∀ T ∈ Ts, 0 ≤ T ∧ T ≤ s.time (s.n - 1)) :
    ∃ outs, outputDenseR R s Ts 0 = .ok outs ∧ outs.length = Ts.length ∧
      ∀ (i : ℕ) (T : ℚ) (o : ℕ → ℚ), Ts[i]? = some T → outs[i]? = some o →
        ∃ k x, Answers s T k ∧ s.time k < s.time (k + 1) ∧ 0 ≤ x ∧ x ≤ 1 ∧
          x = R.fl (R.fl (T - s.time k) / R.fl (s.time (k + 1) - s.time k)) ∧ ∀ j, o j = denseEvalR R (s.rc k j) x := by
  obtain ⟨g, hn'⟩ := GoodHist.run hu pw p hp hpm eps trial htr fuel n _ c0 s c (GoodHist.init R y0 dy0 hy c0 hc0) h
  have h2 : 2 ≤ s.n := by rw [hn']; simp only [HistR.init]; omega
  obtain ⟨outs, e, hl, ho⟩ := outputDenseR_answers hu g h2 Ts 0 (by omega) hs (fun _ _ => Or.inl rfl) hr
  refine ⟨outs, e, hl, fun i T o hi hoi => ?_⟩
  obtain ⟨k, ha, hinc, hv⟩ := ho i T o hi hoi
  obtain ⟨-, f0, f1, -, -⟩ := fraction_bounds R hu h1 hinc ha.2.1 ha.2.2.1
  exact ⟨k, _, ha, hinc, f0, f1, rfl, fun j => by rw [hv]⟩

/-- **C38, rounded**: the answer at a stored time is the stored initial value at time zero, and otherwise the rounded sum of
the solution before and the rounded difference, at the first of the points stored for this time. -/
theorem C38_rounded_stored {u : ℚ} (R : Rnd u) (hu : u < 1) (h1 : R.Is 1) (pw : ℚ → ℚ → ℚ) (p : ParR) (hp : 0 < p.minscale)
    (hpm : p.minscale ≤ p.maxscale) (eps : ℚ) (trial : ℚ → ℚ → (ℕ → ℚ) → (ℕ → ℚ) → TrialR)
    (htr : ∀ T h y dy j, R.Is ((trial T h y dy).yout j)) (fuel n : ℕ) (hn : 1 ≤ n) (y0 dy0 : ℕ → ℚ) (hy : ∀ j, R.Is (y0 j))
    (c0 : CtlR) (hc0 : 0 < c0.optimal) (s : HistR) (c : CtlR)
    (h : rkRunR R pw p eps trial fuel n (HistR.init y0 dy0) c0 = .ok s c)
    (Ts : List ℚ) (hs : Ts.Pairwise (· ≤ ·)) (hr : ∀ T ∈ Ts, 0 ≤ T ∧ T ≤ s.time (s.n - 1)) :
    ∃ outs, outputDenseR R s Ts 0 = .ok outs ∧
      ∀ (i m : ℕ) (o : ℕ → ℚ), m < s.n → Ts[i]? = some (s.time m) → outs[i]? = some o →
        (m = 0 → ∀ j, o j = y0 j) ∧
        (m ≠ 0 → s.time (m - 1) < s.time m → ∀ j, o j = R.fl (s.y (m - 1) j + R.fl (s.y m j - s.y (m - 1) j))) := by
  obtain ⟨g, hn'⟩ := GoodHist.run hu pw p hp hpm eps trial htr fuel n _ c0 s c (GoodHist.init R y0 dy0 hy c0 hc0) h
  have h2 : 2 ≤ s.n := by rw [hn']; simp only [HistR.init]; omega
  have hy0 : s.y 0 = y0 := by
    have : ∀ (k : ℕ) (s : HistR) (c : CtlR) (s' : HistR) (c' : CtlR), 1 ≤ s.n →
        rkRunR R pw p eps trial fuel k s c = .ok s' c' → s'.y 0 = s.y 0 := by
      intro k
      induction k with
      | zero =>
        intro s c s' c' _ e
        simp only [rkRunR, StepResR.ok.injEq] at e
        rw [e.1]
      | succ k ih =>
        intro s c s' c' h1 e
        rw [rkRunR] at e
        unfold rkStepR at e
        simp only at e
        split at e
        · rename_i s1 c1 hs1
          split at hs1
          · cases hs1
          · cases hs1
          · simp only [StepResR.ok.injEq] at hs1
            obtain ⟨rfl, rfl⟩ := hs1
            rw [ih _ _ _ _ (by simp only [storeR]; omega) e]
            simp only [storeR]
            rw [if_neg (by omega)]
        · rename_i hne
          exact absurd e (hne _ _)
    exact this n _ c0 s c (le_refl 1) h
  obtain ⟨outs, e, -, ho⟩ := outputDenseR_answers hu g h2 Ts 0 (by omega) hs (fun _ _ => Or.inl rfl) hr
  refine ⟨outs, e, fun i m o hm hi hoi => ?_⟩
  obtain ⟨k, ⟨hk1, hk2, hk3, hk4⟩, hinc, hv⟩ := ho i _ o hi hoi
  obtain ⟨-, -, -, f0, f1⟩ := fraction_bounds R hu h1 hinc hk2 hk3
  constructor
  · rintro rfl j
    have hk0 : k = 0 := by
      by_contra hc
      have := hk4 k (le_refl _) hc
      have := g.le (Nat.zero_le k) (by omega)
      linarith
    subst hk0
    have hr1 := g.r1 0 j hk1
    rw [hv]
    simp only
    rw [f0 rfl, denseEvalR_zero R _ (by rw [hr1]; exact g.isY 0 j (by omega)), hr1, hy0]
  · intro hm0 hlt j
    have hkm : k = m - 1 := by
      rcases lt_trichotomy k (m - 1) with hc | hc | hc
      · have := g.le (show k + 1 ≤ m - 1 by omega) (by omega)
        linarith
      · exact hc
      · have := hk4 m (by omega) hm0
        exact absurd this (lt_irrefl _)
    have hm1 : k + 1 = m := by omega
    subst hkm
    rw [hv]
    simp only
    rw [f1 (by rw [hm1])]
    have hr2 := g.r2 (m - 1) j hk1
    rw [denseEvalR_one R _ (by rw [hr2]; exact R.idem _), hr2, g.r1 (m - 1) j hk1, hm1]

/-- **C38, rounded**: how far that is from the stored solution `b`, if `a` was the solution before. -/
theorem C38_rounded_error {u : ℚ} (R : Rnd u) (a b : ℚ) :
    |R.fl (a + R.fl (b - a)) - b| ≤ u * |b| + u * (1 + u) * |b - a| := by
  have hu0 := R.u_nonneg
  have h1 := R.rel (b - a)
  have h2 := R.rel (a + R.fl (b - a))
  have e1 : a + R.fl (b - a) = b + (R.fl (b - a) - (b - a)) := by ring
  have h3 : |a + R.fl (b - a)| ≤ |b| + u * |b - a| := by
    rw [e1]
    exact le_trans (abs_add_le _ _) (by linarith)
  have h4 : R.fl (a + R.fl (b - a)) - b = (R.fl (a + R.fl (b - a)) - (a + R.fl (b - a))) + (R.fl (b - a) - (b - a)) := by ring
  rw [h4]
  have h5 := mul_le_mul_of_nonneg_left h3 hu0
  calc _ ≤ _ := abs_add_le _ _
    _ ≤ u * (|b| + u * |b - a|) + u * |b - a| := by linarith
    _ = _ := by ring

/-- The difference of two numbers of the format within a factor of two of each other is a number of the format. -/
theorem isBits_sub (p : ℕ) (a b : ℚ) (ha : (rndBits p).Is a) (hb : (rndBits p).Is b) (ha0 : 0 < a) (hab : a ≤ b)
    (hba : b ≤ 2 * a) : (rndBits p).Is (b - a) := by
  have hb0 : 0 < b := lt_of_lt_of_le ha0 hab
  have hle : lastExp p a ≤ lastExp p b := by
    unfold lastExp
    rw [abs_of_pos ha0, abs_of_pos hb0]
    have := Int.log_mono_right (b := 2) ha0 hab
    omega
  have ha' : a = (rne (a / 2 ^ lastExp p a) : ℚ) * 2 ^ lastExp p a := ha.symm
  have hb' : b = (rne (b / 2 ^ lastExp p b) : ℚ) * 2 ^ lastExp p b := hb.symm
  have hlt : a < 2 ^ (p + 1) * 2 ^ lastExp p a := by
    have h1 := Int.lt_zpow_succ_log_self (b := 2) (by norm_num) a
    have e1 : ((2 : ℕ) : ℚ) ^ (Int.log 2 a + 1) = 2 ^ (p + 1) * 2 ^ lastExp p a := by
      unfold lastExp
      rw [abs_of_pos ha0, ← zpow_natCast, ← zpow_add₀ (by norm_num)]
      congr 1
      push_cast
      ring
    rwa [e1] at h1
  generalize rne (a / 2 ^ lastExp p a) = m at ha'
  generalize rne (b / 2 ^ lastExp p b) = n at hb'
  generalize lastExp p a = e at *
  generalize lastExp p b = f at *
  obtain ⟨d, rfl⟩ : ∃ d : ℕ, f = e + d := ⟨(f - e).toNat, by omega⟩
  have hpos := two_zpow_pos e
  have hM : b - a = ((n * 2 ^ d - m : ℤ) : ℚ) * 2 ^ e := by
    rw [hb', ha', zpow_add₀ (by norm_num)]
    push_cast
    rw [zpow_natCast]
    ring
  unfold Rnd.Is
  rw [hM]
  apply flBits_exact
  have h0 : (0 : ℚ) ≤ ((n * 2 ^ d - m : ℤ) : ℚ) := by
    by_contra hc
    have := mul_neg_of_neg_of_pos (not_le.1 hc) hpos
    rw [← hM] at this
    linarith
  rw [abs_of_nonneg (by exact_mod_cast h0)]
  have h1 : ((n * 2 ^ d - m : ℤ) : ℚ) * 2 ^ e < 2 ^ (p + 1) * 2 ^ e := by rw [← hM]; linarith
  have h2 := lt_of_mul_lt_mul_right h1 hpos.le
  exact_mod_cast h2.le

/-- **C38, rounded**: no error at all in binary arithmetic when the solution keeps its sign and changes by at most a
factor of two during the step. -/
theorem C38_rounded_same (p : ℕ) (a b : ℚ) (ha : (rndBits p).Is a) (hb : (rndBits p).Is b)
    (hab : 0 < a * b) (h1 : |a| ≤ 2 * |b|) (h2 : |b| ≤ 2 * |a|) :
    (rndBits p).fl (a + (rndBits p).fl (b - a)) = b := by
  have hneg : ∀ x, (rndBits p).Is x → (rndBits p).Is (-x) := by
    intro x hx
    have := flBits_neg p x
    unfold Rnd.Is at hx ⊢
    simp only [rndBits] at hx ⊢
    rw [this, hx]
  have key : (rndBits p).Is (b - a) := by
    rcases pos_and_pos_or_neg_and_neg_of_mul_pos hab with ⟨pa, pb⟩ | ⟨na, nb⟩
    · rw [abs_of_pos pa, abs_of_pos pb] at h1 h2
      rcases le_total a b with h | h
      · exact isBits_sub p a b ha hb pa h h2
      · have := hneg _ (isBits_sub p b a hb ha pb h h1)
        rwa [neg_sub] at this
    · rw [abs_of_neg na, abs_of_neg nb] at h1 h2
      rcases le_total a b with h | h
      · have := isBits_sub p (-b) (-a) (hneg _ hb) (hneg _ ha) (by linarith) (by linarith) (by linarith)
        rwa [show -a - -b = b - a by ring] at this
      · have := hneg _ (isBits_sub p (-a) (-b) (hneg _ ha) (hneg _ hb) (by linarith) (by linarith) (by linarith))
        rwa [show -(-b - -a) = b - a by ring] at this
  rw [key, add_sub_cancel]
  exact hb

/-- The premises of `C38_rounded_same`: a step from 1 to 3/2. -/
example : (rndBits 52).Is 1 ∧ (rndBits 52).Is (3 / 2) ∧ (0 : ℚ) < 1 * (3 / 2) ∧ |(1 : ℚ)| ≤ 2 * |3 / 2| ∧ |(3 / 2 : ℚ)| ≤ 2 * |1| := by
  unfold Rnd.Is; rw [rndQ_eq]; decide +kernel

/-- One component, one step: from `a` to `b`, both with the derivative zero. -/
def oneStep (a b : ℚ) (R : Rnd (1 / 2 / 2 ^ 52)) : StepResR :=
  rkRunR R (fun _ _ => 1) (ParR.default R) (1 / 2 ^ 52)
    (fun _ _ _ _ => ⟨fun _ => b, fun _ => 0, .val 0, fun _ => 0⟩) 1 1 (HistR.init (fun _ => a) (fun _ => 0)) (CtlR.init R)

/-- The answer of dense output at the last stored time, with the stored solution. -/
def atEnd (R : Rnd (1 / 2 / 2 ^ 52)) : StepResR → Option (ℚ × ℚ)
  | .ok s _ =>
    match outputDenseR R s [s.time (s.n - 1)] 0 with
    | .ok [o] => some (o 0, s.y (s.n - 1) 0)
    | _ => none
  | _ => none

/-- **C38, refuted** in `double` precision: the answer at a stored time differs from the stored solution.  After a step from
1 to 0.1 it is smaller by two units in the last place; after one from 1 to 2⁻⁶⁰ it is zero. -/
theorem C38_refuted_rounded :
    atEnd (rndBits 52) (oneStep 1 (3602879701896397 / 2 ^ 55) (rndBits 52)) =
        some (3602879701896396 / 2 ^ 55, 3602879701896397 / 2 ^ 55) ∧
      3602879701896397 / 2 ^ 55 = (rndBits 52).fl (1 / 10) ∧
      atEnd (rndBits 52) (oneStep 1 (1 / 2 ^ 60) (rndBits 52)) = some (0, 1 / 2 ^ 60) := by
  rw [rndQ_eq]
  decide +kernel

/-- The premises of `C38_rounded` and `C38_rounded_stored`: such runs exist, as the one above. -/
example : (rndBits 52).Is 1 ∧ (rndBits 52).Is (1 / 2 ^ 60) ∧ 0 < (CtlR.init (rndBits 52)).optimal ∧
    (atEnd (rndBits 52) (oneStep 1 (1 / 2 ^ 60) (rndBits 52))).isSome = true := by
  unfold Rnd.Is; rw [rndQ_eq]; decide +kernel

end Softlib
