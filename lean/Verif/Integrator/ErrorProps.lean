/-
Properties C90 and C91: the error estimate and whole integrations.
-/
import Verif.Integrator.ErrorModel
import Verif.Integrator.StoreProps
import Verif.Integrator.TableauProps
import Mathlib.Algebra.BigOperators.Intervals
import Mathlib.Tactic.Linarith
import Mathlib.Tactic.Positivity
import Mathlib.Tactic.FieldSimp

namespace Softlib

open Softlib.Integrator

noncomputable section

/-! ### C90: the estimate -/

/-- The tolerance of a component going from `a` to `b`. -/
def tolOf (atol rtol a b : ℝ) : ℝ := atol + rtol * max |a| |b|

theorem errSum_val (t : Nat → Err) (g : Nat → ℝ) : ∀ N, (∀ i, i < N → t i = .val (g i)) →
    errSum N t = .val (∑ i ∈ Finset.range N, g i) := by
  intro N
  induction N with
  | zero => intro _; simp [errSum]
  | succ n ih =>
    intro h
    rw [errSum, ih (fun i hi => h i (by omega)), h n (by omega), Finset.sum_range_succ]
    rfl

theorem errAdd_val {a b : Err} {v : ℝ} (h : errAdd a b = .val v) :
    ∃ x y, a = .val x ∧ b = .val y ∧ v = x + y := by
  cases a <;> cases b <;> simp [errAdd] at h
  exact ⟨_, _, rfl, rfl, h.symm⟩

theorem errSum_val_inv (t : Nat → Err) : ∀ N v, errSum N t = .val v → ∀ i, i < N → ∃ g, t i = .val g := by
  intro N
  induction N with
  | zero => intro v _ i hi; omega
  | succ n ih =>
    intro v h i hi
    obtain ⟨x, y, h1, h2, -⟩ := errAdd_val h
    rcases Nat.lt_or_ge i n with hlt | hge
    · exact ih x h1 i hlt
    · have : i = n := by omega
      subst this
      exact ⟨y, h2⟩

/-- C90: the estimate is the root mean square of the component errors relative to their
tolerances. -/
theorem C90_estimate (N : Nat) (hN : 0 < N) (atol rtol : ℝ) (yerr y1 y2 : Nat → ℝ)
    (hsk : ∀ i, i < N → tolOf atol rtol (y1 i) (y2 i) ≠ 0) :
    estimateError N atol rtol yerr y1 y2 =
      .val (Real.sqrt ((∑ i ∈ Finset.range N, (yerr i / tolOf atol rtol (y1 i) (y2 i)) ^ 2) / N)) := by
  have h := errSum_val (fun i => errTerm atol rtol (yerr i) (y1 i) (y2 i))
    (fun i => (yerr i / tolOf atol rtol (y1 i) (y2 i)) ^ 2) N (by
      intro i hi
      have := hsk i hi
      unfold tolOf at this
      simp only [errTerm, if_neg this, tolOf, sq])
  unfold estimateError
  rw [h]
  simp only
  rw [if_neg (by omega)]

/-- C90: it is a number exactly when no component has zero tolerance. -/
theorem C90_number_iff (N : Nat) (hN : 0 < N) (atol rtol : ℝ) (yerr y1 y2 : Nat → ℝ) :
    (∃ e, estimateError N atol rtol yerr y1 y2 = .val e) ↔
      ∀ i, i < N → tolOf atol rtol (y1 i) (y2 i) ≠ 0 := by
  constructor
  · rintro ⟨e, he⟩ i hi h0
    unfold estimateError at he
    split at he
    · cases he
    · cases he
    · rename_i s hs
      obtain ⟨g, hg⟩ := errSum_val_inv _ N s hs i hi
      unfold tolOf at h0
      simp only [errTerm, if_pos h0] at hg
      split at hg <;> cases hg
  · intro h
    exact ⟨_, C90_estimate N hN atol rtol yerr y1 y2 h⟩

theorem errSum_nan_iff (t : Nat → Err) : ∀ N, errSum N t = .nan ↔ ∃ i, i < N ∧ t i = .nan := by
  intro N
  induction N with
  | zero => simp [errSum]
  | succ n ih =>
    rw [errSum]
    constructor
    · intro h
      by_cases h1 : errSum n t = .nan
      · obtain ⟨i, hi, h2⟩ := ih.1 h1
        exact ⟨i, by omega, h2⟩
      · by_cases h2 : t n = .nan
        · exact ⟨n, by omega, h2⟩
        · exfalso
          cases h3 : errSum n t <;> cases h4 : t n <;> simp_all [errAdd]
    · rintro ⟨i, hi, h2⟩
      rcases Nat.lt_succ_iff_lt_or_eq.1 hi with h | h
      · rw [ih.2 ⟨i, h, h2⟩]; rfl
      · subst h
        rw [h2]
        cases errSum i t <;> rfl

/-- **C90** When the estimate is not a number: a component has no tolerance and no error (zero divided by zero), or there are no components. -/
theorem C90_nan_iff (N : Nat) (atol rtol : ℝ) (yerr y1 y2 : Nat → ℝ) :
    estimateError N atol rtol yerr y1 y2 = .nan ↔ N = 0 ∨ ∃ i, i < N ∧ tolOf atol rtol (y1 i) (y2 i) = 0 ∧ yerr i = 0 := by
  have key : ∀ i, errTerm atol rtol (yerr i) (y1 i) (y2 i) = .nan ↔ tolOf atol rtol (y1 i) (y2 i) = 0 ∧ yerr i = 0 := by
    intro i
    unfold errTerm tolOf
    simp only
    split_ifs with h1 h2 <;> simp [h1] <;> assumption
  have h := errSum_nan_iff (fun i => errTerm atol rtol (yerr i) (y1 i) (y2 i)) N
  simp only [key] at h
  unfold estimateError
  by_cases h0 : N = 0
  · subst h0
    simp [errSum]
  · rw [← h]
    cases h3 : errSum N (fun i => errTerm atol rtol (yerr i) (y1 i) (y2 i)) <;> simp [h0]

/-- **C90** When the estimate is infinite. -/
theorem C90_infinite_iff (N : Nat) (atol rtol : ℝ) (yerr y1 y2 : Nat → ℝ) :
    estimateError N atol rtol yerr y1 y2 = .inf ↔
      (∃ i, i < N ∧ tolOf atol rtol (y1 i) (y2 i) = 0) ∧ ∀ i, i < N → tolOf atol rtol (y1 i) (y2 i) = 0 → yerr i ≠ 0 := by
  have h1 := C90_nan_iff N atol rtol yerr y1 y2
  rcases Nat.eq_zero_or_pos N with h0 | h0
  · rw [h1.2 (Or.inl h0)]
    subst h0
    simp
  · have h2 := C90_number_iff N h0 atol rtol yerr y1 y2
    cases h3 : estimateError N atol rtol yerr y1 y2 with
    | nan =>
      rw [h3] at h1
      rcases h1.1 rfl with h4 | ⟨i, h4, h5, h6⟩
      · omega
      · simp only [reduceCtorEq, false_iff, not_and]
        intro _ h7
        exact h7 i h4 h5 h6
    | val v =>
      have h4 := h2.1 ⟨v, h3⟩
      simp only [reduceCtorEq, false_iff, not_and]
      rintro ⟨i, h5, h6⟩
      exact absurd h6 (h4 i h5)
    | inf =>
      simp only [true_iff]
      constructor
      · by_contra h4
        push Not at h4
        obtain ⟨e, he⟩ := h2.2 h4
        rw [h3] at he
        cases he
      · intro i h5 h6 h7
        have := h1.2 (Or.inr ⟨i, h5, h6, h7⟩)
        rw [h3] at this
        cases this

/-- C90: a number at most one is exactly a root mean square at most one. -/
theorem C90_within_iff (N : Nat) (hN : 0 < N) (atol rtol : ℝ) (yerr y1 y2 : Nat → ℝ) :
    (∃ e, estimateError N atol rtol yerr y1 y2 = .val e ∧ e ≤ 1) ↔
      (∀ i, i < N → tolOf atol rtol (y1 i) (y2 i) ≠ 0) ∧
      ∑ i ∈ Finset.range N, (yerr i / tolOf atol rtol (y1 i) (y2 i)) ^ 2 ≤ N := by
  have hNr : (0 : ℝ) < N := by exact_mod_cast hN
  have key : ∀ S : ℝ, Real.sqrt (S / N) ≤ 1 ↔ S ≤ N := by
    intro S
    rw [Real.sqrt_le_one, div_le_one hNr]
  constructor
  · rintro ⟨e, he, h1⟩
    have hne := (C90_number_iff N hN atol rtol yerr y1 y2).1 ⟨e, he⟩
    rw [C90_estimate N hN atol rtol yerr y1 y2 hne] at he
    cases he
    exact ⟨hne, (key _).1 h1⟩
  · rintro ⟨hne, hS⟩
    exact ⟨_, C90_estimate N hN atol rtol yerr y1 y2 hne, (key _).2 hS⟩

/-- C90: the estimate is zero exactly when every component error is. -/
theorem C90_zero_iff (N : Nat) (hN : 0 < N) (atol rtol : ℝ) (yerr y1 y2 : Nat → ℝ)
    (hsk : ∀ i, i < N → tolOf atol rtol (y1 i) (y2 i) ≠ 0) :
    estimateError N atol rtol yerr y1 y2 = .val 0 ↔ ∀ i, i < N → yerr i = 0 := by
  have hNr : (0 : ℝ) < N := by exact_mod_cast hN
  rw [C90_estimate N hN atol rtol yerr y1 y2 hsk]
  simp only [Err.val.injEq]
  rw [Real.sqrt_eq_zero (div_nonneg (Finset.sum_nonneg fun i _ => sq_nonneg _) hNr.le), div_eq_zero_iff,
    or_iff_left hNr.ne', Finset.sum_eq_zero_iff_of_nonneg (fun i _ => sq_nonneg _)]
  constructor
  · intro h i hi
    have := h i (Finset.mem_range.2 hi)
    rw [sq_eq_zero_iff, div_eq_zero_iff] at this
    exact this.resolve_right (hsk i hi)
  · intro h i hi
    rw [h i (Finset.mem_range.1 hi)]
    simp

/-- Two components, one exact, one off by its tolerance. -/
example : estimateError 2 1 0 (fun i => if i = 0 then 1 else 0) (fun _ => 5) (fun _ => 6) = .val (Real.sqrt (1 / 2)) := by
  rw [C90_estimate 2 (by omega) 1 0 _ _ _ (by intro i _; simp [tolOf])]
  simp [Finset.sum_range_succ, tolOf]

/-! ### C90: accepted steps -/

theorem vecOf_arrOf {N : Nat} (v : Fin N → ℝ) : vecOf N (arrOf v) = v := by
  funext i
  simp [vecOf, arrOf]

theorem stepLoop_accepted (fl : ℝ → ℝ) (p : Par) (eps T : ℝ) (err : ℝ → Err) (fuel : Nat) (h0 : ℝ) (c : Ctl)
    (h : ℝ) (c' : Ctl) (hl : stepLoop fl p eps T err fuel h0 c = .accepted h c') :
    ∃ e, err h = .val e ∧ e ≤ 1 := by
  revert h0 c
  induction fuel with
  | zero => intro h0 c hl; simp [stepLoop] at hl
  | succ k ih =>
    intro h0 c hl
    rw [stepLoop] at hl
    split at hl
    · rename_i c1 hu
      cases hl
      have := (C36_accepted_iff fl p c h (err h)).1 (by rw [hu])
      exact this
    · split at hl
      · cases hl
      · exact ih _ _ hl

theorem first_accepted (fl : ℝ → ℝ) (p : Par) (eps T : ℝ) (err : ℝ → Err) (fuel : Nat) (h : ℝ) (c : Ctl)
    (hw : ∃ e, err h = .val e ∧ e ≤ 1) :
    ∃ c', stepLoop fl p eps T err (fuel + 1) h c = .accepted h c' := by
  have hu := (C36_accepted_iff fl p c h (err h)).2 hw
  rw [stepLoop]
  split
  · exact ⟨_, rfl⟩
  · rename_i hf
    rw [hf] at hu
    cases hu

/-- A successful step, whatever the parameters, the rounding of the step length and the dense
output switch: what is stored is the accepted trial. -/
theorem rkStep_points (N : Nat) (junk : Nat → ℝ) (fl : ℝ → ℝ) (p : Par) (eps : ℝ) (dense : Bool)
    (trial : ℝ → ℝ → (Nat → ℝ) → (Nat → ℝ) → Trial) (fuel : Nat) (s s' : Store) (c c' : Ctl) (t : ℝ)
    (hle : s.n ≤ s.alloc) (hw : s.n + 1000 < W) (hw2 : (s.n + 1) * N ≤ W)
    (h : rkStep N junk fl p eps dense trial fuel s c = .ok t s' c') :
    1 ≤ s.n ∧ s'.n = s.n + 1 ∧ s'.n ≤ s'.alloc ∧ s'.time s.n = t ∧
    (∀ k, k < s.n → s'.time k = s.time k) ∧
    (∀ k j, k < s.n → j < N → s'.sol (k * N + j) = s.sol (k * N + j) ∧ s'.der (k * N + j) = s.der (k * N + j)) ∧
    let q := trial (s.time (s.n - 1)) (t - s.time (s.n - 1)) (solutionAt N s (s.n - 1)) (derivativeAt N s (s.n - 1))
    (∃ e, q.err = .val e ∧ e ≤ 1) ∧
    ∀ j, j < N → s'.sol (s.n * N + j) = q.yout j ∧ s'.der (s.n * N + j) = q.dydxout j := by
  unfold rkStep at h
  split at h
  · cases h
  rename_i h0
  simp only at h
  split at h
  · cases h
  · cases h
  · rename_i hh c1 hl
    have hacc := stepLoop_accepted _ _ _ _ _ _ _ _ _ _ hl
    generalize hq : trial (timeAt s (s.n - 1)) hh (solutionAt N s (s.n - 1)) (derivativeAt N s (s.n - 1)) = q at h
    simp only [hq] at hacc
    obtain ⟨s1, hs1, p1, p2, p3, pr, prc, p5, p6, p7, p8⟩ :=
      store_one N junk s hle hw hw2 (timeAt s (s.n - 1) + hh) q.yout q.dydxout
    rw [hs1] at h
    simp only at h
    obtain ⟨e1, e2, e3, e4, e5, ht⟩ : s'.n = s1.n ∧ s'.alloc = s1.alloc ∧ s'.time = s1.time ∧ s'.sol = s1.sol ∧
        s'.der = s1.der ∧ t = timeAt s (s.n - 1) + hh := by
      split at h
      · split at h
        · cases h
        · rename_i s2 hs2
          cases h
          unfold storeDense at hs2
          simp only at hs2
          split at hs2 <;> split at hs2 <;> cases hs2 <;> exact ⟨rfl, rfl, rfl, rfl, rfl, rfl⟩
      · cases h
        exact ⟨rfl, rfl, rfl, rfl, rfl, rfl⟩
    have hth : t - s.time (s.n - 1) = hh := by rw [ht]; simp only [timeAt]; ring
    have hq' : trial (s.time (s.n - 1)) (t - s.time (s.n - 1)) (solutionAt N s (s.n - 1)) (derivativeAt N s (s.n - 1)) = q := by
      rw [hth]; exact hq
    refine ⟨by omega, by omega, by omega, ?_, ?_, ?_, ?_⟩
    · rw [e3, p5, ht]
    · intro k hk; rw [e3, p7 k hk]
    · intro k j hk hj; rw [e4, e5]; exact p8 k j hk hj
    · intro q2
      have : q2 = q := hq'
      rw [this]
      refine ⟨hacc, ?_⟩
      intro j hj
      rw [e4, e5]
      exact p6 j hj

/-- An integration of `f` from `y0` by an integrator with these tolerances: an initial value,
then successful steps.  Parameters, control state, dense output switch, arithmetic of the step
length and contents of fresh memory are arbitrary, and may change between the steps. -/
inductive DPRun {N : Nat} (f : ℝ → (Fin N → ℝ) → (Fin N → ℝ)) (atol rtol : ℝ) (y0 : Fin N → ℝ) : Store → Prop where
  | init (junk : Nat → ℝ) (s s' : Store) (hN : N ≤ W)
      (h : initialValue N junk s (arrOf y0) (arrOf (f 0 y0)) = some s') : DPRun f atol rtol y0 s'
  | step (junk : Nat → ℝ) (fl : ℝ → ℝ) (p : Par) (eps : ℝ) (dense : Bool) (fuel : Nat) (s s' : Store) (c c' : Ctl)
      (t : ℝ) (hr : DPRun f atol rtol y0 s) (hw : s.n + 1000 < W) (hw2 : (s.n + 1) * N ≤ W)
      (h : rkStep N junk fl p eps dense (rkdpTrial f atol rtol) fuel s c = .ok t s' c') : DPRun f atol rtol y0 s'

/-- The stored points, as the accessors return them. -/
def ptT (s : Store) (k : Nat) : ℝ := timeAt s k
def ptY (N : Nat) (s : Store) (k : Nat) : Fin N → ℝ := vecOf N (solutionAt N s k)
def ptD (N : Nat) (s : Store) (k : Nat) : Fin N → ℝ := vecOf N (derivativeAt N s k)

structure DPInv {N : Nat} (f : ℝ → (Fin N → ℝ) → (Fin N → ℝ)) (atol rtol : ℝ) (y0 : Fin N → ℝ) (s : Store) : Prop where
  pos : 1 ≤ s.n
  le : s.n ≤ s.alloc
  small : s.n * N ≤ W
  t0 : ptT s 0 = 0
  y0 : ptY N s 0 = y0
  der : ∀ k, k < s.n → ptD N s k = f (ptT s k) (ptY N s k)
  stp : ∀ k, k + 1 < s.n →
    ptY N s (k + 1) = (innerStep f (ptT s k) (ptT s (k + 1) - ptT s k) (ptY N s k) (ptD N s k)).yout ∧
    ∃ e, estimateError N atol rtol
      (arrOf (innerStep f (ptT s k) (ptT s (k + 1) - ptT s k) (ptY N s k) (ptD N s k)).yerr)
      (arrOf (ptY N s k)) (arrOf (ptY N s (k + 1))) = .val e ∧ e ≤ 1

theorem errSum_congr {t u : Nat → Err} : ∀ N, (∀ i, i < N → t i = u i) → errSum N t = errSum N u := by
  intro N
  induction N with
  | zero => intro _; rfl
  | succ n ih =>
    intro h
    rw [errSum, errSum, ih (fun i hi => h i (by omega)), h n (by omega)]

theorem estimateError_congr {N : Nat} {atol rtol : ℝ} {e e' a a' b b' : Nat → ℝ}
    (h1 : ∀ i, i < N → e i = e' i) (h2 : ∀ i, i < N → a i = a' i) (h3 : ∀ i, i < N → b i = b' i) :
    estimateError N atol rtol e a b = estimateError N atol rtol e' a' b' := by
  unfold estimateError
  rw [errSum_congr N (fun i hi => by rw [h1 i hi, h2 i hi, h3 i hi])]

theorem pt_idx {N n k : Nat} (hk : k < n) (hsm : n * N ≤ W) (hN : 0 < N) : (k * N) % W = k * N := by
  apply Nat.mod_eq_of_lt
  have : k * N < n * N := Nat.mul_lt_mul_of_pos_right hk hN
  omega

theorem ptY_apply {N : Nat} {s : Store} {k : Nat} (hk : k < s.n) (hsm : s.n * N ≤ W) (i : Fin N) :
    ptY N s k i = s.sol (k * N + i) := by
  have hN : 0 < N := lt_of_le_of_lt (Nat.zero_le _) i.2
  simp only [ptY, vecOf, solutionAt, pt_idx hk hsm hN]

theorem ptD_apply {N : Nat} {s : Store} {k : Nat} (hk : k < s.n) (hsm : s.n * N ≤ W) (i : Fin N) :
    ptD N s k i = s.der (k * N + i) := by
  have hN : 0 < N := lt_of_le_of_lt (Nat.zero_le _) i.2
  simp only [ptD, vecOf, derivativeAt, pt_idx hk hsm hN]

theorem DPRun.inv {N : Nat} {f : ℝ → (Fin N → ℝ) → (Fin N → ℝ)} {atol rtol : ℝ} {y0 : Fin N → ℝ} {s : Store}
    (h : DPRun f atol rtol y0 s) : DPInv f atol rtol y0 s := by
  induction h with
  | init junk s s' hN h =>
    obtain ⟨s1, hs1, p1, p2, p3, pr, prc, p5, p6, p7, p8⟩ :=
      store_one N junk ⟨s.alloc, 0, s.time, s.sol, s.der, s.ralloc, s.rc⟩ (Nat.zero_le _) (by show 0 + 1000 < W; decide)
        (by show (0 + 1) * N ≤ W; omega) 0 (arrOf y0) (arrOf (f 0 y0))
    unfold initialValue at h
    rw [hs1, Option.some.injEq] at h
    subst h
    have hn : s1.n = 1 := p1
    have hsm : s1.n * N ≤ W := by rw [hn]; omega
    have hy : ptY N s1 0 = y0 := by
      funext i
      rw [ptY_apply (by omega) hsm]
      have := (p6 i i.2).1
      simp only [arrOf, i.2, dite_true] at this
      exact this
    have hd : ptD N s1 0 = f 0 y0 := by
      funext i
      rw [ptD_apply (by omega) hsm]
      have := (p6 i i.2).2
      simp only [arrOf, i.2, dite_true] at this
      exact this
    have ht : ptT s1 0 = 0 := p5
    refine ⟨by omega, p2, hsm, ht, hy, ?_, by intro k hk; omega⟩
    intro k hk
    have : k = 0 := by omega
    subst this
    rw [hd, ht, hy]
  | step junk fl p eps dense fuel s s' c c' t hr hw hw2 h ih =>
    obtain ⟨q1, q2, q3, q4, q5, q6, q7, q8⟩ :=
      rkStep_points N junk fl p eps dense (rkdpTrial f atol rtol) fuel s s' c c' t ih.le hw hw2 h
    have hsm : s'.n * N ≤ W := by rw [q2]; exact hw2
    have hY : ∀ k, k < s.n → ptY N s' k = ptY N s k := by
      intro k hk
      funext i
      rw [ptY_apply (by omega) hsm, ptY_apply hk ih.small, (q6 k i hk i.2).1]
    have hD : ∀ k, k < s.n → ptD N s' k = ptD N s k := by
      intro k hk
      funext i
      rw [ptD_apply (by omega) hsm, ptD_apply hk ih.small, (q6 k i hk i.2).2]
    have hT : ∀ k, k < s.n → ptT s' k = ptT s k := q5
    have hTn : ptT s' s.n = t := q4
    generalize hr' : innerStep f (ptT s (s.n - 1)) (t - ptT s (s.n - 1)) (ptY N s (s.n - 1)) (ptD N s (s.n - 1)) = r
    have hYn : ptY N s' s.n = r.yout := by
      funext i
      rw [ptY_apply (by omega) hsm, (q8 i i.2).1]
      show arrOf (innerStep f _ _ _ _).yout i = _
      simp only [arrOf, i.2, dite_true, ← hr']
      rfl
    have hDn : ptD N s' s.n = r.dydxout := by
      funext i
      rw [ptD_apply (by omega) hsm, (q8 i i.2).2]
      show arrOf (innerStep f _ _ _ _).dydxout i = _
      simp only [arrOf, i.2, dite_true, ← hr']
      rfl
    refine ⟨by omega, q3, hsm, by rw [hT 0 (by omega)]; exact ih.t0, by rw [hY 0 (by omega)]; exact ih.y0, ?_, ?_⟩
    · intro k hk
      rcases Nat.lt_or_ge k s.n with hlt | hge
      · rw [hD k hlt, hT k hlt, hY k hlt]
        exact ih.der k hlt
      · have e : k = s.n := by omega
        subst e
        rw [hDn, hTn, hYn, ← hr']
        simp only [innerStep]
        congr 1
        ring
    · intro k hk
      rcases Nat.lt_or_ge (k + 1) s.n with hlt | hge
      · rw [hT k (by omega), hT (k + 1) hlt, hY k (by omega), hD k (by omega), hY (k + 1) hlt]
        exact ih.stp k hlt
      · have e : k + 1 = s.n := by omega
        have e' : k = s.n - 1 := by omega
        rw [e, hTn, hYn]
        subst e'
        rw [hT _ (by omega), hY _ (by omega), hD _ (by omega), hr']
        refine ⟨rfl, ?_⟩
        obtain ⟨e, he, h1⟩ := q7
        refine ⟨e, ?_, h1⟩
        rw [← he]
        show _ = estimateError N atol rtol (arrOf (innerStep f _ _ _ _).yerr) _ (arrOf (innerStep f _ _ _ _).yout)
        rw [← hr']
        apply estimateError_congr
        · intro i hi; rfl
        · intro i hi
          simp only [arrOf, hi, dite_true, ptY, vecOf]
        · intro i hi; rfl

/-- C90: in every integration the first point is the initial value at time zero, the stored
derivatives are those of the equation, and each point follows from the one before by a
Dormand-Prince step whose error estimate is within the tolerance: no component has zero
tolerance and the mean square of the errors relative to their tolerances is at most one. -/
theorem C90_accepted_steps {N : Nat} (hN : 0 < N) (f : ℝ → (Fin N → ℝ) → (Fin N → ℝ)) (atol rtol : ℝ)
    (y0 : Fin N → ℝ) (s : Store) (h : DPRun f atol rtol y0 s) :
    1 ≤ stepsTaken s ∧ timeAt s 0 = 0 ∧ vecOf N (solutionAt N s 0) = y0 ∧
    (∀ k, k < s.n → vecOf N (derivativeAt N s k) = f (timeAt s k) (vecOf N (solutionAt N s k))) ∧
    ∀ k, k + 1 < s.n →
      let y := vecOf N (solutionAt N s k)
      let y' := vecOf N (solutionAt N s (k + 1))
      let r := innerStep f (timeAt s k) (timeAt s (k + 1) - timeAt s k) y (f (timeAt s k) y)
      y' = r.yout ∧ (∀ i, tolOf atol rtol (y i) (y' i) ≠ 0) ∧
      ∑ i, (r.yerr i / tolOf atol rtol (y i) (y' i)) ^ 2 ≤ N := by
  have hi := h.inv
  refine ⟨hi.pos, hi.t0, hi.y0, hi.der, ?_⟩
  intro k hk
  obtain ⟨h1, h2⟩ := hi.stp k hk
  rw [hi.der k (by omega)] at h1 h2
  rw [C90_within_iff N hN] at h2
  obtain ⟨h3, h4⟩ := h2
  refine ⟨h1, ?_, ?_⟩
  · intro i
    have := h3 i i.2
    simp only [arrOf, i.2, dite_true] at this
    exact this
  · refine le_trans (le_of_eq ?_) h4
    rw [Finset.sum_range]
    apply Finset.sum_congr rfl
    intro i _
    simp only [arrOf, i.2, dite_true]
    rfl

/-- C90: so every component error of an accepted step is at most the square root of the number
of components times its tolerance.
Missing: the factor cannot be left out, see `C90_refuted_componentwise`. -/
theorem C90_component_partial {N : Nat} (hN : 0 < N) (f : ℝ → (Fin N → ℝ) → (Fin N → ℝ)) (atol rtol : ℝ)
    (y0 : Fin N → ℝ) (s : Store) (h : DPRun f atol rtol y0 s) (k : Nat) (hk : k + 1 < s.n) (i : Fin N) :
    let y := vecOf N (solutionAt N s k)
    let y' := vecOf N (solutionAt N s (k + 1))
    let r := innerStep f (timeAt s k) (timeAt s (k + 1) - timeAt s k) y (f (timeAt s k) y)
    |r.yerr i| ≤ Real.sqrt N * |tolOf atol rtol (y i) (y' i)| := by
  intro y y' r
  obtain ⟨-, -, -, -, h5⟩ := C90_accepted_steps hN f atol rtol y0 s h
  obtain ⟨-, hne, hS⟩ := h5 k hk
  have hne' := hne i
  have h1 : (r.yerr i / tolOf atol rtol (y i) (y' i)) ^ 2 ≤ N :=
    le_trans (Finset.single_le_sum (f := fun i => (r.yerr i / tolOf atol rtol (y i) (y' i)) ^ 2)
      (fun i _ => sq_nonneg _) (Finset.mem_univ i)) hS
  have h2 := Real.abs_le_sqrt h1
  rw [abs_div, div_le_iff₀ (abs_pos.2 hne')] at h2
  exact h2

/-- C90: conversely a trial step all of whose component errors are within their tolerances is
accepted as it is. -/
theorem C90_good_steps_accepted {N : Nat} (hN : 0 < N) (f : ℝ → (Fin N → ℝ) → (Fin N → ℝ)) (atol rtol eps T h : ℝ)
    (fl : ℝ → ℝ) (p : Par) (c : Ctl) (fuel : Nat) (y dydx : Nat → ℝ)
    (hg : ∀ i : Fin N,
      let r := innerStep f T h (vecOf N y) (vecOf N dydx)
      0 < tolOf atol rtol (y i) (r.yout i) ∧ |r.yerr i| ≤ tolOf atol rtol (y i) (r.yout i)) :
    ∃ c', stepLoop fl p eps T (fun h => (rkdpTrial f atol rtol T h y dydx).err) (fuel + 1) h c = .accepted h c' := by
  have hw : ∃ e, (rkdpTrial f atol rtol T h y dydx).err = .val e ∧ e ≤ 1 := by
    show ∃ e, estimateError N atol rtol _ _ _ = .val e ∧ e ≤ 1
    rw [C90_within_iff N hN]
    have hx : ∀ i, i < N → 0 < tolOf atol rtol (y i) (arrOf (innerStep f T h (vecOf N y) (vecOf N dydx)).yout i) ∧
        |arrOf (innerStep f T h (vecOf N y) (vecOf N dydx)).yerr i| ≤
          tolOf atol rtol (y i) (arrOf (innerStep f T h (vecOf N y) (vecOf N dydx)).yout i) := by
      intro i hi
      have := hg ⟨i, hi⟩
      simp only [arrOf, hi, dite_true]
      exact this
    refine ⟨fun i hi => (hx i hi).1.ne', ?_⟩
    refine le_trans (Finset.sum_le_sum (g := fun _ => (1 : ℝ)) ?_) (by simp)
    intro i hi
    obtain ⟨h1, h2⟩ := hx i (Finset.mem_range.1 hi)
    rw [sq_le_one_iff_abs_le_one, abs_div, abs_of_pos h1]
    exact (div_le_one h1).2 h2
  exact first_accepted fl p eps T _ fuel h c hw

/-- C90: with zero tolerance no step is ever accepted. -/
theorem C90_zero_tolerance {N : Nat} (hN : 0 < N) (f : ℝ → (Fin N → ℝ) → (Fin N → ℝ)) (junk : Nat → ℝ) (fl : ℝ → ℝ)
    (p : Par) (eps : ℝ) (dense : Bool) (fuel : Nat) (s s' : Store) (c c' : Ctl) (t : ℝ) (hle : s.n ≤ s.alloc)
    (hw : s.n + 1000 < W) (hw2 : (s.n + 1) * N ≤ W) :
    rkStep N junk fl p eps dense (rkdpTrial f 0 0) fuel s c ≠ .ok t s' c' := by
  intro h
  obtain ⟨-, -, -, -, -, -, ⟨e, he, h1⟩, -⟩ :=
    rkStep_points N junk fl p eps dense (rkdpTrial f 0 0) fuel s s' c c' t hle hw hw2 h
  have := (C90_number_iff N hN 0 0 _ _ _).1 ⟨e, he⟩ 0 hN
  simp [tolOf] at this

/-- The accessors for the last point return what is stored last; without any point the time is
zero and the pointers are null. -/
theorem C90_last {N : Nat} (f : ℝ → (Fin N → ℝ) → (Fin N → ℝ)) (atol rtol : ℝ) (y0 : Fin N → ℝ) (s : Store)
    (h : DPRun f atol rtol y0 s) :
    lastTime s = timeAt s (stepsTaken s - 1) ∧ lastSolution N s = some (solutionAt N s (stepsTaken s - 1)) ∧
    lastDerivative N s = some (derivativeAt N s (stepsTaken s - 1)) := by
  have := h.inv.pos
  simp only [lastTime, lastSolution, lastDerivative, stepsTaken, if_neg (show ¬ s.n = 0 by omega)]
  exact ⟨rfl, rfl, rfl⟩

theorem C90_last_none (N : Nat) (junk : Nat → ℝ) :
    lastTime (emptyStore junk) = 0 ∧ lastSolution N (emptyStore junk) = none ∧ lastDerivative N (emptyStore junk) = none :=
  ⟨rfl, rfl, rfl⟩

/-- A step whose first trial is accepted succeeds. -/
theorem step_succeeds {N : Nat} (junk : Nat → ℝ) (eps : ℝ) (trial : ℝ → ℝ → (Nat → ℝ) → (Nat → ℝ) → Trial) (fuel : Nat)
    (s : Store) (c : Ctl) (h : RkInv N s c) (hw : s.n + 1000 < W) (hw2 : (s.n + 1) * N ≤ W) (hh : ℝ) (c' : Ctl)
    (hl : stepLoop id Par.default eps (timeAt s (s.n - 1))
      (fun h => (trial (timeAt s (s.n - 1)) h (solutionAt N s (s.n - 1)) (derivativeAt N s (s.n - 1))).err) fuel c.optimal c
        = .accepted hh c') :
    ∃ s', rkStep N junk id Par.default eps true trial fuel s c = .ok (timeAt s (s.n - 1) + hh) s' c' := by
  have hp := h.pos
  have hub := (rkStep_inv N junk eps trial fuel s c h hw hw2).1
  unfold rkStep at hub ⊢
  rw [if_neg (show ¬ s.n = 0 by omega)] at hub ⊢
  simp only [hl] at hub ⊢
  revert hub
  split
  · intro h; exact absurd rfl h
  · split
    · split
      · intro h; exact absurd rfl h
      · intro _; exact ⟨_, rfl⟩
    · intro _; exact ⟨_, rfl⟩

/-- An integrator just started. -/
theorem start_run {N : Nat} (f : ℝ → (Fin N → ℝ) → (Fin N → ℝ)) (atol rtol : ℝ) (y0 : Fin N → ℝ) (hN : N ≤ W) :
    ∃ s, initialValue N (fun _ => 0) (emptyStore (fun _ => 0)) (arrOf y0) (arrOf (f 0 y0)) = some s ∧ s.n = 1 ∧
      DPRun f atol rtol y0 s ∧ Reach N s Ctl.init := by
  obtain ⟨s1, hs1, p1, -⟩ :=
    store_one N (fun _ => 0) ⟨0, 0, fun _ => 0, fun _ => 0, fun _ => 0, 0, fun _ _ => 0⟩ (Nat.zero_le _)
      (by show 0 + 1000 < W; decide) (by show (0 + 1) * N ≤ W; omega) 0 (arrOf y0) (arrOf (f 0 y0))
  have hs1' : initialValue N (fun _ => 0) (emptyStore (fun _ => 0)) (arrOf y0) (arrOf (f 0 y0)) = some s1 := hs1
  exact ⟨s1, hs1', p1, DPRun.init _ _ _ hN hs1', Reach.init _ _ _ Ctl.init _ _ (by simp [Ctl.init]) hN hs1'⟩

/-- The equation `y₀' = 5 t⁴, y₁' = 0`. -/
def quarticPair : ℝ → (Fin 2 → ℝ) → (Fin 2 → ℝ) := fun t _ => ![5 * t ^ 4, 0]

theorem quarticPair_step (d : Fin 2 → ℝ) (hd : d = 0) :
    (innerStep quarticPair 0 1 0 d).yout = ![1, 0] ∧ (innerStep quarticPair 0 1 0 d).yerr = ![71 / 54000, 0] := by
  subst hd
  constructor
  · funext i
    fin_cases i
    · simp [innerStep, quarticPair, c2, c3, c4, c5, a71, a73, a74, a75, a76]; norm_num
    · simp [innerStep, quarticPair]
  · funext i
    fin_cases i
    · simp [innerStep, quarticPair, c2, c3, c4, c5, e1, e3, e4, e5, e6, e7]; norm_num
    · simp [innerStep, quarticPair]

/-- C90 refuted for single components: from `(0, 0)` with the first step of a new integrator and
tolerance `0.00055`, a step is accepted although the error of the first component is 1.19 times
its tolerance. -/
theorem C90_refuted_componentwise :
    ∃ s, DPRun quarticPair (11 / 20000) (11 / 20000) 0 s ∧ s.n = 2 ∧
      let y := vecOf 2 (solutionAt 2 s 0)
      let y' := vecOf 2 (solutionAt 2 s 1)
      let r := innerStep quarticPair (timeAt s 0) (timeAt s 1 - timeAt s 0) y (quarticPair (timeAt s 0) y)
      |r.yerr 0| > (119 / 100) * tolOf (11 / 20000) (11 / 20000) (y 0) (y' 0) := by
  obtain ⟨s1, hs1, hn, hrun, hreach⟩ := start_run quarticPair (11 / 20000) (11 / 20000) 0 (by decide)
  have hW : W = 4294967296 := rfl
  have hinv := hrun.inv
  have ht0 : timeAt s1 0 = 0 := hinv.t0
  have hy0 : vecOf 2 (solutionAt 2 s1 0) = 0 := hinv.y0
  have hd0 : vecOf 2 (derivativeAt 2 s1 0) = 0 := by
    have : ptD 2 s1 0 = 0 := by
      rw [hinv.der 0 (by omega), hinv.t0]
      funext i; fin_cases i <;> simp [quarticPair]
    exact this
  obtain ⟨q1, q2⟩ := quarticPair_step 0 rfl
  have hl : ∃ c', stepLoop id Par.default 0 (timeAt s1 (s1.n - 1)) (fun h => (rkdpTrial quarticPair (11 / 20000) (11 / 20000)
      (timeAt s1 (s1.n - 1)) h (solutionAt 2 s1 (s1.n - 1)) (derivativeAt 2 s1 (s1.n - 1))).err) 1 Ctl.init.optimal Ctl.init
        = .accepted 1 c' := by
    have hw : ∃ e, (rkdpTrial quarticPair (11 / 20000) (11 / 20000) 0 1 (solutionAt 2 s1 0) (derivativeAt 2 s1 0)).err = .val e ∧ e ≤ 1 := by
      show ∃ e, estimateError 2 _ _ _ _ _ = .val e ∧ e ≤ 1
      rw [C90_within_iff 2 (by omega), hy0, hd0, q1, q2]
      have z : ∀ i, i < 2 → solutionAt 2 s1 0 i = 0 := fun i hi => congrFun hy0 ⟨i, hi⟩
      constructor
      · intro i hi
        rw [z i hi]
        have : (0:ℝ) ≤ max |0| |arrOf (![1, 0] : Fin 2 → ℝ) i| := le_max_of_le_right (abs_nonneg _)
        unfold tolOf
        positivity
      · rw [Finset.sum_range_succ, Finset.sum_range_succ, z 0 (by omega), z 1 (by omega)]
        simp [arrOf, tolOf]
        norm_num
    rw [hn, ht0]
    exact first_accepted id Par.default 0 0 _ 0 1 Ctl.init hw
  obtain ⟨c', hl⟩ := hl
  obtain ⟨s2, hs2⟩ := step_succeeds (fun _ => 0) 0 _ 1 s1 Ctl.init hreach.inv (by omega) (by omega) 1 c' hl
  have hr2 : DPRun quarticPair (11 / 20000) (11 / 20000) 0 s2 :=
    DPRun.step _ _ _ _ _ _ _ _ _ _ _ hrun (by omega) (by omega) hs2
  obtain ⟨-, r2, -, r4, r5, -⟩ := rkStep_points 2 _ _ _ _ _ _ _ s1 s2 _ _ _ hinv.le (by omega) (by omega) hs2
  refine ⟨s2, hr2, by omega, ?_⟩
  have ht1 : timeAt s2 1 = 1 := by
    rw [hn] at r4
    rw [timeAt, r4, ht0]; norm_num
  obtain ⟨-, a1, a2, -, a4⟩ := C90_accepted_steps (by omega) _ _ _ _ s2 hr2
  obtain ⟨b1, -⟩ := a4 0 (by omega)
  simp only [zero_add] at b1
  have hf0 : quarticPair 0 0 = 0 := by funext i; fin_cases i <;> simp [quarticPair]
  rw [a1, a2, ht1, sub_zero, hf0, q1] at b1
  simp only
  rw [a1, a2, ht1, sub_zero, hf0, q2, b1]
  simp [tolOf]
  rw [abs_of_pos (by norm_num)]
  norm_num

end

end Softlib
