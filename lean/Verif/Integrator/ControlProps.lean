/-
C95: restarting an integrator; C96: parameters of the step-size control; C97: switching dense output.
-/
import Verif.Integrator.ControlModel
import Verif.Integrator.ErrorModel
import Verif.Integrator.StoreProps

namespace Softlib

open Softlib.Integrator

noncomputable section

/-! ### One step in general -/

/-- One call of `Step` for all parameters, with and without dense output. -/
theorem rkStep_general (N : Nat) (junk : Nat → ℝ) (fl : ℝ → ℝ) (p : Par) (eps : ℝ) (dense : Bool)
    (trial : ℝ → ℝ → (Nat → ℝ) → (Nat → ℝ) → Trial) (fuel : Nat) (s : Store) (c : Ctl)
    (hp : 1 ≤ s.n) (hle : s.n ≤ s.alloc) (hw : s.n + 1000 < W) (hw2 : (s.n + 1) * N ≤ W) :
    let T := s.time (s.n - 1)
    let y := solutionAt N s (s.n - 1)
    let dydx := derivativeAt N s (s.n - 1)
    let loop := stepLoop fl p eps T (fun h => (trial T h y dydx).err) fuel c.optimal c
    (loop = .fuel → rkStep N junk fl p eps dense trial fuel s c = .fuel) ∧
    (loop = .underflow → rkStep N junk fl p eps dense trial fuel s c = .underflow) ∧
    ∀ hh c', loop = .accepted hh c' →
      ∃ s', rkStep N junk fl p eps dense trial fuel s c = .ok (T + hh) s' c' ∧
        s'.n = s.n + 1 ∧ s'.n ≤ s'.alloc ∧ s'.time s.n = T + hh ∧
        (∀ j, j < N → s'.sol (s.n * N + j) = (trial T hh y dydx).yout j ∧ s'.der (s.n * N + j) = (trial T hh y dydx).dydxout j) ∧
        (∀ k, k < s.n → s'.time k = s.time k) ∧
        (∀ k j, k < s.n → j < N → s'.sol (k * N + j) = s.sol (k * N + j) ∧ s'.der (k * N + j) = s.der (k * N + j)) ∧
        (dense = false → s'.ralloc = s.ralloc ∧ s'.rc = s.rc) ∧
        (dense = true → s.ralloc ≤ s'.ralloc ∧ s.n ≤ s'.ralloc ∧
          (∀ m k j, k < s.ralloc → k + 1 < s.n → j < N → s'.rc m (k * N + j) = s.rc m (k * N + j)) ∧
          ∀ m j, j < N → s'.rc m ((s.n - 1) * N + j) =
            rcVal hh (y j) ((trial T hh y dydx).yout j) (dydx j) ((trial T hh y dydx).dydxout j)
              ((trial T hh y dydx).k3 j) ((trial T hh y dydx).k4 j) ((trial T hh y dydx).k5 j) ((trial T hh y dydx).k6 j) m) := by
  intro T y dydx loop
  have h0 : ¬ s.n = 0 := by omega
  have hrk : rkStep N junk fl p eps dense trial fuel s c =
      match loop with
      | .fuel => .fuel
      | .underflow => .underflow
      | .accepted h c' =>
        match storeSolution N junk s (T + h) (trial T h y dydx).yout (trial T h y dydx).dydxout with
        | none => .ub
        | some s1 =>
          if dense && decide (s1.n > 1) then
            match storeDense N junk s1 h y (trial T h y dydx).yout dydx (trial T h y dydx).dydxout (trial T h y dydx) with
            | none => .ub
            | some s2 => .ok (T + h) s2 c'
          else .ok (T + h) s1 c' := by
    unfold rkStep
    rw [if_neg h0]
    rfl
  refine ⟨fun hl => by rw [hrk, hl], fun hl => by rw [hrk, hl], ?_⟩
  intro hh c' hl
  rw [hrk, hl]
  simp only
  generalize trial T hh y dydx = q
  obtain ⟨s1, hs1, p1, p2, p3, pr, prc, p5, p6, p7, p8⟩ := store_one N junk s hle hw hw2 (T + hh) q.yout q.dydxout
  rw [hs1]
  simp only
  have hn1 : s1.n > 1 := by omega
  cases dense with
  | false =>
    simp only [Bool.false_and, Bool.false_eq_true, if_false]
    exact ⟨s1, rfl, p1, p2, p5, p6, p7, p8, fun _ => ⟨pr, prc⟩, fun h => by cases h⟩
  | true =>
    simp only [Bool.true_and, hn1, decide_true, if_true]
    have hoff : ((s1.n - 2) * N) % W = (s.n - 1) * N := by
      have e : s1.n - 2 = s.n - 1 := by omega
      rw [e]
      rcases Nat.eq_zero_or_pos N with hN | hN
      · subst hN; simp
      · apply Nat.mod_eq_of_lt
        have : (s.n - 1) * N < (s.n + 1) * N := Nat.mul_lt_mul_of_pos_right (by omega) hN
        omega
    let s3 : Store := if s1.ralloc < s1.alloc then
      ⟨s1.alloc, s1.n, s1.time, s1.sol, s1.der, s1.alloc, fun m => regrow (N * s1.ralloc) (N * s1.alloc) junk (s1.rc m)⟩
      else s1
    have hs3 : s3.alloc = s1.alloc ∧ s3.n = s1.n ∧ s3.time = s1.time ∧ s3.sol = s1.sol ∧ s3.der = s1.der ∧
        s1.alloc ≤ s3.ralloc ∧ s.ralloc ≤ s3.ralloc ∧
        (∀ m k j, k < s.ralloc → j < N → s3.rc m (k * N + j) = s.rc m (k * N + j)) := by
      by_cases hg : s1.ralloc < s1.alloc
      · have e : s3 = ⟨s1.alloc, s1.n, s1.time, s1.sol, s1.der, s1.alloc,
            fun m => regrow (N * s1.ralloc) (N * s1.alloc) junk (s1.rc m)⟩ := by
          show (if _ then _ else _) = _
          rw [if_pos hg]
        rw [e]
        refine ⟨rfl, rfl, rfl, rfl, rfl, Nat.le_refl _, by simp only; omega, ?_⟩
        intro m k j hk hj
        have hk2 : k < s1.ralloc := by omega
        have h1 : k * N + j < N * s1.ralloc := flat_lt hk2 hj
        have h2 : k * N + j < N * s1.alloc := flat_lt (by omega) hj
        simp only [regrow]
        rw [if_pos (by omega), prc]
      · have e : s3 = s1 := by
          show (if _ then _ else _) = _
          rw [if_neg hg]
        rw [e]
        exact ⟨rfl, rfl, rfl, rfl, rfl, by omega, by omega, fun m k j _ _ => by rw [prc]⟩
    obtain ⟨q1, q2, q3, q4, q5, q6, q6', q7⟩ := hs3
    have hbound : (s.n - 1) * N + N ≤ N * s3.ralloc := by
      have h1 : s.n ≤ s3.ralloc := by omega
      have h2 := Nat.mul_le_mul_right N h1
      have h3 : (s.n - 1) * N + N = s.n * N := by
        have e : s.n = (s.n - 1) + 1 := by omega
        conv => rhs; rw [e, Nat.add_mul, Nat.one_mul]
      rw [h3, Nat.mul_comm N]
      exact h2
    have hsd : storeDense N junk s1 hh y q.yout dydx q.dydxout q =
        some ⟨s3.alloc, s3.n, s3.time, s3.sol, s3.der, s3.ralloc, fun m =>
          copyTo N ((s.n - 1) * N) (fun i => rcVal hh (y i) (q.yout i)
            (dydx i) (q.dydxout i) (q.k3 i) (q.k4 i) (q.k5 i) (q.k6 i) m) (s3.rc m)⟩ := by
      unfold storeDense
      simp only [hoff]
      rw [if_pos hbound]
    rw [hsd]
    refine ⟨_, rfl, ?_, ?_, ?_, ?_, ?_, ?_, (fun h => by cases h), fun _ => ⟨q6', ?_, ?_, ?_⟩⟩
    · show s3.n = _; omega
    · show s3.n ≤ s3.alloc; omega
    · show s3.time s.n = _; rw [q3, p5]
    · intro j hj; show s3.sol _ = _ ∧ s3.der _ = _; rw [q4, q5]; exact p6 j hj
    · intro k hk; show s3.time k = _; rw [q3, p7 k hk]
    · intro k j hk hj; show s3.sol _ = _ ∧ s3.der _ = _; rw [q4, q5]; exact p8 k j hk hj
    · show s.n ≤ s3.ralloc; omega
    · intro m k j hr hk hj
      simp only
      have hlt : k * N + j < (s.n - 1) * N := by
        have := flat_ne (N := N) (k := k) (k' := s.n - 1) (j := j) (j' := 0) hj (by omega) (by omega)
        omega
      rw [copyTo_out _ _ _ _ _ (.inl hlt), q7 m k j hr hj]
    · intro m j hj
      exact rcVal_copy N ((s.n - 1) * N) (fun i => rcVal hh (y i) (q.yout i)
        (dydx i) (q.dydxout i) (q.k3 i) (q.k4 i) (q.k5 i) (q.k6 i)) s3.rc j hj m

/-! ### C95 -/

/-- The two integrators have stored the same points. -/
structure SamePoints (N : Nat) (s s' : Store) : Prop where
  n : s.n = s'.n
  time : ∀ k, k < s.n → timeAt s k = timeAt s' k
  sol : ∀ k j, k < s.n → j < N → solutionAt N s k j = solutionAt N s' k j
  der : ∀ k j, k < s.n → j < N → derivativeAt N s k j = derivativeAt N s' k j

/-- A trial step depends on the `N` components only. -/
def TrialLocal (N : Nat) (trial : ℝ → ℝ → (Nat → ℝ) → (Nat → ℝ) → Trial) : Prop :=
  ∀ T h y y' d d', (∀ j, j < N → y j = y' j) → (∀ j, j < N → d j = d' j) → trial T h y d = trial T h y' d'

/-- The method of the library is such a trial step, for every equation. -/
theorem rkdpTrial_local {N : Nat} (f : ℝ → (Fin N → ℝ) → (Fin N → ℝ)) (atol rtol : ℝ) :
    TrialLocal N (fun T h y dydx => rkdpTrial f atol rtol T h y dydx) := by
  intro T h y y' d d' hy hd
  have e1 : vecOf N y = vecOf N y' := funext fun i => hy i i.2
  have e2 : vecOf N d = vecOf N d' := funext fun i => hd i i.2
  have e3 : ∀ z : Nat → ℝ, errSum N (fun i => errTerm atol rtol (z i) (y i) (arrOf (innerStep f T h (vecOf N y') (vecOf N d')).yout i)) =
      errSum N (fun i => errTerm atol rtol (z i) (y' i) (arrOf (innerStep f T h (vecOf N y') (vecOf N d')).yout i)) := by
    intro z
    have key : ∀ (M : Nat) (a b : Nat → Err), (∀ i, i < M → a i = b i) → errSum M a = errSum M b := by
      intro M
      induction M with
      | zero => intro a b _; rfl
      | succ M ih =>
        intro a b hab
        simp only [errSum]
        rw [ih a b (fun i hi => hab i (by omega)), hab M (by omega)]
    exact key N _ _ fun i hi => by rw [hy i hi]
  unfold rkdpTrial
  simp only [e1, e2, estimateError, e3]

/-- Storage that is in order and small enough for `k` more steps. -/
structure Room (N : Nat) (s : Store) (k : Nat) : Prop where
  pos : 1 ≤ s.n
  le : s.n ≤ s.alloc
  count : s.n + k + 1000 ≤ W
  size : (s.n + k) * N ≤ W

theorem small_index {N : Nat} {s : Store} {k : Nat} (h : Room N s k) (i : Nat) (hi : i < s.n) (hN : 0 < N) :
    (i * N) % W = i * N := by
  apply Nat.mod_eq_of_lt
  have h1 : i * N < (s.n + k) * N := Nat.mul_lt_mul_of_pos_right (by omega) hN
  have := h.size
  omega

/-- One step on two integrators with the same points. -/
theorem same_step (N : Nat) (junk junk' : Nat → ℝ) (fl : ℝ → ℝ) (p : Par) (eps : ℝ) (dense dense' : Bool)
    (trial : ℝ → ℝ → (Nat → ℝ) → (Nat → ℝ) → Trial) (ht : TrialLocal N trial) (fuel : Nat) (s s' : Store) (c : Ctl) (k : Nat)
    (hs : Room N s (k + 1)) (hs' : Room N s' (k + 1)) (h : SamePoints N s s') :
    (rkStep N junk fl p eps dense trial fuel s c = .fuel ∧ rkStep N junk' fl p eps dense' trial fuel s' c = .fuel) ∨
    (rkStep N junk fl p eps dense trial fuel s c = .underflow ∧ rkStep N junk' fl p eps dense' trial fuel s' c = .underflow) ∨
    ∃ t s1 s2 c', rkStep N junk fl p eps dense trial fuel s c = .ok t s1 c' ∧
      rkStep N junk' fl p eps dense' trial fuel s' c = .ok t s2 c' ∧ SamePoints N s1 s2 ∧ Room N s1 k ∧ Room N s2 k := by
  have hW : (s.n + 1) * N ≤ W := Nat.le_trans (Nat.mul_le_mul_right N (by omega)) hs.size
  have hW' : (s'.n + 1) * N ≤ W := Nat.le_trans (Nat.mul_le_mul_right N (by omega)) hs'.size
  have hc := hs.count
  have hc' := hs'.count
  have hp := hs.pos
  obtain ⟨a1, a2, a3⟩ := rkStep_general N junk fl p eps dense trial fuel s c hs.pos hs.le (by omega) hW
  obtain ⟨b1, b2, b3⟩ := rkStep_general N junk' fl p eps dense' trial fuel s' c hs'.pos hs'.le (by omega) hW'
  have hn := h.n
  have eT : s'.time (s'.n - 1) = s.time (s.n - 1) := by
    rw [← hn]; exact (h.time (s.n - 1) (by omega)).symm
  have etr : ∀ hh, trial (s.time (s.n - 1)) hh (solutionAt N s' (s'.n - 1)) (derivativeAt N s' (s'.n - 1)) =
      trial (s.time (s.n - 1)) hh (solutionAt N s (s.n - 1)) (derivativeAt N s (s.n - 1)) := by
    intro hh
    apply ht
    · intro j hj; rw [← hn]; exact (h.sol (s.n - 1) j (by omega) hj).symm
    · intro j hj; rw [← hn]; exact (h.der (s.n - 1) j (by omega) hj).symm
  simp only [eT, etr] at b1 b2 b3
  cases hl : stepLoop fl p eps (s.time (s.n - 1)) (fun h => (trial (s.time (s.n - 1)) h (solutionAt N s (s.n - 1)) (derivativeAt N s (s.n - 1))).err) fuel c.optimal c with
  | fuel => exact .inl ⟨a1 hl, b1 hl⟩
  | underflow => exact .inr (.inl ⟨a2 hl, b2 hl⟩)
  | accepted hh c' =>
    obtain ⟨s1, x1, x2, x3, x4, x5, x6, x7, -⟩ := a3 hh c' hl
    obtain ⟨s2, z1, z2, z3, z4, z5, z6, z7, -⟩ := b3 hh c' hl
    have r1 : Room N s1 k := ⟨by omega, x3, by omega, by
      rw [x2, Nat.add_right_comm, Nat.add_assoc]; exact hs.size⟩
    have r2 : Room N s2 k := ⟨by omega, z3, by omega, by
      rw [z2, Nat.add_right_comm, Nat.add_assoc]; exact hs'.size⟩
    refine .inr (.inr ⟨_, s1, s2, c', x1, z1, ⟨by omega, ?_, ?_, ?_⟩, r1, r2⟩)
    · intro i hi
      rcases Nat.lt_or_ge i s.n with h1 | h1
      · show s1.time i = s2.time i
        rw [x6 i h1, z6 i (by omega)]; exact h.time i h1
      · have e : i = s.n := by omega
        subst e
        show s1.time s.n = s2.time s.n
        rw [x4]
        conv => rhs; rw [hn]
        rw [z4]
    · intro i j hi hj
      have m1 := small_index r1 i hi (by omega)
      simp only [solutionAt, m1]
      rcases Nat.lt_or_ge i s.n with h1 | h1
      · rw [(x7 i j h1 hj).1, (z7 i j (by omega) hj).1]
        have := h.sol i j h1 hj
        simpa only [solutionAt, m1] using this
      · have e : i = s.n := by omega
        subst e
        rw [(x5 j hj).1]
        conv => rhs; rw [hn]
        rw [(z5 j hj).1]
    · intro i j hi hj
      have m1 := small_index r1 i hi (by omega)
      simp only [derivativeAt, m1]
      rcases Nat.lt_or_ge i s.n with h1 | h1
      · rw [(x7 i j h1 hj).2, (z7 i j (by omega) hj).2]
        have := h.der i j h1 hj
        simpa only [derivativeAt, m1] using this
      · have e : i = s.n := by omega
        subst e
        rw [(x5 j hj).2]
        conv => rhs; rw [hn]
        rw [(z5 j hj).2]

theorem same_run (N : Nat) (junk junk' : Nat → Nat → ℝ) (fl : ℝ → ℝ) (p : Par) (eps : ℝ) (dense dense' : Nat → Bool)
    (trial : ℝ → ℝ → (Nat → ℝ) → (Nat → ℝ) → Trial) (ht : TrialLocal N trial) (fuel : Nat) :
    ∀ (k : Nat) (s s' : Store) (c : Ctl), Room N s k → Room N s' k → SamePoints N s s' →
    (∃ i, rkRun N junk fl p eps dense trial fuel k s c = .fuel i ∧ rkRun N junk' fl p eps dense' trial fuel k s' c = .fuel i) ∨
    (∃ i, rkRun N junk fl p eps dense trial fuel k s c = .underflow i ∧
      rkRun N junk' fl p eps dense' trial fuel k s' c = .underflow i) ∨
    ∃ s1 s2 c', rkRun N junk fl p eps dense trial fuel k s c = .ok s1 c' ∧
      rkRun N junk' fl p eps dense' trial fuel k s' c = .ok s2 c' ∧ SamePoints N s1 s2 ∧ s1.n = s.n + k
  | 0, s, s', c, _, _, h => .inr (.inr ⟨s, s', c, rfl, rfl, h, rfl⟩)
  | k + 1, s, s', c, hs, hs', h => by
    rcases same_step N (junk k) (junk' k) fl p eps (dense k) (dense' k) trial ht fuel s s' c k hs hs' h with
      ⟨h1, h2⟩ | ⟨h1, h2⟩ | ⟨t, s1, s2, c', h1, h2, h3, h4, h5⟩
    · refine .inl ⟨k, ?_, ?_⟩ <;> rw [rkRun]
      · rw [h1]
      · rw [h2]
    · refine .inr (.inl ⟨k, ?_, ?_⟩) <;> rw [rkRun]
      · rw [h1]
      · rw [h2]
    · have hn : s1.n = s.n + 1 := by
        have hc := hs.count
        obtain ⟨a1, a2, a3⟩ := rkStep_general N (junk k) fl p eps (dense k) trial fuel s c hs.pos hs.le (by omega)
          (Nat.le_trans (Nat.mul_le_mul_right N (by omega)) hs.size)
        cases hl : stepLoop fl p eps (s.time (s.n - 1)) (fun h => (trial (s.time (s.n - 1)) h (solutionAt N s (s.n - 1)) (derivativeAt N s (s.n - 1))).err) fuel c.optimal c with
        | fuel => rw [a1 hl] at h1; cases h1
        | underflow => rw [a2 hl] at h1; cases h1
        | accepted hh c1 =>
          obtain ⟨s3, x1, x2, -⟩ := a3 hh c1 hl
          rw [x1] at h1
          injection h1 with _ h1 _
          rw [← h1]; exact x2
      rw [rkRun, rkRun, h1, h2]
      rcases same_run N junk junk' fl p eps dense dense' trial ht fuel k s1 s2 c' h4 h5 h3 with h | h | ⟨s3, s4, c3, y1, y2, y3, y4⟩
      · exact .inl h
      · exact .inr (.inl h)
      · exact .inr (.inr ⟨s3, s4, c3, y1, y2, y3, by omega⟩)

theorem initialValue_room (N : Nat) (junk : Nat → ℝ) (s : Store) (y0 yp0 : Nat → ℝ) (k : Nat) (hw : k + 1001 ≤ W)
    (hw2 : (k + 1) * N ≤ W) :
    ∃ s1, initialValue N junk s y0 yp0 = some s1 ∧ Room N s1 k ∧ s1.n = 1 ∧ timeAt s1 0 = 0 ∧
      (∀ j, j < N → solutionAt N s1 0 j = y0 j ∧ derivativeAt N s1 0 j = yp0 j) ∧ s1.rc = s.rc ∧ s1.ralloc = s.ralloc := by
  have hN : (0 + 1) * N ≤ W := Nat.le_trans (Nat.mul_le_mul_right N (by omega)) hw2
  obtain ⟨s1, hs1, p1, p2, p3, pr, prc, p5, p6, p7, p8⟩ :=
    store_one N junk ⟨s.alloc, 0, s.time, s.sol, s.der, s.ralloc, s.rc⟩ (Nat.zero_le _) (by show 0 + 1000 < W; decide) hN 0 y0 yp0
  have hn : s1.n = 1 := p1
  refine ⟨s1, hs1, ⟨by omega, p2, by omega, by rw [hn, Nat.add_comm]; exact hw2⟩, hn, p5, ?_, prc, pr⟩
  intro j hj
  have e : (0 * N) % W + j = 0 * N + j := by simp
  rw [solutionAt, derivativeAt, e]
  exact p6 j hj

/-- **C95** Restarting: the points computed after setting an initial value on any integrator, used or new,
depend on the past only through the state of the step-size control: with the same control, any number
of steps stores the same points (or fails at the same step), whatever was stored before, whatever new
memory holds and whether dense output is on.  Missing: the control itself is not reset, see
`C95_refuted`. -/
theorem C95_restart_partial (N : Nat) (junk junk' : Nat → Nat → ℝ) (fl : ℝ → ℝ) (p : Par) (eps : ℝ) (dense dense' : Nat → Bool)
    (trial : ℝ → ℝ → (Nat → ℝ) → (Nat → ℝ) → Trial) (ht : TrialLocal N trial) (fuel : Nat) (k : Nat) (hw : k + 1001 ≤ W)
    (hw2 : (k + 1) * N ≤ W) (used new : Store) (c : Ctl) (y0 yp0 : Nat → ℝ) :
    ∃ s s', initialValue N (junk 0) used y0 yp0 = some s ∧ initialValue N (junk' 0) new y0 yp0 = some s' ∧
      ((∃ i, rkRun N junk fl p eps dense trial fuel k s c = .fuel i ∧ rkRun N junk' fl p eps dense' trial fuel k s' c = .fuel i) ∨
       (∃ i, rkRun N junk fl p eps dense trial fuel k s c = .underflow i ∧
          rkRun N junk' fl p eps dense' trial fuel k s' c = .underflow i) ∨
       ∃ s1 s2 c', rkRun N junk fl p eps dense trial fuel k s c = .ok s1 c' ∧
          rkRun N junk' fl p eps dense' trial fuel k s' c = .ok s2 c' ∧ SamePoints N s1 s2 ∧ s1.n = k + 1) := by
  obtain ⟨s, h1, h2, h3, h4, h5, -, -⟩ := initialValue_room N (junk 0) used y0 yp0 k hw hw2
  obtain ⟨s', g1, g2, g3, g4, g5, -, -⟩ := initialValue_room N (junk' 0) new y0 yp0 k hw hw2
  refine ⟨s, s', h1, g1, ?_⟩
  have hs : SamePoints N s s' := by
    refine ⟨by omega, ?_, ?_, ?_⟩
    · intro i hi
      have : i = 0 := by omega
      subst this; rw [h4, g4]
    · intro i j hi hj
      have : i = 0 := by omega
      subst this; rw [(h5 j hj).1, (g5 j hj).1]
    · intro i j hi hj
      have : i = 0 := by omega
      subst this; rw [(h5 j hj).2, (g5 j hj).2]
  rcases same_run N junk junk' fl p eps dense dense' trial ht fuel k s s' c h2 g2 hs with h | h | ⟨s3, s4, c3, y1, y2, y3, y4⟩
  · exact .inl h
  · exact .inr (.inl h)
  · exact .inr (.inr ⟨s3, s4, c3, y1, y2, y3, by omega⟩)

/-- A trial step without error that gives the value `v`. -/
def flatTrial (v : ℝ) : ℝ → ℝ → (Nat → ℝ) → (Nat → ℝ) → Trial := fun _ _ _ _ =>
  ⟨fun _ => v, fun _ => 0, .val 0, fun _ => 0, fun _ => 0, fun _ => 0, fun _ => 0⟩

theorem flat_local (N : Nat) (v : ℝ) : TrialLocal N (flatTrial v) := fun _ _ _ _ _ _ _ _ => rfl

/-- One error-free step from a state with one point. -/
theorem flat_step (v o : ℝ) (e : ℝ) (dense : Bool) (s : Store) (hs : Room 1 s 1) (h1 : s.n = 1) (h0 : timeAt s 0 = 0) :
    ∃ s', rkStep 1 (fun _ => 0) id Par.default 0 dense (flatTrial v) 1 s ⟨o, e, false⟩ = .ok o s' ⟨o * 10, 1 / 10000, false⟩ ∧
      s'.n = 2 ∧ s'.n ≤ s'.alloc ∧ s'.time 0 = 0 ∧ s'.time 1 = o ∧ s'.sol 0 = s.sol 0 ∧ s'.sol 1 = v ∧
      (dense = false → s'.ralloc = s.ralloc ∧ s'.rc = s.rc) ∧
      (dense = true → 1 ≤ s'.ralloc ∧ ∀ m, s'.rc m 0 = rcVal o (s.sol 0) v (s.der 0) 0 0 0 0 0 m) := by
  have hW : W = 4294967296 := rfl
  obtain ⟨-, -, a3⟩ := rkStep_general 1 (fun _ => 0) id Par.default 0 dense (flatTrial v) 1 s ⟨o, e, false⟩ hs.pos hs.le (by omega) (by omega)
  have hl : stepLoop id Par.default 0 (s.time (s.n - 1))
      (fun h => (flatTrial v (s.time (s.n - 1)) h (solutionAt 1 s (s.n - 1)) (derivativeAt 1 s (s.n - 1))).err)
      1 o ⟨o, e, false⟩ = .accepted o ⟨o * 10, 1 / 10000, false⟩ := by
    simp [stepLoop, updateTimestep, flatTrial, Par.default]
  obtain ⟨s', x1, x2, x3, x4, x5, x6, x7, x8, x9⟩ := a3 _ _ hl
  have hT : s.time (s.n - 1) = 0 := by rw [h1]; exact h0
  rw [hT, zero_add] at x1 x4
  rw [h1] at x2 x4 x5 x6 x7
  have e0 : solutionAt 1 s (s.n - 1) 0 = s.sol 0 := by rw [h1]; rfl
  have e1 : derivativeAt 1 s (s.n - 1) 0 = s.der 0 := by rw [h1]; rfl
  refine ⟨s', x1, x2, x3, ?_, x4, ?_, ?_, x8, ?_⟩
  · rw [x6 0 (by omega)]; exact h0
  · exact (x7 0 0 (by omega) (by omega)).1
  · exact (x5 0 (by omega)).1
  · intro hd
    obtain ⟨y1, y2, -, y4⟩ := x9 hd
    refine ⟨by omega, ?_⟩
    intro m
    have := y4 m 0 (by omega)
    rw [e0, e1] at this
    rw [h1] at this
    exact this

/-- **C95** (refuted as stated) The step-size control is not reset: after one step without error, restarting
gives a first step to time 10, on a new integrator to time 1. -/
theorem C95_refuted : ∃ s s1 c1 s2 s3 c3,
    initialValue 1 (fun _ => 0) (emptyStore fun _ => 0) (fun _ => 2) (fun _ => 0) = some s ∧
    rkStep 1 (fun _ => 0) id Par.default 0 true (flatTrial 2) 1 s Ctl.init = .ok 1 s1 c1 ∧
    initialValue 1 (fun _ => 0) s1 (fun _ => 2) (fun _ => 0) = some s2 ∧
    rkStep 1 (fun _ => 0) id Par.default 0 true (flatTrial 2) 1 s2 c1 = .ok 10 s3 c3 := by
  have hW : W = 4294967296 := rfl
  obtain ⟨s, h1, h2, h3, h4, -⟩ := initialValue_room 1 (fun _ => 0) (emptyStore fun _ => 0) (fun _ => 2) (fun _ => 0) 1 (by omega) (by omega)
  obtain ⟨s1, g1, -⟩ := flat_step 2 1 (1 / 10000) true s h2 h3 h4
  obtain ⟨s2, i1, i2, i3, i4, -⟩ := initialValue_room 1 (fun _ => 0) s1 (fun _ => 2) (fun _ => 0) 1 (by omega) (by omega)
  obtain ⟨s3, j1, -⟩ := flat_step 2 (1 * 10) (1 / 10000) true s2 i2 i3 i4
  have e : (1 * 10 : ℝ) = 10 := by norm_num
  rw [e] at j1 g1
  exact ⟨s, s1, _, s2, s3, _, h1, g1, i1, j1⟩

/-- Two steps after a restart, for the method of the library and the equation y' = y. -/
example (used : Store) : ∃ s s', initialValue 1 (fun _ => 3) used (fun _ => 1) (fun _ => 1) = some s ∧
    initialValue 1 (fun _ => 0) (emptyStore fun _ => 0) (fun _ => 1) (fun _ => 1) = some s' ∧
    TrialLocal 1 (fun T h y dydx => rkdpTrial (N := 1) (fun _ y => y) 1 1 T h y dydx) := by
  have hW : W = 4294967296 := rfl
  obtain ⟨s, s', h1, h2, -⟩ := C95_restart_partial 1 (fun _ _ => 3) (fun _ _ => 0) id Par.default 0 (fun _ => true) (fun _ => true)
    _ (rkdpTrial_local (N := 1) (fun _ y => y) 1 1) 1 2 (by omega) (by omega) used (emptyStore fun _ => 0) Ctl.init (fun _ => 1) (fun _ => 1)
  exact ⟨s, s', h1, h2, rkdpTrial_local _ _ _⟩

/-! ### C96 -/

/-- **C96** Range: for all parameters with `0 ≤ minscale ≤ 1 ≤ maxscale`, `safe ≤ 1` and `alpha ≥ 0` the next step
is between `minscale` and `maxscale` times the present one, for every error that is not NaN. -/
theorem C96_range_partial (p : Par) (h0 : 0 ≤ p.minscale) (h1 : p.minscale ≤ 1) (h2 : 1 ≤ p.maxscale) (h3 : p.safe ≤ 1)
    (h4 : 0 ≤ p.alpha) (c : Ctl) (h : ℝ) (err : Err) (hn : err ≠ .nan) :
    ∃ r, (updateTimestep id p c h err).2.optimal = h * r ∧ p.minscale ≤ r ∧ r ≤ p.maxscale := by
  cases err with
  | nan => exact absurd rfl hn
  | inf => exact ⟨max 0 p.minscale, rfl, le_max_right _ _, max_le (by linarith) (by linarith)⟩
  | val e =>
    by_cases he : e ≤ 1
    · simp only [updateTimestep, he, if_true, id]
      generalize hx : (if e = 0 then p.maxscale else _) = scale
      have hs : p.minscale ≤ scale ∧ scale ≤ p.maxscale := by
        rw [← hx]
        split
        · exact ⟨by linarith, le_refl _⟩
        · exact clamp_range _ (by linarith)
      cases c.rejected with
      | true => exact ⟨min scale 1, rfl, le_min hs.1 h1, le_trans (min_le_left _ _) hs.2⟩
      | false => exact ⟨scale, rfl, hs.1, hs.2⟩
    · simp only [updateTimestep, he, if_false, id]
      refine ⟨_, rfl, le_max_right _ _, max_le ?_ (by linarith)⟩
      have hp := pow_le_one_of_gt (not_le.1 he) h4
      have hp0 : 0 ≤ e ^ (-p.alpha) := Real.rpow_nonneg (by linarith [not_le.1 he]) _
      nlinarith

/-- Rejected steps shrink by a fixed factor. -/
theorem rejected_factor (p : Par) (hs0 : 0 < p.safe) (h4 : 0 ≤ p.alpha) (c : Ctl) (h : ℝ) (err : Err)
    (hr : (updateTimestep id p c h err).1 = false) :
    ∃ r, (updateTimestep id p c h err).2.optimal = h * r ∧ 0 ≤ r ∧ r ≤ max (max p.safe p.minscale) (1 / 10) := by
  cases err with
  | nan => exact ⟨1 / 10, rfl, by norm_num, le_max_right _ _⟩
  | inf =>
    refine ⟨max 0 p.minscale, rfl, le_max_left _ _, ?_⟩
    exact le_trans (max_le_max (le_of_lt hs0) (le_refl _)) (le_max_left _ _)
  | val e =>
    by_cases he : e ≤ 1
    · simp [updateTimestep, he] at hr
    · simp only [updateTimestep, he, if_false, id]
      have hp := pow_le_one_of_gt (not_le.1 he) h4
      have hp0 : 0 ≤ e ^ (-p.alpha) := Real.rpow_nonneg (by linarith [not_le.1 he]) _
      refine ⟨_, rfl, le_trans (mul_nonneg (le_of_lt hs0) hp0) (le_max_left _ _), ?_⟩
      refine le_trans (max_le_max ?_ (le_refl _)) (le_max_left _ _)
      nlinarith

/-- The rejection loop ends, whatever the errors, at every time but zero. -/
def RejectionsEnd (p : Par) : Prop :=
  ∀ (eps T h : ℝ) (_ : 0 < eps) (_ : T ≠ 0) (err : ℝ → Err) (c : Ctl), ∃ fuel, stepLoop id p eps T err fuel h c ≠ .fuel

theorem loop_shrinks (p : Par) (hs0 : 0 < p.safe) (h4 : 0 ≤ p.alpha) (eps T : ℝ) (err : ℝ → Err) (q : ℝ)
    (hq : q = max (max p.safe p.minscale) (1 / 10)) :
    ∀ (k : Nat) (h : ℝ) (c : Ctl), |h| * q ^ (k + 1) ≤ |T| * eps → stepLoop id p eps T err (k + 1) h c ≠ .fuel := by
  have hq0 : 0 ≤ q := by rw [hq]; exact le_trans (by norm_num) (le_max_right _ _)
  intro k
  induction k with
  | zero =>
    intro h c hb
    rw [stepLoop]
    cases hu : updateTimestep id p c h (err h) with
    | mk b c1 =>
      cases b with
      | true => simp
      | false =>
        obtain ⟨r, r1, r2, r3⟩ := rejected_factor p hs0 h4 c h (err h) (by rw [hu])
        rw [hu] at r1
        simp only
        rw [if_pos]
        · simp
        · rw [zero_add, pow_one] at hb
          refine le_trans ?_ hb
          show |c1.optimal| ≤ _
          rw [show c1.optimal = h * r from r1, abs_mul, abs_of_nonneg r2, hq]
          exact mul_le_mul_of_nonneg_left r3 (abs_nonneg h)
  | succ k ih =>
    intro h c hb
    rw [stepLoop]
    cases hu : updateTimestep id p c h (err h) with
    | mk b c1 =>
      cases b with
      | true => simp
      | false =>
        obtain ⟨r, r1, r2, r3⟩ := rejected_factor p hs0 h4 c h (err h) (by rw [hu])
        rw [hu] at r1
        simp only
        split
        · simp
        · apply ih
          refine le_trans ?_ hb
          rw [show c1.optimal = h * r from r1, abs_mul, abs_of_nonneg r2]
          have h1 : |h| * r ≤ |h| * q := mul_le_mul_of_nonneg_left (by rw [hq]; exact r3) (abs_nonneg h)
          calc |h| * r * q ^ (k + 1) ≤ |h| * q * q ^ (k + 1) := mul_le_mul_of_nonneg_right h1 (by positivity)
            _ = |h| * q ^ (k + 1 + 1) := by rw [pow_succ q (k + 1)]; ring

/-- If every rejection keeps the step above a bound, the loop does not end. -/
theorem loop_forever (p : Par) (eps T L : ℝ) (err : ℝ → Err) (hL : |T| * eps ≤ L)
    (hrej : ∀ c h, L < h → (updateTimestep id p c h (err h)).1 = false ∧ L < (updateTimestep id p c h (err h)).2.optimal) :
    ∀ (fuel : Nat) (h : ℝ) (c : Ctl), L < h → stepLoop id p eps T err fuel h c = .fuel := by
  intro fuel
  induction fuel with
  | zero => intro h c _; rfl
  | succ k ih =>
    intro h c hh
    obtain ⟨h1, h2⟩ := hrej c h hh
    rw [stepLoop]
    cases hu : updateTimestep id p c h (err h) with
    | mk b c1 =>
      rw [hu] at h1 h2
      simp only at h1 h2
      subst h1
      simp only
      rw [if_neg (not_le.2 (lt_of_le_of_lt hL (lt_of_lt_of_le h2 (le_abs_self _))))]
      exact ih _ _ h2

/-- **C96** For which parameters the loop of rejections always ends: exactly those with `safe < 1`, `alpha ≥ 0` and
`minscale < 1` (for a positive safety factor). -/
theorem C96_rejections_end_iff (p : Par) (hs0 : 0 < p.safe) :
    RejectionsEnd p ↔ p.safe < 1 ∧ 0 ≤ p.alpha ∧ p.minscale < 1 := by
  constructor
  · intro h
    by_contra hc
    -- some function of errors above one keeps the step above 1
    have key : ∃ e : ℝ → ℝ, ∀ x, 1 < x → 1 < e x ∧ 1 < x * max (p.safe * e x ^ (-p.alpha)) p.minscale := by
      by_cases hm : p.minscale < 1
      · by_cases ha : 0 ≤ p.alpha
        · have hs : 1 ≤ p.safe := by
            by_contra hs
            exact hc ⟨not_le.1 hs, ha, hm⟩
          rcases eq_or_lt_of_le ha with ha | ha
          · refine ⟨fun _ => 2, fun x hx => ⟨by norm_num, ?_⟩⟩
            rw [← ha, neg_zero, Real.rpow_zero, mul_one]
            have := le_max_left p.safe p.minscale
            nlinarith
          · -- the factor (x + 1) / (2 x)
            refine ⟨fun x => ((x + 1) / (2 * x)) ^ (-(1 / p.alpha)), fun x hx => ?_⟩
            have hb0 : 0 < (x + 1) / (2 * x) := by positivity
            have hb1 : (x + 1) / (2 * x) < 1 := by rw [div_lt_one (by linarith)]; linarith
            have hpow : (((x + 1) / (2 * x)) ^ (-(1 / p.alpha))) ^ (-p.alpha) = (x + 1) / (2 * x) := by
              rw [← Real.rpow_mul (le_of_lt hb0)]
              have : -(1 / p.alpha) * -p.alpha = 1 := by field_simp
              rw [this, Real.rpow_one]
            refine ⟨Real.one_lt_rpow_of_pos_of_lt_one_of_neg hb0 hb1 (by rw [neg_lt_zero]; positivity), ?_⟩
            rw [hpow]
            have h1 : (x + 1) / (2 * x) ≤ p.safe * ((x + 1) / (2 * x)) := by nlinarith
            have h2 := le_trans h1 (le_max_left _ p.minscale)
            have h3 : x * ((x + 1) / (2 * x)) = (x + 1) / 2 := by field_simp
            have h4 : x * ((x + 1) / (2 * x)) ≤ x * max (p.safe * ((x + 1) / (2 * x))) p.minscale :=
              mul_le_mul_of_nonneg_left h2 (by linarith)
            rw [h3] at h4
            linarith
        · -- a negative exponent: a large error makes the step grow
          have ha' : 0 < -p.alpha := by linarith [not_le.1 ha]
          refine ⟨fun _ => (1 / p.safe + 1) ^ (1 / -p.alpha), fun x hx => ?_⟩
          have hb : 1 < 1 / p.safe + 1 := by have : 0 < 1 / p.safe := by positivity
                                             linarith
          refine ⟨Real.one_lt_rpow hb (by positivity), ?_⟩
          have hpow : ((1 / p.safe + 1) ^ (1 / -p.alpha)) ^ (-p.alpha) = 1 / p.safe + 1 := by
            rw [← Real.rpow_mul (by linarith)]
            have : 1 / -p.alpha * -p.alpha = 1 := div_mul_cancel₀ _ (ne_of_gt ha')
            rw [this, Real.rpow_one]
          rw [hpow]
          have h1 : p.safe * (1 / p.safe + 1) = 1 + p.safe := by field_simp
          rw [h1]
          have := le_max_left (1 + p.safe) p.minscale
          nlinarith
      · refine ⟨fun _ => 2, fun x hx => ⟨by norm_num, ?_⟩⟩
        have := le_max_right (p.safe * 2 ^ (-p.alpha)) p.minscale
        have := not_lt.1 hm
        nlinarith
    obtain ⟨e, he⟩ := key
    obtain ⟨fuel, hf⟩ := h 1 1 2 one_pos one_ne_zero (fun x => .val (e x)) Ctl.init
    apply hf
    refine loop_forever p 1 1 1 _ (by norm_num) ?_ fuel 2 Ctl.init (by norm_num)
    intro c x hx
    obtain ⟨h1, h2⟩ := he x hx
    simp only [updateTimestep, not_le.2 h1, if_false, id]
    exact ⟨trivial, h2⟩
  · rintro ⟨h1, h2, h3⟩ eps T h heps hT err c
    have hpos : 0 < |T| * eps := mul_pos (abs_pos.2 hT) heps
    have hq1 : max (max p.safe p.minscale) (1 / 10) < 1 := max_lt (max_lt h1 h3) (by norm_num)
    have hq0 : 0 ≤ max (max p.safe p.minscale) (1 / 10) := le_trans (by norm_num) (le_max_right _ _)
    obtain ⟨K, hK⟩ : ∃ K : Nat, |h| * (max (max p.safe p.minscale) (1 / 10)) ^ (K + 1) ≤ |T| * eps := by
      rcases eq_or_ne h 0 with rfl | hh
      · exact ⟨0, by simpa using le_of_lt hpos⟩
      · obtain ⟨K, hK⟩ := exists_pow_lt_of_lt_one (show 0 < |T| * eps / |h| from div_pos hpos (abs_pos.2 hh)) hq1
        refine ⟨K, ?_⟩
        have h5 := (lt_div_iff₀ (abs_pos.2 hh)).1 hK
        rw [pow_succ]
        have h6 : 0 ≤ |h| * (max (max p.safe p.minscale) (1 / 10)) ^ K := by positivity
        nlinarith
    exact ⟨K + 1, loop_shrinks p hs0 h2 eps T err _ rfl K h c hK⟩

/-- The defaults are such parameters. -/
example : RejectionsEnd Par.default := (C96_rejections_end_iff _ (by norm_num [Par.default])).mpr (by norm_num [Par.default])

/-- **C96** (refuted as stated) The setters accept parameters for which a step is retried for ever: a smallest
factor of one, or a safety factor of one. -/
theorem C96_refuted_setters : ¬ RejectionsEnd (Par.default.set (.minscale 1)) ∧ ¬ RejectionsEnd (Par.default.set (.safe 1)) ∧
    ¬ RejectionsEnd (Par.default.set (.alpha (-1))) := by
  refine ⟨?_, ?_, ?_⟩ <;> rw [C96_rejections_end_iff _ (by norm_num [Par.set, Par.default])] <;> norm_num [Par.set, Par.default]

/-- **C96** (refuted as stated) Setting `beta` does not change `alpha`, which initially is computed from `beta`
and would have to be smaller by three quarters of the new `beta`. -/
theorem C96_refuted_beta : Par.default.alpha = alphaFor Par.default.beta ∧
    (∀ b : ℝ, (Par.default.set (.beta b)).alpha = alphaFor (Par.default.set (.beta b)).beta + 3 / 4 * b) ∧
    ∀ b : ℝ, (Par.default.set (.beta b)).alpha = alphaFor (Par.default.set (.beta b)).beta ↔ b = 0 := by
  refine ⟨?_, ?_, ?_⟩
  · norm_num [Par.default, alphaFor]
  · intro b
    simp only [Par.set, Par.default, alphaFor]
    ring
  · intro b
    simp only [Par.set, Par.default, alphaFor]
    constructor
    · intro h; linarith
    · rintro rfl; norm_num

/-- Setters change the parameter they name and no other. -/
theorem C96_setters (p : Par) (x : ℝ) :
    p.set (.alpha x) = ⟨p.safe, x, p.beta, p.minscale, p.maxscale⟩ ∧ p.set (.beta x) = ⟨p.safe, p.alpha, x, p.minscale, p.maxscale⟩ ∧
    p.set (.minscale x) = ⟨p.safe, p.alpha, p.beta, x, p.maxscale⟩ ∧ p.set (.maxscale x) = ⟨p.safe, p.alpha, p.beta, p.minscale, x⟩ ∧
    p.set (.safe x) = ⟨x, p.alpha, p.beta, p.minscale, p.maxscale⟩ := ⟨rfl, rfl, rfl, rfl, rfl⟩

/-- **C96** What the control remembers: after an accepted step its error, but no less than 1/10000; after a rejected one the error of the
last accepted step. The remembered error stays positive for ever, so that its power is never the power of zero. -/
theorem C96_memory (fl : ℝ → ℝ) (p : Par) (c : Ctl) (h : ℝ) (err : Err) :
    (∀ e, err = .val e → 1 / 10000 ≤ e → e ≤ 1 → (updateTimestep fl p c h err).2.errold = e) ∧
    (∀ e, err = .val e → e ≤ 1 / 10000 → (updateTimestep fl p c h err).2.errold = 1 / 10000) ∧
    ((updateTimestep fl p c h err).1 = false → (updateTimestep fl p c h err).2.errold = c.errold) ∧
    (1 / 10000 ≤ c.errold → c.errold ≤ 1 →
      1 / 10000 ≤ (updateTimestep fl p c h err).2.errold ∧ (updateTimestep fl p c h err).2.errold ≤ 1) := by
  refine ⟨?_, ?_, ?_, ?_⟩
  · rintro e rfl h1 h2
    simp only [updateTimestep, if_pos h2]
    exact max_eq_left h1
  · rintro e rfl h1
    have h2 : e ≤ 1 := by linarith
    simp only [updateTimestep, if_pos h2]
    exact max_eq_right h1
  · cases err with
    | nan => intro; rfl
    | inf => intro; rfl
    | val e => by_cases he : e ≤ 1 <;> simp [updateTimestep, he]
  · intro h1 h2
    cases err with
    | nan => exact ⟨h1, h2⟩
    | inf => exact ⟨h1, h2⟩
    | val e =>
      by_cases he : e ≤ 1
      · simp only [updateTimestep, if_pos he]
        exact ⟨le_max_right _ _, max_le he (by norm_num)⟩
      · simp only [updateTimestep, if_neg he]
        exact ⟨h1, h2⟩

example : 1 / 10000 ≤ Ctl.init.errold ∧ Ctl.init.errold ≤ 1 := by norm_num [Ctl.init]

/-! ### C97 -/

/-- States reachable with dense output being switched on and off (and any parameters); `R k`: the step from
point `k` to `k+1` was taken with dense output. -/
inductive Switched (N : Nat) : Store → Ctl → (Nat → Prop) → Prop where
  | init (junk : Nat → ℝ) (s s' : Store) (c : Ctl) (y0 yp0 : Nat → ℝ) (hN : N ≤ W)
      (h : initialValue N junk s y0 yp0 = some s') : Switched N s' c (fun _ => False)
  | step (junk : Nat → ℝ) (fl : ℝ → ℝ) (p : Par) (eps : ℝ) (dense : Bool)
      (trial : ℝ → ℝ → (Nat → ℝ) → (Nat → ℝ) → Trial) (fuel : Nat) (s s' : Store) (c c' : Ctl) (t : ℝ) (R : Nat → Prop)
      (hr : Switched N s c R) (hw : s.n + 1000 < W) (hw2 : (s.n + 1) * N ≤ W)
      (h : rkStep N junk fl p eps dense trial fuel s c = .ok t s' c') :
      Switched N s' c' (fun k => R k ∨ (dense = true ∧ k = s.n - 1))

structure SwInv (N : Nat) (s : Store) (R : Nat → Prop) : Prop where
  pos : 1 ≤ s.n
  le : s.n ≤ s.alloc
  small : s.n * N ≤ W
  recorded : ∀ k, R k → k + 1 < s.n ∧ k < s.ralloc ∧ ∀ j, j < N → DenseAt N s k j

theorem Switched.inv {N : Nat} {s : Store} {c : Ctl} {R : Nat → Prop} (h : Switched N s c R) : SwInv N s R := by
  induction h with
  | init junk s s' c y0 yp0 hN h =>
    obtain ⟨s1, h1, h2, h3, -⟩ := initialValue_room N junk s y0 yp0 0 (by decide) (by omega)
    rw [h1] at h
    injection h with h
    subst h
    exact ⟨h2.pos, h2.le, by simpa using h2.size, fun k hk => absurd hk id⟩
  | step junk fl p eps dense trial fuel s s' c c' t R hr hw hw2 h ih =>
    obtain ⟨a1, a2, a3⟩ := rkStep_general N junk fl p eps dense trial fuel s c ih.pos ih.le hw hw2
    cases hl : stepLoop fl p eps (s.time (s.n - 1)) (fun h => (trial (s.time (s.n - 1)) h (solutionAt N s (s.n - 1)) (derivativeAt N s (s.n - 1))).err) fuel c.optimal c with
    | fuel => rw [a1 hl] at h; cases h
    | underflow => rw [a2 hl] at h; cases h
    | accepted hh c1 =>
      obtain ⟨s1, x1, x2, x3, x4, x5, x6, x7, x8, x9⟩ := a3 hh c1 hl
      rw [x1] at h
      injection h with ht hs hc
      subst hs
      have hpos := ih.pos
      refine ⟨by omega, x3, by rw [x2]; exact hw2, ?_⟩
      intro k hk
      have old : R k → s.ralloc ≤ s1.ralloc → (∀ m j, j < N → s1.rc m (k * N + j) = s.rc m (k * N + j)) →
          k + 1 < s1.n ∧ k < s1.ralloc ∧ ∀ j, j < N → DenseAt N s1 k j := by
        intro hR hra hrc
        obtain ⟨y1, y2, y3⟩ := ih.recorded k hR
        refine ⟨by omega, by omega, ?_⟩
        intro j hj
        obtain ⟨k3, k4, k5, k6, hm⟩ := y3 j hj
        refine ⟨k3, k4, k5, k6, ?_⟩
        intro m
        rw [hrc m j hj, hm m, x6 k (by omega), x6 (k + 1) y1, (x7 k j (by omega) hj).1, (x7 k j (by omega) hj).2,
          (x7 (k + 1) j y1 hj).1, (x7 (k + 1) j y1 hj).2]
      cases dense with
      | false =>
        obtain ⟨z1, z2⟩ := x8 rfl
        rcases hk with hk | ⟨hd, -⟩
        · exact old hk (by omega) (fun m j _ => by rw [z2])
        · cases hd
      | true =>
        obtain ⟨z1, z2, z3, z4⟩ := x9 rfl
        by_cases hkn : k = s.n - 1
        · subst hkn
          refine ⟨by omega, by omega, ?_⟩
          intro j hj
          refine ⟨(trial (s.time (s.n - 1)) hh (solutionAt N s (s.n - 1)) (derivativeAt N s (s.n - 1))).k3 j,
            (trial (s.time (s.n - 1)) hh (solutionAt N s (s.n - 1)) (derivativeAt N s (s.n - 1))).k4 j,
            (trial (s.time (s.n - 1)) hh (solutionAt N s (s.n - 1)) (derivativeAt N s (s.n - 1))).k5 j,
            (trial (s.time (s.n - 1)) hh (solutionAt N s (s.n - 1)) (derivativeAt N s (s.n - 1))).k6 j, fun m => ?_⟩
          rw [z4 m j hj]
          have e : s.n - 1 + 1 = s.n := by omega
          have hidx : ((s.n - 1) * N) % W = (s.n - 1) * N := by
            apply Nat.mod_eq_of_lt
            have : (s.n - 1) * N < (s.n + 1) * N := Nat.mul_lt_mul_of_pos_right (by omega) (by omega)
            omega
          rw [e, x4, x6 (s.n - 1) (by omega), (x5 j hj).1, (x5 j hj).2, (x7 (s.n - 1) j (by omega) hj).1, (x7 (s.n - 1) j (by omega) hj).2]
          simp only [solutionAt, derivativeAt, hidx]
          congr 1
          ring
        · rcases hk with hk | ⟨-, hk⟩
          · obtain ⟨y1, y2, y3⟩ := ih.recorded k hk
            exact old hk z1 (fun m j hj => z3 m k j y2 y1 hj)
          · exact absurd hk hkn

/-- **C97** With dense output switched on and off between steps: for requests in increasing order within the
integrated interval, all of which are in steps taken with dense output, every output is the value of the
polynomial of such a step (which joins the stored points, `C97_ends`).  Missing:
requests in other steps, see `C97_refuted`. -/
theorem C97_values_partial (N : Nat) (s : Store) (c : Ctl) (R : Nat → Prop) (h : Switched N s c R) (h2 : 2 ≤ s.n)
    (Ts : List ℝ) (hs : Ts.Pairwise (· ≤ ·)) (hlo : ∀ T ∈ Ts, timeAt s 0 ≤ T) (hhi : ∀ T ∈ Ts, T ≤ timeAt s (s.n - 1))
    (hrec : ∀ T ∈ Ts, ∀ k, k + 1 < s.n → timeAt s k ≤ T → T ≤ timeAt s (k + 1) → R k) :
    ∃ outs, outputDense N s Ts 0 = .ok outs ∧ outs.length = Ts.length ∧
      ∀ (i : Nat) (T : ℝ) (o : Nat → ℝ), Ts[i]? = some T → outs[i]? = some o →
        ∃ k, k + 1 < s.n ∧ timeAt s k ≤ T ∧ T ≤ timeAt s (k + 1) ∧ R k ∧ ∀ j, j < N → o j = stepPoly N s k j T := by
  have hinv := h.inv
  have key : ∀ (Ts : List ℝ) (it : Nat), it + 1 < s.n → Ts.Pairwise (· ≤ ·) → (∀ T ∈ Ts, s.time it ≤ T) →
      (∀ T ∈ Ts, T ≤ s.time (s.n - 1)) →
      (∀ T ∈ Ts, ∀ k, k + 1 < s.n → s.time k ≤ T → T ≤ s.time (k + 1) → R k) →
      ∃ outs, outputDense N s Ts it = .ok outs ∧ outs.length = Ts.length ∧
      ∀ (i : Nat) (T : ℝ) (o : Nat → ℝ), Ts[i]? = some T → outs[i]? = some o →
        ∃ k, k + 1 < s.n ∧ s.time k ≤ T ∧ T ≤ s.time (k + 1) ∧ R k ∧ ∀ j, j < N → o j = stepPoly N s k j T := by
    intro Ts
    induction Ts with
    | nil =>
      intro it _ _ _ _ _
      exact ⟨[], rfl, rfl, by intro i T o h; simp at h⟩
    | cons T Ts ih =>
      intro it hit hsrt hlo hhi hrec
      rw [outputDense, if_neg (by omega)]
      simp only
      obtain ⟨a1, a2, a3, a4⟩ := advance_spec s.time s.n T it
      generalize hr : advance s.time s.n T it = r at a1 a2 a3 a4
      have hr1 : r + 1 < s.n := a2 hit
      have hle : T ≤ s.time (r + 1) := by
        by_contra hc
        rw [not_le] at hc
        have : ¬ r + 2 < s.n := fun h => a4 ⟨h, hc⟩
        have e : r + 1 = s.n - 1 := by omega
        rw [e] at hc
        have := hhi T (by simp)
        linarith
      have hge : s.time r ≤ T := by
        rcases a3 with h' | h'
        · rw [h']; exact hlo T (by simp)
        · exact le_of_lt h'
      obtain ⟨-, w2, -⟩ := hinv.recorded r (hrec T (by simp) r hr1 hge hle)
      rw [if_neg (not_lt.2 hle)]
      have hidx : ∀ j, j < N → (r * N + j) % W = r * N + j := by
        intro j hj
        apply Nat.mod_eq_of_lt
        have h1 : r * N + j < N * s.n := flat_lt (by omega) hj
        have := hinv.small
        rw [Nat.mul_comm] at this
        omega
      rw [if_neg (by
        intro hc
        apply hc
        intro j hj
        rw [hidx j hj]
        exact flat_lt w2 hj)]
      rw [List.pairwise_cons] at hsrt
      obtain ⟨outs, ho, hlen, hval⟩ := ih r hr1 hsrt.2
        (fun T' hT' => le_trans hge (hsrt.1 T' hT')) (fun T' hT' => hhi T' (by simp [hT']))
        (fun T' hT' => hrec T' (by simp [hT']))
      rw [ho]
      refine ⟨_, rfl, by simp [hlen], ?_⟩
      intro i T' o hT' ho'
      cases i with
      | zero =>
        simp only [List.getElem?_cons_zero, Option.some.injEq] at hT' ho'
        subst hT'
        refine ⟨r, hr1, hge, hle, hrec T (by simp) r hr1 hge hle, ?_⟩
        intro j hj
        rw [← ho', stepPoly]
        simp only [hidx j hj]
      | succ i =>
        simp only [List.getElem?_cons_succ] at hT' ho'
        exact hval i T' o hT' ho'
  exact key Ts 0 (by omega) hs hlo hhi hrec

/-- **C97** The polynomial of a step taken with dense output has the stored solutions at both ends. -/
theorem C97_ends (N : Nat) (s : Store) (c : Ctl) (R : Nat → Prop) (h : Switched N s c R) (k j : Nat) (hk : R k) (hj : j < N)
    (hne : timeAt s k ≠ timeAt s (k + 1)) :
    stepPoly N s k j (timeAt s k) = solutionAt N s k j ∧ stepPoly N s k j (timeAt s (k + 1)) = solutionAt N s (k + 1) j := by
  have hinv := h.inv
  obtain ⟨hk1, -, hd⟩ := hinv.recorded k hk
  obtain ⟨r5, hp⟩ := stepPoly_eq N s k j (hd j hj)
  have hne' : s.time (k + 1) - s.time k ≠ 0 := sub_ne_zero.2 (Ne.symm hne)
  have hm : ∀ k, k < s.n → (k * N) % W = k * N := by
    intro k hk
    apply Nat.mod_eq_of_lt
    have h1 : k * N + 0 < N * s.n := flat_lt hk (by omega)
    have := hinv.small
    rw [Nat.mul_comm] at this
    omega
  rw [solutionAt, solutionAt, hm k (by omega), hm (k + 1) hk1, hp, hp, timeAt, timeAt]
  refine ⟨?_, ?_⟩
  · simp
  · simp only [div_self hne']; ring

/-- **C97** (refuted as stated) Values of an earlier run: a step from 0 to 3 with dense output, then a restart
and a step from 5 to 7 without; dense output at the end of that step gives 3. -/
theorem C97_refuted : ∃ s c R out, Switched 1 s c R ∧ s.n = 2 ∧ timeAt s 1 = 10 ∧ solutionAt 1 s 1 0 = 7 ∧
    outputDense 1 s [10] 0 = .ok [out] ∧ out 0 = 3 := by
  have hW : W = 4294967296 := rfl
  obtain ⟨s, h1, h2, h3, h4, h5, -⟩ := initialValue_room 1 (fun _ => 0) (emptyStore fun _ => 0) (fun _ => 0) (fun _ => 0) 1 (by omega) (by omega)
  obtain ⟨s1, g1, -, -, -, -, -, -, -, g9⟩ := flat_step 3 1 (1 / 10000) true s h2 h3 h4
  obtain ⟨gr, gc⟩ := g9 rfl
  obtain ⟨s2, i1, i2, i3, i4, i5, i6, i7⟩ := initialValue_room 1 (fun _ => 0) s1 (fun _ => 5) (fun _ => 0) 1 (by omega) (by omega)
  obtain ⟨s3, j1, j2, j3, j4, j5, j6, j7, j8, -⟩ := flat_step 7 (1 * 10) (1 / 10000) false s2 i2 i3 i4
  obtain ⟨jr, jc⟩ := j8 rfl
  have hsw : Switched 1 s2 ⟨1 * 10, 1 / 10000, false⟩ (fun _ => False) :=
    Switched.init (fun _ => 0) s1 s2 _ (fun _ => 5) (fun _ => 0) (by omega) i1
  have e0 : s.sol 0 = 0 := (h5 0 (by omega)).1
  have e1 : s.der 0 = 0 := (h5 0 (by omega)).2
  have ht0 : s3.time 0 = 0 := j4
  have ht1 : s3.time 1 = 10 := by rw [j5]; norm_num
  have hrc : ∀ m, s3.rc m 0 = rcVal 1 0 3 0 0 0 0 0 0 m := by
    intro m; rw [jc, i6, gc m, e0, e1]
  have hra : 1 ≤ s3.ralloc := by rw [jr, i7]; exact gr
  have hadv : advance s3.time s3.n 10 0 = 0 := by
    rw [advance, dif_neg (by rw [j2]; omega)]
  refine ⟨s3, _, _, fun j => denseEval (V := ℝ) ⟨s3.rc 0 ((0 * 1 + j) % W), s3.rc 1 ((0 * 1 + j) % W), s3.rc 2 ((0 * 1 + j) % W),
      s3.rc 3 ((0 * 1 + j) % W), s3.rc 4 ((0 * 1 + j) % W)⟩ ((10 - s3.time 0) / (s3.time (0 + 1) - s3.time 0)),
    Switched.step (fun _ => 0) id Par.default 0 false (flatTrial 7) 1 s2 s3 _ _ _ _ hsw (by omega) (by omega) j1,
    j2, ht1, j7, ?_, ?_⟩
  · rw [outputDense, if_neg (by omega)]
    simp only [hadv]
    rw [if_neg (by rw [ht1]; norm_num), if_neg (by
      intro hc
      apply hc
      intro j hj
      have : j = 0 := by omega
      subst this
      rw [hW]
      omega)]
    rfl
  · have hz : (0 * 1 + 0) % W = 0 := rfl
    simp only [hz, hrc, zero_add, ht0, ht1]
    norm_num [denseEval, rcVal, prepareDense]

/-- A step with dense output, whose two stored times are served. -/
example : ∃ s c R, Switched 1 s c R ∧ s.n = 2 ∧ R 0 ∧ timeAt s 0 = 0 ∧ timeAt s 1 = 1 ∧
    ∃ outs, outputDense 1 s [0, 1] 0 = .ok outs := by
  have hW : W = 4294967296 := rfl
  obtain ⟨s, h1, h2, h3, h4, -⟩ := initialValue_room 1 (fun _ => 0) (emptyStore fun _ => 0) (fun _ => 0) (fun _ => 0) 1 (by omega) (by omega)
  obtain ⟨s1, g1, g2, -, g4, g5, -⟩ := flat_step 3 1 (1 / 10000) true s h2 h3 h4
  have hsw := Switched.step (fun _ => 0) id Par.default 0 true (flatTrial 3) 1 s s1 _ _ _ _
    (Switched.init (fun _ => 0) _ s _ _ _ (by omega) h1) (by omega) (by omega) g1
  have hR : ∀ k, k + 1 < s1.n → (False ∨ (true = true ∧ k = s.n - 1)) := fun k hk => .inr ⟨rfl, by omega⟩
  have g4' : timeAt s1 0 = 0 := g4
  have g5' : timeAt s1 1 = 1 := g5
  refine ⟨s1, _, _, hsw, g2, hR 0 (by omega), g4', g5', ?_⟩
  obtain ⟨outs, ho, -⟩ := C97_values_partial 1 s1 _ _ hsw (by omega) [0, 1] (by simp)
    (by intro T hT; rw [g4']; rcases List.mem_pair.mp hT with rfl | rfl <;> norm_num)
    (by intro T hT; rw [g2, g5']; rcases List.mem_pair.mp hT with rfl | rfl <;> norm_num)
    (fun T _ k hk _ _ => hR k hk)
  exact ⟨outs, ho⟩

/-- Without dense output from the start there are no coefficients at all: undefined. -/
theorem C97_never_on (N : Nat) (hN : 0 < N) (s : Store) (h2 : 2 ≤ s.n) (hra : s.ralloc = 0) (T : ℝ) (Ts : List ℝ)
    (hT : T ≤ s.time 1) : outputDense N s (T :: Ts) 0 = .ub := by
  have hadv : advance s.time s.n T 0 = 0 := by
    rw [advance, dif_neg]
    rintro ⟨-, h⟩
    linarith
  rw [outputDense, if_neg (by omega)]
  simp only [hadv]
  rw [if_neg (by rw [not_lt]; exact hT), if_pos]
  intro hc
  have := hc 0 hN
  rw [hra] at this
  omega

end

end Softlib
