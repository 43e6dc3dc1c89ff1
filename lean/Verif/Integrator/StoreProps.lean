/-
Properties C34 and C38: stored solutions and dense output.
-/
import Verif.Integrator.StepProps
import Mathlib.Analysis.Calculus.Deriv.Add
import Mathlib.Analysis.Calculus.Deriv.Mul
import Mathlib.Analysis.Calculus.Deriv.Comp

namespace Softlib

open Softlib.Integrator

noncomputable section

/-! ### C34 -/

/-- One stored point: time, solution, derivative. -/
structure Entry where
  t : ℝ
  y : Nat → ℝ
  yp : Nat → ℝ

/-- The integrator holds exactly the points of `hist`, in order. -/
def Holds (N : Nat) (s : Store) (hist : List Entry) : Prop :=
  s.n = hist.length ∧ s.n ≤ s.alloc ∧
  ∀ (k : Nat) (e : Entry), hist[k]? = some e →
    s.time k = e.t ∧ ∀ j, j < N → s.sol (k * N + j) = e.y j ∧ s.der (k * N + j) = e.yp j

theorem flat_lt {N k a j : Nat} (hk : k < a) (hj : j < N) : k * N + j < N * a := by
  calc k * N + j < k * N + N := by omega
    _ = (k + 1) * N := by rw [Nat.add_mul, Nat.one_mul]
    _ ≤ a * N := Nat.mul_le_mul_right N hk
    _ = N * a := Nat.mul_comm _ _

theorem flat_ne {N k k' j j' : Nat} (hj : j < N) (hj' : j' < N) (hk : k < k') : k * N + j < k' * N + j' := by
  have : (k + 1) * N ≤ k' * N := Nat.mul_le_mul_right N hk
  rw [Nat.add_mul, Nat.one_mul] at this
  omega

/-- Growing keeps everything stored. -/
theorem grow_keeps (N : Nat) (junk : Nat → ℝ) (s : Store) (hn : s.n ≤ s.alloc) (hw : s.n + 1000 < W) :
    (growStore N junk s).n = s.n ∧ s.n < (growStore N junk s).alloc ∧ s.alloc ≤ (growStore N junk s).alloc ∧
    (growStore N junk s).ralloc = s.ralloc ∧ (growStore N junk s).rc = s.rc ∧
    (∀ k, k < s.n → (growStore N junk s).time k = s.time k) ∧
    (∀ k j, k < s.n → j < N → (growStore N junk s).sol (k * N + j) = s.sol (k * N + j) ∧
      (growStore N junk s).der (k * N + j) = s.der (k * N + j)) := by
  unfold growStore
  split
  · rename_i h
    have ha : (s.alloc + 1000) % W = s.alloc + 1000 := Nat.mod_eq_of_lt (by omega)
    simp only [ha]
    refine ⟨by trivial, by omega, by omega, by trivial, by trivial, ?_, ?_⟩
    · intro k hk
      simp only [regrow]
      rw [if_pos (by omega)]
    · intro k j hk hj
      have h1 : k * N + j < N * s.alloc := flat_lt (by omega) hj
      have h2 : k * N + j < N * (s.alloc + 1000) := flat_lt (by omega) hj
      simp only [regrow]
      rw [if_pos (by omega), if_pos (by omega)]
      exact ⟨rfl, rfl⟩
  · exact ⟨rfl, by omega, Nat.le_refl _, rfl, rfl, fun _ _ => rfl, fun _ _ _ _ => ⟨rfl, rfl⟩⟩

theorem copyTo_in (N base : Nat) (v a : Nat → ℝ) (j : Nat) (hj : j < N) : copyTo N base v a (base + j) = v j := by
  unfold copyTo
  rw [if_pos (by omega), Nat.add_sub_cancel_left]

theorem copyTo_out (N base : Nat) (v a : Nat → ℝ) (i : Nat) (hi : i < base ∨ base + N ≤ i) :
    copyTo N base v a i = a i := by
  unfold copyTo
  rw [if_neg (by omega)]

/-- Storing one more point: succeeds, adds the point, keeps the others. -/
theorem store_one (N : Nat) (junk : Nat → ℝ) (s : Store) (hn : s.n ≤ s.alloc) (hw : s.n + 1000 < W)
    (hw2 : (s.n + 1) * N ≤ W) (t : ℝ) (y yp : Nat → ℝ) :
    ∃ s', storeSolution N junk s t y yp = some s' ∧ s'.n = s.n + 1 ∧ s'.n ≤ s'.alloc ∧ s.alloc ≤ s'.alloc ∧
      s'.ralloc = s.ralloc ∧ s'.rc = s.rc ∧ s'.time s.n = t ∧
      (∀ j, j < N → s'.sol (s.n * N + j) = y j ∧ s'.der (s.n * N + j) = yp j) ∧
      (∀ k, k < s.n → s'.time k = s.time k) ∧
      (∀ k j, k < s.n → j < N → s'.sol (k * N + j) = s.sol (k * N + j) ∧ s'.der (k * N + j) = s.der (k * N + j)) := by
  obtain ⟨g1, g2, g3, g4, g5, g6, g7⟩ := grow_keeps N junk s hn hw
  unfold storeSolution
  generalize hs1 : growStore N junk s = s1 at g1 g2 g3 g4 g5 g6 g7 ⊢
  simp only [g1]
  rcases Nat.eq_zero_or_pos N with hN | hN
  · subst hN
    have : (s.n * 0) % W = 0 := by simp
    simp only [this]
    rw [if_pos ⟨g2, by omega⟩]
    refine ⟨_, rfl, ?_, ?_, ?_, g4, g5, ?_, ?_, ?_, ?_⟩
    · exact Nat.mod_eq_of_lt (by omega)
    · show (s.n + 1) % W ≤ s1.alloc
      rw [Nat.mod_eq_of_lt (by omega)]
      exact g2
    · exact g3
    · show (if s.n = s.n then t else _) = t
      rw [if_pos rfl]
    · intro j hj; omega
    · intro k hk
      show (if k = s.n then t else _) = _
      rw [if_neg (by omega)]
      exact g6 k hk
    · intro k j _ hj; omega
  · have hlt : s.n * N < W := by
      have : s.n * N < (s.n + 1) * N := by rw [Nat.add_mul]; omega
      omega
    have ho : (s.n * N) % W = s.n * N := Nat.mod_eq_of_lt hlt
    have hb : s.n * N + N ≤ N * s1.alloc := by
      have := Nat.mul_le_mul_right N g2
      rw [Nat.succ_mul, Nat.mul_comm s1.alloc N] at this
      exact this
    simp only [ho]
    rw [if_pos ⟨g2, hb⟩]
    refine ⟨_, rfl, ?_, ?_, g3, g4, g5, ?_, ?_, ?_, ?_⟩
    · exact Nat.mod_eq_of_lt (by omega)
    · show (s.n + 1) % W ≤ s1.alloc
      rw [Nat.mod_eq_of_lt (by omega)]
      exact g2
    · show (if s.n = s.n then t else _) = t
      rw [if_pos rfl]
    · intro j hj
      exact ⟨copyTo_in N _ y _ j hj, copyTo_in N _ yp _ j hj⟩
    · intro k hk
      show (if k = s.n then t else _) = _
      rw [if_neg (by omega)]
      exact g6 k hk
    · intro k j hk hj
      have hlt : k * N + j < s.n * N := by
        have := flat_ne (N := N) (k := k) (k' := s.n) (j := j) (j' := 0) hj hN hk
        omega
      constructor
      · show copyTo N (s.n * N) y s1.sol (k * N + j) = _
        rw [copyTo_out _ _ _ _ _ (.inl hlt)]
        exact (g7 k j hk hj).1
      · show copyTo N (s.n * N) yp s1.der (k * N + j) = _
        rw [copyTo_out _ _ _ _ _ (.inl hlt)]
        exact (g7 k j hk hj).2

/-- Storing a list of points; new memory may hold anything. -/
def storeAll (N : Nat) (junk : Nat → Nat → ℝ) (s : Store) (hist : List Entry) : Option Store :=
  hist.foldlM (fun s e => storeSolution N (junk s.n) s e.t e.y e.yp) s

theorem Holds.store {N : Nat} {s : Store} {hist : List Entry} (h : Holds N s hist) (junk : Nat → ℝ) (e : Entry)
    (hw : hist.length + 1000 < W) (hw2 : (hist.length + 1) * N ≤ W) :
    ∃ s', storeSolution N junk s e.t e.y e.yp = some s' ∧ Holds N s' (hist ++ [e]) := by
  obtain ⟨h1, h2, h3⟩ := h
  obtain ⟨s', hs, p1, p2, p3, -, -, p5, p6, p7, p8⟩ :=
    store_one N junk s h2 (by omega) (by rw [h1]; exact hw2) e.t e.y e.yp
  refine ⟨s', hs, by rw [p1, List.length_append, List.length_singleton, h1], p2, ?_⟩
  intro k f hf
  by_cases hk : k < hist.length
  · rw [List.getElem?_append_left hk] at hf
    obtain ⟨q1, q2⟩ := h3 k f hf
    refine ⟨by rw [p7 k (by omega), q1], ?_⟩
    intro j hj
    obtain ⟨r1, r2⟩ := p8 k j (by omega) hj
    rw [r1, r2]
    exact q2 j hj
  · have hk' : k = hist.length := by
      have := (List.getElem?_eq_some_iff.1 hf).1
      rw [List.length_append, List.length_singleton] at this
      omega
    subst hk'
    rw [List.getElem?_append_right (Nat.le_refl _), Nat.sub_self] at hf
    simp only [List.getElem?_cons_zero, Option.some.injEq] at hf
    subst hf
    rw [← h1]
    exact ⟨p5, p6⟩

theorem Holds.storeAll {N : Nat} (junk : Nat → Nat → ℝ) : ∀ (more : List Entry) (s : Store) (hist : List Entry),
    Holds N s hist → hist.length + more.length + 1000 ≤ W → (hist.length + more.length) * N ≤ W →
    ∃ s', storeAll N junk s more = some s' ∧ Holds N s' (hist ++ more) := by
  intro more
  induction more with
  | nil => intro s hist h _ _; exact ⟨s, rfl, by simpa using h⟩
  | cons e more ih =>
    intro s hist h hw hw2
    rw [List.length_cons] at hw hw2
    obtain ⟨s1, hs1, h1⟩ := h.store (junk s.n) e (by omega) (by
      refine Nat.le_trans (Nat.mul_le_mul_right N ?_) hw2
      omega)
    obtain ⟨s2, hs2, h2⟩ := ih s1 (hist ++ [e]) h1 (by rw [List.length_append, List.length_singleton]; omega)
      (by
        rw [List.length_append, List.length_singleton]
        refine Nat.le_trans (Nat.mul_le_mul_right N ?_) hw2
        omega)
    refine ⟨s2, ?_, by simpa using h2⟩
    rw [Softlib.storeAll, List.foldlM_cons, hs1]
    exact hs2

/-- C34: after setting an initial value (on a new or used integrator) and storing any number of
steps, the k-th time, solution and derivative are those of the k-th point, with no write outside
the arrays — as long as the number of stored numbers fits into 32 bits.
Missing: beyond that, see `C34_refuted`. -/
theorem C34_storage_partial (N : Nat) (junk : Nat → Nat → ℝ) (s : Store) (y0 yp0 : Nat → ℝ)
    (steps : List Entry) (hw : steps.length + 1001 ≤ W) (hw2 : (steps.length + 1) * N ≤ W) :
    ∃ s1 s2, initialValue N (junk 0) s y0 yp0 = some s1 ∧ storeAll N junk s1 steps = some s2 ∧
      s2.n = steps.length + 1 ∧
      ∀ (k : Nat) (e : Entry), (⟨0, y0, yp0⟩ :: steps)[k]? = some e →
        timeAt s2 k = e.t ∧ ∀ j, j < N → solutionAt N s2 k j = e.y j ∧ derivativeAt N s2 k j = e.yp j := by
  have h0 : Holds N ⟨s.alloc, 0, s.time, s.sol, s.der, s.ralloc, s.rc⟩ [] :=
    ⟨rfl, Nat.zero_le _, by intro k e h; simp at h⟩
  obtain ⟨s1, hs1, h1⟩ := h0.store (junk 0) ⟨0, y0, yp0⟩ (by show 0 + 1000 < W; decide) (by
    show (0 + 1) * N ≤ W
    refine Nat.le_trans (Nat.mul_le_mul_right N ?_) hw2
    omega)
  obtain ⟨s2, hs2, h2⟩ := Holds.storeAll junk steps s1 _ h1 (by simp; omega) (by simpa [Nat.add_comm] using hw2)
  refine ⟨s1, s2, hs1, hs2, by rw [h2.1]; simp [Nat.add_comm], ?_⟩
  intro k e he
  obtain ⟨q1, q2⟩ := h2.2.2 k e he
  refine ⟨q1, ?_⟩
  intro j hj
  have hk : k < steps.length + 1 := by
    have := (List.getElem?_eq_some_iff.1 he).1
    simpa using this
  have : (k * N) % W = k * N := by
    apply Nat.mod_eq_of_lt
    have := Nat.mul_le_mul_right N (Nat.le_of_lt_succ hk)
    have h3 : steps.length * N < (steps.length + 1) * N := by rw [Nat.add_mul]; omega
    omega
  rw [solutionAt, derivativeAt, this]
  exact q2 j hj

/-- C34 as stated is refuted beyond 32 bits: two components, 2^31 + 1 stored points — the last
one overwrites the first. -/
theorem C34_refuted (junk : Nat → Nat → ℝ) (M : Nat) (hM : M = 2147483648) (a b : Entry) :
    ∃ s', storeAll 2 junk (emptyStore (junk 0)) (List.replicate M a ++ [b]) = some s' ∧
      solutionAt 2 s' 0 0 = b.y 0 := by
  have hW : W = 4294967296 := rfl
  have h0 : Holds 2 (emptyStore (junk 0)) [] := ⟨rfl, Nat.zero_le _, by intro k e h; simp at h⟩
  obtain ⟨s1, hs1, h1⟩ := Holds.storeAll junk (List.replicate M a) _ _ h0
    (by rw [List.length_replicate, List.length_nil]; omega) (by rw [List.length_replicate, List.length_nil]; omega)
  have hn : s1.n = M := by rw [h1.1, List.nil_append, List.length_replicate]
  obtain ⟨g1, g2, -⟩ := grow_keeps 2 (junk s1.n) s1 h1.2.1 (by omega)
  have hs2 : ∃ s2, storeSolution 2 (junk s1.n) s1 b.t b.y b.yp = some s2 ∧ s2.sol 0 = b.y 0 := by
    unfold storeSolution
    generalize growStore 2 (junk s1.n) s1 = s3 at g1 g2
    have ho : (s3.n * 2) % W = 0 := by rw [g1, hn, hM, hW]
    simp only [ho]
    rw [if_pos ⟨by omega, by omega⟩]
    exact ⟨_, rfl, copyTo_in 2 0 b.y s3.sol 0 (by omega)⟩
  obtain ⟨s2, hs2, hv⟩ := hs2
  refine ⟨s2, ?_, ?_⟩
  · have : storeAll 2 junk (emptyStore (junk 0)) (List.replicate M a ++ [b]) =
        (storeAll 2 junk (emptyStore (junk 0)) (List.replicate M a)).bind
          (fun s => storeAll 2 junk s [b]) := by
      rw [storeAll, List.foldlM_append]
      rfl
    rw [this, hs1]
    show storeAll 2 junk s1 [b] = some s2
    rw [storeAll, List.foldlM_cons, hs2]
    rfl
  · rw [solutionAt]
    have : (0 * 2) % W + 0 = 0 := by rw [hW]
    rw [this]
    exact hv

/-- Three points with two components, on a new integrator. -/
example : ∃ s1 s2, initialValue 2 (fun _ => 0) (emptyStore (fun _ => 0)) (fun _ => 1) (fun _ => 2) = some s1 ∧
    storeAll 2 (fun _ _ => 0) s1 [⟨5, fun _ => 6, fun _ => 7⟩, ⟨8, fun _ => 9, fun _ => 10⟩] = some s2 ∧
    timeAt s2 1 = 5 ∧ solutionAt 2 s2 2 1 = 9 := by
  obtain ⟨s1, s2, h1, h2, -, h4⟩ := C34_storage_partial 2 (fun _ _ => 0) (emptyStore (fun _ => 0)) (fun _ => 1)
    (fun _ => 2) [⟨5, fun _ => 6, fun _ => 7⟩, ⟨8, fun _ => 9, fun _ => 10⟩] (by simp [W]) (by simp [W])
  exact ⟨s1, s2, h1, h2, (h4 1 _ rfl).1, ((h4 2 _ rfl).2 1 (by omega)).1⟩

/-! ### invariant of a running integrator -/

/-- Dense coefficients of the interval from point `k` to point `k+1`, component `j`, belong to
the stored points. -/
def DenseAt (N : Nat) (s : Store) (k j : Nat) : Prop :=
  ∃ k3 k4 k5 k6 : ℝ, ∀ m, s.rc m (k * N + j) =
    rcVal (s.time (k + 1) - s.time k) (s.sol (k * N + j)) (s.sol ((k + 1) * N + j))
      (s.der (k * N + j)) (s.der ((k + 1) * N + j)) k3 k4 k5 k6 m

structure RkInv (N : Nat) (s : Store) (c : Ctl) : Prop where
  pos : 1 ≤ s.n
  le : s.n ≤ s.alloc
  small : s.n * N ≤ W
  inc : ∀ k, k + 1 < s.n → s.time k < s.time (k + 1)
  ralloc : s.n ≤ 1 ∨ s.n ≤ s.ralloc
  dense : ∀ k j, k + 1 < s.n → j < N → DenseAt N s k j
  step : 0 < c.optimal

theorem rcVal_copy (N off : Nat) (f : Nat → Fin 5 → ℝ) (a : Fin 5 → Nat → ℝ) (j : Nat) (hj : j < N) (m : Fin 5) :
    copyTo N off (fun i => f i m) (a m) (off + j) = f j m := copyTo_in N off (fun i => f i m) (a m) j hj

/-- One call of `Step`: adds exactly one point, keeps all earlier ones, keeps the invariant and
is never undefined; and the dense coefficients it leaves. -/
theorem rkStep_full (N : Nat) (junk : Nat → ℝ) (eps : ℝ)
    (trial : ℝ → ℝ → (Nat → ℝ) → (Nat → ℝ) → Trial) (fuel : Nat) (s : Store) (c : Ctl)
    (h : RkInv N s c) (hw : s.n + 1000 < W) (hw2 : (s.n + 1) * N ≤ W) :
    rkStep N junk id Par.default eps true trial fuel s c ≠ .ub ∧
    ∀ t s' c', rkStep N junk id Par.default eps true trial fuel s c = .ok t s' c' →
      RkInv N s' c' ∧ s'.n = s.n + 1 ∧ s'.time s.n = t ∧
      (∀ k, k < s.n → s'.time k = s.time k) ∧
      (∀ k j, k < s.n → j < N → s'.sol (k * N + j) = s.sol (k * N + j) ∧ s'.der (k * N + j) = s.der (k * N + j)) ∧
      ∃ h, 0 < h ∧ t = s.time (s.n - 1) + h ∧
        (∀ j, j < N →
          s'.sol (s.n * N + j) = (trial (s.time (s.n - 1)) h (solutionAt N s (s.n - 1)) (derivativeAt N s (s.n - 1))).yout j ∧
          s'.der (s.n * N + j) = (trial (s.time (s.n - 1)) h (solutionAt N s (s.n - 1)) (derivativeAt N s (s.n - 1))).dydxout j) ∧
        (∀ m k j, k + 1 < s.n → j < N → s'.rc m (k * N + j) = s.rc m (k * N + j)) ∧
        let q := trial (s.time (s.n - 1)) h (solutionAt N s (s.n - 1)) (derivativeAt N s (s.n - 1))
        ∀ m j, j < N → s'.rc m ((s.n - 1) * N + j) =
          rcVal h (solutionAt N s (s.n - 1) j) (q.yout j) (derivativeAt N s (s.n - 1) j) (q.dydxout j)
            (q.k3 j) (q.k4 j) (q.k5 j) (q.k6 j) m := by
  obtain ⟨hp, hle, hsm, hinc, hra, hden, hopt⟩ := h
  have h0 : ¬ s.n = 0 := by omega
  unfold rkStep
  rw [if_neg h0]
  simp only
  cases hl : stepLoop id Par.default eps (timeAt s (s.n - 1))
      (fun h => (trial (timeAt s (s.n - 1)) h (solutionAt N s (s.n - 1)) (derivativeAt N s (s.n - 1))).err) fuel c.optimal c with
  | fuel => exact ⟨by simp, by intro t s' c' h; cases h⟩
  | underflow => exact ⟨by simp, by intro t s' c' h; cases h⟩
  | accepted hh c1 =>
    obtain ⟨lp1, lp2, lp3⟩ := loop_positive eps _ _ fuel c.optimal c hopt hh c1 hl
    simp only
    generalize hq : trial (timeAt s (s.n - 1)) hh (solutionAt N s (s.n - 1)) (derivativeAt N s (s.n - 1)) = q
    obtain ⟨s1, hs1, p1, p2, p3, pr, prc, p5, p6, p7, p8⟩ :=
      store_one N junk s hle hw hw2 (timeAt s (s.n - 1) + hh) q.yout q.dydxout
    rw [hs1]
    simp only
    have hn1 : s1.n > 1 := by omega
    simp only [Bool.true_and, hn1, decide_true, if_true]
    have hoff : ((s1.n - 2) * N) % W = (s.n - 1) * N := by
      have e : s1.n - 2 = s.n - 1 := by omega
      rw [e]
      rcases Nat.eq_zero_or_pos N with hN | hN
      · subst hN; simp
      · apply Nat.mod_eq_of_lt
        have : (s.n - 1) * N < (s.n + 1) * N := Nat.mul_lt_mul_of_pos_right (by omega) hN
        omega
    -- the arrays after possible growth
    let s3 : Store := if s1.ralloc < s1.alloc then
      ⟨s1.alloc, s1.n, s1.time, s1.sol, s1.der, s1.alloc, fun m => regrow (N * s1.ralloc) (N * s1.alloc) junk (s1.rc m)⟩
      else s1
    have hs3 : s3.alloc = s1.alloc ∧ s3.n = s1.n ∧ s3.time = s1.time ∧ s3.sol = s1.sol ∧ s3.der = s1.der ∧
        s1.alloc ≤ s3.ralloc ∧ (∀ m k j, k + 1 < s.n → j < N → s3.rc m (k * N + j) = s.rc m (k * N + j)) := by
      by_cases hg : s1.ralloc < s1.alloc
      · have e : s3 = ⟨s1.alloc, s1.n, s1.time, s1.sol, s1.der, s1.alloc,
            fun m => regrow (N * s1.ralloc) (N * s1.alloc) junk (s1.rc m)⟩ := by
          show (if _ then _ else _) = _
          rw [if_pos hg]
        rw [e]
        refine ⟨rfl, rfl, rfl, rfl, rfl, Nat.le_refl _, ?_⟩
        intro m k j hk hj
        have hk2 : k < s1.ralloc := by rw [pr]; rcases hra with h | h <;> omega
        have h1 : k * N + j < N * s1.ralloc := flat_lt hk2 hj
        have h2 : k * N + j < N * s1.alloc := flat_lt (by omega) hj
        simp only [regrow]
        rw [if_pos (by omega), prc]
      · have e : s3 = s1 := by
          show (if _ then _ else _) = _
          rw [if_neg hg]
        rw [e]
        exact ⟨rfl, rfl, rfl, rfl, rfl, by omega, fun m k j _ _ => by rw [prc]⟩
    have hbound : (s.n - 1) * N + N ≤ N * s3.ralloc := by
      have : s.n ≤ s3.ralloc := by have := hs3.2.2.2.2.2.1; omega
      have h2 := Nat.mul_le_mul_right N this
      have h3 : (s.n - 1) * N + N = s.n * N := by
        have e : s.n = (s.n - 1) + 1 := by omega
        conv => rhs; rw [e, Nat.add_mul, Nat.one_mul]
      rw [h3, Nat.mul_comm N]
      exact h2
    have hsd : storeDense N junk s1 hh (solutionAt N s (s.n - 1)) q.yout (derivativeAt N s (s.n - 1)) q.dydxout q =
        some ⟨s3.alloc, s3.n, s3.time, s3.sol, s3.der, s3.ralloc, fun m =>
          copyTo N ((s.n - 1) * N) (fun i => rcVal hh (solutionAt N s (s.n - 1) i) (q.yout i)
            (derivativeAt N s (s.n - 1) i) (q.dydxout i) (q.k3 i) (q.k4 i) (q.k5 i) (q.k6 i) m) (s3.rc m)⟩ := by
      unfold storeDense
      simp only [hoff]
      rw [if_pos hbound]
    rw [hsd]
    simp only
    refine ⟨by simp, ?_⟩
    intro t s' c' heq
    simp only [StepRes.ok.injEq] at heq
    obtain ⟨ht, hs', hc'⟩ := heq
    obtain ⟨q1, q2, q3, q4, q5, q6, q7⟩ := hs3
    have hsolAt : ∀ j, j < N → solutionAt N s (s.n - 1) j = s.sol ((s.n - 1) * N + j) ∧
        derivativeAt N s (s.n - 1) j = s.der ((s.n - 1) * N + j) := by
      intro j hj
      have : ((s.n - 1) * N) % W = (s.n - 1) * N := by
        apply Nat.mod_eq_of_lt
        have : (s.n - 1) * N < (s.n + 1) * N := Nat.mul_lt_mul_of_pos_right (by omega) (by omega)
        omega
      rw [solutionAt, derivativeAt, this]
      exact ⟨rfl, rfl⟩
    subst hs'
    subst hc'
    subst ht
    have htime : ∀ k, s3.time k = s1.time k := fun k => by rw [q3]
    refine ⟨⟨?_, ?_, ?_, ?_, ?_, ?_, lp3⟩, ?_, ?_, ?_, ?_, ⟨hh, lp1, rfl, ?_, ?_, ?_⟩⟩
    · show 1 ≤ s3.n; omega
    · show s3.n ≤ s3.alloc; omega
    · show s3.n * N ≤ W; rw [q2, p1]; exact hw2
    · intro k hk
      show s3.time k < s3.time (k + 1)
      have hk' : k + 1 < s3.n := hk
      rw [q2, p1] at hk'
      rw [htime, htime]
      rcases Nat.lt_or_ge (k + 1) s.n with h1 | h1
      · rw [p7 k (by omega), p7 (k + 1) h1]
        exact hinc k h1
      · have e : k + 1 = s.n := by omega
        rw [p7 k (by omega), e, p5]
        have : k = s.n - 1 := by omega
        rw [this]
        show s.time (s.n - 1) < s.time (s.n - 1) + hh
        linarith
    · right; show s3.n ≤ s3.ralloc; omega
    · intro k j hk hj
      have hk' : k + 1 < s3.n := hk
      rw [q2, p1] at hk'
      unfold DenseAt
      simp only [q3, q4, q5]
      rcases Nat.lt_or_ge (k + 1) s.n with h1 | h1
      · obtain ⟨k3, k4, k5, k6, hm⟩ := hden k j h1 hj
        refine ⟨k3, k4, k5, k6, ?_⟩
        intro m
        have hlt : k * N + j < (s.n - 1) * N := by
          have := flat_ne (N := N) (k := k) (k' := s.n - 1) (j := j) (j' := 0) hj (by omega) (by omega)
          omega
        rw [copyTo_out _ _ _ _ _ (.inl hlt), q7 m k j h1 hj, hm m]
        rw [p7 k (by omega), p7 (k + 1) h1]
        obtain ⟨a1, a2⟩ := p8 k j (by omega) hj
        obtain ⟨b1, b2⟩ := p8 (k + 1) j h1 hj
        rw [a1, a2, b1, b2]
      · have e : k = s.n - 1 := by omega
        have e1 : k + 1 = s.n := by omega
        refine ⟨q.k3 j, q.k4 j, q.k5 j, q.k6 j, ?_⟩
        intro m
        rw [e1]
        subst e
        rw [rcVal_copy N ((s.n - 1) * N) (fun i => rcVal hh (solutionAt N s (s.n - 1) i) (q.yout i)
            (derivativeAt N s (s.n - 1) i) (q.dydxout i) (q.k3 i) (q.k4 i) (q.k5 i) (q.k6 i)) s3.rc j hj m]
        rw [p5, p7 (s.n - 1) (by omega), (p6 j hj).1, (p6 j hj).2, (p8 (s.n - 1) j (by omega) hj).1,
          (p8 (s.n - 1) j (by omega) hj).2, (hsolAt j hj).1, (hsolAt j hj).2]
        congr 1
        show hh = s.time (s.n - 1) + hh - s.time (s.n - 1)
        ring
    · show s3.n = s.n + 1; omega
    · show s3.time s.n = _; rw [htime, p5]
    · intro k hk; show s3.time k = _; rw [htime, p7 k hk]
    · intro k j hk hj
      show s3.sol _ = _ ∧ s3.der _ = _
      rw [q4, q5]
      exact p8 k j hk hj
    · intro j hj
      show s3.sol _ = _ ∧ s3.der _ = _
      rw [q4, q5]
      have hq' : trial (s.time (s.n - 1)) hh (solutionAt N s (s.n - 1)) (derivativeAt N s (s.n - 1)) = q := hq
      rw [hq']
      exact p6 j hj
    · intro m k j hk hj
      simp only
      have hlt : k * N + j < (s.n - 1) * N := by
        have := flat_ne (N := N) (k := k) (k' := s.n - 1) (j := j) (j' := 0) hj (by omega) (by omega)
        omega
      rw [copyTo_out _ _ _ _ _ (.inl hlt), q7 m k j hk hj]
    · intro m j hj
      have hq' : trial (s.time (s.n - 1)) hh (solutionAt N s (s.n - 1)) (derivativeAt N s (s.n - 1)) = q := hq
      rw [hq']
      exact rcVal_copy N ((s.n - 1) * N) (fun i => rcVal hh (solutionAt N s (s.n - 1) i) (q.yout i)
        (derivativeAt N s (s.n - 1) i) (q.dydxout i) (q.k3 i) (q.k4 i) (q.k5 i) (q.k6 i)) s3.rc j hj m

/-- One call of `Step`: adds exactly one point, keeps all earlier ones, keeps the invariant and
is never undefined. -/
theorem rkStep_inv (N : Nat) (junk : Nat → ℝ) (eps : ℝ)
    (trial : ℝ → ℝ → (Nat → ℝ) → (Nat → ℝ) → Trial) (fuel : Nat) (s : Store) (c : Ctl)
    (h : RkInv N s c) (hw : s.n + 1000 < W) (hw2 : (s.n + 1) * N ≤ W) :
    rkStep N junk id Par.default eps true trial fuel s c ≠ .ub ∧
    ∀ t s' c', rkStep N junk id Par.default eps true trial fuel s c = .ok t s' c' →
      RkInv N s' c' ∧ s'.n = s.n + 1 ∧ s'.time s.n = t ∧
      (∀ k, k < s.n → s'.time k = s.time k) ∧
      (∀ k j, k < s.n → j < N → s'.sol (k * N + j) = s.sol (k * N + j) ∧ s'.der (k * N + j) = s.der (k * N + j)) ∧
      ∃ h, 0 < h ∧ t = s.time (s.n - 1) + h ∧
        ∀ j, j < N →
          s'.sol (s.n * N + j) = (trial (s.time (s.n - 1)) h (solutionAt N s (s.n - 1)) (derivativeAt N s (s.n - 1))).yout j ∧
          s'.der (s.n * N + j) = (trial (s.time (s.n - 1)) h (solutionAt N s (s.n - 1)) (derivativeAt N s (s.n - 1))).dydxout j := by
  obtain ⟨a, b⟩ := rkStep_full N junk eps trial fuel s c h hw hw2
  refine ⟨a, fun t s' c' he => ?_⟩
  obtain ⟨b1, b2, b3, b4, b5, hh, b6, b7, b8, -⟩ := b t s' c' he
  exact ⟨b1, b2, b3, b4, b5, hh, b6, b7, b8⟩

/-- Reachable states: an initial value on any integrator, then successful steps, as long as
the counters fit into 32 bits. -/
inductive Reach (N : Nat) : Store → Ctl → Prop where
  | init (junk : Nat → ℝ) (s s' : Store) (c : Ctl) (y0 yp0 : Nat → ℝ) (hc : 0 < c.optimal) (hN : N ≤ W)
      (h : initialValue N junk s y0 yp0 = some s') : Reach N s' c
  | step (junk : Nat → ℝ) (eps : ℝ) (trial : ℝ → ℝ → (Nat → ℝ) → (Nat → ℝ) → Trial) (fuel : Nat)
      (s s' : Store) (c c' : Ctl) (t : ℝ) (hr : Reach N s c) (hw : s.n + 1000 < W) (hw2 : (s.n + 1) * N ≤ W)
      (h : rkStep N junk id Par.default eps true trial fuel s c = .ok t s' c') : Reach N s' c'

theorem Reach.inv {N : Nat} {s : Store} {c : Ctl} (h : Reach N s c) : RkInv N s c := by
  induction h with
  | init junk s s' c y0 yp0 hc hN h =>
    obtain ⟨s1, hs1, p1, p2, p3, pr, prc, p5, p6, p7, p8⟩ :=
      store_one N junk ⟨s.alloc, 0, s.time, s.sol, s.der, s.ralloc, s.rc⟩ (Nat.zero_le _) (by show 0 + 1000 < W; decide)
        (by show (0 + 1) * N ≤ W; omega) 0 y0 yp0
    unfold initialValue at h
    rw [hs1, Option.some.injEq] at h
    subst h
    have hn : s1.n = 1 := p1
    exact ⟨by omega, p2, by rw [hn]; omega, by intro k hk; omega, .inl (by omega), by intro k j hk _; omega, hc⟩
  | step junk eps trial fuel s s' c c' t hr hw hw2 h ih =>
    exact ((rkStep_inv N junk eps trial fuel s c ih hw hw2).2 t s' c' h).1

/-- C34 for whole integrations: a step adds one point — the accepted trial — after the stored
ones, all of which stay as they are; by induction the k-th point is that of the k-th accepted
step. -/
theorem C34_step_appends_partial (N : Nat) (junk : Nat → ℝ) (eps : ℝ)
    (trial : ℝ → ℝ → (Nat → ℝ) → (Nat → ℝ) → Trial) (fuel : Nat) (s : Store) (c : Ctl)
    (hr : Reach N s c) (hw : s.n + 1000 < W) (hw2 : (s.n + 1) * N ≤ W) (t : ℝ) (s' : Store) (c' : Ctl)
    (h : rkStep N junk id Par.default eps true trial fuel s c = .ok t s' c') :
    s'.n = s.n + 1 ∧ timeAt s' s.n = t ∧ (∀ k, k < s.n → timeAt s' k = timeAt s k) ∧
    (∀ k j, k < s.n → j < N → solutionAt N s' k j = solutionAt N s k j ∧ derivativeAt N s' k j = derivativeAt N s k j) ∧
    ∃ h, 0 < h ∧ t = timeAt s (s.n - 1) + h ∧
      let q := trial (timeAt s (s.n - 1)) h (solutionAt N s (s.n - 1)) (derivativeAt N s (s.n - 1))
      ∀ j, j < N → solutionAt N s' s.n j = q.yout j ∧ derivativeAt N s' s.n j = q.dydxout j := by
  have hinv := hr.inv
  obtain ⟨-, h2, h3, h4, h5, hh, h6, h7, h8⟩ := (rkStep_inv N junk eps trial fuel s c hinv hw hw2).2 t s' c' h
  have hm : ∀ k, k ≤ s.n → 0 < N → (k * N) % W = k * N := by
    intro k hk hN
    apply Nat.mod_eq_of_lt
    have : k * N < (s.n + 1) * N := Nat.mul_lt_mul_of_pos_right (by omega) hN
    omega
  refine ⟨h2, h3, h4, ?_, hh, h6, h7, ?_⟩
  · intro k j hk hj
    simp only [solutionAt, derivativeAt, hm k (by omega) (by omega)]
    exact h5 k j hk hj
  · intro q j hj
    simp only [solutionAt, derivativeAt, hm s.n (Nat.le_refl _) (by omega)]
    exact h8 j hj

/-- A reachable integration with two points (from 1 to 3 with zero estimated error). -/
example : ∃ s c, Reach 1 s c ∧ s.n = 2 ∧ timeAt s 0 = 0 ∧ timeAt s 1 = 1 ∧ solutionAt 1 s 1 0 = 3 := by
  obtain ⟨s1, hs1, p1, p2, p3, -, -, p5, p6, p7, p8⟩ :=
    store_one 1 (fun _ => 0) ⟨0, 0, fun _ => 0, fun _ => 0, fun _ => 0, 0, fun _ _ => 0⟩ (Nat.zero_le _)
      (by show 0 + 1000 < W; decide) (by show (0 + 1) * 1 ≤ W; decide) 0 (fun _ => 1) (fun _ => 0)
  have hn : s1.n = 1 := p1
  have hr : Reach 1 s1 Ctl.init :=
    Reach.init (fun _ => 0) (emptyStore (fun _ => 0)) s1 Ctl.init (fun _ => 1) (fun _ => 0)
      (by simp [Ctl.init]) (by decide) hs1
  let trial : ℝ → ℝ → (Nat → ℝ) → (Nat → ℝ) → Trial := fun _ _ _ _ =>
    ⟨fun _ => 3, fun _ => 0, .val 0, fun _ => 0, fun _ => 0, fun _ => 0, fun _ => 0⟩
  have hW : W = 4294967296 := rfl
  have hsp := rkStep_inv 1 (fun _ => 0) 0 trial 1 s1 Ctl.init hr.inv (by omega) (by omega)
  have hl : stepLoop id Par.default 0 (timeAt s1 (s1.n - 1))
      (fun h => (trial (timeAt s1 (s1.n - 1)) h (solutionAt 1 s1 (s1.n - 1)) (derivativeAt 1 s1 (s1.n - 1))).err)
      1 Ctl.init.optimal Ctl.init = .accepted 1 ⟨10, 1 / 10000, false⟩ := by
    simp [stepLoop, updateTimestep, trial, Ctl.init, Par.default]
  cases hs : rkStep 1 (fun _ => 0) id Par.default 0 true trial 1 s1 Ctl.init with
  | ub => exact absurd hs hsp.1
  | fuel =>
    exfalso
    unfold rkStep at hs
    rw [if_neg (by omega)] at hs
    simp only [hl] at hs
    split at hs
    · cases hs
    · split at hs
      · split at hs <;> cases hs
      · cases hs
  | underflow =>
    exfalso
    unfold rkStep at hs
    rw [if_neg (by omega)] at hs
    simp only [hl] at hs
    split at hs
    · cases hs
    · split at hs
      · split at hs <;> cases hs
      · cases hs
  | ok t s2 c2 =>
    have ht : t = timeAt s1 (s1.n - 1) + 1 := by
      unfold rkStep at hs
      rw [if_neg (by omega)] at hs
      simp only [hl] at hs
      split at hs
      · cases hs
      · split at hs
        · split at hs
          · cases hs
          · cases hs; rfl
        · cases hs; rfl
    refine ⟨s2, c2, Reach.step _ _ _ _ _ _ _ _ _ hr (by omega) (by omega) hs, ?_⟩
    obtain ⟨-, q1, q2, q3, -, hh, -, -, q5⟩ := hsp.2 t s2 c2 hs
    rw [hn] at q1 q2 q3 q5 ht
    refine ⟨q1, ?_, ?_, ?_⟩
    · show s2.time 0 = 0
      rw [q3 0 (by omega)]
      exact p5
    · show s2.time 1 = 1
      rw [q2, ht]
      show s1.time 0 + 1 = 1
      rw [show s1.time 0 = 0 from p5]
      norm_num
    · have := (q5 0 (by omega)).1
      rw [solutionAt]
      exact this

/-! ### C38 -/

/-- The interpolating polynomial of the step from point `k`, component `j`, as a function of
time. -/
def stepPoly (N : Nat) (s : Store) (k j : Nat) (T : ℝ) : ℝ :=
  denseEval (V := ℝ) ⟨s.rc 0 (k * N + j), s.rc 1 (k * N + j), s.rc 2 (k * N + j), s.rc 3 (k * N + j), s.rc 4 (k * N + j)⟩
    ((T - s.time k) / (s.time (k + 1) - s.time k))

theorem advance_spec (time : Nat → ℝ) (n : Nat) (T : ℝ) (it : Nat) :
    it ≤ advance time n T it ∧ (it + 1 < n → advance time n T it + 1 < n) ∧
    (advance time n T it = it ∨ time (advance time n T it) < T) ∧
    ¬ (advance time n T it + 2 < n ∧ time (advance time n T it + 1) < T) := by
  fun_induction advance time n T it with
  | case1 it h ih =>
    obtain ⟨i1, i2, i3, i4⟩ := ih
    refine ⟨by omega, fun _ => i2 (by omega), .inr ?_, i4⟩
    rcases i3 with h' | h'
    · rw [h']; exact h.2
    · exact h'
  | case2 it h => exact ⟨Nat.le_refl _, fun h => h, .inl rfl, h⟩

/-- C38, values: for requests in increasing order within the integrated interval, every output
is the value of the polynomial of a step containing the requested time.
Missing: times before the first point and unsorted requests, see `C38_refuted_below` and
`C38_refuted_unsorted`. -/
theorem C38_values_partial (N : Nat) (s : Store) (c : Ctl) (h : Reach N s c) (h2 : 2 ≤ s.n)
    (Ts : List ℝ) (hs : Ts.Pairwise (· ≤ ·)) (hlo : ∀ T ∈ Ts, timeAt s 0 ≤ T) (hhi : ∀ T ∈ Ts, T ≤ timeAt s (s.n - 1)) :
    ∃ outs, outputDense N s Ts 0 = .ok outs ∧ outs.length = Ts.length ∧
      ∀ (i : Nat) (T : ℝ) (o : Nat → ℝ), Ts[i]? = some T → outs[i]? = some o →
        ∃ k, k + 1 < s.n ∧ timeAt s k ≤ T ∧ T ≤ timeAt s (k + 1) ∧ ∀ j, j < N → o j = stepPoly N s k j T := by
  have hinv := h.inv
  have key : ∀ (Ts : List ℝ) (it : Nat), it + 1 < s.n → Ts.Pairwise (· ≤ ·) → (∀ T ∈ Ts, s.time it ≤ T) →
      (∀ T ∈ Ts, T ≤ s.time (s.n - 1)) →
      ∃ outs, outputDense N s Ts it = .ok outs ∧ outs.length = Ts.length ∧
      ∀ (i : Nat) (T : ℝ) (o : Nat → ℝ), Ts[i]? = some T → outs[i]? = some o →
        ∃ k, k + 1 < s.n ∧ s.time k ≤ T ∧ T ≤ s.time (k + 1) ∧ ∀ j, j < N → o j = stepPoly N s k j T := by
    intro Ts
    induction Ts with
    | nil =>
      intro it _ _ _ _
      exact ⟨[], rfl, rfl, by intro i T o h; simp at h⟩
    | cons T Ts ih =>
      intro it hit hsrt hlo hhi
      rw [outputDense, if_neg (by omega)]
      simp only
      obtain ⟨a1, a2, a3, a4⟩ := advance_spec s.time s.n T it
      generalize hr : advance s.time s.n T it = r at a1 a2 a3 a4
      have hr1 : r + 1 < s.n := a2 hit
      have hle : T ≤ s.time (r + 1) := by
        by_contra hc
        rw [not_le] at hc
        have : ¬ r + 2 < s.n := fun h => a4 ⟨h, hc⟩
        have e : r + 1 = s.n - 1 := by omega
        rw [e] at hc
        have := hhi T (by simp)
        linarith
      have hge : s.time r ≤ T := by
        rcases a3 with h' | h'
        · rw [h']; exact hlo T (by simp)
        · exact le_of_lt h'
      rw [if_neg (not_lt.2 hle)]
      have hidx : ∀ j, j < N → (r * N + j) % W = r * N + j := by
        intro j hj
        apply Nat.mod_eq_of_lt
        have h1 : r * N + j < N * s.n := flat_lt (by omega) hj
        have := hinv.small
        rw [Nat.mul_comm] at this
        omega
      rw [if_neg (by
        intro hc
        apply hc
        intro j hj
        rw [hidx j hj]
        refine flat_lt ?_ hj
        rcases hinv.ralloc with h | h <;> omega)]
      rw [List.pairwise_cons] at hsrt
      obtain ⟨outs, ho, hlen, hval⟩ := ih r hr1 hsrt.2
        (fun T' hT' => le_trans hge (hsrt.1 T' hT')) (fun T' hT' => hhi T' (by simp [hT']))
      rw [ho]
      refine ⟨_, rfl, by simp [hlen], ?_⟩
      intro i T' o hT' ho'
      cases i with
      | zero =>
        simp only [List.getElem?_cons_zero, Option.some.injEq] at hT' ho'
        subst hT'
        refine ⟨r, hr1, hge, hle, ?_⟩
        intro j hj
        rw [← ho', stepPoly]
        simp only [hidx j hj]
      | succ i =>
        simp only [List.getElem?_cons_succ] at hT' ho'
        exact hval i T' o hT' ho'
  exact key Ts 0 (by omega) hs hlo hhi

theorem stepPoly_eq (N : Nat) (s : Store) (k j : Nat) (h : DenseAt N s k j) :
    ∃ r5, ∀ T, stepPoly N s k j T =
      let hh := s.time (k + 1) - s.time k
      let x := (T - s.time k) / hh
      let y1 := s.sol (k * N + j)
      let y2 := s.sol ((k + 1) * N + j)
      let b := hh * s.der (k * N + j) - (y2 - y1)
      y1 + x * ((y2 - y1) + (1 - x) * (b + x * (((y2 - y1) - hh * s.der ((k + 1) * N + j) - b) + (1 - x) * r5))) := by
  obtain ⟨k3, k4, k5, k6, hm⟩ := h
  refine ⟨s.rc 4 (k * N + j), ?_⟩
  intro T
  have e0 := hm 0
  have e1 := hm 1
  have e2 := hm 2
  have e3 := hm 3
  simp only [rcVal, prepareDense] at e0 e1 e2 e3
  simp [stepPoly, denseEval, e0, e1, e2, e3]

/-- C38: at both ends of a step the polynomial has the stored solution … -/
theorem C38_ends (N : Nat) (s : Store) (c : Ctl) (h : Reach N s c) (k j : Nat) (hk : k + 1 < s.n) (hj : j < N) :
    stepPoly N s k j (timeAt s k) = solutionAt N s k j ∧
    stepPoly N s k j (timeAt s (k + 1)) = solutionAt N s (k + 1) j := by
  have hinv := h.inv
  obtain ⟨r5, hp⟩ := stepPoly_eq N s k j (hinv.dense k j hk hj)
  have hne : s.time (k + 1) - s.time k ≠ 0 := by
    have := hinv.inc k hk
    linarith [sub_pos.2 this, (sub_ne_zero.2 (ne_of_gt this))] <;> exact sub_ne_zero.2 (ne_of_gt this)
  have hm : ∀ k, k < s.n → (k * N) % W = k * N := by
    intro k hk
    apply Nat.mod_eq_of_lt
    have h1 : k * N + 0 < N * s.n := flat_lt hk (by omega)
    have := hinv.small
    rw [Nat.mul_comm] at this
    omega
  rw [solutionAt, solutionAt, hm k (by omega), hm (k + 1) hk, hp, hp, timeAt, timeAt]
  refine ⟨?_, ?_⟩
  · simp
  · simp only [div_self hne]; ring

/-- … and the stored derivative. -/
theorem C38_end_derivatives (N : Nat) (s : Store) (c : Ctl) (h : Reach N s c) (k j : Nat) (hk : k + 1 < s.n) (hj : j < N) :
    HasDerivAt (stepPoly N s k j) (derivativeAt N s k j) (timeAt s k) ∧
    HasDerivAt (stepPoly N s k j) (derivativeAt N s (k + 1) j) (timeAt s (k + 1)) := by
  have hinv := h.inv
  obtain ⟨r5, hp⟩ := stepPoly_eq N s k j (hinv.dense k j hk hj)
  have hne : s.time (k + 1) - s.time k ≠ 0 := sub_ne_zero.2 (ne_of_gt (hinv.inc k hk))
  have hm : ∀ k, k < s.n → (k * N) % W = k * N := by
    intro k hk
    apply Nat.mod_eq_of_lt
    have h1 : k * N + 0 < N * s.n := flat_lt hk (by omega)
    have := hinv.small
    rw [Nat.mul_comm] at this
    omega
  rw [derivativeAt, derivativeAt, hm k (by omega), hm (k + 1) hk, timeAt, timeAt]
  have hfun : stepPoly N s k j = fun T => _ := funext hp
  rw [hfun]
  generalize s.time (k + 1) = t2 at hne ⊢
  generalize s.time k = t1 at hne ⊢
  generalize s.sol (k * N + j) = y1
  generalize s.sol ((k + 1) * N + j) = y2
  generalize s.der (k * N + j) = p1
  generalize s.der ((k + 1) * N + j) = p2
  have hx : ∀ t, HasDerivAt (fun T : ℝ => (T - t1) / (t2 - t1)) (1 / (t2 - t1)) t := by
    intro t
    exact ((hasDerivAt_id t).sub_const t1).div_const (t2 - t1)
  have hP : ∀ x : ℝ, HasDerivAt (fun x : ℝ => y1 + x * ((y2 - y1) + (1 - x) * (((t2 - t1) * p1 - (y2 - y1)) + x *
      (((y2 - y1) - (t2 - t1) * p2 - ((t2 - t1) * p1 - (y2 - y1))) + (1 - x) * r5))))
      ((1 * ((y2 - y1) + (1 - x) * (((t2 - t1) * p1 - (y2 - y1)) + x *
          (((y2 - y1) - (t2 - t1) * p2 - ((t2 - t1) * p1 - (y2 - y1))) + (1 - x) * r5))) +
        x * ((-1) * (((t2 - t1) * p1 - (y2 - y1)) + x *
            (((y2 - y1) - (t2 - t1) * p2 - ((t2 - t1) * p1 - (y2 - y1))) + (1 - x) * r5)) +
          (1 - x) * (1 * (((y2 - y1) - (t2 - t1) * p2 - ((t2 - t1) * p1 - (y2 - y1))) + (1 - x) * r5) +
            x * ((-1) * r5))))) x := by
    intro x
    have h1 : HasDerivAt (fun x : ℝ => 1 - x) (-1) x := by
      simpa using (hasDerivAt_id x).const_sub 1
    have hi := hasDerivAt_id x
    have a1 := (h1.mul_const r5).const_add ((y2 - y1) - (t2 - t1) * p2 - ((t2 - t1) * p1 - (y2 - y1)))
    have a2 := (hi.mul a1).const_add ((t2 - t1) * p1 - (y2 - y1))
    have a3 := (h1.mul a2).const_add (y2 - y1)
    have a4 := (hi.mul a3).const_add y1
    exact a4
  have hcomp := fun t => HasDerivAt.comp (h := fun T : ℝ => (T - t1) / (t2 - t1)) t (hP ((t - t1) / (t2 - t1))) (hx t)
  refine ⟨?_, ?_⟩
  · refine (hcomp t1).congr_deriv ?_
    simp only [sub_self, zero_div]
    field_simp
    ring
  · refine (hcomp t2).congr_deriv ?_
    rw [div_self hne]
    field_simp
    ring

/-- C38: dense output at stored times (requested in increasing order) returns the stored
solutions. -/
theorem C38_stored_times (N : Nat) (s : Store) (c : Ctl) (h : Reach N s c) (h2 : 2 ≤ s.n)
    (ks : List Nat) (hs : ks.Pairwise (· ≤ ·)) (hk : ∀ k ∈ ks, k < s.n) :
    ∃ outs, outputDense N s (ks.map (timeAt s)) 0 = .ok outs ∧
      ∀ (i k : Nat) (o : Nat → ℝ), ks[i]? = some k → outs[i]? = some o → ∀ j, j < N → o j = solutionAt N s k j := by
  have hinv := h.inv
  have hstrict : ∀ (d a : Nat), a + d < s.n → s.time a ≤ s.time (a + d) ∧ (0 < d → s.time a < s.time (a + d)) := by
    intro d
    induction d with
    | zero => intro a _; exact ⟨le_refl _, by omega⟩
    | succ d ih =>
      intro a ha
      have h1 := (ih a (by omega)).1
      have h2 := hinv.inc (a + d) (by omega)
      exact ⟨by rw [← Nat.add_assoc]; linarith, fun _ => by rw [← Nat.add_assoc]; linarith⟩
  have hmono : ∀ a b, a ≤ b → b < s.n → s.time a ≤ s.time b := by
    intro a b hab hb
    have := (hstrict (b - a) a (by omega)).1
    rwa [show a + (b - a) = b from by omega] at this
  have hlt : ∀ a b, a < b → b < s.n → s.time a < s.time b := by
    intro a b hab hb
    have := (hstrict (b - a) a (by omega)).2 (by omega)
    rwa [show a + (b - a) = b from by omega] at this
  obtain ⟨outs, ho, hlen, hval⟩ := C38_values_partial N s c h h2 (ks.map (timeAt s))
    (by
      rw [List.pairwise_map]
      refine hs.imp_of_mem ?_
      intro a b ha hb hab
      exact hmono a b hab (hk b hb))
    (by
      intro T hT
      obtain ⟨k, hk1, rfl⟩ := List.mem_map.1 hT
      exact hmono 0 k (Nat.zero_le _) (hk k hk1))
    (by
      intro T hT
      obtain ⟨k, hk1, rfl⟩ := List.mem_map.1 hT
      exact hmono k (s.n - 1) (by have := hk k hk1; omega) (by omega))
  refine ⟨outs, ho, ?_⟩
  intro i k o hi hoi j hj
  obtain ⟨m, hm1, hm2, hm3, hm4⟩ := hval i (timeAt s k) o (by rw [List.getElem?_map, hi]; rfl) hoi
  have hkn : k < s.n := hk k (List.mem_of_getElem? hi)
  rw [hm4 j hj]
  have hcase : k = m ∨ k = m + 1 := by
    by_contra hc
    rcases Nat.lt_or_ge k m with h1 | h1
    · have := hlt k m h1 (by omega)
      have hm2' : s.time m ≤ s.time k := hm2
      linarith
    · have h3 : m + 1 < k := by omega
      have := hlt (m + 1) k h3 hkn
      have hm3' : s.time k ≤ s.time (m + 1) := hm3
      linarith
  rcases hcase with rfl | rfl
  · exact (C38_ends N s c h k j hm1 hj).1
  · exact (C38_ends N s c h m j hm1 hj).2

/-- C38: a list of requests containing a time beyond the last point is rejected, whatever the
order. -/
theorem C38_beyond_rejected (N : Nat) (s : Store) (c : Ctl) (h : Reach N s c) (h2 : 2 ≤ s.n)
    (Ts : List ℝ) (T : ℝ) (hT : T ∈ Ts) (hlast : timeAt s (s.n - 1) < T) : outputDense N s Ts 0 = .beyond := by
  have hinv := h.inv
  have key : ∀ (Ts : List ℝ) (it : Nat), it + 1 < s.n → T ∈ Ts → outputDense N s Ts it = .beyond := by
    intro Ts
    induction Ts with
    | nil => intro it _ h; cases h
    | cons x Ts ih =>
      intro it hit hmem
      rw [outputDense, if_neg (by omega)]
      simp only
      obtain ⟨a1, a2, a3, a4⟩ := advance_spec s.time s.n x it
      generalize advance s.time s.n x it = r at a1 a2 a3 a4
      have hr1 : r + 1 < s.n := a2 hit
      by_cases hb : s.time (r + 1) < x
      · rw [if_pos hb]
      · rw [if_neg hb]
        have hidx : ∀ j, j < N → (r * N + j) % W = r * N + j := by
          intro j hj
          apply Nat.mod_eq_of_lt
          have h1 : r * N + j < N * s.n := flat_lt (by omega) hj
          have := hinv.small
          rw [Nat.mul_comm] at this
          omega
        rw [if_neg (by
          intro hc
          apply hc
          intro j hj
          rw [hidx j hj]
          refine flat_lt ?_ hj
          rcases hinv.ralloc with h | h <;> omega)]
        rcases List.mem_cons.1 hmem with rfl | hmem
        · exfalso
          have h4 : ¬ r + 2 < s.n ∨ T ≤ s.time (r + 1) := by
            by_contra hc
            rw [not_or, not_not] at hc
            exact hb (not_le.1 hc.2)
          -- the last time is at least every stored time
          have hmono : ∀ d a, a + d < s.n → s.time a ≤ s.time (a + d) := by
            intro d
            induction d with
            | zero => intro a _; exact le_refl _
            | succ d ih =>
              intro a ha
              have h1 := ih a (by omega)
              have h2 := hinv.inc (a + d) (by omega)
              rw [← Nat.add_assoc]; linarith
          have := hmono (s.n - 1 - (r + 1)) (r + 1) (by omega)
          rw [show r + 1 + (s.n - 1 - (r + 1)) = s.n - 1 from by omega] at this
          have hlast' : s.time (s.n - 1) < T := hlast
          linarith [not_lt.1 hb]
        · rw [ih r hr1 hmem]
  exact key Ts 0 (by omega) hT

/-- C38 as stated is refuted: a request before the first stored time is not rejected but
answered by extrapolating the first step. -/
theorem C38_refuted_below (N : Nat) (s : Store) (c : Ctl) (h : Reach N s c) (h2 : 2 ≤ s.n) (T : ℝ)
    (hT : T < timeAt s 0) :
    ∃ o, outputDense N s [T] 0 = .ok [o] ∧ ∀ j, j < N → o j = stepPoly N s 0 j T := by
  have hinv := h.inv
  have h01 : s.time 0 < s.time 1 := hinv.inc 0 (by omega)
  have hT' : T < s.time 0 := hT
  have ha : advance s.time s.n T 0 = 0 := by
    rw [advance, dif_neg]
    rintro ⟨-, h⟩
    rw [Nat.zero_add] at h
    linarith
  have hsmall : ∀ j, j < N → (0 * N + j) % W = 0 * N + j := by
    intro j hj
    apply Nat.mod_eq_of_lt
    have h1 : 0 * N + j < N * s.n := flat_lt (by omega) hj
    have := hinv.small
    rw [Nat.mul_comm] at this
    omega
  rw [outputDense, if_neg (by omega)]
  simp only [ha]
  rw [if_neg (by rw [Nat.zero_add]; linarith), if_neg (by
    intro hc
    apply hc
    intro j hj
    rw [hsmall j hj]
    refine flat_lt ?_ hj
    rcases hinv.ralloc with h | h <;> omega)]
  refine ⟨_, rfl, ?_⟩
  intro j hj
  simp only [hsmall j hj, stepPoly]

/-- C38, exact for every list of requests none of which is beyond the last point, in any order and also
before the first point: each output is the value of the polynomial of the step that contains the
latest of the times requested so far (the first step, if that is before the first point), at the
time requested. -/
theorem C38_any_order (N : Nat) (s : Store) (c : Ctl) (h : Reach N s c) (h2 : 2 ≤ s.n)
    (Ts : List ℝ) (hhi : ∀ T ∈ Ts, T ≤ timeAt s (s.n - 1)) :
    ∃ outs, outputDense N s Ts 0 = .ok outs ∧ outs.length = Ts.length ∧
      ∀ (i : Nat) (T : ℝ) (o : Nat → ℝ), Ts[i]? = some T → outs[i]? = some o →
        ∃ k, k + 1 < s.n ∧ (∀ T' ∈ Ts.take (i + 1), T' ≤ timeAt s (k + 1)) ∧
          (k = 0 ∨ ∃ T' ∈ Ts.take (i + 1), timeAt s k < T') ∧ ∀ j, j < N → o j = stepPoly N s k j T := by
  have hinv := h.inv
  have hmono : ∀ d a, a + d < s.n → s.time a ≤ s.time (a + d) := by
    intro d
    induction d with
    | zero => intro a _; exact le_refl _
    | succ d ih => intro a h; exact le_trans (ih a (by omega)) (le_of_lt (hinv.inc (a + d) (by omega)))
  have key : ∀ (Ts : List ℝ) (it : Nat) (pre : List ℝ), it + 1 < s.n → (∀ T' ∈ pre, T' ≤ s.time (it + 1)) →
      (it = 0 ∨ ∃ T' ∈ pre, s.time it < T') → (∀ T ∈ Ts, T ≤ s.time (s.n - 1)) →
      ∃ outs, outputDense N s Ts it = .ok outs ∧ outs.length = Ts.length ∧
      ∀ (i : Nat) (T : ℝ) (o : Nat → ℝ), Ts[i]? = some T → outs[i]? = some o →
        ∃ k, k + 1 < s.n ∧ (∀ T' ∈ pre ++ Ts.take (i + 1), T' ≤ s.time (k + 1)) ∧
          (k = 0 ∨ ∃ T' ∈ pre ++ Ts.take (i + 1), s.time k < T') ∧ ∀ j, j < N → o j = stepPoly N s k j T := by
    intro Ts
    induction Ts with
    | nil =>
      intro it pre _ _ _ _
      exact ⟨[], rfl, rfl, by intro i T o h; simp at h⟩
    | cons T Ts ih =>
      intro it pre hit hpre hlo hhi
      rw [outputDense, if_neg (by omega)]
      simp only
      obtain ⟨a1, a2, a3, a4⟩ := advance_spec s.time s.n T it
      generalize hr : advance s.time s.n T it = r at a1 a2 a3 a4
      have hr1 : r + 1 < s.n := a2 hit
      have hle : T ≤ s.time (r + 1) := by
        by_contra hc
        rw [not_le] at hc
        have : ¬ r + 2 < s.n := fun h => a4 ⟨h, hc⟩
        have e : r + 1 = s.n - 1 := by omega
        rw [e] at hc
        have := hhi T (by simp)
        linarith
      have hpre' : ∀ T' ∈ pre ++ [T], T' ≤ s.time (r + 1) := by
        intro T' hT'
        rw [List.mem_append, List.mem_singleton] at hT'
        rcases hT' with hT' | rfl
        · have h1 := hmono (r - it) (it + 1) (by omega)
          rw [show it + 1 + (r - it) = r + 1 by omega] at h1
          exact le_trans (hpre T' hT') h1
        · exact hle
      have hlo' : r = 0 ∨ ∃ T' ∈ pre ++ [T], s.time r < T' := by
        rcases a3 with h' | h'
        · rw [h']
          rcases hlo with h0 | ⟨T', hT', h0⟩
          · exact .inl h0
          · exact .inr ⟨T', List.mem_append_left _ hT', h0⟩
        · exact .inr ⟨T, by simp, h'⟩
      rw [if_neg (not_lt.2 hle)]
      have hidx : ∀ j, j < N → (r * N + j) % W = r * N + j := by
        intro j hj
        apply Nat.mod_eq_of_lt
        have h1 : r * N + j < N * s.n := flat_lt (by omega) hj
        have := hinv.small
        rw [Nat.mul_comm] at this
        omega
      rw [if_neg (by
        intro hc
        apply hc
        intro j hj
        rw [hidx j hj]
        refine flat_lt ?_ hj
        rcases hinv.ralloc with h | h <;> omega)]
      obtain ⟨outs, ho, hlen, hval⟩ := ih r (pre ++ [T]) hr1 hpre' hlo' (fun T' hT' => hhi T' (by simp [hT']))
      rw [ho]
      refine ⟨_, rfl, by simp [hlen], ?_⟩
      intro i T' o hT' ho'
      cases i with
      | zero =>
        simp only [List.getElem?_cons_zero, Option.some.injEq] at hT' ho'
        subst hT'
        refine ⟨r, hr1, by simpa using hpre', by simpa using hlo', ?_⟩
        intro j hj
        rw [← ho', stepPoly]
        simp only [hidx j hj]
      | succ i =>
        simp only [List.getElem?_cons_succ] at hT' ho'
        obtain ⟨k, k1, k2, k3, k4⟩ := hval i T' o hT' ho'
        rw [List.append_assoc, List.singleton_append] at k2 k3
        exact ⟨k, k1, k2, k3, k4⟩
  have := key Ts 0 [] (by omega) (by simp) (.inl rfl) hhi
  simp only [List.nil_append] at this
  exact this

/-- There are reachable integrators with two points, so that the statement applies to any requests up to
time one, also unsorted and negative ones. -/
example (N : Nat) (s : Store) (c : Ctl) (h : Reach N s c) (h2 : s.n = 2) (h1 : timeAt s 1 = 1) :
    ∃ outs, outputDense N s [1, -1, 1 / 2] 0 = .ok outs ∧ outs.length = 3 := by
  obtain ⟨outs, h, h', -⟩ := C38_any_order N s c h (by omega) [1, -1, 1 / 2] (by
    rw [h2, h1]; intro T hT
    simp only [List.mem_cons, List.not_mem_nil, or_false] at hT
    rcases hT with rfl | rfl | rfl <;> norm_num)
  exact ⟨outs, h, h'⟩

/-- C38 as stated is refuted for requests not in increasing order: the search never moves back,
so that after a time in the second step the first point is "found" by extrapolating the second
step; with points 0, 0, 1 at times 0, 1, 2 and zero derivatives the answer at time 0 is 5. -/
theorem C38_refuted_unsorted :
    let s : Store := ⟨3, 3, fun i => i, fun i => if i = 2 then 1 else 0, fun _ => 0, 3,
      fun m i => rcVal 1 (if i = 2 then 1 else 0) (if i + 1 = 2 then 1 else 0) 0 0 0 0 0 0 m⟩
    (∀ k j, k + 1 < s.n → j < 1 → DenseAt 1 s k j) ∧
    ∃ o1 o2, outputDense 1 s [2, 0] 0 = .ok [o1, o2] ∧ o1 0 = solutionAt 1 s 2 0 ∧ o2 0 = 5 ∧
      solutionAt 1 s 0 0 = 0 := by
  intro s
  refine ⟨?_, ?_⟩
  · intro k j hk hj
    have hj0 : j = 0 := by omega
    subst hj0
    refine ⟨0, 0, 0, 0, ?_⟩
    intro m
    simp only [s, Nat.mul_one, Nat.add_zero]
    congr 1
    push_cast
    ring
  · have a1 : advance s.time s.n 2 0 = 1 := by
      rw [advance, dif_pos (by simp [s])]
      rw [advance, dif_neg (by simp [s])]
    have a2 : advance s.time s.n 0 1 = 1 := by
      rw [advance, dif_neg (by simp [s])]
    refine ⟨fun j => denseEval (V := ℝ) ⟨s.rc 0 ((1 * 1 + j) % W), s.rc 1 ((1 * 1 + j) % W), s.rc 2 ((1 * 1 + j) % W),
        s.rc 3 ((1 * 1 + j) % W), s.rc 4 ((1 * 1 + j) % W)⟩ ((2 - s.time 1) / (s.time (1 + 1) - s.time 1)),
      fun j => denseEval (V := ℝ) ⟨s.rc 0 ((1 * 1 + j) % W), s.rc 1 ((1 * 1 + j) % W), s.rc 2 ((1 * 1 + j) % W),
        s.rc 3 ((1 * 1 + j) % W), s.rc 4 ((1 * 1 + j) % W)⟩ ((0 - s.time 1) / (s.time (1 + 1) - s.time 1)), ?_, ?_, ?_, ?_⟩
    · have hok : ¬ ¬ ∀ j, j < 1 → (1 * 1 + j) % W < 1 * s.ralloc := by
        intro hc
        apply hc
        intro j hj
        have : j = 0 := by omega
        subst this
        decide
      rw [outputDense, if_neg (by simp [s])]
      simp only [a1]
      rw [if_neg (by simp [s]), if_neg hok]
      rw [outputDense, if_neg (by simp [s])]
      simp only [a2]
      rw [if_neg (by simp [s]), if_neg hok]
      rfl
    · have e : (1 * 1 + 0) % W = 1 := by decide
      simp only [e, denseEval, s, rcVal, prepareDense, solutionAt]
      have e2 : (2 * 1) % W + 0 = 2 := by decide
      rw [e2]
      norm_num
    · have e : (1 * 1 + 0) % W = 1 := by decide
      simp only [e, denseEval, s, rcVal, prepareDense]
      norm_num [Matrix.cons_val_two, Matrix.cons_val_three, Matrix.cons_val_four]
    · have e : (0 * 1) % W + 0 = 0 := by decide
      rw [solutionAt, e]
      simp [s]

/-- C38: with dense output switched off, or with fewer than two points, asking for dense output
is undefined (null arrays, or a time never stored). -/
theorem C38_undefined (N : Nat) (hN : 0 < N) (s : Store) (T : ℝ) (Ts : List ℝ) :
    (s.n < 2 → outputDense N s (T :: Ts) 0 = .ub) ∧
    (2 ≤ s.n → s.ralloc = 0 → T ≤ s.time 1 → outputDense N s (T :: Ts) 0 = .ub) := by
  refine ⟨fun h => by rw [outputDense, if_pos h], fun h2 hr hT => ?_⟩
  have ha : advance s.time s.n T 0 = 0 := by
    rw [advance, dif_neg]
    rintro ⟨-, h⟩
    rw [Nat.zero_add] at h
    linarith
  rw [outputDense, if_neg (by omega)]
  simp only [ha]
  rw [if_neg (by rw [Nat.zero_add]; exact not_lt.2 hT), if_pos]
  intro h
  have := h 0 hN
  rw [hr] at this
  omega

end

end Softlib
