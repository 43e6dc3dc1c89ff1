/-
The periodic cubic spline (C125).  Model: ModeModel.lean.
-/
import Verif.Dist.ModeProps
import Verif.Dist.CyclicProps

namespace Softlib

open Softlib.Magnetic Softlib.Dist

noncomputable section

/-- The derivative of a cubic spline with the curvatures `cv`, in interval `k`. -/
def cvSlope (x y cv : Nat → ℝ) (k : Nat) (a : ℝ) : ℝ :=
  (y (k + 1) - y k) / gap x k - gap x k * (cv (k + 1) + 2 * cv k) / 3 +
    (a - x k) * (2 * cv k + 3 * ((cv (k + 1) - cv k) / (3 * gap x k)) * (a - x k))

/-- Its second derivative. -/
def cvBend (x cv : Nat → ℝ) (k : Nat) (a : ℝ) : ℝ := 2 * cv k + 2 * (cv (k + 1) - cv k) * ((a - x k) / gap x k)

theorem cv_deriv (x y cv : Nat → ℝ) (k : Nat) (a : ℝ) : HasDerivAt (splineAt x y cv k) (cvSlope x y cv k a) a := by
  have hx : HasDerivAt (fun b => b - x k) 1 a := (hasDerivAt_id a).sub_const _
  unfold splineAt cvSlope
  dsimp only
  generalize (y (k + 1) - y k) / gap x k - gap x k * (cv (k + 1) + 2 * cv k) / 3 = b
  generalize (cv (k + 1) - cv k) / (3 * gap x k) = d
  generalize cv k = c
  have := (hx.mul (((hx.mul ((hx.mul_const d).const_add c))).const_add b)).const_add (y k)
  refine HasDerivAt.congr_deriv (f := fun a => y k + (a - x k) * (b + (a - x k) * (c + (a - x k) * d))) this ?_
  simp only [Pi.mul_apply]
  ring

theorem cv_deriv2 (x y cv : Nat → ℝ) (k : Nat) (a : ℝ) : HasDerivAt (cvSlope x y cv k) (cvBend x cv k a) a := by
  have hx : HasDerivAt (fun b => b - x k) 1 a := (hasDerivAt_id a).sub_const _
  unfold cvSlope cvBend
  generalize (y (k + 1) - y k) / gap x k - gap x k * (cv (k + 1) + 2 * cv k) / 3 = b
  generalize cv (k + 1) = c'
  generalize cv k = c
  have := (hx.mul ((hx.const_mul (3 * ((c' - c) / (3 * gap x k)))).const_add (2 * c))).const_add b
  refine HasDerivAt.congr_deriv (f := fun a => b + (a - x k) * (2 * c + 3 * ((c' - c) / (3 * gap x k)) * (a - x k))) this ?_
  rcases eq_or_ne (gap x k) 0 with h0 | h0
  · rw [h0]; simp
  · field_simp
    ring

/-- Slopes at both ends of an interval. -/
theorem cv_ends (x y cv : Nat → ℝ) (k : Nat) (h : gap x k ≠ 0) :
    cvSlope x y cv k (x k) = (y (k + 1) - y k) / gap x k - gap x k * (cv (k + 1) + 2 * cv k) / 3 ∧
    cvSlope x y cv k (x (k + 1)) = (y (k + 1) - y k) / gap x k + gap x k * (2 * cv (k + 1) + cv k) / 3 := by
  unfold cvSlope
  constructor
  · ring
  · rw [show x (k + 1) - x k = gap x k from rfl]
    field_simp
    ring

/-- The curvatures of the periodic spline: the equations at the inner nodes, and at the node where both ends meet. -/
theorem cyc_rows {x y : Nat → ℝ} {n : Nat} (h : Rising x n) (h3 : 3 ≤ n) :
    (∀ k, k + 2 < n → gap x k * cycCurv x y n k + 2 * (gap x k + gap x (k + 1)) * cycCurv x y n (k + 1) +
      gap x (k + 1) * cycCurv x y n (k + 2) = 3 * ((y (k + 2) - y (k + 1)) / gap x (k + 1) - (y (k + 1) - y k) / gap x k)) ∧
    cycCurv x y n 0 = cycCurv x y n (n - 1) ∧
    (4 ≤ n ∨ y 0 = y (n - 1) → gap x (n - 2) * cycCurv x y n (n - 2) + 2 * (gap x (n - 2) + gap x 0) * cycCurv x y n (n - 1) +
      gap x 0 * cycCurv x y n 1 = 3 * ((y 1 - y 0) / gap x 0 - (y (n - 1) - y (n - 2)) / gap x (n - 2))) := by
  have hg : ∀ k, k + 1 < n → 0 < gap x k := fun k hk => gap_pos h hk
  by_cases hn : n = 3
  · subst hn
    have g0 := hg 0 (by omega)
    have g1 := hg 1 (by omega)
    have gs : gap x 0 + gap x 1 ≠ 0 := by positivity
    refine ⟨fun k hk => ?_, by simp [cycCurv], fun hy => ?_⟩
    · obtain rfl : k = 0 := by omega
      simp [cycCurv]
      field_simp
      ring
    · have hy : y 0 = y 2 := by rcases hy with hy | hy; · omega
                                · exact hy
      simp [cycCurv, hy]
      field_simp
      ring
  · obtain ⟨m, rfl⟩ : ∃ m, n = m + 4 := ⟨n - 4, by omega⟩
    have hN : m + 4 - 1 = m + 3 := by omega
    have oi : ∀ i, i < m + 2 → cycOff x (m + 3) i = gap x (i + 1) := fun i hi => by unfold cycOff; rw [if_neg (by omega)]
    have ol : cycOff x (m + 3) (m + 2) = gap x 0 := by unfold cycOff; rw [if_pos (by omega)]
    have di : ∀ i, i < m + 2 → cycDiag x (m + 3) i = 2 * (gap x (i + 1) + gap x i) := fun i hi => by unfold cycDiag; rw [oi i hi]
    have dl : cycDiag x (m + 3) (m + 2) = 2 * (gap x 0 + gap x (m + 2)) := by unfold cycDiag; rw [ol]
    have hdom : CycDominant (cycDiag x (m + 3)) (cycOff x (m + 3)) m := by
      refine ⟨fun i hi => ?_, ?_, fun i hi => ?_⟩
      · rcases Nat.lt_or_ge i (m + 2) with hlt | hge
        · rw [oi i hlt]; exact hg _ (by omega)
        · rw [show i = m + 2 by omega, ol]; exact hg _ (by omega)
      · rw [di 0 (by omega), ol, oi 0 (by omega)]
      · rcases Nat.lt_or_ge (i + 1) (m + 2) with hlt | hge
        · rw [di _ hlt, oi _ hlt, oi i (by omega)]
        · obtain rfl : i = m + 1 := by omega
          rw [dl, ol, oi _ (by omega)]
    obtain ⟨r0, ri, rl⟩ := cyc_solves hdom (cycRhs x y (m + 3))
    have c0 : cycCurv x y (m + 4) 0 = cycSolve (cycDiag x (m + 3)) (cycOff x (m + 3)) (m + 3) (cycRhs x y (m + 3)) (m + 2) := by
      unfold cycCurv; rw [if_neg (by omega), if_pos rfl, hN, show m + 4 - 2 = m + 2 by omega]
    have cs : ∀ i, cycCurv x y (m + 4) (i + 1) = cycSolve (cycDiag x (m + 3)) (cycOff x (m + 3)) (m + 3) (cycRhs x y (m + 3)) i := by
      intro i; unfold cycCurv; rw [if_neg (by omega), if_neg (by omega), hN, show i + 1 - 1 = i by omega]
    have rc : ∀ k, k + 1 < m + 4 → recip (gap x k) = 1 / gap x k := fun k hk => by unfold recip; rw [if_pos (hg k hk).ne']
    have bi : ∀ i, i < m + 2 → cycRhs x y (m + 3) i = 3 * ((y (i + 2) - y (i + 1)) / gap x (i + 1) - (y (i + 1) - y i) / gap x i) := by
      intro i hi
      unfold cycRhs
      rw [if_neg (by omega), oi i hi, rc _ (by omega), rc _ (by omega)]; ring
    have bl : cycRhs x y (m + 3) (m + 2) = 3 * ((y 1 - y 0) / gap x 0 - (y (m + 3) - y (m + 2)) / gap x (m + 2)) := by
      unfold cycRhs
      rw [if_pos (by omega), ol, rc _ (by omega), rc _ (by omega)]; ring
    refine ⟨fun k hk => ?_, by rw [c0, hN, cs], fun _ => ?_⟩
    · cases k with
      | zero =>
        rw [c0, cs 0, cs 1]
        rw [di 0 (by omega), oi 0 (by omega), ol, bi 0 (by omega)] at r0
        linear_combination r0
      | succ i =>
        have := ri i (by omega)
        rw [oi i (by omega), di (i + 1) (by omega), oi (i + 1) (by omega), bi (i + 1) (by omega)] at this
        rw [cs i, cs (i + 1), cs (i + 2)]
        linear_combination this
    · rw [ol, oi (m + 1) (by omega), dl, bl] at rl
      rw [show m + 4 - 2 = m + 1 + 1 by omega, hN, show m + 3 = m + 2 + 1 by omega, cs (m + 1), cs (m + 2)]
      have c1 := cs 0
      rw [Nat.zero_add] at c1
      rw [c1]
      linear_combination rl

theorem mode_periodic (xs ys : List ℝ) : gslMode 3 xs ys = fun a =>
    splineAt (fun i => xs.getD i 0) (fun i => ys.getD i 0) (cycCurv (fun i => xs.getD i 0) (fun i => ys.getD i 0) xs.length) (cellOf xs a) a := by
  funext a
  unfold gslMode
  simp

/-- C125: the periodic cubic spline is twice differentiable everywhere.  Its second derivatives at both ends are equal; so are the first
ones if there are more than three momenta or the first and the last value are equal. -/
theorem C125_periodic (xs ys : List ℝ) (h3 : 3 ≤ xs.length) (hxs : xs.Pairwise (· < ·)) :
    ∃ F' F'' : ℝ → ℝ, (∀ a, HasDerivAt (gslMode 3 xs ys) (F' a) a) ∧ (∀ a, HasDerivAt F' (F'' a) a) ∧ Continuous F'' ∧
      ∀ a b, xs.head? = some a → xs.getLast? = some b → F'' a = F'' b ∧
        (4 ≤ xs.length ∨ ys.getD 0 0 = ys.getD (xs.length - 1) 0 → F' a = F' b) := by
  have hr := getD_rising hxs
  have g : ∀ k, k + 1 < xs.length → gap (fun i => xs.getD i 0) k ≠ 0 := fun k hk => (gap_pos hr hk).ne'
  obtain ⟨rows, wrap, meet⟩ := cyc_rows (y := fun i => ys.getD i 0) hr h3
  have hx : ∀ i, (fun i => xs.getD i 0) i = xs.getD i 0 := fun _ => rfl
  generalize hcv : cycCurv (fun i => xs.getD i 0) (fun i => ys.getD i 0) xs.length = cv at rows wrap meet
  have dj : ∀ k, k + 2 < xs.length → cvSlope (fun i => xs.getD i 0) (fun i => ys.getD i 0) cv k (xs.getD (k + 1) 0) =
      cvSlope (fun i => xs.getD i 0) (fun i => ys.getD i 0) cv (k + 1) (xs.getD (k + 1) 0) := by
    intro k hk
    have e1 := (cv_ends (fun i => xs.getD i 0) (fun i => ys.getD i 0) cv k (g k (by omega))).2
    have e2 := (cv_ends (fun i => xs.getD i 0) (fun i => ys.getD i 0) cv (k + 1) (g (k + 1) (by omega))).1
    rw [e1, e2]
    have := rows k hk
    linear_combination (1 / 3 : ℝ) * this
  have sj : ∀ k, k + 2 < xs.length → cvBend (fun i => xs.getD i 0) cv k (xs.getD (k + 1) 0) =
      cvBend (fun i => xs.getD i 0) cv (k + 1) (xs.getD (k + 1) 0) := by
    intro k hk
    unfold cvBend
    rw [show xs.getD (k + 1) 0 - xs.getD k 0 = gap (fun i => xs.getD i 0) k from rfl, div_self (g k (by omega)), sub_self, zero_div]
    ring
  refine ⟨fun a => cvSlope (fun i => xs.getD i 0) (fun i => ys.getD i 0) cv (cellOf xs a) a,
    fun a => cvBend (fun i => xs.getD i 0) cv (cellOf xs a) a, fun a => ?_, fun a => ?_, ?_, fun a b ha hb => ?_⟩
  · rw [mode_periodic, hcv]
    exact pieces_smooth xs (by omega) hxs (fun k a _ => cv_deriv _ _ _ k a)
      (fun k hk => ((splineAt_ends _ _ _ k (g k (by omega))).2.trans (splineAt_ends _ _ _ (k + 1) (g _ (by omega))).1.symm)) dj a
  · exact pieces_smooth xs (by omega) hxs (fun k a _ => cv_deriv2 _ _ _ k a) dj sj a
  · refine pieces_continuous xs (by omega) hxs (fun k => ?_) sj
    unfold cvBend
    fun_prop
  · rw [List.head?_eq_getElem?] at ha
    rw [List.getLast?_eq_getElem?] at hb
    have ea : xs.getD 0 0 = a := by rw [List.getD_eq_getElem?_getD, ha]; rfl
    have eb : xs.getD (xs.length - 1) 0 = b := by rw [List.getD_eq_getElem?_getD, hb]; rfl
    dsimp only
    rw [C123_interval xs (by omega) hxs 0 a ha, if_pos (by omega), C123_interval xs (by omega) hxs _ b hb, if_neg (by omega)]
    obtain ⟨n, hn⟩ : ∃ n, xs.length = n + 2 := ⟨xs.length - 2, by omega⟩
    rw [hn] at wrap meet eb ⊢
    rw [show n + 2 - 1 = n + 1 by omega] at wrap meet eb ⊢
    rw [show n + 2 - 2 = n by omega] at meet ⊢
    have gn := g n (by omega)
    constructor
    · unfold cvBend
      rw [← ea, ← eb, sub_self, show xs.getD (n + 1) 0 - xs.getD n 0 = gap (fun i => xs.getD i 0) n from rfl, div_self gn, wrap]
      ring
    · intro h
      have e1 := (cv_ends (fun i => xs.getD i 0) (fun i => ys.getD i 0) cv n gn).2
      have e2 := (cv_ends (fun i => xs.getD i 0) (fun i => ys.getD i 0) cv 0 (g 0 (by omega))).1
      rw [← ea, ← eb, e1, e2]
      have := meet h
      rw [wrap]
      simp only [Nat.zero_add] at *
      linear_combination (-1 / 3 : ℝ) * this

/-- With three momenta the system is set up for equal values at both ends; for the momenta 0, 1, 2 and the values 0, 0, 1 the slopes at
the ends are 1 and 0. -/
example : let x : Nat → ℝ := fun i => i
    let y : Nat → ℝ := fun i => if i = 2 then 1 else 0
    cvSlope x y (cycCurv x y 3) 0 0 = 1 ∧ cvSlope x y (cycCurv x y 3) 1 2 = 0 := by
  norm_num [cycCurv, gap, cvSlope]

example : ∃ F' : ℝ → ℝ, (∀ a, HasDerivAt (gslMode 3 fiveGrid fiveRamp) (F' a) a) ∧ F' 0 = F' 4 := by
  obtain ⟨F', F'', h, h', hc, he⟩ := C125_periodic fiveGrid fiveRamp (by simp [fiveGrid]) fiveGrid_increasing
  exact ⟨F', h, (he 0 4 (by simp [fiveGrid]) (by simp [fiveGrid])).2 (Or.inl (by simp [fiveGrid]))⟩

end

end Softlib
