/-
Properties C35 and C68: the Dormand-Prince coefficients.
-/
import Verif.Integrator.TableauModel
import Mathlib.Algebra.BigOperators.Fin
import Mathlib.Tactic.Module
import Mathlib.Tactic.NormNum
import Mathlib.Tactic.FinCases
import Mathlib.Data.Matrix.Mul

namespace Softlib

open Softlib.Integrator Matrix

noncomputable section

variable {V : Type} [AddCommGroup V] [Module ℝ V]

/-- Butcher tableau read off the coefficients. -/
def tabC : Fin 7 → ℝ := ![0, c2, c3, c4, c5, 1, 1]
def tabA : Fin 7 → Fin 7 → ℝ := ![
  ![0, 0, 0, 0, 0, 0, 0],
  ![a21, 0, 0, 0, 0, 0, 0],
  ![a31, a32, 0, 0, 0, 0, 0],
  ![a41, a42, a43, 0, 0, 0, 0],
  ![a51, a52, a53, a54, 0, 0, 0],
  ![a61, a62, a63, a64, a65, 0, 0],
  ![a71, 0, a73, a74, a75, a76, 0]]
/-- Weights of the fifth-order solution and of the error estimate. -/
def tabB : Fin 7 → ℝ := ![a71, 0, a73, a74, a75, a76, 0]
def tabE : Fin 7 → ℝ := ![e1, 0, e3, e4, e5, e6, e7]

/-- The stages left by a step. -/
def stages (dydx : V) (r : Inner V) : Fin 7 → V := ![dydx, r.k2, r.k3, r.k4, r.k5, r.k6, r.dydxout]

/-- C35: a step of the code is a step of the explicit Runge-Kutta method with this tableau, for
every right-hand side. -/
theorem C35_step_is_runge_kutta (f : ℝ → V → V) (T h : ℝ) (y : V) :
    let r := innerStep f T h y (f T y)
    let k := stages (f T y) r
    (∀ i, k i = f (T + tabC i * h) (y + ∑ j, (h * tabA i j) • k j)) ∧
    r.yout = y + ∑ j, (h * tabB j) • k j ∧
    r.yerr = ∑ j, (h * tabE j) • k j := by
  refine ⟨?_, ?_, ?_⟩
  · intro i
    fin_cases i <;>
      simp [stages, innerStep, tabC, tabA, Fin.sum_univ_seven, add_assoc]
  · simp [stages, innerStep, tabB, Fin.sum_univ_seven, add_assoc]
  · simp [stages, innerStep, tabE, Fin.sum_univ_seven, add_assoc]

/-- Row sums. -/
theorem C35_row_sums (i : Fin 7) : ∑ j, tabA i j = tabC i := by
  fin_cases i <;>
    simp [tabA, tabC, Fin.sum_univ_seven, c2, c3, c4, c5, a21, a31, a32, a41, a42, a43, a51, a52, a53, a54,
      a61, a62, a63, a64, a65, a71, a73, a74, a75, a76] <;> norm_num

/-- `A` applied to a vector. -/
def app (u : Fin 7 → ℝ) : Fin 7 → ℝ := fun i => ∑ j, tabA i j * u j

/-- Order conditions for weights `b` up to order four. -/
def Order4 (b : Fin 7 → ℝ) : Prop :=
  ∑ i, b i = 1 ∧
  ∑ i, b i * tabC i = 1 / 2 ∧
  ∑ i, b i * tabC i ^ 2 = 1 / 3 ∧ ∑ i, b i * app tabC i = 1 / 6 ∧
  ∑ i, b i * tabC i ^ 3 = 1 / 4 ∧ ∑ i, b i * (tabC i * app tabC i) = 1 / 8 ∧
  ∑ i, b i * app (fun j => tabC j ^ 2) i = 1 / 12 ∧ ∑ i, b i * app (app tabC) i = 1 / 24

/-- The remaining conditions of order five. -/
def Order5 (b : Fin 7 → ℝ) : Prop :=
  Order4 b ∧
  ∑ i, b i * tabC i ^ 4 = 1 / 5 ∧ ∑ i, b i * (tabC i ^ 2 * app tabC i) = 1 / 10 ∧
  ∑ i, b i * (app tabC i) ^ 2 = 1 / 20 ∧ ∑ i, b i * (tabC i * app (fun j => tabC j ^ 2) i) = 1 / 15 ∧
  ∑ i, b i * (tabC i * app (app tabC) i) = 1 / 30 ∧ ∑ i, b i * app (fun j => tabC j ^ 3) i = 1 / 20 ∧
  ∑ i, b i * app (fun j => tabC j * app tabC j) i = 1 / 40 ∧
  ∑ i, b i * app (app (fun j => tabC j ^ 2)) i = 1 / 60 ∧ ∑ i, b i * app (app (app tabC)) i = 1 / 120

/-- Values of the vectors occurring in the conditions. -/
theorem tabC_eq : tabC = ![0, 1 / 5, 3 / 10, 4 / 5, 8 / 9, 1, 1] := by
  funext i; fin_cases i <;> simp [tabC, c2, c3, c4, c5]

theorem app_eq (u : Fin 7 → ℝ) : app u = ![0, 1 / 5 * u 0, 3 / 40 * u 0 + 9 / 40 * u 1,
    44 / 45 * u 0 - 56 / 15 * u 1 + 32 / 9 * u 2,
    19372 / 6561 * u 0 - 25360 / 2187 * u 1 + 64448 / 6561 * u 2 - 212 / 729 * u 3,
    9017 / 3168 * u 0 - 355 / 33 * u 1 + 46732 / 5247 * u 2 + 49 / 176 * u 3 - 5103 / 18656 * u 4,
    35 / 384 * u 0 + 500 / 1113 * u 2 + 125 / 192 * u 3 - 2187 / 6784 * u 4 + 11 / 84 * u 5] := by
  funext i; fin_cases i <;>
    simp [app, tabA, Fin.sum_univ_seven, a21, a31, a32, a41, a42, a43, a51, a52, a53, a54,
      a61, a62, a63, a64, a65, a71, a73, a74, a75, a76] <;> ring

/-- C35: the solution satisfies all order conditions up to order five. -/
theorem C35_order_five : Order5 tabB := by
  simp only [Order5, Order4, Fin.sum_univ_seven, app_eq, tabC_eq, tabB, a71, a73, a74, a75, a76]
  simp
  norm_num

/-- C35: the embedded solution (weights `b - e`) satisfies those up to order four. -/
theorem C35_embedded_order_four : Order4 (fun i => tabB i - tabE i) := by
  simp only [Order4, Fin.sum_univ_seven, app_eq, tabC_eq, tabB, tabE, a71, a73, a74, a75, a76, e1, e3, e4, e5, e6, e7]
  simp
  norm_num

/-- C35: right-hand sides that are polynomials in time of degree up to four are integrated
exactly, from every start and with every step. -/
theorem C35_polynomials_exact (u0 u1 u2 u3 u4 : V) (T h : ℝ) (y : V) :
    let f := fun (t : ℝ) (_ : V) => u0 + t • u1 + t ^ 2 • u2 + t ^ 3 • u3 + t ^ 4 • u4
    let F := fun (t : ℝ) => t • u0 + (t ^ 2 / 2) • u1 + (t ^ 3 / 3) • u2 + (t ^ 4 / 4) • u3 + (t ^ 5 / 5) • u4
    (innerStep f T h y (f T y)).yout = y + (F (T + h) - F T) := by
  simp only [innerStep, c2, c3, c4, c5, a71, a73, a74, a75, a76]
  match_scalars <;> ring

/-- C35: the error estimate vanishes exactly for polynomials of degree up to three. -/
theorem C35_error_zero_for_cubics (u0 u1 u2 u3 : V) (T h : ℝ) (y : V) :
    let f := fun (t : ℝ) (_ : V) => u0 + t • u1 + t ^ 2 • u2 + t ^ 3 • u3
    (innerStep f T h y (f T y)).yerr = 0 := by
  simp only [innerStep, c2, c3, c4, c5, e1, e3, e4, e5, e6, e7]
  match_scalars <;> ring

/-- The error estimate is not always zero. -/
example : (innerStep (fun t (_ : ℝ) => t ^ 4) 0 1 0 0).yerr = 71 / 270000 := by
  simp only [innerStep, c2, c3, c4, c5, e1, e3, e4, e5, e6, e7, smul_eq_mul]
  norm_num

/-! ### C68: dense output -/

/-- Weight of stage `i` in the dense output at the fraction `s` of the step. -/
def denseW (s : ℝ) : Fin 7 → ℝ := fun i =>
  s * (tabB i + (1 - s) * ((![1, 0, 0, 0, 0, 0, 0] i - tabB i) +
    s * ((2 * tabB i - ![1, 0, 0, 0, 0, 0, 0] i - ![0, 0, 0, 0, 0, 0, 1] i) +
      (1 - s) * ![d1, 0, d3, d4, d5, d6, d7] i)))

/-- C68: the dense output of a step of the code is the combination of its stages with these
weights. -/
theorem C68_dense_is_combination (f : ℝ → V → V) (T h s : ℝ) (y : V) :
    let r := innerStep f T h y (f T y)
    denseEval (prepareDense h y r.yout (f T y) r.dydxout r.k3 r.k4 r.k5 r.k6) s =
      y + ∑ i, (h * denseW s i) • stages (f T y) r i := by
  simp only [Fin.sum_univ_seven, denseW, stages, tabB, denseEval, prepareDense]
  generalize hr : innerStep f T h y (f T y) = r
  have hy : r.yout = y + (h * a71) • f T y + (h * a73) • r.k3 + (h * a74) • r.k4 + (h * a75) • r.k5 + (h * a76) • r.k6 := by
    rw [← hr]; rfl
  rw [hy]
  simp
  module

/-- C68: the dense output satisfies the order conditions up to order four at every fraction `s`
of the step. -/
theorem C68_dense_order_four (s : ℝ) :
    ∑ i, denseW s i = s ∧
    ∑ i, denseW s i * tabC i = s ^ 2 / 2 ∧
    ∑ i, denseW s i * tabC i ^ 2 = s ^ 3 / 3 ∧ ∑ i, denseW s i * app tabC i = s ^ 3 / 6 ∧
    ∑ i, denseW s i * tabC i ^ 3 = s ^ 4 / 4 ∧ ∑ i, denseW s i * (tabC i * app tabC i) = s ^ 4 / 8 ∧
    ∑ i, denseW s i * app (fun j => tabC j ^ 2) i = s ^ 4 / 12 ∧
    ∑ i, denseW s i * app (app tabC) i = s ^ 4 / 24 := by
  simp only [Fin.sum_univ_seven, app_eq, tabC_eq, denseW, tabB, a71, a73, a74, a75, a76, d1, d3, d4, d5, d6, d7]
  simp
  refine ⟨?_, ?_, ?_, ?_, ?_, ?_, ?_, ?_⟩ <;> ring

/-- C68: right-hand sides polynomial in time of degree up to three are reproduced exactly by the
dense output at every point of the step. -/
theorem C68_cubics_exact (u0 u1 u2 u3 : V) (T h s : ℝ) (y : V) :
    let f := fun (t : ℝ) (_ : V) => u0 + t • u1 + t ^ 2 • u2 + t ^ 3 • u3
    let F := fun (t : ℝ) => t • u0 + (t ^ 2 / 2) • u1 + (t ^ 3 / 3) • u2 + (t ^ 4 / 4) • u3
    let r := innerStep f T h y (f T y)
    denseEval (prepareDense h y r.yout (f T y) r.dydxout r.k3 r.k4 r.k5 r.k6) s =
      y + (F (T + s * h) - F T) := by
  simp only [innerStep, denseEval, prepareDense, c2, c3, c4, c5, a71, a73, a74, a75, a76, d1, d3, d4, d5, d6, d7]
  match_scalars <;> ring

end

end Softlib
