/-
C134: the domain of an analytical field.

Source: /repo/src/MagneticField/MagneticFieldAnalytical2D.cpp 86-105 (`ConstructDomain`), MagneticField2D.cpp 33-73 (`CrossesDomain`).
Models: `circleDomain` and `crossesDomain` of `Verif/Magnetic/DomainModel.lean`.
-/
import Verif.Magnetic.DomainProps
import Verif.Magnetic.DomainRoundProps
import Mathlib.Data.Finset.Max
import Mathlib.Analysis.SpecialFunctions.Trigonometric.Complex
import Mathlib.Analysis.SpecialFunctions.Trigonometric.Bounds

namespace Softlib
open Softlib.Magnetic

noncomputable section

/-- How far the displacement (a, b) from the axis leads in the direction of the middle of side `j` of `n`. -/
def towards (n j : ℕ) (a b : ℝ) : ℝ := a * Real.cos ((2 * j + 1) * Real.pi / n) + b * Real.sin ((2 * j + 1) * Real.pi / n)

/-- Corner `j` of `n`. -/
def corner (n : ℕ) (rm zm a : ℝ) (j : ℕ) : Pt :=
  ⟨rm + a * Real.cos (2 * Real.pi * ((j : ℝ) / (n : ℕ))), zm + a * Real.sin (2 * Real.pi * ((j : ℝ) / (n : ℕ)))⟩

theorem corner_last (n : ℕ) (hn : 1 ≤ n) (rm zm a : ℝ) : corner n rm zm a n = corner n rm zm a 0 := by
  have h : (n : ℝ) ≠ 0 := Nat.cast_ne_zero.2 (by omega)
  simp only [corner, div_self h, mul_one, Nat.cast_zero, zero_div, mul_zero, Real.cos_two_pi, Real.sin_two_pi, Real.cos_zero, Real.sin_zero]

theorem circle_side (n : ℕ) (hn : 1 ≤ n) (rm zm a : ℝ) (v w : Pt) :
    Side (circleDomain (n + 1) rm zm a) v w ↔ ∃ j < n, v = corner n rm zm a j ∧ w = corner n rm zm a (j + 1) := by
  have hget : ∀ i, (circleDomain (n + 1) rm zm a)[i]? = if i < n + 1 then some (corner n rm zm a i) else none := by
    intro i
    show ((List.range n).map (corner n rm zm a) ++ [corner n rm zm a 0])[i]? = _
    rcases Nat.lt_trichotomy i n with h | h | h
    · rw [List.getElem?_append_left (by simpa using h), List.getElem?_map, List.getElem?_range h, if_pos (by omega)]
      rfl
    · subst h
      rw [List.getElem?_append_right (by simp), if_pos (by omega), corner_last i hn]
      simp
    · rw [List.getElem?_append_right (by simp; omega), if_neg (by omega), List.getElem?_eq_none]
      simp
      omega
  constructor
  · rintro ⟨i, h1, h2⟩
    rw [hget] at h1 h2
    split_ifs at h1 h2 with c1 c2
    exact ⟨i, by omega, (Option.some.inj h1).symm, (Option.some.inj h2).symm⟩
  · rintro ⟨j, hj, rfl, rfl⟩
    exact ⟨j, by rw [hget, if_pos (by omega)], by rw [hget, if_pos (by omega)]⟩

/-! ### one side -/

/-- A point that leads as far towards the middle of a side as towards its neighbours', and just as far as the side, is on the side. -/
theorem on_side {h φ a b ρ : ℝ} (hs : 0 < Real.sin h) (hc : 0 < Real.cos h) (hρ : 0 < ρ)
    (h1 : a * Real.cos (φ + 2 * h) + b * Real.sin (φ + 2 * h) ≤ a * Real.cos φ + b * Real.sin φ)
    (h2 : a * Real.cos (φ - 2 * h) + b * Real.sin (φ - 2 * h) ≤ a * Real.cos φ + b * Real.sin φ)
    (h3 : a * Real.cos φ + b * Real.sin φ = ρ * Real.cos h) :
    ∃ s, 0 ≤ s ∧ s ≤ 1 ∧ a = ρ * Real.cos (φ - h) + s * (ρ * Real.cos (φ + h) - ρ * Real.cos (φ - h)) ∧
      b = ρ * Real.sin (φ - h) + s * (ρ * Real.sin (φ + h) - ρ * Real.sin (φ - h)) := by
  have hh := Real.sin_sq_add_cos_sq h
  have hp := Real.sin_sq_add_cos_sq φ
  have e1 : Real.cos (φ + 2 * h) = Real.cos φ * (1 - 2 * Real.sin h ^ 2) - Real.sin φ * (2 * Real.sin h * Real.cos h) := by
    rw [Real.cos_add, Real.cos_two_mul, Real.sin_two_mul]; linear_combination (2 * Real.cos φ) * hh
  have e2 : Real.sin (φ + 2 * h) = Real.sin φ * (1 - 2 * Real.sin h ^ 2) + Real.cos φ * (2 * Real.sin h * Real.cos h) := by
    rw [Real.sin_add, Real.cos_two_mul, Real.sin_two_mul]; linear_combination (2 * Real.sin φ) * hh
  have e3 : Real.cos (φ - 2 * h) = Real.cos φ * (1 - 2 * Real.sin h ^ 2) + Real.sin φ * (2 * Real.sin h * Real.cos h) := by
    rw [Real.cos_sub, Real.cos_two_mul, Real.sin_two_mul]; linear_combination (2 * Real.cos φ) * hh
  have e4 : Real.sin (φ - 2 * h) = Real.sin φ * (1 - 2 * Real.sin h ^ 2) - Real.cos φ * (2 * Real.sin h * Real.cos h) := by
    rw [Real.sin_sub, Real.cos_two_mul, Real.sin_two_mul]; linear_combination (2 * Real.sin φ) * hh
  rw [e1, e2] at h1
  rw [e3, e4] at h2
  simp only [Real.cos_add, Real.cos_sub, Real.sin_add, Real.sin_sub]
  generalize Real.cos φ = x at *
  generalize Real.sin φ = y at *
  generalize Real.cos h = c at *
  generalize Real.sin h = t at *
  -- how far the point is from the middle of the side
  set m := b * x - a * y with hm
  have ha : a = ρ * c * x - m * y := by rw [hm]; linear_combination (-a) * hp + x * h3
  have hb : b = ρ * c * y + m * x := by rw [hm]; linear_combination (-b) * hp + y * h3
  have k1 : m ≤ ρ * t := by
    have : 2 * t * (m * c) ≤ 2 * t * (t * (ρ * c)) := by nlinarith [h1, h3]
    have h5 := le_of_mul_le_mul_left this (by linarith)
    have : m * c ≤ (ρ * t) * c := by linarith
    exact le_of_mul_le_mul_right this hc
  have k2 : -(ρ * t) ≤ m := by
    have : 2 * t * (-m * c) ≤ 2 * t * (t * (ρ * c)) := by nlinarith [h2, h3]
    have h5 := le_of_mul_le_mul_left this (by linarith)
    have : -m * c ≤ (ρ * t) * c := by linarith
    have := le_of_mul_le_mul_right this hc
    linarith
  have hpos : 0 < 2 * (ρ * t) := by positivity
  refine ⟨(m + ρ * t) / (2 * (ρ * t)), div_nonneg (by linarith) hpos.le, (div_le_one hpos).mpr (by linarith), ?_, ?_⟩
  · rw [ha]; field_simp; ring
  · rw [hb]; field_simp; ring

theorem pi_n {n : ℕ} (hn : 3 ≤ n) : 0 < Real.sin (Real.pi / n) ∧ 0 < Real.cos (Real.pi / n) := by
  have h3 : (3 : ℝ) ≤ n := by exact_mod_cast hn
  have hp := Real.pi_pos
  have h0 : 0 < Real.pi / n := by positivity
  have h1 : Real.pi / n ≤ Real.pi / 3 := div_le_div_of_nonneg_left hp.le (by norm_num) h3
  exact ⟨Real.sin_pos_of_pos_of_lt_pi h0 (by linarith), Real.cos_pos_of_mem_Ioo ⟨by linarith, by linarith⟩⟩

theorem towards_add (n k : ℕ) (hn : 1 ≤ n) (a b : ℝ) : towards n (k + n) a b = towards n k a b := by
  have h : (n : ℝ) ≠ 0 := Nat.cast_ne_zero.2 (by omega)
  have e : (2 * ((k + n : ℕ) : ℝ) + 1) * Real.pi / n = (2 * k + 1) * Real.pi / n + 2 * Real.pi := by
    push_cast; field_simp; ring
  rw [towards, towards, e, Real.cos_add_two_pi, Real.sin_add_two_pi]

theorem towards_mod (n k : ℕ) (hn : 1 ≤ n) (a b : ℝ) : towards n k a b = towards n (k % n) a b := by
  conv_lhs => rw [← Nat.mod_add_div k n]
  generalize k / n = q
  induction q with
  | zero => simp
  | succ q ih => rw [show k % n + n * (q + 1) = (k % n + n * q) + n by ring, towards_add n _ hn, ih]

/-- The largest of the values is the largest of all. -/
theorem towards_max (n : ℕ) (hn : 1 ≤ n) (a b : ℝ) : ∃ j < n, ∀ k, towards n k a b ≤ towards n j a b := by
  obtain ⟨j, hj, hm⟩ := Finset.exists_max_image (Finset.range n) (fun k => towards n k a b) ⟨0, Finset.mem_range.mpr (by omega)⟩
  refine ⟨j, Finset.mem_range.mp hj, fun k => ?_⟩
  rw [towards_mod n k hn]
  exact hm _ (Finset.mem_range.mpr (Nat.mod_lt _ (by omega)))

theorem corner_angle (n j : ℕ) (hn : 1 ≤ n) :
    2 * Real.pi * ((j : ℝ) / (n : ℕ)) = (2 * j + 1) * Real.pi / n - Real.pi / n ∧
    2 * Real.pi * (((j + 1 : ℕ) : ℝ) / (n : ℕ)) = (2 * j + 1) * Real.pi / n + Real.pi / n := by
  have h : (n : ℝ) ≠ 0 := Nat.cast_ne_zero.2 (by omega)
  constructor <;> (push_cast; field_simp; ring)

/-- The two corners of a side lead as far as the side. -/
theorem towards_corner (n j : ℕ) (hn : 1 ≤ n) (rm zm ρ : ℝ) :
    towards n j ((corner n rm zm ρ j).r - rm) ((corner n rm zm ρ j).z - zm) = ρ * Real.cos (Real.pi / n) ∧
    towards n j ((corner n rm zm ρ (j + 1)).r - rm) ((corner n rm zm ρ (j + 1)).z - zm) = ρ * Real.cos (Real.pi / n) := by
  obtain ⟨e1, e2⟩ := corner_angle n j hn
  have hp := Real.sin_sq_add_cos_sq ((2 * j + 1) * Real.pi / n)
  simp only [towards, corner, e1, e2]
  constructor
  · rw [Real.cos_sub, Real.sin_sub]; linear_combination ρ * Real.cos (Real.pi / n) * hp
  · rw [Real.cos_add, Real.sin_add]; linear_combination ρ * Real.cos (Real.pi / n) * hp

theorem towards_between (n j : ℕ) (rm zm : ℝ) (p q : Pt) (t : ℝ) :
    towards n j ((between p q t).r - rm) ((between p q t).z - zm) =
      towards n j (p.r - rm) (p.z - zm) + t * (towards n j (q.r - rm) (q.z - zm) - towards n j (p.r - rm) (p.z - zm)) := by
  simp only [between, towards]; ring

/-- A point that leads just as far as side `j`, and no farther towards the others, is on side `j`. -/
theorem on_corner_side (n j : ℕ) (hn : 3 ≤ n) (rm zm ρ : ℝ) (hρ : 0 < ρ) (X : Pt)
    (h1 : towards n j (X.r - rm) (X.z - zm) = ρ * Real.cos (Real.pi / n))
    (h2 : ∀ k, towards n k (X.r - rm) (X.z - zm) ≤ towards n j (X.r - rm) (X.z - zm)) :
    ∃ s, 0 ≤ s ∧ s ≤ 1 ∧ X = between (corner n rm zm ρ j) (corner n rm zm ρ (j + 1)) s := by
  obtain ⟨hs, hc⟩ := pi_n hn
  have hn0 : (n : ℝ) ≠ 0 := Nat.cast_ne_zero.2 (by omega)
  have up := h2 (j + 1)
  have dn := h2 (j + (n - 1))
  have a1 : (2 * ((j + 1 : ℕ) : ℝ) + 1) * Real.pi / n = (2 * j + 1) * Real.pi / n + 2 * (Real.pi / n) := by push_cast; ring
  have a2 : (2 * ((j + (n - 1) : ℕ) : ℝ) + 1) * Real.pi / n = (2 * j + 1) * Real.pi / n - 2 * (Real.pi / n) + 2 * Real.pi := by
    rw [Nat.cast_add, Nat.cast_sub (by omega)]; push_cast; field_simp; ring
  simp only [towards, a1] at up
  simp only [towards, a2, Real.cos_add_two_pi, Real.sin_add_two_pi] at dn
  obtain ⟨s, s0, s1, ha, hb⟩ := on_side hs hc hρ up dn h1
  obtain ⟨e1, e2⟩ := corner_angle n j (by omega)
  refine ⟨s, s0, s1, Pt.ext ?_ ?_⟩
  · simp only [between, corner, e1, e2]; linear_combination ha
  · simp only [between, corner, e1, e2]; linear_combination hb

theorem parallel_iff (n j : ℕ) (hn : 3 ≤ n) (rm zm ρ : ℝ) (hρ : 0 < ρ) (p q : Pt) :
    Parallel p q (corner n rm zm ρ j) (corner n rm zm ρ (j + 1)) ↔ towards n j (q.r - p.r) (q.z - p.z) = 0 := by
  obtain ⟨hs, hc⟩ := pi_n hn
  obtain ⟨e1, e2⟩ := corner_angle n j (by omega)
  have : (corner n rm zm ρ (j + 1)).r - (corner n rm zm ρ j).r = -(2 * ρ * Real.sin (Real.pi / n)) * Real.sin ((2 * j + 1) * Real.pi / n) ∧
      (corner n rm zm ρ (j + 1)).z - (corner n rm zm ρ j).z = (2 * ρ * Real.sin (Real.pi / n)) * Real.cos ((2 * j + 1) * Real.pi / n) := by
    simp only [corner, e1, e2, Real.cos_add, Real.cos_sub, Real.sin_add, Real.sin_sub]
    constructor <;> ring
  rw [Parallel, this.1, this.2, towards]
  have hk : 2 * ρ * Real.sin (Real.pi / n) ≠ 0 := by positivity
  constructor
  · intro h
    apply mul_left_cancel₀ hk
    linear_combination -h
  · intro h
    linear_combination -(2 * ρ * Real.sin (Real.pi / n)) * h

theorem conv_lt {f g K t : ℝ} (hf : f < K) (hg : g < K) (t0 : 0 ≤ t) (t1 : t ≤ 1) : f + t * (g - f) < K := by
  rcases le_or_gt g f with h | h
  · have := mul_nonneg t0 (sub_nonneg.mpr h)
    linarith
  · have := mul_le_mul_of_nonneg_right t1 (sub_pos.mpr h).le
    linarith

/-- A displacement leads at least as far, in one of the directions, as the chord is from the centre. -/
theorem towards_far (n : ℕ) (hn : 3 ≤ n) (a b : ℝ) :
    ∃ j < n, 0 ≤ towards n j a b ∧ (a ^ 2 + b ^ 2) * Real.cos (Real.pi / n) ^ 2 ≤ towards n j a b ^ 2 := by
  obtain ⟨hs, hc⟩ := pi_n hn
  have hn0 : (n : ℝ) ≠ 0 := Nat.cast_ne_zero.2 (by omega)
  obtain ⟨j, hj, h2⟩ := towards_max n (by omega) a b
  refine ⟨j, hj, ?_⟩
  have up := h2 (j + 1)
  have dn := h2 (j + (n - 1))
  have a1 : (2 * ((j + 1 : ℕ) : ℝ) + 1) * Real.pi / n = (2 * j + 1) * Real.pi / n + 2 * (Real.pi / n) := by push_cast; ring
  have a2 : (2 * ((j + (n - 1) : ℕ) : ℝ) + 1) * Real.pi / n = (2 * j + 1) * Real.pi / n - 2 * (Real.pi / n) + 2 * Real.pi := by
    rw [Nat.cast_add, Nat.cast_sub (by omega)]; push_cast; field_simp; ring
  simp only [towards, a1] at up
  simp only [towards, a2, Real.cos_add_two_pi, Real.sin_add_two_pi] at dn
  simp only [towards]
  generalize (2 * (j : ℝ) + 1) * Real.pi / n = φ at *
  generalize Real.pi / (n : ℝ) = h at *
  have hh := Real.sin_sq_add_cos_sq h
  have hp := Real.sin_sq_add_cos_sq φ
  rw [Real.cos_add, Real.sin_add, Real.cos_two_mul, Real.sin_two_mul] at up
  rw [Real.cos_sub, Real.sin_sub, Real.cos_two_mul, Real.sin_two_mul] at dn
  generalize Real.cos φ = x at *
  generalize Real.sin φ = y at *
  generalize Real.cos h = c at *
  generalize Real.sin h = t at *
  set T := a * x + b * y with hT
  set m := b * x - a * y with hm
  have hc2 : c ^ 2 = 1 - t ^ 2 := by linarith
  have k1 : m * c ≤ t * T := by
    have : 2 * t * (m * c) ≤ 2 * t * (t * T) := by rw [hc2] at up; rw [hm, hT]; nlinarith [up]
    exact le_of_mul_le_mul_left this (by linarith)
  have k2 : -(m * c) ≤ t * T := by
    have : 2 * t * (-(m * c)) ≤ 2 * t * (t * T) := by rw [hc2] at dn; rw [hm, hT]; nlinarith [dn]
    exact le_of_mul_le_mul_left this (by linarith)
  have hT0 : 0 ≤ T := by
    have : 0 ≤ t * T := by linarith
    exact nonneg_of_mul_nonneg_right this hs
  refine ⟨hT0, ?_⟩
  have hsum : a ^ 2 + b ^ 2 = T ^ 2 + m ^ 2 := by
    rw [hT, hm]; linear_combination (-(a ^ 2 + b ^ 2)) * hp
  have hsq : (m * c) ^ 2 ≤ (t * T) ^ 2 := sq_le_sq' (by linarith) k1
  rw [hsum]
  have : T ^ 2 = T ^ 2 * t ^ 2 + T ^ 2 * c ^ 2 := by rw [← mul_add, hh, mul_one]
  nlinarith

theorem towards_le (n j : ℕ) (a b d : ℝ) (hd : 0 ≤ d) (h : a ^ 2 + b ^ 2 < d ^ 2) : towards n j a b < d := by
  simp only [towards]
  generalize (2 * (j : ℝ) + 1) * Real.pi / n = φ
  have hp := Real.sin_sq_add_cos_sq φ
  apply lt_of_pow_lt_pow_left₀ 2 hd
  have : (a * Real.cos φ + b * Real.sin φ) ^ 2 + (a * Real.sin φ - b * Real.cos φ) ^ 2 = a ^ 2 + b ^ 2 := by
    linear_combination (a ^ 2 + b ^ 2) * hp
  nlinarith [sq_nonneg (a * Real.sin φ - b * Real.cos φ)]

theorem corner_ne (n j : ℕ) (hn : 3 ≤ n) (rm zm ρ : ℝ) (hρ : 0 < ρ) : corner n rm zm ρ (j + 1) ≠ corner n rm zm ρ j := by
  intro h
  obtain ⟨hs, -⟩ := pi_n hn
  obtain ⟨e1, e2⟩ := corner_angle n j (by omega)
  have hp := Real.sin_sq_add_cos_sq ((2 * j + 1) * Real.pi / n)
  have hr := congrArg Pt.r h
  have hz := congrArg Pt.z h
  simp only [corner, e1, e2, Real.cos_add, Real.cos_sub, Real.sin_add, Real.sin_sub] at hr hz
  have : ρ * Real.sin (Real.pi / n) = 0 := by
    linear_combination (-(1 / 2) * Real.sin ((2 * j + 1) * Real.pi / n)) * hr + ((1 / 2) * Real.cos ((2 * j + 1) * Real.pi / n)) * hz -
      (ρ * Real.sin (Real.pi / n)) * hp
  exact (mul_pos hρ hs).ne' this

/-! ### the domain -/

/-- The point is inside all sides of the domain. -/
def InsideAll (n : ℕ) (rm zm ρ : ℝ) (p : Pt) : Prop := ∀ j < n, towards n j (p.r - rm) (p.z - zm) < ρ * Real.cos (Real.pi / n)

/-- A path from inside to a point that is not meets a side. -/
theorem exit_side (n : ℕ) (hn : 3 ≤ n) (rm zm ρ : ℝ) (hρ : 0 < ρ) (p q : Pt) (hin : InsideAll n rm zm ρ p) (hq : ¬ InsideAll n rm zm ρ q) :
    ∃ j < n, Meet p q (corner n rm zm ρ j) (corner n rm zm ρ (j + 1)) := by
  set K := ρ * Real.cos (Real.pi / n) with hK
  simp only [InsideAll, not_forall, not_lt] at hq
  obtain ⟨j₀, hj₀, hq⟩ := hq
  let f : ℕ → ℝ := fun k => towards n k (p.r - rm) (p.z - zm)
  let g : ℕ → ℝ := fun k => towards n k (q.r - rm) (q.z - zm)
  -- the side through which the path leaves first
  obtain ⟨j, hj, hmin⟩ := Finset.exists_min_image ((Finset.range n).filter (fun k => K ≤ g k)) (fun k => (K - f k) / (g k - f k))
    ⟨j₀, Finset.mem_filter.mpr ⟨Finset.mem_range.mpr hj₀, hq⟩⟩
  obtain ⟨hj, hgj⟩ := Finset.mem_filter.mp hj
  have hj := Finset.mem_range.mp hj
  have hfj : f j < K := hin j hj
  have hpos : 0 < g j - f j := by linarith
  set t := (K - f j) / (g j - f j) with ht
  have t0 : 0 ≤ t := div_nonneg (by linarith) hpos.le
  have t1 : t ≤ 1 := (div_le_one hpos).mpr (by linarith)
  have htj : f j + t * (g j - f j) = K := by rw [ht]; field_simp; ring
  have hle : ∀ k < n, f k + t * (g k - f k) ≤ K := by
    intro k hk
    have hfk : f k < K := hin k hk
    rcases lt_or_ge (g k) K with h | h
    · exact (conv_lt hfk h t0 t1).le
    · have h5 := hmin k (Finset.mem_filter.mpr ⟨Finset.mem_range.mpr hk, h⟩)
      have h6 : 0 < g k - f k := by linarith
      have h7 : t * (g k - f k) ≤ K - f k := (le_div_iff₀ h6).mp h5
      linarith
  obtain ⟨s, s0, s1, he⟩ := on_corner_side n j hn rm zm ρ hρ (between p q t)
    (by rw [towards_between]; exact htj)
    (fun k => by
      rw [towards_between n j]
      refine le_trans ?_ (le_of_eq htj.symm)
      rw [towards_mod n k (by omega), towards_between]
      exact hle _ (Nat.mod_lt _ (by omega)))
  exact ⟨j, hj, s, t, s0, s1, t0, t1, he⟩

/-- C134: a path from inside is reported to leave the domain exactly if its end is not inside, or if the path is parallel to a side. -/
theorem C134_exact (n : ℕ) (hn : 3 ≤ n) (rm zm ρ : ℝ) (hρ : 0 < ρ) (x1 y1 z1 x2 y2 z2 : ℝ)
    (hin : InsideAll n rm zm ρ (poloidal x1 y1 z1)) :
    ∃ b, crossesDomain (circleDomain (n + 1) rm zm ρ) x1 y1 z1 x2 y2 z2 = some b ∧
      (b = true ↔ ¬ InsideAll n rm zm ρ (poloidal x2 y2 z2) ∨
        ∃ j < n, towards n j ((poloidal x2 y2 z2).r - (poloidal x1 y1 z1).r) ((poloidal x2 y2 z2).z - (poloidal x1 y1 z1).z) = 0) := by
  have hd : circleDomain (n + 1) rm zm ρ ≠ [] := by simp [circleDomain]
  obtain ⟨b, hb, hiff⟩ := C44_exact _ hd x1 y1 z1 x2 y2 z2
  refine ⟨b, hb, ?_⟩
  rw [hiff]
  generalize poloidal x1 y1 z1 = p at *
  generalize poloidal x2 y2 z2 = q at *
  set K := ρ * Real.cos (Real.pi / n) with hK
  have hne : ∀ j < n, p ≠ corner n rm zm ρ j := by
    rintro j hj rfl
    have := hin j hj
    rw [(towards_corner n j (by omega) rm zm ρ).1] at this
    exact lt_irrefl _ this
  constructor
  · rintro ⟨v, w, hs, -, hc⟩
    obtain ⟨j, hj, rfl, rfl⟩ := (circle_side n (by omega) rm zm ρ v w).mp hs
    rcases hc with hc | ⟨s, t, s0, s1, t0, t1, he⟩
    · exact .inr ⟨j, hj, (parallel_iff n j hn rm zm ρ hρ p q).mp hc⟩
    · left
      intro hq
      have h1 := towards_between n j rm zm p q t
      have h2 := towards_between n j rm zm (corner n rm zm ρ j) (corner n rm zm ρ (j + 1)) s
      obtain ⟨c1, c2⟩ := towards_corner n j (by omega) rm zm ρ
      rw [c1, c2, sub_self, mul_zero, add_zero, ← he, h1] at h2
      exact absurd h2 (conv_lt (hin j hj) (hq j hj) t0 t1).ne
  · rintro (hq | ⟨j, hj, hpar⟩)
    · obtain ⟨j, hj, hm⟩ := exit_side n hn rm zm ρ hρ p q hin hq
      exact ⟨_, _, (circle_side n (by omega) rm zm ρ _ _).mpr ⟨j, hj, rfl, rfl⟩, hne j hj, .inr hm⟩
    · exact ⟨_, _, (circle_side n (by omega) rm zm ρ _ _).mpr ⟨j, hj, rfl, rfl⟩, hne j hj, .inl ((parallel_iff n j hn rm zm ρ hρ p q).mpr hpar)⟩

theorem inside_of_near (n : ℕ) (hn : 3 ≤ n) (rm zm ρ : ℝ) (hρ : 0 < ρ) (p : Pt)
    (h : (p.r - rm) ^ 2 + (p.z - zm) ^ 2 < (ρ * Real.cos (Real.pi / n)) ^ 2) : InsideAll n rm zm ρ p :=
  fun j _ => towards_le n j _ _ _ (mul_pos hρ (pi_n hn).2).le h

theorem not_inside_of_far (n : ℕ) (hn : 3 ≤ n) (rm zm ρ : ℝ) (hρ : 0 < ρ) (p : Pt)
    (h : ρ ^ 2 ≤ (p.r - rm) ^ 2 + (p.z - zm) ^ 2) : ¬ InsideAll n rm zm ρ p := by
  intro hin
  obtain ⟨j, hj, h0, h1⟩ := towards_far n hn (p.r - rm) (p.z - zm)
  have h2 := hin j hj
  have hc := (pi_n hn).2
  have h3 : towards n j (p.r - rm) (p.z - zm) ^ 2 < (ρ * Real.cos (Real.pi / n)) ^ 2 := pow_lt_pow_left₀ h2 h0 (by norm_num)
  have h4 := mul_le_mul_of_nonneg_right h (sq_nonneg (Real.cos (Real.pi / n)))
  rw [mul_pow] at h3
  linarith

theorem axis_inside (n : ℕ) (hn : 3 ≤ n) (rm zm ρ : ℝ) (hρ : 0 < ρ) : InsideAll n rm zm ρ ⟨rm, zm⟩ :=
  inside_of_near n hn rm zm ρ hρ _ (by
    have := mul_pos hρ (pi_n hn).2
    simp only [sub_self]
    have := pow_pos this 2
    linarith)

theorem poloidal_axis {rm : ℝ} (hrm : 0 ≤ rm) (zm : ℝ) : poloidal rm 0 zm = ⟨rm, zm⟩ := by
  simp [poloidal, Real.sqrt_sq hrm]

/-- C134: a point is reported to be outside exactly if it is not inside all sides, or if its direction from the axis is that of one of the sides. -/
theorem C134_point (n : ℕ) (hn : 3 ≤ n) (rm zm ρ : ℝ) (hρ : 0 < ρ) (hrm : 0 ≤ rm) (x y z : ℝ) :
    ∃ b, crossesDomain (circleDomain (n + 1) rm zm ρ) rm 0 zm x y z = some b ∧
      (b = true ↔ ¬ InsideAll n rm zm ρ (poloidal x y z) ∨
        ∃ j < n, towards n j ((poloidal x y z).r - rm) ((poloidal x y z).z - zm) = 0) := by
  have h := C134_exact n hn rm zm ρ hρ rm 0 zm x y z (by rw [poloidal_axis hrm]; exact axis_inside n hn rm zm ρ hρ)
  rwa [poloidal_axis hrm] at h

/-- C134: no point outside the plasma is missed. -/
theorem C134_outside (n : ℕ) (hn : 3 ≤ n) (rm zm ρ : ℝ) (hρ : 0 < ρ) (x1 y1 z1 x2 y2 z2 : ℝ)
    (hin : ((poloidal x1 y1 z1).r - rm) ^ 2 + ((poloidal x1 y1 z1).z - zm) ^ 2 < (ρ * Real.cos (Real.pi / n)) ^ 2)
    (hout : ρ ^ 2 ≤ ((poloidal x2 y2 z2).r - rm) ^ 2 + ((poloidal x2 y2 z2).z - zm) ^ 2) :
    crossesDomain (circleDomain (n + 1) rm zm ρ) x1 y1 z1 x2 y2 z2 = some true := by
  obtain ⟨b, hb, hiff⟩ := C134_exact n hn rm zm ρ hρ x1 y1 z1 x2 y2 z2 (inside_of_near n hn rm zm ρ hρ _ hin)
  rw [hb, hiff.mpr (.inl (not_inside_of_far n hn rm zm ρ hρ _ hout))]

/-- C134: the way back is noticed as well. -/
theorem C134_back (n : ℕ) (hn : 3 ≤ n) (rm zm ρ : ℝ) (hρ : 0 < ρ) (x1 y1 z1 x2 y2 z2 : ℝ)
    (hin : InsideAll n rm zm ρ (poloidal x2 y2 z2)) (hout : ¬ InsideAll n rm zm ρ (poloidal x1 y1 z1)) :
    crossesDomain (circleDomain (n + 1) rm zm ρ) x1 y1 z1 x2 y2 z2 = some true := by
  have hd : circleDomain (n + 1) rm zm ρ ≠ [] := by simp [circleDomain]
  obtain ⟨b, hb, hiff⟩ := C44_exact _ hd x1 y1 z1 x2 y2 z2
  rw [hb, Option.some.injEq, hiff]
  generalize poloidal x1 y1 z1 = p at *
  generalize poloidal x2 y2 z2 = q at *
  obtain ⟨j, hj, s, t, s0, s1, t0, t1, he⟩ := exit_side n hn rm zm ρ hρ q p hin hout
  by_cases hp : p = corner n rm zm ρ j
  · -- a start in a corner: the side before it
    obtain ⟨k, hk, hkj⟩ : ∃ k < n, corner n rm zm ρ (k + 1) = corner n rm zm ρ j := by
      rcases Nat.eq_zero_or_pos j with rfl | h
      · exact ⟨n - 1, by omega, by rw [Nat.sub_add_cancel (by omega), corner_last n (by omega)]⟩
      · exact ⟨j - 1, by omega, by rw [Nat.sub_add_cancel (by omega)]⟩
    refine ⟨_, _, (circle_side n (by omega) rm zm ρ _ _).mpr ⟨k, hk, rfl, rfl⟩, ?_, .inr ⟨1, 0, by norm_num, by norm_num, by norm_num, by norm_num, ?_⟩⟩
    · rw [hp, ← hkj]
      exact corner_ne n k hn rm zm ρ hρ
    · rw [hkj, ← hp]
      apply Pt.ext <;> simp only [between] <;> ring
  · refine ⟨_, _, (circle_side n (by omega) rm zm ρ _ _).mpr ⟨j, hj, rfl, rfl⟩, hp, .inr ⟨s, 1 - t, s0, s1, by linarith, by linarith, ?_⟩⟩
    rw [← he]
    apply Pt.ext <;> simp only [between] <;> ring

/-- C134: a point inside the plasma is reported to be inside, if it is not in the sliver between circle and chords and not in the direction of a side.
Missing: the slivers and the directions, see `C134_refuted_sliver` and `C134_refuted_direction`. -/
theorem C134_inside_partial (n : ℕ) (hn : 3 ≤ n) (rm zm ρ : ℝ) (hρ : 0 < ρ) (hrm : 0 ≤ rm) (x y z : ℝ)
    (hin : ((poloidal x y z).r - rm) ^ 2 + ((poloidal x y z).z - zm) ^ 2 < (ρ * Real.cos (Real.pi / n)) ^ 2)
    (hdir : ∀ j < n, towards n j ((poloidal x y z).r - rm) ((poloidal x y z).z - zm) ≠ 0) :
    crossesDomain (circleDomain (n + 1) rm zm ρ) rm 0 zm x y z = some false := by
  obtain ⟨b, hb, hiff⟩ := C134_point n hn rm zm ρ hρ hrm x y z
  rw [hb]
  congr 1
  rw [← Bool.not_eq_true, hiff]
  rintro (h | ⟨j, hj, h⟩)
  · exact h (inside_of_near n hn rm zm ρ hρ _ hin)
  · exact hdir j hj h

theorem poloidal_plane {r : ℝ} (hr : 0 ≤ r) (z : ℝ) : poloidal r 0 z = ⟨r, z⟩ := poloidal_axis hr z

/-- C134, refuted: the magnetic axis is reported to be outside the plasma. -/
theorem C134_refuted_axis (n : ℕ) (hn : 3 ≤ n) (rm zm ρ : ℝ) (hρ : 0 < ρ) (hrm : 0 ≤ rm) :
    crossesDomain (circleDomain (n + 1) rm zm ρ) rm 0 zm rm 0 zm = some true := by
  obtain ⟨b, hb, hiff⟩ := C134_point n hn rm zm ρ hρ hrm rm 0 zm
  rw [hb, hiff.mpr (.inr ⟨0, by omega, ?_⟩)]
  rw [poloidal_axis hrm]
  simp [towards]

/-- C134, refuted: rounding does not change that.  Whatever the domain, and wherever the axis, as long as some side does not begin there. -/
theorem C134_refuted_axis_rounded {u : ℚ} (R : General.Rnd u) (hu1 : u < 1) (dom : List Q2) (p : Q2) (i : ℕ) (v w : Q2) (hv : dom[i]? = some v) (hw : dom[i + 1]? = some w)
    (hne : p ≠ v) : crossesR R dom p p = some true := by
  have hd : dom.isEmpty = false := by cases dom with
    | nil => simp at hv
    | cons => rfl
  rw [crossesR, hd, if_neg (by simp)]
  congr 1
  rw [crossesLoopR_any]
  refine ⟨i, v, w, hv, hw, ?_⟩
  have h0 : R.fl 0 = 0 := (fl_eq_zero R hu1).mpr rfl
  have hn : ¬ (R.fl (p.r - v.r) = 0 ∧ R.fl (p.z - v.z) = 0) := by
    rw [fl_eq_zero R hu1, fl_eq_zero R hu1]
    rintro ⟨h1, h2⟩
    apply hne
    cases p; cases v
    simp only [Q2.mk.injEq]
    exact ⟨by linarith, by linarith⟩
  have hz : detR R (R.fl (w.r - v.r)) (R.fl (p.z - p.z)) (R.fl (p.r - p.r)) (R.fl (w.z - v.z)) = 0 := by
    simp [detR, h0]
  simp only [sideR]
  rw [if_neg hn, if_pos hz]

/-- C134, refuted: with the fifty points of the code, every point straight above or below the axis is reported to be outside the plasma, however close it is. -/
theorem C134_refuted_direction (rm zm ρ : ℝ) (hρ : 0 < ρ) (hrm : 0 ≤ rm) (d : ℝ) :
    crossesDomain (circleDomain 50 rm zm ρ) rm 0 zm rm 0 (zm + d) = some true := by
  obtain ⟨b, hb, hiff⟩ := C134_point 49 (by norm_num) rm zm ρ hρ hrm rm 0 (zm + d)
  rw [hb, hiff.mpr (.inr ⟨24, by omega, ?_⟩)]
  rw [poloidal_axis hrm]
  have : (2 * ((24 : ℕ) : ℝ) + 1) * Real.pi / (49 : ℕ) = Real.pi := by push_cast; ring
  simp only [towards, this, sub_self, zero_mul, Real.sin_pi, mul_zero, add_zero]

/-- C134, refuted: so is every point in the direction of one of the sides. -/
theorem C134_refuted_directions (n : ℕ) (hn : 3 ≤ n) (rm zm ρ : ℝ) (hρ : 0 < ρ) (j : ℕ) (hj : j < n) (d : ℝ) (hd : |d| ≤ rm) :
    crossesDomain (circleDomain (n + 1) rm zm ρ) rm 0 zm (rm - d * Real.sin ((2 * j + 1) * Real.pi / n)) 0
      (zm + d * Real.cos ((2 * j + 1) * Real.pi / n)) = some true := by
  have hrm : 0 ≤ rm := (abs_nonneg d).trans hd
  obtain ⟨b, hb, hiff⟩ := C134_point n hn rm zm ρ hρ hrm (rm - d * Real.sin ((2 * j + 1) * Real.pi / n)) 0
      (zm + d * Real.cos ((2 * j + 1) * Real.pi / n))
  rw [hb, hiff.mpr (.inr ⟨j, hj, ?_⟩)]
  rw [poloidal_plane]
  · simp only [towards]; ring
  · have h1 : d * Real.sin ((2 * j + 1) * Real.pi / n) ≤ |d| := by
      calc _ ≤ |d * Real.sin ((2 * j + 1) * Real.pi / n)| := le_abs_self _
        _ = |d| * |Real.sin ((2 * j + 1) * Real.pi / n)| := abs_mul _ _
        _ ≤ |d| * 1 := mul_le_mul_of_nonneg_left (Real.abs_sin_le_one _) (abs_nonneg d)
        _ = |d| := mul_one _
    linarith

/-- C134, refuted: in front of every side there is a part of the plasma that is reported to be outside. -/
theorem C134_refuted_sliver (n : ℕ) (hn : 3 ≤ n) (rm zm ρ : ℝ) (hρ : 0 < ρ) (hrm : ρ ≤ rm) (j : ℕ) (hj : j < n) (d : ℝ)
    (hd : ρ * Real.cos (Real.pi / n) ≤ d) (hd' : d < ρ) :
    crossesDomain (circleDomain (n + 1) rm zm ρ) rm 0 zm (rm + d * Real.cos ((2 * j + 1) * Real.pi / n)) 0
      (zm + d * Real.sin ((2 * j + 1) * Real.pi / n)) = some true := by
  have hd0 : 0 ≤ d := (mul_pos hρ (pi_n hn).2).le.trans hd
  obtain ⟨b, hb, hiff⟩ := C134_point n hn rm zm ρ hρ (hρ.le.trans hrm) (rm + d * Real.cos ((2 * j + 1) * Real.pi / n)) 0
      (zm + d * Real.sin ((2 * j + 1) * Real.pi / n))
  rw [hb, hiff.mpr (.inl ?_)]
  rw [poloidal_plane]
  · intro h
    have h1 := h j hj
    have hp := Real.sin_sq_add_cos_sq ((2 * j + 1) * Real.pi / n)
    have : towards n j (rm + d * Real.cos ((2 * j + 1) * Real.pi / n) - rm) (zm + d * Real.sin ((2 * j + 1) * Real.pi / n) - zm) = d := by
      simp only [towards]; linear_combination d * hp
    simp only [] at h1
    rw [this] at h1
    linarith
  · have := mul_le_mul_of_nonneg_left (Real.neg_one_le_cos ((2 * j + 1) * Real.pi / n)) hd0
    linarith

/-- The slivers are there: cos(π/n) < 1. -/
example (n : ℕ) (hn : 3 ≤ n) (ρ : ℝ) (hρ : 0 < ρ) : ρ * Real.cos (Real.pi / n) < ρ := by
  have h := Real.sin_sq_add_cos_sq (Real.pi / n)
  obtain ⟨hs, hc⟩ := pi_n hn
  nlinarith [mul_pos hρ hs, mul_pos hρ hc]

/-- A point to the right of the axis, within the plasma, is inside the domain and in the direction of no side. -/
example : crossesDomain (circleDomain 50 3 0 1) 3 0 0 (3 + 1 / 2) 0 0 = some false := by
  apply C134_inside_partial 49 (by norm_num) 3 0 1 (by norm_num) (by norm_num)
  · rw [poloidal_plane (by norm_num)]
    have h := Real.one_sub_sq_div_two_le_cos (x := Real.pi / (49 : ℕ))
    have hp := Real.pi_le_four
    have hp0 := Real.pi_pos
    have h1 : Real.pi / (49 : ℕ) < 1 / 2 := by push_cast; linarith
    have h2 : 0 < Real.pi / (49 : ℕ) := by positivity
    have h3 : (7 : ℝ) / 8 ≤ Real.cos (Real.pi / (49 : ℕ)) := by nlinarith
    norm_num at h3 ⊢
    nlinarith
  · intro j hj h
    rw [poloidal_plane (by norm_num)] at h
    simp only [towards, sub_self, zero_mul, add_zero] at h
    have h1 : Real.cos ((2 * j + 1) * Real.pi / (49 : ℕ)) = 0 := by
      rcases mul_eq_zero.mp h with h | h
      · norm_num at h
      · exact h
    obtain ⟨k, hk⟩ := Real.cos_eq_zero_iff.mp h1
    have hp := Real.pi_ne_zero
    have h2 : (2 * (2 * (j : ℝ) + 1)) = 49 * (2 * (k : ℝ) + 1) := by
      apply mul_right_cancel₀ hp
      push_cast at hk
      linear_combination 98 * hk
    have h3 : 2 * (2 * (j : ℤ) + 1) = 49 * (2 * k + 1) := by exact_mod_cast h2
    omega

end

end Softlib
