/-
Property C88: numeric fields made from analytical ones.
-/
import Verif.Magnetic.ConvertModel
import Verif.Magnetic.NumericProps
import Verif.Magnetic.DomainProps
import Mathlib.Tactic.Linarith
import Mathlib.Tactic.FieldSimp
import Mathlib.Tactic.Ring
import Mathlib.Tactic.LinearCombination

namespace Softlib

open Softlib.Magnetic

/-- What is assumed of the splines: made from an increasing grid of at least four points per
direction they take the given values at the grid points (the order of the values is that of the
GSL library). -/
def NodeExact (mk : List ℝ → List ℝ → List ℝ → Spl) : Prop :=
  ∀ R Z V : List ℝ, 4 ≤ R.length → 4 ≤ Z.length → R.Pairwise (· < ·) → Z.Pairwise (· < ·) →
    V.length = R.length * Z.length → ∀ (i j : Nat) (r z v : ℝ), R[i]? = some r → Z[j]? = some z →
      V[i + j * R.length]? = some v → (mk R Z V).val r z = v

theorem pairwise_lt_inj {l : List ℝ} (h : l.Pairwise (· < ·)) {i j : Nat} {x : ℝ} (hi : l[i]? = some x)
    (hj : l[j]? = some x) : i = j := by
  obtain ⟨h1, e1⟩ := List.getElem?_eq_some_iff.1 hi
  obtain ⟨h2, e2⟩ := List.getElem?_eq_some_iff.1 hj
  rw [List.pairwise_iff_getElem] at h
  rcases Nat.lt_trichotomy i j with hlt | heq | hlt
  · have := h i j h1 h2 hlt; rw [e1, e2] at this; exact absurd this (lt_irrefl _)
  · exact heq
  · have := h j i h2 h1 hlt; rw [e1, e2] at this; exact absurd this (lt_irrefl _)

open Classical in
/-- There are such splines. -/
example : ∃ mk, NodeExact mk := by
  refine ⟨fun R Z V => ⟨fun r z => if h : ∃ p : Nat × Nat, R[p.1]? = some r ∧ Z[p.2]? = some z then
    V.getD (h.choose.1 + h.choose.2 * R.length) 0 else 0, fun _ _ => 0, fun _ _ => 0⟩, ?_⟩
  intro R Z V _ _ hR hZ _ i j r z v hi hj hv
  have h : ∃ p : Nat × Nat, R[p.1]? = some r ∧ Z[p.2]? = some z := ⟨(i, j), hi, hj⟩
  have h1 := pairwise_lt_inj hR h.choose_spec.1 hi
  have h2 := pairwise_lt_inj hZ h.choose_spec.2 hj
  simp only [dif_pos h, h1, h2, List.getD_eq_getElem?_getD, hv, Option.getD_some]

theorem linearGrid_get (lo hi : ℝ) (n i : Nat) (x : ℝ) :
    (linearGrid lo hi n)[i]? = some x ↔ i < n ∧ x = lo + (hi - lo) * (i : ℝ) / ((n : ℝ) - 1) := by
  unfold linearGrid
  rw [List.getElem?_map, Option.map_eq_some_iff]
  constructor
  · rintro ⟨a, h1, h2⟩
    obtain ⟨h0, h1⟩ := List.getElem?_eq_some_iff.1 h1
    rw [List.getElem_range] at h1
    rw [List.length_range] at h0
    subst h1
    exact ⟨h0, h2.symm⟩
  · rintro ⟨h1, h2⟩
    exact ⟨i, by rw [List.getElem?_range h1], h2.symm⟩

theorem linearGrid_length (lo hi : ℝ) (n : Nat) : (linearGrid lo hi n).length = n := by
  simp [linearGrid]

theorem linearGrid_increasing (lo hi : ℝ) (n : Nat) (h : lo < hi) (hn : 2 ≤ n) :
    (linearGrid lo hi n).Pairwise (· < ·) := by
  unfold linearGrid
  rw [List.pairwise_map]
  refine List.Pairwise.imp ?_ (List.pairwise_lt_range (n := n))
  intro a b hab
  have h1 : (0 : ℝ) < (n : ℝ) - 1 := by
    have : (2 : ℝ) ≤ n := by exact_mod_cast hn
    linarith
  have h2 : (a : ℝ) < b := by exact_mod_cast hab
  have h3 : (hi - lo) * (a : ℝ) / ((n : ℝ) - 1) < (hi - lo) * (b : ℝ) / ((n : ℝ) - 1) :=
    div_lt_div_of_pos_right (mul_lt_mul_of_pos_left h2 (by linarith)) h1
  linarith

/-- The grid runs from the lower to the upper end. -/
theorem linearGrid_range (lo hi : ℝ) (n : Nat) (h : lo < hi) (hn : 2 ≤ n) :
    (linearGrid lo hi n).headD 0 = lo ∧ (linearGrid lo hi n).getLastD 0 = hi ∧
    ∀ (i : Nat) (x : ℝ), (linearGrid lo hi n)[i]? = some x → lo ≤ x ∧ x ≤ hi := by
  have h1 : (0 : ℝ) < (n : ℝ) - 1 := by
    have : (2 : ℝ) ≤ n := by exact_mod_cast hn
    linarith
  refine ⟨?_, ?_, ?_⟩
  · rw [List.headD_eq_head?_getD, List.head?_eq_getElem?]
    have : (linearGrid lo hi n)[0]? = some lo := (linearGrid_get _ _ _ _ _).2 ⟨by omega, by simp⟩
    rw [this]; rfl
  · rw [List.getLastD_eq_getLast?, List.getLast?_eq_getElem?, linearGrid_length]
    have : (linearGrid lo hi n)[n - 1]? = some hi := by
      refine (linearGrid_get _ _ _ _ _).2 ⟨by omega, ?_⟩
      rw [Nat.cast_sub (by omega), Nat.cast_one, mul_div_assoc, div_self h1.ne']
      ring
    rw [this]; rfl
  · intro i x hx
    obtain ⟨hi', rfl⟩ := (linearGrid_get _ _ _ _ _).1 hx
    have h2 : (i : ℝ) ≤ (n : ℝ) - 1 := by
      have : ((i + 1 : ℕ) : ℝ) ≤ n := by exact_mod_cast hi'
      push_cast at this
      linarith
    have h3 : (0 : ℝ) ≤ i := Nat.cast_nonneg i
    have h4 : 0 ≤ (hi - lo) * (i : ℝ) / ((n : ℝ) - 1) :=
      div_nonneg (mul_nonneg (by linarith) h3) h1.le
    have h5 : (hi - lo) * (i : ℝ) / ((n : ℝ) - 1) ≤ hi - lo := by
      rw [div_le_iff₀ h1]
      exact mul_le_mul_of_nonneg_left h2 (by linarith)
    constructor <;> linarith

theorem fillGrid_get (nr nz : Nat) (v : Nat → Nat → ℝ) (i j : Nat) (hi : i < nr) (hj : j < nz) :
    (fillGrid nr nz v)[i + j * nr]? = some (v i j) := by
  have h : i + j * nr < nr * nz := by
    calc i + j * nr < nr + j * nr := by omega
      _ = (j + 1) * nr := by ring
      _ ≤ nz * nr := Nat.mul_le_mul_right _ hj
      _ = nr * nz := Nat.mul_comm _ _
  unfold fillGrid
  rw [List.getElem?_map, List.getElem?_range h, Option.map_some, Nat.add_mul_mod_self_right,
    Nat.mod_eq_of_lt hi, Nat.add_mul_div_right _ _ (by omega), Nat.div_eq_of_lt hi, Nat.zero_add]

theorem clampTo_inside {lo hi x : ℝ} (h1 : lo ≤ x) (h2 : x ≤ hi) : clampTo lo hi x = x := by
  unfold clampTo
  rw [if_neg (not_lt.2 h1), if_neg (not_lt.2 h2)]

theorem hyp_scaled {c s R : ℝ} (h : c ^ 2 + s ^ 2 = 1) (hR : 0 ≤ R) : hyp (c * R) (s * R) = R := by
  unfold hyp
  rw [show (c * R) ^ 2 + (s * R) ^ 2 = R ^ 2 by
    calc (c * R) ^ 2 + (s * R) ^ 2 = (c ^ 2 + s ^ 2) * R ^ 2 := by ring
      _ = R ^ 2 := by rw [h, one_mul]]
  exact Real.sqrt_sq hR

/-- The analytical field is the rotated field of the plane y = 0. -/
theorem analytic_rotated (f : AField) {c s R : ℝ} (z : ℝ) (h : c ^ 2 + s ^ 2 = 1) (hR : 0 < R) :
    f.eval (c * R) (s * R) z = rotZ c s (f.eval R 0 z) := by
  have h1 := hyp_scaled h hR.le
  have h2 : hyp R 0 = R := by simpa using hyp_scaled (c := 1) (s := 0) (R := R) (by norm_num) hR.le
  have e1 : c * R * (1 / R) = c := by field_simp
  have e2 : s * R * (1 / R) = s := by field_simp
  have e3 : R * (1 / R) = 1 := by field_simp
  simp only [AField.eval, rotZ, h1, h2, e1, e2, e3, zero_mul, mul_zero, mul_one, sub_zero, zero_add]
  refine Prod.ext ?_ (Prod.ext ?_ rfl)
  · simp only; ring
  · simp only; ring

/-- C88: the numeric field made from an analytical one agrees with it in every grid point at a
positive radius, at every toroidal angle, for any safety factor profile and any grid of at least
four by four points (as many as the splines need). -/
theorem C88_nodes_agree (mk : List ℝ → List ℝ → List ℝ → Spl) (hmk : NodeExact mk) (f : AField)
    (hr : 0 < f.rminor) (nr nz : Nat) (hnr : 4 ≤ nr) (hnz : 4 ≤ nz) (junk : List ℝ) (name desc : String)
    (dom : List Pt) (n : NField) (hn : f.toNumeric name desc dom nr nz junk = .ok n)
    (i j : Nat) (R Z c s : ℝ) (hR : n.R[i]? = some R) (hZ : n.Z[j]? = some Z) (hpos : 0 < R)
    (hcs : c ^ 2 + s ^ 2 = 1) :
    (n.grid mk).eval (c * R) (s * R) Z = f.eval (c * R) (s * R) Z := by
  have hfields : n.R = linearGrid (f.rm - f.rminor) (f.rm + f.rminor) nr ∧
      n.Z = linearGrid (f.zm - f.rminor) (f.zm + f.rminor) nz ∧
      n.Br = (f.arrays nr nz junk).Br ∧ n.Bphi = (f.arrays nr nz junk).Bphi ∧
      n.Bz = (f.arrays nr nz junk).Bz := by
    simp only [AField.toNumeric, nInit, finish] at hn
    rw [if_neg (by simp)] at hn
    split at hn
    · cases hn
    · cases hn
    · cases hn; exact ⟨rfl, rfl, rfl, rfl, rfl⟩
  obtain ⟨eR, eZ, e1, e2, e3⟩ := hfields
  have lR := linearGrid_length (f.rm - f.rminor) (f.rm + f.rminor) nr
  have lZ := linearGrid_length (f.zm - f.rminor) (f.zm + f.rminor) nz
  have gR := linearGrid_range (f.rm - f.rminor) (f.rm + f.rminor) nr (by linarith) (by omega)
  have gZ := linearGrid_range (f.zm - f.rminor) (f.zm + f.rminor) nz (by linarith) (by omega)
  rw [eR] at hR
  rw [eZ] at hZ
  have hi : i < nr := ((linearGrid_get _ _ _ _ _).1 hR).1
  have hj : j < nz := ((linearGrid_get _ _ _ _ _).1 hZ).1
  have hval : ∀ v : Nat → Nat → ℝ,
      (mk (linearGrid (f.rm - f.rminor) (f.rm + f.rminor) nr)
        (linearGrid (f.zm - f.rminor) (f.zm + f.rminor) nz) (fillGrid nr nz v)).val R Z = v i j := by
    intro v
    refine hmk _ _ _ (by omega) (by omega) (linearGrid_increasing _ _ _ (by linarith) (by omega))
      (linearGrid_increasing _ _ _ (by linarith) (by omega)) (by simp [fillGrid, lR, lZ]) i j R Z _ hR hZ ?_
    rw [lR]
    exact fillGrid_get nr nz v i j hi hj
  have hB : (linearGrid (f.rm - f.rminor) (f.rm + f.rminor) nr).getD i 0 = R := by
    rw [List.getD_eq_getElem?_getD, hR]; rfl
  have hB' : (linearGrid (f.zm - f.rminor) (f.zm + f.rminor) nz).getD j 0 = Z := by
    rw [List.getD_eq_getElem?_getD, hZ]; rfl
  have hh := hyp_scaled hcs hpos.le
  rw [analytic_rotated f Z hcs hpos]
  simp only [NGrid.eval, NField.grid, eR, eZ, e1, e2, e3, hh, gR.1, gR.2.1, gZ.1, gZ.2.1,
    clampTo_inside (gR.2.2 i R hR).1 (gR.2.2 i R hR).2, clampTo_inside (gZ.2.2 j Z hZ).1 (gZ.2.2 j Z hZ).2,
    AField.arrays, hval, hB, hB', rotZ, if_pos hpos.ne']
  have e4 : c * R / R = c := by field_simp
  have e5 : s * R / R = s := by field_simp
  rw [e4, e5]
  refine Prod.ext ?_ (Prod.ext ?_ rfl)
  · simp only; ring
  · simp only; ring

/-- C88: the grid covers the square around the magnetic axis whose half side is the minor radius,
its points are evenly spaced, axis and domain are those of the analytical field, and the result
says that it has a magnetic flux. -/
theorem C88_grid (f : AField) (hr : 0 < f.rminor) (nr nz : Nat) (hnr : 2 ≤ nr) (hnz : 2 ≤ nz)
    (junk : List ℝ) (name desc : String) (dom : List Pt) (n : NField)
    (hn : f.toNumeric name desc dom nr nz junk = .ok n) :
    n.R.length = nr ∧ n.Z.length = nz ∧
    n.R.headD 0 = f.rm - f.rminor ∧ n.R.getLastD 0 = f.rm + f.rminor ∧
    n.Z.headD 0 = f.zm - f.rminor ∧ n.Z.getLastD 0 = f.zm + f.rminor ∧
    (∀ (i : Nat) (a b : ℝ), n.R[i]? = some a → n.R[i + 1]? = some b → b - a = 2 * f.rminor / ((nr : ℝ) - 1)) ∧
    (∀ (i : Nat) (a b : ℝ), n.Z[i]? = some a → n.Z[i + 1]? = some b → b - a = 2 * f.rminor / ((nz : ℝ) - 1)) ∧
    n.axis = ⟨f.rm, f.zm⟩ ∧ n.dom = dom ∧ n.separatrix = [] ∧ n.name = name ∧ n.desc = desc ∧
    n.Psi.isSome := by
  simp only [AField.toNumeric, nInit, finish] at hn
  rw [if_neg (by simp)] at hn
  have step : ∀ (lo hi : ℝ) (k i : Nat) (a b : ℝ), (linearGrid lo hi k)[i]? = some a →
      (linearGrid lo hi k)[i + 1]? = some b → b - a = (hi - lo) / ((k : ℝ) - 1) := by
    intro lo hi k i a b ha hb
    obtain ⟨-, rfl⟩ := (linearGrid_get _ _ _ _ _).1 ha
    obtain ⟨-, rfl⟩ := (linearGrid_get _ _ _ _ _).1 hb
    push_cast
    ring
  split at hn
  · cases hn
  · cases hn
  · cases hn
    have gR := linearGrid_range (f.rm - f.rminor) (f.rm + f.rminor) nr (by linarith) (by omega)
    have gZ := linearGrid_range (f.zm - f.rminor) (f.zm + f.rminor) nz (by linarith) (by omega)
    refine ⟨linearGrid_length _ _ _, linearGrid_length _ _ _, gR.1, gR.2.1, gZ.1, gZ.2.1, ?_, ?_, rfl, rfl,
      rfl, rfl, rfl, rfl⟩
    · intro i a b ha hb
      rw [step _ _ _ _ _ _ ha hb]; ring
    · intro i a b ha hb
      rw [step _ _ _ _ _ _ ha hb]; ring

/-- C88 as stated is refuted, first reason: the flux of the numeric field is whatever the memory
contained, not the flux of the analytical field. -/
theorem C88_refuted_flux (mk : List ℝ → List ℝ → List ℝ → Spl) (hmk : NodeExact mk) (f : AField)
    (hr : 0 < f.rminor) (nr nz : Nat) (hnr : 4 ≤ nr) (hnz : 4 ≤ nz) (name desc : String) (dom : List Pt)
    (i j : Nat) (R Z a : ℝ) (junk : List ℝ) (hj : junk.length = nr * nz) (n : NField)
    (hn : f.toNumeric name desc dom nr nz junk = .ok n)
    (hR : n.R[i]? = some R) (hZ : n.Z[j]? = some Z) (hpos : 0 < R) (ha : junk[i + j * nr]? = some a) :
    (n.grid mk).flux R 0 Z = some a := by
  simp only [AField.toNumeric, nInit, finish] at hn
  rw [if_neg (by simp)] at hn
  split at hn
  · cases hn
  · cases hn
  · cases hn
    have h2 : hyp R 0 = R := by simpa using hyp_scaled (c := 1) (s := 0) (R := R) (by norm_num) hpos.le
    have lR := linearGrid_length (f.rm - f.rminor) (f.rm + f.rminor) nr
    have lZ := linearGrid_length (f.zm - f.rminor) (f.zm + f.rminor) nz
    simp only [NGrid.flux, NField.grid, AField.arrays, Option.map_some, h2]
    congr 1
    refine hmk _ _ _ (by omega) (by omega) (linearGrid_increasing _ _ _ (by linarith) (by omega))
      (linearGrid_increasing _ _ _ (by linarith) (by omega)) (by rw [lR, lZ, hj]) i j R Z _ hR hZ ?_
    rw [lR]
    exact ha

/-- C88 as stated is refuted, second reason: the domain an analytical field constructs for itself
makes the construction of the numeric field undefined (it makes that of the analytical field
undefined already, see C46). -/
theorem C88_refuted_domain (f : AField) (name desc : String) (nr nz : Nat) (junk : List ℝ) :
    (match f.toNumeric name desc (circleDomain 50 f.rm f.zm f.rminor) nr nz junk with
      | .ub => True
      | _ => False) := by
  have : radiusDom none (some (circleDomain 50 f.rm f.zm f.rminor)) = circleDomain 50 f.rm f.zm f.rminor := by
    simp [radiusDom]
  simp only [AField.toNumeric, nInit, finish, this, C46_refuted_analytical]
  simp

/-- C88: the domain an analytical field constructs is a closed polygon of N points (50 in the
code) whose corners lie on the circle of the minor radius around the magnetic axis, evenly
spaced. -/
theorem C88_domain_circle (N : Nat) (hN : 2 ≤ N) (rm zm a : ℝ) :
    (circleDomain N rm zm a).length = N ∧
    (circleDomain N rm zm a).head? = (circleDomain N rm zm a).getLast? ∧
    (circleDomain N rm zm a).head? = some ⟨rm + a, zm⟩ ∧
    (∀ p ∈ circleDomain N rm zm a, (p.r - rm) ^ 2 + (p.z - zm) ^ 2 = a ^ 2) ∧
    (∀ v w, Side (circleDomain N rm zm a) v w →
      (w.r - v.r) ^ 2 + (w.z - v.z) ^ 2 = 2 * a ^ 2 * (1 - Real.cos (2 * Real.pi / (N - 1 : ℕ)))) := by
  have hne : List.range (N - 1) ≠ [] := by simp; omega
  obtain ⟨M, rfl⟩ : ∃ M, N = M + 2 := ⟨N - 2, by omega⟩
  have hM : ((M + 2 - 1 : ℕ) : ℝ) ≠ 0 := Nat.cast_ne_zero.2 (by omega)
  let pt (i : Nat) : Pt := ⟨rm + a * Real.cos (2 * Real.pi * (i / (M + 2 - 1 : ℕ))),
    zm + a * Real.sin (2 * Real.pi * (i / (M + 2 - 1 : ℕ)))⟩
  have h0 : pt 0 = ⟨rm + a, zm⟩ := by simp [pt]
  have hlast : pt (M + 1) = pt 0 := by
    have : ((M + 1 : ℕ) : ℝ) / ((M + 2 - 1 : ℕ) : ℝ) = 1 := by
      rw [show M + 2 - 1 = M + 1 from rfl]; exact div_self hM
    simp only [pt, this, mul_one, Nat.cast_zero, zero_div, mul_zero, Real.cos_two_pi, Real.sin_two_pi,
      Real.cos_zero, Real.sin_zero]
  have hget : ∀ i, (circleDomain (M + 2) rm zm a)[i]? = if i < M + 2 then some (pt i) else none := by
    intro i
    show ((List.range (M + 1)).map pt ++ [pt 0])[i]? = _
    rcases Nat.lt_trichotomy i (M + 1) with h | h | h
    · rw [List.getElem?_append_left (by simpa using h), List.getElem?_map, List.getElem?_range h,
        if_pos (by omega)]
      rfl
    · subst h
      rw [List.getElem?_append_right (by simp), if_pos (by omega), hlast]
      simp
    · rw [List.getElem?_append_right (by simp; omega), if_neg (by omega)]
      rw [List.getElem?_eq_none]
      simp
      omega
  have hlen : (circleDomain (M + 2) rm zm a).length = M + 2 := by simp [circleDomain]
  refine ⟨hlen, ?_, ?_, ?_, ?_⟩
  · rw [List.head?_eq_getElem?, List.getLast?_eq_getElem?, hlen, hget, hget, if_pos (by omega),
      if_pos (by omega)]
    exact congrArg some hlast.symm
  · rw [List.head?_eq_getElem?, hget, if_pos (by omega), h0]
  · intro p hp
    obtain ⟨i, hi⟩ := List.getElem?_of_mem hp
    rw [hget] at hi
    split at hi
    · cases hi
      have := Real.sin_sq_add_cos_sq (2 * Real.pi * ((i : ℝ) / ((M + 2 - 1 : ℕ) : ℝ)))
      simp only [pt]
      linear_combination a ^ 2 * this
    · cases hi
  · rintro v w ⟨i, hv, hw⟩
    rw [hget] at hv hw
    split at hv
    · split at hw
      · cases hv
        cases hw
        have e : 2 * Real.pi * (((i + 1 : ℕ) : ℝ) / ((M + 2 - 1 : ℕ) : ℝ)) =
            2 * Real.pi * ((i : ℝ) / ((M + 2 - 1 : ℕ) : ℝ)) + 2 * Real.pi / ((M + 2 - 1 : ℕ) : ℝ) := by
          push_cast
          field_simp
        simp only [pt, e]
        generalize 2 * Real.pi * ((i : ℝ) / ((M + 2 - 1 : ℕ) : ℝ)) = x
        generalize 2 * Real.pi / ((M + 2 - 1 : ℕ) : ℝ) = y
        rw [Real.cos_add, Real.sin_add]
        have hx := Real.sin_sq_add_cos_sq x
        have hy := Real.sin_sq_add_cos_sq y
        have hsx : Real.sin x ^ 2 = 1 - Real.cos x ^ 2 := by linarith
        have hsy : Real.sin y ^ 2 = 1 - Real.cos y ^ 2 := by linarith
        ring_nf
        rw [hsx, hsy]
        ring
      · cases hw
    · cases hv

/-- A conversion with a domain for which it succeeds, on which the flux can be wrong by any
amount. -/
example (a : ℝ) : ∃ (f : AField) (n : NField) (R Z : ℝ), 0 < f.rminor ∧
    f.toNumeric "" "" squareWall 4 4 (List.replicate 16 a) = .ok n ∧
    n.R[1]? = some R ∧ n.Z[2]? = some Z ∧ 0 < R := by
  have h : radiusDom none (some squareWall) = squareWall := by simp [radiusDom, squareWall]
  let f : AField := ⟨1, 2, 0, 1, 1, 1, .constant 1⟩
  let c := f.arrays 4 4 (List.replicate 16 a)
  refine ⟨f, ⟨"", "", c.R, c.Z, c.Br, c.Bphi, c.Bz, c.Psi, ⟨2, 0⟩, none, some squareWall, squareWall, 3, 1, []⟩,
    1 + 2 * 1 / 3, -1 + 2 * 2 / 3, one_pos, ?_, ?_, ?_, by norm_num⟩
  · have : findMaxRadius ⟨f.rm, f.zm⟩ squareWall = .ok 3 1 := squareWall_radius
    simp only [AField.toNumeric, nInit, finish, h, this]
    rfl
  · exact (linearGrid_get _ _ _ _ _).2 ⟨by omega, by simp only [f]; norm_num⟩
  · exact (linearGrid_get _ _ _ _ _).2 ⟨by omega, by simp only [f]; norm_num⟩

end Softlib
