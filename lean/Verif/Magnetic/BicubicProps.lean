import Verif.Magnetic.BicubicSplineProps

namespace Softlib

open Softlib.Magnetic

noncomputable section

/-! ### the cells of a point -/

/-- Cell `i` of a grid with `n` points may be used for `a`: it contains it, or it is the first or last one and `a` lies outside. -/
structure UsableCell (x : Nat → ℝ) (n i : Nat) (a : ℝ) : Prop where
  cell : i + 1 < n
  lower : i = 0 ∨ x i ≤ a
  upper : i + 2 = n ∨ a ≤ x (i + 1)

theorem getD_rising {xs : List ℝ} (h : xs.Pairwise (· < ·)) : Rising (fun i => xs.getD i 0) xs.length := by
  intro i hi
  rw [List.pairwise_iff_getElem] at h
  have := h i (i + 1) (by omega) hi (by omega)
  simpa [List.getD_eq_getElem?_getD, List.getElem?_eq_getElem hi, List.getElem?_eq_getElem (show i < xs.length by omega)] using this

theorem fits_cellOf (xs : List ℝ) (h : 2 ≤ xs.length) (a : ℝ) : UsableCell (fun i => xs.getD i 0) xs.length (cellOf xs a) a := by
  obtain ⟨x0, x1, h0, h1, h2, h3⟩ := cellOf_spec xs a h
  obtain ⟨l, -⟩ := List.getElem?_eq_some_iff.1 h1
  refine ⟨l, ?_, ?_⟩
  · rw [List.getD_eq_getElem?_getD, h0]; exact h2
  · rw [List.getD_eq_getElem?_getD, h1]; exact h3.imp id le_of_lt

theorem rising_le {x : Nat → ℝ} {n i k : Nat} (h : Rising x n) (hik : i < k) (hk : k < n) : x i < x k := by
  induction k with
  | zero => omega
  | succ k ih =>
    have := h k hk
    rcases Nat.lt_or_ge i k with hlt | hge
    · exact (ih hlt (by omega)).trans this
    · obtain rfl : i = k := by omega
      exact this

/-- Two such cells have a common node at the point. -/
theorem fits_two {x : Nat → ℝ} {n i k : Nat} {a : ℝ} (h : Rising x n) (hi : UsableCell x n i a) (hk : UsableCell x n k a) (hik : i < k) :
    k = i + 1 ∧ a = x (i + 1) := by
  have h1 := hi.upper.resolve_left (by have := hk.cell; omega)
  have h2 := hk.lower.resolve_left (by omega)
  have hk' := hk.cell
  have : k = i + 1 := by
    by_contra hne
    have := rising_le h (show i + 1 < k by omega) (by omega)
    linarith
  subst this
  exact ⟨rfl, le_antisymm h1 h2⟩

/-- Near a point only its cells are used. -/
theorem fits_near (x : Nat → ℝ) (n : Nat) (a : ℝ) : ∀ᶠ a' in nhds a, ∀ i, UsableCell x n i a' → UsableCell x n i a := by
  have : ∀ᶠ a' in nhds a, ∀ i ∈ Finset.range n, UsableCell x n i a' → UsableCell x n i a := by
    rw [Finset.eventually_all]
    intro i _
    by_cases h1 : i = 0 ∨ x i ≤ a
    · by_cases h2 : i + 2 = n ∨ a ≤ x (i + 1)
      · exact Filter.Eventually.of_forall fun _ hf => ⟨hf.cell, h1, h2⟩
      · push Not at h2
        filter_upwards [lt_mem_nhds h2.2] with a' ha' hf
        exact absurd hf.upper (by push Not; exact ⟨h2.1, ha'⟩)
    · push Not at h1
      filter_upwards [gt_mem_nhds h1.2] with a' ha' hf
      exact absurd hf.lower (by push Not; exact ⟨h1.1, ha'⟩)
  filter_upwards [this] with a' h i hf
  exact h i (by have := hf.cell; simp; omega) hf

/-- Whichever of the cells of a point is used, value and derivatives are the same. -/
theorem bicubic_cells {da db : Nat} (ho : Order da db) {x y : Nat → ℝ} {nx ny : Nat} (hx : Rising x nx) (hy : Rising y ny) (v : Nat → ℝ)
    {i i' j j' : Nat} {a b : ℝ} (hi : UsableCell x nx i a) (hi' : UsableCell x nx i' a) (hj : UsableCell y ny j b) (hj' : UsableCell y ny j' b) :
    bicubicAt id da db x y nx ny v i j a b = bicubicAt id da db x y nx ny v i' j' a b := by
  have stepx : ∀ {i i' j : Nat}, UsableCell x nx i a → UsableCell x nx i' a → i < i' → UsableCell y ny j b →
      bicubicAt id da db x y nx ny v i j a b = bicubicAt id da db x y nx ny v i' j a b := by
    intro i i' j hi hi' hlt hj
    obtain ⟨rfl, rfl⟩ := fits_two hx hi hi' hlt
    exact join_x ho _ _ _ _ _ (gap_pos hx hi.cell).ne' (gap_pos hx hi'.cell).ne' (gap_pos hy hj.cell).ne' _ _ _ _ _ _ _
  have stepy : ∀ {i j j' : Nat}, UsableCell x nx i a → UsableCell y ny j b → UsableCell y ny j' b → j < j' →
      bicubicAt id da db x y nx ny v i j a b = bicubicAt id da db x y nx ny v i j' a b := by
    intro i j j' hi hj hj' hlt
    obtain ⟨rfl, rfl⟩ := fits_two hy hj hj' hlt
    exact join_y ho _ _ _ _ _ (gap_pos hy hj.cell).ne' (gap_pos hy hj'.cell).ne' (gap_pos hx hi.cell).ne' _ _ _ _ _ _ _
  have e1 : bicubicAt id da db x y nx ny v i j a b = bicubicAt id da db x y nx ny v i' j a b := by
    rcases Nat.lt_trichotomy i i' with h | rfl | h
    · exact stepx hi hi' h hj
    · rfl
    · exact (stepx hi' hi h hj).symm
  rw [e1]
  rcases Nat.lt_trichotomy j j' with h | rfl | h
  · exact stepy hi' hj hj' h
  · rfl
  · exact (stepy hi' hj' hj h).symm

theorem bicubic_val (R Z V : List ℝ) (hR : 2 ≤ R.length) (hZ : 2 ≤ Z.length) (iR : R.Pairwise (· < ·)) (iZ : Z.Pairwise (· < ·)) (r z : ℝ) (i j : Nat)
    (hi : UsableCell (fun i => R.getD i 0) R.length i r) (hj : UsableCell (fun i => Z.getD i 0) Z.length j z) :
    let f := fun da db => bicubicAt id da db (fun i => R.getD i 0) (fun j => Z.getD j 0) R.length Z.length (fun k => V.getD k 0) i j r z
    (bicubic R Z V).val r z = f 0 0 ∧ (bicubic R Z V).dr r z = f 1 0 ∧ (bicubic R Z V).dz r z = f 0 1 :=
  ⟨bicubic_cells (.inl ⟨rfl, rfl⟩) (getD_rising iR) (getD_rising iZ) _ (fits_cellOf R hR r) hi (fits_cellOf Z hZ z) hj,
   bicubic_cells (.inr (.inl ⟨rfl, rfl⟩)) (getD_rising iR) (getD_rising iZ) _ (fits_cellOf R hR r) hi (fits_cellOf Z hZ z) hj,
   bicubic_cells (.inr (.inr ⟨rfl, rfl⟩)) (getD_rising iR) (getD_rising iZ) _ (fits_cellOf R hR r) hi (fits_cellOf Z hZ z) hj⟩

/-- C123: the interpolation is differentiable everywhere, also where cells meet, and its derivatives are what the derivative functions
give. -/
theorem C123_smooth (R Z V : List ℝ) (hR : 2 ≤ R.length) (hZ : 2 ≤ Z.length) (iR : R.Pairwise (· < ·)) (iZ : Z.Pairwise (· < ·)) (r z : ℝ) :
    Spl.Smooth (bicubic R Z V) r z := by
  rintro X Y u w t hX hY rfl rfl
  rw [hasDerivAt_iff_isLittleO, Asymptotics.isLittleO_iff]
  intro ε hε
  let x : Nat → ℝ := fun i => R.getD i 0
  let y : Nat → ℝ := fun i => Z.getD i 0
  have near : ∀ᶠ s in nhds t, ∀ p ∈ Finset.range R.length ×ˢ Finset.range Z.length, UsableCell x R.length p.1 (X t) → UsableCell y Z.length p.2 (Y t) →
      ‖bicubicAt id 0 0 x y R.length Z.length (fun k => V.getD k 0) p.1 p.2 (X s) (Y s) - (bicubic R Z V).val (X t) (Y t) -
        (s - t) • ((bicubic R Z V).dr (X t) (Y t) * u + (bicubic R Z V).dz (X t) (Y t) * w)‖ ≤ ε * ‖s - t‖ := by
    rw [Finset.eventually_all]
    rintro ⟨i, j⟩ _
    by_cases hi : UsableCell x R.length i (X t)
    · by_cases hj : UsableCell y Z.length j (Y t)
      · obtain ⟨e0, e1, e2⟩ := bicubic_val R Z V hR hZ iR iZ (X t) (Y t) i j hi hj
        rw [e0, e1, e2]
        have := cell_smooth (x i) (x (i + 1)) (y j) (y (j + 1)) (cornerAt id x y R.length Z.length (fun k => V.getD k 0) i j)
          (cornerAt id x y R.length Z.length (fun k => V.getD k 0) i (j + 1)) (cornerAt id x y R.length Z.length (fun k => V.getD k 0) (i + 1) j)
          (cornerAt id x y R.length Z.length (fun k => V.getD k 0) (i + 1) (j + 1)) X Y u w t hX hY
        rw [hasDerivAt_iff_isLittleO, Asymptotics.isLittleO_iff] at this
        filter_upwards [this hε] with s hs _ _
        exact hs
      · exact Filter.Eventually.of_forall fun _ _ h => absurd h hj
    · exact Filter.Eventually.of_forall fun _ h => absurd h hi
  filter_upwards [near, hX.continuousAt.eventually (fits_near x R.length (X t)), hY.continuousAt.eventually (fits_near y Z.length (Y t))]
    with s hs hx hy
  have fx := fits_cellOf R hR (X s)
  have fy := fits_cellOf Z hZ (Y s)
  exact hs (cellOf R (X s), cellOf Z (Y s))
    (by have := fx.cell; have := fy.cell; simp only [Finset.mem_product, Finset.mem_range]; omega) (hx _ fx) (hy _ fy)

/-- C123: the search for the interval of a node, by which the spline of a row or column is evaluated, gives the interval that starts
there, for the last node the last interval, as `nodeSlope` says. -/
theorem C123_interval (xs : List ℝ) (h2 : 2 ≤ xs.length) (h : xs.Pairwise (· < ·)) (i : Nat) (a : ℝ) (ha : xs[i]? = some a) :
    cellOf xs a = if i + 1 < xs.length then i else xs.length - 2 := by
  obtain ⟨li, rfl⟩ := List.getElem?_eq_some_iff.1 ha
  obtain ⟨x0, x1, h0, h1, hl, hu⟩ := cellOf_spec xs xs[i] h2
  generalize cellOf xs xs[i] = k at *
  obtain ⟨l0, rfl⟩ := List.getElem?_eq_some_iff.1 h0
  obtain ⟨l1, rfl⟩ := List.getElem?_eq_some_iff.1 h1
  rw [List.pairwise_iff_getElem] at h
  have up : k ≤ i := by
    by_contra hc
    have := h i k li l0 (by omega)
    rcases hl with rfl | hl
    · omega
    · linarith
  have down : k + 2 = xs.length ∨ i ≤ k := by
    rcases hu with hu | hu
    · exact .inl hu
    · refine .inr ?_
      by_contra hc
      rcases Nat.lt_or_ge (k + 1) i with hlt | hge
      · have := h (k + 1) i l1 li hlt
        linarith
      · obtain rfl : i = k + 1 := by omega
        exact lt_irrefl _ hu
  split_ifs <;> omega

/-- The node of either coordinate, and whether it is the lower or upper end of the cell. -/
theorem node_fits {x : Nat → ℝ} {n k : Nat} (h : Rising x n) (h2 : 2 ≤ n) (hk : k < n) :
    UsableCell x n k (x k) ∨ (∃ i, k = i + 1 ∧ UsableCell x n i (x (i + 1))) := by
  by_cases hlast : k + 1 < n
  · exact .inl ⟨hlast, .inr le_rfl, .inr (h k hlast).le⟩
  · refine .inr ⟨n - 2, by omega, ⟨by omega, .inr ?_, .inl (by omega)⟩⟩
    exact (h (n - 2) (by omega)).le

/-- C123: at the nodes the value is the stored one, and the derivatives are those of the natural cubic splines through row and column. -/
theorem C123_nodes (R Z V : List ℝ) (hR : 2 ≤ R.length) (hZ : 2 ≤ Z.length) (iR : R.Pairwise (· < ·)) (iZ : Z.Pairwise (· < ·)) (i j : Nat)
    (hi : i < R.length) (hj : j < Z.length) :
    let x := fun i => R.getD i 0
    let y := fun j => Z.getD j 0
    let v := fun k => V.getD k 0
    (bicubic R Z V).val (x i) (y j) = v (j * R.length + i) ∧
    (bicubic R Z V).dr (x i) (y j) = nodeSlope id x (fun i => v (j * R.length + i)) R.length i ∧
    (bicubic R Z V).dz (x i) (y j) = nodeSlope id y (fun j => v (j * R.length + i)) Z.length j := by
  intro x y v
  have rx : Rising x R.length := getD_rising iR
  have ry : Rising y Z.length := getD_rising iZ
  rcases node_fits rx hR hi with fi | ⟨i, rfl, fi⟩ <;> rcases node_fits ry hZ hj with fj | ⟨j, rfl, fj⟩ <;>
  · obtain ⟨e0, e1, e2⟩ := bicubic_val R Z V hR hZ iR iZ _ _ _ _ fi fj
    obtain ⟨c1, c2, c3, c4⟩ := cell_corners _ _ _ _ (gap_pos rx fi.cell).ne' (gap_pos ry fj.cell).ne' (cornerAt id x y R.length Z.length v i j)
      (cornerAt id x y R.length Z.length v i (j + 1)) (cornerAt id x y R.length Z.length v (i + 1) j)
      (cornerAt id x y R.length Z.length v (i + 1) (j + 1))
    rw [e0, e1, e2]
    first | exact c1 | exact c2 | exact c3 | exact c4

/-- C123: values that are linear in either coordinate are reproduced everywhere, with their derivatives. -/
theorem C123_bilinear (R Z V : List ℝ) (hR : 3 ≤ R.length) (hZ : 3 ≤ Z.length) (iR : R.Pairwise (· < ·)) (iZ : Z.Pairwise (· < ·))
    (a b c d : ℝ) (hV : ∀ i j x y, R[i]? = some x → Z[j]? = some y → V[j * R.length + i]? = some (a + b * x + c * y + d * x * y)) (r z : ℝ) :
    (bicubic R Z V).val r z = a + b * r + c * z + d * r * z ∧ (bicubic R Z V).dr r z = b + d * z ∧
    (bicubic R Z V).dz r z = c + d * r := by
  have rx := getD_rising iR
  have ry := getD_rising iZ
  have fi := fits_cellOf R (by omega) r
  have fj := fits_cellOf Z (by omega) z
  obtain ⟨e0, e1, e2⟩ := bicubic_val R Z V (by omega) (by omega) iR iZ r z _ _ fi fj
  rw [e0, e1, e2]
  generalize cellOf R r = i at *
  generalize cellOf Z z = j at *
  have data : ∀ i j, i < R.length → j < Z.length → V.getD (j * R.length + i) 0 = a + b * R.getD i 0 + c * Z.getD j 0 + d * R.getD i 0 * Z.getD j 0 := by
    intro i j hi hj
    have := hV i j (R.getD i 0) (Z.getD j 0) (by simp [List.getD_eq_getElem?_getD, hi]) (by simp [List.getD_eq_getElem?_getD, hj])
    rw [List.getD_eq_getElem?_getD (l := V), this]; rfl
  have hk : ∀ i j, i < R.length → j < Z.length →
      cornerAt id (fun i => R.getD i 0) (fun j => Z.getD j 0) R.length Z.length (fun k => V.getD k 0) i j =
        ⟨a + b * R.getD i 0 + c * Z.getD j 0 + d * R.getD i 0 * Z.getD j 0, b + d * Z.getD j 0, c + d * R.getD i 0, d⟩ := by
    intro i j hi hj
    have hy : ∀ i, i < R.length → nodeSlope id (fun j => Z.getD j 0) (fun j => V.getD (j * R.length + i) 0) Z.length j = c + d * R.getD i 0 := by
      intro i hi
      refine slope_line ry (a := a + b * R.getD i 0) (fun k hk => ?_) (by omega) j
      rw [data i k hi hk]; ring
    unfold cornerAt
    dsimp only
    rw [data i j hi hj, hy i hi]
    congr 1
    · refine slope_line rx (a := a + c * Z.getD j 0) (fun k hk => ?_) (by omega) i
      rw [data k j hk hj]; ring
    · exact slope_line rx (a := c) (fun k hk => hy k hk) (by omega) i
  have hci := fi.cell
  have hcj := fj.cell
  unfold bicubicAt
  dsimp only
  rw [hk i j (by omega) (by omega), hk i (j + 1) (by omega) (by omega), hk (i + 1) j (by omega) (by omega), hk (i + 1) (j + 1) (by omega) (by omega)]
  exact cell_bilinear _ _ _ _ (gap_pos rx hci).ne' (gap_pos ry hcj).ne' a b c d r z

/-- A value that is stored, as a node. -/
theorem bicubic_node (R Z V : List ℝ) (hR : 2 ≤ R.length) (hZ : 2 ≤ Z.length) (iR : R.Pairwise (· < ·)) (iZ : Z.Pairwise (· < ·)) {i j : Nat}
    {r z v : ℝ} (hr : R[i]? = some r) (hz : Z[j]? = some z) (hv : V[j * R.length + i]? = some v) : (bicubic R Z V).val r z = v := by
  obtain ⟨li, -⟩ := List.getElem?_eq_some_iff.1 hr
  obtain ⟨lj, -⟩ := List.getElem?_eq_some_iff.1 hz
  have := (C123_nodes R Z V hR hZ iR iZ i j li lj).1
  simpa [List.getD_eq_getElem?_getD, hr, hz, hv] using this

/-- C123: what C88 assumes of the interpolation holds for it. -/
theorem C123_node_exact : NodeExact bicubic := fun R Z V hR hZ iR iZ _ i j r z v hr hz hv =>
  bicubic_node R Z V (by omega) (by omega) iR iZ hr hz (by rw [Nat.add_comm]; exact hv)

/-! ### fields -/

theorem bicubic_made {f : NField} {g : NGrid} (h : f.initInterpolation bicubic = .ok g) : SplineGrid f.R f.Z ∧ g = f.grid bicubic := by
  obtain ⟨hs, ha⟩ := (C119_outcomes bicubic f).1.1 ⟨g, h⟩
  rw [C119_splines bicubic f hs ha] at h
  exact ⟨hs, (LRes.ok.inj h).symm⟩

theorem grid_ends {xs : List ℝ} (h : xs.Pairwise (· < ·)) {i : Nat} {x : ℝ} (hx : xs[i]? = some x) : xs.headD 0 ≤ x ∧ x ≤ xs.getLastD 0 := by
  obtain ⟨li, rfl⟩ := List.getElem?_eq_some_iff.1 hx
  have hne : xs ≠ [] := by rintro rfl; simp at li
  rw [List.pairwise_iff_getElem] at h
  constructor
  · rw [List.headD_eq_head?_getD, List.head?_eq_getElem?, List.getElem?_eq_getElem (by omega)]
    rcases Nat.eq_zero_or_pos i with rfl | hi
    · exact le_rfl
    · exact (h 0 i (by omega) li hi).le
  · rw [List.getLastD_eq_getLast?, List.getLast?_eq_getElem?, List.getElem?_eq_getElem (by omega)]
    rcases Nat.lt_or_ge i (xs.length - 1) with hi | hi
    · exact (h i (xs.length - 1) li (by omega) hi).le
    · obtain rfl : i = xs.length - 1 := by omega
      exact le_rfl

/-- C123: at a node with positive radius, at any toroidal angle, the field has the stored components, and the flux is the stored one. -/
theorem C123_field_nodes (f : NField) (g : NGrid) (h : f.initInterpolation bicubic = .ok g) (i j : Nat) (r z br bphi bz c s : ℝ)
    (hr : f.R[i]? = some r) (hz : f.Z[j]? = some z) (hpos : 0 < r) (hcs : c ^ 2 + s ^ 2 = 1) (hbr : f.Br[j * f.R.length + i]? = some br)
    (hbphi : f.Bphi[j * f.R.length + i]? = some bphi) (hbz : f.Bz[j * f.R.length + i]? = some bz) :
    g.eval (c * r) (s * r) z = (br * c - bphi * s, br * s + bphi * c, bz) ∧
    ∀ psi v, f.Psi = some psi → psi[j * f.R.length + i]? = some v → g.flux (c * r) (s * r) z = some v := by
  obtain ⟨hs, rfl⟩ := bicubic_made h
  have hh : hyp (c * r) (s * r) = r := hyp_scaled hcs hpos.le
  obtain ⟨b1, b2⟩ := grid_ends hs.radii hr
  obtain ⟨b3, b4⟩ := grid_ends hs.heights hz
  have node : ∀ V v, V[j * f.R.length + i]? = some v → (bicubic f.R f.Z V).val r z = v := fun V v hv =>
    bicubic_node f.R f.Z V (by have := hs.rows; omega) (by have := hs.columns; omega) hs.radii hs.heights hr hz hv
  constructor
  · rw [ngrid_eval_inside _ _ _ _ (by rw [hh]; exact b1) (by rw [hh]; exact b2) b3 b4 (by rw [hh]; exact hpos.ne'), hh]
    show ((bicubic f.R f.Z f.Br).val r z * _ - (bicubic f.R f.Z f.Bphi).val r z * _, (bicubic f.R f.Z f.Br).val r z * _ +
      (bicubic f.R f.Z f.Bphi).val r z * _, (bicubic f.R f.Z f.Bz).val r z) = _
    rw [node _ _ hbr, node _ _ hbphi, node _ _ hbz, mul_div_assoc, div_self hpos.ne', mul_one, mul_div_assoc, div_self hpos.ne', mul_one]
  · intro psi v hpsi hv
    unfold NGrid.flux NField.grid
    dsimp only
    rw [hpsi, hh]
    show some ((bicubic f.R f.Z psi).val r z) = _
    rw [node _ _ hv]

/-- C123: inside the grid and off the torus axis, also where cells meet: along every differentiable curve the field changes at the
rate reported Jacobian times velocity, its strength at the rate reported gradient times velocity, and the flux at the rate that the
reported derivatives give. -/
theorem C123_derivatives (f : NField) (g : NGrid) (h : f.initInterpolation bicubic = .ok g) (x y z : ℝ → ℝ) (u v w t : ℝ)
    (hx : HasDerivAt x u t) (hy : HasDerivAt y v t) (hz : HasDerivAt z w t) (h0 : hyp (x t) (y t) ≠ 0) (hr1 : f.R.headD 0 < hyp (x t) (y t))
    (hr2 : hyp (x t) (y t) < f.R.getLastD 0) (hz1 : f.Z.headD 0 < z t) (hz2 : z t < f.Z.getLastD 0) :
    (∀ i : Fin 3, HasDerivAt (fun s => comp (g.eval (x s) (y s) (z s)) i)
      ((g.jacobian (x t) (y t) (z t)).1 i 0 * u + (g.jacobian (x t) (y t) (z t)).1 i 1 * v + (g.jacobian (x t) (y t) (z t)).1 i 2 * w) t) ∧
    (∀ d, g.evalDerivatives (x t) (y t) (z t) = some d →
      HasDerivAt (fun s => Real.sqrt (normSq3 (g.eval (x s) (y s) (z s)))) (d.gradB.1 * u + d.gradB.2.1 * v + d.gradB.2.2 * w) t) ∧
    (∀ psi dr dz, g.fluxDerivatives (x t) (y t) (z t) = some (psi, dr, dz) →
      g.flux (x t) (y t) (z t) = some psi ∧
      HasDerivAt (fun s => (g.flux (x s) (y s) (z s)).getD 0) (dr * ((x t * u + y t * v) / hyp (x t) (y t)) + dz * w) t) := by
  obtain ⟨hs, rfl⟩ := bicubic_made h
  have sm : ∀ V r z, Spl.Smooth (bicubic f.R f.Z V) r z := fun V r z =>
    C123_smooth f.R f.Z V (by have := hs.rows; omega) (by have := hs.columns; omega) hs.radii hs.heights r z
  refine ⟨fun i => ?_, fun d hd => ?_, fun psi dr dz hd => ?_⟩
  · exact C52_jacobian (f.grid bicubic) x y z u v w t hx hy hz h0 hr1 hr2 hz1 hz2 (sm _ _ _) (sm _ _ _) (sm _ _ _) i
  · exact C52_gradient (f.grid bicubic) x y z u v w t hx hy hz h0 hr1 hr2 hz1 hz2 (sm _ _ _) (sm _ _ _) (sm _ _ _) d hd
  · unfold NGrid.fluxDerivatives NField.grid at hd
    unfold NGrid.flux NField.grid
    dsimp only at *
    cases hp : f.Psi with
    | none => rw [hp] at hd; cases hd
    | some p =>
      rw [hp] at hd
      simp only [Option.map_some, Option.some.injEq, Prod.mk.injEq] at hd
      obtain ⟨rfl, rfl, rfl⟩ := hd
      exact ⟨rfl, sm p _ _ _ _ _ _ t (hyp_deriv hx hy h0) hz rfl rfl⟩

/-- C123: a field whose three components are linear in radius and in height is reproduced at every point of the grid off the torus
axis, between the nodes as well. -/
theorem C123_field_bilinear (f : NField) (g : NGrid) (h : f.initInterpolation bicubic = .ok g) (k : Fin 3 → ℝ × ℝ × ℝ × ℝ)
    (hdata : ∀ i j r z, f.R[i]? = some r → f.Z[j]? = some z → let e := fun m => (k m).1 + (k m).2.1 * r + (k m).2.2.1 * z + (k m).2.2.2 * r * z
      f.Br[j * f.R.length + i]? = some (e 0) ∧ f.Bphi[j * f.R.length + i]? = some (e 1) ∧ f.Bz[j * f.R.length + i]? = some (e 2))
    (r z c s : ℝ) (hpos : 0 < r) (hr1 : f.R.headD 0 ≤ r) (hr2 : r ≤ f.R.getLastD 0) (hz1 : f.Z.headD 0 ≤ z) (hz2 : z ≤ f.Z.getLastD 0)
    (hcs : c ^ 2 + s ^ 2 = 1) : let e := fun m => (k m).1 + (k m).2.1 * r + (k m).2.2.1 * z + (k m).2.2.2 * r * z
    g.eval (c * r) (s * r) z = (e 0 * c - e 1 * s, e 0 * s + e 1 * c, e 2) := by
  intro e
  obtain ⟨hs, rfl⟩ := bicubic_made h
  have hh : hyp (c * r) (s * r) = r := hyp_scaled hcs hpos.le
  have hb : ∀ (V : List ℝ) (m : Fin 3), (∀ i j x y, f.R[i]? = some x → f.Z[j]? = some y → V[j * f.R.length + i]? =
      some ((k m).1 + (k m).2.1 * x + (k m).2.2.1 * y + (k m).2.2.2 * x * y)) → (bicubic f.R f.Z V).val r z = e m := fun V m hV =>
    (C123_bilinear f.R f.Z V (by have := hs.rows; omega) (by have := hs.columns; omega) hs.radii hs.heights _ _ _ _ hV r z).1
  rw [ngrid_eval_inside _ _ _ _ (by rw [hh]; exact hr1) (by rw [hh]; exact hr2) hz1 hz2 (by rw [hh]; exact hpos.ne'), hh]
  show ((bicubic f.R f.Z f.Br).val r z * _ - (bicubic f.R f.Z f.Bphi).val r z * _, (bicubic f.R f.Z f.Br).val r z * _ +
    (bicubic f.R f.Z f.Bphi).val r z * _, (bicubic f.R f.Z f.Bz).val r z) = _
  rw [hb f.Br 0 fun i j x y hx hy => (hdata i j x y hx hy).1, hb f.Bphi 1 fun i j x y hx hy => (hdata i j x y hx hy).2.1,
    hb f.Bz 2 fun i j x y hx hy => (hdata i j x y hx hy).2.2, mul_div_assoc, div_self hpos.ne', mul_one, mul_div_assoc, div_self hpos.ne', mul_one]

/-- The field of C119's examples is made with this interpolation, and has the stored components, here (1, 2, 3), also between the nodes. -/
example : ∃ f g, sampleField [1, 2, 3, 4] = .ok f ∧ f.initInterpolation bicubic = .ok g ∧ g.eval (5 / 2) 0 (1 / 3) = (1, 2, 3) := by
  obtain ⟨f, hf, e1, e2, e3, e4, e5, e6⟩ := sampleField_made [1, 2, 3, 4]
  obtain ⟨g, hg⟩ := (C119_outcomes bicubic f).1.2
    ⟨⟨by rw [e1]; simp, by rw [e2]; simp, by rw [e1]; norm_num, by rw [e2]; norm_num⟩,
      ⟨by rw [e1, e2, e3]; simp, by rw [e1, e2, e4]; simp, by rw [e1, e2, e5]; simp, by intro p hp; rw [e6] at hp; cases hp; rw [e1, e2]; simp⟩⟩
  refine ⟨f, g, hf, hg, ?_⟩
  have := C123_field_bilinear f g hg ![(1, 0, 0, 0), (2, 0, 0, 0), (3, 0, 0, 0)] (fun i j r z hr hz => by
    obtain ⟨li, -⟩ := List.getElem?_eq_some_iff.1 hr
    obtain ⟨lj, -⟩ := List.getElem?_eq_some_iff.1 hz
    rw [e1] at li
    rw [e2] at lj
    simp only [List.length_cons, List.length_nil] at li lj
    rw [e3, e4, e5, e1, List.getElem?_replicate, List.getElem?_replicate, List.getElem?_replicate]
    simp only [List.length_cons, List.length_nil]
    rw [if_pos (by omega), if_pos (by omega), if_pos (by omega)]
    simp) (5 / 2) (1 / 3) 1 0 (by norm_num) (by rw [e1]; norm_num) (by rw [e1]; norm_num) (by rw [e2]; norm_num) (by rw [e2]; norm_num) (by norm_num)
  simpa using this

end

end Softlib
