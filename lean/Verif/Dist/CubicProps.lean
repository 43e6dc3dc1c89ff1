import Verif.Dist.CubicModel
import Verif.Magnetic.BicubicProps
import Verif.General.SpecialProps
import Verif.Dist.LinearProps

namespace Softlib

open Softlib.Magnetic Softlib.Special Softlib.Special.EF Softlib.Dist

noncomputable section

/-! ### finite values -/

theorem rhs_fin {x : Nat → ℝ} {y : Nat → EF} {v : Nat → ℝ} {n i : Nat} (hy : ∀ k, k < n → y k = .fin (v k)) (hi : i + 2 < n) :
    rhs EF.fin x y i = .fin (rhs id x v i) := by
  unfold rhs
  rw [hy _ hi, hy (i + 1) (by omega), hy i (by omega)]
  simp only [fin_sub, fin_mul, id]

theorem forward_fin {x : Nat → ℝ} {y : Nat → EF} {v : Nat → ℝ} {n i : Nat} (hy : ∀ k, k < n → y k = .fin (v k)) (hi : i + 2 < n) :
    forward EF.fin x y i = .fin (forward id x v i) := by
  induction i with
  | zero => exact rhs_fin hy hi
  | succ i ih => rw [forward, forward, rhs_fin hy hi, ih (by omega)]; simp only [fin_sub, fin_mul, id]

theorem backward_fin {x : Nat → ℝ} {y : Nat → EF} {v : Nat → ℝ} {n k : Nat} (h : Rising x n) (hy : ∀ k, k < n → y k = .fin (v k)) (hk : k + 2 < n) :
    backward EF.fin x y (n - 2) k = .fin (backward id x v (n - 2) k) := by
  induction k with
  | zero =>
    rw [backward, backward, forward_fin hy (by omega), fin_div _ _ (pivot_pos h (by omega)).ne']
    rfl
  | succ k ih =>
    rw [backward, backward, forward_fin hy (by omega), fin_div _ _ (pivot_pos h (by omega)).ne', ih (by omega)]
    simp only [fin_sub, fin_mul, id]

theorem curv_fin {x : Nat → ℝ} {y : Nat → EF} {v : Nat → ℝ} {n i : Nat} (h : Rising x n) (hy : ∀ k, k < n → y k = .fin (v k)) (hi : i < n) :
    curv EF.fin x y n i = .fin (curv id x v n i) := by
  unfold curv
  split_ifs
  · rfl
  · exact backward_fin h hy (by omega)

theorem splineDeriv_fin {x : Nat → ℝ} {y : Nat → EF} {v : Nat → ℝ} {n k : Nat} (h : Rising x n) (hy : ∀ k, k < n → y k = .fin (v k)) (hk : k + 1 < n)
    (a : ℝ) : splineDeriv EF.fin x y n k a = .fin (splineDeriv id x v n k a) := by
  have hg := (gap_pos h hk).ne'
  unfold splineDeriv
  simp only [curv_fin h hy hk, curv_fin h hy (show k < n by omega), hy _ hk, hy k (by omega), fin_sub, fin_mul, fin_add, id]
  rw [fin_div _ _ hg, fin_div _ _ (by norm_num), fin_div _ _ (by positivity)]
  simp only [fin_sub, fin_mul, fin_add]

theorem nodeSlope_fin {x : Nat → ℝ} {y : Nat → EF} {v : Nat → ℝ} {n : Nat} (h : Rising x n) (h2 : 2 ≤ n) (hy : ∀ k, k < n → y k = .fin (v k)) (i : Nat) :
    nodeSlope EF.fin x y n i = .fin (nodeSlope id x v n i) :=
  splineDeriv_fin h hy (by split_ifs <;> omega) _

/-- A corner, as numbers that may be infinite. -/
def finCorner (k : Corner ℝ) : Corner EF := ⟨.fin k.z, .fin k.zx, .fin k.zy, .fin k.zxy⟩

theorem cornerAt_fin {x y : Nat → ℝ} {nx ny : Nat} (hx : Rising x nx) (hy : Rising y ny) (h2 : 2 ≤ nx) (h2' : 2 ≤ ny) {w : Nat → EF} {v : Nat → ℝ}
    (hw : ∀ i j, i < nx → j < ny → w (j * nx + i) = .fin (v (j * nx + i))) {i j : Nat} (hi : i < nx) (hj : j < ny) :
    cornerAt EF.fin x y nx ny w i j = finCorner (cornerAt id x y nx ny v i j) := by
  have hzy : ∀ i, i < nx → nodeSlope EF.fin y (fun j => w (j * nx + i)) ny j = .fin (nodeSlope id y (fun j => v (j * nx + i)) ny j) :=
    fun i hi => nodeSlope_fin hy h2' (fun k hk => hw i k hi hk) j
  unfold cornerAt finCorner
  rw [hw i j hi hj, hzy i hi, nodeSlope_fin hx h2 (v := fun i => v (j * nx + i)) (fun k hk => hw k j hk hj),
    nodeSlope_fin hx h2 (v := fun i => nodeSlope id y (fun j => v (j * nx + i)) ny j) fun k hk => hzy k hk]

theorem cellPoly_fin (x0 x1 y0 y1 : ℝ) (hx : x1 - x0 ≠ 0) (hy : y1 - y0 ≠ 0) (p q r s : Corner ℝ) (x y : ℝ) :
    cellPoly EF.fin 0 0 x0 x1 y0 y1 (finCorner p) (finCorner q) (finCorner r) (finCorner s) x y =
      .fin (cellPoly id 0 0 x0 x1 y0 y1 p q r s x y) := by
  have sc : ∀ k : Corner ℝ, (finCorner k).scale EF.fin (1 / (x1 - x0)) (1 / (y1 - y0)) = finCorner (k.scale id (1 / (x1 - x0)) (1 / (y1 - y0))) := by
    intro k
    unfold Corner.scale finCorner
    simp only [id]
    rw [fin_div _ _ (by positivity), fin_div _ _ (by positivity), fin_div _ _ (by positivity)]
  have co : ∀ (p q r s : Corner ℝ) (a b : Nat), coeff EF.fin (finCorner p) (finCorner q) (finCorner r) (finCorner s) a b =
      .fin (coeff id p q r s a b) := by
    intro p q r s a b
    unfold coeff finCorner
    split <;> simp only [fin_sub, fin_mul, fin_add, id]
  unfold cellPoly
  simp only [sc]
  generalize Corner.scale id p _ _ = p'
  generalize Corner.scale id q _ _ = q'
  generalize Corner.scale id r _ _ = r'
  generalize Corner.scale id s _ _ = s'
  have e := funext fun a => funext fun b => co p' q' r' s' a b
  rw [show coeff EF.fin (finCorner p') (finCorner q') (finCorner r') (finCorner s') = fun a b => .fin (coeff id p' q' r' s' a b) from e]
  generalize coeff id p' q' r' s' = v
  simp [polySum, List.range', fin_mul, fin_add]

/-! ### values that are not finite -/

theorem zero_mul_not (x : EF) (h : ¬ IsFin x) : x * EF.fin 0 = .nan := by
  cases x
  · rfl
  · exact if_pos rfl
  · exact if_pos rfl
  · exact absurd trivial h

theorem div_not (x : EF) (a : ℝ) (h : ¬ IsFin x) : ¬ IsFin (x / EF.fin a) := by
  cases x
  · exact id
  · show ¬ IsFin (if 0 ≤ a then .pinf else .ninf)
    split <;> exact id
  · show ¬ IsFin (if 0 ≤ a then .ninf else .pinf)
    split <;> exact id
  · exact absurd trivial h

theorem rhs_not {x : Nat → ℝ} {y : Nat → EF} {i k : Nat} (hk : ¬ IsFin (y k)) (hik : i ≤ k ∧ k ≤ i + 2) : ¬ IsFin (rhs EF.fin x y i) := by
  unfold rhs
  refine mul_right _ _ ?_
  obtain rfl | rfl | rfl : k = i + 2 ∨ k = i + 1 ∨ k = i := by omega
  · exact sub_left _ _ (mul_left _ _ (sub_left _ _ hk))
  · exact sub_left _ _ (mul_left _ _ (sub_right _ _ hk))
  · exact sub_right _ _ (mul_left _ _ (sub_right _ _ hk))

theorem forward_not {x : Nat → ℝ} {y : Nat → EF} {i m : Nat} (h : ¬ IsFin (rhs EF.fin x y i)) (him : i ≤ m) : ¬ IsFin (forward EF.fin x y m) := by
  induction m with
  | zero => obtain rfl : i = 0 := by omega
            exact h
  | succ m ih =>
    rw [forward]
    rcases Nat.lt_or_ge i (m + 1) with hlt | hge
    · exact sub_right _ _ (mul_right _ _ (ih (by omega)))
    · obtain rfl : i = m + 1 := by omega
      exact sub_left _ _ h

theorem backward_not {x : Nat → ℝ} {y : Nat → EF} {N : Nat} (h : ¬ IsFin (forward EF.fin x y (N - 1))) (k : Nat) :
    ¬ IsFin (backward EF.fin x y N k) := by
  induction k with
  | zero => rw [backward]; exact div_not _ _ h
  | succ k ih => rw [backward]; exact sub_right _ _ (mul_right _ _ ih)

theorem curv_not {x : Nat → ℝ} {y : Nat → EF} {n k : Nat} (hn : 3 ≤ n) (hk : k < n) (hy : ¬ IsFin (y k)) (i : Nat) (h0 : i ≠ 0) (h1 : i + 1 ≠ n) :
    ¬ IsFin (curv EF.fin x y n i) := by
  unfold curv
  rw [if_neg (by omega)]
  refine backward_not ?_ _
  exact forward_not (rhs_not (i := min k (n - 3)) hy (by omega)) (by omega)

theorem slope_not {x : Nat → ℝ} {y : Nat → EF} {n k : Nat} (hn : 3 ≤ n) (hk : k < n) (hy : ¬ IsFin (y k)) (i : Nat) (hi : i < n) :
    ¬ IsFin (nodeSlope EF.fin x y n i) ∧ (i + 1 < n → nodeSlope EF.fin x y n i = .nan) := by
  have key : ∀ m, m + 1 < n → ∀ a, ¬ IsFin (splineDeriv EF.fin x y n m a) ∧ (a = x m → splineDeriv EF.fin x y n m a = .nan) := by
    intro m hm a
    have hd : ¬ IsFin ((curv EF.fin x y n (m + 1) - curv EF.fin x y n m) / EF.fin (3 * gap x m)) := by
      refine div_not _ _ ?_
      rcases Nat.eq_zero_or_pos m with rfl | hpos
      · exact sub_left _ _ (curv_not hn hk hy 1 (by omega) (by omega))
      · exact sub_right _ _ (curv_not hn hk hy m (by omega) (by omega))
    unfold splineDeriv
    constructor
    · exact add_right _ _ (mul_right _ _ (add_right _ _ (mul_left _ _ (mul_right _ _ hd))))
    · rintro rfl
      simp only [sub_self]
      rw [zero_mul_not _ (mul_right _ _ hd)]
      simp only [add_nan, mul_nan]
  unfold nodeSlope
  split_ifs with h
  · exact ⟨(key i h _).1, fun _ => (key i h _).2 rfl⟩
  · exact ⟨(key (n - 2) (by omega) _).1, fun h' => absurd h' h⟩

theorem cell_not (x0 x1 y0 y1 : ℝ) (p q r s : Corner EF) (h : p.zxy = .nan) (x y : ℝ) : cellPoly EF.fin 0 0 x0 x1 y0 y1 p q r s x y = .nan := by
  unfold cellPoly
  have hc : coeff EF.fin (p.scale EF.fin (1 / (x1 - x0)) (1 / (y1 - y0))) (q.scale EF.fin (1 / (x1 - x0)) (1 / (y1 - y0)))
      (r.scale EF.fin (1 / (x1 - x0)) (1 / (y1 - y0))) (s.scale EF.fin (1 / (x1 - x0)) (1 / (y1 - y0))) 1 1 = .nan := by
    simp only [coeff, Corner.scale, h, nan_div]
  dsimp only
  generalize coeff EF.fin _ _ _ _ = v at hc
  simp [polySum, List.range', hc]

theorem bicubic_not {x y : Nat → ℝ} {nx ny : Nat} (h3 : 3 ≤ nx) (h3' : 3 ≤ ny) {w : Nat → EF} {i0 j0 : Nat} (hi0 : i0 < nx) (hj0 : j0 < ny)
    (hw : ¬ IsFin (w (j0 * nx + i0))) {i j : Nat} (hi : i + 1 < nx) (hj : j + 1 < ny) (a b : ℝ) :
    bicubicAt EF.fin 0 0 x y nx ny w i j a b = .nan := by
  refine cell_not _ _ _ _ _ _ _ _ ?_ a b
  exact (slope_not h3 hi0 (y := fun i => nodeSlope EF.fin y (fun j => w (j * nx + i)) ny j)
    (slope_not h3' hj0 (y := fun j => w (j * nx + i0)) hw j (by omega)).1 i (by omega)).2 hi

/-! ### tables -/

theorem cubic_least {t : Table} (hg : GslTable t) (hc : t.interp ≠ 0) : 4 ≤ t.p.length ∧ 4 ≤ t.xi.length := by
  have h1 := hg.leastP
  have h2 := hg.leastXi
  rw [if_neg hc] at h1 h2
  exact ⟨h1, h2⟩

theorem table_index {nx ny i j : Nat} (hi : i < nx) (hj : j < ny) : j * nx + i < nx * ny := by
  have : (j + 1) * nx ≤ ny * nx := Nat.mul_le_mul_right _ hj
  rw [Nat.add_mul, Nat.one_mul] at this
  rw [Nat.mul_comm nx ny]
  omega

/-- C124: a table of numbers with cubic interpolation is interpolated as the components of a field are (C123). -/
theorem C124_numbers (p xi g : List ℝ) (it : Int) (hg : GslTable ⟨p, xi, g.map .num, it⟩) (hc : it ≠ 0) (x y : ℝ) :
    gslSpline ⟨p, xi, g.map .num, it⟩ x y = .num ((bicubic p xi g).val x y) := by
  obtain ⟨l1, l2⟩ := cubic_least hg hc
  have hx := getD_rising hg.incP
  have hy := getD_rising hg.incXi
  have ci := (fits_cellOf p (by dsimp only at l1; omega) x).cell
  have cj := (fits_cellOf xi (by dsimp only at l2; omega) y).cell
  have hsize := hg.size
  dsimp only [List.length_map] at l1 l2 hx hy hsize
  rw [List.length_map] at hsize
  have hw : ∀ i j, i < p.length → j < xi.length → efOf ((g.map FV.num).getD (j * p.length + i) .nan) = .fin (g.getD (j * p.length + i) 0) := by
    intro i j hi hj
    have := table_index hi hj
    rw [List.getD_eq_getElem?_getD, List.getElem?_map, List.getD_eq_getElem?_getD, List.getElem?_eq_getElem (by omega)]
    rfl
  unfold gslSpline
  rw [if_neg hc]
  unfold cubicEF bicubicAt
  dsimp only
  have co : ∀ {i j : Nat}, i < p.length → j < xi.length → _ := fun {i j} hi hj =>
    cornerAt_fin hx hy (by omega) (by omega) (w := fun k => efOf ((g.map FV.num).getD k .nan)) (v := fun k => g.getD k 0) hw (i := i) (j := j) hi hj
  rw [co (by omega) (by omega), co (by omega) (by omega), co (by omega) (by omega), co (by omega) (by omega),
    cellPoly_fin _ _ _ _ (gap_pos hx ci).ne' (gap_pos hy cj).ne']
  rfl

/-- C124: one value that is no number (the logarithm of zero) and nothing of the table is a number, also far away from it. -/
theorem C124_spreads (t : Table) (hg : GslTable t) (hc : t.interp ≠ 0) (j k : Nat) (hj : j < t.p.length) (hk : k < t.xi.length)
    (hv : ∀ v, t.f[k * t.p.length + j]? ≠ some (.num v)) (x y : ℝ) : gslSpline t x y = .nan := by
  obtain ⟨l1, l2⟩ := cubic_least hg hc
  have ci := (fits_cellOf t.p (by omega) x).cell
  have cj := (fits_cellOf t.xi (by omega) y).cell
  unfold gslSpline cubicEF
  rw [if_neg hc, bicubic_not (by omega) (by omega) hj hk ?_ ci cj]
  · rfl
  · rw [List.getD_eq_getElem?_getD]
    have hlt : k * t.p.length + j < t.f.length := (table_index hj hk).trans_le hg.size
    rw [List.getElem?_eq_getElem hlt] at hv ⊢
    cases h : t.f[k * t.p.length + j] with
    | nan => exact id
    | negInf => exact id
    | num v => exact absurd (congrArg some h) (hv v)

/-- C124: the interpolation of a table that GSL accepts is never infinite: it is a number at every point or at none. -/
theorem C124_finite (t : Table) (hg : GslTable t) (hc : t.interp ≠ 0) :
    (∀ x y, ∃ v, cubicEF t x y = .fin v) ∨ ∀ x y, cubicEF t x y = .nan := by
  obtain ⟨l1, l2⟩ := cubic_least hg hc
  by_cases h : ∀ j k, j < t.p.length → k < t.xi.length → ∃ v, t.f[k * t.p.length + j]? = some (.num v)
  · left
    intro x y
    have hx := getD_rising hg.incP
    have hy := getD_rising hg.incXi
    have ci := (fits_cellOf t.p (by omega) x).cell
    have cj := (fits_cellOf t.xi (by omega) y).cell
    let v : Nat → ℝ := fun n => match t.f.getD n .nan with
      | .num v => v
      | _ => 0
    have hw : ∀ i j, i < t.p.length → j < t.xi.length → efOf (t.f.getD (j * t.p.length + i) .nan) = .fin (v (j * t.p.length + i)) := by
      intro i j hi hj
      obtain ⟨u, hu⟩ := h i j hi hj
      simp only [v, List.getD_eq_getElem?_getD, hu, Option.getD_some, efOf]
    have co : ∀ {i j : Nat}, i < t.p.length → j < t.xi.length → _ := fun {i j} hi hj =>
      cornerAt_fin hx hy (by omega) (by omega) (w := fun k => efOf (t.f.getD k .nan)) (v := v) hw (i := i) (j := j) hi hj
    unfold cubicEF bicubicAt
    dsimp only
    rw [co (by omega) (by omega), co (by omega) (by omega), co (by omega) (by omega), co (by omega) (by omega),
      cellPoly_fin _ _ _ _ (gap_pos hx ci).ne' (gap_pos hy cj).ne']
    exact ⟨_, rfl⟩
  · right
    intro x y
    push Not at h
    obtain ⟨j, k, hj, hk, hv⟩ := h
    have ci := (fits_cellOf t.p (by omega) x).cell
    have cj := (fits_cellOf t.xi (by omega) y).cell
    unfold cubicEF
    refine bicubic_not (by omega) (by omega) hj hk ?_ ci cj _ _
    rw [List.getD_eq_getElem?_getD]
    have hlt : k * t.p.length + j < t.f.length := (table_index hj hk).trans_le hg.size
    rw [List.getElem?_eq_getElem hlt] at hv ⊢
    cases h : t.f[k * t.p.length + j] with
    | nan => exact id
    | negInf => exact id
    | num v => exact absurd (congrArg some h) (hv v)

/-- C124: what C92 assumes of the interpolation holds for the linear and the cubic one. -/
theorem C124_reproduces : Reproduces gslSpline where
  numbers p xi g it j k a b w hg ha hb hw := by
    by_cases hc : it = 0
    · unfold gslSpline
      rw [if_pos hc]
      exact C117_reproduces.numbers p xi g it j k a b w hg ha hb hw
    · obtain ⟨l1, l2⟩ := cubic_least hg hc
      rw [C124_numbers p xi g it hg hc]
      exact congrArg _ (bicubic_node p xi g (by dsimp only at l1; omega) (by dsimp only at l2; omega) hg.incP hg.incXi ha hb hw)
  infinite t j k a b hg ha hb hw := by
    by_cases hc : t.interp = 0
    · have := C117_reproduces.infinite t j k a b hg ha hb hw
      unfold gslSpline
      rw [if_pos hc]
      exact this
    · right
      exact C124_spreads t hg hc j k (List.getElem?_eq_some_iff.1 ha).1 (List.getElem?_eq_some_iff.1 hb).1 (fun v h => by rw [hw] at h; cases h) a b

/-- C124: and what C115 assumes. -/
theorem C124_table_exact (it : Int) : TableExact gslSpline it := fun p xi f j k x y v hg hx hy hv =>
  C124_reproduces.numbers p xi f it k j x y v hg.gsl hx hy hv

/-- C124: a table of numbers with cubic interpolation: inside the tabulated rectangle the distribution is a function that has the stored
values at the nodes and is differentiable, also where cells meet. -/
theorem C124_table_partial (p xi g : List ℝ) (it : Int) (hc : it ≠ 0) (fl : Bool) (m : NMom)
    (hm : NMom.initialize ⟨p, xi, g.map .num, it⟩ false fl = .ok m) :
    ∃ F Fp Fxi : ℝ → ℝ → ℝ,
      (∀ x y, InRectangle m x y → m.eval gslSpline x y = .num (F x (if fl = true then -y else y))) ∧
      (∀ j k x y v, p[j]? = some x → xi[k]? = some y → g[k * p.length + j]? = some v → F x y = v) ∧
      (∀ (X Y : ℝ → ℝ) (u w t : ℝ), HasDerivAt X u t → HasDerivAt Y w t →
        HasDerivAt (fun s => F (X s) (Y s)) (Fp (X t) (Y t) * u + Fxi (X t) (Y t) * w) t) := by
  obtain ⟨hg, g1, g2, g3, g4, ht, hl, hf⟩ := (C59_accepts_iff _ _ _ _).mp hm
  obtain ⟨l1, l2⟩ := cubic_least hg hc
  dsimp only at l1 l2
  refine ⟨(bicubic p xi g).val, (bicubic p xi g).dr, (bicubic p xi g).dz, fun x y hin => ?_, fun j k x y v hx hy hv => ?_, ?_⟩
  · rw [C59_inside gslSpline m x y hin, ht, hl, hf, C124_numbers p xi g it hg hc]
    rfl
  · exact bicubic_node p xi g (by omega) (by omega) hg.incP hg.incXi hx hy hv
  · intro X Y u w t hX hY
    exact C123_smooth p xi g (by omega) (by omega) hg.incP hg.incXi _ _ X Y u w t hX hY rfl rfl

/-- C124: logarithms of positive values with cubic interpolation: the distribution has the stored values at the nodes and is positive
inside the tabulated rectangle. -/
theorem C124_log_partial (p xi f : List ℝ) (it : Int) (hc : it ≠ 0) (m : NMom) (hm : NMom.initializeLog p xi f it = .ok m)
    (hpos : ∀ v ∈ f, 0 < v) :
    (∀ x y, InRectangle m x y → ∃ v, m.eval gslSpline x y = .num v ∧ 0 < v) ∧
    (∀ j k x y v, p[j]? = some x → xi[k]? = some y → f[k * p.length + j]? = some v → m.eval gslSpline x y = .num v) := by
  simp only [NMom.initializeLog] at hm
  split at hm
  · cases hm
  have e : f.map logFV = (f.map Real.log).map FV.num := by
    rw [List.map_map]
    refine List.map_congr_left fun w hw => ?_
    simp [logFV, ne_of_gt (hpos w hw)]
  rw [e] at hm
  obtain ⟨hg, g1, g2, g3, g4, ht, hl, hf⟩ := (C59_accepts_iff _ _ _ _).mp hm
  obtain ⟨l1, l2⟩ := cubic_least hg hc
  have ev : ∀ x y, InRectangle m x y → m.eval gslSpline x y = .num (Real.exp ((bicubic p xi (f.map Real.log)).val x y)) := by
    intro x y hin
    rw [C59_inside gslSpline m x y hin, ht, hl, hf, if_neg (by simp), C124_numbers p xi _ it hg hc]
    rfl
  dsimp only at g1 g2 g3 g4 l1 l2
  refine ⟨fun x y hin => ⟨_, ev x y hin, Real.exp_pos _⟩, fun j k x y v hx hy hv => ?_⟩
  obtain ⟨_, _, e1, e2, b1, b2⟩ := increasing_ends hg.incP hx
  obtain ⟨_, _, e3, e4, b3, b4⟩ := increasing_ends hg.incXi hy
  dsimp only at e1 e2 e3 e4
  rw [g1] at e1; rw [g2] at e2; rw [g3] at e3; rw [g4] at e4
  obtain rfl := Option.some.inj e1
  obtain rfl := Option.some.inj e2
  obtain rfl := Option.some.inj e3
  obtain rfl := Option.some.inj e4
  rw [ev x y ⟨b1, b2, by rw [hf]; exact b3, by rw [hf]; exact b4⟩,
    bicubic_node p xi _ (by omega) (by omega) hg.incP hg.incXi hx hy (v := Real.log v) (by rw [List.getElem?_map, hv]; rfl),
    Real.exp_log (hpos v (List.mem_of_getElem? hv))]

/-- C124 is false as stated: logarithms with cubic interpolation and a single zero among the values: the distribution is zero at every
point, whatever the other values are. -/
theorem C124_refuted_zero (p xi f : List ℝ) (it : Int) (hc : it ≠ 0) (m : NMom) (hm : NMom.initializeLog p xi f it = .ok m) (j k : Nat)
    (hj : j < p.length) (hk : k < xi.length) (hz : f[k * p.length + j]? = some 0) (x y : ℝ) : m.eval gslSpline x y = .num 0 := by
  simp only [NMom.initializeLog] at hm
  split at hm
  · cases hm
  obtain ⟨hg, g1, g2, g3, g4, ht, hl, hf⟩ := (C59_accepts_iff _ _ _ _).mp hm
  by_cases hin : InRectangle m x y
  · rw [C59_inside gslSpline m x y hin, ht, hl, C124_spreads _ hg hc j k hj hk ?_]
    · rfl
    · intro v
      dsimp only
      rw [List.getElem?_map, hz]
      simp [logFV]
  · exact C59_outside gslSpline m x y hin

/-- Four points. -/
def fourGrid : List ℝ := [0, 1, 2, 3]

/-- In every row the values 0, 0, 1, 0. -/
def bumpTable : List ℝ := [0, 0, 1, 0, 0, 0, 1, 0, 0, 0, 1, 0, 0, 0, 1, 0]

theorem bump_slopes :
    nodeSlope id (fun i => fourGrid.getD i 0) (fun i => bumpTable.getD (0 * fourGrid.length + i) 0) fourGrid.length 0 = -2 / 5 ∧
    nodeSlope id (fun i => fourGrid.getD i 0) (fun i => bumpTable.getD (0 * fourGrid.length + i) 0) fourGrid.length 1 = 4 / 5 := by
  constructor <;>
    norm_num [fourGrid, bumpTable, nodeSlope, splineDeriv, curv, backward, forward, rhs, pivot, mult, recip, gap]

theorem bump_value : (bicubic fourGrid fourGrid bumpTable).val (1 / 2) 0 = -3 / 20 := by
  have c1 : cellOf fourGrid (1 / 2) = 0 := by norm_num [cellOf, fourGrid, List.takeWhile]
  have c2 : cellOf fourGrid 0 = 0 := by norm_num [cellOf, fourGrid, List.takeWhile]
  have e : (bicubic fourGrid fourGrid bumpTable).val (1 / 2) 0 =
      (bicubicCells fourGrid fourGrid bumpTable).val (cellOf fourGrid (1 / 2)) (cellOf fourGrid 0) (1 / 2) 0 := rfl
  rw [e, c1, c2]
  have h0 : (fun i => fourGrid.getD i 0) 0 = 0 := by simp [fourGrid]
  have h1 : (fun i => fourGrid.getD i 0) (0 + 1) = 1 := by simp [fourGrid]
  have b0 : bumpTable.getD (0 * fourGrid.length + 0) 0 = 0 := by simp [fourGrid, bumpTable]
  have b1 : bumpTable.getD (0 * fourGrid.length + (0 + 1)) 0 = 0 := by simp [fourGrid, bumpTable]
  obtain ⟨s0, s1⟩ := bump_slopes
  simp only [bicubicCells, bicubicAt, cellPoly, polySum, cornerAt, Corner.scale, h0, h1, b0, b1]
  rw [show (0 + 1 : Nat) = 1 from rfl, s0, s1]
  norm_num [List.range', coeff]

theorem four_increasing : fourGrid.Pairwise (· < ·) := by norm_num [fourGrid]

theorem bump_good (it : Int) (l fl : Bool) (g : List FV) (hg : g.length = 16) :
    NMom.initialize ⟨fourGrid, fourGrid, g, it⟩ l fl = .ok ⟨⟨fourGrid, fourGrid, g, it⟩, 0, 3, 0, 3, l, fl⟩ := by
  have h := four_increasing
  unfold NMom.initialize
  have l : fourGrid.length = 4 := rfl
  have h0 : fourGrid.head? = some 0 := rfl
  have h1 : fourGrid.getLast? = some 3 := rfl
  have least : gslLeast it ≤ 4 := by unfold gslLeast; split_ifs <;> omega
  simp only [h0, h1, h, l, hg, not_true, or_false, gt_iff_lt]
  rw [if_neg (by norm_num), if_neg (by norm_num), if_neg (by omega), if_neg (by omega)]

/-- C124 is false as stated: a table of values that are not negative, whose cubic interpolation is negative inside. -/
theorem C124_refuted_negative (it : Int) (hc : it ≠ 0) : ∃ m : NMom,
    NMom.initialize ⟨fourGrid, fourGrid, bumpTable.map .num, it⟩ false false = .ok m ∧ (∀ v ∈ bumpTable, 0 ≤ v) ∧
    InRectangle m (1 / 2) 0 ∧ m.eval gslSpline (1 / 2) 0 = .num (-3 / 20) := by
  have hm := bump_good it false false (bumpTable.map .num) (by simp [bumpTable])
  refine ⟨_, hm, by simp [bumpTable], ?_, ?_⟩
  · norm_num [InRectangle]
  · have hg := ((C59_accepts_iff _ _ _ _).mp hm).1
    rw [C59_inside gslSpline _ _ _ (by norm_num [InRectangle])]
    simp only [Bool.false_eq_true, if_false]
    rw [C124_numbers _ _ _ it hg hc, bump_value]
    rfl

/-- The table has the stored value at the node (2, 1). -/
example : ∃ m : NMom, NMom.initialize ⟨fourGrid, fourGrid, bumpTable.map .num, 1⟩ false false = .ok m ∧ m.eval gslSpline 2 1 = .num 1 := by
  have hm := bump_good 1 false false (bumpTable.map .num) (by simp [bumpTable])
  refine ⟨_, hm, ?_⟩
  obtain ⟨F, -, -, h1, h2, -⟩ := C124_table_partial fourGrid fourGrid bumpTable 1 (by decide) false _ hm
  rw [h1 2 1 (by norm_num [InRectangle]), if_neg (by decide), h2 2 1 2 1 1 rfl rfl rfl]

/-- Logarithms of this table, which has zeros: nothing is left of the value one. -/
example : ∃ m : NMom, NMom.initializeLog fourGrid fourGrid bumpTable 1 = .ok m ∧ ∀ x y, m.eval gslSpline x y = .num 0 := by
  have hm : NMom.initializeLog fourGrid fourGrid bumpTable 1 = .ok ⟨⟨fourGrid, fourGrid, bumpTable.map logFV, 1⟩, 0, 3, 0, 3, true, false⟩ := by
    unfold NMom.initializeLog
    rw [if_neg (by simp [bumpTable])]
    exact bump_good 1 true false _ (by simp [bumpTable])
  exact ⟨_, hm, C124_refuted_zero _ _ _ 1 (by decide) _ hm 0 0 (by decide) (by decide) rfl⟩

/-- Ones instead of zeros: positive everywhere. -/
example : ∃ m : NMom, NMom.initializeLog fourGrid fourGrid (bumpTable.map (· + 1)) 1 = .ok m ∧ m.eval gslSpline 2 1 = .num 2 ∧
    ∃ v, m.eval gslSpline (1 / 2) 0 = .num v ∧ 0 < v := by
  have hm : NMom.initializeLog fourGrid fourGrid (bumpTable.map (· + 1)) 1 =
      .ok ⟨⟨fourGrid, fourGrid, (bumpTable.map (· + 1)).map logFV, 1⟩, 0, 3, 0, 3, true, false⟩ := by
    unfold NMom.initializeLog
    rw [if_neg (by norm_num [bumpTable])]
    exact bump_good 1 true false _ (by simp [bumpTable])
  obtain ⟨h1, h2⟩ := C124_log_partial _ _ _ 1 (by decide) _ hm (by norm_num [bumpTable])
  exact ⟨_, hm, h2 2 1 2 1 2 rfl rfl (by norm_num [bumpTable, fourGrid]), h1 _ _ (by norm_num [InRectangle])⟩

example : Reproduces gslSpline := C124_reproduces
example : TableExact gslSpline 1 := C124_table_exact 1

end

end Softlib
