/-
C117: linear interpolation of tables.
-/
import Verif.Dist.LinearModel
import Verif.Dist.FileEvalProps
import Verif.Dist.LogProps
import Verif.Magnetic.LukeProps
import Mathlib.Analysis.SpecialFunctions.Pow.Real

namespace Softlib

open Dist

noncomputable section

/-! ### cells -/

/-- A cell that contains the point is the one that is found, or the one before it and the point is their common node. -/
theorem cell_unique {xs : List ℝ} (h2 : 2 ≤ xs.length) (hinc : xs.Pairwise (· < ·)) {x x0 x1 : ℝ} {k : Nat} (h0 : xs[k]? = some x0)
    (h1 : xs[k + 1]? = some x1) (hlo : x0 ≤ x) (hhi : x ≤ x1) :
    Magnetic.cellOf xs x = k ∨ (Magnetic.cellOf xs x = k + 1 ∧ x = x1) := by
  obtain ⟨a, b, ha, hb, hl, hr⟩ := cellOf_spec xs x h2
  generalize Magnetic.cellOf xs x = n at *
  have kb := (List.getElem?_eq_some_iff.1 h1).1
  have nb := (List.getElem?_eq_some_iff.1 hb).1
  rcases Nat.lt_trichotomy n k with h | h | h
  · exfalso
    have hxb : x < b := by rcases hr with hr | hr <;> [omega; exact hr]
    rcases Nat.lt_or_ge (n + 1) k with h' | h'
    · have := increasing_lt hinc hb h0 h'
      linarith
    · obtain rfl : k = n + 1 := by omega
      rw [hb] at h0
      obtain rfl := Option.some.inj h0
      linarith
  · exact Or.inl h
  · right
    have hax : a ≤ x := by rcases hl with hl | hl <;> [omega; exact hl]
    rcases Nat.lt_or_ge (k + 1) n with h' | h'
    · exfalso
      have := increasing_lt hinc h1 ha h'
      linarith
    · obtain rfl : n = k + 1 := by omega
      refine ⟨rfl, ?_⟩
      rw [ha] at h1
      obtain rfl := Option.some.inj h1
      linarith

/-- A point between the ends of a grid is in the cell that is found. -/
theorem cell_found {xs : List ℝ} (h2 : 2 ≤ xs.length) (hinc : xs.Pairwise (· < ·)) {x lo hi : ℝ} (hl : xs.head? = some lo)
    (hr : xs.getLast? = some hi) (h1 : lo ≤ x) (h3 : x ≤ hi) :
    ∃ x0 x1, xs[Magnetic.cellOf xs x]? = some x0 ∧ xs[Magnetic.cellOf xs x + 1]? = some x1 ∧ x0 ≤ x ∧ x ≤ x1 ∧ x0 < x1 ∧
      (Magnetic.cellOf xs x + 2 = xs.length ∨ x < x1) := by
  obtain ⟨a, b, ha, hb, hl', hr'⟩ := cellOf_spec xs x h2
  generalize Magnetic.cellOf xs x = n at *
  refine ⟨a, b, ha, hb, ?_, ?_, increasing_lt hinc ha hb (by omega), hr'⟩
  · rcases hl' with rfl | h
    · rw [List.head?_eq_getElem?, ha] at hl
      obtain rfl := Option.some.inj hl
      exact h1
    · exact h
  · rcases hr' with h | h
    · rw [List.getLast?_eq_getElem?, show xs.length - 1 = n + 1 by omega, hb] at hr
      obtain rfl := Option.some.inj hr
      exact h3
    · exact h.le

/-- The corners of a cell of an accepted table. -/
theorem corner_some {t : Table} (hg : GslTable t) {k l : Nat} (hk : k < t.p.length) (hl : l < t.xi.length) :
    ∃ z, t.f[l * t.p.length + k]? = some z := by
  have : l * t.p.length + k < t.f.length := by
    calc l * t.p.length + k < l * t.p.length + t.p.length := by omega
      _ = (l + 1) * t.p.length := by ring
      _ ≤ t.xi.length * t.p.length := Nat.mul_le_mul_right _ hl
      _ = t.p.length * t.xi.length := Nat.mul_comm _ _
      _ ≤ _ := hg.size
  exact ⟨_, List.getElem?_eq_getElem this⟩

theorem gslTable_two {t : Table} (hg : GslTable t) : 2 ≤ t.p.length ∧ 2 ≤ t.xi.length := by
  have h1 := hg.leastP
  have h2 := hg.leastXi
  split at h1 <;> split at h2 <;> omega

/-! ### tables of numbers -/

/-- The bilinear function with the values `v00` … `v11` at the corners of the rectangle [x0, x1] × [y0, y1]. -/
def Bilinear (x0 x1 y0 y1 v00 v10 v01 v11 x y : ℝ) : ℝ :=
  ((x1 - x) * (y1 - y) * v00 + (x - x0) * (y1 - y) * v10 + (x1 - x) * (y - y0) * v01 + (x - x0) * (y - y0) * v11) /
    ((x1 - x0) * (y1 - y0))

/-- **C117** (spline) In every cell that contains the point, also where cells meet, the interpolation is the bilinear function with
the stored values at the corners. -/
theorem linear_numbers (p xi g : List ℝ) (it : Int) (hg : GslTable ⟨p, xi, g.map .num, it⟩) (x y : ℝ) (k l : Nat)
    (x0 x1 y0 y1 v00 v10 v01 v11 : ℝ) (hx0 : p[k]? = some x0) (hx1 : p[k + 1]? = some x1) (hy0 : xi[l]? = some y0)
    (hy1 : xi[l + 1]? = some y1) (h1 : x0 ≤ x) (h2 : x ≤ x1) (h3 : y0 ≤ y) (h4 : y ≤ y1)
    (e00 : g[l * p.length + k]? = some v00) (e10 : g[l * p.length + (k + 1)]? = some v10)
    (e01 : g[(l + 1) * p.length + k]? = some v01) (e11 : g[(l + 1) * p.length + (k + 1)]? = some v11) :
    linearSpline ⟨p, xi, g.map .num, it⟩ x y = .num (Bilinear x0 x1 y0 y1 v00 v10 v01 v11 x y) := by
  obtain ⟨lp, lxi⟩ := gslTable_two hg
  simp only at lp lxi
  have cx := cell_unique lp hg.incP hx0 hx1 h1 h2
  have cy := cell_unique lxi hg.incXi hy0 hy1 h3 h4
  obtain ⟨a0, a1, ha0, ha1, -, -⟩ := cellOf_spec p x lp
  obtain ⟨b0, b1, hb0, hb1, -, -⟩ := cellOf_spec xi y lxi
  have dx := increasing_lt hg.incP hx0 hx1 (by omega)
  have dy := increasing_lt hg.incXi hy0 hy1 (by omega)
  have da := increasing_lt hg.incP ha0 ha1 (by omega)
  have db := increasing_lt hg.incXi hb0 hb1 (by omega)
  have val : ∀ i j w, g[j * p.length + i]? = some w → (g.map FV.num)[j * p.length + i]? = some (FV.num w) := by
    intro i j w h; rw [List.getElem?_map, h]; rfl
  have cor : ∀ i j, i < p.length → j < xi.length → ∃ w, g[j * p.length + i]? = some w := by
    intro i j hi hj
    obtain ⟨z, hz⟩ := corner_some hg hi hj
    simp only [List.getElem?_map, Option.map_eq_some_iff] at hz
    obtain ⟨w, hw, -⟩ := hz
    exact ⟨w, hw⟩
  simp only [linearSpline]
  generalize Magnetic.cellOf p x = i at *
  generalize Magnetic.cellOf xi y = j at *
  have ib := (List.getElem?_eq_some_iff.1 ha1).1
  have jb := (List.getElem?_eq_some_iff.1 hb1).1
  obtain ⟨w00, f00⟩ := cor i j (by omega) (by omega)
  obtain ⟨w10, f10⟩ := cor (i + 1) j (by omega) (by omega)
  obtain ⟨w01, f01⟩ := cor i (j + 1) (by omega) (by omega)
  obtain ⟨w11, f11⟩ := cor (i + 1) (j + 1) (by omega) (by omega)
  simp only [ha0, ha1, hb0, hb1, val _ _ _ f00, val _ _ _ f10, val _ _ _ f01, val _ _ _ f11, FV.times, FV.plus]
  congr 1
  unfold Bilinear
  have q1 : x1 - x0 ≠ 0 := by intro h; linarith
  have q2 : y1 - y0 ≠ 0 := by intro h; linarith
  have q3 : a1 - a0 ≠ 0 := by intro h; linarith
  have q4 : b1 - b0 ≠ 0 := by intro h; linarith
  rcases cx with rfl | ⟨rfl, ex⟩ <;> rcases cy with rfl | ⟨rfl, ey⟩
  all_goals
    simp only [hx0, hx1, hy0, hy1, e00, e10, e01, e11, Option.some.injEq] at ha0 ha1 hb0 hb1 f00 f10 f01 f11
    subst_vars
    field_simp
    ring

/-- The four weights of a point in a rectangle are not negative and have the sum one. -/
theorem bilinear_weights {x0 x1 y0 y1 x y : ℝ} (dx : x0 < x1) (dy : y0 < y1) (h1 : x0 ≤ x) (h2 : x ≤ x1) (h3 : y0 ≤ y) (h4 : y ≤ y1)
    (v00 v10 v01 v11 : ℝ) : ∃ a b c d : ℝ, 0 ≤ a ∧ 0 ≤ b ∧ 0 ≤ c ∧ 0 ≤ d ∧ a + b + c + d = 1 ∧
      Bilinear x0 x1 y0 y1 v00 v10 v01 v11 x y = a * v00 + b * v10 + c * v01 + d * v11 := by
  have q1 : 0 < x1 - x0 := by linarith
  have q2 : 0 < y1 - y0 := by linarith
  have e1 : 0 ≤ x1 - x := by linarith
  have e2 : 0 ≤ x - x0 := by linarith
  have e3 : 0 ≤ y1 - y := by linarith
  have e4 : 0 ≤ y - y0 := by linarith
  refine ⟨(x1 - x) * (y1 - y) / ((x1 - x0) * (y1 - y0)), (x - x0) * (y1 - y) / ((x1 - x0) * (y1 - y0)),
    (x1 - x) * (y - y0) / ((x1 - x0) * (y1 - y0)), (x - x0) * (y - y0) / ((x1 - x0) * (y1 - y0)), by positivity, by positivity,
    by positivity, by positivity, ?_, ?_⟩
  · field_simp; ring
  · unfold Bilinear; field_simp

theorem bilinear_between {x0 x1 y0 y1 x y : ℝ} (dx : x0 < x1) (dy : y0 < y1) (h1 : x0 ≤ x) (h2 : x ≤ x1) (h3 : y0 ≤ y) (h4 : y ≤ y1)
    {v00 v10 v01 v11 lo hi : ℝ} (l1 : lo ≤ v00) (l2 : lo ≤ v10) (l3 : lo ≤ v01) (l4 : lo ≤ v11) (u1 : v00 ≤ hi) (u2 : v10 ≤ hi)
    (u3 : v01 ≤ hi) (u4 : v11 ≤ hi) :
    lo ≤ Bilinear x0 x1 y0 y1 v00 v10 v01 v11 x y ∧ Bilinear x0 x1 y0 y1 v00 v10 v01 v11 x y ≤ hi := by
  obtain ⟨a, b, c, d, ha, hb, hc, hd, hs, e⟩ := bilinear_weights dx dy h1 h2 h3 h4 v00 v10 v01 v11
  rw [e]
  constructor
  · have k1 := mul_le_mul_of_nonneg_left l1 ha
    have k2 := mul_le_mul_of_nonneg_left l2 hb
    have k3 := mul_le_mul_of_nonneg_left l3 hc
    have k4 := mul_le_mul_of_nonneg_left l4 hd
    have : a * lo + b * lo + c * lo + d * lo = lo := by rw [← add_mul, ← add_mul, ← add_mul, hs, one_mul]
    linarith
  · have k1 := mul_le_mul_of_nonneg_left u1 ha
    have k2 := mul_le_mul_of_nonneg_left u2 hb
    have k3 := mul_le_mul_of_nonneg_left u3 hc
    have k4 := mul_le_mul_of_nonneg_left u4 hd
    have : a * hi + b * hi + c * hi + d * hi = hi := by rw [← add_mul, ← add_mul, ← add_mul, hs, one_mul]
    linarith

theorem bilinear_corners {x0 x1 y0 y1 : ℝ} (dx : x0 < x1) (dy : y0 < y1) (v00 v10 v01 v11 : ℝ) :
    Bilinear x0 x1 y0 y1 v00 v10 v01 v11 x0 y0 = v00 ∧ Bilinear x0 x1 y0 y1 v00 v10 v01 v11 x1 y0 = v10 ∧
      Bilinear x0 x1 y0 y1 v00 v10 v01 v11 x0 y1 = v01 ∧ Bilinear x0 x1 y0 y1 v00 v10 v01 v11 x1 y1 = v11 := by
  have q1 : x1 - x0 ≠ 0 := by intro h; linarith
  have q2 : y1 - y0 ≠ 0 := by intro h; linarith
  unfold Bilinear
  refine ⟨?_, ?_, ?_, ?_⟩ <;> (field_simp; ring)

/-- Every node is the lower or the upper end of a cell. -/
theorem node_cell {xs : List ℝ} (h2 : 2 ≤ xs.length) {k : Nat} {x : ℝ} (h : xs[k]? = some x) :
    (∃ x1, xs[k + 1]? = some x1) ∨ (∃ n x0, k = n + 1 ∧ xs[n]? = some x0) := by
  have hk := (List.getElem?_eq_some_iff.1 h).1
  rcases Nat.lt_or_ge (k + 1) xs.length with h' | h'
  · exact Or.inl ⟨_, List.getElem?_eq_getElem h'⟩
  · exact Or.inr ⟨k - 1, xs[k - 1]'(by omega), by omega, List.getElem?_eq_getElem _⟩

/-- **C117** (spline) The linear interpolation of a table of numbers has the values of the table at its nodes. -/
theorem linear_node (p xi g : List ℝ) (it : Int) (hg : GslTable ⟨p, xi, g.map .num, it⟩) (j k : Nat) (a b w : ℝ) (ha : p[j]? = some a)
    (hb : xi[k]? = some b) (hw : g[k * p.length + j]? = some w) : linearSpline ⟨p, xi, g.map .num, it⟩ a b = .num w := by
  obtain ⟨lp, lxi⟩ := gslTable_two hg
  simp only at lp lxi
  have cor : ∀ i j, i < p.length → j < xi.length → ∃ w, g[j * p.length + i]? = some w := by
    intro i j hi hj
    obtain ⟨z, hz⟩ := corner_some hg hi hj
    simp only [List.getElem?_map, Option.map_eq_some_iff] at hz
    obtain ⟨w, hw, -⟩ := hz
    exact ⟨w, hw⟩
  have hj := (List.getElem?_eq_some_iff.1 ha).1
  have hk := (List.getElem?_eq_some_iff.1 hb).1
  rcases node_cell lp ha with ⟨a1, ha1⟩ | ⟨n, a0, rfl, ha0⟩ <;> rcases node_cell lxi hb with ⟨b1, hb1⟩ | ⟨n', b0, rfl, hb0⟩
  · have l1 := (List.getElem?_eq_some_iff.1 ha1).1
    have l2 := (List.getElem?_eq_some_iff.1 hb1).1
    obtain ⟨v1, e1⟩ := cor (j + 1) k l1 hk
    obtain ⟨v2, e2⟩ := cor j (k + 1) hj l2
    obtain ⟨v3, e3⟩ := cor (j + 1) (k + 1) l1 l2
    have dx := increasing_lt hg.incP ha ha1 (by omega)
    have dy := increasing_lt hg.incXi hb hb1 (by omega)
    rw [linear_numbers p xi g it hg a b j k a a1 b b1 w v1 v2 v3 ha ha1 hb hb1 le_rfl dx.le le_rfl dy.le hw e1 e2 e3,
      (bilinear_corners dx dy w v1 v2 v3).1]
  · have l1 := (List.getElem?_eq_some_iff.1 ha1).1
    have l2 := (List.getElem?_eq_some_iff.1 hb0).1
    obtain ⟨v1, e1⟩ := cor j n' hj l2
    obtain ⟨v2, e2⟩ := cor (j + 1) n' l1 l2
    obtain ⟨v3, e3⟩ := cor (j + 1) (n' + 1) l1 hk
    have dx := increasing_lt hg.incP ha ha1 (by omega)
    have dy := increasing_lt hg.incXi hb0 hb (by omega)
    rw [linear_numbers p xi g it hg a b j n' a a1 b0 b v1 v2 w v3 ha ha1 hb0 hb le_rfl dx.le dy.le le_rfl e1 e2 hw e3,
      (bilinear_corners dx dy v1 v2 w v3).2.2.1]
  · have l1 := (List.getElem?_eq_some_iff.1 ha0).1
    have l2 := (List.getElem?_eq_some_iff.1 hb1).1
    obtain ⟨v1, e1⟩ := cor n k l1 hk
    obtain ⟨v2, e2⟩ := cor n (k + 1) l1 l2
    obtain ⟨v3, e3⟩ := cor (n + 1) (k + 1) hj l2
    have dx := increasing_lt hg.incP ha0 ha (by omega)
    have dy := increasing_lt hg.incXi hb hb1 (by omega)
    rw [linear_numbers p xi g it hg a b n k a0 a b b1 v1 w v2 v3 ha0 ha hb hb1 dx.le le_rfl le_rfl dy.le e1 hw e2 e3,
      (bilinear_corners dx dy v1 w v2 v3).2.1]
  · have l1 := (List.getElem?_eq_some_iff.1 ha0).1
    have l2 := (List.getElem?_eq_some_iff.1 hb0).1
    obtain ⟨v1, e1⟩ := cor n n' l1 l2
    obtain ⟨v2, e2⟩ := cor (n + 1) n' hj l2
    obtain ⟨v3, e3⟩ := cor n (n' + 1) l1 hk
    have dx := increasing_lt hg.incP ha0 ha (by omega)
    have dy := increasing_lt hg.incXi hb0 hb (by omega)
    rw [linear_numbers p xi g it hg a b n n' a0 a b0 b v1 v2 v3 w ha0 ha hb0 hb dx.le le_rfl dy.le le_rfl e1 e2 e3 hw,
      (bilinear_corners dx dy v1 v2 v3 w).2.2.2]

/-- A point of a cell is in the tabulated rectangle. -/
theorem cell_rectangle {t : Table} {l fl : Bool} {m : NMom} (h : NMom.initialize t l fl = .ok m) {x y x0 x1 y0 y1 : ℝ} {k n : Nat}
    (hx0 : t.p[k]? = some x0) (hx1 : t.p[k + 1]? = some x1) (hy0 : t.xi[n]? = some y0) (hy1 : t.xi[n + 1]? = some y1)
    (h1 : x0 ≤ x) (h2 : x ≤ x1) (h3 : y0 ≤ y) (h4 : y ≤ y1) : InRectangle m x (if fl = true then -y else y) := by
  obtain ⟨hg, g1, g2, g3, g4, rfl, rfl, rfl⟩ := (C59_accepts_iff _ _ _ _).mp h
  obtain ⟨_, _, e1, e2, l1, -⟩ := increasing_ends hg.incP hx0
  obtain ⟨_, _, e3, e4, -, l2⟩ := increasing_ends hg.incP hx1
  obtain ⟨_, _, e5, e6, l3, -⟩ := increasing_ends hg.incXi hy0
  obtain ⟨_, _, e7, e8, -, l4⟩ := increasing_ends hg.incXi hy1
  rw [g1] at e1; rw [g2] at e4; rw [g3] at e5; rw [g4] at e8
  obtain rfl := Option.some.inj e1
  obtain rfl := Option.some.inj e4
  obtain rfl := Option.some.inj e5
  obtain rfl := Option.some.inj e8
  have : (if m.flip = true then -(if m.flip = true then -y else y) else (if m.flip = true then -y else y)) = y := by
    split <;> simp
  exact ⟨by linarith, by linarith, by rw [this]; linarith, by rw [this]; linarith⟩

/-- **C117** A distribution tabulated with linear interpolation is, in every cell that contains the point (also where cells meet), the
bilinear function with the stored values at the corners of the cell; with flipped pitch, that of the opposite pitch. -/
theorem C117_cell (p xi g : List ℝ) (fl : Bool) (m : NMom) (hm : NMom.initialize ⟨p, xi, g.map .num, 0⟩ false fl = .ok m) (x y : ℝ)
    (k l : Nat) (x0 x1 y0 y1 v00 v10 v01 v11 : ℝ) (hx0 : p[k]? = some x0) (hx1 : p[k + 1]? = some x1) (hy0 : xi[l]? = some y0)
    (hy1 : xi[l + 1]? = some y1) (h1 : x0 ≤ x) (h2 : x ≤ x1) (h3 : y0 ≤ y) (h4 : y ≤ y1)
    (e00 : g[l * p.length + k]? = some v00) (e10 : g[l * p.length + (k + 1)]? = some v10)
    (e01 : g[(l + 1) * p.length + k]? = some v01) (e11 : g[(l + 1) * p.length + (k + 1)]? = some v11) :
    m.eval linearSpline x (if fl = true then -y else y) = .num (Bilinear x0 x1 y0 y1 v00 v10 v01 v11 x y) := by
  obtain ⟨hg, -, -, -, -, ht, hl, hf⟩ := (C59_accepts_iff _ _ _ _).mp hm
  rw [C59_inside linearSpline m x _ (cell_rectangle hm hx0 hx1 hy0 hy1 h1 h2 h3 h4), ht, hl, hf]
  have : (if fl = true then -(if fl = true then -y else y) else (if fl = true then -y else y)) = y := by split <;> simp
  rw [this, linear_numbers p xi g 0 hg x y k l x0 x1 y0 y1 v00 v10 v01 v11 hx0 hx1 hy0 hy1 h1 h2 h3 h4 e00 e10 e01 e11]
  rfl

/-- **C117** There it lies between the smallest and the largest of the four values. -/
theorem C117_between (p xi g : List ℝ) (fl : Bool) (m : NMom) (hm : NMom.initialize ⟨p, xi, g.map .num, 0⟩ false fl = .ok m) (x y : ℝ)
    (k l : Nat) (x0 x1 y0 y1 v00 v10 v01 v11 : ℝ) (hx0 : p[k]? = some x0) (hx1 : p[k + 1]? = some x1) (hy0 : xi[l]? = some y0)
    (hy1 : xi[l + 1]? = some y1) (h1 : x0 ≤ x) (h2 : x ≤ x1) (h3 : y0 ≤ y) (h4 : y ≤ y1)
    (e00 : g[l * p.length + k]? = some v00) (e10 : g[l * p.length + (k + 1)]? = some v10)
    (e01 : g[(l + 1) * p.length + k]? = some v01) (e11 : g[(l + 1) * p.length + (k + 1)]? = some v11) :
    ∃ z, m.eval linearSpline x (if fl = true then -y else y) = .num z ∧ min (min v00 v10) (min v01 v11) ≤ z ∧
      z ≤ max (max v00 v10) (max v01 v11) := by
  have hg := ((C59_accepts_iff _ _ _ _).mp hm).1
  refine ⟨_, C117_cell p xi g fl m hm x y k l x0 x1 y0 y1 v00 v10 v01 v11 hx0 hx1 hy0 hy1 h1 h2 h3 h4 e00 e10 e01 e11, ?_⟩
  exact bilinear_between (increasing_lt hg.incP hx0 hx1 (by omega)) (increasing_lt hg.incXi hy0 hy1 (by omega)) h1 h2 h3 h4
    (by simp) (by simp) (by simp) (by simp) (by simp) (by simp) (by simp) (by simp)

/-- Where the tabulated rectangle contains the point, some cell does. -/
theorem rectangle_cell {t : Table} {l fl : Bool} {m : NMom} (h : NMom.initialize t l fl = .ok m) {x y : ℝ}
    (hin : InRectangle m x (if fl = true then -y else y)) : ∃ k n x0 x1 y0 y1, t.p[k]? = some x0 ∧ t.p[k + 1]? = some x1 ∧
      t.xi[n]? = some y0 ∧ t.xi[n + 1]? = some y1 ∧ x0 ≤ x ∧ x ≤ x1 ∧ y0 ≤ y ∧ y ≤ y1 := by
  obtain ⟨hg, g1, g2, g3, g4, rfl, rfl, rfl⟩ := (C59_accepts_iff _ _ _ _).mp h
  obtain ⟨i1, i2, i3, i4⟩ := hin
  have : (if m.flip = true then -(if m.flip = true then -y else y) else (if m.flip = true then -y else y)) = y := by
    split <;> simp
  rw [this] at i3 i4
  obtain ⟨lp, lxi⟩ := gslTable_two hg
  obtain ⟨x0, x1, a1, a2, a3, a4, -, -⟩ := cell_found lp hg.incP g1 g2 i1 i2
  obtain ⟨y0, y1, b1, b2, b3, b4, -, -⟩ := cell_found lxi hg.incXi g3 g4 i3 i4
  exact ⟨_, _, _, _, _, _, a1, a2, b1, b2, a3, a4, b3, b4⟩

/-- **C117** Everywhere in the tabulated rectangle the value is a number between any bounds of the stored values, and if these are not
negative the value is not negative anywhere. -/
theorem C117_bounds (p xi g : List ℝ) (fl : Bool) (m : NMom) (hm : NMom.initialize ⟨p, xi, g.map .num, 0⟩ false fl = .ok m) :
    (∀ lo hi x y, (∀ v ∈ g, lo ≤ v ∧ v ≤ hi) → InRectangle m x y → ∃ z, m.eval linearSpline x y = .num z ∧ lo ≤ z ∧ z ≤ hi) ∧
    ((∀ v ∈ g, 0 ≤ v) → ∀ x y, ∃ z, m.eval linearSpline x y = .num z ∧ 0 ≤ z) := by
  have hg := ((C59_accepts_iff _ _ _ _).mp hm).1
  have key : ∀ x y, InRectangle m x y → ∃ k l x0 x1 y0 y1 v00 v10 v01 v11 : _, v00 ∈ g ∧ v10 ∈ g ∧ v01 ∈ g ∧ v11 ∈ g ∧
      p[k]? = some x0 ∧ p[k + 1]? = some x1 ∧ xi[l]? = some y0 ∧ xi[l + 1]? = some y1 ∧ x0 ≤ x ∧ x ≤ x1 ∧
      y0 ≤ (if fl = true then -y else y) ∧ (if fl = true then -y else y) ≤ y1 ∧
      m.eval linearSpline x y = .num (Bilinear x0 x1 y0 y1 v00 v10 v01 v11 x (if fl = true then -y else y)) := by
    intro x y hin
    have ey : (if fl = true then -(if fl = true then -y else y) else (if fl = true then -y else y)) = y := by split <;> simp
    obtain ⟨k, n, x0, x1, y0, y1, a1, a2, b1, b2, a3, a4, b3, b4⟩ := rectangle_cell (y := if fl = true then -y else y) hm (by rw [ey]; exact hin)
    have cor : ∀ i j, i < p.length → j < xi.length → ∃ w, g[j * p.length + i]? = some w := by
      intro i j hi hj
      obtain ⟨z, hz⟩ := corner_some hg hi hj
      simp only [List.getElem?_map, Option.map_eq_some_iff] at hz
      obtain ⟨w, hw, -⟩ := hz
      exact ⟨w, hw⟩
    have l1 := (List.getElem?_eq_some_iff.1 a2).1
    have l2 := (List.getElem?_eq_some_iff.1 b2).1
    simp only at l1 l2
    obtain ⟨v00, e00⟩ := cor k n (by omega) (by omega)
    obtain ⟨v10, e10⟩ := cor (k + 1) n (by omega) (by omega)
    obtain ⟨v01, e01⟩ := cor k (n + 1) (by omega) (by omega)
    obtain ⟨v11, e11⟩ := cor (k + 1) (n + 1) (by omega) (by omega)
    have := C117_cell p xi g fl m hm x (if fl = true then -y else y) k n x0 x1 y0 y1 v00 v10 v01 v11 a1 a2 b1 b2 a3 a4 b3 b4 e00 e10
      e01 e11
    rw [ey] at this
    exact ⟨k, n, x0, x1, y0, y1, v00, v10, v01, v11, List.mem_of_getElem? e00, List.mem_of_getElem? e10, List.mem_of_getElem? e01,
      List.mem_of_getElem? e11, a1, a2, b1, b2, a3, a4, b3, b4, this⟩
  constructor
  · intro lo hi x y hb hin
    obtain ⟨k, n, x0, x1, y0, y1, v00, v10, v01, v11, m1, m2, m3, m4, a1, a2, b1, b2, a3, a4, b3, b4, e⟩ := key x y hin
    exact ⟨_, e, bilinear_between (increasing_lt hg.incP a1 a2 (by omega)) (increasing_lt hg.incXi b1 b2 (by omega)) a3 a4 b3 b4
      (hb _ m1).1 (hb _ m2).1 (hb _ m3).1 (hb _ m4).1 (hb _ m1).2 (hb _ m2).2 (hb _ m3).2 (hb _ m4).2⟩
  · intro hb x y
    by_cases hin : InRectangle m x y
    · obtain ⟨k, n, x0, x1, y0, y1, v00, v10, v01, v11, m1, m2, m3, m4, a1, a2, b1, b2, a3, a4, b3, b4, e⟩ := key x y hin
      refine ⟨_, e, ?_⟩
      obtain ⟨a, b, c, d, ha, hb', hc, hd, -, e'⟩ := bilinear_weights (increasing_lt hg.incP a1 a2 (by omega))
        (increasing_lt hg.incXi b1 b2 (by omega)) a3 a4 b3 b4 v00 v10 v01 v11
      rw [e']
      have := hb _ m1; have := hb _ m2; have := hb _ m3; have := hb _ m4
      positivity
    · exact ⟨0, C59_outside linearSpline m x y hin, le_rfl⟩

/-- **C117** At the nodes it has the stored values. -/
theorem C117_node (p xi g : List ℝ) (fl : Bool) (m : NMom) (hm : NMom.initialize ⟨p, xi, g.map .num, 0⟩ false fl = .ok m) (j k : Nat)
    (x y v : ℝ) (hx : p[j]? = some x) (hy : xi[k]? = some y) (hv : g[k * p.length + j]? = some v) :
    m.eval linearSpline x (if fl = true then -y else y) = .num v := by
  obtain ⟨hg, g1, g2, g3, g4, ht, hl, hf⟩ := (C59_accepts_iff _ _ _ _).mp hm
  obtain ⟨_, _, e1, e2, l1, l2⟩ := increasing_ends hg.incP hx
  obtain ⟨_, _, e3, e4, l3, l4⟩ := increasing_ends hg.incXi hy
  rw [g1] at e1; rw [g2] at e2; rw [g3] at e3; rw [g4] at e4
  obtain rfl := Option.some.inj e1
  obtain rfl := Option.some.inj e2
  obtain rfl := Option.some.inj e3
  obtain rfl := Option.some.inj e4
  have ey : (if fl = true then -(if fl = true then -y else y) else (if fl = true then -y else y)) = y := by split <;> simp
  rw [C59_inside linearSpline m x _ ⟨l1, l2, by rw [hf, ey]; exact l3, by rw [hf, ey]; exact l4⟩, ht, hl, hf, ey,
    linear_node p xi g 0 hg j k x y v hx hy hv]
  rfl

/-- **C117** The assumption of C115 holds for linear interpolation. -/
theorem C117_table_exact : TableExact linearSpline 0 := fun p xi f j k x y v hg hx hy hv =>
  linear_node p xi f 0 hg.gsl k j x y v hx hy hv

/-! ### logarithms -/

/-- Minus infinity or not a number. -/
def NoNumber (z : FV) : Prop := z = .nan ∨ z = .negInf

theorem noNumber_times {w : ℝ} : NoNumber (FV.times w .negInf) := by
  simp only [FV.times]
  split
  · exact Or.inr rfl
  · exact Or.inl rfl

theorem noNumber_left {a b : FV} (h : NoNumber a) : NoNumber (a.plus b) := by
  rcases h with rfl | rfl <;> cases b <;> simp [FV.plus, NoNumber]

theorem noNumber_right {a b : FV} (h : NoNumber b) : NoNumber (a.plus b) := by
  rcases h with rfl | rfl <;> cases a <;> simp [FV.plus, NoNumber]

theorem noNumber_unlog {a : FV} (h : NoNumber a) : unlog true a = .num 0 := by
  rcases h with rfl | rfl <;> rfl

/-- The cell that is used: the last one that begins at or before the point. -/
structure UsedCell (xs : List ℝ) (x : ℝ) (k : Nat) (x0 x1 : ℝ) : Prop where
  lower : xs[k]? = some x0
  upper : xs[k + 1]? = some x1
  ge : x0 ≤ x
  le : x < x1 ∨ (x = x1 ∧ k + 2 = xs.length)

theorem usedCell_found {xs : List ℝ} (h2 : 2 ≤ xs.length) (hinc : xs.Pairwise (· < ·)) {x x0 x1 : ℝ} {k : Nat}
    (h : UsedCell xs x k x0 x1) : Magnetic.cellOf xs x = k := by
  have hle : x ≤ x1 := by rcases h.le with h | h <;> [exact h.le; exact h.1.le]
  rcases cell_unique h2 hinc h.lower h.upper h.ge hle with e | ⟨e, ex⟩
  · exact e
  · exfalso
    rcases h.le with h' | ⟨-, h'⟩
    · linarith
    · obtain ⟨a, b, ha, hb, -, -⟩ := cellOf_spec xs x h2
      have := (List.getElem?_eq_some_iff.1 hb).1
      omega

/-- The value of the spline in the cell that is used, whatever the corners are. -/
theorem linear_used (t : Table) (hg : GslTable t) (x y : ℝ) (k l : Nat) (x0 x1 y0 y1 : ℝ) (z00 z10 z01 z11 : FV)
    (hx : UsedCell t.p x k x0 x1) (hy : UsedCell t.xi y l y0 y1)
    (e00 : t.f[l * t.p.length + k]? = some z00) (e10 : t.f[l * t.p.length + (k + 1)]? = some z10)
    (e01 : t.f[(l + 1) * t.p.length + k]? = some z01) (e11 : t.f[(l + 1) * t.p.length + (k + 1)]? = some z11) :
    linearSpline t x y = (((FV.times ((1 - (x - x0) / (x1 - x0)) * (1 - (y - y0) / (y1 - y0))) z00).plus
      (FV.times ((x - x0) / (x1 - x0) * (1 - (y - y0) / (y1 - y0))) z10)).plus
      (FV.times ((1 - (x - x0) / (x1 - x0)) * ((y - y0) / (y1 - y0))) z01)).plus
      (FV.times ((x - x0) / (x1 - x0) * ((y - y0) / (y1 - y0))) z11) := by
  obtain ⟨lp, lxi⟩ := gslTable_two hg
  simp only [linearSpline, usedCell_found lp hg.incP hx, usedCell_found lxi hg.incXi hy, hx.lower, hx.upper, hy.lower, hy.upper, e00, e10,
    e01, e11]

/-- **C117** In a cell with a corner that is not a number the value is not a number. -/
theorem C117_nan (t : Table) (hg : GslTable t) (x y : ℝ) (k l : Nat) (x0 x1 y0 y1 : ℝ) (z00 z10 z01 z11 : FV)
    (hx : UsedCell t.p x k x0 x1) (hy : UsedCell t.xi y l y0 y1)
    (e00 : t.f[l * t.p.length + k]? = some z00) (e10 : t.f[l * t.p.length + (k + 1)]? = some z10)
    (e01 : t.f[(l + 1) * t.p.length + k]? = some z01) (e11 : t.f[(l + 1) * t.p.length + (k + 1)]? = some z11)
    (h : z00 = .nan ∨ z10 = .nan ∨ z01 = .nan ∨ z11 = .nan) : linearSpline t x y = .nan := by
  rw [linear_used t hg x y k l x0 x1 y0 y1 _ _ _ _ hx hy e00 e10 e01 e11]
  have tn : ∀ w, FV.times w .nan = .nan := fun w => rfl
  have pl : ∀ z, FV.plus .nan z = .nan := fun z => by cases z <;> rfl
  have pr : ∀ z, FV.plus z .nan = .nan := fun z => by cases z <;> rfl
  rcases h with rfl | rfl | rfl | rfl <;> simp only [tn, pl, pr]

/-- **C117** (logarithms) In the cell that is used, a logarithmic distribution is the weighted geometric mean of the values at the
corners if these are positive, and zero if one of them is zero, also at the other corners. -/
theorem C117_log_cell (p xi f : List ℝ) (m : NMom) (hm : NMom.initializeLog p xi f 0 = .ok m) (x y : ℝ) (k l : Nat)
    (x0 x1 y0 y1 v00 v10 v01 v11 : ℝ) (hx : UsedCell p x k x0 x1) (hy : UsedCell xi y l y0 y1)
    (e00 : f[l * p.length + k]? = some v00) (e10 : f[l * p.length + (k + 1)]? = some v10)
    (e01 : f[(l + 1) * p.length + k]? = some v01) (e11 : f[(l + 1) * p.length + (k + 1)]? = some v11) :
    (0 < v00 → 0 < v10 → 0 < v01 → 0 < v11 → m.eval linearSpline x y =
      .num (v00 ^ ((x1 - x) * (y1 - y) / ((x1 - x0) * (y1 - y0))) * v10 ^ ((x - x0) * (y1 - y) / ((x1 - x0) * (y1 - y0))) *
        v01 ^ ((x1 - x) * (y - y0) / ((x1 - x0) * (y1 - y0))) * v11 ^ ((x - x0) * (y - y0) / ((x1 - x0) * (y1 - y0))))) ∧
    (v00 = 0 ∨ v10 = 0 ∨ v01 = 0 ∨ v11 = 0 → m.eval linearSpline x y = .num 0) := by
  simp only [NMom.initializeLog] at hm
  split at hm
  · cases hm
  obtain ⟨hg, g1, g2, g3, g4, ht, hl, hf⟩ := (C59_accepts_iff _ _ _ _).mp hm
  have hxle : x ≤ x1 := by rcases hx.le with h | h <;> [exact h.le; exact h.1.le]
  have hyle : y ≤ y1 := by rcases hy.le with h | h <;> [exact h.le; exact h.1.le]
  have hrect := cell_rectangle hm hx.lower hx.upper hy.lower hy.upper hx.ge hxle hy.ge hyle
  rw [if_neg (by simp)] at hrect
  have dx := increasing_lt hg.incP hx.lower hx.upper (by omega)
  have dy := increasing_lt hg.incXi hy.lower hy.upper (by omega)
  have val : ∀ i j w, f[j * p.length + i]? = some w → (f.map logFV)[j * p.length + i]? = some (logFV w) := by
    intro i j w h; rw [List.getElem?_map, h]; rfl
  rw [C59_inside linearSpline m x y hrect, ht, hl, hf, if_neg (by simp), linear_used _ hg x y k l x0 x1 y0 y1 _ _ _ _ hx hy
    (val _ _ _ e00) (val _ _ _ e10) (val _ _ _ e01) (val _ _ _ e11)]
  constructor
  · intro p00 p10 p01 p11
    simp only [logFV, if_neg (ne_of_gt p00), if_neg (ne_of_gt p10), if_neg (ne_of_gt p01), if_neg (ne_of_gt p11), FV.times, FV.plus, unlog]
    congr 1
    have q1 : x1 - x0 ≠ 0 := by intro h; linarith
    have q2 : y1 - y0 ≠ 0 := by intro h; linarith
    rw [Real.rpow_def_of_pos p00, Real.rpow_def_of_pos p10, Real.rpow_def_of_pos p01, Real.rpow_def_of_pos p11, ← Real.exp_add,
      ← Real.exp_add, ← Real.exp_add]
    congr 1
    field_simp
    ring
  · have zl : logFV 0 = .negInf := by simp [logFV]
    rintro (rfl | rfl | rfl | rfl) <;> rw [zl] <;> apply noNumber_unlog
    · exact noNumber_left (noNumber_left (noNumber_left noNumber_times))
    · exact noNumber_left (noNumber_left (noNumber_right noNumber_times))
    · exact noNumber_left (noNumber_right noNumber_times)
    · exact noNumber_right noNumber_times

/-- **C117** (logarithms) If all values are positive the nodes have the stored values. -/
theorem C117_log_node_partial (p xi f : List ℝ) (m : NMom) (hm : NMom.initializeLog p xi f 0 = .ok m) (hpos : ∀ v ∈ f, 0 < v) (j k : Nat)
    (x y v : ℝ) (hx : p[j]? = some x) (hy : xi[k]? = some y) (hv : f[k * p.length + j]? = some v) :
    m.eval linearSpline x y = .num v := by
  simp only [NMom.initializeLog] at hm
  split at hm
  · cases hm
  have e : f.map logFV = (f.map Real.log).map FV.num := by
    rw [List.map_map]
    refine List.map_congr_left fun w hw => ?_
    simp [logFV, ne_of_gt (hpos w hw)]
  rw [e] at hm
  obtain ⟨hg, g1, g2, g3, g4, ht, hl, hf⟩ := (C59_accepts_iff _ _ _ _).mp hm
  obtain ⟨_, _, e1, e2, l1, l2⟩ := increasing_ends hg.incP hx
  obtain ⟨_, _, e3, e4, l3, l4⟩ := increasing_ends hg.incXi hy
  rw [g1] at e1; rw [g2] at e2; rw [g3] at e3; rw [g4] at e4
  obtain rfl := Option.some.inj e1
  obtain rfl := Option.some.inj e2
  obtain rfl := Option.some.inj e3
  obtain rfl := Option.some.inj e4
  rw [C59_inside linearSpline m x y ⟨l1, l2, by rw [hf, if_neg (by simp)]; exact l3, by rw [hf, if_neg (by simp)]; exact l4⟩, ht, hl, hf,
    if_neg (by simp), linear_node p xi _ 0 hg j k x y (Real.log v) hx hy (by rw [List.getElem?_map, hv]; rfl)]
  simp only [unlog, Real.exp_log (hpos v (List.mem_of_getElem? hv))]

/-- **C117** (refuted for logarithms) A node whose neighbour at the next momentum has the value zero has the value zero, whatever is
stored there. -/
theorem C117_refuted_log (p xi f : List ℝ) (m : NMom) (hm : NMom.initializeLog p xi f 0 = .ok m) (j k : Nat) (x y : ℝ)
    (hx : p[j]? = some x) (hy : xi[k]? = some y) (hj : j + 1 < p.length) (hk : k + 1 < xi.length)
    (h0 : f[k * p.length + (j + 1)]? = some 0) : m.eval linearSpline x y = .num 0 := by
  have hm' := hm
  simp only [NMom.initializeLog] at hm
  split at hm
  · cases hm
  have hg := ((C59_accepts_iff _ _ _ _).mp hm).1
  have cor : ∀ i j, i < p.length → j < xi.length → ∃ w, f[j * p.length + i]? = some w := by
    intro i j hi hj
    obtain ⟨z, hz⟩ := corner_some hg hi hj
    simp only [List.getElem?_map, Option.map_eq_some_iff] at hz
    obtain ⟨w, hw, -⟩ := hz
    exact ⟨w, hw⟩
  have ux : UsedCell p x j x p[j + 1] :=
    ⟨hx, List.getElem?_eq_getElem hj, le_rfl, Or.inl (increasing_lt hg.incP hx (List.getElem?_eq_getElem hj) (by omega))⟩
  have uy : UsedCell xi y k y xi[k + 1] :=
    ⟨hy, List.getElem?_eq_getElem hk, le_rfl, Or.inl (increasing_lt hg.incXi hy (List.getElem?_eq_getElem hk) (by omega))⟩
  obtain ⟨v00, e00⟩ := cor j k (by omega) (by omega)
  obtain ⟨v01, e01⟩ := cor j (k + 1) (by omega) (by omega)
  obtain ⟨v11, e11⟩ := cor (j + 1) (k + 1) (by omega) (by omega)
  exact (C117_log_cell p xi f m hm' x y j k _ _ _ _ v00 0 v01 v11 ux uy e00 h0 e01 e11).2 (Or.inr (Or.inl rfl))

/-- The value 1 is stored at (1, 0), and 0 at (2, 0). -/
example : ∃ m, NMom.initializeLog [1, 2] [0, 1] [1, 0, 1, 1] 0 = .ok m ∧ m.eval linearSpline 1 0 = .num 0 := by
  have e : ([1, 0, 1, 1] : List ℝ).any (fun x => decide (x < 0)) = false := by norm_num
  have h : NMom.initializeLog [1, 2] [0, 1] [1, 0, 1, 1] 0 =
      .ok ⟨⟨[1, 2], [0, 1], [1, 0, 1, 1].map logFV, 0⟩, 1, 2, 0, 1, true, false⟩ := by
    simp only [NMom.initializeLog, e, Bool.false_eq_true, if_false]
    exact (C59_accepts_iff _ _ _ _).mpr ⟨⟨by simp, by simp, by norm_num, by norm_num, by simp⟩, rfl, rfl, rfl, rfl, rfl, rfl, rfl⟩
  exact ⟨_, h, C117_refuted_log _ _ _ _ h 0 0 1 0 rfl rfl (by simp) (by simp) rfl⟩

/-- **C117** The assumptions of C92 hold for linear interpolation. -/
theorem C117_reproduces : Reproduces linearSpline where
  numbers p xi g it j k a b w hg ha hb hw := linear_node p xi g it hg j k a b w ha hb hw
  infinite t j k a b hg ha hb hw := by
    obtain ⟨lp, lxi⟩ := gslTable_two hg
    have hj := (List.getElem?_eq_some_iff.1 ha).1
    have hk := (List.getElem?_eq_some_iff.1 hb).1
    obtain ⟨x0, x1, a1, a2, a3⟩ : ∃ x0 x1, UsedCell t.p a (if j + 1 < t.p.length then j else j - 1) x0 x1 ∧
        (j + 1 < t.p.length ∨ j = j - 1 + 1) ∧ True := by
      split
      · rename_i h
        exact ⟨a, t.p[j + 1], ⟨ha, List.getElem?_eq_getElem h, le_rfl,
          Or.inl (increasing_lt hg.incP ha (List.getElem?_eq_getElem h) (by omega))⟩, Or.inl h, trivial⟩
      · have e : j - 1 + 1 = j := by omega
        refine ⟨t.p[j - 1], a, ⟨List.getElem?_eq_getElem (by omega), by rw [e]; exact ha,
          le_of_lt (increasing_lt hg.incP (List.getElem?_eq_getElem (by omega)) ha (by omega)), Or.inr ⟨rfl, by omega⟩⟩,
          Or.inr e.symm, trivial⟩
    obtain ⟨y0, y1, b1, b2, b3⟩ : ∃ y0 y1, UsedCell t.xi b (if k + 1 < t.xi.length then k else k - 1) y0 y1 ∧
        (k + 1 < t.xi.length ∨ k = k - 1 + 1) ∧ True := by
      split
      · rename_i h
        exact ⟨b, t.xi[k + 1], ⟨hb, List.getElem?_eq_getElem h, le_rfl,
          Or.inl (increasing_lt hg.incXi hb (List.getElem?_eq_getElem h) (by omega))⟩, Or.inl h, trivial⟩
      · have e : k - 1 + 1 = k := by omega
        refine ⟨t.xi[k - 1], b, ⟨List.getElem?_eq_getElem (by omega), by rw [e]; exact hb,
          le_of_lt (increasing_lt hg.incXi (List.getElem?_eq_getElem (by omega)) hb (by omega)), Or.inr ⟨rfl, by omega⟩⟩,
          Or.inr e.symm, trivial⟩
    have l1 := (List.getElem?_eq_some_iff.1 a1.upper).1
    have l2 := (List.getElem?_eq_some_iff.1 b1.upper).1
    generalize hn : (if j + 1 < t.p.length then j else j - 1) = n at *
    generalize hn' : (if k + 1 < t.xi.length then k else k - 1) = n' at *
    obtain ⟨z00, e00⟩ := corner_some hg (k := n) (l := n') (by omega) (by omega)
    obtain ⟨z10, e10⟩ := corner_some hg (k := n + 1) (l := n') (by omega) (by omega)
    obtain ⟨z01, e01⟩ := corner_some hg (k := n) (l := n' + 1) (by omega) (by omega)
    obtain ⟨z11, e11⟩ := corner_some hg (k := n + 1) (l := n' + 1) (by omega) (by omega)
    have c : (j = n ∨ j = n + 1) ∧ (k = n' ∨ k = n' + 1) := by
      constructor
      · split at hn <;> omega
      · split at hn' <;> omega
    have fin : NoNumber (linearSpline t a b) := by
      rw [linear_used t hg a b n n' x0 x1 y0 y1 z00 z10 z01 z11 a1 b1 e00 e10 e01 e11]
      rcases c with ⟨c1 | c1, c2 | c2⟩ <;> rw [c1, c2] at hw
      · rw [e00] at hw; obtain rfl := Option.some.inj hw
        exact noNumber_left (noNumber_left (noNumber_left noNumber_times))
      · rw [e01] at hw; obtain rfl := Option.some.inj hw
        exact noNumber_left (noNumber_right noNumber_times)
      · rw [e10] at hw; obtain rfl := Option.some.inj hw
        exact noNumber_left (noNumber_left (noNumber_right noNumber_times))
      · rw [e11] at hw; obtain rfl := Option.some.inj hw
        exact noNumber_right noNumber_times
    exact fin.symm

/-! ### tables that are not accepted -/

/-- **C117** What happens to a table that is not accepted (nonempty grids, any interpolation): the exception if and only if the ends of
a grid are in the wrong order; otherwise the program is aborted if there are too few points or a grid is not strictly increasing. -/
theorem C117_outcomes (t : Table) (l fl : Bool) (p0 p1 x0 x1 : ℝ) (h1 : t.p.head? = some p0) (h2 : t.p.getLast? = some p1)
    (h3 : t.xi.head? = some x0) (h4 : t.xi.getLast? = some x1) :
    (NMom.initialize t l fl = .throws ↔ p1 < p0 ∨ x1 < x0) ∧
    (NMom.initialize t l fl = .aborts ↔ p0 ≤ p1 ∧ x0 ≤ x1 ∧ (t.p.length < (if t.interp = 0 then 2 else 4) ∨
      t.xi.length < (if t.interp = 0 then 2 else 4) ∨ ¬ t.p.Pairwise (· < ·) ∨ ¬ t.xi.Pairwise (· < ·))) := by
  rw [show (if t.interp = 0 then 2 else 4) = gslLeast t.interp from rfl]
  simp only [NMom.initialize, h1, h2, h3, h4]
  by_cases c1 : p0 > p1
  · simp [c1]
  · by_cases c2 : x0 > x1
    · simp [c2]
    · rw [if_neg c1, if_neg c2]
      have d1 := not_lt.mp c1
      have d2 := not_lt.mp c2
      simp only [d1, d2, true_and, not_lt.mpr d1, not_lt.mpr d2, or_self, iff_false]
      by_cases c3 : t.p.length < gslLeast t.interp ∨ t.xi.length < gslLeast t.interp ∨ ¬ t.p.Pairwise (· < ·) ∨ ¬ t.xi.Pairwise (· < ·)
      · rw [if_pos c3]; exact ⟨by simp, iff_of_true rfl c3⟩
      · rw [if_neg c3]
        split
        · exact ⟨by simp, iff_of_false (by simp) c3⟩
        · exact ⟨by simp, iff_of_false (by simp) c3⟩

/-- **C117** (refuted: every grid that is not increasing is reported with the exception) A grid with its ends in order but not
increasing, or with one point, aborts the program. -/
theorem C117_refuted_abort : NMom.initialize ⟨[1, 3, 2, 4], [0, 1], [], 0⟩ false false = .aborts ∧
    NMom.initialize ⟨[1], [0, 1], [.num 1, .num 1], 0⟩ false false = .aborts := by
  constructor
  · exact (C117_outcomes _ false false 1 4 0 1 rfl rfl rfl rfl).2.mpr ⟨by norm_num, by norm_num, Or.inr (Or.inr (Or.inl (by norm_num)))⟩
  · exact (C117_outcomes _ false false 1 1 0 1 rfl rfl rfl rfl).2.mpr ⟨by norm_num, by norm_num, Or.inl (by simp)⟩

/-- **C92** (refuted for zeros) Made from the values 1, 0, 1, 1 on a two by two grid by `InitializeLog`, with linear interpolation, the
distribution is 0 at the first node, not 1. -/
theorem C92_refuted_zero : ∃ d after m, initializeLog false [5, 6] [1, 2] [0, 1] ([1, 0, 1, 1, 1, 1, 1, 1].map .num) 0 = .ok (d, after) ∧
    d.msdf[0]? = some m ∧ m.eval linearSpline 1 0 = .num 0 := by
  obtain ⟨d, after, h⟩ := C92_initialize_succeeds false [5, 6] [1, 2] [0, 1] ([1, 0, 1, 1, 1, 1, 1, 1].map .num) 0 (by norm_num) (by simp)
    (by norm_num) (by simp) (by norm_num) (by simp) (by simp) (Or.inl rfl)
  have h' := h
  unfold initializeLog at h'
  split at h'
  · cases h'
  split at h'
  · cases h'
  split at h'
  · cases h'
  · cases h'
  split at h'
  · cases h'
  · cases h'
  · cases h'
  rename_i ms hms
  simp only [GRes.ok.injEq, Prod.mk.injEq] at h'
  obtain ⟨rfl, rfl⟩ := h'
  obtain ⟨-, h2⟩ := initSlices_ok [1, 2] [0, 1] 0 _ ms hms
  have hc : ∀ w : ℝ, 0 ≤ w → clampLog (.num w) = logFV w := by
    intro w hw
    simp only [clampLog, logFV]
    rcases hw.lt_or_eq with h | h
    · rw [if_neg (not_le.mpr h), if_neg (ne_of_gt h)]
    · rw [if_pos (le_of_eq h.symm), if_pos h.symm]
  obtain ⟨m, hm, hmi⟩ := h2 0 ([1, 0, 1, 1].map logFV) (by
    simp [slicesOf, hc 1 zero_le_one, hc 0 le_rfl])
  refine ⟨_, _, m.setLog, h, hmi, ?_⟩
  obtain ⟨hg, g1, g2, g3, g4, ht, hl, hf⟩ := (C59_accepts_iff _ _ _ _).mp hm
  have hlog : NMom.initializeLog [1, 2] [0, 1] [1, 0, 1, 1] 0 = .ok m.setLog := by
    have e : ([1, 0, 1, 1] : List ℝ).any (fun x => decide (x < 0)) = false := by norm_num
    simp only [NMom.initializeLog, e, Bool.false_eq_true, if_false]
    exact (C59_accepts_iff _ _ _ _).mpr ⟨hg, g1, g2, g3, g4, ht, rfl, hf⟩
  exact C117_refuted_log _ _ _ _ hlog 0 0 1 0 rfl rfl (by simp) (by simp) rfl

end

end Softlib
