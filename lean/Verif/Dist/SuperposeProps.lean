/-
C160: sums, products and units of tabulated distributions with linear interpolation.

Source: /repo/src/DistributionFunction/NumericMomentumSpaceDistributionFunction.cpp 26-49 (`Eval`), 63-98 (`Initialize`), 114-130
(`InitializeLog`), by the models `NMom` of C59 and `linearSpline` of C117.
-/
import Verif.Dist.LinearProps

namespace Softlib

open Dist

noncomputable section

/-- The same object with other values in its table. -/
def withValues (m : NMom) (p xi : List ℝ) (f : List FV) : NMom := { m with table := ⟨p, xi, f, 0⟩ }

theorem init_other {p xi : List ℝ} {f f' : List FV} {l fl : Bool} {m : NMom} (h : NMom.initialize ⟨p, xi, f, 0⟩ l fl = .ok m)
    (hs : p.length * xi.length ≤ f'.length) : NMom.initialize ⟨p, xi, f', 0⟩ l fl = .ok (withValues m p xi f') := by
  obtain ⟨hg, g1, g2, g3, g4, ht, hl, hf⟩ := (C59_accepts_iff _ _ _ _).mp h
  exact (C59_accepts_iff _ _ _ _).mpr ⟨⟨hg.leastP, hg.leastXi, hg.incP, hg.incXi, hs⟩, g1, g2, g3, g4, rfl, hl, hf⟩

theorem init_values {p xi : List ℝ} {f f' : List FV} {l fl : Bool} {m m' : NMom} (h : NMom.initialize ⟨p, xi, f, 0⟩ l fl = .ok m)
    (h' : NMom.initialize ⟨p, xi, f', 0⟩ l fl = .ok m') : m' = withValues m p xi f' := by
  have := init_other h ((C59_accepts_iff _ _ _ _).mp h').1.size
  rw [h'] at this
  exact MRes.ok.inj this

/-- The value is a mean of four values of the table with weights that do not depend on the values, or it is zero whatever the values. -/
theorem eval_weights {p xi g : List ℝ} {lg fl : Bool} {m : NMom} (hm : NMom.initialize ⟨p, xi, g.map .num, 0⟩ lg fl = .ok m) (x y : ℝ) :
    (∃ (i1 i2 i3 i4 : ℕ) (w1 w2 w3 w4 : ℝ), i1 < p.length * xi.length ∧ i2 < p.length * xi.length ∧ i3 < p.length * xi.length ∧
      i4 < p.length * xi.length ∧ w1 + w2 + w3 + w4 = 1 ∧ ∀ g' : List ℝ, p.length * xi.length ≤ g'.length →
        (withValues m p xi (g'.map .num)).eval linearSpline x y = unlog lg (.num (w1 * g'.getD i1 0 + w2 * g'.getD i2 0 +
          w3 * g'.getD i3 0 + w4 * g'.getD i4 0))) ∨
    ∀ f' : List FV, (withValues m p xi f').eval linearSpline x y = .num 0 := by
  by_cases hin : InRectangle m x y
  · left
    obtain ⟨hg, g1, g2, g3, g4, ht, hl, hf⟩ := (C59_accepts_iff _ _ _ _).mp hm
    have hyy : (if fl = true then -(if fl = true then -y else y) else (if fl = true then -y else y)) = y := by split <;> simp
    have hin' : InRectangle m x (if fl = true then -(if fl = true then -y else y) else (if fl = true then -y else y)) := by rw [hyy]; exact hin
    obtain ⟨k, n, x0, x1, y0, y1, a1, a2, b1, b2, h1, h2, h3, h4⟩ := rectangle_cell hm (y := if fl = true then -y else y) hin'
    have dx := increasing_lt hg.incP a1 a2 (by omega)
    have dy := increasing_lt hg.incXi b1 b2 (by omega)
    have hk : k + 1 < p.length := (List.getElem?_eq_some_iff.1 a2).1
    have hn : n + 1 < xi.length := (List.getElem?_eq_some_iff.1 b2).1
    have bound : ∀ i j, i < p.length → j < xi.length → j * p.length + i < p.length * xi.length := by
      intro i j hi hj
      calc j * p.length + i < j * p.length + p.length := by omega
        _ = (j + 1) * p.length := by ring
        _ ≤ xi.length * p.length := Nat.mul_le_mul_right _ hj
        _ = _ := mul_comm _ _
    set Y := if fl = true then -y else y with hY
    set D := (x1 - x0) * (y1 - y0) with hD
    have hD0 : D ≠ 0 := mul_ne_zero (by linarith [dx]) (by linarith [dy])
    refine ⟨n * p.length + k, n * p.length + (k + 1), (n + 1) * p.length + k, (n + 1) * p.length + (k + 1),
      (x1 - x) * (y1 - Y) / D, (x - x0) * (y1 - Y) / D, (x1 - x) * (Y - y0) / D, (x - x0) * (Y - y0) / D,
      bound _ _ (by omega) (by omega), bound _ _ (by omega) (by omega), bound _ _ (by omega) (by omega), bound _ _ (by omega) (by omega), ?_, ?_⟩
    · rw [← add_div, ← add_div, ← add_div, div_eq_one_iff_eq hD0, hD]; ring
    · intro g' hs
      have hg' : GslTable ⟨p, xi, g'.map .num, 0⟩ := ⟨hg.leastP, hg.leastXi, hg.incP, hg.incXi, by simpa using hs⟩
      have get : ∀ i, i < p.length * xi.length → g'[i]? = some (g'.getD i 0) := by
        intro i hi
        rw [List.getD_eq_getElem?_getD, List.getElem?_eq_getElem (by omega)]; rfl
      have hin2 : InRectangle (withValues m p xi (g'.map .num)) x y := hin
      rw [C59_inside linearSpline _ x y hin2]
      show unlog m.logarithmic (linearSpline ⟨p, xi, g'.map .num, 0⟩ x (if m.flip = true then -y else y)) = _
      rw [hl, hf, ← hY, linear_numbers p xi g' 0 hg' x Y k n x0 x1 y0 y1 _ _ _ _ a1 a2 b1 b2 h1 h2 h3 h4 (get _ (bound _ _ (by omega) (by omega)))
        (get _ (bound _ _ (by omega) (by omega))) (get _ (bound _ _ (by omega) (by omega))) (get _ (bound _ _ (by omega) (by omega)))]
      unfold Bilinear
      congr 2
      rw [← hD]
      ring
  · right
    intro f'
    exact C59_outside linearSpline _ x y hin

theorem getD_zip (h : ℝ → ℝ → ℝ) (a b : List ℝ) (i : ℕ) (ha : i < a.length) (hb : i < b.length) :
    (List.zipWith h a b).getD i 0 = h (a.getD i 0) (b.getD i 0) := by
  simp [List.getD_eq_getElem?_getD, List.getElem?_zipWith, List.getElem?_eq_getElem ha, List.getElem?_eq_getElem hb]

/-- C160, sums: the distribution of the values `a f + b g` is `a` times that of `f` plus `b` times that of `g`, at all momenta and pitches,
inside and outside the tables, with the sign of the pitch flipped or not. -/
theorem C160_sum (p xi f g : List ℝ) (fl : Bool) (mf mg : NMom) (a b : ℝ) (hf : NMom.initialize ⟨p, xi, f.map .num, 0⟩ false fl = .ok mf)
    (hg : NMom.initialize ⟨p, xi, g.map .num, 0⟩ false fl = .ok mg) :
    ∃ m, NMom.initialize ⟨p, xi, (List.zipWith (fun u v => a * u + b * v) f g).map .num, 0⟩ false fl = .ok m ∧
      ∀ x y, ∃ u v, mf.eval linearSpline x y = .num u ∧ mg.eval linearSpline x y = .num v ∧ m.eval linearSpline x y = .num (a * u + b * v) := by
  have sf : p.length * xi.length ≤ f.length := by simpa using ((C59_accepts_iff _ _ _ _).mp hf).1.size
  have sg : p.length * xi.length ≤ g.length := by simpa using ((C59_accepts_iff _ _ _ _).mp hg).1.size
  have sz : p.length * xi.length ≤ (List.zipWith (fun u v => a * u + b * v) f g).length := by rw [List.length_zipWith]; exact le_min sf sg
  refine ⟨_, init_other hf (by simpa using le_min sf sg), fun x y => ?_⟩
  have ef := init_values hf hf
  have eg := init_values hf hg
  rw [eg]
  rcases eval_weights hf x y with ⟨i1, i2, i3, i4, w1, w2, w3, w4, k1, k2, k3, k4, -, h⟩ | h
  · refine ⟨_, _, by rw [ef]; exact h f sf, h g sg, ?_⟩
    rw [h _ sz, getD_zip _ _ _ _ (by omega) (by omega), getD_zip _ _ _ _ (by omega) (by omega), getD_zip _ _ _ _ (by omega) (by omega),
      getD_zip _ _ _ _ (by omega) (by omega)]
    simp only [unlog]
    congr 1
    ring
  · refine ⟨0, 0, by rw [ef]; exact h _, h _, ?_⟩
    rw [h]; simp

theorem log_numbers {f : List ℝ} (hpos : ∀ v ∈ f, 0 < v) : f.map logFV = (f.map Real.log).map FV.num := by
  rw [List.map_map]
  refine List.map_congr_left fun w hw => ?_
  simp [logFV, ne_of_gt (hpos w hw)]

theorem initLog_iff {p xi f : List ℝ} (hpos : ∀ v ∈ f, 0 < v) (m : NMom) :
    NMom.initializeLog p xi f 0 = .ok m ↔ NMom.initialize ⟨p, xi, (f.map Real.log).map .num, 0⟩ true false = .ok m := by
  unfold NMom.initializeLog
  rw [if_neg, log_numbers hpos]
  rw [List.any_eq_true]
  rintro ⟨v, hv, h⟩
  have := hpos v hv
  simp only [decide_eq_true_eq] at h
  linarith

theorem initLog_parts {p xi f : List ℝ} {m : NMom} (h : NMom.initializeLog p xi f 0 = .ok m) :
    (∀ v ∈ f, 0 ≤ v) ∧ NMom.initialize ⟨p, xi, f.map logFV, 0⟩ true false = .ok m := by
  unfold NMom.initializeLog at h
  split at h
  · cases h
  · rename_i hn
    refine ⟨fun v hv => ?_, h⟩
    by_contra hneg
    exact hn (List.any_eq_true.2 ⟨v, hv, decide_eq_true (not_le.1 hneg)⟩)

/-- Other values that are not negative. -/
theorem initLog_other {p xi f f' : List ℝ} {m : NMom} (h : NMom.initializeLog p xi f 0 = .ok m) (hs : p.length * xi.length ≤ f'.length)
    (h0 : ∀ v ∈ f', 0 ≤ v) : ∃ m', NMom.initializeLog p xi f' 0 = .ok m' := by
  have hi := (initLog_parts h).2
  refine ⟨withValues m p xi (f'.map logFV), ?_⟩
  unfold NMom.initializeLog
  rw [if_neg]
  · exact init_other hi (by simpa using hs)
  · rw [List.any_eq_true]
    rintro ⟨v, hv, hneg⟩
    have := h0 v hv
    simp only [decide_eq_true_eq] at hneg
    linarith

/-- The point is in a cell of the table, or every table with these grids gives zero. -/
theorem log_cell_or {p xi f : List ℝ} {m : NMom} (hm : NMom.initializeLog p xi f 0 = .ok m) (x y : ℝ) :
    (∃ k l x0 x1 y0 y1, UsedCell p x k x0 x1 ∧ UsedCell xi y l y0 y1 ∧ l * p.length + k < p.length * xi.length ∧
      l * p.length + (k + 1) < p.length * xi.length ∧ (l + 1) * p.length + k < p.length * xi.length ∧
      (l + 1) * p.length + (k + 1) < p.length * xi.length) ∨
    ∀ f' m', NMom.initializeLog p xi f' 0 = .ok m' → m'.eval linearSpline x y = .num 0 := by
  have hi := (initLog_parts hm).2
  obtain ⟨hg, g1, g2, g3, g4, ht, hl, hf⟩ := (C59_accepts_iff _ _ _ _).mp hi
  by_cases hin : InRectangle m x y
  · left
    obtain ⟨i1, i2, i3, i4⟩ := hin
    simp only [hf, Bool.false_eq_true, if_false] at i3 i4
    obtain ⟨lp, lxi⟩ := gslTable_two hg
    obtain ⟨x0, x1, a1, a2, a3, a4, -, a5⟩ := cell_found lp hg.incP g1 g2 i1 i2
    obtain ⟨y0, y1, b1, b2, b3, b4, -, b5⟩ := cell_found lxi hg.incXi g3 g4 i3 i4
    have hk : Magnetic.cellOf p x + 1 < p.length := (List.getElem?_eq_some_iff.1 a2).1
    have hn : Magnetic.cellOf xi y + 1 < xi.length := (List.getElem?_eq_some_iff.1 b2).1
    have bound : ∀ i j, i < p.length → j < xi.length → j * p.length + i < p.length * xi.length := by
      intro i j hi hj
      calc j * p.length + i < j * p.length + p.length := by omega
        _ = (j + 1) * p.length := by ring
        _ ≤ xi.length * p.length := Nat.mul_le_mul_right _ hj
        _ = _ := mul_comm _ _
    refine ⟨Magnetic.cellOf p x, Magnetic.cellOf xi y, x0, x1, y0, y1, ⟨a1, a2, a3, ?_⟩, ⟨b1, b2, b3, ?_⟩, bound _ _ (by omega) (by omega), bound _ _ (by omega) (by omega),
      bound _ _ (by omega) (by omega), bound _ _ (by omega) (by omega)⟩
    · rcases lt_or_eq_of_le a4 with h | h
      · exact .inl h
      · rcases a5 with h' | h'
        · exact .inr ⟨h, h'⟩
        · exact .inl h'
    · rcases lt_or_eq_of_le b4 with h | h
      · exact .inl h
      · rcases b5 with h' | h'
        · exact .inr ⟨h, h'⟩
        · exact .inl h'
  · right
    intro f' m' hm'
    have := init_other hi ((C59_accepts_iff _ _ _ _).mp (initLog_parts hm').2).1.size
    rw [(initLog_parts hm').2] at this
    rw [MRes.ok.inj this]
    exact C59_outside linearSpline _ x y hin

/-- C160, products: of distributions tabulated by logarithms, the distribution of the values `f g` is the product of those of `f` and `g`, at
all momenta and pitches, also where values of the tables are zero. -/
theorem C160_product (p xi f g : List ℝ) (mf mg : NMom)
    (hf : NMom.initializeLog p xi f 0 = .ok mf) (hg : NMom.initializeLog p xi g 0 = .ok mg) :
    ∃ m, NMom.initializeLog p xi (List.zipWith (· * ·) f g) 0 = .ok m ∧
      ∀ x y, ∃ u v, mf.eval linearSpline x y = .num u ∧ mg.eval linearSpline x y = .num v ∧ m.eval linearSpline x y = .num (u * v) := by
  have pf := (initLog_parts hf).1
  have pg := (initLog_parts hg).1
  have sf : p.length * xi.length ≤ f.length := by simpa using ((C59_accepts_iff _ _ _ _).mp (initLog_parts hf).2).1.size
  have sg : p.length * xi.length ≤ g.length := by simpa using ((C59_accepts_iff _ _ _ _).mp (initLog_parts hg).2).1.size
  obtain ⟨m, hm⟩ := initLog_other (f' := List.zipWith (· * ·) f g) hf (by rw [List.length_zipWith]; exact le_min sf sg) (by
    intro v hv
    obtain ⟨i, hi, rfl⟩ := List.getElem_of_mem hv
    rw [List.getElem_zipWith]
    exact mul_nonneg (pf _ (List.getElem_mem _)) (pg _ (List.getElem_mem _)))
  refine ⟨m, hm, fun x y => ?_⟩
  rcases log_cell_or hf x y with ⟨k, l, x0, x1, y0, y1, hx, hy, c1, c2, c3, c4⟩ | h
  · have ef : ∀ i, i < p.length * xi.length → f[i]? = some (f.getD i 0) ∧ 0 ≤ f.getD i 0 := by
      intro i hi
      have h1 : i < f.length := by omega
      rw [List.getD_eq_getElem?_getD, List.getElem?_eq_getElem h1]
      exact ⟨rfl, pf _ (List.getElem_mem _)⟩
    have eg : ∀ i, i < p.length * xi.length → g[i]? = some (g.getD i 0) ∧ 0 ≤ g.getD i 0 := by
      intro i hi
      have h1 : i < g.length := by omega
      rw [List.getD_eq_getElem?_getD, List.getElem?_eq_getElem h1]
      exact ⟨rfl, pg _ (List.getElem_mem _)⟩
    have em : ∀ i, i < p.length * xi.length → (List.zipWith (· * ·) f g)[i]? = some (f.getD i 0 * g.getD i 0) := by
      intro i hi
      rw [List.getElem?_zipWith, (ef i hi).1, (eg i hi).1]
    have Lf := C117_log_cell p xi f mf hf x y k l x0 x1 y0 y1 _ _ _ _ hx hy (ef _ c1).1 (ef _ c2).1 (ef _ c3).1 (ef _ c4).1
    have Lg := C117_log_cell p xi g mg hg x y k l x0 x1 y0 y1 _ _ _ _ hx hy (eg _ c1).1 (eg _ c2).1 (eg _ c3).1 (eg _ c4).1
    have Lm := C117_log_cell p xi _ m hm x y k l x0 x1 y0 y1 _ _ _ _ hx hy (em _ c1) (em _ c2) (em _ c3) (em _ c4)
    have f1 := (ef _ c1).2
    have f2 := (ef _ c2).2
    have f3 := (ef _ c3).2
    have f4 := (ef _ c4).2
    have g1 := (eg _ c1).2
    have g2 := (eg _ c2).2
    have g3 := (eg _ c3).2
    have g4 := (eg _ c4).2
    clear em ef eg
    generalize f.getD (l * p.length + k) 0 = a1 at *
    generalize f.getD (l * p.length + (k + 1)) 0 = a2 at *
    generalize f.getD ((l + 1) * p.length + k) 0 = a3 at *
    generalize f.getD ((l + 1) * p.length + (k + 1)) 0 = a4 at *
    generalize g.getD (l * p.length + k) 0 = b1 at *
    generalize g.getD (l * p.length + (k + 1)) 0 = b2 at *
    generalize g.getD ((l + 1) * p.length + k) 0 = b3 at *
    generalize g.getD ((l + 1) * p.length + (k + 1)) 0 = b4 at *
    by_cases za : a1 = 0 ∨ a2 = 0 ∨ a3 = 0 ∨ a4 = 0
    · have hz : m.eval linearSpline x y = .num 0 := Lm.2 (by rcases za with h | h | h | h <;> simp [h])
      by_cases zb : b1 = 0 ∨ b2 = 0 ∨ b3 = 0 ∨ b4 = 0
      · exact ⟨0, 0, Lf.2 za, Lg.2 zb, by rw [hz]; simp⟩
      · push Not at zb
        exact ⟨0, _, Lf.2 za, Lg.1 (g1.lt_of_ne' zb.1) (g2.lt_of_ne' zb.2.1) (g3.lt_of_ne' zb.2.2.1) (g4.lt_of_ne' zb.2.2.2), by rw [hz]; simp⟩
    · push Not at za
      obtain ⟨z1, z2, z3, z4⟩ := za
      have q1 := f1.lt_of_ne' z1
      have q2 := f2.lt_of_ne' z2
      have q3 := f3.lt_of_ne' z3
      have q4 := f4.lt_of_ne' z4
      by_cases zb : b1 = 0 ∨ b2 = 0 ∨ b3 = 0 ∨ b4 = 0
      · have hz : m.eval linearSpline x y = .num 0 := Lm.2 (by rcases zb with h | h | h | h <;> simp [h])
        exact ⟨_, 0, Lf.1 q1 q2 q3 q4, Lg.2 zb, by rw [hz]; simp⟩
      · push Not at zb
        obtain ⟨y1, y2, y3, y4⟩ := zb
        have r1 := g1.lt_of_ne' y1
        have r2 := g2.lt_of_ne' y2
        have r3 := g3.lt_of_ne' y3
        have r4 := g4.lt_of_ne' y4
        refine ⟨_, _, Lf.1 q1 q2 q3 q4, Lg.1 r1 r2 r3 r4, ?_⟩
        rw [Lm.1 (mul_pos q1 r1) (mul_pos q2 r2) (mul_pos q3 r3) (mul_pos q4 r4), Real.mul_rpow q1.le r1.le, Real.mul_rpow q2.le r2.le,
          Real.mul_rpow q3.le r3.le, Real.mul_rpow q4.le r4.le]
        congr 1
        ring
  · exact ⟨0, 0, h _ _ hf, h _ _ hg, by rw [h _ _ hm]; simp⟩

/-- C160, factors: a constant factor in the values of a table of logarithms is a factor of the distribution, also where values are zero. -/
theorem C160_factor (p xi f : List ℝ) (mf : NMom) (c : ℝ) (hc : 0 < c) (hf : NMom.initializeLog p xi f 0 = .ok mf) :
    ∃ m, NMom.initializeLog p xi (f.map (c * ·)) 0 = .ok m ∧
      ∀ x y, ∃ u, mf.eval linearSpline x y = .num u ∧ m.eval linearSpline x y = .num (c * u) := by
  have pf := (initLog_parts hf).1
  have sf : p.length * xi.length ≤ f.length := by simpa using ((C59_accepts_iff _ _ _ _).mp (initLog_parts hf).2).1.size
  obtain ⟨m, hm⟩ := initLog_other (f' := f.map (c * ·)) hf (by simpa using sf) (by
    intro v hv
    obtain ⟨u, hu, rfl⟩ := List.mem_map.1 hv
    exact mul_nonneg hc.le (pf u hu))
  refine ⟨m, hm, fun x y => ?_⟩
  rcases log_cell_or hf x y with ⟨k, l, x0, x1, y0, y1, hx, hy, c1, c2, c3, c4⟩ | h
  · have ef : ∀ i, i < p.length * xi.length → f[i]? = some (f.getD i 0) ∧ 0 ≤ f.getD i 0 := by
      intro i hi
      have h1 : i < f.length := by omega
      rw [List.getD_eq_getElem?_getD, List.getElem?_eq_getElem h1]
      exact ⟨rfl, pf _ (List.getElem_mem _)⟩
    have em : ∀ i, i < p.length * xi.length → (f.map (c * ·))[i]? = some (c * f.getD i 0) := by
      intro i hi
      rw [List.getElem?_map, (ef i hi).1]; rfl
    have Lf := C117_log_cell p xi f mf hf x y k l x0 x1 y0 y1 _ _ _ _ hx hy (ef _ c1).1 (ef _ c2).1 (ef _ c3).1 (ef _ c4).1
    have Lm := C117_log_cell p xi _ m hm x y k l x0 x1 y0 y1 _ _ _ _ hx hy (em _ c1) (em _ c2) (em _ c3) (em _ c4)
    have f1 := (ef _ c1).2
    have f2 := (ef _ c2).2
    have f3 := (ef _ c3).2
    have f4 := (ef _ c4).2
    clear em ef
    generalize f.getD (l * p.length + k) 0 = a1 at *
    generalize f.getD (l * p.length + (k + 1)) 0 = a2 at *
    generalize f.getD ((l + 1) * p.length + k) 0 = a3 at *
    generalize f.getD ((l + 1) * p.length + (k + 1)) 0 = a4 at *
    by_cases za : a1 = 0 ∨ a2 = 0 ∨ a3 = 0 ∨ a4 = 0
    · exact ⟨0, Lf.2 za, by rw [Lm.2 (by rcases za with h | h | h | h <;> simp [h])]; simp⟩
    · push Not at za
      obtain ⟨z1, z2, z3, z4⟩ := za
      have q1 := f1.lt_of_ne' z1
      have q2 := f2.lt_of_ne' z2
      have q3 := f3.lt_of_ne' z3
      have q4 := f4.lt_of_ne' z4
      refine ⟨_, Lf.1 q1 q2 q3 q4, ?_⟩
      rw [Lm.1 (mul_pos hc q1) (mul_pos hc q2) (mul_pos hc q3) (mul_pos hc q4), Real.mul_rpow hc.le q1.le, Real.mul_rpow hc.le q2.le,
        Real.mul_rpow hc.le q3.le, Real.mul_rpow hc.le q4.le]
      obtain ⟨hg, -⟩ := (C59_accepts_iff _ _ _ _).mp (initLog_parts hf).2
      have dx := increasing_lt hg.incP hx.lower hx.upper (by omega)
      have dy := increasing_lt hg.incXi hy.lower hy.upper (by omega)
      have hD : (x1 - x0) * (y1 - y0) ≠ 0 := mul_ne_zero (by linarith) (by linarith)
      have hw : c ^ ((x1 - x) * (y1 - y) / ((x1 - x0) * (y1 - y0))) * c ^ ((x - x0) * (y1 - y) / ((x1 - x0) * (y1 - y0))) *
          c ^ ((x1 - x) * (y - y0) / ((x1 - x0) * (y1 - y0))) * c ^ ((x - x0) * (y - y0) / ((x1 - x0) * (y1 - y0))) = c := by
        rw [← Real.rpow_add hc, ← Real.rpow_add hc, ← Real.rpow_add hc, ← add_div, ← add_div, ← add_div]
        rw [(div_eq_one_iff_eq hD).2 (by ring), Real.rpow_one]
      congr 1
      conv_rhs => rw [← hw]
      ring
  · exact ⟨0, h _ _ hf, by rw [h _ _ hm]; simp⟩

/-- C160, units: with all momenta in another unit, the distribution is the same at the same momentum. -/
theorem C160_units (p xi g : List ℝ) (lg fl : Bool) (m : NMom) (l : ℝ) (hl : 0 < l)
    (hm : NMom.initialize ⟨p, xi, g.map .num, 0⟩ lg fl = .ok m) :
    ∃ m', NMom.initialize ⟨p.map (l * ·), xi, g.map .num, 0⟩ lg fl = .ok m' ∧
      ∀ x y, m'.eval linearSpline (l * x) y = m.eval linearSpline x y := by
  obtain ⟨hg, g1, g2, g3, g4, ht, hlg, hf⟩ := (C59_accepts_iff _ _ _ _).mp hm
  have hg' : GslTable ⟨p.map (l * ·), xi, g.map .num, 0⟩ :=
    ⟨by simpa using hg.leastP, hg.leastXi,
      List.pairwise_map.2 (hg.incP.imp fun h => mul_lt_mul_of_pos_left h hl), hg.incXi, by simpa using hg.size⟩
  have hm' : NMom.initialize ⟨p.map (l * ·), xi, g.map .num, 0⟩ lg fl
      = .ok ⟨⟨p.map (l * ·), xi, g.map .num, 0⟩, l * m.pmin, l * m.pmax, m.ximin, m.ximax, lg, fl⟩ := by
    refine (C59_accepts_iff _ _ _ _).mpr ⟨hg', ?_, ?_, g3, g4, rfl, rfl, rfl⟩
    · have g1' : p.head? = some m.pmin := g1
      simp only [List.head?_map, g1', Option.map_some]
    · have g2' : p.getLast? = some m.pmax := g2
      simp only [List.getLast?_map, g2', Option.map_some]
  refine ⟨_, hm', fun x y => ?_⟩
  have hrect : InRectangle ⟨⟨p.map (l * ·), xi, g.map .num, 0⟩, l * m.pmin, l * m.pmax, m.ximin, m.ximax, lg, fl⟩ (l * x) y ↔
      InRectangle m x y := by
    simp only [InRectangle, hf, mul_le_mul_iff_right₀ hl]
  by_cases hin : InRectangle m x y
  · rw [C59_inside _ _ _ _ (hrect.2 hin), C59_inside _ _ _ _ hin, ht, hlg, hf]
    have hyy : (if fl = true then -(if fl = true then -y else y) else (if fl = true then -y else y)) = y := by split <;> simp
    have hin' : InRectangle m x (if fl = true then -(if fl = true then -y else y) else (if fl = true then -y else y)) := by rw [hyy]; exact hin
    obtain ⟨k, n, x0, x1, y0, y1, a1, a2, b1, b2, h1, h2, h3, h4⟩ := rectangle_cell hm (y := if fl = true then -y else y) hin'
    have a1' : p[k]? = some x0 := a1
    have a2' : p[k + 1]? = some x1 := a2
    have dx := increasing_lt hg.incP a1 a2 (by omega)
    have dy := increasing_lt hg.incXi b1 b2 (by omega)
    have hk : k + 1 < p.length := (List.getElem?_eq_some_iff.1 a2).1
    have hn : n + 1 < xi.length := (List.getElem?_eq_some_iff.1 b2).1
    have hsz : p.length * xi.length ≤ g.length := by simpa using hg.size
    have get : ∀ i j, i < p.length → j < xi.length → ∃ v, g[j * p.length + i]? = some v := by
      intro i j hi hj
      have : j * p.length + i < p.length * xi.length := by
        calc j * p.length + i < j * p.length + p.length := by omega
          _ = (j + 1) * p.length := by ring
          _ ≤ xi.length * p.length := Nat.mul_le_mul_right _ hj
          _ = _ := mul_comm _ _
      exact ⟨_, List.getElem?_eq_getElem (by omega)⟩
    obtain ⟨v1, e1⟩ := get k n (by omega) (by omega)
    obtain ⟨v2, e2⟩ := get (k + 1) n (by omega) (by omega)
    obtain ⟨v3, e3⟩ := get k (n + 1) (by omega) (by omega)
    obtain ⟨v4, e4⟩ := get (k + 1) (n + 1) (by omega) (by omega)
    rw [linear_numbers p xi g 0 hg x _ k n x0 x1 y0 y1 v1 v2 v3 v4 a1 a2 b1 b2 h1 h2 h3 h4 e1 e2 e3 e4,
      linear_numbers (p.map (l * ·)) xi g 0 hg' (l * x) _ k n (l * x0) (l * x1) y0 y1 v1 v2 v3 v4 (by rw [List.getElem?_map, a1']; rfl)
        (by rw [List.getElem?_map, a2']; rfl) b1 b2 (mul_le_mul_of_nonneg_left h1 hl.le) (mul_le_mul_of_nonneg_left h2 hl.le) h3 h4
        (by rw [List.length_map]; exact e1) (by rw [List.length_map]; exact e2) (by rw [List.length_map]; exact e3)
        (by rw [List.length_map]; exact e4)]
    congr 2
    unfold Bilinear
    have q1 : x1 - x0 ≠ 0 := by intro h; linarith
    have q2 : y1 - y0 ≠ 0 := by intro h; linarith
    rw [← mul_sub, ← mul_sub, ← mul_sub]
    field_simp
  · rw [C59_outside _ _ _ _ hin, C59_outside _ _ _ _ (fun h => hin (hrect.1 h))]

/-- C160, logarithms do not add: half way between 1 and 4 a table of logarithms gives 2, so that two opposite tables add to 4, but the table
of the sums, which are 5 everywhere, gives 5. -/
theorem C160_sum_needed : ∃ mf mg m : NMom, NMom.initializeLog [0, 1] [0, 1] [1, 4, 1, 4] 0 = .ok mf ∧
    NMom.initializeLog [0, 1] [0, 1] [4, 1, 4, 1] 0 = .ok mg ∧ NMom.initializeLog [0, 1] [0, 1] [5, 5, 5, 5] 0 = .ok m ∧
    mf.eval linearSpline (1 / 2) 0 = .num 2 ∧ mg.eval linearSpline (1 / 2) 0 = .num 2 ∧ m.eval linearSpline (1 / 2) 0 = .num 5 := by
  have ok : ∀ f : List ℝ, f.length = 4 → (∀ v ∈ f, 0 < v) → ∃ m, NMom.initializeLog [0, 1] [0, 1] f 0 = .ok m := by
    intro f hf hpos
    refine ⟨⟨⟨[0, 1], [0, 1], (f.map Real.log).map .num, 0⟩, 0, 1, 0, 1, true, false⟩, (initLog_iff hpos _).2 ((C59_accepts_iff _ _ _ _).mpr ?_)⟩
    exact ⟨⟨by simp, by simp, by simp, by simp, by simp [hf]⟩, rfl, rfl, rfl, rfl, rfl, rfl, rfl⟩
  obtain ⟨mf, hf⟩ := ok [1, 4, 1, 4] rfl (by intro v hv; simp at hv; rcases hv with rfl | rfl | rfl | rfl <;> norm_num)
  obtain ⟨mg, hg⟩ := ok [4, 1, 4, 1] rfl (by intro v hv; simp at hv; rcases hv with rfl | rfl | rfl | rfl <;> norm_num)
  obtain ⟨m, hm⟩ := ok [5, 5, 5, 5] rfl (by intro v hv; simp at hv; rcases hv with rfl | rfl | rfl | rfl <;> norm_num)
  have hx : UsedCell [0, 1] (1 / 2) 0 0 1 := ⟨rfl, rfl, by norm_num, .inl (by norm_num)⟩
  have hy : UsedCell [0, 1] 0 0 0 1 := ⟨rfl, rfl, le_rfl, .inl (by norm_num)⟩
  have h4 : (4 : ℝ) ^ (1 / 2 : ℝ) = 2 := by
    rw [show (4 : ℝ) = 2 ^ (2 : ℝ) by norm_num, ← Real.rpow_mul (by norm_num)]; norm_num
  have h5 : (5 : ℝ) ^ (1 / 2 : ℝ) * (5 : ℝ) ^ (1 / 2 : ℝ) = 5 := by
    rw [← Real.rpow_add (by norm_num)]; norm_num
  refine ⟨mf, mg, m, hf, hg, hm, ?_, ?_, ?_⟩
  · rw [(C117_log_cell _ _ _ _ hf _ _ 0 0 _ _ _ _ 1 4 1 4 hx hy rfl rfl rfl rfl).1 (by norm_num) (by norm_num) (by norm_num) (by norm_num)]
    norm_num at h4 ⊢
  · rw [(C117_log_cell _ _ _ _ hg _ _ 0 0 _ _ _ _ 4 1 4 1 hx hy rfl rfl rfl rfl).1 (by norm_num) (by norm_num) (by norm_num) (by norm_num)]
    norm_num at h4 ⊢
  · rw [(C117_log_cell _ _ _ _ hm _ _ 0 0 _ _ _ _ 5 5 5 5 hx hy rfl rfl rfl rfl).1 (by norm_num) (by norm_num) (by norm_num) (by norm_num)]
    norm_num at h5 ⊢
    exact h5

/-- A table that the theorems apply to. -/
example : ∃ m, NMom.initialize ⟨[0, 1], [0, 1], ([1, 2, 3, 4] : List ℝ).map .num, 0⟩ false false = .ok m :=
  ⟨⟨⟨[0, 1], [0, 1], ([1, 2, 3, 4] : List ℝ).map .num, 0⟩, 0, 1, 0, 1, false, false⟩, (C59_accepts_iff _ _ _ _).mpr
    ⟨⟨by simp, by simp, by simp, by simp, by simp⟩, rfl, rfl, rfl, rfl, rfl, rfl, rfl⟩⟩

end

end Softlib
