/-
C118: distributions made from values that are not negative.
-/
import Verif.Dist.LinearProps

namespace Softlib

open Dist

noncomputable section

variable {M P : Type}

/-- A position between the first and the last radius lies between two consecutive radii. -/
theorem radius_interval {l : List ℝ} (h2 : 2 ≤ l.length) {x lo hi : ℝ} (hlo : l[0]? = some lo)
    (hhi : l[l.length - 1]? = some hi) (h1 : lo ≤ x) (h3 : x ≤ hi) :
    ∃ k u v, l[k]? = some u ∧ l[k + 1]? = some v ∧ u ≤ x ∧ x ≤ v := by
  have key : ∀ n, n < l.length → ∀ y, l[n]? = some y → x ≤ y → 0 < n →
      ∃ k u v, l[k]? = some u ∧ l[k + 1]? = some v ∧ u ≤ x ∧ x ≤ v := by
    intro n
    induction n with
    | zero => intro _ _ _ _ h; omega
    | succ n ih =>
      intro hn y hy hxy _
      have hn' : n < l.length := by omega
      by_cases c : l[n] ≤ x
      · exact ⟨n, l[n], y, List.getElem?_eq_getElem hn', hy, c, hxy⟩
      · rcases Nat.eq_zero_or_pos n with rfl | hpos
        · exfalso
          rw [List.getElem?_eq_getElem hn'] at hlo
          obtain rfl := Option.some.inj hlo
          exact c h1
        · exact ih hn' l[n] (List.getElem?_eq_getElem hn') (not_le.mp c).le hpos
  exact key (l.length - 1) (by omega) hi hhi h3 (by omega)

/-- A straight line between two values that are not negative is not negative between the points. -/
theorem lineThrough_nonneg {u v f g x : ℝ} (h : u < v) (h1 : u ≤ x) (h2 : x ≤ v) (hf : 0 ≤ f) (hg : 0 ≤ g) :
    0 ≤ lineThrough u v f g x := by
  have e : lineThrough u v f g x = ((v - x) * f + (x - u) * g) / (v - u) := by
    have : v - u ≠ 0 := by intro h; linarith
    unfold lineThrough
    field_simp
    ring
  rw [e]
  have : 0 ≤ v - x := by linarith
  have : 0 ≤ x - u := by linarith
  have : 0 < v - u := by linarith
  positivity

/-- **C118** Between the first and the last radius a distribution is not negative if its momentum distributions are not. -/
theorem C118_inside_partial (ev : M → P → ℝ) (d : NDist M ℝ) (hd : GoodGrid d) (h0 : d.r[0]? ≠ some 0) (r shift : ℝ) (p : P) (lo hi : ℝ)
    (hlo : d.r[0]? = some lo) (hhi : d.r[d.r.length - 1]? = some hi) (h1 : lo ≤ r - shift) (h2 : r - shift ≤ hi)
    (hadm : Admitted d (r - shift)) (hev : ∀ m ∈ d.msdf, 0 ≤ ev m p) : ∃ z, d.eval ev r p shift = .ok z ∧ 0 ≤ z := by
  obtain ⟨k, u, v, hu, hv, a, b⟩ := radius_interval hd.two hlo hhi h1 h2
  have kb := lt_of_getElem? hv
  have hl := hd.len
  refine ⟨_, C56_between_partial ev d hd h0 r shift p k u v (d.msdf[k]'(by omega)) (d.msdf[k + 1]'(by omega)) hu hv
    (List.getElem?_eq_getElem _) (List.getElem?_eq_getElem _) a b hadm, ?_⟩
  exact lineThrough_nonneg (increasing_lt hd.inc hu hv (by omega)) a b (hev _ (List.getElem_mem _)) (hev _ (List.getElem_mem _))

/-- **C118** Below the first radius the value is not negative exactly if the line through the first two values has not gone below zero
on the way. -/
theorem C118_below_iff (ev : M → P → ℝ) (d : NDist M ℝ) (hd : GoodGrid d) (h0 : d.r[0]? ≠ some 0)
    (r shift : ℝ) (p : P) (u v : ℝ) (m n : M) (hu : d.r[0]? = some u) (hv : d.r[1]? = some v)
    (hm : d.msdf[0]? = some m) (hn : d.msdf[1]? = some n) (h : r - shift < u) (hal : d.allow = true) :
    ∃ z, d.eval ev r p shift = .ok z ∧ (0 ≤ z ↔ (ev n p - ev m p) * (u - (r - shift)) ≤ ev m p * (v - u)) := by
  refine ⟨_, C56_below_partial ev d hd h0 r shift p u v m n hu hv hm hn h hal, ?_⟩
  have hlt := increasing_lt hd.inc hu hv (by omega)
  have hd0 : 0 < v - u := by linarith
  have e : lineThrough u v (ev m p) (ev n p) (r - shift) =
      (ev m p * (v - u) - (ev n p - ev m p) * (u - (r - shift))) / (v - u) := by
    unfold lineThrough
    field_simp
    ring
  rw [e, div_nonneg_iff]
  constructor
  · rintro (⟨h, -⟩ | ⟨-, h⟩)
    · linarith
    · linarith
  · intro h
    exact Or.inl ⟨by linarith, hd0.le⟩

/-- **C118** Above the last radius `b` (with `a` before it, radii not negative) the value is not negative exactly up to where the
extrapolation reaches zero. -/
theorem C118_above_iff (ev : M → P → ℝ) (d : NDist M ℝ) (hd : GoodGrid d)
    (r shift : ℝ) (p : P) (a b : ℝ) (m n : M) (ha : d.r[d.r.length - 2]? = some a) (hb : d.r[d.r.length - 1]? = some b)
    (hm : d.msdf[d.r.length - 2]? = some m) (hn : d.msdf[d.r.length - 1]? = some n) (ha0 : 0 ≤ a)
    (h : r - shift > b) (hal : d.allow = true) :
    ∃ z, d.eval ev r p shift = .ok z ∧ (0 ≤ z ↔ (ev m p - ev n p) * (r - shift - b) ≤ ev n p * (2 * b - a)) := by
  have h2 := hd.two
  have hlt := increasing_lt hd.inc ha hb (by omega)
  have hpos : 0 < 2 * b - a := by linarith
  refine ⟨_, C56_above_exact ev d hd r shift p a b m n ha hb hm hn h hal (by intro h; linarith), ?_⟩
  have e : ev n p + (ev n p - ev m p) * (r - shift - b) / (2 * b - a) =
      (ev n p * (2 * b - a) - (ev m p - ev n p) * (r - shift - b)) / (2 * b - a) := by
    rw [eq_div_iff hpos.ne', add_mul, div_mul_cancel₀ _ hpos.ne']
    ring
  rw [e, div_nonneg_iff]
  constructor
  · rintro (⟨h, -⟩ | ⟨-, h⟩)
    · linarith
    · linarith
  · intro h
    exact Or.inl ⟨by linarith, hpos.le⟩

/-- The value of a linear table that is not negative is not negative. -/
theorem numEval_nonneg (p xi f : List ℝ) (hg : GoodTable 0 p xi f) (hf : ∀ v ∈ f, 0 ≤ v) (q : ℝ × ℝ) :
    0 ≤ numEval linearSpline (momOf 0 p xi f) q := by
  have hg' := hg.gsl
  obtain ⟨l1, l2⟩ := gslTable_two hg'
  simp only at l1 l2
  obtain ⟨_, _, e1, e2, -, -⟩ := increasing_ends hg.incP (List.getElem?_eq_getElem (show 0 < p.length by omega))
  obtain ⟨_, _, e3, e4, -, -⟩ := increasing_ends hg.incXi (List.getElem?_eq_getElem (show 0 < xi.length by omega))
  obtain ⟨m, hm, -⟩ := C59_accepts ⟨p, xi, f.map FV.num, 0⟩ false false _ _ _ _ e1 e2 e3 e4 hg'
  obtain ⟨z, hz, h0⟩ := (C117_bounds p xi f false m hm).2 hf q.1 q.2
  unfold numEval momOf
  rw [hm]
  simp only [hz, h0]

/-- **C118** A SOFT file with values that are not negative, linear interpolation: between the first and the last radius of the file the
distribution is not negative, for all momenta and pitches. -/
theorem C118_soft_partial (magic : String) (type : Option String) (rmat : Mat ℝ) (radii : List (RadiusData ℝ)) (a shift : ℝ)
    (hsmall : rmat.data.length ≤ 2 ^ 30) (hdata : rmat.data.length = rmat.rows * rmat.cols) (h2 : 2 ≤ rmat.data.length)
    (h0 : rmat.data[0]? ≠ some (-a)) (hpos : ∀ q ∈ radii.take rmat.data.length, ∀ v ∈ q.f.data, 0 ≤ v)
    (hok : (type = none ∨ type = some magic) ∧ IsVector rmat rmat.data.length ∧ rmat.data.length ≤ radii.length ∧
      (∀ q ∈ radii.take rmat.data.length, FitsTogether q ∧ GoodTable 0 q.p.data q.xi.data q.f.data) ∧
      rmat.data.Pairwise (· < ·)) :
    ∃ d, softLoad magic type rmat radii (some a) (fun q => momOf 0 q.p.data q.xi.data q.f.data) = .ok d ∧
      ∀ (lo hi r p xi : ℝ), rmat.data[0]? = some lo → rmat.data[rmat.data.length - 1]? = some hi → lo ≤ r → r ≤ hi →
        ∃ z, d.eval (numEval linearSpline) (r + a + shift) (p, xi) shift = .ok z ∧ 0 ≤ z := by
  obtain ⟨k1, k2, k3, k4, k5⟩ := hok
  obtain ⟨d, e, hr, hm⟩ := (C65_soft_exact magic type rmat radii a (fun q => momOf 0 q.p.data q.xi.data q.f.data) hsmall hdata
    (rmat.data.map (· + a)) ((radii.take rmat.data.length).map fun q => momOf 0 q.p.data q.xi.data q.f.data)).mpr
    ⟨k1, k2, k3, fun q hq => (k4 q hq).1, k5, rfl, rfl⟩
  refine ⟨d, e, fun lo hi r p xi hlo hhi h1 h3 => ?_⟩
  have hgrid : GoodGrid d := by
    refine ⟨by rw [hr]; exact shifted_increasing k5 a, by rw [hr]; simpa using h2, by rw [hr]; simpa using hsmall, ?_⟩
    rw [hr, hm]; simp; omega
  refine C118_inside_partial (numEval linearSpline) d hgrid ?_ (r + a + shift) shift (p, xi) (lo + a) (hi + a) ?_ ?_ (by linarith)
    (by linarith) (Or.inl (softLoad_allow _ _ _ _ _ _ _ e)) ?_
  · rw [hr, List.getElem?_map, hlo]
    simp only [Option.map_some, ne_eq, Option.some.injEq]
    intro h'
    exact h0 (by rw [hlo]; congr 1; linarith)
  · rw [hr, List.getElem?_map, hlo]; rfl
  · rw [hr, List.length_map, List.getElem?_map, hhi]; rfl
  · intro m hmem
    rw [hm] at hmem
    obtain ⟨q, hq, rfl⟩ := List.mem_map.mp hmem
    exact numEval_nonneg _ _ _ (k4 q hq).2 (hpos q hq) _

/-- **C118** (refuted) A SOFT file with the values 1 at radius 1 and 3 at radius 2, for all momenta and pitches: at radius 1/4 the
distribution is -1/2, and with the two values exchanged it is -5 at radius 11. -/
theorem C118_refuted_extrapolation :
    let lowTable : RadiusData ℝ := ⟨⟨1, 2, [1, 2]⟩, ⟨1, 2, [0, 1]⟩, ⟨2, 2, [1, 1, 1, 1]⟩⟩
    let highTable : RadiusData ℝ := ⟨⟨1, 2, [1, 2]⟩, ⟨1, 2, [0, 1]⟩, ⟨2, 2, [3, 3, 3, 3]⟩⟩
    (∃ d, softLoad "distribution/soft" none ⟨1, 2, [1, 2]⟩ [lowTable, highTable] (some 0)
        (fun q => momOf 0 q.p.data q.xi.data q.f.data) = .ok d ∧
      d.eval (numEval linearSpline) (1 / 4) (1, 0) 0 = .ok (-1 / 2)) ∧
    ∃ d, softLoad "distribution/soft" none ⟨1, 2, [1, 2]⟩ [highTable, lowTable] (some 0)
        (fun q => momOf 0 q.p.data q.xi.data q.f.data) = .ok d ∧
      d.eval (numEval linearSpline) 11 (1, 0) 0 = .ok (-5) := by
  have g1 : GoodTable 0 [1, 2] [0, 1] [1, 1, 1, 1] := ⟨by simp, by simp, by norm_num, by norm_num, by simp⟩
  have g2 : GoodTable 0 [1, 2] [0, 1] [3, 3, 3, 3] := ⟨by simp, by simp, by norm_num, by norm_num, by simp⟩
  have v1 := numEval_node linearSpline 0 C117_table_exact _ _ _ g1 0 0 1 0 1 rfl rfl rfl
  have v2 := numEval_node linearSpline 0 C117_table_exact _ _ _ g2 0 0 1 0 3 rfl rfl rfl
  intro lowTable highTable
  have fl : FitsTogether lowTable := by simp [lowTable, FitsTogether, IsVector]
  have fh : FitsTogether highTable := by simp [highTable, FitsTogether, IsVector]
  constructor
  · obtain ⟨d, e, hr, hm⟩ := (C65_soft_exact "distribution/soft" none ⟨1, 2, [1, 2]⟩ [lowTable, highTable] 0
      (fun q => momOf 0 q.p.data q.xi.data q.f.data) (by simp) (by simp) [1, 2]
      [momOf 0 [1, 2] [0, 1] [1, 1, 1, 1], momOf 0 [1, 2] [0, 1] [3, 3, 3, 3]]).mpr
      ⟨Or.inl rfl, by simp [IsVector], by simp, by simpa using ⟨fl, fh⟩, by norm_num, by simp, by simp [lowTable, highTable]⟩
    refine ⟨d, e, ?_⟩
    rw [C56_below_partial (numEval linearSpline) d ⟨by rw [hr]; norm_num, by rw [hr]; simp, by rw [hr]; simp, by rw [hr, hm]; rfl⟩
      (by rw [hr]; norm_num) (1 / 4) 0 (1, 0) 1 2 (momOf 0 [1, 2] [0, 1] [1, 1, 1, 1]) (momOf 0 [1, 2] [0, 1] [3, 3, 3, 3])
      (by rw [hr]; rfl) (by rw [hr]; rfl) (by rw [hm]; rfl) (by rw [hm]; rfl) (by norm_num) (softLoad_allow _ _ _ _ _ _ _ e), v1, v2]
    norm_num [lineThrough]
  · obtain ⟨d, e, hr, hm⟩ := (C65_soft_exact "distribution/soft" none ⟨1, 2, [1, 2]⟩ [highTable, lowTable] 0
      (fun q => momOf 0 q.p.data q.xi.data q.f.data) (by simp) (by simp) [1, 2]
      [momOf 0 [1, 2] [0, 1] [3, 3, 3, 3], momOf 0 [1, 2] [0, 1] [1, 1, 1, 1]]).mpr
      ⟨Or.inl rfl, by simp [IsVector], by simp, by simpa using ⟨fh, fl⟩, by norm_num, by simp, by simp [lowTable, highTable]⟩
    refine ⟨d, e, ?_⟩
    rw [C56_above_exact (numEval linearSpline) d ⟨by rw [hr]; norm_num, by rw [hr]; simp, by rw [hr]; simp, by rw [hr, hm]; rfl⟩
      11 0 (1, 0) 1 2 (momOf 0 [1, 2] [0, 1] [3, 3, 3, 3]) (momOf 0 [1, 2] [0, 1] [1, 1, 1, 1])
      (by rw [hr]; rfl) (by rw [hr]; rfl) (by rw [hr, hm]; rfl) (by rw [hr, hm]; rfl) (by norm_num)
      (softLoad_allow _ _ _ _ _ _ _ e) (by norm_num), v1, v2]
    norm_num

end

end Softlib
