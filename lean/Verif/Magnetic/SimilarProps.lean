/-
C158: the answers about the wall do not depend on the units in which radii and heights are given,
on the level from which heights are measured, nor on which way is up.

Source: /repo/src/MagneticField/MagneticField2D.cpp 42-73 (`CrossesDomain`), 141-170
(`GetDomainBounds`), 210-249 (`FindMaxRadius`) and 367-457 (`IntersectsDomain3D`), by the models
`crossesDomain`, `getBounds`, `findMaxRadius` and `intersects3D` of C44, C45, C93 and C47.
-/
import Verif.Magnetic.StepProps

namespace Softlib

open Magnetic

noncomputable section

/-- A point of the poloidal plane with radii in a unit `l` of which make one of the old, heights in a
unit `|m|` of which make one of the old, measured from a level `c` lower, and downwards if `m < 0`. -/
def reseen (l m c : ℝ) (p : Pt) : Pt := ⟨l * p.r, m * p.z + c⟩

/-- The same for a point in space. -/
def reseen3 (l m c : ℝ) (p : P3) : P3 := ⟨l * p.x, l * p.y, m * p.z + c⟩

theorem sqrt_unit {l : ℝ} (hl : 0 < l) (x y : ℝ) : Real.sqrt ((l * x) ^ 2 + (l * y) ^ 2) = l * Real.sqrt (x ^ 2 + y ^ 2) := by
  have : (l * x) ^ 2 + (l * y) ^ 2 = l ^ 2 * (x ^ 2 + y ^ 2) := by ring
  rw [this, Real.sqrt_mul (by positivity), Real.sqrt_sq hl.le]

theorem level_eq_iff {m : ℝ} (hm : m ≠ 0) (c a b : ℝ) : m * a + c = m * b + c ↔ a = b := by
  constructor
  · intro h; exact mul_left_cancel₀ hm (by linarith)
  · rintro rfl; rfl

/-! ### the test in the poloidal plane -/

theorem crossesLoop_reseen {l m c : ℝ} (hl : l ≠ 0) (hm : m ≠ 0) (p d : Pt) (dom : List Pt) :
    crossesLoop (reseen l m c p) ⟨l * d.r, m * d.z⟩ (dom.map (reseen l m c)) = crossesLoop p d dom := by
  induction dom with
  | nil => rfl
  | cons v rest ih =>
    cases rest with
    | nil => rfl
    | cons w rest =>
      simp only [List.map_cons] at ih ⊢
      unfold crossesLoop
      rw [ih]
      simp only [reseen]
      have e1 : (l * p.r - l * v.r = 0 ∧ m * p.z + c - (m * v.z + c) = 0) ↔ (p.r - v.r = 0 ∧ p.z - v.z = 0) := by
        have h1 : l * p.r - l * v.r = l * (p.r - v.r) := by ring
        have h2 : m * p.z + c - (m * v.z + c) = m * (p.z - v.z) := by ring
        rw [h1, h2, mul_eq_zero, mul_eq_zero, or_iff_right hl, or_iff_right hm]
      have e2 : (l * w.r - l * v.r) * (m * d.z) - l * d.r * (m * w.z + c - (m * v.z + c))
          = l * m * ((w.r - v.r) * d.z - d.r * (w.z - v.z)) := by ring
      have hf : l * m ≠ 0 := mul_ne_zero hl hm
      have e3 : l * m * ((w.r - v.r) * d.z - d.r * (w.z - v.z)) = 0 ↔ (w.r - v.r) * d.z - d.r * (w.z - v.z) = 0 := by
        rw [mul_eq_zero, or_iff_right hf]
      have e4 : 1 / (l * m * ((w.r - v.r) * d.z - d.r * (w.z - v.z))) *
            ((l * p.r - l * v.r) * (m * d.z) - (m * p.z + c - (m * v.z + c)) * (l * d.r))
          = 1 / ((w.r - v.r) * d.z - d.r * (w.z - v.z)) * ((p.r - v.r) * d.z - (p.z - v.z) * d.r) := by
        have : (l * p.r - l * v.r) * (m * d.z) - (m * p.z + c - (m * v.z + c)) * (l * d.r)
            = l * m * ((p.r - v.r) * d.z - (p.z - v.z) * d.r) := by ring
        rw [this, one_div_mul_eq_div, one_div_mul_eq_div, mul_div_mul_left _ _ hf]
      have e5 : -(1 / (l * m * ((w.r - v.r) * d.z - d.r * (w.z - v.z)))) *
            ((m * p.z + c - (m * v.z + c)) * (l * w.r - l * v.r) - (l * p.r - l * v.r) * (m * w.z + c - (m * v.z + c)))
          = -(1 / ((w.r - v.r) * d.z - d.r * (w.z - v.z))) * ((p.z - v.z) * (w.r - v.r) - (p.r - v.r) * (w.z - v.z)) := by
        have : (m * p.z + c - (m * v.z + c)) * (l * w.r - l * v.r) - (l * p.r - l * v.r) * (m * w.z + c - (m * v.z + c))
            = l * m * ((p.z - v.z) * (w.r - v.r) - (p.r - v.r) * (w.z - v.z)) := by ring
        rw [this, neg_mul, neg_mul, one_div_mul_eq_div, one_div_mul_eq_div, mul_div_mul_left _ _ hf]
      simp only [e2, e4, e5, e1, e3]

/-- C158, `CrossesDomain`: every wall and every step gets the same answer in all units, from all
levels, and upside down. -/
theorem C158_plane (dom : List Pt) (x1 y1 z1 x2 y2 z2 l m c : ℝ) (hl : 0 < l) (hm : m ≠ 0) :
    crossesDomain (dom.map (reseen l m c)) (l * x1) (l * y1) (m * z1 + c) (l * x2) (l * y2) (m * z2 + c)
      = crossesDomain dom x1 y1 z1 x2 y2 z2 := by
  unfold crossesDomain
  simp only [List.isEmpty_map, sqrt_unit hl]
  have h1 : l * Real.sqrt (x2 ^ 2 + y2 ^ 2) - l * Real.sqrt (x1 ^ 2 + y1 ^ 2)
      = l * (Real.sqrt (x2 ^ 2 + y2 ^ 2) - Real.sqrt (x1 ^ 2 + y1 ^ 2)) := by ring
  have h2 : m * z2 + c - (m * z1 + c) = m * (z2 - z1) := by ring
  rw [h1, h2]
  have := crossesLoop_reseen (c := c) hl.ne' hm ⟨Real.sqrt (x1 ^ 2 + y1 ^ 2), z1⟩
    ⟨Real.sqrt (x2 ^ 2 + y2 ^ 2) - Real.sqrt (x1 ^ 2 + y1 ^ 2), z2 - z1⟩ dom
  simp only [reseen] at this
  rw [← this]

/-! ### the test in space -/

theorem tile_map (f : Pt → Pt) (dom : List Pt) (v' w' : Pt) :
    Tile (dom.map f) v' w' ↔ ∃ v w, Tile dom v w ∧ f v = v' ∧ f w = w' := by
  unfold Tile Side
  constructor
  · rintro (⟨i, h1, h2⟩ | ⟨h1, h2⟩)
    · rw [List.getElem?_map, Option.map_eq_some_iff] at h1 h2
      obtain ⟨v, hv, rfl⟩ := h1
      obtain ⟨w, hw, rfl⟩ := h2
      exact ⟨v, w, .inl ⟨i, hv, hw⟩, rfl, rfl⟩
    · rw [List.getLast?_map, Option.map_eq_some_iff] at h1
      rw [List.head?_map, Option.map_eq_some_iff] at h2
      obtain ⟨v, hv, rfl⟩ := h1
      obtain ⟨w, hw, rfl⟩ := h2
      exact ⟨v, w, .inr ⟨hv, hw⟩, rfl, rfl⟩
  · rintro ⟨v, w, ⟨i, h1, h2⟩ | ⟨h1, h2⟩, rfl, rfl⟩
    · exact .inl ⟨i, by rw [List.getElem?_map, h1]; rfl, by rw [List.getElem?_map, h2]; rfl⟩
    · exact .inr ⟨by rw [List.getLast?_map, h1]; rfl, by rw [List.head?_map, h2]; rfl⟩

theorem along_reseen (l m c : ℝ) (p0 p1 : P3) (t : ℝ) :
    along (reseen3 l m c p0) (reseen3 l m c p1) t = reseen3 l m c (along p0 p1 t) := by
  simp only [along, reseen3, P3.mk.injEq]
  refine ⟨?_, ?_, ?_⟩ <;> ring

theorem between_reseen (l m c : ℝ) (p0 p1 : Pt) (t : ℝ) :
    between (reseen l m c p0) (reseen l m c p1) t = reseen l m c (between p0 p1 t) := by
  apply Pt.ext <;> simp only [between, reseen] <;> ring

theorem reported_reseen {l m c : ℝ} (hl : 0 < l) (hm : m ≠ 0) (p0 p1 : P3) (v w : Pt) :
    Reported (reseen3 l m c p0) (reseen3 l m c p1) (reseen l m c v) (reseen l m c w) ↔ Reported p0 p1 v w := by
  have hl0 : l ≠ 0 := hl.ne'
  have hz : ∀ a b : Pt, (reseen l m c a).z = (reseen l m c b).z ↔ a.z = b.z := fun a b => level_eq_iff hm c _ _
  have hz3 : ∀ a b : P3, (reseen3 l m c a).z = (reseen3 l m c b).z ↔ a.z = b.z := fun a b => level_eq_iff hm c _ _
  have hzz : ∀ (a : P3) (b : Pt), (reseen3 l m c a).z = (reseen l m c b).z ↔ a.z = b.z := fun a b => level_eq_iff hm c _ _
  have hr : ∀ a b : Pt, (reseen l m c a).r = (reseen l m c b).r ↔ a.r = b.r := fun a b => mul_right_inj' hl0
  have hsq : ∀ (a : P3) (b : Pt), (reseen3 l m c a).x ^ 2 + (reseen3 l m c a).y ^ 2 = (reseen l m c b).r ^ 2 ↔
      a.x ^ 2 + a.y ^ 2 = b.r ^ 2 := by
    intro a b
    simp only [reseen3, reseen]
    have h1 : (l * a.x) ^ 2 + (l * a.y) ^ 2 = l ^ 2 * (a.x ^ 2 + a.y ^ 2) := by ring
    rw [h1, mul_pow, mul_right_inj' (pow_ne_zero 2 hl0)]
  have hmir : ∀ (a : P3) (b : Pt), (reseen l m c b).r = - Real.sqrt ((reseen3 l m c a).x ^ 2 + (reseen3 l m c a).y ^ 2) ↔
      b.r = - Real.sqrt (a.x ^ 2 + a.y ^ 2) := by
    intro a b
    simp only [reseen3, reseen]
    rw [sqrt_unit hl, ← mul_neg, mul_right_inj' hl0]
  have hslope : SameSlope (reseen3 l m c p0) (reseen3 l m c p1) (reseen l m c v) (reseen l m c w) ↔ SameSlope p0 p1 v w := by
    simp only [SameSlope, reseen3, reseen]
    have h1 : ((l * p1.x - l * p0.x) ^ 2 + (l * p1.y - l * p0.y) ^ 2) * (m * w.z + c - (m * v.z + c)) ^ 2
        = (l * m) ^ 2 * (((p1.x - p0.x) ^ 2 + (p1.y - p0.y) ^ 2) * (w.z - v.z) ^ 2) := by ring
    have h2 : ((l * w.r - l * v.r) * (m * p1.z + c - (m * p0.z + c))) ^ 2
        = (l * m) ^ 2 * ((w.r - v.r) * (p1.z - p0.z)) ^ 2 := by ring
    rw [h1, h2, mul_right_inj' (pow_ne_zero 2 (mul_ne_zero hl0 hm))]
  unfold Reported MeetsCone MeetsMirrored
  simp only [hslope, along_reseen, between_reseen, hsq, hmir, hzz, Ne, hz, hz3, hr]

theorem considered_reseen {l m c : ℝ} (hl : 0 < l) (hm : m ≠ 0) (ar : ℝ) (o : Bool) (p0 p1 : P3) (v w : Pt) :
    Considered (l * ar) o (reseen3 l m c p0) (reseen3 l m c p1) (reseen l m c v) (reseen l m c w) ↔
      Considered ar o p0 p1 v w := by
  simp only [Considered, reseen3, reseen, add_le_add_iff_right, mul_le_mul_iff_right₀ hl]
  rcases lt_or_gt_of_ne hm with h | h
  · simp only [mul_le_mul_left_of_neg h]
    tauto
  · simp only [mul_le_mul_iff_right₀ h]

/-- C158, `IntersectsDomain3D`: every wall and every step gets the same answer in all units, from all
levels, and upside down; also with the answer restricted to the inner wall. -/
theorem C158_space (axis : Pt) (dom : List Pt) (p0 p1 : P3) (outer : Bool) (l m c : ℝ) (hl : 0 < l) (hm : m ≠ 0) :
    intersects3D (reseen l m c axis) (dom.map (reseen l m c)) (reseen3 l m c p0) (reseen3 l m c p1) outer
      = intersects3D axis dom p0 p1 outer := by
  refine bool_ext ?_
  rw [C99_exact, C99_exact]
  constructor
  · rintro ⟨v', w', ht, hc, h⟩
    obtain ⟨v, w, ht', rfl, rfl⟩ := (tile_map _ _ _ _).1 ht
    exact ⟨v, w, ht', (considered_reseen hl hm _ _ _ _ _ _).1 hc, (reported_reseen hl hm _ _ _ _).1 h⟩
  · rintro ⟨v, w, ht, hc, h⟩
    exact ⟨_, _, (tile_map _ _ _ _).2 ⟨v, w, ht, rfl, rfl⟩, (considered_reseen hl hm _ _ _ _ _ _).2 hc,
      (reported_reseen hl hm _ _ _ _).2 h⟩

/-! ### the radii at the height of the axis -/

/-- The result of `FindMaxRadius` in another unit of length. -/
def inUnit (l : ℝ) : MaxRes → MaxRes
  | .ub => .ub
  | .notInside => .notInside
  | .ok mx mn => .ok (l * mx) (l * mn)

theorem spans_reseen {l m c : ℝ} (hm : m ≠ 0) (za : ℝ) (v w : Pt) :
    spans (m * za + c) (reseen l m c v) (reseen l m c w) ↔ spans za v w := by
  simp only [spans, reseen, ge_iff_le, add_le_add_iff_right]
  rcases lt_or_gt_of_ne hm with h | h
  · simp only [mul_le_mul_left_of_neg h]
    tauto
  · simp only [mul_le_mul_iff_right₀ h]

theorem crossR_reseen {l m c : ℝ} (hl : 0 < l) (hm : m ≠ 0) (za : ℝ) (v w : Pt) :
    crossR (m * za + c) (reseen l m c v) (reseen l m c w) = l * crossR za v w := by
  simp only [crossR, reseen, level_eq_iff hm]
  split_ifs with h
  · rw [mul_max_of_nonneg _ _ hl.le]
  · have h' : w.z - v.z ≠ 0 := sub_ne_zero.2 h
    have e : m * w.z + c - (m * v.z + c) = m * (w.z - v.z) := by ring
    rw [e]
    field_simp
    ring

theorem rpointsLoop_reseen {l m c : ℝ} (hl : 0 < l) (hm : m ≠ 0) (za : ℝ) (dom : List Pt) :
    ∀ acc : List ℝ, rpointsLoop (m * za + c) (dom.map (reseen l m c)) (acc.map (l * ·)) = (rpointsLoop za dom acc).map (l * ·) := by
  induction dom with
  | nil => intro acc; rfl
  | cons v rest ih =>
    cases rest with
    | nil => intro acc; rfl
    | cons w rest =>
      intro acc
      simp only [List.map_cons] at ih ⊢
      unfold rpointsLoop
      simp only [List.length_map, spans_reseen hm, crossR_reseen hl hm]
      split_ifs
      · rw [← ih]; simp
      · exact ih acc
      · rfl

theorem maxMin_unit {l : ℝ} (hl : 0 < l) (xs : List ℝ) :
    ∀ mx mn, maxMin (l * mx) (l * mn) (xs.map (l * ·)) = (l * (maxMin mx mn xs).1, l * (maxMin mx mn xs).2) := by
  induction xs with
  | nil => intro mx mn; rfl
  | cons x xs ih =>
    intro mx mn
    simp only [List.map_cons, maxMin, gt_iff_lt, mul_lt_mul_iff_right₀ hl]
    split_ifs
    · exact ih x mn
    · exact ih mx x
    · exact ih mx mn

theorem rpointsResult_unit {l : ℝ} (hl : 0 < l) (xs : List ℝ) :
    rpointsResult (xs.map (l * ·)) = inUnit l (rpointsResult xs) := by
  cases xs with
  | nil => rfl
  | cons x xs => simp only [List.map_cons, rpointsResult, maxMin_unit hl, inUnit]

/-- C158, `FindMaxRadius`: the radii found scale with the unit of length and do not depend on the unit,
level and direction of heights; walls for which it is undefined or throws are so in all units. -/
theorem C158_radii (axis : Pt) (dom : List Pt) (l m c : ℝ) (hl : 0 < l) (hm : m ≠ 0) :
    findMaxRadius (reseen l m c axis) (dom.map (reseen l m c)) = inUnit l (findMaxRadius axis dom) := by
  unfold findMaxRadius
  rw [List.head?_map, List.getLast?_map]
  cases dom.head? with
  | none => rfl
  | some v0 =>
    cases dom.getLast? with
    | none => rfl
    | some vl =>
      have hs := spans_reseen (l := l) (c := c) hm axis.z vl v0
      have hz : (reseen l m c axis).z = m * axis.z + c := rfl
      simp only [Option.map_some, hz, hs]
      split_ifs
      · rfl
      · rw [← rpointsResult_unit hl, ← rpointsLoop_reseen (c := c) hl hm axis.z dom []]
        rfl

/-! ### the bounds -/

/-- A box in other units; upside down the bounds of the height change places. -/
def reseenBox (l m c : ℝ) (b : Box) : Box :=
  ⟨l * b.rmin, l * b.rmax, min (m * b.zmin + c) (m * b.zmax + c), max (m * b.zmin + c) (m * b.zmax + c)⟩

/-- The domain of a magnetic field in other units. -/
def reseenDom (l m c : ℝ) (s : Dom) : Dom :=
  ⟨reseen l m c s.axis, s.dom.map (reseen l m c), s.boundsSet, reseenBox l m c s.bounds⟩

theorem boxAdd_parts (b : Box) (v : Pt) : boxAdd b v =
    ⟨if v.r < b.rmin then v.r else b.rmin, if v.r < b.rmin then b.rmax else if b.rmax < v.r then v.r else b.rmax,
      if v.z < b.zmin then v.z else b.zmin, if v.z < b.zmin then b.zmax else if b.zmax < v.z then v.z else b.zmax⟩ := by
  unfold boxAdd
  by_cases h1 : v.r < b.rmin <;> by_cases h2 : b.rmax < v.r <;> by_cases h3 : v.z < b.zmin <;> by_cases h4 : b.zmax < v.z <;>
    simp [h1, h2, h3, h4]

theorem boxAdd_ordered {b : Box} (h : b.zmin ≤ b.zmax) (v : Pt) : (boxAdd b v).zmin ≤ (boxAdd b v).zmax := by
  rw [boxAdd_parts]
  simp only
  split_ifs <;> linarith

theorem boxAdd_reseen {l m c : ℝ} (hl : 0 < l) (hm : m ≠ 0) {b : Box} (hb : b.zmin ≤ b.zmax) (v : Pt) :
    boxAdd (reseenBox l m c b) (reseen l m c v) = reseenBox l m c (boxAdd b v) := by
  rcases lt_or_gt_of_ne hm with h | h
  · have key : ∀ b : Box, b.zmin ≤ b.zmax → reseenBox l m c b = ⟨l * b.rmin, l * b.rmax, m * b.zmax + c, m * b.zmin + c⟩ := by
      intro b hb
      have : m * b.zmax + c ≤ m * b.zmin + c := by nlinarith
      simp only [reseenBox, min_eq_right this, max_eq_left this]
    rw [key b hb, key _ (boxAdd_ordered hb v), boxAdd_parts, boxAdd_parts]
    simp only [reseen, mul_lt_mul_iff_right₀ hl, add_lt_add_iff_right, mul_lt_mul_left_of_neg h]
    by_cases h1 : v.r < b.rmin <;> by_cases h2 : b.rmax < v.r <;> by_cases h3 : v.z < b.zmin <;> by_cases h4 : b.zmax < v.z <;>
      first | (exfalso; linarith) | simp [h1, h2, h3, h4]
  · have key : ∀ b : Box, b.zmin ≤ b.zmax → reseenBox l m c b = ⟨l * b.rmin, l * b.rmax, m * b.zmin + c, m * b.zmax + c⟩ := by
      intro b hb
      have : m * b.zmin + c ≤ m * b.zmax + c := by nlinarith
      simp only [reseenBox, min_eq_left this, max_eq_right this]
    rw [key b hb, key _ (boxAdd_ordered hb v), boxAdd_parts, boxAdd_parts]
    simp only [reseen, mul_lt_mul_iff_right₀ hl, add_lt_add_iff_right, mul_lt_mul_iff_right₀ h]
    by_cases h1 : v.r < b.rmin <;> by_cases h2 : b.rmax < v.r <;> by_cases h3 : v.z < b.zmin <;> by_cases h4 : b.zmax < v.z <;>
      simp [h1, h2, h3, h4]

theorem boxFold_reseen {l m c : ℝ} (hl : 0 < l) (hm : m ≠ 0) (dom : List Pt) :
    ∀ b : Box, b.zmin ≤ b.zmax → (dom.map (reseen l m c)).foldl boxAdd (reseenBox l m c b) = reseenBox l m c (dom.foldl boxAdd b) := by
  induction dom with
  | nil => intro b _; rfl
  | cons v rest ih =>
    intro b hb
    simp only [List.map_cons, List.foldl_cons]
    rw [boxAdd_reseen hl hm hb]
    exact ih _ (boxAdd_ordered hb v)

/-- C158, `GetDomainBounds`: the bounds are those of the other units, upside down with the lower and
the upper changing places; the same holds for the bounds remembered. -/
theorem C158_bounds (s : Dom) (l m c : ℝ) (hl : 0 < l) (hm : m ≠ 0) :
    getBounds (reseenDom l m c s) = (reseenDom l m c (getBounds s).1, reseenBox l m c (getBounds s).2) := by
  unfold getBounds
  by_cases h : s.boundsSet
  · simp [h, reseenDom]
  · have := boxFold_reseen (c := c) hl hm s.dom ⟨s.axis.r, s.axis.r, s.axis.z, s.axis.z⟩ le_rfl
    simp only [reseenBox, min_self, max_self] at this
    simp only [h, reseenDom, reseen, reseenBox] at this ⊢
    simp [this]

/-- A rectangular wall, in centimetres and upside down. -/
example : findMaxRadius (reseen 100 (-100) 0 ⟨2, 0⟩) ([⟨1, 1⟩, ⟨1, -1⟩, ⟨3, -1⟩, ⟨3, 1⟩].map (reseen 100 (-100) 0)) = .ok 300 100 := by
  rw [C158_radii _ _ _ _ _ (by norm_num) (by norm_num)]
  norm_num [findMaxRadius, spans, rpointsLoop, crossR, rpointsResult, maxMin, inUnit]

example : getBounds (reseenDom 100 (-100) 5 ⟨⟨2, 0⟩, [⟨1, 1⟩, ⟨3, -2⟩], false, ⟨0, 0, 0, 0⟩⟩)
    = (reseenDom 100 (-100) 5 ⟨⟨2, 0⟩, [⟨1, 1⟩, ⟨3, -2⟩], true, ⟨1, 3, -2, 1⟩⟩, ⟨100, 300, -95, 205⟩) := by
  rw [C158_bounds _ _ _ _ (by norm_num) (by norm_num)]
  norm_num [getBounds, boxAdd, reseenBox]

/-- C158, the axis is needed: radii have to be measured from the axis of symmetry.  A step that
crosses the wall `R = 3` on the far side of the axis does not cross it when everything is moved by 10 in
the direction of x. -/
theorem C158_axis_needed :
    crossesDomain [⟨3, -1⟩, ⟨3, 1⟩] (-4) 0 0 (-2) 0 0 = some true ∧
    crossesDomain [⟨13, -1⟩, ⟨13, 1⟩] 6 0 0 8 0 0 = some false := by
  have e : ∀ a : ℝ, Real.sqrt (a ^ 2 + 0 ^ 2) = |a| := by intro a; rw [zero_pow two_ne_zero, add_zero, Real.sqrt_sq_eq_abs]
  constructor <;> simp only [crossesDomain, e] <;> norm_num [crossesLoop]

/-- C158, a positive unit of radii is needed for the bounds: what is nearest becomes farthest. -/
theorem C158_sign_needed : (getBounds (reseenDom (-1) 1 0 ⟨⟨2, 0⟩, [⟨1, 0⟩], false, ⟨0, 0, 0, 0⟩⟩)).2
    ≠ reseenBox (-1) 1 0 (getBounds ⟨⟨2, 0⟩, [⟨1, 0⟩], false, ⟨0, 0, 0, 0⟩⟩).2 := by
  intro h
  have := congrArg Box.rmin h
  norm_num [getBounds, reseenDom, reseen, reseenBox, boxAdd] at this

end

end Softlib
