/-
C153: what the answers of the two wall tests do not depend on: the direction of the step, its
division into shorter steps, its place around the axis of symmetry, the order of the vertices.

Source: /repo/src/MagneticField/MagneticField2D.cpp 42-73 (`CrossesDomain`) and 367-457
(`IntersectsDomain3D`), by the models `crossesDomain` and `intersects3D` of C44 and C47.
-/
import Verif.Magnetic.AlarmProps

namespace Softlib

open Magnetic

noncomputable section

/-! ### the test in the poloidal plane -/

theorem meet_swap {p q v w : Pt} (h : Meet p q v w) : Meet q p v w := by
  obtain ⟨s, t, s0, s1, t0, t1, he⟩ := h
  refine ⟨s, 1 - t, s0, s1, by linarith, by linarith, ?_⟩
  rw [← he]
  apply Pt.ext <;> simp only [between] <;> ring

theorem meet_turn {p q v w : Pt} (h : Meet p q v w) : Meet p q w v := by
  obtain ⟨s, t, s0, s1, t0, t1, he⟩ := h
  refine ⟨1 - s, t, by linarith, by linarith, t0, t1, ?_⟩
  rw [he]
  apply Pt.ext <;> simp only [between] <;> ring

theorem parallel_swap {p q v w : Pt} (h : Parallel p q v w) : Parallel q p v w := by
  unfold Parallel at *; linear_combination -h

theorem parallel_turn {p q v w : Pt} (h : Parallel p q v w) : Parallel p q w v := by
  unfold Parallel at *; linear_combination -h

/-- A path that does not begin in the first vertex is reported exactly if it meets a side or is
parallel to one. -/
theorem crosses_iff (dom : List Pt) (x1 y1 z1 x2 y2 z2 : ℝ) (hd : dom ≠ []) (hfirst : dom[0]? ≠ some (poloidal x1 y1 z1)) :
    crossesDomain dom x1 y1 z1 x2 y2 z2 = some true ↔ ∃ v w, Side dom v w ∧
      (Parallel (poloidal x1 y1 z1) (poloidal x2 y2 z2) v w ∨ Meet (poloidal x1 y1 z1) (poloidal x2 y2 z2) v w) := by
  obtain ⟨b, hb, hiff⟩ := C44_exact dom hd x1 y1 z1 x2 y2 z2
  constructor
  · intro h
    rw [hb, Option.some.injEq] at h
    obtain ⟨v, w, hs, -, h⟩ := hiff.1 h
    exact ⟨v, w, hs, h⟩
  · rintro ⟨v, w, hs, h⟩
    by_cases hv : poloidal x1 y1 z1 = v
    · refine C44_no_miss_partial dom x1 y1 z1 x2 y2 z2 v w hs ⟨0, 0, le_refl _, zero_le_one, le_refl _, zero_le_one, ?_⟩ hfirst
      rw [hv]
      apply Pt.ext <;> simp [between]
    · rw [hb, hiff.2 ⟨v, w, hs, hv, h⟩]

theorem crosses_some (dom : List Pt) (x1 y1 z1 x2 y2 z2 : ℝ) (hd : dom ≠ []) : ∃ b, crossesDomain dom x1 y1 z1 x2 y2 z2 = some b := by
  obtain ⟨b, hb, -⟩ := C44_exact dom hd x1 y1 z1 x2 y2 z2
  exact ⟨b, hb⟩

theorem option_ext {a b : Option Bool} (ha : ∃ x, a = some x) (hb : ∃ x, b = some x) (h : a = some true ↔ b = some true) : a = b := by
  obtain ⟨x, rfl⟩ := ha
  obtain ⟨y, rfl⟩ := hb
  cases x <;> cases y <;> simp_all

/-- C153, direction, `CrossesDomain`: the way back is answered as the way there, unless one of the
two ends is the first vertex of the wall (`C153_refuted_back`). -/
theorem C153_back_partial (dom : List Pt) (x1 y1 z1 x2 y2 z2 : ℝ) (h1 : dom[0]? ≠ some (poloidal x1 y1 z1))
    (h2 : dom[0]? ≠ some (poloidal x2 y2 z2)) :
    crossesDomain dom x2 y2 z2 x1 y1 z1 = crossesDomain dom x1 y1 z1 x2 y2 z2 := by
  by_cases hd : dom = []
  · subst hd; rfl
  · refine option_ext (crosses_some _ _ _ _ _ _ _ hd) (crosses_some _ _ _ _ _ _ _ hd) ?_
    rw [crosses_iff dom _ _ _ _ _ _ hd h1, crosses_iff dom _ _ _ _ _ _ hd h2]
    constructor <;> rintro ⟨v, w, hs, h | h⟩
    · exact ⟨v, w, hs, .inl (parallel_swap h)⟩
    · exact ⟨v, w, hs, .inr (meet_swap h)⟩
    · exact ⟨v, w, hs, .inl (parallel_swap h)⟩
    · exact ⟨v, w, hs, .inr (meet_swap h)⟩

/-- C153 as stated is refuted for `CrossesDomain`: from the first vertex nothing is reported, on the
way back to it the wall is. -/
theorem C153_refuted_back :
    crossesDomain [⟨1, 0⟩, ⟨1, 5⟩] 1 0 0 2 0 0 = some false ∧ crossesDomain [⟨1, 0⟩, ⟨1, 5⟩] 2 0 0 1 0 0 = some true := by
  have e : Real.sqrt 4 = 2 := by
    rw [show (4 : ℝ) = 2 ^ 2 from by norm_num]; exact Real.sqrt_sq (by norm_num)
  constructor
  · norm_num [crossesDomain, crossesLoop]
  · norm_num [crossesDomain, crossesLoop, e]

/-- C153, place around the axis, `CrossesDomain`: only the distances of the two ends from the axis
and their heights matter. -/
theorem C153_turned (dom : List Pt) (x1 y1 z1 x2 y2 z2 x1' y1' x2' y2' : ℝ) (h1 : x1' ^ 2 + y1' ^ 2 = x1 ^ 2 + y1 ^ 2)
    (h2 : x2' ^ 2 + y2' ^ 2 = x2 ^ 2 + y2 ^ 2) :
    crossesDomain dom x1' y1' z1 x2' y2' z2 = crossesDomain dom x1 y1 z1 x2 y2 z2 := by
  simp only [crossesDomain, h1, h2]

theorem side_reverse {dom : List Pt} {v w : Pt} (h : Side dom v w) : Side dom.reverse w v := by
  obtain ⟨i, h1, h2⟩ := h
  obtain ⟨hi, e2⟩ := List.getElem?_eq_some_iff.1 h2
  obtain ⟨hi', e1⟩ := List.getElem?_eq_some_iff.1 h1
  refine ⟨dom.length - 2 - i, ?_, ?_⟩
  · rw [List.getElem?_reverse (by omega), show dom.length - 1 - (dom.length - 2 - i) = i + 1 from by omega, h2]
  · rw [List.getElem?_reverse (by omega), show dom.length - 1 - (dom.length - 2 - i + 1) = i from by omega, h1]

theorem side_reverse_iff {dom : List Pt} {v w : Pt} : Side dom.reverse v w ↔ Side dom w v :=
  ⟨fun h => by simpa using side_reverse h, side_reverse⟩

/-- C153, order of the vertices, `CrossesDomain`: a wall listed in the other sense is the same wall,
unless the path begins in its first or last vertex. -/
theorem C153_listed_partial (dom : List Pt) (x1 y1 z1 x2 y2 z2 : ℝ) (h1 : dom[0]? ≠ some (poloidal x1 y1 z1))
    (h2 : dom.getLast? ≠ some (poloidal x1 y1 z1)) :
    crossesDomain dom.reverse x1 y1 z1 x2 y2 z2 = crossesDomain dom x1 y1 z1 x2 y2 z2 := by
  by_cases hd : dom = []
  · subst hd; rfl
  · have hr : dom.reverse ≠ [] := by simpa using hd
    have h2' : dom.reverse[0]? ≠ some (poloidal x1 y1 z1) := by
      rw [← List.head?_eq_getElem?, List.head?_reverse]; exact h2
    refine option_ext (crosses_some _ _ _ _ _ _ _ hr) (crosses_some _ _ _ _ _ _ _ hd) ?_
    rw [crosses_iff dom _ _ _ _ _ _ hd h1, crosses_iff dom.reverse _ _ _ _ _ _ hr h2']
    constructor <;> rintro ⟨v, w, hs, h | h⟩
    · exact ⟨w, v, side_reverse_iff.1 hs, .inl (parallel_turn h)⟩
    · exact ⟨w, v, side_reverse_iff.1 hs, .inr (meet_turn h)⟩
    · exact ⟨w, v, side_reverse_iff.2 hs, .inl (parallel_turn h)⟩
    · exact ⟨w, v, side_reverse_iff.2 hs, .inr (meet_turn h)⟩

theorem meet_split {p q v w : Pt} {a : ℝ} (a0 : 0 < a) (a1 : a < 1) :
    Meet p q v w ↔ Meet p (between p q a) v w ∨ Meet (between p q a) q v w := by
  constructor
  · rintro ⟨s, t, s0, s1, t0, t1, he⟩
    rcases le_total t a with h | h
    · refine .inl ⟨s, t / a, s0, s1, by positivity, (div_le_one a0).2 h, ?_⟩
      rw [← he]
      apply Pt.ext <;> simp only [between] <;> field_simp <;> ring
    · have hb : (0 : ℝ) < 1 - a := by linarith
      refine .inr ⟨s, (t - a) / (1 - a), s0, s1, div_nonneg (by linarith) hb.le, (div_le_one hb).2 (by linarith), ?_⟩
      rw [← he]
      apply Pt.ext <;> simp only [between] <;> field_simp <;> ring
  · rintro (⟨s, t, s0, s1, t0, t1, he⟩ | ⟨s, t, s0, s1, t0, t1, he⟩)
    · refine ⟨s, t * a, s0, s1, by positivity, by nlinarith, ?_⟩
      rw [← he]
      apply Pt.ext <;> simp only [between] <;> ring
    · refine ⟨s, a + t * (1 - a), s0, s1, by nlinarith, by nlinarith, ?_⟩
      rw [← he]
      apply Pt.ext <;> simp only [between] <;> ring

theorem parallel_first {p q v w : Pt} {a : ℝ} (a0 : a ≠ 0) : Parallel p (between p q a) v w ↔ Parallel p q v w := by
  unfold Parallel between
  have : (w.r - v.r) * (p.z + a * (q.z - p.z) - p.z) - (p.r + a * (q.r - p.r) - p.r) * (w.z - v.z)
      = a * ((w.r - v.r) * (q.z - p.z) - (q.r - p.r) * (w.z - v.z)) := by ring
  simp only [this]
  simp [a0]

theorem parallel_second {p q v w : Pt} {a : ℝ} (a1 : 1 - a ≠ 0) : Parallel (between p q a) q v w ↔ Parallel p q v w := by
  unfold Parallel between
  have : (w.r - v.r) * (q.z - (p.z + a * (q.z - p.z))) - (q.r - (p.r + a * (q.r - p.r))) * (w.z - v.z)
      = (1 - a) * ((w.r - v.r) * (q.z - p.z) - (q.r - p.r) * (w.z - v.z)) := by ring
  simp only [this]
  simp [a1]

/-- C153, division, `CrossesDomain`: a step is reported exactly if one of its two parts is, where
the point of division lies on the straight path between the poloidal positions of the ends.
Missing: points of division on the straight path in space (`C153_refuted_parts`), and paths of which
one of the parts begins in the first vertex. -/
theorem C153_parts_partial (dom : List Pt) (x1 y1 z1 x2 y2 z2 x y z a : ℝ) (a0 : 0 < a) (a1 : a < 1)
    (hm : poloidal x y z = between (poloidal x1 y1 z1) (poloidal x2 y2 z2) a)
    (h1 : dom[0]? ≠ some (poloidal x1 y1 z1)) (h2 : dom[0]? ≠ some (poloidal x y z)) :
    crossesDomain dom x1 y1 z1 x2 y2 z2 = some true ↔
      crossesDomain dom x1 y1 z1 x y z = some true ∨ crossesDomain dom x y z x2 y2 z2 = some true := by
  by_cases hd : dom = []
  · subst hd; simp [crossesDomain]
  · rw [crosses_iff dom _ _ _ _ _ _ hd h1, crosses_iff dom _ _ _ _ _ _ hd h1, crosses_iff dom _ _ _ _ _ _ hd h2, hm]
    generalize poloidal x1 y1 z1 = p
    generalize poloidal x2 y2 z2 = q
    constructor
    · rintro ⟨v, w, hs, h | h⟩
      · exact .inl ⟨v, w, hs, .inl ((parallel_first a0.ne').2 h)⟩
      · rcases (meet_split a0 a1).1 h with h | h
        · exact .inl ⟨v, w, hs, .inr h⟩
        · exact .inr ⟨v, w, hs, .inr h⟩
    · rintro (⟨v, w, hs, h | h⟩ | ⟨v, w, hs, h | h⟩)
      · exact ⟨v, w, hs, .inl ((parallel_first a0.ne').1 h)⟩
      · exact ⟨v, w, hs, .inr ((meet_split a0 a1).2 (.inl h))⟩
      · exact ⟨v, w, hs, .inl ((parallel_second (by linarith)).1 h)⟩
      · exact ⟨v, w, hs, .inr ((meet_split a0 a1).2 (.inr h))⟩

/-- C153 as stated is refuted for `CrossesDomain`: a straight step past the axis of symmetry is not
reported, its first half is.  The path of the step in the poloidal plane is curved, the test
takes it as straight. -/
theorem C153_refuted_parts :
    along ⟨3, 4, 0⟩ ⟨3, -4, 1⟩ (1 / 2) = ⟨3, 0, 1 / 2⟩ ∧
    crossesDomain [⟨4, -1⟩, ⟨9 / 2, 2⟩] 3 4 0 3 (-4) 1 = some false ∧
    crossesDomain [⟨4, -1⟩, ⟨9 / 2, 2⟩] 3 4 0 3 0 (1 / 2) = some true := by
  have e1 : Real.sqrt ((3 : ℝ) ^ 2 + 4 ^ 2) = 5 := by
    rw [show (3 : ℝ) ^ 2 + 4 ^ 2 = 5 ^ 2 from by norm_num]; exact Real.sqrt_sq (by norm_num)
  have e2 : Real.sqrt ((3 : ℝ) ^ 2 + (-4) ^ 2) = 5 := by
    rw [show (3 : ℝ) ^ 2 + (-4) ^ 2 = 5 ^ 2 from by norm_num]; exact Real.sqrt_sq (by norm_num)
  have e3 : Real.sqrt ((3 : ℝ) ^ 2 + 0 ^ 2) = 3 := by
    rw [show (3 : ℝ) ^ 2 + 0 ^ 2 = 3 ^ 2 from by norm_num]; exact Real.sqrt_sq (by norm_num)
  refine ⟨?_, ?_, ?_⟩
  · norm_num [along]
  · simp only [crossesDomain, e1, e2]
    norm_num [crossesLoop]
  · simp only [crossesDomain, e1, e3]
    norm_num [crossesLoop]

/-- The hypotheses of `C153_parts_partial` and `C153_back_partial` hold, e.g., for a level step through
an upright side. -/
example : poloidal 2 0 1 = between (poloidal 1 0 1) (poloidal 3 0 1) (1 / 2) ∧
    ([⟨2, 0⟩, ⟨2, 5⟩] : List Pt)[0]? ≠ some (poloidal 1 0 1) ∧ ([⟨2, 0⟩, ⟨2, 5⟩] : List Pt)[0]? ≠ some (poloidal 2 0 1) := by
  refine ⟨?_, ?_, ?_⟩
  · have e : Real.sqrt 4 = 2 := by
      rw [show (4 : ℝ) = 2 ^ 2 from by norm_num]; exact Real.sqrt_sq (by norm_num)
    have e' : Real.sqrt 9 = 3 := by
      rw [show (9 : ℝ) = 3 ^ 2 from by norm_num]; exact Real.sqrt_sq (by norm_num)
    apply Pt.ext
    · norm_num [poloidal, between, e, e']
    · norm_num [poloidal, between]
  · intro h
    have := congrArg Pt.z (Option.some.inj h)
    norm_num [poloidal] at this
  · intro h
    have := congrArg Pt.z (Option.some.inj h)
    norm_num [poloidal] at this

/-! ### the test in space -/

theorem along_swap (p0 p1 : P3) (t : ℝ) : along p1 p0 (1 - t) = along p0 p1 t := by
  simp only [along, P3.mk.injEq]
  refine ⟨?_, ?_, ?_⟩ <;> ring

theorem between_swap (v w : Pt) (s : ℝ) : between w v (1 - s) = between v w s := by
  simp only [between, Pt.mk.injEq]
  refine ⟨?_, ?_⟩ <;> ring

theorem considered_swap {ar : ℝ} {o : Bool} {p0 p1 : P3} {v w : Pt} (h : Considered ar o p0 p1 v w) : Considered ar o p1 p0 v w := by
  obtain ⟨h1, h2, h3⟩ := h
  exact ⟨h1, by tauto, by tauto⟩

theorem considered_turn {ar : ℝ} {o : Bool} {p0 p1 : P3} {v w : Pt} (h : Considered ar o p0 p1 v w) : Considered ar o p0 p1 w v := by
  obtain ⟨h1, h2, h3⟩ := h
  exact ⟨by tauto, by tauto, by tauto⟩

/-- What is reported of one tile. -/
def Reported (p0 p1 : P3) (v w : Pt) : Prop :=
  (v.z ≠ w.z ∧ (SameSlope p0 p1 v w ∨ MeetsCone p0 p1 v w)) ∨ (v.z = w.z ∧ MeetsMirrored p0 p1 v w)

theorem reported_swap {p0 p1 : P3} {v w : Pt} (h : Reported p0 p1 v w) : Reported p1 p0 v w := by
  rcases h with ⟨hz, h | ⟨t, s, t0, t1, e1, e2⟩⟩ | ⟨hz, hp, hr, t, s, s0, s1, e1, e2⟩
  · refine .inl ⟨hz, .inl ?_⟩
    unfold SameSlope at *
    linear_combination h
  · refine .inl ⟨hz, .inr ⟨1 - t, s, by linarith, by linarith, ?_, ?_⟩⟩
    · rw [along_swap]; exact e1
    · rw [along_swap]; exact e2
  · refine .inr ⟨hz, hp.symm, hr, 1 - t, s, s0, s1, ?_, ?_⟩
    · rw [along_swap]; exact e1
    · rw [along_swap]; exact e2

theorem reported_turn {p0 p1 : P3} {v w : Pt} (h : Reported p0 p1 v w) : Reported p0 p1 w v := by
  rcases h with ⟨hz, h | ⟨t, s, t0, t1, e1, e2⟩⟩ | ⟨hz, hp, hr, t, s, s0, s1, e1, e2⟩
  · refine .inl ⟨hz.symm, .inl ?_⟩
    unfold SameSlope at *
    linear_combination h
  · refine .inl ⟨hz.symm, .inr ⟨t, 1 - s, t0, t1, ?_, ?_⟩⟩
    · rw [between_swap]; exact e1
    · rw [between_swap]; exact e2
  · refine .inr ⟨hz.symm, hp, hr.symm, t, 1 - s, by linarith, by linarith, ?_, ?_⟩
    · rw [e1, hz]
    · rw [between_swap]; exact e2

theorem bool_ext {a b : Bool} (h : a = true ↔ b = true) : a = b := by
  cases a <;> cases b <;> simp_all

/-- C153, direction, `IntersectsDomain3D`: the way back is answered as the way there, for every wall
and every step. -/
theorem C153_back_space (axis : Pt) (dom : List Pt) (p0 p1 : P3) (outer : Bool) :
    intersects3D axis dom p1 p0 outer = intersects3D axis dom p0 p1 outer := by
  refine bool_ext ?_
  rw [C99_exact, C99_exact]
  constructor <;> rintro ⟨v, w, ht, hc, h⟩ <;> exact ⟨v, w, ht, considered_swap hc, reported_swap h⟩

theorem tile_reverse {dom : List Pt} {v w : Pt} : Tile dom.reverse v w ↔ Tile dom w v := by
  unfold Tile
  rw [side_reverse_iff, List.getLast?_reverse, List.head?_reverse]
  tauto

/-- C153, order of the vertices, `IntersectsDomain3D`: a wall listed in the other sense is the same
wall. -/
theorem C153_listed_space (axis : Pt) (dom : List Pt) (p0 p1 : P3) (outer : Bool) :
    intersects3D axis dom.reverse p0 p1 outer = intersects3D axis dom p0 p1 outer := by
  refine bool_ext ?_
  rw [C99_exact, C99_exact]
  constructor
  · rintro ⟨v, w, ht, hc, h⟩
    exact ⟨w, v, tile_reverse.1 ht, considered_turn hc, reported_turn h⟩
  · rintro ⟨v, w, ht, hc, h⟩
    exact ⟨w, v, tile_reverse.2 ht, considered_turn hc, reported_turn h⟩

/-- A point turned about the axis of symmetry; `c` and `s` are cosine and sine of the angle. -/
def turnP (c s : ℝ) (p : P3) : P3 := ⟨c * p.x - s * p.y, s * p.x + c * p.y, p.z⟩

theorem reported_turnP {c s : ℝ} (hcs : c ^ 2 + s ^ 2 = 1) {p0 p1 : P3} {v w : Pt} :
    Reported (turnP c s p0) (turnP c s p1) v w ↔ Reported p0 p1 v w := by
  have hdist : ∀ t, (along (turnP c s p0) (turnP c s p1) t).x ^ 2 + (along (turnP c s p0) (turnP c s p1) t).y ^ 2
      = (along p0 p1 t).x ^ 2 + (along p0 p1 t).y ^ 2 := by
    intro t
    simp only [along, turnP]
    linear_combination ((p0.x + t * (p1.x - p0.x)) ^ 2 + (p0.y + t * (p1.y - p0.y)) ^ 2) * hcs
  have hheight : ∀ t, (along (turnP c s p0) (turnP c s p1) t).z = (along p0 p1 t).z := fun t => rfl
  have hslope : SameSlope (turnP c s p0) (turnP c s p1) v w ↔ SameSlope p0 p1 v w := by
    unfold SameSlope turnP
    have : (c * p1.x - s * p1.y - (c * p0.x - s * p0.y)) ^ 2 + (s * p1.x + c * p1.y - (s * p0.x + c * p0.y)) ^ 2
        = (p1.x - p0.x) ^ 2 + (p1.y - p0.y) ^ 2 := by
      linear_combination ((p1.x - p0.x) ^ 2 + (p1.y - p0.y) ^ 2) * hcs
    simp only [this]
  unfold Reported MeetsCone MeetsMirrored
  simp only [hslope, hdist, hheight]
  rfl

/-- C153, place around the axis, `IntersectsDomain3D`: turning the step about the axis of symmetry
does not change the answer. -/
theorem C153_turned_space (axis : Pt) (dom : List Pt) (p0 p1 : P3) (outer : Bool) (φ : ℝ) :
    intersects3D axis dom (turnP (Real.cos φ) (Real.sin φ) p0) (turnP (Real.cos φ) (Real.sin φ) p1) outer
      = intersects3D axis dom p0 p1 outer := by
  refine bool_ext ?_
  rw [C99_exact, C99_exact]
  have key := fun v w => reported_turnP (Real.cos_sq_add_sin_sq φ) (p0 := p0) (p1 := p1) (v := v) (w := w)
  constructor
  · rintro ⟨v, w, ht, hc, h⟩
    exact ⟨v, w, ht, hc, (key v w).1 h⟩
  · rintro ⟨v, w, ht, hc, h⟩
    exact ⟨v, w, ht, hc, (key v w).2 h⟩

theorem along_first (p0 p1 : P3) (a t : ℝ) : along p0 (along p0 p1 a) t = along p0 p1 (t * a) := by
  simp only [along, P3.mk.injEq]
  refine ⟨?_, ?_, ?_⟩ <;> ring

theorem along_second (p0 p1 : P3) (a t : ℝ) : along (along p0 p1 a) p1 t = along p0 p1 (a + t * (1 - a)) := by
  simp only [along, P3.mk.injEq]
  refine ⟨?_, ?_, ?_⟩ <;> ring

theorem considered_first {ar : ℝ} {o : Bool} {p0 p1 : P3} {v w : Pt} {a : ℝ} (a0 : 0 ≤ a) (a1 : a ≤ 1)
    (h : Considered ar o p0 (along p0 p1 a) v w) : Considered ar o p0 p1 v w := by
  obtain ⟨h1, h2, h3⟩ := h
  have hw := weight p0.z p1.z a a0 a1
  simp only [along] at h2 h3
  refine ⟨h1, ?_, ?_⟩
  · by_contra hn
    push Not at hn
    obtain ⟨n1, n2, n3, n4⟩ := hn
    rcases hw.1 with h | h <;> rcases h2 with h' | h' | h' | h' <;> linarith
  · by_contra hn
    push Not at hn
    obtain ⟨n1, n2, n3, n4⟩ := hn
    rcases hw.2 with h | h <;> rcases h3 with h' | h' | h' | h' <;> linarith

theorem reported_first {p0 p1 : P3} {v w : Pt} {a : ℝ} (a0 : 0 < a) (a1 : a ≤ 1) (h : Reported p0 (along p0 p1 a) v w) :
    Reported p0 p1 v w := by
  rcases h with ⟨hz, h | ⟨t, s, t0, t1, e1, e2⟩⟩ | ⟨hz, hp, hr, t, s, s0, s1, e1, e2⟩
  · refine .inl ⟨hz, .inl ?_⟩
    unfold SameSlope along at *
    simp only at h
    have ha : a ^ 2 ≠ 0 := by positivity
    apply mul_left_cancel₀ ha
    linear_combination h
  · refine .inl ⟨hz, .inr ⟨t * a, s, by positivity, by nlinarith, ?_, ?_⟩⟩
    · rw [← along_first]; exact e1
    · rw [← along_first]; exact e2
  · refine .inr ⟨hz, ?_, hr, t * a, s, s0, s1, ?_, ?_⟩
    · intro hpp
      apply hp
      simp only [along, hpp, sub_self, mul_zero, add_zero]
    · rw [← along_first]; exact e1
    · rw [← along_first]; exact e2

/-- C153, division, `IntersectsDomain3D`: if a part of a straight step is reported then so is the step. -/
theorem C153_part_space (axis : Pt) (dom : List Pt) (p0 p1 : P3) (outer : Bool) (a : ℝ) (a0 : 0 < a) (a1 : a < 1)
    (h : intersects3D axis dom p0 (along p0 p1 a) outer = true ∨ intersects3D axis dom (along p0 p1 a) p1 outer = true) :
    intersects3D axis dom p0 p1 outer = true := by
  have key : ∀ (q0 q1 : P3) (b : ℝ), 0 < b → b ≤ 1 → intersects3D axis dom q0 (along q0 q1 b) outer = true →
      intersects3D axis dom q0 q1 outer = true := by
    intro q0 q1 b b0 b1 h
    obtain ⟨v, w, ht, hc, h⟩ := (C99_exact _ _ _ _ _).1 h
    exact (C99_exact _ _ _ _ _).2 ⟨v, w, ht, considered_first b0.le b1 hc, reported_first b0 b1 h⟩
  rcases h with h | h
  · exact key p0 p1 a a0 a1.le h
  · rw [← C153_back_space]
    refine key p1 p0 (1 - a) (by linarith) (by linarith) ?_
    rw [along_swap, C153_back_space]
    exact h

/-- C153, division, `IntersectsDomain3D`: a step that does meet a sloping tile (which is not excluded as
outer wall) is reported in one of its two parts.  Missing: steps that are reported although they meet no
tile (`C153_refuted_space`). -/
theorem C153_parts_space_partial (axis : Pt) (dom : List Pt) (p0 p1 : P3) (outer : Bool) (a : ℝ) (a0 : 0 < a) (a1 : a < 1) (v w : Pt)
    (ht : Tile dom v w) (hz : v.z ≠ w.z) (ho : outer = true ∨ v.r ≤ axis.r ∨ w.r ≤ axis.r) (h : Hits p0 p1 v w) :
    intersects3D axis dom p0 (along p0 p1 a) outer = true ∨ intersects3D axis dom (along p0 p1 a) p1 outer = true := by
  obtain ⟨t, s, t0, t1, s0, s1, e1, e2⟩ := h
  rcases le_total t a with hta | hta
  · left
    refine C47_no_miss_partial axis dom _ _ outer v w ht hz ⟨t / a, s, by positivity, (div_le_one a0).2 hta, s0, s1, ?_, ?_⟩ ho
    · rw [along_first, div_mul_cancel₀ _ a0.ne']; exact e1
    · rw [along_first, div_mul_cancel₀ _ a0.ne']; exact e2
  · right
    have hb : (0 : ℝ) < 1 - a := by linarith
    have e : a + (t - a) / (1 - a) * (1 - a) = t := by rw [div_mul_cancel₀ _ hb.ne']; ring
    refine C47_no_miss_partial axis dom _ _ outer v w ht hz
      ⟨(t - a) / (1 - a), s, div_nonneg (by linarith) hb.le, (div_le_one hb).2 (by linarith), s0, s1, ?_, ?_⟩ ho
    · rw [along_second, e]; exact e1
    · rw [along_second, e]; exact e2

/-- C153, division, `IntersectsDomain3D`: for level steps of positive length the division is exact. -/
theorem C153_level_space_partial (axis : Pt) (dom : List Pt) (p0 p1 : P3) (outer : Bool) (a : ℝ) (a0 : 0 < a) (a1 : a < 1)
    (hl : p0.z = p1.z) (hne : p0.x ≠ p1.x ∨ p0.y ≠ p1.y) :
    intersects3D axis dom p0 p1 outer = true ↔
      intersects3D axis dom p0 (along p0 p1 a) outer = true ∨ intersects3D axis dom (along p0 p1 a) p1 outer = true := by
  constructor
  · intro h
    obtain ⟨v, w, ht, ho, hz, hh⟩ := (C99_level_partial axis dom p0 p1 outer hl hne).1 h
    exact C153_parts_space_partial axis dom p0 p1 outer a a0 a1 v w ht hz ho hh
  · exact C153_part_space axis dom p0 p1 outer a a0 a1

/-- C153 as stated is refuted for `IntersectsDomain3D`: a step is reported, neither of its two parts
is. -/
theorem C153_refuted_space :
    intersects3D ⟨1, 0⟩ [⟨2, 0⟩, ⟨2, 1⟩] ⟨0, 0, 0⟩ ⟨4, 0, 8⟩ true = true ∧
    along ⟨0, 0, 0⟩ ⟨4, 0, 8⟩ (1 / 4) = ⟨1, 0, 2⟩ ∧
    intersects3D ⟨1, 0⟩ [⟨2, 0⟩, ⟨2, 1⟩] ⟨0, 0, 0⟩ ⟨1, 0, 2⟩ true = false ∧
    intersects3D ⟨1, 0⟩ [⟨2, 0⟩, ⟨2, 1⟩] ⟨1, 0, 2⟩ ⟨4, 0, 8⟩ true = false := by
  refine ⟨C99_refuted_beyond.1, ?_, ?_, ?_⟩
  · norm_num [along]
  · have e : Real.sqrt 4 = 2 := by
      rw [show (4 : ℝ) = 2 ^ 2 from by norm_num]; exact Real.sqrt_sq (by norm_num)
    norm_num [intersects3D, tileLoop, tileTest, tileHit, e]
  · norm_num [intersects3D, tileLoop, tileTest]

end

end Softlib
