/-
Properties C44 to C47: the wall.
-/
import Verif.Magnetic.DomainModel
import Mathlib.Tactic.Linarith
import Mathlib.Tactic.FieldSimp
import Mathlib.Tactic.Ring
import Mathlib.Tactic.NormNum
import Mathlib.Order.Bounds.Basic

namespace Softlib

open Softlib.Magnetic

noncomputable section

/-- The point at fraction `t` between two points. -/
def between (p q : Pt) (t : ℝ) : Pt := ⟨p.r + t * (q.r - p.r), p.z + t * (q.z - p.z)⟩

/-- Two segments have a common point. -/
def Meet (p q v w : Pt) : Prop := ∃ s t, 0 ≤ s ∧ s ≤ 1 ∧ 0 ≤ t ∧ t ≤ 1 ∧ between p q t = between v w s

/-- `v` and `w` are consecutive vertices. -/
def Side (dom : List Pt) (v w : Pt) : Prop := ∃ (i : Nat), dom[i]? = some v ∧ dom[i + 1]? = some w

/-- Segments are parallel, or one of them is a point. -/
def Parallel (p q v w : Pt) : Prop := (w.r - v.r) * (q.z - p.z) - (q.r - p.r) * (w.z - v.z) = 0

theorem side_cons {v w x y : Pt} {rest : List Pt} :
    Side (v :: w :: rest) x y ↔ (x = v ∧ y = w) ∨ Side (w :: rest) x y := by
  constructor
  · rintro ⟨i, h1, h2⟩
    cases i with
    | zero => left; simp at h1 h2; exact ⟨h1.symm, h2.symm⟩
    | succ i => right; exact ⟨i, by simpa using h1, by simpa using h2⟩
  · rintro (⟨rfl, rfl⟩ | ⟨i, h1, h2⟩)
    · exact ⟨0, rfl, rfl⟩
    · exact ⟨i + 1, by simpa using h1, by simpa using h2⟩

/-! ### C44 -/

/-- The solution of the two equations is unique. -/
theorem meet_iff (p q v w : Pt) (hdet : ¬ Parallel p q v w) :
    let det := (w.r - v.r) * (q.z - p.z) - (q.r - p.r) * (w.z - v.z)
    let s := 1 / det * ((p.r - v.r) * (q.z - p.z) - (p.z - v.z) * (q.r - p.r))
    let t := -(1 / det) * ((p.z - v.z) * (w.r - v.r) - (p.r - v.r) * (w.z - v.z))
    (s ≥ 0 ∧ s ≤ 1 ∧ t ≥ 0 ∧ t ≤ 1) ↔ Meet p q v w := by
  intro det s t
  have hd : det ≠ 0 := hdet
  constructor
  · rintro ⟨h1, h2, h3, h4⟩
    refine ⟨s, t, h1, h2, h3, h4, ?_⟩
    apply Pt.ext
    · show p.r + t * (q.r - p.r) = v.r + s * (w.r - v.r)
      simp only [s, t]
      field_simp
      simp only [det]
      ring
    · show p.z + t * (q.z - p.z) = v.z + s * (w.z - v.z)
      simp only [s, t]
      field_simp
      simp only [det]
      ring
  · rintro ⟨s', t', h1, h2, h3, h4, he⟩
    have e1 : p.r + t' * (q.r - p.r) = v.r + s' * (w.r - v.r) := congrArg Pt.r he
    have e2 : p.z + t' * (q.z - p.z) = v.z + s' * (w.z - v.z) := congrArg Pt.z he
    have hs : s = s' := by
      have : det * s' = (p.r - v.r) * (q.z - p.z) - (p.z - v.z) * (q.r - p.r) := by
        simp only [det]; linear_combination (p.z - q.z) * e1 + (q.r - p.r) * e2
      simp only [s]
      rw [← this]
      field_simp
    have ht : t = t' := by
      have : det * t' = -((p.z - v.z) * (w.r - v.r) - (p.r - v.r) * (w.z - v.z)) := by
        simp only [det]; linear_combination (v.z - w.z) * e1 + (w.r - v.r) * e2
      simp only [t]
      rw [neg_mul, ← mul_neg, ← this]
      field_simp
    rw [hs, ht]
    exact ⟨h1, h2, h3, h4⟩

theorem loop_iff (p q : Pt) (dom : List Pt) :
    crossesLoop p ⟨q.r - p.r, q.z - p.z⟩ dom = true ↔
      ∃ v w, Side dom v w ∧ p ≠ v ∧ (Parallel p q v w ∨ Meet p q v w) := by
  induction dom with
  | nil =>
    constructor
    · intro h; cases h
    · rintro ⟨v, w, ⟨i, h, -⟩, -⟩; simp at h
  | cons v dom ih =>
    cases dom with
    | nil =>
      constructor
      · intro h; cases h
      · rintro ⟨v', w', ⟨i, h1, h2⟩, -⟩
        simp at h2
    | cons w rest =>
      rw [crossesLoop]
      simp only
      have hpv : (p.r - v.r = 0 ∧ p.z - v.z = 0) ↔ p = v := by
        constructor
        · rintro ⟨h1, h2⟩; exact Pt.ext (by linarith) (by linarith)
        · rintro rfl; exact ⟨sub_self _, sub_self _⟩
      have hex : (∃ x y, Side (v :: w :: rest) x y ∧ p ≠ x ∧ (Parallel p q x y ∨ Meet p q x y)) ↔
          (p ≠ v ∧ (Parallel p q v w ∨ Meet p q v w)) ∨
          (∃ x y, Side (w :: rest) x y ∧ p ≠ x ∧ (Parallel p q x y ∨ Meet p q x y)) := by
        constructor
        · rintro ⟨x, y, h1, h2, h3⟩
          rcases side_cons.1 h1 with ⟨rfl, rfl⟩ | h1
          · exact .inl ⟨h2, h3⟩
          · exact .inr ⟨x, y, h1, h2, h3⟩
        · rintro (⟨h2, h3⟩ | ⟨x, y, h1, h2, h3⟩)
          · exact ⟨v, w, side_cons.2 (.inl ⟨rfl, rfl⟩), h2, h3⟩
          · exact ⟨x, y, side_cons.2 (.inr h1), h2, h3⟩
      rw [hex]
      by_cases h1 : p = v
      · rw [if_pos (hpv.2 h1), ih]
        simp [h1]
      · rw [if_neg (fun h => h1 (hpv.1 h))]
        by_cases h2 : Parallel p q v w
        · have h2' := h2
          unfold Parallel at h2'
          rw [if_pos h2']
          simp [h1, h2]
        · have h2' := h2
          unfold Parallel at h2'
          rw [if_neg h2']
          have hm := meet_iff p q v w h2
          simp only at hm
          by_cases h3 : Meet p q v w
          · rw [if_pos (hm.2 h3)]
            simp [h1, h3]
          · rw [if_neg (fun h => h3 (hm.1 h)), ih]
            simp [h2, h3]

/-- Poloidal position of a point. -/
def poloidal (x y z : ℝ) : Pt := ⟨Real.sqrt (x ^ 2 + y ^ 2), z⟩

/-- C44, what the function reports, exactly: true iff for some side whose first vertex is not
the starting point, the path meets the side or is parallel to it. -/
theorem C44_exact (dom : List Pt) (hd : dom ≠ []) (x1 y1 z1 x2 y2 z2 : ℝ) :
    ∃ b, crossesDomain dom x1 y1 z1 x2 y2 z2 = some b ∧
      (b = true ↔ ∃ v w, Side dom v w ∧ poloidal x1 y1 z1 ≠ v ∧
        (Parallel (poloidal x1 y1 z1) (poloidal x2 y2 z2) v w ∨ Meet (poloidal x1 y1 z1) (poloidal x2 y2 z2) v w)) := by
  unfold crossesDomain
  rw [if_neg (by simpa using hd)]
  exact ⟨_, rfl, loop_iff (poloidal x1 y1 z1) (poloidal x2 y2 z2) dom⟩

/-- C44, no crossing is missed: if the path does not start in the very first vertex and meets a
side, the answer is true. -/
theorem C44_no_miss_partial (dom : List Pt) (x1 y1 z1 x2 y2 z2 : ℝ) (v w : Pt) (hs : Side dom v w)
    (hm : Meet (poloidal x1 y1 z1) (poloidal x2 y2 z2) v w) (hfirst : dom[0]? ≠ some (poloidal x1 y1 z1)) :
    crossesDomain dom x1 y1 z1 x2 y2 z2 = some true := by
  have hd : dom ≠ [] := by rintro rfl; obtain ⟨i, h, -⟩ := hs; simp at h
  obtain ⟨b, hb, hiff⟩ := C44_exact dom hd x1 y1 z1 x2 y2 z2
  rw [hb]
  congr 1
  rw [hiff]
  generalize poloidal x1 y1 z1 = p at hm hfirst
  generalize poloidal x2 y2 z2 = q at hm
  obtain ⟨i, h1, h2⟩ := hs
  by_cases hpv : p = v
  · -- the previous vertex that differs from the starting point
    have key : ∀ (i : Nat), dom[i]? = some p → ∃ x, x ≠ p ∧ Side dom x p := by
      intro i
      induction i with
      | zero => intro h; exact absurd h hfirst
      | succ i ih =>
        intro h
        have hi : i < dom.length := by
          have := (List.getElem?_eq_some_iff.1 h).1
          omega
        by_cases he : dom[i] = p
        · exact ih (by rw [List.getElem?_eq_getElem hi, he])
        · exact ⟨dom[i], he, i, List.getElem?_eq_getElem hi, h⟩
    obtain ⟨x, hx, hside⟩ := key i (by rw [hpv]; exact h1)
    refine ⟨x, p, hside, fun h => hx h.symm, .inr ⟨1, 0, by norm_num, le_refl _, le_refl _, by norm_num, ?_⟩⟩
    apply Pt.ext <;> simp [between]
  · exact ⟨v, w, ⟨i, h1, h2⟩, hpv, .inr hm⟩

/-- C44, exact answer when no side is parallel to the path and the path does not start in the
first vertex.
Missing: parallel sides (`C44_refuted_parallel`), paths starting in the first vertex
(`C44_refuted_vertex`), and the side from the last to the first vertex
(`C44_refuted_open`). -/
theorem C44_iff_partial (dom : List Pt) (hd : dom ≠ []) (x1 y1 z1 x2 y2 z2 : ℝ)
    (hpar : ∀ v w, Side dom v w → ¬ Parallel (poloidal x1 y1 z1) (poloidal x2 y2 z2) v w)
    (hfirst : dom[0]? ≠ some (poloidal x1 y1 z1)) :
    ∃ b, crossesDomain dom x1 y1 z1 x2 y2 z2 = some b ∧
      (b = true ↔ ∃ v w, Side dom v w ∧ Meet (poloidal x1 y1 z1) (poloidal x2 y2 z2) v w) := by
  obtain ⟨b, hb, hiff⟩ := C44_exact dom hd x1 y1 z1 x2 y2 z2
  refine ⟨b, hb, ?_⟩
  constructor
  · intro h
    obtain ⟨v, w, h1, -, h2 | h2⟩ := hiff.1 h
    · exact absurd h2 (hpar v w h1)
    · exact ⟨v, w, h1, h2⟩
  · rintro ⟨v, w, h1, h2⟩
    have := C44_no_miss_partial dom x1 y1 z1 x2 y2 z2 v w h1 h2 hfirst
    rw [hb, Option.some.injEq] at this
    exact this

/-- C44 as stated is refuted: a path parallel to a far-away side is reported as crossing. -/
theorem C44_refuted_parallel :
    crossesDomain [⟨10, 0⟩, ⟨10, 5⟩] 1 0 0 1 0 1 = some true ∧ ¬ Meet (poloidal 1 0 0) (poloidal 1 0 1) ⟨10, 0⟩ ⟨10, 5⟩ := by
  constructor
  · norm_num [crossesDomain, crossesLoop]
  · rintro ⟨s, t, -, -, -, -, h⟩
    have := congrArg Pt.r h
    norm_num [between, poloidal] at this

/-- C44 as stated is refuted: a path starting in the first vertex touches the wall but is not
reported. -/
theorem C44_refuted_vertex :
    crossesDomain [⟨1, 0⟩, ⟨1, 5⟩] 1 0 0 2 0 0 = some false ∧ Meet (poloidal 1 0 0) (poloidal 2 0 0) ⟨1, 0⟩ ⟨1, 5⟩ := by
  constructor
  · norm_num [crossesDomain, crossesLoop]
  · refine ⟨0, 0, le_refl _, by norm_num, le_refl _, by norm_num, ?_⟩
    apply Pt.ext <;> norm_num [between, poloidal]

/-- C44 as stated is refuted for walls whose last vertex does not repeat the first: the closing
side is not tested (a triangle, left through its third side). -/
theorem C44_refuted_open :
    crossesDomain [⟨1, 0⟩, ⟨3, 0⟩, ⟨3, 2⟩] (5 / 2) 0 1 1 0 (3 / 2) = some false ∧
    Meet (poloidal (5 / 2) 0 1) (poloidal 1 0 (3 / 2)) ⟨3, 2⟩ ⟨1, 0⟩ := by
  have hsq : Real.sqrt ((5 / 2 : ℝ) ^ 2) = 5 / 2 := Real.sqrt_sq (by norm_num)
  constructor
  · have e1 : Real.sqrt ((5 / 2 : ℝ) ^ 2 + 0 ^ 2) = 5 / 2 := by rw [show (5 / 2 : ℝ) ^ 2 + 0 ^ 2 = (5 / 2) ^ 2 from by ring, hsq]
    have e2 : Real.sqrt ((1 : ℝ) ^ 2 + 0 ^ 2) = 1 := by norm_num
    simp only [crossesDomain, e1, e2]
    norm_num [crossesLoop]
  · refine ⟨7 / 16, 1 / 4, by norm_num, by norm_num, by norm_num, by norm_num, ?_⟩
    have e1 : Real.sqrt ((5 / 2 : ℝ) ^ 2 + 0 ^ 2) = 5 / 2 := by rw [show (5 / 2 : ℝ) ^ 2 + 0 ^ 2 = (5 / 2) ^ 2 from by ring, hsq]
    have e2 : Real.sqrt ((1 : ℝ) ^ 2 + 0 ^ 2) = 1 := by norm_num
    apply Pt.ext <;> simp only [between, poloidal, e1, e2] <;> norm_num

/-- C44: with an empty domain the function reads outside the arrays. -/
theorem C44_empty_undefined (x1 y1 z1 x2 y2 z2 : ℝ) : crossesDomain [] x1 y1 z1 x2 y2 z2 = none := by
  rfl

/-- The hypotheses of `C44_iff_partial` hold, e.g., for a vertical side and a horizontal path
through it. -/
example : crossesDomain [⟨2, -1⟩, ⟨2, 1⟩] 1 0 0 3 0 0 = some true ∧ crossesDomain [⟨2, -1⟩, ⟨2, 1⟩] 1 0 5 3 0 5 = some false := by
  have e3 : Real.sqrt ((3 : ℝ) ^ 2 + 0 ^ 2) = 3 := by
    rw [show (3 : ℝ) ^ 2 + 0 ^ 2 = 3 ^ 2 from by ring, Real.sqrt_sq (by norm_num)]
  constructor <;> (simp only [crossesDomain, e3]; norm_num [crossesLoop])

/-! ### C45 -/

/-- Calls. -/
inductive DomOp where
  | set (d : List Pt)
  | get

/-- A history of calls; the answers of the `get`s. -/
def domRun : Dom → List DomOp → List Box
  | _, [] => []
  | s, .set d :: ops => domRun (setDomain s d) ops
  | s, .get :: ops => (getBounds s).2 :: domRun (getBounds s).1 ops

/-- The smallest rectangle around a point and a list of points: it contains them, and each of
its sides touches one of them. -/
def Smallest (b : Box) (axis : Pt) (d : List Pt) : Prop :=
  IsLeast {x | ∃ v ∈ axis :: d, x = v.r} b.rmin ∧ IsGreatest {x | ∃ v ∈ axis :: d, x = v.r} b.rmax ∧
  IsLeast {x | ∃ v ∈ axis :: d, x = v.z} b.zmin ∧ IsGreatest {x | ∃ v ∈ axis :: d, x = v.z} b.zmax

theorem boxAdd_eq (b : Box) (v : Pt) (hr : b.rmin ≤ b.rmax) (hz : b.zmin ≤ b.zmax) :
    boxAdd b v = ⟨min b.rmin v.r, max b.rmax v.r, min b.zmin v.z, max b.zmax v.z⟩ := by
  obtain ⟨r1, r2, z1, z2⟩ := b
  simp only at hr hz
  unfold boxAdd
  simp only
  have hR : (if v.r < r1 then (⟨v.r, r2, z1, z2⟩ : Box) else if v.r > r2 then ⟨r1, v.r, z1, z2⟩ else ⟨r1, r2, z1, z2⟩) =
      ⟨min r1 v.r, max r2 v.r, z1, z2⟩ := by
    split
    · rename_i h; rw [min_eq_right h.le, max_eq_left (by linarith)]
    · rename_i h
      split
      · rename_i h'; rw [min_eq_left (by linarith), max_eq_right (by linarith)]
      · rename_i h'; rw [min_eq_left (not_lt.1 h), max_eq_left (not_lt.1 h')]
  rw [hR]
  simp only
  split
  · rename_i h; rw [min_eq_right h.le, max_eq_left (show v.z ≤ z2 by linarith)]
  · rename_i h
    split
    · rename_i h'; rw [min_eq_left (show z1 ≤ v.z by linarith), max_eq_right (show z2 ≤ v.z by linarith)]
    · rename_i h'; rw [min_eq_left (show z1 ≤ v.z from not_lt.1 h), max_eq_left (show v.z ≤ z2 from not_lt.1 h')]

theorem fold_box (axis : Pt) : ∀ (d done : List Pt) (b : Box), Smallest b axis done → Smallest (d.foldl boxAdd b) axis (done ++ d) := by
  intro d
  induction d with
  | nil => intro done b h; simpa using h
  | cons v d ih =>
    intro done b h
    rw [List.foldl_cons, show done ++ v :: d = (done ++ [v]) ++ d from by simp]
    apply ih
    obtain ⟨⟨h1, h1'⟩, ⟨h2, h2'⟩, ⟨h3, h3'⟩, ⟨h4, h4'⟩⟩ := h
    rw [boxAdd_eq b v (h1' h2) (h3' h4)]
    have hmem : ∀ x, x ∈ axis :: (done ++ [v]) ↔ x ∈ axis :: done ∨ x = v := by
      intro x; simp [or_assoc]
    refine ⟨⟨?_, ?_⟩, ⟨?_, ?_⟩, ⟨?_, ?_⟩, ⟨?_, ?_⟩⟩
    · rcases min_choice b.rmin v.r with hc | hc
      · rw [hc]; obtain ⟨x, hx, he⟩ := h1; exact ⟨x, (hmem x).2 (.inl hx), he⟩
      · rw [hc]; exact ⟨v, (hmem v).2 (.inr rfl), rfl⟩
    · rintro y ⟨x, hx, rfl⟩
      rcases (hmem x).1 hx with hx | rfl
      · exact le_trans (min_le_left _ _) (h1' ⟨x, hx, rfl⟩)
      · exact min_le_right _ _
    · rcases max_choice b.rmax v.r with hc | hc
      · rw [hc]; obtain ⟨x, hx, he⟩ := h2; exact ⟨x, (hmem x).2 (.inl hx), he⟩
      · rw [hc]; exact ⟨v, (hmem v).2 (.inr rfl), rfl⟩
    · rintro y ⟨x, hx, rfl⟩
      rcases (hmem x).1 hx with hx | rfl
      · exact le_trans (h2' ⟨x, hx, rfl⟩) (le_max_left _ _)
      · exact le_max_right _ _
    · rcases min_choice b.zmin v.z with hc | hc
      · rw [hc]; obtain ⟨x, hx, he⟩ := h3; exact ⟨x, (hmem x).2 (.inl hx), he⟩
      · rw [hc]; exact ⟨v, (hmem v).2 (.inr rfl), rfl⟩
    · rintro y ⟨x, hx, rfl⟩
      rcases (hmem x).1 hx with hx | rfl
      · exact le_trans (min_le_left _ _) (h3' ⟨x, hx, rfl⟩)
      · exact min_le_right _ _
    · rcases max_choice b.zmax v.z with hc | hc
      · rw [hc]; obtain ⟨x, hx, he⟩ := h4; exact ⟨x, (hmem x).2 (.inl hx), he⟩
      · rw [hc]; exact ⟨v, (hmem v).2 (.inr rfl), rfl⟩
    · rintro y ⟨x, hx, rfl⟩
      rcases (hmem x).1 hx with hx | rfl
      · exact le_trans (h4' ⟨x, hx, rfl⟩) (le_max_left _ _)
      · exact le_max_right _ _

theorem fresh_bounds (axis : Pt) (d : List Pt) :
    Smallest (d.foldl boxAdd ⟨axis.r, axis.r, axis.z, axis.z⟩) axis d := by
  have h0 : Smallest ⟨axis.r, axis.r, axis.z, axis.z⟩ axis [] := by
    refine ⟨⟨⟨axis, by simp, rfl⟩, ?_⟩, ⟨⟨axis, by simp, rfl⟩, ?_⟩, ⟨⟨axis, by simp, rfl⟩, ?_⟩, ⟨⟨axis, by simp, rfl⟩, ?_⟩⟩ <;>
      (rintro y ⟨x, hx, rfl⟩; simp only [List.mem_singleton] at hx; rw [hx])
  exact fold_box axis d [] _ h0

/-- The domain in force at the first `get`. -/
def firstSeen : List Pt → List DomOp → List Pt
  | d, [] => d
  | _, .set d' :: ops => firstSeen d' ops
  | d, .get :: _ => d

/-- C45, after any history: every answer is the smallest rectangle around the axis and the
domain that was in force at the first query.
Missing: changes of the domain after the first query are ignored, see `C45_refuted`. -/
theorem C45_bounds_partial (axis : Pt) (d0 : List Pt) (b0 : Box) (ops : List DomOp) :
    ∀ b ∈ domRun ⟨axis, d0, false, b0⟩ ops, Smallest b axis (firstSeen d0 ops) := by
  have hset : ∀ (ops : List DomOp) (d : List Pt) (b : Box), ∀ b' ∈ domRun ⟨axis, d, true, b⟩ ops, b' = b := by
    intro ops
    induction ops with
    | nil => intro d b b' h; cases h
    | cons op ops ih =>
      intro d b b' h
      cases op with
      | set d' => exact ih d' b b' h
      | get =>
        rw [domRun, getBounds, if_pos rfl] at h
        rcases List.mem_cons.1 h with h | h
        · exact h
        · exact ih d b b' h
  induction ops generalizing d0 with
  | nil => intro b h; cases h
  | cons op ops ih =>
    intro b h
    cases op with
    | set d' => exact ih d' b h
    | get =>
      rw [domRun, getBounds, if_neg (by simp)] at h
      simp only at h
      have hb : b = d0.foldl boxAdd ⟨axis.r, axis.r, axis.z, axis.z⟩ := by
        rcases List.mem_cons.1 h with h | h
        · exact h
        · exact hset ops d0 _ b h
      rw [hb]
      exact fresh_bounds axis d0

/-- C45 as stated is refuted: after a query, a new domain leaves the old rectangle in force. -/
theorem C45_refuted : ∃ b, domRun ⟨⟨1, 0⟩, [⟨2, 0⟩], false, ⟨0, 0, 0, 0⟩⟩ [.get, .set [⟨5, 3⟩], .get] = [b, b] ∧
    ¬ Smallest b ⟨1, 0⟩ [⟨5, 3⟩] := by
  refine ⟨⟨1, 2, 0, 0⟩, ?_, ?_⟩
  · norm_num [domRun, getBounds, setDomain, boxAdd]
  · rintro ⟨-, ⟨-, h⟩, -⟩
    have := h ⟨⟨5, 3⟩, by simp, rfl⟩
    norm_num at this

/-- A triangle around the axis. -/
example : ∃ b, domRun ⟨⟨2, 0⟩, [], false, ⟨0, 0, 0, 0⟩⟩ [.set [⟨1, -1⟩, ⟨3, -1⟩, ⟨2, 2⟩], .get, .get] = [b, b] ∧ b.zmax = 2 := by
  refine ⟨⟨1, 3, -1, 2⟩, ?_, rfl⟩
  norm_num [domRun, getBounds, setDomain, boxAdd]

/-! ### C46 -/

/-- Radii of the points of the wall at height `za`. -/
def atHeight (dom : List Pt) (za : ℝ) : Set ℝ :=
  {x | ∃ v w s, Side dom v w ∧ 0 ≤ s ∧ s ≤ 1 ∧ between v w s = ⟨x, za⟩}

theorem crossR_spec (za : ℝ) (v w : Pt) (h : spans za v w) :
    (∃ s, 0 ≤ s ∧ s ≤ 1 ∧ between v w s = ⟨crossR za v w, za⟩) ∧
    ∀ s x, 0 ≤ s → s ≤ 1 → between v w s = ⟨x, za⟩ → x ≤ crossR za v w := by
  unfold crossR
  by_cases he : w.z = v.z
  · rw [if_pos he]
    have hz : v.z = za := by
      rcases h with ⟨h1, h2⟩ | ⟨h1, h2⟩ <;> linarith
    constructor
    · rcases max_choice v.r w.r with hc | hc
      · exact ⟨0, le_refl _, by norm_num, by apply Pt.ext <;> simp [between, hc, hz]⟩
      · exact ⟨1, by norm_num, le_refl _, by apply Pt.ext <;> simp [between, hc, he, hz]⟩
    · intro s x h0 h1 hb
      have := congrArg Pt.r hb
      simp only [between] at this
      rw [← this]
      rcases le_total v.r w.r with hc | hc
      · rw [max_eq_right hc]; nlinarith
      · rw [max_eq_left hc]; nlinarith
  · rw [if_neg he]
    have hne : w.z - v.z ≠ 0 := sub_ne_zero.2 he
    constructor
    · refine ⟨(za - v.z) / (w.z - v.z), ?_, ?_, ?_⟩
      · rcases h with ⟨h1, h2⟩ | ⟨h1, h2⟩
        · exact div_nonneg_of_nonpos (by linarith) (by linarith)
        · exact div_nonneg (by linarith) (by linarith)
      · rcases h with ⟨h1, h2⟩ | ⟨h1, h2⟩
        · rw [div_le_one_of_neg (lt_of_le_of_ne (by linarith) hne)]; linarith
        · rw [div_le_one (lt_of_le_of_ne (by linarith) hne.symm)]; linarith
      · apply Pt.ext
        · simp only [between]; ring
        · simp only [between]; field_simp; ring
    · intro s x h0 h1 hb
      have e1 := congrArg Pt.r hb
      have e2 := congrArg Pt.z hb
      simp only [between] at e1 e2
      have hs : s = (za - v.z) / (w.z - v.z) := by
        rw [eq_div_iff hne]; linarith
      rw [← e1, hs]
      apply le_of_eq
      ring

theorem spans_of_between (za : ℝ) (v w : Pt) (s x : ℝ) (h0 : 0 ≤ s) (h1 : s ≤ 1) (h : between v w s = ⟨x, za⟩) : spans za v w := by
  have e := congrArg Pt.z h
  simp only [between] at e
  unfold spans
  rcases le_total v.z w.z with hc | hc
  · right; constructor <;> nlinarith
  · left; constructor <;> nlinarith

/-- Number of sides that reach height `za`. -/
def crossings (za : ℝ) : List Pt → Nat
  | v :: w :: rest => (if spans za v w then 1 else 0) + crossings za (w :: rest)
  | _ => 0

/-- All points found at height `za`. -/
def found (za : ℝ) : List Pt → List ℝ
  | v :: w :: rest => (if spans za v w then [crossR za v w] else []) ++ found za (w :: rest)
  | _ => []

theorem loop_found (za : ℝ) (dom : List Pt) : ∀ acc : List ℝ, acc.length + crossings za dom ≤ 2 →
    rpointsLoop za dom acc = acc ++ found za dom := by
  induction dom with
  | nil => intro acc _; simp [rpointsLoop, found]
  | cons v dom ih =>
    cases dom with
    | nil => intro acc _; simp [rpointsLoop, found]
    | cons w rest =>
      intro acc h
      rw [rpointsLoop, found]
      rw [crossings] at h
      by_cases hs : spans za v w
      · rw [if_pos hs] at h
        rw [if_pos (by omega), if_pos hs, if_pos hs, ih _ (by rw [List.length_append, List.length_singleton]; omega)]
        simp
      · rw [if_neg hs] at h
        rw [if_neg hs, if_neg hs]
        split
        · rw [ih _ (by omega)]; simp
        · rename_i hlen
          have hc : crossings za (w :: rest) = 0 := by omega
          have hf : ∀ l, crossings za l = 0 → found za l = [] := by
            intro l
            induction l with
            | nil => intro _; rfl
            | cons x l ih' =>
              cases l with
              | nil => intro _; rfl
              | cons y l =>
                intro h0
                rw [crossings] at h0
                rw [found]
                have : ¬ spans za x y := by intro hh; rw [if_pos hh] at h0; omega
                rw [if_neg this, ih' (by omega)]
                rfl
          rw [hf _ hc]
          simp

theorem mem_found (za : ℝ) (dom : List Pt) (x : ℝ) :
    x ∈ found za dom ↔ ∃ v w, Side dom v w ∧ spans za v w ∧ x = crossR za v w := by
  induction dom with
  | nil =>
    simp only [found, List.not_mem_nil, false_iff]
    rintro ⟨v, w, ⟨i, h, -⟩, -⟩; simp at h
  | cons v dom ih =>
    cases dom with
    | nil =>
      simp only [found, List.not_mem_nil, false_iff]
      rintro ⟨v', w', ⟨i, h1, h2⟩, -⟩
      simp at h2
    | cons w rest =>
      rw [found, List.mem_append, ih]
      constructor
      · rintro (h | ⟨a, b, h1, h2, h3⟩)
        · split at h
          · rename_i hs
            simp only [List.mem_singleton] at h
            exact ⟨v, w, side_cons.2 (.inl ⟨rfl, rfl⟩), hs, h⟩
          · cases h
        · exact ⟨a, b, side_cons.2 (.inr h1), h2, h3⟩
      · rintro ⟨a, b, h1, h2, h3⟩
        rcases side_cons.1 h1 with ⟨rfl, rfl⟩ | h1
        · left; rw [if_pos h2, h3]; simp
        · right; exact ⟨a, b, h1, h2, h3⟩

theorem maxMin_spec (xs : List ℝ) : ∀ mx mn : ℝ, IsGreatest {y | y = mx ∨ y ∈ xs} (maxMin mx mn xs).1 := by
  induction xs with
  | nil => intro mx mn; exact ⟨.inl rfl, by rintro y (rfl | h); exacts [le_refl _, by cases h]⟩
  | cons x xs ih =>
    intro mx mn
    rw [maxMin]
    split
    · rename_i h
      obtain ⟨h1, h2⟩ := ih x mn
      refine ⟨?_, ?_⟩
      · rcases h1 with h1 | h1
        · right; rw [h1]; simp
        · right; simp [h1]
      · rintro y (rfl | hy)
        · exact le_trans h.le (h2 (.inl rfl))
        · rcases List.mem_cons.1 hy with rfl | hy
          · exact h2 (.inl rfl)
          · exact h2 (.inr hy)
    · rename_i h
      have key : ∀ mn', IsGreatest {y | y = mx ∨ y ∈ x :: xs} (maxMin mx mn' xs).1 := by
        intro mn'
        obtain ⟨h1, h2⟩ := ih mx mn'
        refine ⟨?_, ?_⟩
        · rcases h1 with h1 | h1
          · left; exact h1
          · right; simp [h1]
        · rintro y (rfl | hy)
          · exact h2 (.inl rfl)
          · rcases List.mem_cons.1 hy with rfl | hy
            · exact le_trans (not_lt.1 h) (h2 (.inl rfl))
            · exact h2 (.inr hy)
      split <;> exact key _

theorem result_spec (za : ℝ) (dom : List Pt) (hcount : crossings za dom ≤ 2) :
    (∃ mx mn, rpointsResult (rpointsLoop za dom []) = .ok mx mn ∧ IsGreatest (atHeight dom za) mx) ∨
    (rpointsResult (rpointsLoop za dom []) = .notInside ∧ atHeight dom za = ∅) := by
  rw [loop_found za dom [] (by simpa using hcount), List.nil_append]
  cases hf : found za dom with
  | nil =>
    right
    refine ⟨rfl, ?_⟩
    ext x
    simp only [Set.mem_empty_iff_false, iff_false]
    rintro ⟨v, w, s, h1, h2, h3, h4⟩
    have : crossR za v w ∈ found za dom := (mem_found za dom _).2 ⟨v, w, h1, spans_of_between za v w s x h2 h3 h4, rfl⟩
    rw [hf] at this
    cases this
  | cons y ys =>
    left
    refine ⟨(maxMin y y ys).1, (maxMin y y ys).2, rfl, ?_⟩
    obtain ⟨h1, h2⟩ := maxMin_spec ys y y
    have hset : ∀ t, (t = y ∨ t ∈ ys) ↔ t ∈ found za dom := by intro t; rw [hf]; simp
    refine ⟨?_, ?_⟩
    · obtain ⟨v, w, g1, g2, g3⟩ := (mem_found za dom _).1 ((hset _).1 h1)
      obtain ⟨s, s0, s1, s2⟩ := (crossR_spec za v w g2).1
      rw [← g3] at s2
      exact ⟨v, w, s, g1, s0, s1, s2⟩
    · rintro x ⟨v, w, s, g1, s0, s1, s2⟩
      have hs := spans_of_between za v w s x s0 s1 s2
      exact le_trans ((crossR_spec za v w hs).2 s x s0 s1 s2)
        (h2 ((hset _).2 ((mem_found za dom _).2 ⟨v, w, g1, hs, rfl⟩)))

/-- C46: when first and last vertex lie strictly on the same side of the axis height and at most
two sides reach it, the function is defined and returns the largest radius of the wall at that
height, or reports that there is none.
Missing: all other domains, see `C46_refuted_undefined` and `C46_refuted_third`. -/
theorem C46_max_radius_partial (axis v0 vl : Pt) (dom : List Pt) (h0 : dom.head? = some v0) (hl : dom.getLast? = some vl)
    (hside : (v0.z < axis.z ∧ vl.z < axis.z) ∨ (v0.z > axis.z ∧ vl.z > axis.z)) (hcount : crossings axis.z dom ≤ 2) :
    (∃ mx mn, findMaxRadius axis dom = .ok mx mn ∧ IsGreatest (atHeight dom axis.z) mx) ∨
    (findMaxRadius axis dom = .notInside ∧ atHeight dom axis.z = ∅) := by
  unfold findMaxRadius
  rw [h0, hl]
  simp only
  rw [if_neg (by
    unfold spans
    rintro (⟨h1, h2⟩ | ⟨h1, h2⟩) <;> rcases hside with ⟨h3, h4⟩ | ⟨h3, h4⟩ <;> linarith)]
  exact result_spec axis.z dom hcount

/-- C46, for `FindMaxMin` (largest value at a given constraint): defined for every non-empty
domain, correct when at most two sides reach the constraint. -/
theorem C46_max_min_partial (dom : List Pt) (hd : dom ≠ []) (a : ℝ) (hcount : crossings a dom ≤ 2) :
    (∃ mx mn, findMaxMin dom a = .ok mx mn ∧ IsGreatest (atHeight dom a) mx) ∨
    (findMaxMin dom a = .notInside ∧ atHeight dom a = ∅) := by
  unfold findMaxMin
  rw [if_neg hd]
  exact result_spec a dom hcount

theorem loop_prefix (za : ℝ) (p q : List Pt) : ∀ acc : List ℝ, acc.length + crossings za p = 2 →
    rpointsLoop za (p ++ q) acc = rpointsLoop za p acc := by
  have full : ∀ (l : List Pt) (acc : List ℝ), acc.length = 2 → rpointsLoop za l acc = acc := by
    intro l acc h
    match l with
    | [] => rfl
    | [_] => rfl
    | v :: w :: rest => rw [rpointsLoop, if_neg (by omega)]
  induction p with
  | nil => intro acc h; rw [full _ acc (by simpa [crossings] using h), full _ acc (by simpa [crossings] using h)]
  | cons v p ih =>
    cases p with
    | nil => intro acc h; rw [full _ acc (by simpa [crossings] using h), full _ acc (by simpa [crossings] using h)]
    | cons w rest =>
      intro acc h
      rw [crossings] at h
      rw [List.cons_append, List.cons_append, rpointsLoop, rpointsLoop]
      split
      · split
        · rename_i hs
          rw [if_pos hs] at h
          exact ih _ (by rw [List.length_append, List.length_singleton]; omega)
        · rename_i hs
          rw [if_neg hs] at h
          exact ih _ (by omega)
      · rfl

theorem prefix_crossings (za : ℝ) : ∀ (dom : List Pt) (m : Nat), dom ≠ [] → m ≤ crossings za dom →
    ∃ p q, dom = p ++ q ∧ p ≠ [] ∧ crossings za p = m := by
  intro dom
  induction dom with
  | nil => intro m h; exact absurd rfl h
  | cons v dom ih =>
    intro m _ hm
    cases m with
    | zero => exact ⟨[v], dom, rfl, by simp, rfl⟩
    | succ m =>
      cases dom with
      | nil => simp [crossings] at hm
      | cons w rest =>
        rw [crossings] at hm
        by_cases hs : spans za v w
        · rw [if_pos hs] at hm
          obtain ⟨p, q, h1, h2, h3⟩ := ih m (by simp) (by omega)
          cases p with
          | nil => exact absurd rfl h2
          | cons w' p =>
            obtain ⟨rfl, -⟩ := List.cons.inj h1
            exact ⟨v :: w :: p, q, by rw [h1]; rfl, by simp, by rw [crossings, if_pos hs, h3]; omega⟩
        · rw [if_neg hs] at hm
          obtain ⟨p, q, h1, h2, h3⟩ := ih (m + 1) (by simp) (by omega)
          cases p with
          | nil => exact absurd rfl h2
          | cons w' p =>
            obtain ⟨rfl, -⟩ := List.cons.inj h1
            exact ⟨v :: w :: p, q, by rw [h1]; rfl, by simp, by rw [crossings, if_neg hs, h3]; omega⟩

/-- C46, all other domains whose closing side does not reach the axis height: only the first part of
the wall, up to the second side reaching the height, is looked at; its largest radius at the height
is returned. -/
theorem C46_first_two (axis v0 vl : Pt) (dom : List Pt) (h0 : dom.head? = some v0) (hl : dom.getLast? = some vl)
    (hside : (v0.z < axis.z ∧ vl.z < axis.z) ∨ (v0.z > axis.z ∧ vl.z > axis.z)) (hcount : 2 ≤ crossings axis.z dom) :
    ∃ p q mx mn, dom = p ++ q ∧ crossings axis.z p = 2 ∧ findMaxRadius axis dom = .ok mx mn ∧
      IsGreatest (atHeight p axis.z) mx := by
  have hd : dom ≠ [] := by rintro rfl; simp at h0
  obtain ⟨p, q, h1, h2, h3⟩ := prefix_crossings axis.z dom 2 hd hcount
  have he : findMaxRadius axis dom = rpointsResult (rpointsLoop axis.z p []) := by
    unfold findMaxRadius
    rw [h0, hl]
    simp only
    rw [if_neg (by
      unfold spans
      rintro (⟨h1, h2⟩ | ⟨h1, h2⟩) <;> rcases hside with ⟨h3, h4⟩ | ⟨h3, h4⟩ <;> linarith), h1,
      loop_prefix axis.z p q [] (by simpa using h3)]
  rcases result_spec axis.z p (by omega) with ⟨mx, mn, h4, h5⟩ | ⟨h4, h5⟩
  · exact ⟨p, q, mx, mn, h1, h3, he.trans h4, h5⟩
  · exfalso
    have hx : found axis.z p = [] := by
      rw [List.eq_nil_iff_forall_not_mem]
      intro x hx
      obtain ⟨v, w, g1, g2, g3⟩ := (mem_found axis.z p x).1 hx
      obtain ⟨s, s0, s1, s2⟩ := (crossR_spec axis.z v w g2).1
      have : crossR axis.z v w ∈ atHeight p axis.z := ⟨v, w, s, g1, s0, s1, s2⟩
      rw [h5] at this
      exact this
    have hlen : ∀ l, (found axis.z l).length = crossings axis.z l := by
      intro l
      induction l with
      | nil => rfl
      | cons x l ih =>
        cases l with
        | nil => rfl
        | cons y l =>
          rw [found, crossings, List.length_append, ih]
          split <;> rfl
    have := hlen p
    rw [hx, h3] at this
    simp at this

/-- A wall with four crossings; the third, at radius 3, is not looked at. -/
example : ∃ mx mn, findMaxRadius ⟨2, 0⟩ [⟨1, 1⟩, ⟨1, -1⟩, ⟨2, -1⟩, ⟨2, 1⟩, ⟨3, 1⟩, ⟨3, -1⟩, ⟨4, -1⟩, ⟨4, 1⟩] = .ok mx mn ∧ mx = 2 := by
  refine ⟨2, 1, ?_, rfl⟩
  norm_num [findMaxRadius, rpointsLoop, rpointsResult, spans, crossR, maxMin]

/-- C46 as stated is refuted: whenever the closing side reaches the axis height, memory outside
the arrays is touched. -/
theorem C46_refuted_undefined (axis v0 vl : Pt) (dom : List Pt) (h0 : dom.head? = some v0) (hl : dom.getLast? = some vl)
    (hspan : (vl.z ≥ axis.z ∧ v0.z ≤ axis.z) ∨ (vl.z ≤ axis.z ∧ v0.z ≥ axis.z)) : findMaxRadius axis dom = .ub := by
  unfold findMaxRadius
  rw [h0, hl]
  simp only
  rw [if_pos (show spans axis.z vl v0 from hspan)]

/-- C46 as stated is refuted for every analytical magnetic field: its circular domain starts and
ends at the height of the axis, so that the constructor touches memory outside the arrays. -/
theorem C46_refuted_analytical (rm zm rminor : ℝ) : findMaxRadius ⟨rm, zm⟩ (circleDomain 50 rm zm rminor) = .ub := by
  refine C46_refuted_undefined ⟨rm, zm⟩ ⟨rm + rminor, zm⟩ ⟨rm + rminor, zm⟩ _ ?_ ?_ (.inl ⟨le_refl _, le_refl _⟩)
  · simp [circleDomain, List.head?_range]
  · simp [circleDomain]

/-- C46 as stated is refuted: a vertex on the axis height counts twice, and the outermost
crossing is not found (closed triangle with inner corner at the height of the axis: 1 instead
of 3). -/
theorem C46_refuted_third :
    findMaxRadius ⟨2, 0⟩ [⟨3, 1⟩, ⟨1, 0⟩, ⟨3, -1⟩, ⟨3, 1⟩] = .ok 1 1 ∧ (3 : ℝ) ∈ atHeight [⟨3, 1⟩, ⟨1, 0⟩, ⟨3, -1⟩, ⟨3, 1⟩] 0 := by
  constructor
  · norm_num [findMaxRadius, spans, rpointsLoop, crossR, rpointsResult, maxMin]
  · refine ⟨⟨3, -1⟩, ⟨3, 1⟩, 1 / 2, ⟨2, rfl, rfl⟩, by norm_num, by norm_num, ?_⟩
    apply Pt.ext <;> norm_num [between]

/-- A closed square around the axis. -/
example : findMaxRadius ⟨2, 0⟩ [⟨1, -1⟩, ⟨3, -1⟩, ⟨3, 1⟩, ⟨1, 1⟩, ⟨1, -1⟩] = .ok 3 1 := by
  norm_num [findMaxRadius, spans, rpointsLoop, crossR, rpointsResult, maxMin]

/-! ### C47 -/

/-- Point of the line of sight. -/
def along (p0 p1 : P3) (t : ℝ) : P3 := ⟨p0.x + t * (p1.x - p0.x), p0.y + t * (p1.y - p0.y), p0.z + t * (p1.z - p0.z)⟩

/-- The segment from `p0` to `p1` meets the surface of revolution of the side from `v` to `w`. -/
def Hits (p0 p1 : P3) (v w : Pt) : Prop :=
  ∃ t s, 0 ≤ t ∧ t ≤ 1 ∧ 0 ≤ s ∧ s ≤ 1 ∧ (along p0 p1 t).z = (between v w s).z ∧
    (along p0 p1 t).x ^ 2 + (along p0 p1 t).y ^ 2 = (between v w s).r ^ 2

/-- `v` and `w` are consecutive vertices of the closed wall. -/
def Tile (dom : List Pt) (v w : Pt) : Prop :=
  Side dom v w ∨ (dom.getLast? = some v ∧ dom.head? = some w)

theorem tileHit_of_hits (p0 p1 : P3) (v w : Pt) (hz : v.z ≠ w.z) (h : Hits p0 p1 v w) : tileHit w v p1 p0 = true := by
  obtain ⟨t, s, t0, t1, -, -, e1, e2⟩ := h
  unfold tileHit
  rw [if_neg (fun h => hz h.symm)]
  simp only
  split
  · rfl
  · rename_i habc
    have hne : w.z - v.z ≠ 0 := sub_ne_zero.2 (fun h => hz h.symm)
    simp only [along, between] at e1 e2
    generalize hk : (p0.z - p1.z) * (1 / (w.z - v.z)) = kz at habc ⊢
    generalize hm : v.r + (p1.z - v.z) * (1 / (w.z - v.z)) * (w.r - v.r) = m at habc ⊢
    have hs : s = kz * (1 - t) + (p1.z - v.z) * (1 / (w.z - v.z)) := by
      rw [← hk]
      field_simp
      linarith
    have hR : v.r + s * (w.r - v.r) = m + (w.r - v.r) * kz * (1 - t) := by
      rw [← hm, hs]; ring
    rw [hR] at e2
    generalize (w.r - v.r) * kz = cc at habc e2 ⊢
    generalize habc' : (p0.x - p1.x) * (p0.x - p1.x) + (p0.y - p1.y) * (p0.y - p1.y) - cc * cc = abc at habc ⊢
    -- u = 1 - t solves the quadratic equation
    have hq : (1 - t) ^ 2 = 2 * ((cc * m - (p0.x - p1.x) * p1.x - (p0.y - p1.y) * p1.y) * (1 / abc)) * (1 - t) +
        (m * m - p1.x * p1.x - p1.y * p1.y) * (1 / abc) := by
      field_simp
      rw [← habc']
      linear_combination e2
    generalize (cc * m - (p0.x - p1.x) * p1.x - (p0.y - p1.y) * p1.y) * (1 / abc) = term at hq ⊢
    generalize (m * m - p1.x * p1.x - p1.y * p1.y) * (1 / abc) = q at hq ⊢
    have hsq : term * term + q = (1 - t - term) ^ 2 := by linear_combination -hq
    rw [hsq, if_neg (not_lt.2 (sq_nonneg _)), Real.sqrt_sq_eq_abs]
    rw [decide_eq_true_iff]
    rcases abs_choice (1 - t - term) with ha | ha
    · left; rw [ha]; constructor <;> linarith
    · right; rw [ha]; constructor <;> linarith

theorem weight (a b t : ℝ) (h0 : 0 ≤ t) (h1 : t ≤ 1) :
    (a ≤ a + t * (b - a) ∨ b ≤ a + t * (b - a)) ∧ (a + t * (b - a) ≤ a ∨ a + t * (b - a) ≤ b) := by
  rcases le_total a b with h | h
  · exact ⟨.inl (by nlinarith), .inr (by nlinarith)⟩
  · exact ⟨.inr (by nlinarith), .inl (by nlinarith)⟩

theorem tileTest_of_hits (axisR : ℝ) (outer : Bool) (p0 p1 : P3) (v w : Pt) (hz : v.z ≠ w.z) (h : Hits p0 p1 v w)
    (ho : outer = true ∨ v.r ≤ axisR ∨ w.r ≤ axisR) : tileTest axisR outer p0 p1 v w = true := by
  unfold tileTest
  rw [if_neg (by
    rintro ⟨h1, h2, h3⟩
    rcases ho with ho | ho | ho
    · rw [h1] at ho; cases ho
    · linarith
    · linarith)]
  have h' := h
  obtain ⟨t, s, t0, t1, s0, s1, e1, -⟩ := h'
  simp only [along, between] at e1
  rw [if_neg (by
    -- both sides of `e1` are weighted means
    have hw := weight p0.z p1.z t t0 t1
    have hv := weight v.z w.z s s0 s1
    rintro (⟨a1, a2, a3, a4⟩ | ⟨a1, a2, a3, a4⟩)
    · rcases hw.1 with h | h <;> rcases hv.2 with h' | h' <;> linarith
    · rcases hw.2 with h | h <;> rcases hv.1 with h' | h' <;> linarith)]
  exact tileHit_of_hits p0 p1 v w hz h

theorem tileLoop_of_tile (axisR : ℝ) (outer : Bool) (p0 p1 : P3) (first v w : Pt) (h : tileTest axisR outer p0 p1 v w = true) :
    ∀ dom, Side dom v w ∨ (dom.getLast? = some v ∧ w = first) → tileLoop axisR outer p0 p1 first dom = true := by
  intro dom
  induction dom with
  | nil => rintro (⟨i, h1, -⟩ | ⟨h1, -⟩) <;> simp at h1
  | cons a dom ih =>
    cases dom with
    | nil =>
      rintro (⟨i, h1, h2⟩ | ⟨h1, rfl⟩)
      · simp at h2
      · simp only [List.getLast?_singleton, Option.some.injEq] at h1
        subst h1
        exact h
    | cons b rest =>
      rintro (h1 | ⟨h1, rfl⟩)
      · rw [tileLoop, Bool.or_eq_true]
        rcases side_cons.1 h1 with ⟨rfl, rfl⟩ | h1
        · exact .inl h
        · exact .inr (ih (.inl h1))
      · rw [tileLoop, Bool.or_eq_true]
        right
        exact ih (.inr ⟨by rw [List.getLast?_cons_cons] at h1; exact h1, rfl⟩)

/-- C47, overload with coordinates: the answer is true whenever the segment meets a tile that is
not horizontal (including the closing tile); without outer wall, a tile with an end on the inner
side.
Missing: horizontal tiles (`C47_refuted_horizontal`), the other overload
(`C47_refuted_pointers`). -/
theorem C47_no_miss_partial (axis : Pt) (dom : List Pt) (p0 p1 : P3) (outer : Bool) (v w : Pt) (ht : Tile dom v w)
    (hz : v.z ≠ w.z) (h : Hits p0 p1 v w) (ho : outer = true ∨ v.r ≤ axis.r ∨ w.r ≤ axis.r) :
    intersects3D axis dom p0 p1 outer = true := by
  have htest := tileTest_of_hits axis.r outer p0 p1 v w hz h ho
  cases dom with
  | nil => rcases ht with ⟨i, h1, -⟩ | ⟨h1, -⟩ <;> simp at h1
  | cons a rest =>
    rw [intersects3D]
    apply tileLoop_of_tile axis.r outer p0 p1 a v w htest
    rcases ht with h1 | ⟨h1, h2⟩
    · exact .inl h1
    · right
      simp only [List.head?_cons, Option.some.injEq] at h2
      exact ⟨h1, h2.symm⟩

/-- C47, the overload with pointers agrees with the other one exactly when the second and third
coordinate of the first point coincide in effect: it looks at another segment. -/
theorem C47_pointer_overload (axis : Pt) (dom : List Pt) (p0 p1 : P3) (outer : Bool) :
    intersects3DPtr axis dom p0 p1 outer = intersects3D axis dom ⟨p0.x, p0.y, p0.y⟩ p1 outer := rfl

/-- C47 as stated is refuted: a horizontal tile with positive radii is never hit. -/
theorem C47_refuted_horizontal (v w : Pt) (hz : v.z = w.z) (hv : 0 < v.r) (hw : 0 < w.r) (p0 p1 : P3) :
    tileHit w v p1 p0 = false := by
  unfold tileHit
  rw [if_pos hz.symm]
  split
  · rfl
  · split
    · rfl
    · rename_i hne
      simp only
      rw [decide_eq_false_iff_not]
      rintro ⟨h1, h2⟩
      have hq := Real.sqrt_nonneg ((p1.x + (p0.x - p1.x) * ((v.z - p1.z) / (p0.z - p1.z))) * (p1.x + (p0.x - p1.x) * ((v.z - p1.z) / (p0.z - p1.z))) +
        (p1.y + (p0.y - p1.y) * ((v.z - p1.z) / (p0.z - p1.z))) * (p1.y + (p0.y - p1.y) * ((v.z - p1.z) / (p0.z - p1.z))))
      generalize Real.sqrt _ = q at h1 h2 hq
      rw [one_div, inv_mul_eq_div] at h1 h2
      rcases lt_or_gt_of_ne hne with hlt | hgt
      · have : (v.r + q) / (v.r - w.r) < 0 := div_neg_of_pos_of_neg (by linarith) (by linarith)
        linarith
      · rw [div_le_one (by linarith)] at h2
        linarith

/-- C47 as stated is refuted for a whole wall: looking up through the horizontal bottom of a
vessel (only the bottom is given). -/
theorem C47_refuted_wall :
    intersects3D ⟨2, 0⟩ [⟨1, 0⟩, ⟨3, 0⟩] ⟨2, 0, -1⟩ ⟨2, 0, 1⟩ true = false ∧ Hits ⟨2, 0, -1⟩ ⟨2, 0, 1⟩ ⟨1, 0⟩ ⟨3, 0⟩ := by
  constructor
  · have h1 := C47_refuted_horizontal ⟨1, 0⟩ ⟨3, 0⟩ rfl (by norm_num) (by norm_num) ⟨2, 0, -1⟩ ⟨2, 0, 1⟩
    have h2 := C47_refuted_horizontal ⟨3, 0⟩ ⟨1, 0⟩ rfl (by norm_num) (by norm_num) ⟨2, 0, -1⟩ ⟨2, 0, 1⟩
    rw [intersects3D, tileLoop, tileLoop, tileTest, tileTest, h1, h2]
    simp
  · refine ⟨1 / 2, 1 / 2, by norm_num, by norm_num, by norm_num, by norm_num, ?_, ?_⟩ <;> norm_num [along, between]

/-- C47 as stated is refuted: the overload with pointers misses a crossing that the other
overload reports. -/
theorem C47_refuted_pointers :
    Hits ⟨3, 0, 5⟩ ⟨0, 0, 3⟩ ⟨2, 7 / 2⟩ ⟨2, 6⟩ ∧
    intersects3D ⟨1, 0⟩ [⟨2, 7 / 2⟩, ⟨2, 6⟩] ⟨3, 0, 5⟩ ⟨0, 0, 3⟩ true = true ∧
    intersects3DPtr ⟨1, 0⟩ [⟨2, 7 / 2⟩, ⟨2, 6⟩] ⟨3, 0, 5⟩ ⟨0, 0, 3⟩ true = false := by
  have hh : Hits ⟨3, 0, 5⟩ ⟨0, 0, 3⟩ ⟨2, 7 / 2⟩ ⟨2, 6⟩ := by
    refine ⟨1 / 3, 1 / 3, by norm_num, by norm_num, by norm_num, by norm_num, ?_, ?_⟩ <;> norm_num [along, between]
  refine ⟨hh, ?_, ?_⟩
  · exact C47_no_miss_partial _ _ _ _ _ ⟨2, 7 / 2⟩ ⟨2, 6⟩ (.inl ⟨0, rfl, rfl⟩) (by norm_num) hh (.inl rfl)
  · norm_num [intersects3DPtr, intersects3D, tileLoop, tileTest]

end

end Softlib
