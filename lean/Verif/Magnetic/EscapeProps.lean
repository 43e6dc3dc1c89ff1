/-
C156: nothing leaves a wall unnoticed.

Source: /repo/src/MagneticField/MagneticField2D.cpp 33-73, 367-457, by the model of DomainModel.lean.
-/
import Mathlib.Topology.Connected.Basic
import Mathlib.Topology.MetricSpace.Bounded
import Mathlib.Topology.Connected.PathConnected
import Mathlib.Algebra.Ring.Periodic
import Mathlib.Analysis.Convex.Topology
import Mathlib.Tactic.IntervalCases
import Verif.Magnetic.AlarmProps

namespace Softlib

open Softlib.Magnetic

noncomputable section

/-- The place in the poloidal plane, as a point of the plane. -/
def placeOf (x y z : ℝ) : ℝ × ℝ := (Real.sqrt (x ^ 2 + y ^ 2), z)

/-- All points of the sides `S`. -/
def wallSet (S : Pt → Pt → Prop) : Set (ℝ × ℝ) :=
  {a | ∃ v w s, S v w ∧ 0 ≤ s ∧ s ≤ 1 ∧ a = ((between v w s).r, (between v w s).z)}

/-- The point is not on the wall, and only a bounded part of the plane can be reached from it without crossing the wall. -/
def Enclosed (wall : Set (ℝ × ℝ)) (a : ℝ × ℝ) : Prop := a ∉ wall ∧ Bornology.IsBounded (connectedComponentIn wallᶜ a)

/-- What is connected to an enclosed point off the wall is enclosed, too. -/
theorem enclosed_of_connected {wall s : Set (ℝ × ℝ)} {a b : ℝ × ℝ} (hs : IsPreconnected s) (hw : s ⊆ wallᶜ) (ha : a ∈ s) (hb : b ∈ s)
    (h : Enclosed wall a) : Enclosed wall b ∧ b ∈ connectedComponentIn wallᶜ a := by
  have hmem : b ∈ connectedComponentIn wallᶜ a := hs.subset_connectedComponentIn ha hw hb
  refine ⟨⟨hw hb, ?_⟩, hmem⟩
  rw [← connectedComponentIn_eq hmem]
  exact h.2

theorem side_first {dom : List Pt} {v w : Pt} (h : Side dom v w) : ∃ a b, dom[0]? = some a ∧ Side dom a b := by
  obtain ⟨i, h1, h2⟩ := h
  have hi := (List.getElem?_eq_some_iff.1 h2).1
  exact ⟨dom[0], dom[1], by simp, 0, by simp, by simp⟩

theorem step_connected {dom : List Pt} {x1 y1 z1 x2 y2 z2 : ℝ} (hoff : placeOf x1 y1 z1 ∉ wallSet (Side dom))
    (h : crossesDomain dom x1 y1 z1 x2 y2 z2 ≠ some true) :
    ∃ s : Set (ℝ × ℝ), IsPreconnected s ∧ s ⊆ (wallSet (Side dom))ᶜ ∧ placeOf x1 y1 z1 ∈ s ∧ placeOf x2 y2 z2 ∈ s := by
  refine ⟨(fun t : ℝ => ((between (poloidal x1 y1 z1) (poloidal x2 y2 z2) t).r, (between (poloidal x1 y1 z1) (poloidal x2 y2 z2) t).z)) '' Set.Icc 0 1,
    ?_, ?_, ⟨0, by simp, by simp [between, poloidal, placeOf]⟩, ⟨1, by simp, by simp [between, poloidal, placeOf]⟩⟩
  · refine isPreconnected_Icc.image _ (Continuous.continuousOn ?_)
    simp only [between]
    fun_prop
  · rintro _ ⟨t, ⟨t0, t1⟩, rfl⟩ ⟨v, w, s, hs, s0, s1, e⟩
    refine h (C44_no_miss_partial dom x1 y1 z1 x2 y2 z2 v w hs ⟨s, t, s0, s1, t0, t1, ?_⟩ ?_)
    · exact Pt.ext (congrArg Prod.fst e) (congrArg Prod.snd e)
    · intro h0
      obtain ⟨a, b, ha, hab⟩ := side_first hs
      rw [ha] at h0
      have ea : a = poloidal x1 y1 z1 := by injection h0
      refine hoff ⟨a, b, 0, hab, le_refl _, by norm_num, ?_⟩
      rw [ea]
      simp [between, poloidal, placeOf]

/-- C156, `CrossesDomain`: a step from a point that the wall encloses to one that it does not enclose is reported. -/
theorem C156_step (dom : List Pt) (x1 y1 z1 x2 y2 z2 : ℝ) (h1 : Enclosed (wallSet (Side dom)) (placeOf x1 y1 z1))
    (h2 : ¬ Enclosed (wallSet (Side dom)) (placeOf x2 y2 z2)) : crossesDomain dom x1 y1 z1 x2 y2 z2 = some true := by
  by_contra h
  obtain ⟨s, hs, hw, ha, hb⟩ := step_connected h1.1 h
  exact h2 (enclosed_of_connected hs hw ha hb h1).1

/-- C156: a particle that starts enclosed stays so for any number of steps, and within the part of the plane it started in, as long as no
step is reported. -/
theorem C156_run (dom : List Pt) (pos : ℕ → P3) (n : ℕ) (h0 : Enclosed (wallSet (Side dom)) (placeOf (pos 0).x (pos 0).y (pos 0).z))
    (h : ∀ i < n, crossesDomain dom (pos i).x (pos i).y (pos i).z (pos (i + 1)).x (pos (i + 1)).y (pos (i + 1)).z ≠ some true) :
    Enclosed (wallSet (Side dom)) (placeOf (pos n).x (pos n).y (pos n).z) ∧
      placeOf (pos n).x (pos n).y (pos n).z ∈ connectedComponentIn (wallSet (Side dom))ᶜ (placeOf (pos 0).x (pos 0).y (pos 0).z) := by
  induction n with
  | zero => exact ⟨h0, mem_connectedComponentIn h0.1⟩
  | succ n ih =>
    obtain ⟨i1, i2⟩ := ih fun i hi => h i (by omega)
    obtain ⟨s, hs, hw, ha, hb⟩ := step_connected i1.1 (h n (by omega))
    obtain ⟨j1, j2⟩ := enclosed_of_connected hs hw ha hb i1
    refine ⟨j1, ?_⟩
    rw [connectedComponentIn_eq i2]
    exact j2

theorem space_connected {axis : Pt} {dom : List Pt} {p0 p1 : P3} (hz : ∀ v w, Tile dom v w → v.z ≠ w.z)
    (h : intersects3D axis dom p0 p1 true = false) :
    ∃ s : Set (ℝ × ℝ), IsPreconnected s ∧ s ⊆ (wallSet (Tile dom))ᶜ ∧ placeOf p0.x p0.y p0.z ∈ s ∧ placeOf p1.x p1.y p1.z ∈ s := by
  refine ⟨(fun t : ℝ => placeOf (along p0 p1 t).x (along p0 p1 t).y (along p0 p1 t).z) '' Set.Icc 0 1,
    ?_, ?_, ⟨0, by simp, by simp [along]⟩, ⟨1, by simp, by simp [along]⟩⟩
  · refine isPreconnected_Icc.image _ (Continuous.continuousOn ?_)
    simp only [along, placeOf]
    fun_prop
  · rintro _ ⟨t, ⟨t0, t1⟩, rfl⟩ ⟨v, w, s, hs, s0, s1, e⟩
    have := C47_no_miss_partial axis dom p0 p1 true v w hs (hz v w hs) ⟨t, s, t0, t1, s0, s1, congrArg Prod.snd e, ?_⟩ (.inl rfl)
    · rw [h] at this; exact absurd this (by simp)
    · have e1 : Real.sqrt ((along p0 p1 t).x ^ 2 + (along p0 p1 t).y ^ 2) = (between v w s).r := congrArg Prod.fst e
      rw [← e1, Real.sq_sqrt (by positivity)]

/-- C156, `IntersectsDomain3D`, for walls without horizontal sides: a straight step in space out of the enclosed part is reported. -/
theorem C156_space_partial (axis : Pt) (dom : List Pt) (p0 p1 : P3) (hz : ∀ v w, Tile dom v w → v.z ≠ w.z)
    (h1 : Enclosed (wallSet (Tile dom)) (placeOf p0.x p0.y p0.z)) (h2 : ¬ Enclosed (wallSet (Tile dom)) (placeOf p1.x p1.y p1.z)) :
    intersects3D axis dom p0 p1 true = true := by
  cases h : intersects3D axis dom p0 p1 true with
  | true => rfl
  | false =>
    obtain ⟨s, hs, hw, ha, hb⟩ := space_connected hz h
    exact absurd (enclosed_of_connected hs hw ha hb h1).1 h2

/-! ### Walls with corners that all turn to the left -/

/-- Twice the area of the triangle, positive if `p` is on the left of the way from `v` to `w`. -/
def leftOf (v w : Pt) (a : ℝ × ℝ) : ℝ := (w.r - v.r) * (a.2 - v.z) - (w.z - v.z) * (a.1 - v.r)

/-- The closed polygon `c 0, …, c (n - 1)`, `c n = c 0` turns to the left at every corner. -/
structure TurnsLeft (c : ℕ → Pt) (n : ℕ) : Prop where
  pos : 0 < n
  closed : ∀ i, c (i + n) = c i
  left : ∀ i, 0 < leftOf (c i) (c (i + 1)) ((c (i + 2)).r, (c (i + 2)).z)

/-- On the left of every side. -/
def InsideOf (c : ℕ → Pt) (a : ℝ × ℝ) : Prop := ∀ i, 0 < leftOf (c i) (c (i + 1)) a

theorem left_mod {c : ℕ → Pt} {n : ℕ} (h : TurnsLeft c n) (a : ℝ × ℝ) (i : ℕ) :
    leftOf (c (i % n)) (c (i % n + 1)) a = leftOf (c i) (c (i + 1)) a := by
  have hp : Function.Periodic (fun i => leftOf (c i) (c (i + 1)) a) n := by
    intro i
    simp only
    rw [show i + n + 1 = i + 1 + n from by omega, h.closed, h.closed]
  exact hp.map_mod_nat i

/-- The sides of the polygon. -/
def SideOf (c : ℕ → Pt) (n : ℕ) (v w : Pt) : Prop := ∃ i < n, v = c i ∧ w = c (i + 1)

theorem sideOf_any {c : ℕ → Pt} {n : ℕ} (h : TurnsLeft c n) (i : ℕ) : SideOf c n (c i) (c (i + 1)) := by
  have hp : Function.Periodic c n := h.closed
  have hp1 : Function.Periodic (fun i => c (i + 1)) n := fun i => by
    simp only
    rw [show i + n + 1 = i + 1 + n from by omega, h.closed]
  exact ⟨i % n, Nat.mod_lt _ h.pos, (hp.map_mod_nat i).symm, (hp1.map_mod_nat i).symm⟩

theorem inside_or_wall {c : ℕ → Pt} {n : ℕ} (h : TurnsLeft c n) (a : ℝ × ℝ) (ha : ∀ i, 0 ≤ leftOf (c i) (c (i + 1)) a)
    (hw : a ∉ wallSet (SideOf c n)) : InsideOf c a := by
  intro i
  refine lt_of_le_of_ne (ha i) fun h0 => hw ?_
  have hl := h.left i
  have hn := ha (i + 1)
  obtain ⟨j, hj1⟩ : ∃ j, c (j + 1) = c i ∧ c (j + 2) = c (i + 1) := by
    refine ⟨i + n - 1, ?_, ?_⟩
    · have := h.pos
      rw [show i + n - 1 + 1 = i + n from by omega, h.closed]
    · have := h.pos
      rw [show i + n - 1 + 2 = i + 1 + n from by omega, h.closed]
  obtain ⟨hj1, hj2⟩ := hj1
  have hb := ha j
  have hlb := h.left j
  rw [hj1, hj2] at hlb
  rw [hj1] at hb
  have hs := sideOf_any h i
  rw [show i + 1 + 1 = i + 2 from rfl] at hn
  generalize c i = u at *
  generalize c (i + 1) = v at *
  generalize c (i + 2) = w at *
  generalize c j = p at *
  obtain ⟨ar, az⟩ := a
  simp only [leftOf] at *
  have he : 0 < (v.r - u.r) ^ 2 + (v.z - u.z) ^ 2 := by
    by_contra hneg
    have e1 : v.r - u.r = 0 := by nlinarith [sq_nonneg (v.r - u.r), sq_nonneg (v.z - u.z)]
    have e2 : v.z - u.z = 0 := by nlinarith [sq_nonneg (v.r - u.r), sq_nonneg (v.z - u.z)]
    rw [e1, e2] at hl
    simp at hl
  obtain ⟨s, hs1, hs2⟩ : ∃ s, ar = u.r + s * (v.r - u.r) ∧ az = u.z + s * (v.z - u.z) := by
    refine ⟨((v.r - u.r) * (ar - u.r) + (v.z - u.z) * (az - u.z)) / ((v.r - u.r) ^ 2 + (v.z - u.z) ^ 2), ?_, ?_⟩
    · field_simp
      linear_combination (v.z - u.z) * h0
    · field_simp
      linear_combination -(v.r - u.r) * h0
  subst hs1 hs2
  have hs1 : s ≤ 1 := by
    by_contra hc
    push Not at hc
    have : (w.r - v.r) * (u.z + s * (v.z - u.z) - v.z) - (w.z - v.z) * (u.r + s * (v.r - u.r) - v.r) =
        -(s - 1) * ((v.r - u.r) * (w.z - u.z) - (v.z - u.z) * (w.r - u.r)) := by ring
    rw [this] at hn
    nlinarith [mul_pos (sub_pos.2 hc) hl]
  have hs0 : 0 ≤ s := by
    by_contra hc
    push Not at hc
    have : (u.r - p.r) * (u.z + s * (v.z - u.z) - p.z) - (u.z - p.z) * (u.r + s * (v.r - u.r) - p.r) =
        s * ((u.r - p.r) * (v.z - p.z) - (u.z - p.z) * (v.r - p.r)) := by ring
    rw [this] at hb
    nlinarith [mul_pos (neg_pos.2 hc) hlb]
  exact ⟨u, v, s, hs, hs0, hs1, rfl⟩

theorem inside_open {c : ℕ → Pt} {n : ℕ} (h : TurnsLeft c n) : IsOpen {a | InsideOf c a} := by
  have e : {a | InsideOf c a} = ⋂ i ∈ Finset.range n, {a | 0 < leftOf (c i) (c (i + 1)) a} := by
    ext a
    simp only [Set.mem_setOf_eq, Set.mem_iInter, Finset.mem_range]
    constructor
    · intro ha i _; exact ha i
    · intro ha i
      have := ha (i % n) (Nat.mod_lt _ h.pos)
      rwa [left_mod h] at this
  rw [e]
  refine isOpen_biInter_finset fun i _ => ?_
  refine isOpen_lt continuous_const ?_
  unfold leftOf
  fun_prop

theorem inside_bounded {c : ℕ → Pt} {n : ℕ} (h : TurnsLeft c n) : Bornology.IsBounded {a | InsideOf c a} := by
  -- twice the area
  obtain ⟨A, hA⟩ : ∃ A, ∀ a, ∑ i ∈ Finset.range n, leftOf (c i) (c (i + 1)) a = A := by
    refine ⟨∑ i ∈ Finset.range n, leftOf (c i) (c (i + 1)) (0, 0), fun a => ?_⟩
    have e1 : ∑ i ∈ Finset.range n, ((c (i + 1)).r - (c i).r) = 0 := by
      rw [Finset.sum_range_sub (fun i => (c i).r)]
      have := h.closed 0
      rw [zero_add] at this
      rw [this, sub_self]
    have e2 : ∑ i ∈ Finset.range n, ((c (i + 1)).z - (c i).z) = 0 := by
      rw [Finset.sum_range_sub (fun i => (c i).z)]
      have := h.closed 0
      rw [zero_add] at this
      rw [this, sub_self]
    have e3 : ∀ i, leftOf (c i) (c (i + 1)) a =
        ((c (i + 1)).r - (c i).r) * a.2 - ((c (i + 1)).z - (c i).z) * a.1 + leftOf (c i) (c (i + 1)) (0, 0) := by
      intro i; simp only [leftOf]; ring
    rw [Finset.sum_congr rfl fun i _ => e3 i, Finset.sum_add_distrib, Finset.sum_sub_distrib, ← Finset.sum_mul, ← Finset.sum_mul, e1, e2]
    ring
  have hle : ∀ a, InsideOf c a → ∀ i, leftOf (c i) (c (i + 1)) a ≤ A := by
    intro a ha i
    rw [← left_mod h, ← hA a]
    exact Finset.single_le_sum (f := fun i => leftOf (c i) (c (i + 1)) a) (fun j _ => (ha j).le) (Finset.mem_range.2 (Nat.mod_lt _ h.pos))
  have hD := h.left 0
  simp only [zero_add] at hD
  have h0 := fun a ha => hle a ha 0
  have h1 := fun a ha => hle a ha 1
  simp only [zero_add, show (1 : ℕ) + 1 = 2 from rfl] at h0 h1
  have hp0 : ∀ a, InsideOf c a → 0 < leftOf (c 0) (c 1) a := fun a ha => ha 0
  have hp1 : ∀ a, InsideOf c a → 0 < leftOf (c 1) (c 2) a := fun a ha => ha 1
  generalize c 0 = u at *
  generalize c 1 = v at *
  generalize c 2 = w at *
  have hD' : (v.r - u.r) * (w.z - v.z) - (v.z - u.z) * (w.r - v.r) ≠ 0 := by
    have : (v.r - u.r) * (w.z - v.z) - (v.z - u.z) * (w.r - v.r) = leftOf u v (w.r, w.z) := by simp only [leftOf]; ring
    rw [this]; exact hD.ne'
  refine (((isCompact_Icc (a := (0 : ℝ)) (b := A)).prod (isCompact_Icc (a := (0 : ℝ)) (b := A))).image (f := fun k : ℝ × ℝ =>
    (((w.r - v.r) * (k.1 - leftOf u v (0, 0)) - (v.r - u.r) * (k.2 - leftOf v w (0, 0))) /
        ((v.r - u.r) * (w.z - v.z) - (v.z - u.z) * (w.r - v.r)),
      ((w.z - v.z) * (k.1 - leftOf u v (0, 0)) - (v.z - u.z) * (k.2 - leftOf v w (0, 0))) /
        ((v.r - u.r) * (w.z - v.z) - (v.z - u.z) * (w.r - v.r)))) (by fun_prop)).isBounded.subset ?_
  intro a ha
  refine ⟨(leftOf u v a, leftOf v w a), ⟨⟨(hp0 a ha).le, h0 a ha⟩, ⟨(hp1 a ha).le, h1 a ha⟩⟩, ?_⟩
  obtain ⟨ar, az⟩ := a
  simp only [leftOf, Prod.mk.injEq]
  constructor
  · rw [div_eq_iff hD']; ring
  · rw [div_eq_iff hD']; ring

theorem component_inside {c : ℕ → Pt} {n : ℕ} (h : TurnsLeft c n) {s : Set (ℝ × ℝ)} (hs : IsPreconnected s) (hw : s ⊆ (wallSet (SideOf c n))ᶜ)
    {a : ℝ × ℝ} (ha : a ∈ s) (hi : InsideOf c a) : s ⊆ {a | InsideOf c a} := by
  refine IsPreconnected.subset_left_of_subset_union (inside_open h) (v := ⋃ i, {a | leftOf (c i) (c (i + 1)) a < 0}) ?_ ?_ ?_ ⟨a, ha, hi⟩ hs
  · refine isOpen_iUnion fun i => isOpen_lt ?_ continuous_const
    unfold leftOf
    fun_prop
  · rw [Set.disjoint_left]
    intro b hb hb'
    obtain ⟨i, hi⟩ := Set.mem_iUnion.1 hb'
    exact absurd (hb i) (not_lt.2 (le_of_lt hi))
  · intro b hb
    by_cases hneg : ∃ i, leftOf (c i) (c (i + 1)) b < 0
    · obtain ⟨i, hi⟩ := hneg
      exact .inr (Set.mem_iUnion.2 ⟨i, hi⟩)
    · push Not at hneg
      exact .inl (inside_or_wall h b hneg (hw hb))

theorem inside_off {c : ℕ → Pt} {n : ℕ} {a : ℝ × ℝ} (hi : InsideOf c a) : a ∉ wallSet (SideOf c n) := by
  rintro ⟨v, w, s, ⟨i, -, rfl, rfl⟩, -, -, rfl⟩
  have := hi i
  simp only [leftOf, between] at this
  nlinarith

theorem convex_enclosed {c : ℕ → Pt} {n : ℕ} (h : TurnsLeft c n) {a : ℝ × ℝ} (hi : InsideOf c a) : Enclosed (wallSet (SideOf c n)) a :=
  ⟨inside_off hi, (inside_bounded h).subset (component_inside h isPreconnected_connectedComponentIn (connectedComponentIn_subset _ _)
    (mem_connectedComponentIn (inside_off hi)) hi)⟩

theorem side_range {c : ℕ → Pt} {n : ℕ} {v w : Pt} : Side ((List.range (n + 1)).map c) v w ↔ SideOf c n v w := by
  constructor
  · rintro ⟨i, h1, h2⟩
    rw [List.getElem?_map] at h1 h2
    simp only [Option.map_eq_some_iff] at h1 h2
    obtain ⟨k, k1, rfl⟩ := h1
    obtain ⟨l, l1, rfl⟩ := h2
    obtain ⟨a1, rfl⟩ := List.getElem?_eq_some_iff.1 k1
    obtain ⟨a2, rfl⟩ := List.getElem?_eq_some_iff.1 l1
    simp only [List.length_range] at a1 a2
    refine ⟨i, by omega, by simp, by simp⟩
  · rintro ⟨i, hi, rfl, rfl⟩
    refine ⟨i, ?_, ?_⟩
    · rw [List.getElem?_map, List.getElem?_range (by omega)]; rfl
    · rw [List.getElem?_map, List.getElem?_range (by omega)]; rfl

theorem tile_range {c : ℕ → Pt} {n : ℕ} (hn : 0 < n) (hc : c n = c 0) {v w : Pt} : Tile ((List.range n).map c) v w ↔ SideOf c n v w := by
  obtain ⟨m, rfl⟩ : ∃ m, n = m + 1 := ⟨n - 1, by omega⟩
  have hl : ((List.range (m + 1)).map c).getLast? = some (c m) := by
    rw [List.range_succ, List.map_append]; simp
  have hh : ((List.range (m + 1)).map c).head? = some (c 0) := by
    rw [List.range_succ_eq_map]; simp
  unfold Tile
  rw [side_range, hl, hh]
  constructor
  · rintro (⟨i, hi, h1, h2⟩ | ⟨h1, h2⟩)
    · exact ⟨i, by omega, h1, h2⟩
    · injection h1 with h1; injection h2 with h2
      exact ⟨m, by omega, h1.symm, by rw [hc, h2]⟩
  · rintro ⟨i, hi, h1, h2⟩
    rcases Nat.lt_or_ge i m with h3 | h3
    · exact .inl ⟨i, h3, h1, h2⟩
    · have : i = m := by omega
      subst this
      exact .inr ⟨by rw [h1], by rw [h2, hc]⟩

/-- C156: a wall that turns to the left at every corner and is listed with its first vertex repeated encloses the points on the left of
all its sides. -/
theorem C156_convex (c : ℕ → Pt) (n : ℕ) (h : TurnsLeft c n) (a : ℝ × ℝ) (hi : InsideOf c a) :
    Enclosed (wallSet (Side ((List.range (n + 1)).map c))) a := by
  have : Side ((List.range (n + 1)).map c) = SideOf c n := by
    funext v w; exact propext side_range
  rw [this]
  exact convex_enclosed h hi

/-- C156, `CrossesDomain`, such walls: a step from inside to a point that is not inside is reported. -/
theorem C156_convex_step (c : ℕ → Pt) (n : ℕ) (h : TurnsLeft c n) (x1 y1 z1 x2 y2 z2 : ℝ) (h1 : InsideOf c (placeOf x1 y1 z1))
    (h2 : ¬ InsideOf c (placeOf x2 y2 z2)) : crossesDomain ((List.range (n + 1)).map c) x1 y1 z1 x2 y2 z2 = some true := by
  by_contra hr
  have e : Side ((List.range (n + 1)).map c) = SideOf c n := by
    funext v w; exact propext side_range
  obtain ⟨s, hs, hw, ha, hb⟩ := step_connected (by rw [e]; exact inside_off h1) hr
  rw [e] at hw
  exact h2 (component_inside h hs hw ha h1 hb)

/-- C156, `IntersectsDomain3D`, such walls without horizontal sides. -/
theorem C156_convex_space_partial (axis : Pt) (c : ℕ → Pt) (n : ℕ) (h : TurnsLeft c n) (hz : ∀ i, (c i).z ≠ (c (i + 1)).z) (p0 p1 : P3)
    (h1 : InsideOf c (placeOf p0.x p0.y p0.z)) (h2 : ¬ InsideOf c (placeOf p1.x p1.y p1.z)) :
    intersects3D axis ((List.range n).map c) p0 p1 true = true := by
  have e : Tile ((List.range n).map c) = SideOf c n := by
    funext v w; exact propext (tile_range h.pos (by simpa using h.closed 0))
  cases hr : intersects3D axis ((List.range n).map c) p0 p1 true with
  | true => rfl
  | false =>
    obtain ⟨s, hs, hw, ha, hb⟩ := space_connected (fun v w ht => by
      rw [e] at ht
      obtain ⟨i, -, rfl, rfl⟩ := ht
      exact hz i) hr
    rw [e] at hw
    exact absurd (component_inside h hs hw ha h1 hb) h2

/-- A rectangle. -/
def boxWall (i : ℕ) : Pt := if i % 4 = 0 then ⟨1, 0⟩ else if i % 4 = 1 then ⟨3, 0⟩ else if i % 4 = 2 then ⟨3, 1⟩ else ⟨1, 1⟩

theorem boxWall_turns : TurnsLeft boxWall 4 := by
  refine ⟨by norm_num, fun i => by simp [boxWall], fun i => ?_⟩
  have : i % 4 = 0 ∨ i % 4 = 1 ∨ i % 4 = 2 ∨ i % 4 = 3 := by omega
  rcases this with h | h | h | h <;> norm_num [boxWall, leftOf, h, Nat.add_mod]

theorem boxWall_inside (a : ℝ × ℝ) : InsideOf boxWall a ↔ (1 < a.1 ∧ a.1 < 3) ∧ 0 < a.2 ∧ a.2 < 1 := by
  constructor
  · intro h
    have h0 := h 0
    have h1 := h 1
    have h2 := h 2
    have h3 := h 3
    norm_num [boxWall, leftOf] at h0 h1 h2 h3
    exact ⟨⟨by linarith, by linarith⟩, by linarith, by linarith⟩
  · rintro ⟨⟨h1, h2⟩, h3, h4⟩ i
    have : i % 4 = 0 ∨ i % 4 = 1 ∨ i % 4 = 2 ∨ i % 4 = 3 := by omega
    rcases this with h | h | h | h <;> norm_num [boxWall, leftOf, h, Nat.add_mod] <;> linarith

/-- C156 as stated is refuted for `IntersectsDomain3D`: a particle leaves a rectangle through its horizontal top and is not reported. -/
theorem C156_refuted_space :
    Enclosed (wallSet (Tile ((List.range 4).map boxWall))) (placeOf 2 0 (1 / 2)) ∧
    ¬ Enclosed (wallSet (Tile ((List.range 4).map boxWall))) (placeOf (5 / 2) 0 (3 / 2)) ∧
    intersects3D ⟨2, 1 / 2⟩ ((List.range 4).map boxWall) ⟨2, 0, 1 / 2⟩ ⟨5 / 2, 0, 3 / 2⟩ true = false := by
  have e : Tile ((List.range 4).map boxWall) = SideOf boxWall 4 := by
    funext v w; exact propext (tile_range (by norm_num) (by simp [boxWall]))
  have e2 : Real.sqrt ((2 : ℝ) ^ 2 + 0 ^ 2) = 2 := by
    rw [show (2 : ℝ) ^ 2 + 0 ^ 2 = 2 ^ 2 from by norm_num]; exact Real.sqrt_sq (by norm_num)
  have e5 : Real.sqrt ((5 / 2 : ℝ) ^ 2 + 0 ^ 2) = 5 / 2 := by
    rw [show (5 / 2 : ℝ) ^ 2 + 0 ^ 2 = (5 / 2) ^ 2 from by norm_num]; exact Real.sqrt_sq (by norm_num)
  rw [e]
  refine ⟨convex_enclosed boxWall_turns ((boxWall_inside _).2 ?_), ?_, ?_⟩
  · simp only [placeOf, e2]; norm_num
  · rintro ⟨-, hb⟩
    have hsub : (Set.Ici (3 / 2 : ℝ)).image (fun z => ((5 / 2 : ℝ), z)) ⊆ connectedComponentIn (wallSet (SideOf boxWall 4))ᶜ (placeOf (5 / 2) 0 (3 / 2)) := by
      refine IsPreconnected.subset_connectedComponentIn (isPreconnected_Ici.image _ (by fun_prop)) ⟨3 / 2, by simp, by simp only [placeOf, e5]⟩ ?_
      rintro _ ⟨z, hz, rfl⟩ ⟨v, w, s, ⟨i, hi, rfl, rfl⟩, s0, s1, he⟩
      have hz' : (3 / 2 : ℝ) ≤ z := hz
      have h2 := congrArg Prod.snd he
      simp only [between] at h2
      interval_cases i <;> norm_num [boxWall] at h2 <;> linarith
    obtain ⟨C, hC⟩ := isBounded_iff_forall_norm_le.1 (hb.subset hsub)
    have h3 := hC (5 / 2, |C| + 2) ⟨|C| + 2, by
      show (3 / 2 : ℝ) ≤ |C| + 2
      linarith [abs_nonneg C], rfl⟩
    have h4 := (norm_snd_le ((5 / 2 : ℝ), |C| + 2)).trans h3
    rw [Real.norm_eq_abs] at h4
    linarith [le_abs_self (|C| + 2), le_abs_self C]
  · rw [Bool.eq_false_iff]
    intro hr
    obtain ⟨v, w, ht, -, h⟩ := (C99_exact _ _ _ _ _).1 hr
    rw [e] at ht
    obtain ⟨i, hi, rfl, rfl⟩ := ht
    rcases h with ⟨h1, h | ⟨t, s, t0, t1, -, h3⟩⟩ | ⟨h1, -, -, t, s, s0, s1, -, h3⟩
    · interval_cases i <;> first | (exfalso; revert h1; norm_num [boxWall]; done) | (norm_num [boxWall, SameSlope] at h; done)
    · interval_cases i <;> first | (exfalso; revert h1; norm_num [boxWall]; done) | (norm_num [boxWall, along, between] at h3; rcases h3 with h3 | h3 <;> linarith) |
        (norm_num [boxWall, along, between] at h3; nlinarith)
    · have := Real.sqrt_nonneg ((along ⟨2, 0, 1 / 2⟩ ⟨5 / 2, 0, 3 / 2⟩ t).x ^ 2 + (along ⟨2, 0, 1 / 2⟩ ⟨5 / 2, 0, 3 / 2⟩ t).y ^ 2)
      interval_cases i <;> first | (exfalso; revert h1; norm_num [boxWall]; done) | (norm_num [boxWall, between] at h3; linarith)

/-- A triangle. -/
def triWall (i : ℕ) : Pt := if i % 3 = 0 then ⟨1, 0⟩ else if i % 3 = 1 then ⟨3, 0⟩ else ⟨3, 2⟩

theorem triWall_turns : TurnsLeft triWall 3 := by
  refine ⟨by norm_num, fun i => by simp [triWall], fun i => ?_⟩
  have : i % 3 = 0 ∨ i % 3 = 1 ∨ i % 3 = 2 := by omega
  rcases this with h | h | h <;> norm_num [triWall, leftOf, h, Nat.add_mod]

/-- The first vertex has to be repeated for `CrossesDomain`: a particle leaves a triangle through the side that is not listed. -/
theorem C156_closed_needed :
    InsideOf triWall (placeOf (5 / 2) 0 1) ∧ ¬ InsideOf triWall (placeOf 1 0 (3 / 2)) ∧
    crossesDomain ((List.range 3).map triWall) (5 / 2) 0 1 1 0 (3 / 2) = some false ∧
    crossesDomain ((List.range 4).map triWall) (5 / 2) 0 1 1 0 (3 / 2) = some true := by
  have e5 : Real.sqrt ((5 / 2 : ℝ) ^ 2 + 0 ^ 2) = 5 / 2 := by
    rw [show (5 / 2 : ℝ) ^ 2 + 0 ^ 2 = (5 / 2) ^ 2 from by norm_num]; exact Real.sqrt_sq (by norm_num)
  have e1 : Real.sqrt ((1 : ℝ) ^ 2 + 0 ^ 2) = 1 := by norm_num
  have h1 : InsideOf triWall (placeOf (5 / 2) 0 1) := by
    intro i
    have : i % 3 = 0 ∨ i % 3 = 1 ∨ i % 3 = 2 := by omega
    simp only [placeOf, e5]
    rcases this with h | h | h <;> norm_num [triWall, leftOf, h, Nat.add_mod]
  have h2 : ¬ InsideOf triWall (placeOf 1 0 (3 / 2)) := by
    intro h
    have := h 2
    simp only [placeOf, e1] at this
    norm_num [triWall, leftOf] at this
  refine ⟨h1, h2, ?_, C156_convex_step triWall 3 triWall_turns _ _ _ _ _ _ h1 h2⟩
  have : (List.range 3).map triWall = [⟨1, 0⟩, ⟨3, 0⟩, ⟨3, 2⟩] := by
    simp [List.range_succ, triWall]
  rw [this]
  exact C44_refuted_open.1

/-- The hypotheses hold, e.g., inside the rectangle; and for the 3D test in a square standing on a corner, which has no horizontal side. -/
example : TurnsLeft boxWall 4 ∧ InsideOf boxWall (2, 1 / 2) ∧ ¬ InsideOf boxWall (2, 3) := by
  refine ⟨boxWall_turns, (boxWall_inside _).2 (by norm_num), fun h => ?_⟩
  have := (boxWall_inside _).1 h
  norm_num at this

example : ∃ c : ℕ → Pt, TurnsLeft c 4 ∧ (∀ i, (c i).z ≠ (c (i + 1)).z) ∧ InsideOf c (2, 0) ∧ ¬ InsideOf c (2, 3) := by
  refine ⟨fun i => if i % 4 = 0 then ⟨2, -1⟩ else if i % 4 = 1 then ⟨3, 0⟩ else if i % 4 = 2 then ⟨2, 1⟩ else ⟨1, 0⟩,
    ⟨by norm_num, fun i => by simp, fun i => ?_⟩, fun i => ?_, fun i => ?_, fun h => ?_⟩
  · have : i % 4 = 0 ∨ i % 4 = 1 ∨ i % 4 = 2 ∨ i % 4 = 3 := by omega
    rcases this with h | h | h | h <;> norm_num [leftOf, h, Nat.add_mod]
  · have : i % 4 = 0 ∨ i % 4 = 1 ∨ i % 4 = 2 ∨ i % 4 = 3 := by omega
    rcases this with h | h | h | h <;> norm_num [h, Nat.add_mod]
  · have : i % 4 = 0 ∨ i % 4 = 1 ∨ i % 4 = 2 ∨ i % 4 = 3 := by omega
    rcases this with h | h | h | h <;> norm_num [leftOf, h, Nat.add_mod]
  · have := h 1
    norm_num [leftOf] at this

end

end Softlib
