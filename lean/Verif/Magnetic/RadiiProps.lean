/-
C93: smallest radii and vertical extents of a domain; C94: remembered radii.
-/
import Verif.Magnetic.RadiiModel
import Verif.Magnetic.DomainProps

namespace Softlib

open Softlib.Magnetic

noncomputable section

/-! ### C93 -/

theorem maxMin_least (xs : List ℝ) : ∀ mx mn : ℝ, mn ≤ mx → IsLeast {y | y = mn ∨ y ∈ xs} (maxMin mx mn xs).2 := by
  induction xs with
  | nil => intro mx mn _; exact ⟨.inl rfl, by rintro y (rfl | h); exacts [le_refl _, by cases h]⟩
  | cons x xs ih =>
    intro mx mn hle
    rw [maxMin]
    have key : ∀ mx', mn ≤ mx' → mn ≤ x → IsLeast {y | y = mn ∨ y ∈ x :: xs} (maxMin mx' mn xs).2 := by
      intro mx' hmx hx
      obtain ⟨h1, h2⟩ := ih mx' mn hmx
      refine ⟨?_, ?_⟩
      · rcases h1 with h1 | h1
        · left; exact h1
        · right; simp [h1]
      · rintro y (rfl | hy)
        · exact h2 (.inl rfl)
        · rcases List.mem_cons.1 hy with rfl | hy
          · exact le_trans (h2 (.inl rfl)) hx
          · exact h2 (.inr hy)
    split
    · rename_i h
      exact key x (le_trans hle h.le) (le_trans hle h.le)
    · split
      · rename_i h' h
        obtain ⟨h1, h2⟩ := ih mx x (not_lt.1 h')
        refine ⟨?_, ?_⟩
        · rcases h1 with h1 | h1
          · right; rw [h1]; simp
          · right; simp [h1]
        · rintro y (rfl | hy)
          · exact le_trans (h2 (.inl rfl)) (le_of_lt h)
          · rcases List.mem_cons.1 hy with rfl | hy
            · exact h2 (.inl rfl)
            · exact h2 (.inr hy)
      · rename_i h
        exact key mx hle (not_lt.1 h)

/-- No side of the domain lies along the height `za`. -/
def NoSideAt (dom : List Pt) (za : ℝ) : Prop := ∀ v w, Side dom v w → ¬ (v.z = za ∧ w.z = za)

theorem crossR_unique (za : ℝ) (v w : Pt) (hn : ¬ (v.z = za ∧ w.z = za)) (s x : ℝ) (h0 : 0 ≤ s) (h1 : s ≤ 1)
    (hb : between v w s = ⟨x, za⟩) : x = crossR za v w := by
  have e1 := congrArg Pt.r hb
  have e2 := congrArg Pt.z hb
  simp only [between] at e1 e2
  unfold crossR
  have he : w.z ≠ v.z := by
    intro he
    rw [he] at e2
    exact hn ⟨by linarith, by rw [he]; linarith⟩
  rw [if_neg he]
  have hne : w.z - v.z ≠ 0 := sub_ne_zero.2 he
  have hs : s = (za - v.z) / (w.z - v.z) := by rw [eq_div_iff hne]; linarith
  rw [← e1, hs]
  ring

theorem result_extremes (za : ℝ) (dom : List Pt) (hcount : crossings za dom ≤ 2) (hn : NoSideAt dom za) :
    (∃ mx mn, rpointsResult (rpointsLoop za dom []) = .ok mx mn ∧ IsGreatest (atHeight dom za) mx ∧ IsLeast (atHeight dom za) mn) ∨
    (rpointsResult (rpointsLoop za dom []) = .notInside ∧ atHeight dom za = ∅) := by
  rcases result_spec za dom hcount with ⟨mx, mn, h1, h2⟩ | h
  · left
    refine ⟨mx, mn, h1, h2, ?_⟩
    rw [loop_found za dom [] (by simpa using hcount), List.nil_append] at h1
    cases hf : found za dom with
    | nil => rw [hf] at h1; cases h1
    | cons y ys =>
      rw [hf] at h1
      simp only [rpointsResult, MaxRes.ok.injEq] at h1
      obtain ⟨l1, l2⟩ := maxMin_least ys y y le_rfl
      rw [h1.2] at l1 l2
      have hset : ∀ t, (t = y ∨ t ∈ ys) ↔ t ∈ found za dom := by intro t; rw [hf]; simp
      refine ⟨?_, ?_⟩
      · obtain ⟨v, w, g1, g2, g3⟩ := (mem_found za dom _).1 ((hset _).1 l1)
        obtain ⟨s, s0, s1, s2⟩ := (crossR_spec za v w g2).1
        rw [← g3] at s2
        exact ⟨v, w, s, g1, s0, s1, s2⟩
      · rintro x ⟨v, w, s, g1, s0, s1, s2⟩
        have hs := spans_of_between za v w s x s0 s1 s2
        have hx := crossR_unique za v w (hn v w g1) s x s0 s1 s2
        exact l2 ((hset _).2 ((mem_found za dom _).2 ⟨v, w, g1, hs, hx⟩))
  · exact Or.inr h

/-- **C93** When first and last vertex lie strictly on the same side of the height of the axis, at most two
sides reach it and none lies along it, the function gives the largest and the smallest radius of the
domain at that height, or reports that there is none. -/
theorem C93_radii_partial (axis v0 vl : Pt) (dom : List Pt) (h0 : dom.head? = some v0) (hl : dom.getLast? = some vl)
    (hside : (v0.z < axis.z ∧ vl.z < axis.z) ∨ (v0.z > axis.z ∧ vl.z > axis.z)) (hcount : crossings axis.z dom ≤ 2)
    (hn : NoSideAt dom axis.z) :
    (∃ mx mn, findMaxRadius axis dom = .ok mx mn ∧ IsGreatest (atHeight dom axis.z) mx ∧ IsLeast (atHeight dom axis.z) mn) ∨
    (findMaxRadius axis dom = .notInside ∧ atHeight dom axis.z = ∅) := by
  unfold findMaxRadius
  rw [h0, hl]
  simp only
  rw [if_neg (by
    unfold spans
    rintro (⟨h1, h2⟩ | ⟨h1, h2⟩) <;> rcases hside with ⟨h3, h4⟩ | ⟨h3, h4⟩ <;> linarith)]
  exact result_extremes axis.z dom hcount hn

/-- Heights of the points of the domain at radius `R`. -/
def atRadius (dom : List Pt) (R : ℝ) : Set ℝ :=
  {z | ∃ v w s, Side dom v w ∧ 0 ≤ s ∧ s ≤ 1 ∧ between v w s = ⟨R, z⟩}

/-- The number of sides that reach radius `R`. -/
def crossingsAt (dom : List Pt) (R : ℝ) : Nat :=
  ((dom.zip dom.tail).filter fun q => (decide (q.1.r ≥ R) && decide (q.2.r ≤ R)) || (decide (q.1.r ≤ R) && decide (q.2.r ≥ R))).length

def swapPt (p : Pt) : Pt := ⟨p.z, p.r⟩

theorem crossings_swap (R : ℝ) : ∀ dom : List Pt, crossings R (dom.map swapPt) = crossingsAt dom R
  | [] => rfl
  | [_] => rfl
  | v :: w :: rest => by
    have ih := crossings_swap R (w :: rest)
    rw [List.map_cons, List.map_cons, crossings, ← List.map_cons, ih]
    unfold crossingsAt
    simp only [List.tail_cons, List.zip_cons_cons]
    by_cases hs : spans R (swapPt v) (swapPt w)
    · rw [if_pos hs, List.filter_cons_of_pos (by simpa [spans, swapPt] using hs)]
      simp only [List.length_cons]
      omega
    · rw [if_neg hs, List.filter_cons_of_neg (by simpa [spans, swapPt] using hs)]
      omega

theorem side_swap (dom : List Pt) (v w : Pt) : Side (dom.map swapPt) v w ↔ Side dom (swapPt v) (swapPt w) := by
  unfold Side
  constructor
  · rintro ⟨i, h1, h2⟩
    rw [List.getElem?_map] at h1 h2
    obtain ⟨a, ha, rfl⟩ := Option.map_eq_some_iff.mp h1
    obtain ⟨b, hb, rfl⟩ := Option.map_eq_some_iff.mp h2
    exact ⟨i, ha, hb⟩
  · rintro ⟨i, h1, h2⟩
    refine ⟨i, ?_, ?_⟩
    · rw [List.getElem?_map, h1]; rfl
    · rw [List.getElem?_map, h2]; rfl

theorem atHeight_swap (dom : List Pt) (R : ℝ) : atHeight (dom.map swapPt) R = atRadius dom R := by
  have hb : ∀ v w s x, between v w s = ⟨x, R⟩ ↔ between (swapPt v) (swapPt w) s = ⟨R, x⟩ := by
    intro v w s x
    simp only [between, swapPt, Pt.ext_iff]
    tauto
  ext x
  constructor
  · rintro ⟨v, w, s, h1, h2, h3, h4⟩
    exact ⟨swapPt v, swapPt w, s, (side_swap dom v w).mp h1, h2, h3, (hb v w s x).mp h4⟩
  · rintro ⟨v, w, s, h1, h2, h3, h4⟩
    exact ⟨swapPt v, swapPt w, s, (side_swap dom _ _).mpr h1, h2, h3, (hb (swapPt v) (swapPt w) s x).mpr h4⟩

/-- **C93** The vertical extent of a domain at radius `R`: for every domain of which at most two sides reach
`R` and none lies along it, the largest and the smallest height, or the report that there is none. -/
theorem C93_heights_partial (dom : List Pt) (hd : dom ≠ []) (R : ℝ) (hcount : crossingsAt dom R ≤ 2)
    (hn : ∀ v w, Side dom v w → ¬ (v.r = R ∧ w.r = R)) :
    (∃ mx mn, findMaxZ dom R = .ok mx mn ∧ IsGreatest (atRadius dom R) mx ∧ IsLeast (atRadius dom R) mn) ∨
    (findMaxZ dom R = .notInside ∧ atRadius dom R = ∅) := by
  have he : findMaxZ dom R = rpointsResult (rpointsLoop R (dom.map swapPt) []) := by
    unfold findMaxZ findMaxMin
    rw [if_neg (by simpa using hd)]
    rfl
  rw [he, ← atHeight_swap]
  refine result_extremes R (dom.map swapPt) (by rw [crossings_swap]; exact hcount) ?_
  intro v w hs
  exact hn _ _ ((side_swap dom v w).mp hs)

/-- **C93** (refuted at the tip of a domain) At the radius of the tips of a closed rhombus the two sides at
the upper tip are counted twice and the lower tip is not found: the extent is reported as the single
height 1 instead of -1 to 1. -/
theorem C93_refuted_tip : findMaxZ [⟨1, 0⟩, ⟨2, 1⟩, ⟨3, 0⟩, ⟨2, -1⟩, ⟨1, 0⟩] 2 = .ok 1 1 ∧
    (-1 : ℝ) ∈ atRadius [⟨1, 0⟩, ⟨2, 1⟩, ⟨3, 0⟩, ⟨2, -1⟩, ⟨1, 0⟩] 2 := by
  constructor
  · norm_num [findMaxZ, findMaxMin, spans, rpointsLoop, crossR, rpointsResult, maxMin]
    intro h
    cases h
  · refine ⟨⟨3, 0⟩, ⟨2, -1⟩, 1, ⟨2, rfl, rfl⟩, by norm_num, le_rfl, ?_⟩
    apply Pt.ext <;> norm_num [between]

/-- **C93** (refuted for a side at the height of the axis) The smallest radius of a notched domain with a
side along the height of the axis is reported as 2, its right end, instead of 1. -/
theorem C93_refuted_side : findMaxRadius ⟨3, 0⟩ [⟨1, 1⟩, ⟨1, 0⟩, ⟨2, 0⟩, ⟨2, 1⟩] = .ok 2 1 ∧
    findMaxRadius ⟨3, 0⟩ [⟨2, 1⟩, ⟨5, 2⟩, ⟨2, 0⟩, ⟨1, 0⟩, ⟨1, 1⟩] = .ok 2 2 ∧
    (1 : ℝ) ∈ atHeight [⟨2, 1⟩, ⟨5, 2⟩, ⟨2, 0⟩, ⟨1, 0⟩, ⟨1, 1⟩] 0 := by
  refine ⟨?_, ?_, ?_⟩
  · norm_num [findMaxRadius, spans, rpointsLoop, crossR, rpointsResult, maxMin]
  · norm_num [findMaxRadius, spans, rpointsLoop, crossR, rpointsResult, maxMin]
  · refine ⟨⟨1, 0⟩, ⟨1, 1⟩, 0, ⟨3, rfl, rfl⟩, le_rfl, by norm_num, ?_⟩
    apply Pt.ext <;> norm_num [between]

/-- The vertical extent of a square. -/
example : findMaxZ [⟨1, -1⟩, ⟨3, -1⟩, ⟨3, 1⟩, ⟨1, 1⟩, ⟨1, -1⟩] 2 = .ok 1 (-1) ∧
    crossingsAt [⟨1, -1⟩, ⟨3, -1⟩, ⟨3, 1⟩, ⟨1, 1⟩, ⟨1, -1⟩] 2 ≤ 2 := by
  constructor
  · norm_num [findMaxZ, findMaxMin, spans, rpointsLoop, crossR, rpointsResult, maxMin]
    intro h
    cases h
  · norm_num [crossingsAt, List.filter]

/-! ### C94 -/

/-- What a fresh computation with the contour in use gives. -/
def RField.fresh (f : RField) : Option MaxRes := f.contour.map (findMaxRadius f.axis)

/-- The remembered radii are the initial values or the ones of the contour in use. -/
def Current (f : RField) : Prop :=
  (f.maxradius = -1 ∧ f.minradius = -1) ∨ RField.fresh f = some (.ok f.maxradius f.minradius)

/-- An operation that does not name a contour of its own, and, if it sets the domain, one in which the
axis is (or the field does not use it). -/
def Orderly (f : RField) : ROp → Prop
  | .setDomain d => RField.fresh { f with dom := some d } ≠ some .notInside
  | .findMaxOf _ => False
  | .findMinOf _ => False
  | _ => True

/-- A run of orderly operations. -/
def OrderlyRun : RField → List ROp → RField → Prop
  | f, [], g => g = f
  | f, o :: rest, g => Orderly f o ∧
    match f.step o with
    | .ub => False
    | .throws f' => OrderlyRun f' rest g
    | .ok f' _ => OrderlyRun f' rest g

theorem find_current (f : RField) (mini : Bool) :
    (f.find f.contour mini = .ub) ∨
    (f.find f.contour mini = .throws f ∧ RField.fresh f = some .notInside) ∨
    ∃ mx mn, RField.fresh f = some (.ok mx mn) ∧
      f.find f.contour mini = .ok { f with maxradius := mx, minradius := mn } (if mini then mn else mx) := by
  unfold RField.find RField.fresh
  cases hc : f.contour with
  | none => left; rfl
  | some c =>
    simp only [Option.map_some]
    cases hm : findMaxRadius f.axis c with
    | ub => left; rfl
    | notInside => right; left; exact ⟨rfl, rfl⟩
    | ok mx mn => right; right; exact ⟨mx, mn, rfl, rfl⟩

theorem fresh_radii (f : RField) (a b : ℝ) : RField.fresh { f with maxradius := a, minradius := b } = RField.fresh f := rfl

theorem step_current (f : RField) (o : ROp) (ho : Orderly f o) (hf : Current f) :
    match f.step o with
    | .ub => True
    | .throws f' => Current f'
    | .ok f' _ => Current f' := by
  have key : ∀ (g : RField) (mini : Bool), (Current g ∨ RField.fresh g ≠ some .notInside) →
      match g.find g.contour mini with
      | .ub => True
      | .throws f' => Current f'
      | .ok f' _ => Current f' := by
    intro g mini hg
    rcases find_current g mini with h | ⟨h, hn⟩ | ⟨mx, mn, h1, h2⟩
    · rw [h]; trivial
    · rw [h]
      rcases hg with hg | hg
      · exact hg
      · exact absurd hn hg
    · rw [h2]
      exact Or.inr h1
  cases o with
  | setDomain d => exact key { f with dom := some d } false (Or.inr ho)
  | getMax =>
    simp only [RField.step]
    by_cases hp : f.maxradius > 0
    · rw [if_pos hp]; exact hf
    · rw [if_neg hp]; exact key f false (Or.inl hf)
  | getMin =>
    simp only [RField.step]
    by_cases hp : f.minradius ≥ 0
    · rw [if_pos hp]; exact hf
    · rw [if_neg hp]; exact key f true (Or.inl hf)
  | findMax => exact key f false (Or.inl hf)
  | findMin => exact key f true (Or.inl hf)
  | findMaxOf c => exact absurd ho id
  | findMinOf c => exact absurd ho id

theorem run_current : ∀ (ops : List ROp) (f g : RField), Current f → OrderlyRun f ops g → Current g
  | [], f, g, hf, h => by rw [h]; exact hf
  | o :: rest, f, g, hf, h => by
    obtain ⟨ho, h⟩ := h
    have hs := step_current f o ho hf
    cases he : f.step o with
    | ub => rw [he] at h; exact absurd h id
    | throws f' => rw [he] at h hs; exact run_current rest f' g hs h
    | ok f' v => rw [he] at h hs; exact run_current rest f' g hs h

/-- **C94** After any orderly sequence of operations on a new field, the radii that are returned are the
ones a fresh computation with the contour in use gives. -/
theorem C94_radii_partial (axis : Pt) (own : Option (List Pt)) (ops : List ROp) (g : RField)
    (h : OrderlyRun (RField.new axis own) ops g) (mx mn : ℝ) (hfresh : RField.fresh g = some (.ok mx mn)) :
    (∃ g1, g.step .getMax = .ok g1 mx ∧ Current g1) ∧ (∃ g2, g.step .getMin = .ok g2 mn ∧ Current g2) ∧
    (∃ g3, g.step .findMax = .ok g3 mx) ∧ (∃ g4, g.step .findMin = .ok g4 mn) := by
  have hg : Current g := run_current ops _ g (Or.inl ⟨rfl, rfl⟩) h
  have hfind : ∀ mini, g.find g.contour mini = .ok { g with maxradius := mx, minradius := mn } (if mini then mn else mx) := by
    intro mini
    rcases find_current g mini with h | ⟨h, hn⟩ | ⟨mx', mn', h1, h2⟩
    · exfalso
      unfold RField.find at h
      unfold RField.fresh at hfresh
      cases hc : g.contour with
      | none => rw [hc] at hfresh; cases hfresh
      | some c =>
        rw [hc] at h hfresh
        simp only [Option.map_some, Option.some.injEq] at hfresh
        simp only [hfresh] at h
        cases h
    · rw [hfresh] at hn; cases hn
    · rw [hfresh] at h1
      injection h1 with h1
      injection h1 with h1 h1'
      subst h1 h1'
      exact h2
  have hcur : Current { g with maxradius := mx, minradius := mn } := Or.inr hfresh
  refine ⟨?_, ?_, ⟨_, hfind false⟩, ⟨_, hfind true⟩⟩
  · simp only [RField.step]
    split
    · rename_i hpos
      rcases hg with ⟨h1, -⟩ | h1
      · rw [h1] at hpos; norm_num at hpos
      · rw [hfresh] at h1
        injection h1 with h1
        injection h1 with h1 h1'
        exact ⟨g, by rw [← h1], Or.inr (by rw [hfresh, h1, h1'])⟩
    · exact ⟨_, hfind false, hcur⟩
  · simp only [RField.step]
    split
    · rename_i hpos
      rcases hg with ⟨-, h1⟩ | h1
      · rw [h1] at hpos; norm_num at hpos
      · rw [hfresh] at h1
        injection h1 with h1
        injection h1 with h1 h1'
        exact ⟨g, by rw [← h1'], Or.inr (by rw [hfresh, h1, h1'])⟩
    · exact ⟨_, hfind true, hcur⟩

/-- An example contour: a square around (2, 0) and one around (5, 0). -/
def squareAt (a : ℝ) : List Pt := [⟨a - 1, 1⟩, ⟨a - 1, -1⟩, ⟨a + 1, -1⟩, ⟨a + 1, 1⟩]

theorem squareAt_radius (a : ℝ) (axis : Pt) (hz : axis.z = 0) : findMaxRadius axis (squareAt a) = .ok (a + 1) (a - 1) := by
  have h : ¬ a - 1 > a + 1 := by linarith
  have h' : a + 1 > a - 1 := by linarith
  norm_num [findMaxRadius, squareAt, spans, rpointsLoop, crossR, rpointsResult, maxMin, hz, h']

/-- Setting a domain and asking is an orderly run. -/
example : ∃ g, OrderlyRun (RField.new ⟨2, 0⟩ none) [.setDomain (squareAt 2), .getMax, .setDomain (squareAt 5), .getMin] g ∧
    RField.fresh g = some (.ok (5 + 1) (5 - 1)) := by
  have e : ∀ a, findMaxRadius ⟨2, 0⟩ (squareAt a) = .ok (a + 1) (a - 1) := fun a => squareAt_radius a ⟨2, 0⟩ rfl
  refine ⟨⟨⟨2, 0⟩, none, some (squareAt 5), 5 + 1, 5 - 1⟩, ?_, ?_⟩
  · simp [OrderlyRun, Orderly, RField.step, RField.new, RField.contour, RField.fresh, RField.find, e]
  · simp [RField.fresh, RField.contour, e]

/-- **C94** (refuted after an exception) If the axis is not inside a new domain, setting it fails but the
domain is replaced; the radii that are returned are still the ones of the old domain. -/
theorem C94_refuted_exception : ∃ (d : List Pt) (f g : RField) (v : ℝ),
    (RField.new ⟨2, 0⟩ none).step (.setDomain (squareAt 2)) = .ok f v ∧ f.step (.setDomain d) = .throws g ∧
    g.dom = some d ∧ g.step .findMax = .throws g ∧ g.step .getMax = .ok g 3 := by
  have e : findMaxRadius ⟨2, 0⟩ (squareAt 2) = .ok (2 + 1) (2 - 1) := squareAt_radius 2 ⟨2, 0⟩ rfl
  have e' : findMaxRadius ⟨2, 0⟩ [⟨1, 4⟩, ⟨1, 2⟩, ⟨3, 2⟩] = .notInside := by
    norm_num [findMaxRadius, spans, rpointsLoop, crossR, rpointsResult, maxMin]
  refine ⟨[⟨1, 4⟩, ⟨1, 2⟩, ⟨3, 2⟩], ⟨⟨2, 0⟩, none, some (squareAt 2), 3, 1⟩, ⟨⟨2, 0⟩, none, some [⟨1, 4⟩, ⟨1, 2⟩, ⟨3, 2⟩], 3, 1⟩, 3, ?_, ?_, rfl, ?_, ?_⟩
  · simp only [RField.step, RField.new, RField.contour, RField.find, e, Bool.false_eq_true, if_false]
    norm_num
  · simp only [RField.step, RField.contour, RField.find, e']
  · simp only [RField.step, RField.contour, RField.find, e']
  · simp only [RField.step]
    rw [if_pos (by norm_num)]

/-- **C94** (refuted after asking about another contour) The function with a contour as argument
replaces the remembered radii: the field then reports the radii of that contour. -/
theorem C94_refuted_other_contour : ∃ (f g : RField) (v : ℝ),
    (RField.new ⟨2, 0⟩ none).step (.setDomain (squareAt 2)) = .ok f v ∧ f.step (.findMaxOf (squareAt 5)) = .ok g 6 ∧
    g.dom = some (squareAt 2) ∧ g.step .getMax = .ok g 6 ∧ RField.fresh g = some (.ok 3 1) := by
  have e : ∀ a, findMaxRadius ⟨2, 0⟩ (squareAt a) = .ok (a + 1) (a - 1) := fun a => squareAt_radius a ⟨2, 0⟩ rfl
  refine ⟨⟨⟨2, 0⟩, none, some (squareAt 2), 3, 1⟩, ⟨⟨2, 0⟩, none, some (squareAt 2), 6, 4⟩, 3, ?_, ?_, rfl, ?_, ?_⟩
  · simp only [RField.step, RField.new, RField.contour, RField.find, e, Bool.false_eq_true, if_false]
    norm_num
  · simp only [RField.step, RField.find, e, Bool.false_eq_true, if_false]
    norm_num
  · simp only [RField.step]
    rw [if_pos (by norm_num)]
  · simp only [RField.fresh, RField.contour, Option.map_some, e]
    norm_num

/-- A field that has a contour of its own for the radii keeps them when its domain is replaced. -/
theorem C94_own_contour (axis : Pt) (c d : List Pt) (mx mn : ℝ) (h : findMaxRadius axis c = .ok mx mn) (f : RField)
    (hf : f.axis = axis) (ho : f.own = some c) :
    ∃ g, f.step (.setDomain d) = .ok g mx ∧ g.dom = some d ∧ g.maxradius = mx ∧ g.minradius = mn := by
  refine ⟨{ f with dom := some d, maxradius := mx, minradius := mn }, ?_, rfl, rfl, rfl⟩
  simp only [RField.step, RField.contour, ho, RField.find, hf, h, Bool.false_eq_true, if_false]

/-- Before a domain is set, asking for the radii is undefined. -/
theorem C94_unset (axis : Pt) : (RField.new axis none).step .getMax = .ub ∧ (RField.new axis none).step .getMin = .ub :=
  ⟨if_neg (show ¬ ((-1 : ℝ) > 0) by norm_num), if_neg (show ¬ ((-1 : ℝ) ≥ 0) by norm_num)⟩

end

end Softlib
