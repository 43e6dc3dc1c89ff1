/-
C59: pitch flip and range of the tabulated momentum distribution; C58: its clone.
-/
import Verif.Dist.MomentumModel
import Verif.Dist.InsertProps
import Mathlib.Tactic.Ring
import Mathlib.Tactic.Linarith
import Mathlib.Tactic.NormNum
import Mathlib.Analysis.SpecialFunctions.Exp

namespace Softlib

open Dist

/-- What GSL requires of a table: enough points in each direction, strictly increasing grids; and a value for each pair of nodes. -/
structure GslTable (t : Table) : Prop where
  leastP : (if t.interp = 0 then 2 else 4) ≤ t.p.length
  leastXi : (if t.interp = 0 then 2 else 4) ≤ t.xi.length
  incP : t.p.Pairwise (· < ·)
  incXi : t.xi.Pairwise (· < ·)
  size : t.p.length * t.xi.length ≤ t.f.length

/-- The ends of a strictly increasing list. -/
theorem ends_le {l : List ℝ} (h : l.Pairwise (· < ·)) {a b : ℝ} (ha : l.head? = some a) (hb : l.getLast? = some b) : a ≤ b := by
  cases l with
  | nil => cases ha
  | cons c l =>
    simp only [List.head?_cons, Option.some.injEq] at ha
    subst ha
    have hm := List.mem_of_getLast? hb
    rcases List.mem_cons.mp hm with e | e
    · exact le_of_eq e.symm
    · exact le_of_lt ((List.pairwise_cons.mp h).1 b e)

/-- **C59** Exactly which tables are accepted, and what is then stored. -/
theorem C59_accepts_iff (t : Table) (l fl : Bool) (m : NMom) : NMom.initialize t l fl = .ok m ↔
    GslTable t ∧ t.p.head? = some m.pmin ∧ t.p.getLast? = some m.pmax ∧ t.xi.head? = some m.ximin ∧ t.xi.getLast? = some m.ximax ∧
      m.table = t ∧ m.logarithmic = l ∧ m.flip = fl := by
  obtain ⟨mt, a, b, c, d, ml, mf⟩ := m
  simp only [NMom.initialize]
  constructor
  · intro h
    split at h
    · rename_i p0 p1 x0 x1 h1 h2 h3 h4
      split at h
      · cases h
      · split at h
        · cases h
        · split at h
          · cases h
          · rename_i hg
            split at h
            · cases h
            · rename_i hs
              simp only [MRes.ok.injEq, NMom.mk.injEq] at h
              obtain ⟨rfl, rfl, rfl, rfl, rfl, rfl, rfl⟩ := h
              simp only [gslLeast, not_or, not_not, not_lt] at hg
              exact ⟨⟨hg.1, hg.2.1, hg.2.2.1, hg.2.2.2, not_lt.mp hs⟩, h1, h2, h3, h4, rfl, rfl, rfl⟩
    · cases h
  · rintro ⟨hg, h1, h2, h3, h4, rfl, rfl, rfl⟩
    simp only [h1, h2, h3, h4]
    rw [if_neg (not_lt.mpr (ends_le hg.incP h1 h2)), if_neg (not_lt.mpr (ends_le hg.incXi h3 h4)), if_neg, if_neg (not_lt.mpr hg.size)]
    simp only [gslLeast, not_or, not_not, not_lt]
    exact ⟨hg.leastP, hg.leastXi, hg.incP, hg.incXi⟩

/-- **C59** A flipped distribution at `(p, xi)` is the unflipped one at `(p, -xi)`. -/
theorem C59_flip (spline : Table → ℝ → ℝ → FV) (m : NMom) (p xi : ℝ) :
    (m.setFlip true).eval spline p xi = (m.setFlip false).eval spline p (-xi) := by
  obtain ⟨t, a, b, c, d, l, fl⟩ := m
  have h : (xi < -d ∨ xi > -c) ↔ (-xi < c ∨ -xi > d) := by
    constructor <;> rintro (h | h) <;> first | (left; linarith) | (right; linarith)
  show (if p < a ∨ p > b then FV.num 0 else if true = true then
      if xi < -d ∨ xi > -c then FV.num 0 else unlog l (spline t p (-xi))
      else if xi < c ∨ xi > d then FV.num 0 else unlog l (spline t p xi)) =
    (if p < a ∨ p > b then FV.num 0 else if false = true then
      if -xi < -d ∨ -xi > -c then FV.num 0 else unlog l (spline t p (- -xi))
      else if -xi < c ∨ -xi > d then FV.num 0 else unlog l (spline t p (-xi)))
  by_cases hp : p < a ∨ p > b
  · rw [if_pos hp, if_pos hp]
  · rw [if_neg hp, if_neg hp, if_pos rfl, if_neg (show ¬ (false = true) by simp)]
    by_cases hx : xi < -d ∨ xi > -c
    · rw [if_pos hx, if_pos (h.mp hx)]
    · rw [if_neg hx, if_neg (fun h' => hx (h.mpr h'))]

/-- **C59** Flipping is setting, not toggling; and flipping back restores the distribution. -/
theorem C59_flip_back (m : NMom) (v w : Bool) : (m.setFlip v).setFlip w = m.setFlip w := rfl

/-- The tabulated rectangle, seen through the flip. -/
def InRectangle (m : NMom) (p xi : ℝ) : Prop :=
  m.pmin ≤ p ∧ p ≤ m.pmax ∧
    m.ximin ≤ (if m.flip = true then -xi else xi) ∧ (if m.flip = true then -xi else xi) ≤ m.ximax

/-- **C59** Outside the tabulated rectangle the value is zero, whatever the spline gives. -/
theorem C59_outside (spline : Table → ℝ → ℝ → FV) (m : NMom) (p xi : ℝ) (h : ¬ InRectangle m p xi) :
    m.eval spline p xi = .num 0 := by
  simp only [NMom.eval]
  by_cases hp : p < m.pmin ∨ p > m.pmax
  · rw [if_pos hp]
  · rw [if_neg hp]
    push Not at hp
    by_cases hf : m.flip = true
    · rw [if_pos hf, if_pos]
      by_contra hx
      push Not at hx
      refine h ⟨hp.1, hp.2, ?_, ?_⟩ <;> rw [if_pos hf] <;> linarith [hx.1, hx.2]
    · rw [if_neg hf, if_pos]
      by_contra hx
      push Not at hx
      refine h ⟨hp.1, hp.2, ?_, ?_⟩ <;> rw [if_neg hf] <;> linarith [hx.1, hx.2]

/-- **C59** Inside, it is the spline of the table, exponentiated if the table is logarithmic. -/
theorem C59_inside (spline : Table → ℝ → ℝ → FV) (m : NMom) (p xi : ℝ) (h : InRectangle m p xi) :
    m.eval spline p xi = unlog m.logarithmic (spline m.table p (if m.flip = true then -xi else xi)) := by
  obtain ⟨h1, h2, h3, h4⟩ := h
  simp only [NMom.eval]
  rw [if_neg (by push Not; exact ⟨h1, h2⟩)]
  by_cases hf : m.flip = true
  · rw [if_pos hf] at *
    rw [if_neg (by push Not; constructor <;> linarith), if_pos hf]
  · rw [if_neg hf] at *
    rw [if_neg (by push Not; exact ⟨h3, h4⟩), if_neg hf]

/-- **C59** A logarithmic table only gives non-negative numbers. -/
theorem C59_log_nonneg (spline : Table → ℝ → ℝ → FV) (m : NMom) (p xi : ℝ) (hl : m.logarithmic = true) :
    ∃ v : ℝ, m.eval spline p xi = .num v ∧ 0 ≤ v := by
  have hu : ∀ x : FV, ∃ v : ℝ, unlog m.logarithmic x = .num v ∧ 0 ≤ v := by
    intro x
    rw [hl]
    cases x with
    | nan => exact ⟨0, rfl, le_rfl⟩
    | negInf => exact ⟨0, rfl, le_rfl⟩
    | num v => exact ⟨_, rfl, (Real.exp_pos v).le⟩
  simp only [NMom.eval]
  split
  · exact ⟨0, rfl, le_rfl⟩
  · split
    · split
      · exact ⟨0, rfl, le_rfl⟩
      · exact hu _
    · split
      · exact ⟨0, rfl, le_rfl⟩
      · exact hu _

/-- **C59** If the spline reproduces its table, a logarithmic distribution made from non-negative
values reproduces those values at the grid points. -/
theorem C59_log_grid (spline : Table → ℝ → ℝ → FV) (p xi f : List ℝ) (it : Int) (m : NMom)
    (hm : NMom.initializeLog p xi f it = .ok m) (i j : Nat) (a b v : ℝ) (hv : f[j * p.length + i]? = some v)
    (hsp : ∀ w, (f.map logFV)[j * p.length + i]? = some w → spline ⟨p, xi, f.map logFV, it⟩ a b = w)
    (ha : m.pmin ≤ a ∧ a ≤ m.pmax) (hb : m.ximin ≤ b ∧ b ≤ m.ximax) : m.eval spline a b = .num v := by
  simp only [NMom.initializeLog] at hm
  split at hm
  · cases hm
  · rename_i hneg
    have hv0 : 0 ≤ v := by
      by_contra hlt
      apply hneg
      rw [List.any_eq_true]
      exact ⟨v, List.mem_of_getElem? hv, by simpa using hlt⟩
    obtain ⟨-, -, -, -, -, ht, hl, hf⟩ := (C59_accepts_iff _ _ _ _).mp hm
    rw [C59_inside spline m a b ⟨ha.1, ha.2, by rw [if_neg (by simp [hf])]; exact hb.1,
      by rw [if_neg (by simp [hf])]; exact hb.2⟩, ht, hl, if_neg (by simp [hf]),
      hsp (logFV v) (by rw [List.getElem?_map, hv]; rfl)]
    simp only [logFV]
    split
    · rename_i h0; rw [h0]; rfl
    · rename_i h0
      simp only [unlog]
      rw [Real.exp_log (lt_of_le_of_ne hv0 (Ne.symm h0))]

/-- **C59** Grids whose ends are in the wrong order, and negative values for a logarithmic table,
are rejected. -/
theorem C59_rejects (t : Table) (l fl : Bool) (p0 p1 x0 x1 : ℝ) (h1 : t.p.head? = some p0)
    (h2 : t.p.getLast? = some p1) (h3 : t.xi.head? = some x0) (h4 : t.xi.getLast? = some x1)
    (h : p1 < p0 ∨ x1 < x0) : NMom.initialize t l fl = .throws := by
  simp only [NMom.initialize, h1, h2, h3, h4]
  rcases h with h | h
  · rw [if_pos h]
  · by_cases c : p0 > p1
    · rw [if_pos c]
    · rw [if_neg c, if_pos h]

theorem C59_rejects_negative (p xi f : List ℝ) (it : Int) (x : ℝ) (hx : x ∈ f) (hneg : x < 0) :
    NMom.initializeLog p xi f it = .throws := by
  simp only [NMom.initializeLog]
  rw [if_pos]
  rw [List.any_eq_true]
  exact ⟨x, hx, by simpa using hneg⟩

example : (NMom.setFlip ⟨⟨[1, 2], [0, 1], [], 0⟩, 1, 2, 0, 1, false, false⟩ true).eval (fun _ p xi => .num (p + xi)) 1 (-1/2)
    = .num (3/2) := by
  rw [C59_flip, C59_inside]
  · norm_num [NMom.setFlip, unlog]
  · norm_num [InRectangle, NMom.setFlip]

/-! ### C58 -/

/-- The members agree with the table, as after `Initialize`. -/
def Initialised (m : NMom) : Prop := NMom.initialize m.table m.logarithmic m.flip = .ok m

/-- `Initialize` and `FlipPitchSign` give such objects. -/
theorem initialised_of (t : Table) (l fl v : Bool) (m : NMom) (h : NMom.initialize t l fl = .ok m) :
    Initialised (m.setFlip v) := by
  obtain ⟨hg, h1, h2, h3, h4, rfl, rfl, rfl⟩ := (C59_accepts_iff _ _ _ _).mp h
  exact (C59_accepts_iff _ _ _ _).mpr ⟨hg, h1, h2, h3, h4, rfl, rfl, rfl⟩

theorem clone_eq (m : NMom) (h : Initialised m) : m.clone = .ok { m with logarithmic := false } := by
  obtain ⟨hg, h1, h2, h3, h4, -, -, -⟩ := (C59_accepts_iff _ _ _ _).mp h
  have e : NMom.initialize m.table false false = .ok { m with logarithmic := false, flip := false } :=
    (C59_accepts_iff _ _ _ _).mpr ⟨hg, h1, h2, h3, h4, rfl, rfl, rfl⟩
  simp only [NMom.clone, e, NMom.setFlip]

/-- **C58** The clone of a tabulated distribution that is not logarithmic evaluates identically. -/
theorem C58_momentum_partial (spline : Table → ℝ → ℝ → FV) (m : NMom) (h : Initialised m) (hl : m.logarithmic = false) :
    ∃ m', m.clone = .ok m' ∧ ∀ p xi, m'.eval spline p xi = m.eval spline p xi := by
  refine ⟨_, clone_eq m h, fun p xi => ?_⟩
  obtain ⟨t, a, b, c, d, l, fl⟩ := m
  simp only at hl
  subst hl
  rfl

/-- **C58** (refuted) The clone of a logarithmic table returns the logarithm itself: wherever the
spline is a number the two values differ. -/
theorem C58_refuted_log (spline : Table → ℝ → ℝ → FV) (m : NMom) (h : Initialised m) (hl : m.logarithmic = true)
    (p xi v : ℝ) (hin : InRectangle m p xi) (hv : spline m.table p (if m.flip = true then -xi else xi) = .num v) :
    m.eval spline p xi = .num (Real.exp v) ∧
      ∃ m', m.clone = .ok m' ∧ m'.eval spline p xi = .num v ∧ m'.eval spline p xi ≠ m.eval spline p xi := by
  have h1 : m.eval spline p xi = .num (Real.exp v) := by rw [C59_inside spline m p xi hin, hv, hl]; rfl
  have h2 : ({ m with logarithmic := false } : NMom).eval spline p xi = .num v := by
    rw [C59_inside spline { m with logarithmic := false } p xi hin]
    show unlog false (spline m.table p (if m.flip = true then -xi else xi)) = _
    rw [hv]; rfl
  refine ⟨h1, _, clone_eq m h, h2, ?_⟩
  rw [h1, h2]
  intro e
  injection e with e
  have := Real.add_one_lt_exp (x := v)
  by_cases h0 : v = 0
  · rw [h0, Real.exp_zero] at e; norm_num at e
  · have := this h0
    linarith

/-- Such an object exists: the table 1, 2 on a two by two grid, made by `InitializeLog`. -/
example : ∃ m, NMom.initializeLog [1, 2] [0, 1] [1, 2, 1, 2] 0 = .ok m ∧ Initialised m ∧ m.logarithmic = true ∧
    InRectangle m 1 0 := by
  have h : NMom.initializeLog [1, 2] [0, 1] [1, 2, 1, 2] 0
      = .ok ⟨⟨[1, 2], [0, 1], [1, 2, 1, 2].map logFV, 0⟩, 1, 2, 0, 1, true, false⟩ := by
    have e : ([1, 2, 1, 2] : List ℝ).any (fun x => decide (x < 0)) = false := by norm_num
    simp only [NMom.initializeLog, e, Bool.false_eq_true, if_false]
    exact (C59_accepts_iff _ _ _ _).mpr ⟨⟨by simp, by simp, by norm_num, by norm_num, by simp⟩, rfl, rfl, rfl, rfl, rfl, rfl, rfl⟩
  refine ⟨_, h, ?_, rfl, ?_⟩
  · exact (C59_accepts_iff _ _ _ _).mpr ⟨⟨by simp, by simp, by norm_num, by norm_num, by simp⟩, rfl, rfl, rfl, rfl, rfl, rfl, rfl⟩
  · norm_num [InRectangle]

/-- **C59** For the whole numeric distribution: `FlipPitchSign` is passed to every radius, and the
flipped distribution at `xi` is the unflipped one at `-xi`, for every radius, shift and outcome. -/
theorem C59_numeric (ev : NMom → ℝ × ℝ → ℝ) (spline : Table → ℝ → ℝ → FV)
    (hev : ∀ m m' q q', m.eval spline q.1 q.2 = m'.eval spline q'.1 q'.2 → ev m q = ev m' q')
    (d : NDist NMom ℝ) (r shift p xi : ℝ) :
    NDist.eval ev { d with msdf := d.msdf.map fun m => m.setFlip true } r (p, xi) shift =
      NDist.eval ev { d with msdf := d.msdf.map fun m => m.setFlip false } r (p, -xi) shift := by
  have hflip : ∀ m : NMom, ev (m.setFlip true) (p, xi) = ev (m.setFlip false) (p, -xi) := fun m =>
    hev _ _ _ _ (C59_flip spline m p xi)
  have e1 : ∀ rho, evalFirst ev { d with msdf := d.msdf.map fun m => m.setFlip true } (p, xi) rho =
      evalFirst ev { d with msdf := d.msdf.map fun m => m.setFlip false } (p, -xi) rho := by
    intro rho
    simp only [evalFirst, List.getElem?_map]
    cases d.r[0]? <;> cases d.r[1]? <;> cases d.msdf[0]? <;> cases d.msdf[1]? <;> simp [hflip]
  have e2 : ∀ rho, evalLast ev { d with msdf := d.msdf.map fun m => m.setFlip true } (p, xi) rho =
      evalLast ev { d with msdf := d.msdf.map fun m => m.setFlip false } (p, -xi) rho := by
    intro rho
    simp only [evalLast, List.getElem?_map]
    cases d.r[d.r.length - 1]? <;> cases d.r[d.r.length - 2]? <;> cases d.msdf[d.r.length - 1]? <;>
      cases d.msdf[d.r.length - 2]? <;> simp [hflip]
  have e3 : ∀ rho i, evalMid ev { d with msdf := d.msdf.map fun m => m.setFlip true } (p, xi) rho i =
      evalMid ev { d with msdf := d.msdf.map fun m => m.setFlip false } (p, -xi) rho i := by
    intro rho i
    simp only [evalMid, List.getElem?_map]
    cases d.r[i]? <;> cases d.r[i + 1]? <;> cases d.msdf[i]? <;> cases d.msdf[i + 1]? <;> simp [hflip]
  have e4 : ∀ rho, evalOne ev { d with msdf := d.msdf.map fun m => m.setFlip true } (p, xi) rho =
      evalOne ev { d with msdf := d.msdf.map fun m => m.setFlip false } (p, -xi) rho := by
    intro rho
    simp only [evalOne, List.getElem?_map]
    cases d.msdf[0]? <;> simp [hflip]
  simp only [NDist.eval, e1, e2, e3, e4]

end Softlib
