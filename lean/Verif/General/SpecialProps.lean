/-
Positions that are not numbers (C106).  Model: SpecialModel.lean.
-/
import Verif.General.SpecialModel
import Verif.Dist.NumericModel
import Verif.Dist.MomentumModel
import Verif.Magnetic.AnalyticModel
import Verif.Magnetic.NumericModel
import Mathlib.Tactic.Linarith
import Mathlib.Tactic.NormNum

namespace Softlib.Special

open Softlib.Magnetic Softlib.Image

namespace EF

@[simp] theorem fin_add (a b : ℝ) : EF.fin a + EF.fin b = .fin (a + b) := rfl
@[simp] theorem fin_sub (a b : ℝ) : EF.fin a - EF.fin b = .fin (a - b) := by
  show EF.fin (a + -b) = _
  rw [sub_eq_add_neg]
@[simp] theorem fin_mul (a b : ℝ) : EF.fin a * EF.fin b = .fin (a * b) := rfl
@[simp] theorem fin_neg (a : ℝ) : -EF.fin a = .fin (-a) := rfl
theorem fin_div (a b : ℝ) (h : b ≠ 0) : EF.fin a / EF.fin b = .fin (a / b) := by
  show (if b = 0 then _ else _) = _
  rw [if_neg h]

@[simp] theorem nan_add (a : EF) : EF.nan + a = .nan := by cases a <;> rfl
@[simp] theorem add_nan (a : EF) : a + EF.nan = .nan := by cases a <;> rfl
@[simp] theorem neg_nan : -EF.nan = .nan := rfl
@[simp] theorem nan_sub (a : EF) : EF.nan - a = .nan := by cases a <;> rfl
@[simp] theorem sub_nan (a : EF) : a - EF.nan = .nan := by cases a <;> rfl
@[simp] theorem nan_mul (a : EF) : EF.nan * a = .nan := by cases a <;> rfl
@[simp] theorem mul_nan (a : EF) : a * EF.nan = .nan := by cases a <;> rfl
@[simp] theorem nan_div (a : EF) : EF.nan / a = .nan := by cases a <;> rfl
@[simp] theorem div_nan (a : EF) : a / EF.nan = .nan := by cases a <;> rfl

@[simp] theorem nan_lt (a : EF) : ¬ lt .nan a := by cases a <;> exact id
@[simp] theorem lt_nan (a : EF) : ¬ lt a .nan := by cases a <;> exact id
@[simp] theorem nan_le (a : EF) : ¬ le .nan a := by cases a <;> exact id
@[simp] theorem le_nan (a : EF) : ¬ le a .nan := by cases a <;> exact id
@[simp] theorem nan_eq (a : EF) : ¬ eq .nan a := by cases a <;> exact id
@[simp] theorem eq_nan (a : EF) : ¬ eq a .nan := by cases a <;> exact id
@[simp] theorem fin_lt (a b : ℝ) : lt (.fin a) (.fin b) ↔ a < b := Iff.rfl
@[simp] theorem fin_le (a b : ℝ) : le (.fin a) (.fin b) ↔ a ≤ b := Iff.rfl
@[simp] theorem fin_eq (a b : ℝ) : eq (.fin a) (.fin b) ↔ a = b := Iff.rfl
@[simp] theorem sqrt_nan : EF.sqrt .nan = .nan := rfl
@[simp] theorem exp_nan : EF.exp .nan = .nan := rfl
@[simp] theorem hypot_fin (a b : ℝ) : EF.hypot (.fin a) (.fin b) = .fin (Real.sqrt (a ^ 2 + b ^ 2)) := rfl
@[simp] theorem hypot_nan_fin (b : ℝ) : EF.hypot .nan (.fin b) = .nan := rfl
@[simp] theorem hypot_fin_nan (a : ℝ) : EF.hypot (.fin a) .nan = .nan := rfl

/-! ### numbers that are not finite -/

theorem add_left (x y : EF) (h : ¬ IsFin x) : ¬ IsFin (x + y) := by
  cases x <;> cases y <;> first | exact absurd trivial h | exact id

theorem add_right (x y : EF) (h : ¬ IsFin y) : ¬ IsFin (x + y) := by
  cases x <;> cases y <;> first | exact absurd trivial h | exact id

theorem neg_not (x : EF) (h : ¬ IsFin x) : ¬ IsFin (-x) := by
  cases x <;> first | exact absurd trivial h | exact id

theorem sub_left (x y : EF) (h : ¬ IsFin x) : ¬ IsFin (x - y) := add_left x (-y) h

theorem sub_right (x y : EF) (h : ¬ IsFin y) : ¬ IsFin (x - y) := add_right x (-y) (neg_not y h)

theorem infMul_not (b : Bool) (x : ℝ) : ¬ IsFin (infMul b x) := by
  unfold infMul
  split
  · exact id
  · split <;> exact id

theorem mul_left (x y : EF) (h : ¬ IsFin x) : ¬ IsFin (x * y) := by
  cases x <;> cases y <;> first | exact absurd trivial h | exact id | exact infMul_not _ _

theorem mul_right (x y : EF) (h : ¬ IsFin y) : ¬ IsFin (x * y) := by
  cases x <;> cases y <;> first | exact absurd trivial h | exact id | exact infMul_not _ _

/-- The reciprocal of a number that is not finite, times another such number, is NaN. -/
theorem recip_mul (x y : EF) (hx : ¬ IsFin x) (hy : ¬ IsFin y) : EF.fin 1 / x * y = .nan := by
  have z : ∀ y, ¬ IsFin y → EF.fin 0 * y = .nan := by
    intro y hy
    cases y
    · rfl
    · exact if_pos rfl
    · exact if_pos rfl
    · exact absurd trivial hy
  cases x
  · simp
  · exact z y hy
  · exact z y hy
  · exact absurd trivial hx

end EF

open EF

/-! ### the models agree with the others on finite arguments -/

theorem crossesLoopE_fin (pr pz dr dz : ℝ) : ∀ dom : List Pt,
    crossesLoopE (.fin pr) (.fin pz) (.fin dr) (.fin dz) dom = crossesLoop ⟨pr, pz⟩ ⟨dr, dz⟩ dom
  | [] => rfl
  | [_] => rfl
  | v :: w :: rest => by
    have ih := crossesLoopE_fin pr pz dr dz (w :: rest)
    unfold crossesLoopE crossesLoop
    simp only [fin_sub, fin_mul, fin_eq, ih]
    by_cases h1 : pr - v.r = 0 ∧ pz - v.z = 0
    · rw [if_pos h1, if_pos h1]
    · rw [if_neg h1, if_neg h1]
      by_cases h2 : (w.r - v.r) * dz - dr * (w.z - v.z) = 0
      · rw [if_pos h2, if_pos h2]
      · rw [if_neg h2, if_neg h2, fin_div _ _ h2]
        simp only [fin_mul, fin_neg, fin_le, ge_iff_le]

theorem tileHitE_fin (np n : Pt) (p c : P3) :
    tileHitE np n ⟨.fin p.x, .fin p.y, .fin p.z⟩ ⟨.fin c.x, .fin c.y, .fin c.z⟩ = tileHit np n p c := by
  unfold tileHitE tileHit
  by_cases h1 : np.z = n.z
  · simp only [if_pos h1, fin_eq]
    by_cases h2 : c.z = p.z
    · simp only [if_pos h2]
    · have h2' : c.z - p.z ≠ 0 := sub_ne_zero.2 h2
      simp only [if_neg h2, fin_sub, fin_div _ _ h2', fin_mul, fin_add]
      generalize ht : p.x + (c.x - p.x) * ((n.z - p.z) / (c.z - p.z)) = t1
      generalize ht' : p.y + (c.y - p.y) * ((n.z - p.z) / (c.z - p.z)) = t2
      have hs : EF.sqrt (.fin (t1 * t1 + t2 * t2)) = .fin (Real.sqrt (t1 * t1 + t2 * t2)) :=
        if_neg (not_lt.2 (by nlinarith [mul_self_nonneg t1, mul_self_nonneg t2]))
      rw [hs]
      by_cases h3 : n.r = np.r
      · rw [if_pos h3, decide_eq_false_iff_not]
        have hd : (EF.fin 1 / EF.fin (n.r - np.r)) = .pinf := by
          show (if n.r - np.r = 0 then (if (1 : ℝ) = 0 then EF.nan else if (0 : ℝ) < 1 then .pinf else .ninf) else _) = _
          rw [if_pos (sub_eq_zero.2 h3), if_neg one_ne_zero, if_pos one_pos]
        rw [hd, fin_add]
        show ¬ (le (.fin 0) (infMul true (n.r + Real.sqrt (t1 * t1 + t2 * t2))) ∧
          le (infMul true (n.r + Real.sqrt (t1 * t1 + t2 * t2))) (.fin 1))
        unfold infMul
        rintro ⟨ha, hb⟩
        split at ha
        · exact le_nan _ ha
        · rename_i h0
          rw [if_neg h0] at hb
          split at ha
          · rename_i h4
            rw [if_pos h4] at hb
            exact hb
          · exact ha
      · rw [if_neg h3, fin_div _ _ (sub_ne_zero.2 h3)]
        simp only [fin_add, fin_mul, fin_le, ge_iff_le]
  · simp only [if_neg h1, fin_sub, fin_mul, fin_add, fin_eq]
    by_cases h2 : (c.x - p.x) * (c.x - p.x) + (c.y - p.y) * (c.y - p.y) -
        (np.r - n.r) * ((c.z - p.z) * (1 / (np.z - n.z))) * ((np.r - n.r) * ((c.z - p.z) * (1 / (np.z - n.z)))) = 0
    · simp only [if_pos h2]
    · simp only [if_neg h2, fin_div _ _ h2, fin_mul, fin_add, fin_lt]
      split
      · rfl
      · rename_i h3
        rw [show ∀ x : ℝ, ¬ x < 0 → EF.sqrt (.fin x) = .fin (Real.sqrt x) from fun x hx => if_neg hx]
        · simp only [fin_sub, fin_add, fin_le, ge_iff_le]
        · exact h3

theorem tileTestE_fin (axisR : ℝ) (outer : Bool) (p0 p1 : P3) (v w : Pt) :
    tileTestE axisR outer ⟨.fin p0.x, .fin p0.y, .fin p0.z⟩ ⟨.fin p1.x, .fin p1.y, .fin p1.z⟩ v w =
      tileTest axisR outer p0 p1 v w := by
  unfold tileTestE tileTest
  simp only [fin_lt, gt_iff_lt, tileHitE_fin]

theorem tileLoopE_fin (axisR : ℝ) (outer : Bool) (p0 p1 : P3) (first : Pt) : ∀ dom : List Pt,
    tileLoopE axisR outer ⟨.fin p0.x, .fin p0.y, .fin p0.z⟩ ⟨.fin p1.x, .fin p1.y, .fin p1.z⟩ first dom =
      tileLoop axisR outer p0 p1 first dom
  | [] => rfl
  | [v] => tileTestE_fin _ _ _ _ _ _
  | v :: w :: rest => by
    unfold tileLoopE tileLoop
    rw [tileTestE_fin, tileLoopE_fin axisR outer p0 p1 first (w :: rest)]

theorem colourE_fin (tab : List Color) (vmin vmax v : ℝ) :
    colourE tab vmin vmax (.fin v) = Image.eval tab vmin vmax v := by
  unfold colourE Image.eval
  by_cases h0 : tab.length = 0
  · rw [if_pos h0, if_pos (Or.inl h0)]
  · by_cases h1 : vmax = 0
    · rw [if_neg h0, if_pos (Or.inr h1), h1, fin_sub]
      have hd : ¬ IsFin (EF.fin (v - vmin) / EF.fin 0) := by
        show ¬ IsFin (if (0 : ℝ) = 0 then _ else _)
        rw [if_pos rfl]
        split
        · exact id
        · split <;> exact id
      have hm := mul_left _ (EF.fin ((tab.length - 1 : Nat) : ℝ)) hd
      generalize hE : EF.fin (v - vmin) / EF.fin 0 * EF.fin ((tab.length - 1 : Nat) : ℝ) = e at hm
      cases e
      · rfl
      · rfl
      · rfl
      · exact absurd trivial hm
    · rw [if_neg h0, if_neg (by tauto), fin_sub, fin_div _ _ h1, fin_mul]
      rfl

/-- A profile with finite members. -/
def ofProfile : Dist.Profile → ProfileE
  | .uniform => .uniform
  | .linear rmin rmax delr => .linear (.fin rmin) (.fin rmax) (.fin delr)
  | .power rmin rmax b delr => .power (.fin rmin) (.fin rmax) (.fin delr) b
  | .gaussian rmin rmax a b c => .gaussian (.fin rmin) (.fin rmax) (.fin a) (.fin b) (.fin c)
  | .bessel rmin rmax => .bessel (.fin rmin) (.fin rmax)

theorem profileE_fin (J0 : EF → EF) (hJ : ∀ x, J0 (.fin x) = .fin (Dist.besselJ0 x)) (q : Dist.Profile)
    (hq : q.Made) (r shift v : ℝ) (h : q.eval r shift = some v) :
    (ofProfile q).eval J0 (.fin r) (.fin shift) = .fin v := by
  cases hq with
  | uniform => cases h; rfl
  | linear hm =>
    unfold Dist.Profile.mkLinear at hm
    split at hm
    · cases hm
    · cases hm
      simp only [Dist.Profile.eval] at h
      simp only [ofProfile, ProfileE.eval, fin_sub, fin_le, fin_lt, fin_mul]
      split at h <;> cases h
      · rename_i h1
        exact if_pos h1
      · rename_i h1
        exact if_neg h1
  | power hm =>
    unfold Dist.Profile.mkPower at hm
    split at hm
    · cases hm
    · cases hm
      rename_i b _
      simp only [Dist.Profile.eval] at h
      simp only [ofProfile, ProfileE.eval, fin_sub, fin_le, fin_lt, fin_mul]
      split at h
      · rename_i h1
        cases h
        exact if_pos h1
      · rename_i h1
        rw [if_neg (by exact h1)]
        unfold Dist.cpow at h
        split at h
        · cases h
        · rename_i h2
          cases h
          unfold EF.pow
          by_cases hb : b = 0
          · rw [if_pos hb, hb, Real.rpow_zero, fin_sub]
          · rw [if_neg hb]
            simp only [if_neg h2, fin_sub]
  | gaussian hm =>
    unfold Dist.Profile.mkGaussian at hm
    split at hm
    · cases hm
    split at hm
    · cases hm
    split at hm
    · cases hm
    split at hm
    · cases hm
    cases hm
    rename_i hc
    rw [not_le] at hc
    simp only [Dist.Profile.eval] at h
    simp only [ofProfile, ProfileE.eval, fin_sub, fin_le, fin_lt, fin_mul, fin_neg]
    rw [fin_div _ _ (mul_ne_zero hc.ne' hc.ne')]
    split at h <;> cases h
    · rename_i h1
      exact if_pos h1
    · rename_i h1
      exact if_neg h1
  | bessel hm =>
    unfold Dist.Profile.mkBessel at hm
    split at hm
    · cases hm
    · cases hm
      rename_i hlt
      rw [ge_iff_le, not_le] at hlt
      simp only [Dist.Profile.eval] at h
      simp only [ofProfile, ProfileE.eval, fin_sub, fin_le, fin_lt, fin_mul]
      rw [fin_div _ _ (sub_ne_zero.2 hlt.ne'), fin_mul, hJ]
      split at h <;> cases h
      · rename_i h1
        exact if_pos h1
      · rename_i h1
        exact if_neg h1

theorem clampE_fin (lo hi x : ℝ) : clampE lo hi (.fin x) = .fin (clampTo lo hi x) := by
  unfold clampE clampTo
  simp only [fin_lt, gt_iff_lt]
  split
  · rfl
  · split <;> rfl

theorem numericE_fin (g : NGrid) (sr sp sz : EF → EF → EF) (h1 : ∀ a b, sr (.fin a) (.fin b) = .fin (g.br.val a b))
    (h2 : ∀ a b, sp (.fin a) (.fin b) = .fin (g.bphi.val a b)) (h3 : ∀ a b, sz (.fin a) (.fin b) = .fin (g.bz.val a b))
    (x y z : ℝ) :
    numericE g.rmin g.rmax g.zmin g.zmax sr sp sz (.fin x) (.fin y) (.fin z) =
      (.fin (g.eval x y z).1, .fin (g.eval x y z).2.1, .fin (g.eval x y z).2.2) := by
  unfold numericE NGrid.eval hyp
  simp only [hypot_fin, clampE_fin, h1, h2, h3, fin_eq]
  by_cases h0 : clampTo g.rmin g.rmax (Real.sqrt (x ^ 2 + y ^ 2)) = 0
  · simp [h0]
  · simp [h0, fin_div _ _ h0]

theorem analyticE_fin (f : AField) (q : EF → EF) (hq : ∀ r, q (.fin r) = .fin (safety f.q f.rminor r))
    (x y z : ℝ) (h0 : hyp x y ≠ 0) (h1 : f.rm * safety f.q f.rminor (hyp (f.rm - hyp x y) (z - f.zm)) ≠ 0) :
    analyticE f.b0 f.rm f.zm f.sigmaB f.sigmaI q (.fin x) (.fin y) (.fin z) =
      (.fin (f.eval x y z).1, .fin (f.eval x y z).2.1, .fin (f.eval x y z).2.2) := by
  unfold analyticE AField.eval
  simp only [hypot_fin, fin_sub, hq, fin_mul, fin_eq]
  change Real.sqrt (x ^ 2 + y ^ 2) ≠ 0 at h0
  unfold hyp at h1 ⊢
  simp only [fin_div _ _ h0, fin_div _ _ h1, fin_mul]
  by_cases h2 : Real.sqrt ((f.rm - Real.sqrt (x ^ 2 + y ^ 2)) ^ 2 + (z - f.zm) ^ 2) = 0
  · simp [h2]
  · simp [h2, fin_div _ _ h2]

theorem searchE_fin (asc : Bool) (g : List ℝ) (x : ℝ) (il iu : Nat) (i : Nat)
    (h : Dist.searchLoop asc g x il iu = some i) : searchE asc g (.fin x) il iu = some i := by
  induction il, iu using searchE.induct (asc := asc) (g := g) (x := .fin x) with
  | case1 il iu hgt hn =>
    unfold Dist.searchLoop at h
    rw [if_pos hgt] at h
    split at h
    · cases h
    · rw [hn] at h
      cases h
  | case2 il iu hgt v hv hc ih =>
    unfold Dist.searchLoop at h
    rw [if_pos hgt] at h
    split at h
    · cases h
    · rw [hv] at h
      unfold searchE
      rw [if_pos hgt, hv]
      simp only [fin_le, ge_iff_le] at hc h ⊢
      rw [if_pos (by simpa using hc)] at h ⊢
      exact ih h
  | case3 il iu hgt v hv hc ih =>
    unfold Dist.searchLoop at h
    rw [if_pos hgt] at h
    split at h
    · cases h
    · rw [hv] at h
      unfold searchE
      rw [if_pos hgt, hv]
      simp only [fin_le, ge_iff_le] at hc h ⊢
      rw [if_neg (by simpa using hc)] at h ⊢
      exact ih h
  | case4 il iu hle =>
    unfold Dist.searchLoop at h
    unfold searchE
    rw [if_neg hle] at h ⊢
    exact h

theorem findNearestE_fin (g : List ℝ) (x : ℝ) (i : Int) (h : Dist.findNearest g x = some i) :
    findNearestE g (.fin x) = some i := by
  match g with
  | [] => exact h
  | [_] => exact h
  | g0 :: g1 :: rest =>
    unfold Dist.findNearest at h
    unfold findNearestE
    simp only at h ⊢
    cases hs : Dist.searchLoop (decide (g1 > g0)) (g0 :: g1 :: rest) x 0 (rest.length + 1) with
    | none => rw [hs] at h; cases h
    | some il =>
      rw [hs] at h
      rw [searchE_fin _ _ _ _ _ _ hs]
      exact h

theorem lerpE_fin (r0 r1 f0 f1 rho v : ℝ) (h : Dist.lerp r0 r1 f0 f1 rho = .ok v) :
    lerpE (.fin r0) (.fin r1) (.fin f0) (.fin f1) (.fin rho) = .fin v := by
  unfold Dist.lerp at h
  split at h
  · cases h
  · rename_i hne
    cases h
    unfold lerpE
    simp only [fin_sub, fin_mul, fin_add]
    rw [fin_div _ _ hne]

theorem numericDistE_fin {M P : Type} (ev : M → P → ℝ) (d : Dist.NDist M ℝ) (r shift v : ℝ) (p : P)
    (h : d.eval ev r p shift = .ok v) :
    numericDistE d.r (d.msdf.map fun m => .fin (ev m p)) d.rmin d.rmax d.allow (.fin r) (.fin shift) = .ok (.fin v) := by
  unfold Dist.NDist.eval at h
  unfold numericDistE
  simp only [fin_sub, fin_lt, gt_iff_lt] at h ⊢
  split at h
  · cases h
  · rename_i h0
    rw [if_neg h0]
    cases hf : Dist.findNearest d.r (r - shift) with
    | none => rw [hf] at h; cases h
    | some ir =>
      rw [hf] at h
      rw [findNearestE_fin _ _ _ hf]
      simp only at h ⊢
      split at h
      · rename_i h1
        rw [if_pos h1]
        unfold Dist.evalOne at h
        rw [List.getElem?_map]
        cases hm : d.msdf[0]? with
        | none => rw [hm] at h; cases h
        | some m =>
          rw [hm] at h
          exact congrArg ResE.ok (lerpE_fin _ _ _ _ _ _ h)
      · rename_i h1
        rw [if_neg h1]
        split at h
        · rename_i h2
          rw [if_pos h2]
          unfold Dist.evalFirst at h
          simp only [List.getElem?_map]
          split at h
          · rename_i a b m n e1 e2 e3 e4
            rw [e1, e2, e3, e4]
            split at h
            · cases h
            · rename_i hne
              simp only [Option.map_some, fin_mul, fin_sub]
              rw [fin_div _ _ hne]
              exact congrArg ResE.ok (lerpE_fin _ _ _ _ _ _ h)
          · cases h
        · rename_i h2
          rw [if_neg h2]
          split at h
          · rename_i h3
            rw [if_pos h3]
            unfold Dist.evalLast at h
            simp only [List.getElem?_map]
            split at h
            · rename_i a b m n e1 e2 e3 e4
              rw [e1, e2, e3, e4]
              simp only [Option.map_some, fin_mul, fin_sub]
              exact congrArg ResE.ok (lerpE_fin _ _ _ _ _ _ h)
            · cases h
          · rename_i h3
            rw [if_neg h3]
            unfold Dist.evalMid at h
            simp only [List.getElem?_map]
            split at h
            · rename_i a b m n e1 e2 e3 e4
              rw [e1, e2, e3, e4]
              exact congrArg ResE.ok (lerpE_fin _ _ _ _ _ _ h)
            · cases h

/-- A value of the table model. -/
def ofFV : Dist.FV → EF
  | .nan => .nan
  | .negInf => .ninf
  | .num v => .fin v

theorem tableE_fin (spl : Dist.Table → ℝ → ℝ → Dist.FV) (m : Dist.NMom) (s : EF → EF → EF)
    (hs : ∀ a b, s (.fin a) (.fin b) = ofFV (spl m.table a b)) (p xi : ℝ) :
    tableE s m.pmin m.pmax m.ximin m.ximax m.logarithmic m.flip (.fin p) (.fin xi) = ofFV (m.eval spl p xi) := by
  have hu : ∀ v, (if m.logarithmic then (match ofFV v with | .nan => EF.fin 0 | v => EF.exp v) else ofFV v) =
      ofFV (Dist.unlog m.logarithmic v) := by
    intro v
    cases m.logarithmic <;> cases v <;> rfl
  unfold tableE Dist.NMom.eval
  simp only [fin_lt, gt_iff_lt, fin_neg, hs]
  by_cases h1 : p < m.pmin ∨ m.pmax < p
  · rw [if_pos h1, if_pos h1]
    rfl
  · rw [if_neg h1, if_neg h1]
    cases hf : m.flip with
    | true =>
      simp only [true_and, if_true]
      by_cases h2 : xi < -m.ximax ∨ -m.ximin < xi
      · rw [if_pos h2, if_pos h2]
        rfl
      · rw [if_neg h2, if_neg h2, if_neg (by simp)]
        exact hu _
    | false =>
      simp only [true_and, Bool.false_eq_true, if_false, false_and]
      by_cases h2 : xi < m.ximin ∨ m.ximax < xi
      · rw [if_pos h2, if_pos h2]
        rfl
      · rw [if_neg h2, if_neg h2]
        exact hu _

end Softlib.Special

namespace Softlib

open Softlib.Special Softlib.Special.EF Softlib.Magnetic Softlib.Image

/-! ### crossing the domain -/

theorem Special.hypot_not (x y : EF) (h : ¬ IsFin x ∨ ¬ IsFin y) : ¬ IsFin (hypot x y) := by
  cases x <;> cases y <;> first | exact id | (rcases h with h | h <;> exact absurd trivial h)

theorem Special.eq_fin_of_not (x : EF) (h : ¬ IsFin x) (y : ℝ) : ¬ eq x (.fin y) := by
  cases x <;> first | exact id | exact absurd trivial h

theorem Special.crossesLoopE_false (pr pz dr dz : EF) (h : ¬ IsFin dr ∨ ¬ IsFin dz) : ∀ dom : List Pt,
    crossesLoopE pr pz dr dz dom = false
  | [] => rfl
  | [_] => rfl
  | v :: w :: rest => by
    have ih := crossesLoopE_false pr pz dr dz h (w :: rest)
    unfold crossesLoopE
    simp only
    have hdet : ¬ IsFin (EF.fin (w.r - v.r) * dz - dr * EF.fin (w.z - v.z)) := by
      rcases h with h | h
      · exact sub_right _ _ (mul_left _ _ h)
      · exact sub_left _ _ (mul_right _ _ h)
    have hin : ¬ IsFin ((pr - EF.fin v.r) * dz - (pz - EF.fin v.z) * dr) := by
      rcases h with h | h
      · exact sub_right _ _ (mul_right _ _ h)
      · exact sub_left _ _ (mul_right _ _ h)
    rw [recip_mul _ _ hdet hin, ih]
    split
    · rfl
    · rw [if_neg (eq_fin_of_not _ hdet 0), if_neg (fun hc => le_nan _ hc.1)]

/-- C106.  **What is computed** by `CrossesDomain` when one of the six coordinates is NaN or infinite: for every wall
with a vertex, "not crossed".  (`CrossesDomain` is how a particle is found to have left the device.) -/
theorem C106_crosses (dom : List Pt) (hd : dom ≠ []) (x1 y1 z1 x2 y2 z2 : EF)
    (h : ¬ (IsFin x1 ∧ IsFin y1 ∧ IsFin z1 ∧ IsFin x2 ∧ IsFin y2 ∧ IsFin z2)) :
    crossesE dom x1 y1 z1 x2 y2 z2 = some false := by
  unfold crossesE
  rw [if_neg (by simpa using hd)]
  refine congrArg some (crossesLoopE_false _ _ _ _ ?_ dom)
  by_cases hx1 : IsFin x1
  · by_cases hy1 : IsFin y1
    · by_cases hz1 : IsFin z1
      · by_cases hx2 : IsFin x2
        · by_cases hy2 : IsFin y2
          · exact Or.inr (sub_left _ _ (fun hz2 => h ⟨hx1, hy1, hz1, hx2, hy2, hz2⟩))
          · exact Or.inl (sub_left _ _ (hypot_not _ _ (Or.inr hy2)))
        · exact Or.inl (sub_left _ _ (hypot_not _ _ (Or.inl hx2)))
      · exact Or.inr (sub_right _ _ hz1)
    · exact Or.inl (sub_right _ _ (hypot_not _ _ (Or.inr hy1)))
  · exact Or.inl (sub_right _ _ (hypot_not _ _ (Or.inl hx1)))

/-- On numbers it is the function of the other theorems. -/
theorem C106_crosses_finite (dom : List Pt) (x1 y1 z1 x2 y2 z2 : ℝ) :
    crossesE dom (.fin x1) (.fin y1) (.fin z1) (.fin x2) (.fin y2) (.fin z2) =
      crossesDomain dom x1 y1 z1 x2 y2 z2 := by
  unfold crossesE crossesDomain
  simp only [hypot_fin, fin_sub, crossesLoopE_fin]

/-! ### intersecting the wall -/

theorem Special.tileHitE_nan (np n : Pt) (p c : P3E)
    (h : p.x = .nan ∨ p.y = .nan ∨ p.z = .nan ∨ c.x = .nan ∨ c.y = .nan ∨ c.z = .nan) : tileHitE np n p c = false := by
  obtain ⟨px, py, pz⟩ := p
  obtain ⟨cx, cy, cz⟩ := c
  unfold tileHitE
  rcases h with h | h | h | h | h | h <;> simp only at h <;> subst h <;> simp

theorem Special.tileLoopE_nan (axisR : ℝ) (outer : Bool) (p0 p1 : P3E) (first : Pt)
    (h : p0.x = .nan ∨ p0.y = .nan ∨ p0.z = .nan ∨ p1.x = .nan ∨ p1.y = .nan ∨ p1.z = .nan) : ∀ dom : List Pt,
    tileLoopE axisR outer p0 p1 first dom = false := by
  have ht : ∀ v w, tileTestE axisR outer p0 p1 v w = false := by
    intro v w
    unfold tileTestE
    rw [tileHitE_nan w v p1 p0 (by tauto)]
    split
    · rfl
    · split <;> rfl
  intro dom
  induction dom with
  | nil => rfl
  | cons v rest ih =>
    cases rest with
    | nil => exact ht v first
    | cons w rest =>
      unfold tileLoopE
      rw [ht, ih]
      rfl

/-- C106.  **What is computed** by `IntersectsDomain3D` when a coordinate is NaN: for every wall, "not intersected". -/
theorem C106_intersects (axis : Pt) (dom : List Pt) (p0 p1 : P3E) (outer : Bool)
    (h : p0.x = .nan ∨ p0.y = .nan ∨ p0.z = .nan ∨ p1.x = .nan ∨ p1.y = .nan ∨ p1.z = .nan) :
    intersects3DE axis dom p0 p1 outer = false := by
  cases dom with
  | nil => rfl
  | cons v rest => exact tileLoopE_nan _ _ _ _ _ h _

theorem C106_intersects_finite (axis : Pt) (dom : List Pt) (p0 p1 : P3) (outer : Bool) :
    intersects3DE axis dom ⟨.fin p0.x, .fin p0.y, .fin p0.z⟩ ⟨.fin p1.x, .fin p1.y, .fin p1.z⟩ outer =
      intersects3D axis dom p0 p1 outer := by
  cases dom with
  | nil => rfl
  | cons v rest => exact tileLoopE_fin _ _ _ _ _ _

/-! ### colours -/

/-- C106.  **What is computed** by the colour map for NaN or an infinite value: nothing, the behaviour is undefined. -/
theorem C106_colour (tab : List Color) (vmin vmax : ℝ) (v : EF) (h : ¬ IsFin v) : colourE tab vmin vmax v = none := by
  have h1 : ¬ IsFin ((v - .fin vmin) / .fin vmax) := by
    have h0 := sub_left v (.fin vmin) h
    generalize v - EF.fin vmin = e at h0
    cases e
    · exact id
    · show ¬ IsFin (if 0 ≤ vmax then EF.pinf else .ninf)
      split <;> exact id
    · show ¬ IsFin (if 0 ≤ vmax then EF.ninf else .pinf)
      split <;> exact id
    · exact absurd trivial h0
  have h2 := mul_left _ (EF.fin ((tab.length - 1 : Nat) : ℝ)) h1
  unfold colourE
  split
  · rfl
  · generalize (v - EF.fin vmin) / EF.fin vmax * EF.fin ((tab.length - 1 : Nat) : ℝ) = e at h2
    cases e
    · rfl
    · rfl
    · rfl
    · exact absurd trivial h2

theorem C106_colour_finite (tab : List Color) (vmin vmax v : ℝ) :
    colourE tab vmin vmax (.fin v) = Image.eval tab vmin vmax v := colourE_fin tab vmin vmax v

/-! ### radial profiles -/

/-- C106.  **What is computed** by the radial profiles at a radius or with a shift that is NaN: NaN, except that the
uniform profile is one and a power profile with exponent zero is zero, as for any other radius.  (The Bessel function of
NaN is taken to be NaN.) -/
theorem C106_profile (J0 : EF → EF) (hJ : J0 .nan = .nan) (q : Dist.Profile) (r shift : EF)
    (h : r = .nan ∨ shift = .nan) :
    (ofProfile q).eval J0 r shift =
      (match q with
        | .uniform => .fin 1
        | .power _ _ b _ => if b = 0 then .fin 0 else .nan
        | _ => .nan) := by
  have hr : r - shift = .nan := by rcases h with h | h <;> subst h <;> simp
  cases q <;> simp only [ofProfile, ProfileE.eval, hr]
  · simp
  · rename_i rmin rmax b delr
    rw [if_neg (by simp)]
    unfold EF.pow
    by_cases hb : b = 0
    · simp [hb]
    · simp [hb]
  · simp
  · simp [hJ]

/-- C106.  On numbers it is the function of the other theorems. -/
theorem C106_profile_finite (J0 : EF → EF) (hJ : ∀ x, J0 (.fin x) = .fin (Dist.besselJ0 x)) (q : Dist.Profile)
    (hq : q.Made) (r shift v : ℝ) (h : q.eval r shift = some v) :
    (ofProfile q).eval J0 (.fin r) (.fin shift) = .fin v := profileE_fin J0 hJ q hq r shift v h

/-- C106.  The constructors accept bounds that are NaN, and the Gaussian profile also accepts parameters that are. -/
theorem C106_constructors_accept (x y a b c : EF) (hxy : x = .nan ∨ y = .nan) :
    (mkLinearE x y).isSome ∧ (∀ e, (mkPowerE x y e).isSome) ∧ (mkBesselE x y).isSome ∧
      (mkGaussianE x y .nan .nan .nan).isSome ∧
      (lt (.fin 0) a → lt (.fin 0) b → lt (.fin 0) c → (mkGaussianE x y a b c).isSome) := by
  have h : ¬ le y x := by rcases hxy with h | h <;> subst h <;> simp
  have hn : ∀ a : EF, lt (.fin 0) a → ¬ le a (.fin 0) := by
    intro a ha hb
    cases a
    · exact ha
    · exact hb
    · exact ha
    · exact absurd (lt_of_lt_of_le ha hb) (lt_irrefl _)
  refine ⟨?_, ?_, ?_, ?_, ?_⟩
  · simp [mkLinearE, h]
  · intro e
    simp [mkPowerE, h]
  · simp [mkBesselE, h]
  · simp [mkGaussianE, h]
  · intro ha hb hc
    simp [mkGaussianE, h, hn a ha, hn b hb, hn c hc]

/-- C106.  A linear profile with a bound that is NaN is zero or NaN at every radius. -/
theorem C106_linear_bounds (J0 : EF → EF) (rmin rmax : EF) (hb : rmin = .nan ∨ rmax = .nan) (q : ProfileE)
    (hq : mkLinearE rmin rmax = some q) (r shift : EF) :
    q.eval J0 r shift = .fin 0 ∨ q.eval J0 r shift = .nan := by
  unfold mkLinearE at hq
  split at hq
  · cases hq
  · cases hq
    simp only [ProfileE.eval]
    split
    · exact Or.inl rfl
    · right
      rcases hb with h | h <;> subst h <;> simp

/-! ### tabulated distributions -/

theorem Special.searchE_some (asc : Bool) (g : List ℝ) (x : EF) (il iu : Nat) (h : iu < g.length) :
    ∃ i, searchE asc g x il iu = some i := by
  induction il, iu using searchE.induct (asc := asc) (g := g) (x := x) with
  | case1 il iu hgt hn =>
    rw [List.getElem?_eq_none_iff] at hn
    omega
  | case2 il iu hgt v hv hc ih =>
    unfold searchE
    rw [if_pos hgt, hv]
    simp only
    rw [if_pos hc]
    exact ih h
  | case3 il iu hgt v hv hc ih =>
    unfold searchE
    rw [if_pos hgt, hv]
    simp only
    rw [if_neg hc]
    exact ih (by omega)
  | case4 il iu hle =>
    unfold searchE
    rw [if_neg hle]
    exact ⟨il, rfl⟩

theorem Special.findNearestE_some (g : List ℝ) (x : EF) : ∃ i, findNearestE g x = some i := by
  match g with
  | [] => exact ⟨_, rfl⟩
  | [_] => exact ⟨_, rfl⟩
  | g0 :: g1 :: rest =>
    obtain ⟨i, hi⟩ := searchE_some (decide (g1 > g0)) (g0 :: g1 :: rest) x 0 (rest.length + 1) (by simp)
    unfold findNearestE
    simp only [hi]
    split
    · exact ⟨_, rfl⟩
    · split
      · exact ⟨_, rfl⟩
      · exact ⟨_, rfl⟩

/-- C106.  A tabulated distribution at a radius or with a shift that is NaN is NaN, for every grid with a radius, whether
or not extrapolation is allowed; it does not throw and reads nothing outside the tables. -/
theorem C106_distribution (rs : List ℝ) (fs : List EF) (hl : fs.length = rs.length) (hn : rs ≠ []) (rmin rmax : ℝ)
    (allow : Bool) (r shift : EF) (h : r = .nan ∨ shift = .nan) :
    ∃ v, numericDistE rs fs rmin rmax allow r shift = .ok v ∧ v = .nan := by
  have hr : r - shift = .nan := by rcases h with h | h <;> subst h <;> simp
  have hpos : 0 < rs.length := List.length_pos_iff.2 hn
  obtain ⟨i, hi⟩ := findNearestE_some rs .nan
  have hL : ∀ a b c d, lerpE a b c d .nan = .nan := by
    intro a b c d
    simp [lerpE]
  have hg : ∀ k (_ : k < rs.length), ∃ x, rs[k]? = some x := fun k hk => ⟨rs[k], List.getElem?_eq_getElem hk⟩
  have hgf : ∀ k (_ : k < rs.length), ∃ x, fs[k]? = some x := fun k hk => ⟨fs[k], List.getElem?_eq_getElem (hl ▸ hk)⟩
  unfold numericDistE
  simp only [hr]
  rw [if_neg (by simp), hi]
  simp only
  by_cases h1 : rs.length = 1
  · rw [if_pos h1]
    obtain ⟨f, hf⟩ := hgf 0 hpos
    rw [hf]
    exact ⟨_, rfl, hL _ _ _ _⟩
  · rw [if_neg h1]
    by_cases h2 : i ≤ 0
    · rw [if_pos h2]
      obtain ⟨a, ha⟩ := hg 0 hpos
      obtain ⟨b, hb⟩ := hg 1 (by omega)
      obtain ⟨c, hc⟩ := hgf 0 hpos
      obtain ⟨d, hd⟩ := hgf 1 (by omega)
      rw [ha, hb, hc, hd]
      exact ⟨_, rfl, hL _ _ _ _⟩
    · rw [if_neg h2]
      by_cases h3 : i.toNat ≥ rs.length - 1
      · rw [if_pos h3]
        obtain ⟨a, ha⟩ := hg (rs.length - 1) (by omega)
        obtain ⟨b, hb⟩ := hg (rs.length - 2) (by omega)
        obtain ⟨c, hc⟩ := hgf (rs.length - 1) (by omega)
        obtain ⟨d, hd⟩ := hgf (rs.length - 2) (by omega)
        rw [ha, hb, hc, hd]
        exact ⟨_, rfl, hL _ _ _ _⟩
      · rw [if_neg h3]
        obtain ⟨a, ha⟩ := hg i.toNat (by omega)
        obtain ⟨b, hb⟩ := hg (i.toNat + 1) (by omega)
        obtain ⟨c, hc⟩ := hgf i.toNat (by omega)
        obtain ⟨d, hd⟩ := hgf (i.toNat + 1) (by omega)
        rw [ha, hb, hc, hd]
        exact ⟨_, rfl, hL _ _ _ _⟩

theorem C106_distribution_finite {M P : Type} (ev : M → P → ℝ) (d : Dist.NDist M ℝ) (r shift v : ℝ) (p : P)
    (h : d.eval ev r p shift = .ok v) :
    numericDistE d.r (d.msdf.map fun m => .fin (ev m p)) d.rmin d.rmax d.allow (.fin r) (.fin shift) = .ok (.fin v) :=
  numericDistE_fin ev d r shift v p h

/-- C106.  **What is computed** by a momentum-space table when the momentum or the pitch is NaN and the other is NaN or
inside the table: NaN, but the ordinary number zero if the table is logarithmic.  (The spline of NaN is NaN.) -/
theorem C106_table (spline : EF → EF → EF) (h1 : ∀ b, spline .nan b = .nan) (h2 : ∀ a, spline a .nan = .nan)
    (pmin pmax ximin ximax : ℝ) (logarithmic flip : Bool) (p xi : EF) (h : p = .nan ∨ xi = .nan)
    (hp : p = .nan ∨ ∃ x, p = .fin x ∧ pmin ≤ x ∧ x ≤ pmax)
    (hx : xi = .nan ∨ ∃ x, xi = .fin x ∧ (if flip then -ximax ≤ x ∧ x ≤ -ximin else ximin ≤ x ∧ x ≤ ximax)) :
    tableE spline pmin pmax ximin ximax logarithmic flip p xi = if logarithmic then .fin 0 else .nan := by
  have hs : (if flip then spline p (-xi) else spline p xi) = .nan := by
    rcases h with h | h <;> subst h <;> cases flip <;> simp [h1, h2]
  unfold tableE
  rw [if_neg, if_neg, if_neg]
  · simp only [hs]
  · rintro ⟨rfl, hc⟩
    rcases hx with rfl | ⟨x, rfl, hx⟩
    · simp at hc
    · simp at hx hc
      rcases hc with hc | hc <;> linarith
  · rintro ⟨rfl, hc⟩
    rcases hx with rfl | ⟨x, rfl, hx⟩
    · simp at hc
    · simp at hx hc
      rcases hc with hc | hc <;> linarith
  · intro hc
    rcases hp with rfl | ⟨x, rfl, hx⟩
    · simp at hc
    · simp at hc
      rcases hc with hc | hc <;> linarith

theorem C106_table_finite (spl : Dist.Table → ℝ → ℝ → Dist.FV) (m : Dist.NMom) (s : EF → EF → EF)
    (hs : ∀ a b, s (.fin a) (.fin b) = ofFV (spl m.table a b)) (p xi : ℝ) :
    tableE s m.pmin m.pmax m.ximin m.ximax m.logarithmic m.flip (.fin p) (.fin xi) = ofFV (m.eval spl p xi) :=
  tableE_fin spl m s hs p xi

theorem Special.legE_nan : ∀ n, (legE .nan (n + 1)).1 = .nan
  | 0 => rfl
  | n + 1 => by
    show EF.fin _ * EF.nan * _ - _ = _
    simp

theorem Special.foldl_nan (F : (EF → EF) × Nat → EF) : ∀ l : List ((EF → EF) × Nat),
    l.foldl (fun s m => s + F m) .nan = .nan
  | [] => rfl
  | m :: l => by
    rw [List.foldl_cons, nan_add]
    exact foldl_nan F l

theorem Special.foldl_nan_mem (F : (EF → EF) × Nat → EF) : ∀ (l : List ((EF → EF) × Nat)) (s : EF),
    (∃ m ∈ l, F m = .nan) → l.foldl (fun s m => s + F m) s = .nan
  | [], _, h => by
    obtain ⟨m, hm, _⟩ := h
    cases hm
  | a :: l, s, ⟨m, hm, hF⟩ => by
    rw [List.foldl_cons]
    cases hm with
    | head =>
      rw [hF, add_nan]
      exact foldl_nan F l
    | tail _ hm => exact foldl_nan_mem F l _ ⟨m, hm, hF⟩

/-- C106.  The CODE distribution is NaN when the momentum is NaN, and when the pitch is NaN and there are at least two
Legendre modes.  (With one mode the distribution does not depend on the pitch.) -/
theorem C106_code (pmin pmax : ℝ) (modes : List (EF → EF)) (hm : ∀ m ∈ modes, m .nan = .nan) (p xi : EF)
    (h : (p = .nan ∧ modes ≠ []) ∨ (xi = .nan ∧ 2 ≤ modes.length ∧ ∃ x, p = .fin x ∧ pmin ≤ x ∧ x ≤ pmax)) :
    codeE pmin pmax modes p xi = .nan := by
  have hs : (modes.zipIdx).foldl (fun s m => s + m.1 p * (legE xi m.2).1 * .fin ((-1) ^ m.2)) (.fin 0) = EF.nan := by
    apply foldl_nan_mem (fun m => m.1 p * (legE xi m.2).1 * .fin ((-1) ^ m.2))
    rcases h with ⟨rfl, hne⟩ | ⟨rfl, hl, -⟩
    · match modes, hne with
      | m :: rest, _ =>
        refine ⟨(m, 0), by simp, ?_⟩
        simp only [hm m (by simp), nan_mul]
    · match modes, hl with
      | m :: m' :: rest, _ =>
        refine ⟨(m', 1), by simp [List.zipIdx_cons], ?_⟩
        simp only [legE_nan 0, mul_nan, nan_mul]
  unfold codeE
  simp only [hs]
  rw [if_neg, if_neg (nan_le _)]
  intro hc
  rcases h with ⟨rfl, -⟩ | ⟨rfl, hl, x, rfl, hx⟩
  · simp at hc
  · simp at hc
    rcases hc with hc | hc <;> linarith

/-! ### fields -/

theorem Special.notFin_mul_zero (x : EF) (h : ¬ IsFin x) : x * .fin 0 = .nan := by
  cases x
  · rfl
  · exact if_pos rfl
  · exact if_pos rfl
  · exact absurd trivial h

theorem Special.pinf_div (e : EF) : ¬ IsFin (EF.pinf / e) := by
  cases e
  · exact id
  · exact id
  · exact id
  · rename_i y
    show ¬ IsFin (if 0 ≤ y then EF.pinf else .ninf)
    split <;> exact id

theorem Special.analyticE_height (b0 rm zm sB sI : ℝ) (q : EF → EF) (x y z : EF) (a : ℝ) (hR : hypot x y = .fin a)
    (hz : ¬ IsFin z) : analyticE b0 rm zm sB sI q x y z = (.nan, .nan, .nan) := by
  have key : ∀ w : EF, w = .pinf ∨ w = .ninf → z - .fin zm = w → analyticE b0 rm zm sB sI q x y z = (.nan, .nan, .nan) := by
    intro w hw hzw
    have hr : hypot (EF.fin rm - .fin a) w = .pinf := by rcases hw with rfl | rfl <;> rfl
    have hq : w / EF.pinf = .nan := by rcases hw with rfl | rfl <;> rfl
    have hc : (EF.fin rm - .fin a) / EF.pinf = .fin 0 := rfl
    have ht : EF.fin sI * (EF.pinf / (EF.fin rm * q .pinf)) * .fin 0 = .nan :=
      notFin_mul_zero _ (mul_right _ _ (pinf_div _))
    unfold analyticE
    simp only [hR, hzw, hr, hq, hc]
    rw [if_pos (show ¬ eq EF.pinf (.fin 0) from id), if_pos (show ¬ eq EF.pinf (.fin 0) from id), ht]
    simp
  cases z
  · unfold analyticE
    simp only [hR, nan_sub, fin_sub, hypot_fin_nan]
    simp
  · exact key _ (Or.inl rfl) rfl
  · exact key _ (Or.inr rfl) rfl
  · exact absurd trivial hz

theorem Special.analyticE_radius (b0 rm zm sB sI : ℝ) (q : EF → EF) (x y z : EF) (hR : hypot x y = .pinf)
    (hx : (x = .pinf ∨ x = .ninf) ∨ (y = .pinf ∨ y = .ninf)) :
    analyticE b0 rm zm sB sI q x y z = (.nan, .nan, .nan) := by
  have hr : ∀ w, hypot (EF.fin rm - EF.pinf) w = .pinf := fun w => by
    show hypot EF.ninf w = .pinf
    cases w <;> rfl
  have hc : (EF.fin rm - EF.pinf) / EF.pinf = .nan := rfl
  have hi : EF.fin 1 / EF.pinf = .fin 0 := rfl
  unfold analyticE
  simp only [hR, hr, hc, hi]
  rw [if_pos (show ¬ eq EF.pinf (.fin 0) from id), if_pos (show ¬ eq EF.pinf (.fin 0) from id)]
  rcases hx with hx | hx
  · have : x * EF.fin 0 = .nan := notFin_mul_zero x (by rcases hx with rfl | rfl <;> exact id)
    rw [this]
    simp
  · have : y * EF.fin 0 = .nan := notFin_mul_zero y (by rcases hx with rfl | rfl <;> exact id)
    rw [this]
    simp

/-- C106.  The analytical field is NaN in all three components at every position with a coordinate that is NaN or
infinite, whatever the safety factor is. -/
theorem C106_analytic (b0 rm zm sB sI : ℝ) (q : EF → EF) (x y z : EF) (h : ¬ (IsFin x ∧ IsFin y ∧ IsFin z)) :
    analyticE b0 rm zm sB sI q x y z = (.nan, .nan, .nan) := by
  have hn : hypot x y = .nan → analyticE b0 rm zm sB sI q x y z = (.nan, .nan, .nan) := by
    intro hR
    unfold analyticE
    simp [hR]
  cases x <;> cases y <;>
    first
    | exact hn rfl
    | exact analyticE_radius _ _ _ _ _ _ _ _ _ rfl (by simp)
    | exact analyticE_height _ _ _ _ _ _ _ _ _ _ rfl (fun hz => h ⟨trivial, trivial, hz⟩)

theorem C106_analytic_finite (f : AField) (q : EF → EF) (hq : ∀ r, q (.fin r) = .fin (safety f.q f.rminor r))
    (x y z : ℝ) (h0 : hyp x y ≠ 0) (h1 : f.rm * safety f.q f.rminor (hyp (f.rm - hyp x y) (z - f.zm)) ≠ 0) :
    analyticE f.b0 f.rm f.zm f.sigmaB f.sigmaI q (.fin x) (.fin y) (.fin z) =
      (.fin (f.eval x y z).1, .fin (f.eval x y z).2.1, .fin (f.eval x y z).2.2) := analyticE_fin f q hq x y z h0 h1

/-- C106.  The numerical field is NaN in all three components at every position with a coordinate that is NaN, if `x`
and `y` are not infinite.  (The spline of NaN is NaN.) -/
theorem C106_numeric (rmin rmax zmin zmax : ℝ) (sbr sbphi sbz : EF → EF → EF)
    (h1 : ∀ s ∈ [sbr, sbphi, sbz], (∀ b, s .nan b = .nan) ∧ ∀ a, s a .nan = .nan) (x y z : EF)
    (h : x = .nan ∨ y = .nan ∨ z = .nan) (hf : ∀ c ∈ [x, y], c = .nan ∨ IsFin c) :
    numericE rmin rmax zmin zmax sbr sbphi sbz x y z = (.nan, .nan, .nan) := by
  obtain ⟨a1, a2⟩ := h1 sbr (by simp)
  obtain ⟨b1, b2⟩ := h1 sbphi (by simp)
  obtain ⟨c1, c2⟩ := h1 sbz (by simp)
  have hcl : ∀ lo hi : ℝ, clampE lo hi .nan = .nan := by
    intro lo hi
    simp [clampE]
  have hx := hf x (by simp)
  have hy := hf y (by simp)
  have hcase : hypot x y = .nan ∨ z = .nan := by
    rcases h with rfl | rfl | rfl
    · left
      cases y <;> first | rfl | (rcases hy with hy | hy <;> cases hy)
    · left
      cases x <;> first | rfl | (rcases hx with hx | hx <;> cases hx)
    · exact Or.inr rfl
  unfold numericE
  rcases hcase with hR | rfl
  · simp only [hR, hcl, a1, b1, c1, nan_mul, nan_sub, nan_add]
  · simp only [hcl, a2, b2, c2, nan_mul, nan_sub, nan_add]

theorem C106_numeric_finite (g : NGrid) (sr sp sz : EF → EF → EF) (h1 : ∀ a b, sr (.fin a) (.fin b) = .fin (g.br.val a b))
    (h2 : ∀ a b, sp (.fin a) (.fin b) = .fin (g.bphi.val a b)) (h3 : ∀ a b, sz (.fin a) (.fin b) = .fin (g.bz.val a b))
    (x y z : ℝ) :
    numericE g.rmin g.rmax g.zmin g.zmax sr sp sz (.fin x) (.fin y) (.fin z) =
      (.fin (g.eval x y z).1, .fin (g.eval x y z).2.1, .fin (g.eval x y z).2.2) :=
  numericE_fin g sr sp sz h1 h2 h3 x y z

/-- C106.  At an infinite height the numerical field is the one at the edge of the grid, an ordinary number. -/
theorem C106_numeric_height (rmin rmax zmin zmax : ℝ) (hz : zmin ≤ zmax) (sbr sbphi sbz : EF → EF → EF) (x y : EF) :
    numericE rmin rmax zmin zmax sbr sbphi sbz x y .pinf = numericE rmin rmax zmin zmax sbr sbphi sbz x y (.fin zmax) ∧
    numericE rmin rmax zmin zmax sbr sbphi sbz x y .ninf = numericE rmin rmax zmin zmax sbr sbphi sbz x y (.fin zmin) := by
  have e1 : clampE zmin zmax .pinf = .fin zmax := by
    unfold clampE
    rw [if_neg (show ¬ lt EF.pinf (.fin zmin) from id), if_pos (show lt (.fin zmax) EF.pinf from trivial)]
  have e2 : clampE zmin zmax .ninf = .fin zmin := if_pos trivial
  have e3 : clampE zmin zmax (.fin zmax) = .fin zmax := by
    unfold clampE
    rw [if_neg (show ¬ lt (EF.fin zmax) (.fin zmin) from not_lt.2 hz), if_neg (show ¬ lt (.fin zmax) (EF.fin zmax) from lt_irrefl _)]
  have e4 : clampE zmin zmax (.fin zmin) = .fin zmin := by
    unfold clampE
    rw [if_neg (show ¬ lt (EF.fin zmin) (.fin zmin) from lt_irrefl _), if_neg (show ¬ lt (.fin zmax) (EF.fin zmin) from not_lt.2 hz)]
  unfold numericE
  simp only [e1, e2, e3, e4]
  exact ⟨trivial, trivial⟩

/-! ### the claim -/

/-- A square wall. -/
def Special.square : List Pt := [⟨1, -1⟩, ⟨3, -1⟩, ⟨3, 1⟩, ⟨1, 1⟩, ⟨1, -1⟩]

/-- C106 fails as stated: a position that is NaN has not crossed the wall; a value that is NaN has a colour computed with
undefined behaviour; the power profile with exponent zero and the logarithmic tables are ordinary numbers at NaN. -/
theorem C106_refuted :
    crossesE square (.fin 2) (.fin 0) (.fin 0) .nan .nan .nan = some false ∧
    intersects3DE ⟨2, 0⟩ square ⟨.fin 2, .fin 0, .fin 0⟩ ⟨.nan, .nan, .nan⟩ true = false ∧
    colourE gray 0 1 .nan = none ∧
    (∃ q, Dist.Profile.mkPower 0 1 0 = some q ∧ (ofProfile q).eval id .nan (.fin 0) = .fin 0) ∧
    tableE (fun a b => a + b) 0 1 (-1) 1 true false .nan .nan = .fin 0 := by
  refine ⟨?_, ?_, ?_, ?_, ?_⟩
  · exact C106_crosses _ (by simp [square]) _ _ _ _ _ _ (fun h => h.2.2.2.1)
  · exact C106_intersects _ _ _ _ _ (Or.inr (Or.inr (Or.inr (Or.inl rfl))))
  · exact C106_colour _ _ _ _ id
  · refine ⟨.power 0 1 0 (1 / (1 - 0)), ?_, ?_⟩
    · unfold Dist.Profile.mkPower
      rw [if_neg (by norm_num)]
    · rw [C106_profile id rfl _ _ _ (Or.inl rfl)]
      exact if_pos rfl
  · rw [C106_table _ (by simp) (by simp) _ _ _ _ _ _ _ _ (Or.inl rfl) (Or.inl rfl) (Or.inl rfl)]
    rfl

/-- C106, the part that holds: at a position that is NaN the fields, the profiles other than the constant ones, the
tabulated distributions and the tables that are not logarithmic are NaN. -/
theorem C106_partial (b0 rm zm sB sI : ℝ) (safety : EF → EF) (rmin rmax zmin zmax : ℝ) (spl : EF → EF → EF)
    (hs : (∀ b, spl .nan b = .nan) ∧ ∀ a, spl a .nan = .nan) (x y z : EF) (h : x = .nan ∨ y = .nan ∨ z = .nan)
    (hf : ∀ c ∈ [x, y, z], c = .nan ∨ IsFin c) (J0 : EF → EF) (hJ : J0 .nan = .nan) (q : Dist.Profile)
    (hq : q ≠ .uniform) (hq' : ∀ a b d, q ≠ .power a b 0 d) (shift : EF) (rs : List ℝ) (fs : List EF)
    (hl : fs.length = rs.length) (hn : rs ≠ []) (flip : Bool) :
    analyticE b0 rm zm sB sI safety x y z = (.nan, .nan, .nan) ∧
    numericE rmin rmax zmin zmax spl spl spl x y z = (.nan, .nan, .nan) ∧
    (ofProfile q).eval J0 .nan shift = .nan ∧
    (∃ v, numericDistE rs fs rmin rmax false .nan shift = .ok v ∧ v = .nan) ∧
    tableE spl rmin rmax zmin zmax false flip .nan .nan = .nan := by
  refine ⟨?_, ?_, ?_, ?_, ?_⟩
  · apply C106_analytic
    rintro ⟨hx, hy, hz⟩
    rcases h with rfl | rfl | rfl
    · exact hx
    · exact hy
    · exact hz
  · apply C106_numeric _ _ _ _ _ _ _ (by simpa using hs) _ _ _ h
    intro c hc
    exact hf c (by simp at hc ⊢; tauto)
  · rw [C106_profile J0 hJ q _ _ (Or.inl rfl)]
    cases q with
    | uniform => exact absurd rfl hq
    | power a b e d =>
      have : e ≠ 0 := fun he => hq' a b d (by rw [he])
      exact if_neg this
    | _ => rfl
  · exact C106_distribution rs fs hl hn _ _ _ _ _ (Or.inl rfl)
  · exact C106_table _ hs.1 hs.2 _ _ _ _ _ _ _ _ (Or.inl rfl) (Or.inl rfl) (Or.inl rfl)

example : numericDistE [1, 2] [.fin 1, .fin 2] 1 2 false .nan (.fin 0) = .ok .nan := by
  obtain ⟨v, hv, rfl⟩ := C106_distribution [1, 2] [.fin 1, .fin 2] rfl (by simp) 1 2 false .nan (.fin 0) (Or.inl rfl)
  exact hv

example : codeE 0 1 [id, id] (.fin 1) .nan = .nan :=
  C106_code 0 1 [id, id] (by simp) _ _ (Or.inr ⟨rfl, le_refl _, 1, rfl, zero_le_one, le_refl _⟩)

end Softlib
