/-
LUKE distributions (C111).  Model: LukeModel.lean.
-/
import Verif.Dist.LukeModel
import Verif.Dist.DeprProps

namespace Softlib

open Softlib.Dist Softlib.General

/-- The file has the grids, the thermal speed and the values in the documented sizes (`f`: radius, pitch, momentum), and `d` is its
contents: radii between the axis and the largest radius, momenta times the thermal speed. -/
def LukeLoads {u : ℚ} (R : Rnd u) (a : AxisRange) (F : LukeDistFile) (d : DeprData) : Prop :=
  ∃ r pm bt b xi, F.xrhoG = some r ∧ F.pn = some pm ∧ F.betath = some bt ∧ F.mhu = some xi ∧
    F.f = some ([d.nr, d.nxi, d.np], d.f) ∧ IsVecOf r d.nr ∧ IsVecOf pm d.np ∧ IsVecOf xi d.nxi ∧
    bt.rows = 1 ∧ bt.cols = 1 ∧ bt.data = [b] ∧
    d.r = r.data.map (fun x => R.fl (a.minr + R.fl (x * R.fl (a.maxr - a.minr)))) ∧
    d.p = pm.data.map (fun x => R.fl (x * b)) ∧ d.xi = xi.data

/-- The arrays of the file are complete. -/
structure LukeGood (F : LukeDistFile) : Prop where
  full : ∀ m, F.xrhoG = some m ∨ F.pn = some m ∨ F.betath = some m ∨ F.mhu = some m → Full m
  f : ∀ dims v, F.f = some (dims, v) → v.length = dims.prod

/-- No grid has `2^32` points or more. -/
def LukeFits (F : LukeDistFile) : Prop :=
  ∀ m n, F.xrhoG = some m ∨ F.pn = some m ∨ F.mhu = some m → IsVecOf m n → n < 4294967296

theorem onFirst_all (g : ℚ → ℚ) (l : List ℚ) (n : ℕ) (h : l.length = n) : onFirst n g l = .ok (l.map g) := by
  unfold onFirst
  rw [if_neg (by omega), List.take_of_length_le (by omega), List.drop_eq_nil_of_le (by omega), List.append_nil]

theorem lukeDistLoad_cases {u : ℚ} (R : Rnd u) (a : AxisRange) (F : LukeDistFile) (hg : LukeGood F) (hF : LukeFits F) :
    (lukeDistLoad R (some a) F = .throws ∧ ∀ d, ¬ LukeLoads R a F d) ∨
      ∃ d, lukeDistLoad R (some a) F = .ok d ∧ ∀ d', LukeLoads R a F d' ↔ d' = d := by
  unfold lukeDistLoad
  rcases readVec_spec F.xrhoG with ⟨er, hr⟩ | ⟨r, nr, er', hr, er⟩
  · left
    rw [er]
    refine ⟨rfl, ?_⟩
    rintro d ⟨r, pm, bt, b, xi, h1, h2, h3, h4, h5, h6, -⟩
    exact hr ⟨r, _, h1, h6⟩
  rw [er]
  simp only [LRes.andThen]
  rw [toU32_of_lt (hF r nr (by simp [er']) hr), onFirst_all _ _ _ (hr.length (hg.full r (by simp [er'])))]
  simp only
  rcases readVec_spec F.pn with ⟨ep, hpm⟩ | ⟨pm, np, ep', hpm, ep⟩
  · left
    rw [ep]
    refine ⟨rfl, ?_⟩
    rintro d ⟨r, pm, bt, b, xi, h1, h2, h3, h4, h5, h6, h7, -⟩
    exact hpm ⟨pm, _, h2, h7⟩
  rw [ep]
  simp only
  rw [toU32_of_lt (hF pm np (by simp [ep']) hpm)]
  cases eb : F.betath with
  | none =>
    left
    refine ⟨rfl, ?_⟩
    rintro d ⟨r, pm, bt, b, xi, h1, h2, h3, -⟩
    rw [eb] at h3
    cases h3
  | some bt =>
    simp only
    by_cases hb : bt.rows ≠ 1 ∨ bt.cols ≠ 1
    · left
      rw [if_pos hb]
      refine ⟨rfl, ?_⟩
      rintro d ⟨r, pm, bt', b, xi, h1, h2, h3, h4, h5, h6, h7, h8, h9, h10, -⟩
      rw [eb] at h3
      injection h3 with h3
      subst h3
      rcases hb with hb | hb
      · exact hb h9
      · exact hb h10
    · rw [if_neg hb]
      have hb1 : bt.rows = 1 := by by_contra h; exact hb (Or.inl h)
      have hb2 : bt.cols = 1 := by by_contra h; exact hb (Or.inr h)
      have hlen : bt.data.length = 1 := by
        have := hg.full bt (by simp [eb])
        unfold Full at this
        rw [this, hb1, hb2]
      obtain ⟨b, ebd⟩ := List.length_eq_one_iff.mp hlen
      rw [ebd]
      simp only [List.getElem?_cons_zero]
      rw [onFirst_all _ _ _ (hpm.length (hg.full pm (by simp [ep'])))]
      simp only
      rcases readVec_spec F.mhu with ⟨ex, hxi⟩ | ⟨xi, nxi, ex', hxi, ex⟩
      · left
        rw [ex]
        refine ⟨rfl, ?_⟩
        rintro d ⟨r, pm, bt, b, xi, h1, h2, h3, h4, h5, h6, h7, h8, -⟩
        exact hxi ⟨xi, _, h4, h8⟩
      rw [ex]
      simp only
      rw [toU32_of_lt (hF xi nxi (by simp [ex']) hxi)]
      have det : ∀ d, LukeLoads R a F d → d.nr = nr ∧ d.np = np ∧ d.nxi = nxi := by
        rintro d ⟨r', pm', bt', b', xi', h1, h2, h3, h4, h5, h6, h7, h8, -⟩
        rw [er'] at h1
        rw [ep'] at h2
        rw [ex'] at h4
        injection h1 with h1
        injection h2 with h2
        injection h4 with h4
        subst h1 h2 h4
        exact ⟨h6.unique hr, h7.unique hpm, h8.unique hxi⟩
      cases ef : F.f with
      | none =>
        left
        refine ⟨rfl, ?_⟩
        rintro d ⟨r, pm, bt, b, xi, h1, h2, h3, h4, h5, -⟩
        rw [ef] at h5
        cases h5
      | some f =>
        obtain ⟨dims, fv⟩ := f
        simp only
        by_cases hd : dims = [nr, nxi, np]
        · right
          rw [if_pos hd]
          refine ⟨_, rfl, fun d' => ⟨?_, ?_⟩⟩
          · intro h
            obtain ⟨e1, e2, e3⟩ := det d' h
            obtain ⟨r', pm', bt', b', xi', h1, h2, h3, h4, h5, h6, h7, h8, h9, h10, h11, h12, h13, h14⟩ := h
            rw [er'] at h1
            rw [ep'] at h2
            rw [eb] at h3
            rw [ex'] at h4
            rw [ef] at h5
            injection h1 with h1
            injection h2 with h2
            injection h3 with h3
            injection h4 with h4
            injection h5 with h5
            injection h5 with h5 h5'
            subst h1 h2 h3 h4
            rw [ebd] at h11
            injection h11 with h11
            subst h11
            obtain ⟨a1, a2, a3, a4, a5, a6, a7⟩ := d'
            simp only at e1 e2 e3 h5' h12 h13 h14
            subst e1 e2 e3 h5' h12 h13 h14
            rfl
          · rintro rfl
            exact ⟨r, pm, bt, b, xi, er', ep', eb, ex', by rw [ef, hd], hr, hpm, hxi, hb1, hb2, ebd, rfl, rfl, rfl⟩
        · left
          rw [if_neg hd]
          refine ⟨rfl, fun d h => hd ?_⟩
          obtain ⟨e1, e2, e3⟩ := det d h
          obtain ⟨r', pm', bt', b', xi', h1, h2, h3, h4, h5, -⟩ := h
          rw [ef, e1, e2, e3] at h5
          injection h5 with h5
          injection h5 with h5 _

/-- **C111** A LUKE distribution with fewer than `2^32` points in each grid is loaded exactly if everything is there in the documented
sizes; radii, momenta, pitches and values are those of the file, the radii mapped to major radii and the momenta multiplied by the
thermal speed, each operation rounded. -/
theorem C111_load_partial {u : ℚ} (R : Rnd u) (a : AxisRange) (F : LukeDistFile) (hg : LukeGood F) (hF : LukeFits F) (d : DeprData) :
    lukeDistLoad R (some a) F = .ok d ↔ LukeLoads R a F d := by
  rcases lukeDistLoad_cases R a F hg hF with ⟨e, h⟩ | ⟨d', e, h⟩
  · rw [e]
    exact ⟨fun h' => (by cases h'), fun h' => absurd h' (h d)⟩
  · rw [e, h d]
    constructor
    · intro h'; injection h' with h'; exact h'.symm
    · intro h'; rw [h']

/-- **C111** Such files are read without undefined behaviour; the others are rejected with an exception. -/
theorem C111_safe_partial {u : ℚ} (R : Rnd u) (a : AxisRange) (F : LukeDistFile) (hg : LukeGood F) (hF : LukeFits F) :
    lukeDistLoad R (some a) F ≠ .ub ∧ (lukeDistLoad R (some a) F = .throws ↔ ¬ ∃ d, LukeLoads R a F d) := by
  rcases lukeDistLoad_cases R a F hg hF with ⟨e, h⟩ | ⟨d', e, h⟩
  · rw [e]
    exact ⟨(by intro h'; cases h'), by simpa using h⟩
  · rw [e]
    refine ⟨(by intro h'; cases h'), fun h' => (by cases h'), fun h' => absurd ⟨d', (h d').mpr rfl⟩ h'⟩

/-- **C111** The normalised radius 0 is the axis, and the order of the radii is kept (not strictly). -/
theorem C111_radii {u : ℚ} (R : Rnd u) (a : AxisRange) (h : a.minr ≤ a.maxr) :
    (R.Is a.minr → lukeRadius R a 0 = a.minr) ∧ ∀ x y, x ≤ y → lukeRadius R a x ≤ lukeRadius R a y := by
  have hD : 0 ≤ R.fl (a.maxr - a.minr) := R.fl_nonneg (by linarith)
  constructor
  · intro hi
    unfold lukeRadius
    rw [zero_mul, R.fl_zero, add_zero]
    exact hi
  · intro x y hxy
    unfold lukeRadius
    refine R.mono _ _ ?_
    have := R.mono _ _ (mul_le_mul_of_nonneg_right hxy hD)
    linarith

/-- **C111** How far a radius of the loaded grid is from the major radius that belongs to the normalised radius. -/
theorem C111_radius_error {u : ℚ} (R : Rnd u) (a : AxisRange) (h : a.minr ≤ a.maxr) (x : ℚ) (hx : 0 ≤ x) :
    |lukeRadius R a x - (a.minr + x * (a.maxr - a.minr))| ≤
      u * |a.minr| + (u * (1 + u) ^ 2 + 2 * u + u ^ 2) * (x * (a.maxr - a.minr)) := by
  have hu := R.u_nonneg
  have hD : 0 ≤ a.maxr - a.minr := by linarith
  unfold lukeRadius
  have r1 := R.rel (a.maxr - a.minr)
  rw [abs_of_nonneg hD] at r1
  have n1 := R.fl_nonneg hD
  generalize R.fl (a.maxr - a.minr) = D' at *
  generalize a.maxr - a.minr = D at *
  have r1' := abs_le.mp r1
  have r2 := R.rel (x * D')
  rw [abs_of_nonneg (mul_nonneg hx n1)] at r2
  have n2 := R.fl_nonneg (mul_nonneg hx n1)
  generalize R.fl (x * D') = q at *
  have r2' := abs_le.mp r2
  have r3 := R.rel (a.minr + q)
  have hxD : x * D' ≤ (1 + u) * (x * D) := by nlinarith [r1'.2]
  have hxD0 : 0 ≤ x * D' := mul_nonneg hx n1
  have hq : q ≤ (1 + u) ^ 2 * (x * D) := by
    have : q ≤ (1 + u) * (x * D') := by linarith [r2'.2]
    calc q ≤ (1 + u) * (x * D') := this
      _ ≤ (1 + u) * ((1 + u) * (x * D)) := mul_le_mul_of_nonneg_left hxD (by linarith)
      _ = (1 + u) ^ 2 * (x * D) := by ring
  have hdx : |x * D' - x * D| ≤ u * (x * D) := by
    rw [← mul_sub, abs_mul, abs_of_nonneg hx]
    calc x * |D' - D| ≤ x * (u * D) := mul_le_mul_of_nonneg_left r1 hx
      _ = u * (x * D) := by ring
  have hqd : |q - x * D| ≤ (2 * u + u ^ 2) * (x * D) := by
    calc |q - x * D| = |(q - x * D') + (x * D' - x * D)| := by congr 1; ring
      _ ≤ |q - x * D'| + |x * D' - x * D| := abs_add_le _ _
      _ ≤ u * (x * D') + u * (x * D) := by linarith
      _ ≤ u * ((1 + u) * (x * D)) + u * (x * D) := by
        have := mul_le_mul_of_nonneg_left hxD hu
        linarith
      _ = _ := by ring
  have habs : |a.minr + q| ≤ |a.minr| + (1 + u) ^ 2 * (x * D) := by
    calc |a.minr + q| ≤ |a.minr| + |q| := abs_add_le _ _
      _ ≤ _ := by rw [abs_of_nonneg n2]; linarith
  calc |R.fl (a.minr + q) - (a.minr + x * D)| = |(R.fl (a.minr + q) - (a.minr + q)) + (q - x * D)| := by congr 1; ring
    _ ≤ |R.fl (a.minr + q) - (a.minr + q)| + |q - x * D| := abs_add_le _ _
    _ ≤ u * (|a.minr| + (1 + u) ^ 2 * (x * D)) + (2 * u + u ^ 2) * (x * D) := by
      have := mul_le_mul_of_nonneg_left habs hu
      linarith
    _ = _ := by ring

theorem LukeLoads.sizes {u : ℚ} {R : Rnd u} {a : AxisRange} {F : LukeDistFile} {d : DeprData} (h : LukeLoads R a F d) (hg : LukeGood F)
    (h1 : 0 < d.nr) (h2 : 0 < d.np) (h3 : 0 < d.nxi) (h4 : d.nr * d.np * d.nxi < 4294967296) : SizedData d := by
  obtain ⟨r, pm, bt, b, xi, e1, e2, e3, e4, e5, e6, e7, e8, e9, e10, e11, e12, e13, e14⟩ := h
  refine ⟨h1, h2, h3, h4, ?_, ?_, ?_, ?_⟩
  · rw [e12, List.length_map]; exact e6.length (hg.full r (by simp [e1]))
  · rw [e13, List.length_map]; exact e7.length (hg.full pm (by simp [e2]))
  · rw [e14]; exact e8.length (hg.full xi (by simp [e4]))
  · rw [hg.f _ _ e5]; simp; ring

/-- **C111** The values of one radius, if the number of values of the file fits into 32 bits. -/
theorem C111_momentum_partial {u : ℚ} (R : Rnd u) (a : AxisRange) (F : LukeDistFile) (hg : LukeGood F) (hF : LukeFits F) (d : DeprData)
    (hd : LukeLoads R a F d) (h1 : 0 < d.nr) (h2 : 0 < d.np) (h3 : 0 < d.nxi) (h4 : d.nr * d.np * d.nxi < 4294967296) (i : ℕ) :
    (d.nr ≤ i → lukeMomentum R (some a) F i = .throws) ∧
      ∀ s, i < d.nr → (lukeMomentum R (some a) F i = .ok s ↔ IsSlice d i s) := by
  have hs := hd.sizes hg h1 h2 h3 h4
  unfold lukeMomentum
  rw [(C111_load_partial R a F hg hF d).mpr hd]
  simp only [LRes.andThen]
  refine ⟨fun hi => if_pos hi, fun s hi => ?_⟩
  rw [if_neg (by omega), slice_eq hs hi, isSlice_iff hs hi]
  simp only [LRes.ok.injEq]

/-- **C111** (refuted) The distribution made from a file with increasing radii lacks the first of them. -/
theorem C111_refuted_radii {M : Type} {u : ℚ} (R : Rnd u) (a : AxisRange) (F : LukeDistFile) (hg : LukeGood F) (hF : LukeFits F)
    (d : DeprData) (hd : LukeLoads R a F d) (h1 : 0 < d.nr) (h2 : 0 < d.np) (h3 : 0 < d.nxi)
    (h4 : d.nr * d.np * d.nxi < 4294967296) (hinc : d.r.Pairwise (· < ·)) (mk : List ℚ → List ℚ → List ℚ → M) :
    ∃ x, lukeLoadDist R (some a) mk F = .ok x ∧ x.r = d.r.tail ∧ x.r.length + 1 = d.nr ∧ x.msdf.length = d.nr ∧
      ∀ i < d.nr, ∃ s, IsSlice d i s ∧ x.msdf[i]? = some (mk d.p d.xi s) := by
  have hs := hd.sizes hg h1 h2 h3 h4
  unfold lukeLoadDist
  rw [(C111_load_partial R a F hg hF d).mpr hd]
  simp only [LRes.andThen]
  rw [if_neg (by rw [hs.r]; omega), slices_eq hs]
  simp only
  have htake : d.r.take d.nr = d.r := by rw [← hs.r]; exact List.take_length
  rw [htake]
  have hlen := hs.r
  cases er : d.r with
  | nil => rw [er] at hlen; simp at hlen; omega
  | cons b l =>
    rw [er] at hinc hlen
    obtain ⟨lo, hi, e⟩ := initialize_inc l b (((List.range d.nr).map fun i => (d.f.drop (i * (d.np * d.nxi))).take (d.np * d.nxi)).map
      (mk d.p d.xi)) hinc
    rw [e]
    refine ⟨_, rfl, rfl, by simpa using hlen, by simp, fun i hi => ?_⟩
    refine ⟨_, (isSlice_iff hs hi _).mpr rfl, ?_⟩
    simp [hi]

/-- **C111** (refuted) Different radii can become equal when they are mapped (axis 1, largest radius 2, radii `2^-60` and `2^-59`
in `double`), and the normalised radius 1 need not become the largest radius (axis `5/4 + 2^-52`, largest radius `13/4 + 2^-51`). -/
theorem C111_refuted_rounded :
    lukeRadius (rndBits 52) ⟨1, 2⟩ (1 / 2 ^ 60) = lukeRadius (rndBits 52) ⟨1, 2⟩ (1 / 2 ^ 59) ∧
    ((rndBits 52).Is (5 / 4 + 1 / 2 ^ 52) ∧ (rndBits 52).Is (13 / 4 + 1 / 2 ^ 51) ∧
      lukeRadius (rndBits 52) ⟨5 / 4 + 1 / 2 ^ 52, 13 / 4 + 1 / 2 ^ 51⟩ 1 = 13 / 4) := by
  unfold Rnd.Is; rw [rndQ_eq]; decide +kernel

/-- A file with the radii 0, `2^-60`, 1, one momentum and one pitch. -/
def sampleLuke : LukeDistFile :=
  ⟨some ⟨1, 3, [0, 1 / 2 ^ 60, 1]⟩, some ⟨1, 1, [2]⟩, some ⟨1, 1, [1 / 4]⟩, some ⟨1, 1, [1]⟩, some ([3, 1, 1], [7, 8, 9])⟩

/-- **C111** (refuted) Such a file is rejected although its radii increase. -/
theorem C111_refuted_collapse :
    lukeDistLoad (rndBits 52) (some ⟨1, 2⟩) sampleLuke = .ok ⟨3, 1, 1, [1, 1, 2], [1 / 2], [1], [7, 8, 9]⟩ ∧
      lukeLoadDist (rndBits 52) (some ⟨1, 2⟩) (fun _ _ s => s) sampleLuke = .throws := by
  constructor
  · rw [rndQ_eq]; decide +kernel
  · have e : lukeDistLoad (rndBits 52) (some ⟨1, 2⟩) sampleLuke = .ok ⟨3, 1, 1, [1, 1, 2], [1 / 2], [1], [7, 8, 9]⟩ := by
      rw [rndQ_eq]; decide +kernel
    unfold lukeLoadDist
    rw [e]
    simp only [LRes.andThen]
    have h : DeprData.slices ⟨3, 1, 1, [1, 1, 2], [1 / 2], [1], [7, 8, 9]⟩ = some [[7], [8], [9]] := by decide +kernel
    rw [h]
    simp [NDist.initialize, monotoneFrom]

/-- **C111** (refuted) The number of points is cut to 32 bits: a grid of `2^32 + 1` radii counts as one radius. -/
theorem C111_refuted_truncated {u : ℚ} (R : Rnd u) (a : AxisRange) (l : List ℚ) (hl : l.length = 4294967297) (pm bt xi v : ℚ) :
    ∃ d, lukeDistLoad R (some a) ⟨some ⟨1, 4294967297, l⟩, some ⟨1, 1, [pm]⟩, some ⟨1, 1, [bt]⟩, some ⟨1, 1, [xi]⟩,
      some ([1, 1, 1], [v])⟩ = .ok d ∧ d.nr = 1 := by
  have e1 : toU32 4294967297 = 1 := rfl
  have e2 : toU32 1 = 1 := rfl
  have ho : onFirst 1 (lukeRadius R a) l = .ok ((l.take 1).map (lukeRadius R a) ++ l.drop 1) := by
    unfold onFirst
    rw [if_neg (by omega)]
  have hp : onFirst 1 (fun x => R.fl (x * bt)) [pm] = .ok [R.fl (pm * bt)] := by
    unfold onFirst
    simp
  unfold lukeDistLoad
  simp only [readVec, Mat.vecLen, if_true, LRes.andThen, e1, e2, ho, hp, List.getElem?_cons_zero, ne_eq, not_true, or_false, if_false]
  exact ⟨_, rfl, rfl⟩

/-- **C111** (refuted) Without a magnetic field the null pointer is used. -/
theorem C111_refuted_field {u : ℚ} (R : Rnd u) (F : LukeDistFile) (r : Mat ℚ) (n : ℕ) (h : F.xrhoG = some r) (hr : IsVecOf r n) :
    lukeDistLoad R none F = .ub := by
  unfold lukeDistLoad readVec
  rw [h]
  simp only [(vecLen_isVec r n).mpr hr, LRes.andThen]

/-- **C111** Grids with fewer numbers than announced (matrices that are not complete) are read outside: radii and momenta. -/
theorem C111_incomplete {u : ℚ} (R : Rnd u) (a : AxisRange) (F : LukeDistFile) (r : Mat ℚ) (n : ℕ) (h : F.xrhoG = some r)
    (hr : IsVecOf r n) (hn : n < 4294967296) :
    (r.data.length < n → lukeDistLoad R (some a) F = .ub) ∧
    (∀ pm bt b k, n ≤ r.data.length → F.pn = some pm → IsVecOf pm k → k < 4294967296 → pm.data.length < k → F.betath = some bt →
      bt.rows = 1 → bt.cols = 1 → bt.data = [b] → lukeDistLoad R (some a) F = .ub) := by
  have e := (vecLen_isVec r n).mpr hr
  constructor
  · intro hs
    unfold lukeDistLoad readVec onFirst
    rw [h]
    simp only [e, LRes.andThen, toU32_of_lt hn, if_pos hs]
  · intro pm bt b k hs hp hk hk2 hps hb hb1 hb2 hb3
    have e2 := (vecLen_isVec pm k).mpr hk
    unfold lukeDistLoad readVec onFirst
    rw [h, hp, hb]
    simp [e, e2, LRes.andThen, toU32_of_lt hn, toU32_of_lt hk2, hps, hb1, hb2, hb3, not_lt.mpr hs]

/-- **C111** The same for the radial grid in `Load`. -/
theorem C111_incomplete_load {M : Type} {u : ℚ} (R : Rnd u) (field : Option AxisRange) (mk : List ℚ → List ℚ → List ℚ → M)
    (F : LukeDistFile) (d : DeprData) (h : lukeDistLoad R field F = .ok d) (hr : d.r.length < d.nr) :
    lukeLoadDist R field mk F = .ub := by
  unfold lukeLoadDist
  rw [h]
  exact if_pos hr

/-- The premises of the theorems are met. -/
example : LukeGood sampleLuke ∧ LukeFits sampleLuke := by
  refine ⟨⟨?_, ?_⟩, ?_⟩
  · intro m h
    simp only [sampleLuke, Option.some.injEq] at h
    rcases h with rfl | rfl | rfl | rfl <;> rfl
  · intro dims v h
    simp only [sampleLuke, Option.some.injEq, Prod.mk.injEq] at h
    obtain ⟨rfl, rfl⟩ := h
    rfl
  · intro m n h hv
    simp only [sampleLuke, Option.some.injEq] at h
    rcases h with rfl | rfl | rfl <;> simp [IsVecOf] at hv <;> omega

example : lukeMomentum (rndBits 52) (some ⟨1, 2⟩) sampleLuke 2 = .ok [9] ∧
    lukeMomentum (rndBits 52) (some ⟨1, 2⟩) sampleLuke 3 = .throws := by
  rw [rndQ_eq]; decide +kernel

end Softlib
