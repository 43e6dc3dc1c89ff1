/-
C65: which files the loaders of distributions accept, exactly; C59: the limits of a tabulated
momentum distribution are the ends of its grids.
-/
import Verif.Dist.LoadProps
import Verif.Dist.MomentumProps

namespace Softlib

open Dist

variable {K : Type} [Field K] [LinearOrder K] {M : Type}

/-- A matrix that is a vector of `n` values: one row, or one column. -/
def IsVector (m : Mat K) (n : Nat) : Prop := (m.rows = 1 ∧ m.cols = n) ∨ (m.cols = 1 ∧ m.rows = n)

omit [Field K] [LinearOrder K] in
theorem vecLen_iff (m : Mat K) (n : Nat) : m.vecLen = some n ↔ IsVector m n := by
  unfold Mat.vecLen IsVector
  by_cases h1 : m.rows = 1
  · rw [if_pos h1]
    simp only [Option.some.injEq, h1, true_and]
    constructor
    · intro h; exact Or.inl h
    · rintro (h | ⟨h, h'⟩)
      · exact h
      · omega
  · rw [if_neg h1]
    by_cases h2 : m.cols = 1
    · rw [if_pos h2]
      simp [h1, h2]
    · rw [if_neg h2]
      simp [h1, h2]

/-- The data of a radius fit together: a momentum grid of some length, a pitch grid of some length,
and one row of values for every pitch. -/
def FitsTogether (d : RadiusData K) : Prop :=
  ∃ np nxi, IsVector d.p np ∧ IsVector d.xi nxi ∧ d.f.rows = nxi ∧ d.f.cols = np

omit [Field K] [LinearOrder K] in
theorem check_iff (d : RadiusData K) : d.check = true ↔ FitsTogether d := by
  unfold RadiusData.check FitsTogether
  constructor
  · intro h
    split at h
    · rename_i np nxi h1 h2
      exact ⟨np, nxi, (vecLen_iff _ _).mp h1, (vecLen_iff _ _).mp h2, of_decide_eq_true h⟩
    · cases h
  · rintro ⟨np, nxi, h1, h2, h3⟩
    rw [(vecLen_iff _ _).mpr h1, (vecLen_iff _ _).mpr h2]
    exact decide_eq_true h3

/-- **C65** Exactly the following SOFT files are loaded, and with this result: the type is absent or
the right one, the radii are a vector and strictly increasing, every radius has a group whose data
fit together, and there is a magnetic field. -/
theorem C65_soft_exact [IsStrictOrderedRing K] (magic : String) (type : Option String) (rmat : Mat K)
    (radii : List (RadiusData K)) (a : K) (mk : RadiusData K → M) (hsmall : rmat.data.length ≤ 2 ^ 30)
    (hdata : rmat.data.length = rmat.rows * rmat.cols) (r : List K) (ms : List M) :
    (∃ d, softLoad magic type rmat radii (some a) mk = .ok d ∧ d.r = r ∧ d.msdf = ms) ↔
      (type = none ∨ type = some magic) ∧ IsVector rmat rmat.data.length ∧ rmat.data.length ≤ radii.length ∧
      (∀ q ∈ radii.take rmat.data.length, FitsTogether q) ∧ rmat.data.Pairwise (· < ·) ∧
      r = rmat.data.map (· + a) ∧ ms = (radii.take rmat.data.length).map mk := by
  have hvec : ∀ nr, IsVector rmat nr → nr = rmat.data.length := by
    rintro nr (⟨h1, h2⟩ | ⟨h1, h2⟩)
    · rw [hdata, h1, h2, Nat.one_mul]
    · rw [hdata, h1, h2, Nat.mul_one]
  constructor
  · rintro ⟨d, h, rfl, rfl⟩
    obtain ⟨nr, h1, h2, h3, h4, h5, h6, -⟩ := C65_soft magic type rmat radii (some a) mk d hsmall h
    have hv := (vecLen_iff _ _).mp h1
    have hn := hvec nr hv
    subst hn
    have hlen : rmat.data.length ≤ radii.length ∧ (type = none ∨ type = some magic) := by
      simp only [softLoad, h1] at h
      split at h
      · cases h
      · rename_i ht
        split at h
        · cases h
        · rename_i hl
          refine ⟨by omega, ?_⟩
          cases type with
          | none => exact Or.inl rfl
          | some t =>
            right
            by_contra hne
            exact ht ⟨rfl, hne⟩
    rw [List.take_length] at h2 h3
    exact ⟨hlen.2, hv, hlen.1, fun q hq => (check_iff q).mp (h6 q hq), h2, h3 a rfl, h5⟩
  · rintro ⟨ht, hv, hl, hq, hp, rfl, rfl⟩
    have h1 := (vecLen_iff _ _).mpr hv
    have hall : (radii.take rmat.data.length).all (fun d => d.check) = true := by
      rw [List.all_eq_true]
      intro q hqm
      exact (check_iff q).mpr (hq q hqm)
    have hs : shiftBy (some a) rmat.data = .ok (rmat.data.map (· + a)) := by
      cases hd : rmat.data with
      | nil => rfl
      | cons x l =>
        rw [hd] at hp
        simp only [shiftBy, (C65_shift a (x :: l) _).mpr ⟨hp, rfl⟩]
    obtain ⟨d, e, hr, hm, -⟩ := insertAll_increasing (rmat.data.map (· + a)) ((radii.take rmat.data.length).map mk)
      (pairwise_shift a _ hp) (by rw [List.length_map, List.length_map, List.length_take]; omega)
      (by rw [List.length_map]; exact hsmall)
    refine ⟨d, ?_, hr, hm⟩
    simp only [softLoad, h1, hall, List.take_length, hs, e]
    rw [if_neg (by rintro ⟨h2, h3⟩; rcases ht with rfl | rfl <;> [cases h2; exact h3 rfl]), if_neg (by omega),
      if_neg (by simp), if_neg (by omega)]

/-- **C65** With a magnetic field, a SOFT file that is not loaded is rejected with the exception. -/
theorem C65_soft_otherwise [IsStrictOrderedRing K] (magic : String) (type : Option String) (rmat : Mat K)
    (radii : List (RadiusData K)) (a : K) (mk : RadiusData K → M) (hsmall : rmat.data.length ≤ 2 ^ 30)
    (hdata : rmat.data.length = rmat.rows * rmat.cols) :
    (∃ d, softLoad magic type rmat radii (some a) mk = .ok d) ∨ softLoad magic type rmat radii (some a) mk = .throws := by
  have hvec : ∀ nr, IsVector rmat nr → nr = rmat.data.length := by
    rintro nr (⟨h1, h2⟩ | ⟨h1, h2⟩)
    · rw [hdata, h1, h2, Nat.one_mul]
    · rw [hdata, h1, h2, Nat.mul_one]
  by_cases hp : rmat.data.Pairwise (· < ·)
  · by_cases hq : ∃ d, softLoad magic type rmat radii (some a) mk = .ok d
    · exact .inl hq
    · right
      have hn := fun r ms => (C65_soft_exact magic type rmat radii a mk hsmall hdata r ms).not.1 fun ⟨d, h, _⟩ => hq ⟨d, h⟩
      have hn' := hn (rmat.data.map (· + a)) ((radii.take rmat.data.length).map mk)
      simp only [and_true, hp] at hn'
      unfold softLoad
      by_cases ht : type.isSome = true ∧ type ≠ some magic
      · rw [if_pos ht]
      · rw [if_neg ht]
        have ht' : type = none ∨ type = some magic := by
          cases type with
          | none => exact .inl rfl
          | some t =>
            right
            by_contra hne
            exact ht ⟨rfl, hne⟩
        cases hv : rmat.vecLen with
        | none => rfl
        | some nr =>
          have hvi := (vecLen_iff _ _).1 hv
          have hnr := hvec nr hvi
          subst hnr
          dsimp only
          by_cases hl : radii.length < rmat.data.length
          · rw [if_pos hl]
          · rw [if_neg hl]
            by_cases hc : (radii.take rmat.data.length).all (fun d => d.check) = false
            · rw [if_pos hc]
            · exfalso
              apply hn'
              refine ⟨ht', hvi, by omega, fun q hq => ?_⟩
              rw [Bool.not_eq_false, List.all_eq_true] at hc
              exact (check_iff q).1 (hc q hq)
  · right
    unfold softLoad
    by_cases ht : type.isSome = true ∧ type ≠ some magic
    · rw [if_pos ht]
    · rw [if_neg ht]
      cases hv : rmat.vecLen with
      | none => rfl
      | some nr =>
        have hnr := hvec nr ((vecLen_iff _ _).1 hv)
        subst hnr
        dsimp only
        by_cases hl : radii.length < rmat.data.length
        · rw [if_pos hl]
        · rw [if_neg hl]
          by_cases hc : (radii.take rmat.data.length).all (fun d => d.check) = false
          · rw [if_pos hc]
          · rw [if_neg hc, if_neg (by omega), List.take_length]
            have hsh : shiftBy (some a) rmat.data = .throws := by
              cases hd : rmat.data with
              | nil => rw [hd] at hp; exact absurd List.Pairwise.nil hp
              | cons x l =>
                rw [hd] at hp
                have : shiftRadii a (x :: l) = none := by
                  cases hsx : shiftRadii a (x :: l) with
                  | none => rfl
                  | some w => exact absurd ((C65_shift a _ w).1 hsx).1 hp
                simp only [shiftBy, this]
            rw [hsh]

/-- **C65** A file of another type is rejected by the SOFT loader and by the GO+CODE loader. -/
theorem C65_wrong_type (magic t : String) (h : t ≠ magic) (rmat : Mat K) (radii : List (RadiusData K)) (axis : Option K)
    (mk : RadiusData K → M) (ntimes : Nat) (time : Int) (code : Int → Nat → Option M) :
    softLoad magic (some t) rmat radii axis mk = .throws ∧ goLoad magic (some t) rmat ntimes time axis code = .throws := by
  constructor
  · simp only [softLoad]
    rw [if_pos ⟨rfl, by simpa using h⟩]
  · simp only [goLoad]
    rw [if_pos ⟨rfl, by simpa using h⟩]

/-- **C65** Exactly the following GO+CODE files are loaded. -/
theorem C65_gocode_exact [IsStrictOrderedRing K] (magic : String) (type : Option String) (rmat : Mat K) (ntimes : Nat)
    (time : Int) (a : K) (code : Int → Nat → Option M) (hdata : rmat.data.length = rmat.rows * rmat.cols)
    (r : List K) (ms : List M) :
    (∃ d, goLoad magic type rmat ntimes time (some a) code = .ok d ∧ d.r = r ∧ d.msdf = ms) ↔
      (type = none ∨ type = some magic) ∧ IsVector rmat rmat.data.length ∧ rmat.data ≠ [] ∧ rmat.data.Pairwise (· < ·) ∧
      (∃ t, codeTime ntimes time = some t ∧ (List.range rmat.data.length).mapM (code t) = some ms) ∧
      r = rmat.data.map (· + a) := by
  have hvec : ∀ nr, IsVector rmat nr → nr = rmat.data.length := by
    rintro nr (⟨h1, h2⟩ | ⟨h1, h2⟩)
    · rw [hdata, h1, h2, Nat.one_mul]
    · rw [hdata, h1, h2, Nat.mul_one]
  constructor
  · rintro ⟨d, h, rfl, rfl⟩
    obtain ⟨nr, a', t, h1, h2, h3, h4, h5, h6, h7, -⟩ := C65_gocode magic type rmat ntimes time (some a) code d h
    cases h2
    have hv := (vecLen_iff _ _).mp h1
    have hn := hvec nr hv
    subst hn
    rw [List.take_length] at h4 h5
    refine ⟨?_, hv, ?_, h4, ⟨t, h3, h6⟩, h5⟩
    · simp only [goLoad] at h
      split at h
      · cases h
      · rename_i ht
        cases type with
        | none => exact Or.inl rfl
        | some t =>
          right
          by_contra hne
          exact ht ⟨rfl, hne⟩
    · intro h0
      rw [h5, h0] at h7
      cases h7
  · rintro ⟨ht, hv, hne, hp, ⟨t, h3, h6⟩, rfl⟩
    have h1 := (vecLen_iff _ _).mpr hv
    cases hd : rmat.data with
    | nil => exact absurd hd hne
    | cons x l =>
      have hs : shiftBy (some a) rmat.data = .ok ((x + a) :: l.map (· + a)) := by
        rw [hd] at hp
        rw [hd]
        simp only [shiftBy, (C65_shift a (x :: l) _).mpr ⟨hp, rfl⟩, List.map_cons]
      refine ⟨⟨(x + a) :: l.map (· + a), ms, x + a, ((x + a) :: l.map (· + a)).getLast (by simp), true⟩, ?_, by simp, rfl⟩
      simp only [goLoad, h1, List.take_length, hs, h3, h6]
      rw [if_neg (by rintro ⟨h2, h3⟩; rcases ht with rfl | rfl <;> [cases h2; exact h3 rfl]), if_neg (by omega)]

/-- **C65** Every radius of a loaded DREAM distribution has the values of its own radius at the selected
time, with all pitches and momenta in the order of the file. -/
theorem C65_dream_data [IsStrictOrderedRing K] (d0 np nxi nt t : Nat) (data r : List K) (a : K) (mk : List K → M)
    (hsmall : r.length ≤ 2 ^ 30) (hdata : data.length = nt * (r.length * np * nxi))
    (hbig : (nt + 2147483648) * (r.length * np * nxi) < 18446744073709551616) (hnt : nt + 2147483648 < 18446744073709551616)
    (h1 : t < nt) (h2 : t ≤ 2147483647) (hp : r.Pairwise (· < ·)) :
    ∃ d, dreamLoad [d0, r.length, nxi, np] data nt r np nxi t (some a) mk = .ok d ∧ d.r = r.map (· + a) ∧
      d.msdf.length = r.length ∧ ∀ i, i < r.length → ∃ f, d.msdf[i]? = some (mk f) ∧ f.length = np * nxi ∧
        ∀ k, k < np * nxi → f[k]? = data[(t * r.length + i) * (np * nxi) + k]? := by
  obtain ⟨f, e, hl, hf⟩ := C62_dream_data data nt r.length np nxi hdata hbig hnt t h1 h2
  have hs : shiftBy (some a) r = .ok (r.map (· + a)) := by
    cases r with
    | nil => rfl
    | cons x l => simp only [shiftBy, (C65_shift a (x :: l) _).mpr ⟨hp, rfl⟩]
  obtain ⟨d, e', hr, hm, -⟩ := insertAll_increasing (r.map (· + a))
    ((List.range r.length).map fun i => mk ((f.drop (i * (np * nxi))).take (np * nxi)))
    (pairwise_shift a _ hp) (by simp) (by rw [List.length_map]; exact hsmall)
  refine ⟨d, ?_, hr, by rw [hm]; simp, ?_⟩
  · simp only [dreamLoad, e, hs, e']
    rw [if_neg (by simp)]
  · intro i hi
    have hN : r.length * np * nxi = r.length * (np * nxi) := by ring
    have hin : i * (np * nxi) + np * nxi ≤ r.length * np * nxi := by
      rw [hN, ← Nat.succ_mul]
      exact Nat.mul_le_mul_right _ hi
    refine ⟨(f.drop (i * (np * nxi))).take (np * nxi), ?_, ?_, ?_⟩
    · rw [hm, List.getElem?_map, List.getElem?_range hi]
      rfl
    · rw [List.length_take, List.length_drop, hl]
      omega
    · intro k hk
      rw [List.getElem?_take_of_lt hk, List.getElem?_drop, hf _ (by omega)]
      congr 1
      rw [hN]
      ring

example : IsVector (⟨1, 2, [(0 : ℚ), 1]⟩ : Mat ℚ) 2 ∧ IsVector (⟨2, 1, [(0 : ℚ), 1]⟩ : Mat ℚ) 2 ∧
    FitsTogether (⟨⟨1, 2, [1, 2]⟩, ⟨3, 1, [0, 1, 2]⟩, ⟨3, 2, [1, 2, 3, 4, 5, 6]⟩⟩ : RadiusData ℚ) :=
  ⟨Or.inl ⟨rfl, rfl⟩, Or.inr ⟨rfl, rfl⟩, 2, 3, Or.inl ⟨rfl, rfl⟩, Or.inr ⟨rfl, rfl⟩, rfl, rfl⟩

/-! ### C59 -/

/-- **C59** A distribution made from a table is the interpolation of that table between the first and
the last momentum and the first and the last pitch, and zero everywhere else. -/
theorem C59_table (spline : Table → ℝ → ℝ → FV) (t : Table) (m : NMom) (p0 p1 x0 x1 : ℝ)
    (h1 : t.p.head? = some p0) (h2 : t.p.getLast? = some p1) (h3 : t.xi.head? = some x0) (h4 : t.xi.getLast? = some x1)
    (h : NMom.initialize t false false = .ok m) (p xi : ℝ) :
    (p0 ≤ p → p ≤ p1 → x0 ≤ xi → xi ≤ x1 → m.eval spline p xi = spline t p xi) ∧
    (p < p0 ∨ p1 < p ∨ xi < x0 ∨ x1 < xi → m.eval spline p xi = .num 0) ∧
    (p0 ≤ p → p ≤ p1 → x0 ≤ xi → xi ≤ x1 → (m.setFlip true).eval spline p (-xi) = spline t p xi) := by
  obtain ⟨-, e1, e2, e3, e4, e5, e6, e7⟩ := (C59_accepts_iff _ _ _ _).mp h
  obtain ⟨mt, a, b, c, d, ml, mf⟩ := m
  simp only at e1 e2 e3 e4 e5 e6 e7
  obtain rfl : p0 = a := by rw [e1] at h1; exact (Option.some.inj h1).symm
  obtain rfl : p1 = b := by rw [e2] at h2; exact (Option.some.inj h2).symm
  obtain rfl : x0 = c := by rw [e3] at h3; exact (Option.some.inj h3).symm
  obtain rfl : x1 = d := by rw [e4] at h4; exact (Option.some.inj h4).symm
  subst e5 e6 e7
  refine ⟨?_, ?_, ?_⟩
  · intro a b c d
    simp only [NMom.eval]
    rw [if_neg (by rintro (h | h) <;> linarith), if_neg (by simp), if_neg (by rintro (h | h) <;> linarith)]
    rfl
  · intro hout
    simp only [NMom.eval]
    by_cases hp : p < p0 ∨ p > p1
    · rw [if_pos hp]
    · rw [if_neg hp, if_neg (by simp), if_pos]
      rcases hout with h | h | h | h
      · exact absurd (Or.inl h) hp
      · exact absurd (Or.inr h) hp
      · exact Or.inl h
      · exact Or.inr h
  · intro a b c d
    show NMom.eval spline ⟨mt, p0, p1, x0, x1, false, true⟩ p (-xi) = _
    unfold NMom.eval
    rw [if_neg (by rintro (h | h) <;> simp only at h <;> linarith), if_pos rfl,
      if_neg (by rintro (h | h) <;> simp only at h <;> linarith), neg_neg]
    rfl

/-- Tables with enough points and increasing grids are accepted, whatever the flags. -/
theorem C59_accepts (t : Table) (l fl : Bool) (p0 p1 x0 x1 : ℝ) (h1 : t.p.head? = some p0) (h2 : t.p.getLast? = some p1)
    (h3 : t.xi.head? = some x0) (h4 : t.xi.getLast? = some x1) (hg : GslTable t) :
    ∃ m, NMom.initialize t l fl = .ok m ∧ m.table = t ∧ m.pmin = p0 ∧ m.pmax = p1 ∧ m.ximin = x0 ∧ m.ximax = x1 ∧
      m.logarithmic = l ∧ m.flip = fl :=
  ⟨⟨t, p0, p1, x0, x1, l, fl⟩, (C59_accepts_iff _ _ _ _).mpr ⟨hg, h1, h2, h3, h4, rfl, rfl, rfl⟩, rfl, rfl, rfl, rfl, rfl, rfl, rfl⟩

example : ∃ m, NMom.initialize ⟨[0, 1], [-1, 1], [.num 1, .num 2, .num 3, .num 4], 0⟩ false false = .ok m :=
  (C59_accepts ⟨[0, 1], [-1, 1], [.num 1, .num 2, .num 3, .num 4], 0⟩ false false 0 1 (-1) 1 rfl rfl rfl rfl
    ⟨by simp, by simp, by norm_num, by norm_num, by simp⟩).imp fun _ h => h.1

/-- **C65** With a magnetic field, a GO+CODE file that is not loaded is rejected with the exception,
except that without any radii the first of them is read outside of the array. -/
theorem C65_gocode_otherwise [IsStrictOrderedRing K] (magic : String) (type : Option String) (rmat : Mat K) (ntimes : Nat)
    (time : Int) (a : K) (code : Int → Nat → Option M) (hdata : rmat.data.length = rmat.rows * rmat.cols) :
    (goLoad magic type rmat ntimes time (some a) code = .ub ↔
      (type = none ∨ type = some magic) ∧ IsVector rmat 0) ∧
    ((type = none ∨ type = some magic) → IsVector rmat rmat.data.length → ¬ rmat.data.Pairwise (· < ·) →
      goLoad magic type rmat ntimes time (some a) code = .throws) := by
  have hvec : ∀ nr, IsVector rmat nr → nr = rmat.data.length := by
    rintro nr (⟨h1, h2⟩ | ⟨h1, h2⟩)
    · rw [hdata, h1, h2, Nat.one_mul]
    · rw [hdata, h1, h2, Nat.mul_one]
  have htype : ¬ (type.isSome = true ∧ type ≠ some magic) ↔ (type = none ∨ type = some magic) := by
    cases type <;> simp
  constructor
  · unfold goLoad
    by_cases ht : type.isSome = true ∧ type ≠ some magic
    · rw [if_pos ht]
      exact ⟨fun h => (by cases h), fun h => absurd ht (htype.2 h.1)⟩
    · rw [if_neg ht]
      have ht' := htype.1 ht
      cases hv : rmat.vecLen with
      | none =>
        refine ⟨fun h => (by cases h), fun h => ?_⟩
        rw [(vecLen_iff _ _).2 h.2] at hv
        cases hv
      | some nr =>
        have hvi := (vecLen_iff _ _).1 hv
        have hnr := hvec nr hvi
        dsimp only
        rw [if_neg (by omega), hnr, List.take_length]
        cases hd : rmat.data with
        | nil =>
          rw [hd] at hnr
          subst hnr
          exact ⟨fun _ => ⟨ht', hvi⟩, fun _ => rfl⟩
        | cons x l =>
          have hno : ¬ IsVector rmat 0 := fun h => by
            have := hvec 0 h
            rw [hd] at this
            simp at this
          have hne : ∀ o : LRes (NDist M K), o ≠ .ub → (o = .ub ↔ (type = none ∨ type = some magic) ∧ IsVector rmat 0) :=
            fun o h => ⟨fun h' => absurd h' h, fun h' => absurd h'.2 hno⟩
          apply hne
          cases hsx : shiftRadii a (x :: l) with
          | none => simp only [shiftBy, hsx]; exact fun h => by cases h
          | some w =>
            obtain ⟨-, hw⟩ := (C65_shift a _ w).1 hsx
            subst hw
            simp only [shiftBy, hsx, List.map_cons]
            cases codeTime ntimes time with
            | none => exact fun h => by cases h
            | some t =>
              dsimp only
              cases (List.range (x :: l).length).mapM (code t) <;> exact fun h => by cases h
  · intro ht hv hp
    unfold goLoad
    rw [if_neg (htype.2 ht), (vecLen_iff _ _).2 hv]
    dsimp only
    rw [if_neg (by omega), List.take_length]
    have hsh : shiftBy (some a) rmat.data = .throws := by
      cases hd : rmat.data with
      | nil => rw [hd] at hp; exact absurd List.Pairwise.nil hp
      | cons x l =>
        rw [hd] at hp
        have : shiftRadii a (x :: l) = none := by
          cases hsx : shiftRadii a (x :: l) with
          | none => rfl
          | some w => exact absurd ((C65_shift a _ w).1 hsx).1 hp
        simp only [shiftBy, this]
    rw [hsh]

/-- **C65** Without a magnetic field, the loader of GO+CODE distributions follows the null pointer. -/
theorem C65_refuted_gocode_null (magic : String) (rmat : Mat K) (ntimes : Nat) (time : Int) (code : Int → Nat → Option M)
    (hdata : rmat.data.length = rmat.rows * rmat.cols) (hv : IsVector rmat rmat.data.length) (hne : rmat.data ≠ []) :
    goLoad magic none rmat ntimes time none code = .ub := by
  unfold goLoad
  rw [if_neg (by simp), (vecLen_iff _ _).2 hv]
  dsimp only
  rw [if_neg (by omega), List.take_length]
  cases hd : rmat.data with
  | nil => exact absurd hd hne
  | cons x l => rfl

end Softlib
