/-
C62: the time index of the readers of time-resolved distributions; C65: radial grids of loaded
distributions; C72: verification vectors and the destructor of the DREAM distribution.
-/
import Verif.Dist.LoadModel
import Verif.Dist.InsertProps
import Verif.Dist.CodeProps
import Mathlib.Algebra.Order.Ring.Defs
import Mathlib.Algebra.Order.Ring.Abs

namespace Softlib

open Dist

variable {K : Type} [Field K] [LinearOrder K] {M : Type}

section
variable [IsStrictOrderedRing K]

theorem shiftRest_spec (a : K) : ∀ (rest : List K) (x : K),
    (List.Pairwise (· < ·) (x :: rest) → shiftRest a (x + a) rest = some (rest.map (· + a))) ∧
    (∀ l, shiftRest a (x + a) rest = some l → List.Pairwise (· < ·) (x :: rest) ∧ l = rest.map (· + a)) := by
  intro rest
  induction rest with
  | nil =>
    intro x
    refine ⟨fun _ => rfl, fun l h => ?_⟩
    simp only [shiftRest, Option.some.injEq] at h
    subst h
    simp
  | cons y rest ih =>
    intro x
    obtain ⟨ih1, ih2⟩ := ih y
    constructor
    · intro h
      have hxy : x < y := (List.pairwise_cons.mp h).1 y (by simp)
      simp only [shiftRest]
      rw [if_neg (not_le.mpr (add_lt_add_left hxy a)), ih1 (List.pairwise_cons.mp h).2]
      rfl
    · intro l h
      simp only [shiftRest] at h
      split at h
      · cases h
      · rename_i hlt
        have hxy : x < y := lt_of_add_lt_add_right (not_le.mp hlt)
        split at h
        · cases h
        · rename_i l' e
          obtain ⟨hp, hl⟩ := ih2 l' e
          injection h with h
          subst h
          refine ⟨?_, by rw [hl]; rfl⟩
          rw [List.pairwise_cons]
          refine ⟨?_, hp⟩
          intro b hb
          rcases List.mem_cons.mp hb with hb | hb
          · rw [hb]; exact hxy
          · exact lt_trans hxy ((List.pairwise_cons.mp hp).1 b hb)

/-- **C65** The loop that shifts the radii accepts exactly the strictly increasing grids, and its
result is the grid shifted by the radius of the magnetic axis. -/
theorem C65_shift (a : K) (r l : List K) :
    shiftRadii a r = some l ↔ (r.Pairwise (· < ·) ∧ l = r.map (· + a)) := by
  cases r with
  | nil => simp [shiftRadii, eq_comm]
  | cons x rest =>
    obtain ⟨h1, h2⟩ := shiftRest_spec a rest x
    simp only [shiftRadii]
    constructor
    · intro h
      split at h
      · cases h
      · rename_i l' e
        obtain ⟨hp, hl⟩ := h2 l' e
        injection h with h
        subst h
        exact ⟨hp, by rw [hl]; rfl⟩
    · rintro ⟨hp, hl⟩
      rw [h1 hp, hl]
      rfl

theorem pairwise_shift (a : K) (r : List K) (h : r.Pairwise (· < ·)) : (r.map (· + a)).Pairwise (· < ·) := by
  rw [List.pairwise_map]
  exact h.imp (fun h => add_lt_add_left h a)

end

/-- Insertion in increasing order of radius keeps the order. -/
theorem insertAll_increasing (rs : List K) (ms : List M) (h : rs.Pairwise (· < ·)) (hl : rs.length = ms.length)
    (hs : rs.length ≤ 2 ^ 30) :
    ∃ d, NDist.insertAll NDist.empty (rs.zip ms) = some d ∧ d.r = rs ∧ d.msdf = ms ∧ d.allow = true := by
  by_cases hne : rs = []
  · subst hne
    have : ms = [] := List.eq_nil_of_length_eq_zero (by simpa using hl.symm)
    subst this
    exact ⟨NDist.empty, rfl, rfl, rfl, rfl⟩
  · obtain ⟨d', e, hr, hm, hal⟩ := clone_holds (id : M → M) ⟨rs, ms, 0, 0, true⟩ h hne hs hl
    refine ⟨d', ?_, hr, by rw [hm]; simp, hal⟩
    simp only [NDist.clone] at e
    rw [if_neg (by omega)] at e
    have : (rs.zip ms).map (fun q => (q.1, id q.2)) = rs.zip ms := by simp
    rw [this] at e
    exact e

theorem shiftBy_ok [IsStrictOrderedRing K] (axis : Option K) (r l : List K) (h : shiftBy axis r = .ok l) :
    r.Pairwise (· < ·) ∧ (r = [] ∨ ∃ a, axis = some a) ∧ ∀ a, axis = some a → l = r.map (· + a) := by
  cases r with
  | nil =>
    simp only [shiftBy, LRes.ok.injEq] at h
    subst h
    simp
  | cons x r =>
    cases axis with
    | none => simp [shiftBy] at h
    | some a =>
      simp only [shiftBy] at h
      split at h
      · cases h
      · rename_i l' e
        injection h with h
        subst h
        obtain ⟨h1, h2⟩ := (C65_shift a (x :: r) l').mp e
        exact ⟨h1, Or.inr ⟨a, rfl⟩, fun a' ha' => by cases ha'; exact h2⟩

/-- **C65** If a SOFT distribution loads, its radii are strictly increasing in the file, the grid of
the object is the grid of the file shifted by the magnetic axis, every radius has the distribution
of its own group, and all dimensions agree. -/
theorem C65_soft [IsStrictOrderedRing K] (magic : String) (type : Option String) (rmat : Mat K)
    (radii : List (RadiusData K)) (axis : Option K) (mk : RadiusData K → M) (d : NDist M K)
    (hsmall : rmat.data.length ≤ 2 ^ 30)
    (h : softLoad magic type rmat radii axis mk = .ok d) :
    ∃ nr, rmat.vecLen = some nr ∧ (rmat.data.take nr).Pairwise (· < ·) ∧
      (∀ a, axis = some a → d.r = (rmat.data.take nr).map (· + a)) ∧ d.r.length = nr ∧
      d.msdf = (radii.take nr).map mk ∧ (∀ q ∈ radii.take nr, q.check = true) ∧ (nr = 0 ∨ ∃ a, axis = some a) := by
  simp only [softLoad] at h
  split at h
  · cases h
  · split at h
    · cases h
    · rename_i nr hnr
      split at h
      · cases h
      · rename_i hlen
        split at h
        · cases h
        · rename_i hall
          split at h
          · cases h
          · rename_i hdat
            split at h
            · cases h
            · cases h
            · rename_i rs hs
              obtain ⟨hp, hax, hl⟩ := shiftBy_ok axis _ rs hs
              have hlen2 : (rmat.data.take nr).length = nr := by rw [List.length_take]; omega
              have hrs : rs.Pairwise (· < ·) ∧ rs.length = nr := by
                rcases hax with hax | ⟨a, hax⟩
                · rw [hax] at hs hlen2
                  simp only [shiftBy, LRes.ok.injEq] at hs
                  subst hs
                  exact ⟨List.Pairwise.nil, hlen2⟩
                · rw [hl a hax]
                  exact ⟨pairwise_shift a _ hp, by rw [List.length_map]; exact hlen2⟩
              obtain ⟨d', e, hr, hm, -⟩ := insertAll_increasing rs ((radii.take nr).map mk) hrs.1
                (by rw [hrs.2, List.length_map, List.length_take]; omega) (by rw [hrs.2]; omega)
              rw [e] at h
              simp only [LRes.ok.injEq] at h
              subst h
              refine ⟨nr, hnr, hp, fun a ha => by rw [hr, hl a ha], by rw [hr, hrs.2], hm, ?_, ?_⟩
              · simpa using hall
              · rcases hax with hax | hax
                · left
                  rw [hax] at hlen2
                  simpa using hlen2.symm
                · exact Or.inr hax

/-- **C65** If a SOFT distribution loads, the momenta and the pitches of every radius in use are vectors, as rows or as columns, and the
distribution has one row for each pitch and one column for each momentum. A radius that does not fit is refused. -/
theorem C65_soft_shapes (d : RadiusData K) : d.check = true ↔
    (d.p.rows = 1 ∨ d.p.cols = 1) ∧ (d.xi.rows = 1 ∨ d.xi.cols = 1) ∧
      d.f.rows = (if d.xi.rows = 1 then d.xi.cols else d.xi.rows) ∧ d.f.cols = (if d.p.rows = 1 then d.p.cols else d.p.rows) := by
  unfold RadiusData.check Mat.vecLen
  by_cases h1 : d.p.rows = 1 <;> by_cases h2 : d.xi.rows = 1 <;> by_cases h3 : d.p.cols = 1 <;> by_cases h4 : d.xi.cols = 1 <;>
    simp [h1, h2, h3, h4]

/-- **C65** A SOFT file whose radii are not strictly increasing is never loaded. -/
theorem C65_soft_rejects [IsStrictOrderedRing K] (magic : String) (type : Option String) (rmat : Mat K)
    (radii : List (RadiusData K)) (axis : Option K) (mk : RadiusData K → M) (nr : Nat) (hnr : rmat.vecLen = some nr)
    (hbad : ¬ (rmat.data.take nr).Pairwise (· < ·)) (d : NDist M K) :
    softLoad magic type rmat radii axis mk ≠ .ok d := by
  intro h
  simp only [softLoad, hnr] at h
  split at h
  · cases h
  · split at h
    · cases h
    · split at h
      · cases h
      · split at h
        · cases h
        · split at h
          · cases h
          · cases h
          · rename_i rs hs
            exact hbad (shiftBy_ok axis _ rs hs).1

/-- **C65** (refuted for the default argument) Without a magnetic field, the default, the loader
dereferences a null pointer for every file that passes the checks. -/
theorem C65_refuted_null (magic : String) (rmat : Mat K) (radii : List (RadiusData K)) (mk : RadiusData K → M)
    (nr : Nat) (hnr : rmat.vecLen = some nr) (h1 : 1 ≤ nr) (hr : nr ≤ radii.length) (hd : nr ≤ rmat.data.length)
    (hc : ∀ q ∈ radii.take nr, q.check = true) : softLoad magic (some magic) rmat radii none mk = .ub := by
  have hall : (radii.take nr).all (fun d => d.check) = true := by simpa using hc
  simp only [softLoad, hnr, hall]
  rw [if_neg (by simp), if_neg (by omega), if_neg (by simp), if_neg (by omega)]
  cases hdat : rmat.data with
  | nil => rw [hdat] at hd; simp at hd; omega
  | cons x l =>
    obtain ⟨n, rfl⟩ : ∃ n, nr = n + 1 := ⟨nr - 1, by omega⟩
    simp [shiftBy]

example : ∃ d, softLoad "distribution/soft" (some "distribution/soft") ⟨1, 2, [(0 : ℚ), 1]⟩
    [⟨⟨1, 2, [1, 2]⟩, ⟨1, 2, [0, 1]⟩, ⟨2, 2, [1, 2, 3, 4]⟩⟩, ⟨⟨1, 2, [1, 2]⟩, ⟨1, 2, [0, 1]⟩, ⟨2, 2, [5, 6, 7, 8]⟩⟩]
    (some 3) (fun q => q.f.data) = .ok d ∧ d.r = [3, 4] ∧ d.msdf = [[1, 2, 3, 4], [5, 6, 7, 8]] := by
  refine ⟨⟨[3, 4], [[1, 2, 3, 4], [5, 6, 7, 8]], 3, 4, true⟩, ?_, rfl, rfl⟩
  norm_num [softLoad, Mat.vecLen, RadiusData.check, shiftBy, shiftRadii, shiftRest, NDist.insertAll, NDist.insert,
    NDist.empty, findNearest]

/-! ### DREAM -/

theorem u64_of_lt (n : Nat) (h : n < 18446744073709551616) : u64 (n : Int) = n := by
  simp only [u64]
  rw [Int.emod_eq_of_lt (by omega) (by omega)]
  simp

/-- **C62** DREAM, a time step in range: the offset of the step, and of the `t`-th from the end. -/
theorem C62_dream_partial (nt nr np nxi : Nat) (hbig : (nt + 2147483648) * (nr * np * nxi) < 18446744073709551616)
    (hnt : nt + 2147483648 < 18446744073709551616) :
    (∀ t : Nat, t < nt → t ≤ 2147483647 → dreamOffset nt nr np nxi t = some (t * (nr * np * nxi))) ∧
    (∀ t : Nat, 1 ≤ t → t ≤ nt → t ≤ 2147483648 → dreamOffset nt nr np nxi (-t) = some ((nt - t) * (nr * np * nxi))) ∧
    (0 < nr * np * nxi →
      (∀ t : Nat, nt < t → t ≤ 2147483647 → dreamOffset nt nr np nxi t = none) ∧
      (∀ t : Nat, nt < t → t ≤ 2147483648 → dreamOffset nt nr np nxi (-t) = none)) := by
  generalize hN : nr * np * nxi = N at *
  have assoc : ∀ x : Int, x * nr * np * nxi = x * (N : Nat) := by
    intro x
    rw [← hN]
    push_cast
    ring
  have hT : u64 ((nt : Int) * nr * np * nxi) = nt * N := by
    rw [assoc]
    have : ((nt : Int) * (N : Nat)) = ((nt * N : Nat) : Int) := by push_cast; rfl
    rw [this]
    refine u64_of_lt _ (lt_of_le_of_lt (Nat.mul_le_mul_right N (by omega)) hbig)
  have hpos : ∀ t : Nat, t ≤ nt + 2147483648 → u64 ((t : Int) * nr * np * nxi) = t * N := by
    intro t ht
    rw [assoc]
    have : ((t : Int) * (N : Nat)) = ((t * N : Nat) : Int) := by push_cast; rfl
    rw [this]
    exact u64_of_lt _ (lt_of_le_of_lt (Nat.mul_le_mul_right N ht) hbig)
  refine ⟨fun t h1 h2 => ?_, fun t h1 h2 h3 => ?_, fun hN0 => ⟨fun t h1 h2 => ?_, fun t h1 h2 => ?_⟩⟩
  · simp only [dreamOffset]
    rw [if_neg (show ¬ ((t : Int) < 0) by omega), hpos t (by omega), hT, if_neg]
    exact not_lt.mpr (Nat.mul_le_mul_right N (by omega))
  · simp only [dreamOffset]
    have e : ((nt : Int) + -(t : Int)) = ((nt - t : Nat) : Int) := by omega
    rw [if_pos (show -(t : Int) < 0 by omega), e, u64_of_lt _ (by omega), hpos (nt - t) (by omega), hT, if_neg]
    exact not_lt.mpr (Nat.mul_le_mul_right N (by omega))
  · simp only [dreamOffset]
    rw [if_neg (show ¬ ((t : Int) < 0) by omega), hpos t (by omega), hT, if_pos]
    exact Nat.mul_lt_mul_of_pos_right h1 hN0
  · simp only [dreamOffset]
    have e : u64 ((nt : Int) + -(t : Int)) = 18446744073709551616 - (t - nt) := by
      simp only [u64]
      have : ((nt : Int) + -(t : Int)) % 18446744073709551616 = ((18446744073709551616 - (t - nt) : Nat) : Int) := by
        rw [Int.emod_def]
        have : ((nt : Int) + -(t : Int)) / 18446744073709551616 = -1 := by omega
        rw [this]
        omega
      rw [this]
      simp
    rw [if_pos (show -(t : Int) < 0 by omega), e, hT, assoc, if_pos]
    have hk : (t - nt) * N < 18446744073709551616 := lt_of_le_of_lt (Nat.mul_le_mul_right N (by omega)) hbig
    have hsum : nt * N + (t - nt) * N < 18446744073709551616 := by
      rw [← Nat.add_mul]
      exact lt_of_le_of_lt (Nat.mul_le_mul_right N (by omega)) hbig
    have hkpos : 0 < (t - nt) * N := Nat.mul_pos (by omega) hN0
    have hval : u64 (((18446744073709551616 - (t - nt) : Nat) : Int) * (N : Nat)) = 18446744073709551616 - (t - nt) * N := by
      simp only [u64]
      have : (((18446744073709551616 - (t - nt) : Nat) : Int) * (N : Nat)) =
          ((18446744073709551616 - (t - nt) * N : Nat) : Int) + 18446744073709551616 * ((N : Int) - 1) := by
        have h1 : ((18446744073709551616 - (t - nt) : Nat) : Int) = 18446744073709551616 - ((t - nt : Nat) : Int) := by omega
        have h2 : ((18446744073709551616 - (t - nt) * N : Nat) : Int) = 18446744073709551616 - ((t - nt : Nat) : Int) * N := by
          rw [Nat.cast_sub (le_of_lt hk)]
          push_cast
          rfl
        rw [h1, h2]
        ring
      rw [this, Int.add_mul_emod_self_left, Int.emod_eq_of_lt (by omega) (by omega)]
      simp
    rw [hval]
    omega

/-- **C62** (refuted for DREAM) The step just after the last passes the check, and the distribution is
read from beyond the end of the data. -/
theorem C62_refuted_dream (data : List K) (nt nr np nxi : Nat) (hdata : data.length = nt * (nr * np * nxi))
    (hN : 0 < nr * np * nxi) (hbig : nt * (nr * np * nxi) < 18446744073709551616) :
    dreamSlice data nt nr np nxi nt = .ub := by
  have e : u64 ((nt : Int) * nr * np * nxi) = nt * (nr * np * nxi) := by
    have : ((nt : Int) * nr * np * nxi) = ((nt * (nr * np * nxi) : Nat) : Int) := by push_cast; ring
    rw [this]
    exact u64_of_lt _ hbig
  simp only [dreamSlice, dreamOffset]
  rw [if_neg (show ¬ ((nt : Int) < 0) by omega), e, if_neg (lt_irrefl _)]
  simp only []
  rw [if_pos (by omega)]

/-- **C62** DREAM: an accepted step in range gives the data of that step. -/
theorem C62_dream_data (data : List K) (nt nr np nxi : Nat) (hdata : data.length = nt * (nr * np * nxi))
    (hbig : (nt + 2147483648) * (nr * np * nxi) < 18446744073709551616) (hnt : nt + 2147483648 < 18446744073709551616)
    (t : Nat) (h1 : t < nt) (h2 : t ≤ 2147483647) :
    ∃ f, dreamSlice data nt nr np nxi t = .ok f ∧ f.length = nr * np * nxi ∧
      ∀ i, i < nr * np * nxi → f[i]? = data[t * (nr * np * nxi) + i]? := by
  simp only [dreamSlice, (C62_dream_partial nt nr np nxi hbig hnt).1 t h1 h2]
  have hle : t * (nr * np * nxi) + nr * np * nxi ≤ data.length := by
    rw [hdata]
    calc t * (nr * np * nxi) + nr * np * nxi = (t + 1) * (nr * np * nxi) := by ring
      _ ≤ nt * (nr * np * nxi) := Nat.mul_le_mul_right _ h1
  rw [if_neg (by omega)]
  refine ⟨_, rfl, by rw [List.length_take, List.length_drop]; omega, ?_⟩
  intro i hi
  rw [List.getElem?_take_of_lt hi, List.getElem?_drop]

example : dreamOffset 10 2 3 4 (-1) = some (9 * 24) ∧ dreamOffset 10 2 3 4 11 = none ∧ dreamOffset 10 2 3 4 10 = some 240 := by
  decide

/-- **C65** If a DREAM distribution loads, its radii are strictly increasing and the grid of the object
is the grid of the file shifted by the magnetic axis. -/
theorem C65_dream [IsStrictOrderedRing K] (fdims : List Nat) (data : List K) (nt : Nat) (r : List K) (np nxi : Nat)
    (timestep : Int) (axis : Option K) (mk : List K → M) (d : NDist M K) (hsmall : r.length ≤ 2 ^ 30)
    (h : dreamLoad fdims data nt r np nxi timestep axis mk = .ok d) :
    r.Pairwise (· < ·) ∧ (∀ a, axis = some a → d.r = r.map (· + a)) ∧ d.r.length = r.length ∧
      ∃ d0, fdims = [d0, r.length, nxi, np] := by
  simp only [dreamLoad] at h
  split at h
  · rename_i d0 d1 d2 d3
    split at h
    · cases h
    · rename_i hdim
      push Not at hdim
      split at h
      · cases h
      · cases h
      · split at h
        · cases h
        · cases h
        · rename_i rs hs
          obtain ⟨hp, hax, hl⟩ := shiftBy_ok axis _ rs hs
          have hrs : rs.Pairwise (· < ·) ∧ rs.length = r.length := by
            rcases hax with hax | ⟨a, hax⟩
            · subst hax
              simp only [shiftBy, LRes.ok.injEq] at hs
              subst hs
              exact ⟨List.Pairwise.nil, rfl⟩
            · rw [hl a hax]
              exact ⟨pairwise_shift a _ hp, by rw [List.length_map]⟩
          generalize hms : ((List.range r.length).map fun i => mk (((_ : List K).drop (i * (np * nxi))).take (np * nxi))) = ms at h
          obtain ⟨d', e, hr, hm, -⟩ := insertAll_increasing rs ms hrs.1
            (by rw [hrs.2, ← hms]; simp) (by rw [hrs.2]; exact hsmall)
          rw [e] at h
          simp only [LRes.ok.injEq] at h
          subst h
          exact ⟨hp, fun a ha => by rw [hr, hl a ha], by rw [hr, hrs.2], d0, by rw [hdim.1, hdim.2.1, hdim.2.2]⟩
  · cases h

/-- **C65** If a GO+CODE distribution loads, its radii are strictly increasing, the grid of the object is
the grid of the file shifted by the magnetic axis, its limits are the ends of the grid, and the
distributions come from the selected time step (**C62**). -/
theorem C65_gocode [IsStrictOrderedRing K] (magic : String) (type : Option String) (rmat : Mat K) (ntimes : Nat)
    (time : Int) (axis : Option K) (code : Int → Nat → Option M) (d : NDist M K)
    (h : goLoad magic type rmat ntimes time axis code = .ok d) :
    ∃ nr a t, rmat.vecLen = some nr ∧ axis = some a ∧ codeTime ntimes time = some t ∧
      (rmat.data.take nr).Pairwise (· < ·) ∧ d.r = (rmat.data.take nr).map (· + a) ∧
      (List.range nr).mapM (code t) = some d.msdf ∧ d.r.head? = some d.rmin ∧ d.r.getLast? = some d.rmax := by
  simp only [goLoad] at h
  split at h
  · cases h
  · split at h
    · cases h
    · rename_i nr hnr
      split at h
      · cases h
      · rename_i hdat
        split at h
        · cases h
        · cases h
        · cases h
        · rename_i r0 rs hs
          obtain ⟨hp, hax, hl⟩ := shiftBy_ok axis _ _ hs
          split at h
          · cases h
          · rename_i t ht
            split at h
            · cases h
            · rename_i ms hms
              simp only [LRes.ok.injEq] at h
              subst h
              rcases hax with hax | ⟨a, hax⟩
              · rw [hax] at hs
                simp [shiftBy] at hs
              · refine ⟨nr, a, t, hnr, hax, ht, hp, hl a hax, hms, rfl, ?_⟩
                rw [List.getLast?_eq_some_getLast (by simp)]

/-- **C65** The LUKE loader turns normalised radii into major radii; strictly increasing radii stay so
exactly if the outermost radius of the field is beyond its axis. -/
theorem C65_luke [IsStrictOrderedRing K] (minr maxr : K) (h : minr < maxr) (r : List K) :
    (lukeRadii minr maxr r).Pairwise (· < ·) ↔ r.Pairwise (· < ·) := by
  simp only [lukeRadii, List.pairwise_map]
  have : ∀ x y : K, minr + x * (maxr - minr) < minr + y * (maxr - minr) ↔ x < y := by
    intro x y
    rw [add_lt_add_iff_left, mul_lt_mul_iff_left₀ (sub_pos.mpr h)]
  simp only [this]

/-- **C65** The ends: 0 is the magnetic axis and 1 the outermost radius. -/
theorem C65_luke_ends (minr maxr : K) : lukeRadii minr maxr [0, 1] = [minr, maxr] := by
  simp [lukeRadii]

/-! ### C72 -/

/-- The documented meaning of the verification: every entry of the verification vector agrees with the
data to relative precision `eps` (absolute for zero entries). -/
def Matches (eps a b : K) : Prop := if a = 0 then |a - b| ≤ eps else |a - b| / |a| ≤ eps

theorem verifyLoop_spec (eps : K) (v : List K) (step : Nat) : ∀ (l : List K) (i : Nat),
    (∀ k, k < l.length → (i + k) * step < v.length) →
    ∃ b, verifyLoop eps v step i l = some b ∧
      (b = true ↔ ∀ k a x, l[k]? = some a → v[(i + k) * step]? = some x → Matches eps a x) := by
  intro l
  induction l with
  | nil => intro i _; exact ⟨true, rfl, by simp⟩
  | cons a l ih =>
    intro i hb
    have h0 : i * step < v.length := by simpa using hb 0 (by simp)
    obtain ⟨b, e, hbt⟩ := ih (i + 1) (fun k hk => by
      have := hb (k + 1) (by simp; omega)
      have e : i + (k + 1) = i + 1 + k := by omega
      rw [e] at this
      exact this)
    have hmatch : ∀ (P : Bool), (P = true ↔ Matches eps a v[i * step]) →
        (if P = false then some false else verifyLoop eps v step (i + 1) l) = verifyLoop eps v step i (a :: l) →
        ∃ b, verifyLoop eps v step i (a :: l) = some b ∧
          (b = true ↔ ∀ k a' x, (a :: l)[k]? = some a' → v[(i + k) * step]? = some x → Matches eps a' x) := by
      intro P hP hrw
      rw [← hrw]
      cases P with
      | false =>
        refine ⟨false, by simp, ?_⟩
        constructor
        · intro h; cases h
        · intro h
          have := h 0 a v[i * step] rfl (by simpa using List.getElem?_eq_getElem h0)
          exact hP.mpr this
      | true =>
        refine ⟨b, by simpa using e, ?_⟩
        rw [hbt]
        constructor
        · intro h k a' x ha' hx
          rcases k with _ | k
          · simp only [List.getElem?_cons_zero, Option.some.injEq] at ha'
            subst ha'
            simp only [Nat.add_zero] at hx
            rw [List.getElem?_eq_getElem h0] at hx
            injection hx with hx
            rw [← hx]
            exact hP.mp rfl
          · refine h k a' x (by simpa using ha') ?_
            have e : i + (k + 1) = i + 1 + k := by omega
            rw [← e]
            exact hx
        · intro h k a' x ha' hx
          refine h (k + 1) a' x (by simpa using ha') ?_
          have e : i + (k + 1) = i + 1 + k := by omega
          rw [e]
          exact hx
    by_cases ha : a = 0
    · refine hmatch (decide (|a - v[i * step]| ≤ eps)) ?_ ?_
      · simp only [decide_eq_true_eq, Matches, if_pos ha]
      · simp only [verifyLoop, List.getElem?_eq_getElem h0, if_pos ha, decide_eq_false_iff_not, not_le, gt_iff_lt]
    · refine hmatch (decide (|a - v[i * step]| / |a| ≤ eps)) ?_ ?_
      · simp only [decide_eq_true_eq, Matches, if_neg ha]
      · simp only [verifyLoop, List.getElem?_eq_getElem h0, if_neg ha, decide_eq_false_iff_not, not_le, gt_iff_lt]

/-- **C72** The verification of a distribution in the old format accepts a row vector of at most `n`
entries exactly if every entry agrees with the data, and never reads outside the data when these have
`n * step` values. -/
theorem C72_verify (eps : K) (v : List K) (n step : Nat) (m : Mat K) (hrow : m.rows = 1) (hn : m.cols ≤ n)
    (hlen : m.data.length = m.cols) (hv : n * step ≤ v.length) (hs : 0 < step) :
    ∃ b, deprVerify eps v n step (some m) = .ok b ∧
      (b = true ↔ ∀ k a x, m.data[k]? = some a → v[k * step]? = some x → Matches eps a x) := by
  obtain ⟨b, e, hb⟩ := verifyLoop_spec eps v step m.data 0 (fun k hk => by
    rw [Nat.zero_add]
    refine lt_of_lt_of_le ?_ hv
    exact Nat.mul_lt_mul_of_pos_right (by omega) hs)
  refine ⟨b, ?_, ?_⟩
  · have htake : m.data.take m.cols = m.data := by rw [← hlen]; exact List.take_length
    simp only [deprVerify, hrow, hn, and_self, if_true, htake, e, hlen]
    rw [if_neg (by omega)]
  · simpa using hb

/-- **C72** A vector that is absent is accepted; one that is neither a row nor a column, or too long, is
an error. -/
theorem C72_absent (eps : K) (v : List K) (n step : Nat) : deprVerify eps v n step none = .ok true := rfl

theorem C72_bad_shape (eps : K) (v : List K) (n step : Nat) (m : Mat K) (h1 : ¬ (m.rows = 1 ∧ m.cols ≤ n))
    (h2 : ¬ (m.cols = 1 ∧ m.rows ≤ n)) : deprVerify eps v n step (some m) = .throws := by
  simp only [deprVerify, if_neg h1, if_neg h2]

example : deprVerify (1 / 100 : ℚ) [1, 2, 3, 4] 2 2 (some ⟨1, 2, [1, 3]⟩) = .ok true ∧
    deprVerify (1 / 100 : ℚ) [1, 2, 3, 4] 2 2 (some ⟨1, 2, [1, 4]⟩) = .ok false := by
  constructor <;> norm_num [deprVerify, verifyLoop]

/-! ### C73 -/

omit [Field K] [LinearOrder K] in
/-- **C73** (refuted except for the first step) The destructor of the DREAM distribution releases a
pointer into the middle of the array for every time step but the first. -/
theorem C73_refuted_destroy (nt nr np nxi : Nat) (hN : 0 < nr * np * nxi)
    (hbig : (nt + 2147483648) * (nr * np * nxi) < 18446744073709551616) (hnt : nt + 2147483648 < 18446744073709551616)
    (t : Nat) (h1 : t < nt) (h2 : t ≤ 2147483647) :
    ∃ off, dreamOffset nt nr np nxi t = some off ∧ (dreamDestroyOk off = true ↔ t = 0) := by
  refine ⟨_, (C62_dream_partial nt nr np nxi hbig hnt).1 t h1 h2, ?_⟩
  simp only [dreamDestroyOk, beq_iff_eq]
  constructor
  · intro h
    rcases Nat.mul_eq_zero.mp h with h | h
    · exact h
    · omega
  · intro h; rw [h]; simp

end Softlib
