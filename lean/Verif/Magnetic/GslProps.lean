/-
C119: what the splines of numeric fields require.
-/
import Verif.Magnetic.GslModel
import Verif.Magnetic.NumericFileProps
import Verif.Magnetic.ConvertProps
import Verif.Magnetic.LukeProps

namespace Softlib

open Magnetic

noncomputable section

/-- Grids the splines accept. -/
structure SplineGrid (R Z : List ℝ) : Prop where
  rows : 4 ≤ R.length
  columns : 4 ≤ Z.length
  radii : R.Pairwise (· < ·)
  heights : Z.Pairwise (· < ·)

/-- All arrays of a field are as long as the grid needs. -/
structure ArraysFit (f : NField) : Prop where
  br : f.R.length * f.Z.length ≤ f.Br.length
  bphi : f.R.length * f.Z.length ≤ f.Bphi.length
  bz : f.R.length * f.Z.length ≤ f.Bz.length
  psi : ∀ p, f.Psi = some p → f.R.length * f.Z.length ≤ p.length

theorem bicubicInit_good (mk : List ℝ → List ℝ → List ℝ → Spl) {R Z : List ℝ} (V : List ℝ) (h : SplineGrid R Z) :
    bicubicInit mk R Z V = if V.length < R.length * Z.length then .ub else .ok (mk R Z V) := by
  unfold bicubicInit
  rw [if_neg (not_not.2 (show increasing R from h.radii)), if_neg (not_not.2 (show increasing Z from h.heights))]

theorem bicubicAlloc_good {R Z : List ℝ} (h : SplineGrid R Z) : bicubicAlloc R Z = .ok () := by
  have h1 := h.rows
  have h2 := h.columns
  unfold bicubicAlloc
  rw [if_neg (by omega)]

theorem splineGrid_ends {l : List ℝ} (h : 4 ≤ l.length) : l.head? = some (l.headD 0) ∧ l.getLast? = some (l.getLastD 0) := by
  cases l with
  | nil => simp at h
  | cons a t => exact ⟨rfl, by rw [List.getLast?_cons, List.getLastD_cons, ← List.getLastD_eq_getLast?]⟩

/-- C119: the splines of a field with an accepted grid are made, from its arrays, if these are long enough. -/
theorem C119_splines (mk : List ℝ → List ℝ → List ℝ → Spl) (f : NField) (h : SplineGrid f.R f.Z) (ha : ArraysFit f) :
    f.initInterpolation mk = .ok (f.grid mk) := by
  unfold NField.initInterpolation NField.grid
  rw [bicubicAlloc_good h, bicubicInit_good mk _ h, bicubicInit_good mk _ h, bicubicInit_good mk _ h,
    if_neg (not_lt.2 ha.br), if_neg (not_lt.2 ha.bphi), if_neg (not_lt.2 ha.bz)]
  have hp : fluxSpline mk f.R f.Z f.Psi = .ok (f.Psi.map (mk f.R f.Z)) := by
    have := ha.psi
    cases hpsi : f.Psi with
    | none => rfl
    | some p =>
      simp only [fluxSpline, bicubicAlloc_good h, bicubicInit_good mk _ h, LRes.bind, Option.map_some]
      rw [if_neg (not_lt.2 (this p hpsi))]
  rw [hp, (splineGrid_ends h.rows).1, (splineGrid_ends h.rows).2, (splineGrid_ends h.columns).1, (splineGrid_ends h.columns).2]
  rfl

/-- C119: with any other grid the program is aborted, whatever the arrays contain. -/
theorem C119_refuted_grid (mk : List ℝ → List ℝ → List ℝ → Spl) (f : NField) (h : ¬ SplineGrid f.R f.Z) :
    f.initInterpolation mk = .aborts := by
  unfold NField.initInterpolation
  by_cases h1 : f.R.length < 4 ∨ f.Z.length < 4
  · simp only [bicubicAlloc, if_pos h1, LRes.bind]
  · have e : bicubicAlloc f.R f.Z = .ok () := by unfold bicubicAlloc; rw [if_neg h1]
    have e2 : bicubicInit mk f.R f.Z f.Br = .aborts := by
      unfold bicubicInit
      by_cases hr : increasing f.R
      · rw [if_neg (not_not.2 hr)]
        by_cases hz : increasing f.Z
        · exact absurd ⟨by omega, by omega, hr, hz⟩ h
        · rw [if_pos hz]
      · rw [if_pos hr]
    simp only [e, e2, LRes.bind]

/-- C119: with an accepted grid and an array that is too short, memory outside of it is read. -/
theorem C119_refuted_short (mk : List ℝ → List ℝ → List ℝ → Spl) (f : NField) (h : SplineGrid f.R f.Z) (ha : ¬ ArraysFit f) :
    f.initInterpolation mk = .ub := by
  unfold NField.initInterpolation
  rw [bicubicAlloc_good h, bicubicInit_good mk _ h, bicubicInit_good mk _ h, bicubicInit_good mk _ h]
  by_cases h1 : f.Br.length < f.R.length * f.Z.length
  · rw [if_pos h1]; rfl
  by_cases h2 : f.Bphi.length < f.R.length * f.Z.length
  · rw [if_neg h1, if_pos h2]; rfl
  by_cases h3 : f.Bz.length < f.R.length * f.Z.length
  · rw [if_neg h1, if_neg h2, if_pos h3]; rfl
  rw [if_neg h1, if_neg h2, if_neg h3]
  cases hpsi : f.Psi with
  | none => exact absurd ⟨by omega, by omega, by omega, by simp [hpsi]⟩ ha
  | some p =>
    by_cases h4 : p.length < f.R.length * f.Z.length
    · simp only [fluxSpline, bicubicAlloc_good h, bicubicInit_good mk _ h, LRes.bind]
      rw [if_pos h4]
    · exact absurd ⟨by omega, by omega, by omega, fun q hq => by rw [hpsi] at hq; cases hq; omega⟩ ha

/-- C119: the splines are made exactly for accepted grids with arrays that are long enough, and the failure is never an exception. -/
theorem C119_outcomes (mk : List ℝ → List ℝ → List ℝ → Spl) (f : NField) :
    ((∃ g, f.initInterpolation mk = .ok g) ↔ SplineGrid f.R f.Z ∧ ArraysFit f) ∧
    (f.initInterpolation mk = .aborts ↔ ¬ SplineGrid f.R f.Z) ∧
    f.initInterpolation mk ≠ .throws := by
  by_cases h : SplineGrid f.R f.Z
  · by_cases ha : ArraysFit f
    · rw [C119_splines mk f h ha]
      exact ⟨⟨fun _ => ⟨h, ha⟩, fun _ => ⟨_, rfl⟩⟩, ⟨fun e => (by cases e), fun e => absurd h e⟩, (by intro e; cases e)⟩
    · rw [C119_refuted_short mk f h ha]
      exact ⟨⟨fun ⟨_, e⟩ => (by cases e), fun e => absurd e.2 ha⟩, ⟨fun e => (by cases e), fun e => absurd h e⟩, (by intro e; cases e)⟩
  · rw [C119_refuted_grid mk f h]
    exact ⟨⟨fun ⟨_, e⟩ => (by cases e), fun e => absurd e.1 h⟩, ⟨fun _ => h, fun _ => rfl⟩, (by intro e; cases e)⟩

/-! ### where fields come from -/

/-- C119: the constructors give exactly a field whose members could be made, with the splines of its arrays. -/
theorem C119_constructor (mk : List ℝ → List ℝ → List ℝ → Spl) (made : LRes NField) (f : NField) (g : NGrid) :
    withSplines mk made = .ok (f, g) ↔ made = .ok f ∧ SplineGrid f.R f.Z ∧ ArraysFit f ∧ g = f.grid mk := by
  unfold withSplines
  constructor
  · intro h
    obtain ⟨f', h1, h⟩ := LRes.bind_ok.1 h
    obtain ⟨g', h2, h⟩ := LRes.bind_ok.1 h
    cases h
    obtain ⟨hs, ha⟩ := (C119_outcomes mk f).1.1 ⟨_, h2⟩
    rw [C119_splines mk f hs ha] at h2
    cases h2
    exact ⟨h1, hs, ha, rfl⟩
  · rintro ⟨rfl, hs, ha, rfl⟩
    simp only [LRes.bind, C119_splines mk f hs ha]

theorem mapM_option_length {α β : Type} (f : α → Option β) : ∀ (l : List α) (out : List β), l.mapM f = some out → out.length = l.length
  | [], out, h => by
    rw [List.mapM_nil] at h
    cases h
    rfl
  | a :: l, out, h => by
    rw [List.mapM_cons] at h
    cases ha : f a with
    | none => rw [ha] at h; cases h
    | some b =>
      cases hl : l.mapM f with
      | none => rw [ha, hl] at h; cases h
      | some bs =>
        rw [ha, hl] at h
        cases h
        simp [mapM_option_length f l bs hl]

theorem mapM_option_mem {α β : Type} (f : α → Option β) : ∀ (l : List α) (out : List β), l.mapM f = some out →
    ∀ b ∈ out, ∃ a ∈ l, f a = some b
  | [], out, h => by
    rw [List.mapM_nil] at h
    cases h
    intro b hb
    cases hb
  | a :: l, out, h => by
    rw [List.mapM_cons] at h
    cases ha : f a with
    | none => rw [ha] at h; cases h
    | some b =>
      cases hl : l.mapM f with
      | none => rw [ha, hl] at h; cases h
      | some bs =>
        rw [ha, hl] at h
        cases h
        intro c hc
        rcases List.mem_cons.1 hc with rfl | hc
        · exact ⟨a, by simp, ha⟩
        · obtain ⟨a', h1, h2⟩ := mapM_option_mem f l bs hl c hc
          exact ⟨a', by simp [h1], h2⟩

theorem grid_rows_length {nr nz : Nat} {g : Nat → Nat → Option ℝ} {l : List ℝ}
    (h : ((List.range nz).mapM fun j => (List.range nr).mapM fun i => g j i).map List.flatten = some l) : l.length = nr * nz := by
  obtain ⟨rows, h1, rfl⟩ := Option.map_eq_some_iff.1 h
  have e := mapM_option_length _ _ _ h1
  have m := mapM_option_mem _ _ _ h1
  rw [List.length_range] at e
  have hrow : ∀ r ∈ rows, r.length = nr := by
    intro r hr
    obtain ⟨j, _, hj⟩ := m r hr
    simpa using mapM_option_length _ _ _ hj
  rw [List.length_flatten, List.map_congr_left hrow, List.map_const', List.sum_replicate, e]
  simp [Nat.mul_comm]

theorem orThrow_ok {α β : Type} {o : Option α} {k : α → Res β} {b : β} (h : orThrow o k = .ok b) : ∃ a, o = some a ∧ k a = .ok b := by
  cases o with
  | none => cases h
  | some a => exact ⟨a, rfl, h⟩

theorem orUB_ok {α β : Type} {o : Option α} {k : α → Res β} {b : β} (h : orUB o k = .ok b) : ∃ a, o = some a ∧ k a = .ok b := by
  cases o with
  | none => cases h
  | some a => exact ⟨a, rfl, h⟩

theorem guardThrow_ok {β : Type} {c : Bool} {k : Res β} {b : β} (h : guardThrow c k = .ok b) : k = .ok b := by
  cases c with
  | false => cases h
  | true => exact h

theorem finish_ok {name desc : String} {R Z Br Bphi Bz : List ℝ} {Psi : Option (List ℝ)} {axis : Pt} {sep wall : Option (List Pt)}
    {n : NField} (h : finish name desc R Z Br Bphi Bz Psi axis sep wall = .ok n) :
    n.R = R ∧ n.Z = Z ∧ n.Br = Br ∧ n.Bphi = Bphi ∧ n.Bz = Bz ∧ n.Psi = Psi := by
  unfold finish at h
  split at h
  · cases h
  · cases h
  · cases h
    exact ⟨rfl, rfl, rfl, rfl, rfl, rfl⟩

/-- The arrays of a field that is loaded from a file have the size of its grid. -/
theorem C119_loaded_arrays (fd : FData) (n : NField) (h : nLoad fd = .ok n) : fd.list "r" = some n.R ∧ fd.list "z" = some n.Z ∧ ArraysFit n := by
  unfold nLoad at h
  obtain ⟨name, _, h⟩ := orThrow_ok h
  obtain ⟨desc, _, h⟩ := orThrow_ok h
  obtain ⟨maxis, _, h⟩ := orThrow_ok h
  replace h := guardThrow_ok h
  obtain ⟨R, hR, h⟩ := orThrow_ok h
  obtain ⟨Z, hZ, h⟩ := orThrow_ok h
  obtain ⟨br, _, h⟩ := orThrow_ok h
  obtain ⟨br1, _, h⟩ := orUB_ok h
  obtain ⟨bphi, _, h⟩ := orThrow_ok h
  obtain ⟨bphi1, _, h⟩ := orUB_ok h
  obtain ⟨bz, _, h⟩ := orThrow_ok h
  obtain ⟨bz1, _, h⟩ := orUB_ok h
  obtain ⟨psi, _, h⟩ := orUB_ok h
  obtain ⟨v1, _, h⟩ := orUB_ok h
  replace h := guardThrow_ok h
  obtain ⟨v2, _, h⟩ := orUB_ok h
  replace h := guardThrow_ok h
  obtain ⟨v3, _, h⟩ := orUB_ok h
  replace h := guardThrow_ok h
  obtain ⟨wall, _, h⟩ := orUB_ok h
  obtain ⟨sep, _, h⟩ := orUB_ok h
  obtain ⟨br2, hbr, h⟩ := orUB_ok h
  obtain ⟨bphi2, hbphi, h⟩ := orUB_ok h
  obtain ⟨bz2, hbz, h⟩ := orUB_ok h
  obtain ⟨psi2, hpsi, h⟩ := orUB_ok h
  have hf : finish name desc R Z br2 bphi2 bz2 psi2 ⟨maxis.getD 0 0, maxis.getD 1 0⟩ sep wall = .ok n := by
    by_cases hc : wall.isNone ∧ sep.isNone
    · rw [if_pos hc] at h; cases h
    · rw [if_neg hc] at h; exact h
  obtain ⟨e1, e2, e3, e4, e5, e6⟩ := finish_ok hf
  refine ⟨by rw [hR, e1], by rw [hZ, e2], ⟨?_, ?_, ?_, ?_⟩⟩
  · rw [e1, e2, e3, grid_rows_length hbr]
  · rw [e1, e2, e4, grid_rows_length hbphi]
  · rw [e1, e2, e5, grid_rows_length hbz]
  · intro p hp
    rw [e6] at hp
    subst hp
    rw [e1, e2]
    cases psi with
    | none => cases hpsi
    | some q =>
      obtain ⟨l, h1, h2⟩ := Option.map_eq_some_iff.1 hpsi
      cases h2
      exact (grid_rows_length h1).ge

/-- C119: a file from which all members are loaded gives a field if its grid is accepted, and otherwise ends the program: there is
no exception. -/
theorem C119_file (mk : List ℝ → List ℝ → List ℝ → Spl) (fd : FData) (n : NField) (h : nLoad fd = .ok n) :
    (SplineGrid n.R n.Z → withSplines mk (ofRes (nLoad fd)) = .ok (n, n.grid mk)) ∧
    (¬ SplineGrid n.R n.Z → withSplines mk (ofRes (nLoad fd)) = .aborts) := by
  rw [h]
  refine ⟨fun hs => (C119_constructor mk _ _ _).2 ⟨rfl, hs, (C119_loaded_arrays fd n h).2.2, rfl⟩, fun hs => ?_⟩
  simp only [withSplines, ofRes, LRes.bind, C119_refuted_grid mk n hs]

/-- The arrays of a LUKE equilibrium have the size of its grid. -/
theorem C119_luke_arrays (f : FData) (w : Option FData) (n : NField) (h : lukeLoad f w = .ok n) : ArraysFit n := by
  unfold lukeLoad at h
  obtain ⟨id, _, h⟩ := LRes.bind_ok.1 h
  obtain ⟨rp, _, h⟩ := LRes.bind_ok.1 h
  obtain ⟨zp, _, h⟩ := LRes.bind_ok.1 h
  obtain ⟨xs, _, h⟩ := LRes.bind_ok.1 h
  obtain ⟨ys, _, h⟩ := LRes.bind_ok.1 h
  obtain ⟨psinR, _, h⟩ := LRes.bind_ok.1 h
  obtain ⟨psia, _, h⟩ := LRes.bind_ok.1 h
  by_cases hy : ys = []
  · rw [if_pos hy] at h; cases h
  rw [if_neg hy] at h
  obtain ⟨psi, _, h⟩ := LRes.bind_ok.1 h
  obtain ⟨psig, _, h⟩ := LRes.bind_ok.1 h
  obtain ⟨tsig, _, h⟩ := LRes.bind_ok.1 h
  obtain ⟨bx, _, h⟩ := LRes.bind_ok.1 h
  obtain ⟨bz, _, h⟩ := LRes.bind_ok.1 h
  obtain ⟨bt, _, h⟩ := LRes.bind_ok.1 h
  obtain ⟨_, _, h⟩ := LRes.bind_ok.1 h
  obtain ⟨flux, h1, h⟩ := LRes.bind_ok.1 h
  obtain ⟨br, h2, h⟩ := LRes.bind_ok.1 h
  obtain ⟨bphi, h3, h⟩ := LRes.bind_ok.1 h
  obtain ⟨bz', h4, h⟩ := LRes.bind_ok.1 h
  obtain ⟨ptx, _, h⟩ := LRes.bind_ok.1 h
  obtain ⟨pty, _, h⟩ := LRes.bind_ok.1 h
  obtain ⟨sep, _, h⟩ := LRes.bind_ok.1 h
  obtain ⟨wall, _, h⟩ := LRes.bind_ok.1 h
  have hins : ∀ {o : Option (List ℝ)} {l : List ℝ}, inside o = .ok l → o = some l := by
    intro o l h
    cases o with
    | none => cases h
    | some a => cases h; rfl
  have hf : finish id id (xs.map (· + rp)) (ys.map (· + zp)) br bphi bz' (some flux) ⟨rp, zp⟩ (some sep) wall = .ok n := by
    revert h
    cases finish id id (xs.map (· + rp)) (ys.map (· + zp)) br bphi bz' (some flux) ⟨rp, zp⟩ (some sep) wall with
    | ub => intro h; cases h
    | throws => intro h; cases h
    | ok a => intro h; cases h; rfl
  obtain ⟨e1, e2, e3, e4, e5, e6⟩ := finish_ok hf
  refine ⟨?_, ?_, ?_, ?_⟩
  · rw [e1, e2, e3, grid_rows_length (hins h2), List.length_map, List.length_map]
  · rw [e1, e2, e4, grid_rows_length (hins h3), List.length_map, List.length_map]
  · rw [e1, e2, e5, grid_rows_length (hins h4), List.length_map, List.length_map]
  · intro p hp
    rw [e6] at hp
    cases hp
    rw [e1, e2, grid_rows_length (hins h1), List.length_map, List.length_map]

/-- C119: likewise for LUKE equilibria. -/
theorem C119_luke (mk : List ℝ → List ℝ → List ℝ → Spl) (f : FData) (w : Option FData) (n : NField) (h : lukeLoad f w = .ok n) :
    (SplineGrid n.R n.Z → withSplines mk (lukeLoad f w) = .ok (n, n.grid mk)) ∧
    (¬ SplineGrid n.R n.Z → withSplines mk (lukeLoad f w) = .aborts) := by
  rw [h]
  refine ⟨fun hs => (C119_constructor mk _ _ _).2 ⟨rfl, hs, C119_luke_arrays f w n h, rfl⟩, fun hs => ?_⟩
  simp only [withSplines, LRes.bind, C119_refuted_grid mk n hs]

/-- C119: the conversion of an analytical field of positive minor radius to a numeric one works with at least 4 by 4 points, and ends
the program with fewer. -/
theorem C119_convert (mk : List ℝ → List ℝ → List ℝ → Spl) (f : AField) (hr : 0 < f.rminor) (name desc : String) (dom : List Pt)
    (nr nz : Nat) (junk : List ℝ) (hj : junk.length = nr * nz) (n : NField) (h : f.toNumeric name desc dom nr nz junk = .ok n) :
    (4 ≤ nr ∧ 4 ≤ nz → withSplines mk (ofRes (f.toNumeric name desc dom nr nz junk)) = .ok (n, n.grid mk)) ∧
    (nr < 4 ∨ nz < 4 → withSplines mk (ofRes (f.toNumeric name desc dom nr nz junk)) = .aborts) := by
  rw [h]
  unfold AField.toNumeric nInit at h
  simp only [Option.isNone_none, Option.isNone_some] at h
  rw [if_neg (by simp)] at h
  obtain ⟨e1, e2, e3, e4, e5, e6⟩ := finish_ok h
  simp only [AField.arrays] at e1 e2 e3 e4 e5 e6
  have l1 : n.R.length = nr := by rw [e1]; simp [linearGrid]
  have l2 : n.Z.length = nz := by rw [e2]; simp [linearGrid]
  constructor
  · rintro ⟨h1, h2⟩
    refine (C119_constructor mk _ _ _).2 ⟨rfl, ⟨by omega, by omega, ?_, ?_⟩, ⟨?_, ?_, ?_, ?_⟩, rfl⟩
    · rw [e1]; exact linearGrid_increasing _ _ _ (by linarith) (by omega)
    · rw [e2]; exact linearGrid_increasing _ _ _ (by linarith) (by omega)
    · rw [l1, l2, e3]; simp [fillGrid]
    · rw [l1, l2, e4]; simp [fillGrid]
    · rw [l1, l2, e5]; simp [fillGrid]
    · intro p hp
      rw [e6] at hp
      cases hp
      rw [l1, l2, hj]
  · intro hlt
    have : ¬ SplineGrid n.R n.Z := fun hs => by
      have := hs.rows
      have := hs.columns
      omega
    simp only [withSplines, ofRes, LRes.bind, C119_refuted_grid mk n this]

/-- C119: a clone of a field has the same grid and arrays, so its splines are made. -/
theorem C119_clone (mk : List ℝ → List ℝ → List ℝ → Spl) (f c : NField) (hs : SplineGrid f.R f.Z) (ha : ArraysFit f) (h : f.clone = .ok c) :
    withSplines mk (ofRes f.clone) = .ok (c, f.grid mk) := by
  rw [h]
  unfold NField.clone nInit at h
  simp only [Option.isNone_some] at h
  rw [if_neg (by simp)] at h
  obtain ⟨e1, e2, e3, e4, e5, e6⟩ := finish_ok h
  refine (C119_constructor mk _ _ _).2 ⟨rfl, by rw [e1, e2]; exact hs, ⟨?_, ?_, ?_, ?_⟩, ?_⟩
  · rw [e1, e2, e3]; exact ha.br
  · rw [e1, e2, e4]; exact ha.bphi
  · rw [e1, e2, e5]; exact ha.bz
  · rw [e1, e2, e6]; exact ha.psi
  · unfold NField.grid
    rw [e1, e2, e3, e4, e5, e6]

/-! ### evaluation -/

/-- The limits of a made field are ordered. -/
theorem splines_limits (mk : List ℝ → List ℝ → List ℝ → Spl) (made : LRes NField) (f : NField) (g : NGrid)
    (h : withSplines mk made = .ok (f, g)) : g.rmin < g.rmax ∧ g.zmin < g.zmax := by
  obtain ⟨_, hs, _, rfl⟩ := (C119_constructor mk made f g).1 h
  have key : ∀ l : List ℝ, 4 ≤ l.length → l.Pairwise (· < ·) → l.headD 0 < l.getLastD 0 := by
    intro l h4 hp
    obtain ⟨h1, h2⟩ := splineGrid_ends h4
    rw [List.head?_eq_getElem?] at h1
    rw [List.getLast?_eq_getElem?] at h2
    exact increasing_lt hp h1 h2 (by omega)
  exact ⟨key _ hs.rows hs.radii, key _ hs.columns hs.heights⟩

theorem clampTo_mem {lo hi : ℝ} (h : lo ≤ hi) (x : ℝ) : lo ≤ clampTo lo hi x ∧ clampTo lo hi x ≤ hi := by
  unfold clampTo
  split
  · exact ⟨le_refl _, h⟩
  · split
    · exact ⟨h, le_refl _⟩
    · constructor <;> linarith

theorem ask_clamped {α : Type} {g : NGrid} (hr : g.rmin ≤ g.rmax) (hz : g.zmin ≤ g.zmax) (r z : ℝ) (v : α) :
    g.ask (clampTo g.rmin g.rmax r) (clampTo g.zmin g.zmax z) v = .ok v := by
  have h1 := clampTo_mem hr r
  have h2 := clampTo_mem hz z
  unfold NGrid.ask
  rw [if_neg (by rintro (h | h) <;> linarith [h1.1, h1.2]), if_neg (by rintro (h | h) <;> linarith [h2.1, h2.2])]

/-- C119: the field and its derivatives are given at every position, inside the grid or not (the derivatives wherever the field does
not vanish). -/
theorem C119_field (mk : List ℝ → List ℝ → List ℝ → Spl) (made : LRes NField) (f : NField) (g : NGrid)
    (h : withSplines mk made = .ok (f, g)) (x y z : ℝ) :
    g.evalG x y z = .ok (g.eval x y z) ∧
    (g.eval x y z ≠ 0 → ∃ d, g.evalDerivativesG x y z = .ok d ∧ g.evalDerivatives x y z = some d) ∧
    (g.eval x y z = 0 → g.evalDerivativesG x y z = .nonfinite) := by
  obtain ⟨hr, hz⟩ := splines_limits mk made f g h
  refine ⟨ask_clamped hr.le hz.le _ _ _, fun hB => ?_, fun hB => ?_⟩
  · obtain ⟨d, hd, _⟩ := C52_consistent g x y z hB
    refine ⟨d, ?_, hd⟩
    unfold NGrid.evalDerivativesG
    rw [ask_clamped hr.le hz.le, hd]
    rfl
  · unfold NGrid.evalDerivativesG
    rw [ask_clamped hr.le hz.le, C52_zero_field g x y z hB]
    rfl

/-- A position inside the grid. -/
structure InGrid (g : NGrid) (x y z : ℝ) : Prop where
  r1 : g.rmin ≤ hyp x y
  r2 : hyp x y ≤ g.rmax
  z1 : g.zmin ≤ z
  z2 : z ≤ g.zmax

theorem ask_inside {α : Type} {g : NGrid} {x y z : ℝ} (h : InGrid g x y z) (v : α) : g.ask (hyp x y) z v = .ok v := by
  have h1 := h.r1
  have h2 := h.r2
  have h3 := h.z1
  have h4 := h.z2
  unfold NGrid.ask
  rw [if_neg (by rintro (h | h) <;> linarith), if_neg (by rintro (h | h) <;> linarith)]

theorem ask_outside {α : Type} {g : NGrid} {x y z : ℝ} (h : ¬ InGrid g x y z) (v : α) : g.ask (hyp x y) z v = .aborts := by
  unfold NGrid.ask
  by_cases h1 : hyp x y < g.rmin ∨ hyp x y > g.rmax
  · rw [if_pos h1]
  · rw [if_neg h1]
    by_cases h2 : z < g.zmin ∨ z > g.zmax
    · rw [if_pos h2]
    · push Not at h1 h2
      exact absurd ⟨h1.1, h1.2, h2.1, h2.2⟩ h

/-- C119: the flux is given inside the grid; a field without flux reports that with an exception. -/
theorem C119_flux_partial (g : NGrid) (x y z : ℝ) :
    (∀ s, g.psi = some s → InGrid g x y z → g.fluxG x y z = .ok (s.val (hyp x y) z) ∧
      g.fluxDerivativesG x y z = .ok (s.val (hyp x y) z, s.dr (hyp x y) z, s.dz (hyp x y) z)) ∧
    (g.psi = none → g.fluxG x y z = .throws ∧ g.fluxDerivativesG x y z = .throws) := by
  unfold NGrid.fluxG NGrid.fluxDerivativesG NGrid.flux NGrid.fluxDerivatives
  constructor
  · intro s hs hin
    rw [hs]
    exact ⟨ask_inside hin _, ask_inside hin _⟩
  · intro hs
    rw [hs]
    exact ⟨rfl, rfl⟩

/-- C119 as stated is refuted: asking for the flux outside of the grid ends the program, at every such position, of every field that
has a flux. -/
theorem C119_refuted_flux (g : NGrid) (s : Spl) (hs : g.psi = some s) (x y z : ℝ) (h : ¬ InGrid g x y z) :
    g.fluxG x y z = .aborts ∧ g.fluxDerivativesG x y z = .aborts := by
  unfold NGrid.fluxG NGrid.fluxDerivativesG NGrid.flux NGrid.fluxDerivatives
  rw [hs]
  exact ⟨ask_outside h _, ask_outside h _⟩

/-! ### there are such fields -/

/-- A field of 4 by 4 points. -/
def sampleField (R : List ℝ) : Res NField :=
  nInit "n" "d" R [-1, 0, 1, 2] (List.replicate 16 1) (List.replicate 16 2) (List.replicate 16 3) (some (List.replicate 16 4)) ⟨2, 0⟩
    none (some squareWall)

theorem sampleField_made (R : List ℝ) : ∃ n, sampleField R = .ok n ∧ n.R = R ∧ n.Z = [-1, 0, 1, 2] ∧ n.Br = List.replicate 16 1 ∧
    n.Bphi = List.replicate 16 2 ∧ n.Bz = List.replicate 16 3 ∧ n.Psi = some (List.replicate 16 4) := by
  have hr : radiusDom none (some squareWall) = squareWall := rfl
  refine ⟨⟨"n", "d", R, [-1, 0, 1, 2], List.replicate 16 1, List.replicate 16 2, List.replicate 16 3, some (List.replicate 16 4),
    ⟨2, 0⟩, none, some squareWall, squareWall, 3, 1, []⟩, ?_, rfl, rfl, rfl, rfl, rfl, rfl⟩
  unfold sampleField nInit finish
  rw [if_neg (by simp), hr, squareWall_radius]
  rfl

/-- With increasing radii the field is made and has a flux; with the radii in the opposite order the program ends. -/
example (mk : List ℝ → List ℝ → List ℝ → Spl) :
    (∃ n g, withSplines mk (ofRes (sampleField [1, 2, 3, 4])) = .ok (n, g) ∧ g.psi.isSome = true ∧ InGrid g 1 0 0 ∧ ¬ InGrid g 0 0 0) ∧
    withSplines mk (ofRes (sampleField [4, 3, 2, 1])) = .aborts := by
  have h1 : hyp 1 0 = 1 := by norm_num [hyp]
  have h0 : hyp 0 0 = 0 := by norm_num [hyp]
  constructor
  · obtain ⟨n, hn, e1, e2, e3, e4, e5, e6⟩ := sampleField_made [1, 2, 3, 4]
    refine ⟨n, n.grid mk, (C119_constructor mk _ _ _).2 ⟨by rw [hn]; rfl, ⟨by rw [e1]; simp, by rw [e2]; simp, ?_, ?_⟩,
      ⟨by rw [e1, e2, e3]; simp, by rw [e1, e2, e4]; simp, by rw [e1, e2, e5]; simp, ?_⟩, rfl⟩, ?_, ⟨?_, ?_, ?_, ?_⟩, ?_⟩
    · rw [e1]; norm_num
    · rw [e2]; norm_num
    · intro p hp; rw [e6] at hp; cases hp; rw [e1, e2]; simp
    · simp [NField.grid, e6]
    · simp [NField.grid, e1, h1]
    · simp [NField.grid, e1, h1]
    · simp [NField.grid, e2]
    · simp [NField.grid, e2]
    · intro hin
      have := hin.r1
      simp only [NField.grid, e1, h0, List.headD_cons] at this
      linarith
  · obtain ⟨n, hn, e1, e2, _⟩ := sampleField_made [4, 3, 2, 1]
    have : ¬ SplineGrid n.R n.Z := fun hs => by
      have := hs.radii
      rw [e1] at this
      norm_num at this
    rw [hn]
    simp only [withSplines, ofRes, LRes.bind, C119_refuted_grid mk n this]

end

end Softlib
