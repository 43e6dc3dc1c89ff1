/-
Property C53: numeric magnetic fields in files.
-/
import Verif.Magnetic.NumericProps

namespace Softlib

open Softlib.Magnetic

noncomputable section

theorem mapM_some {α β : Type} {f : α → Option β} {g : α → β} : ∀ {l : List α}, (∀ a ∈ l, f a = some (g a)) → l.mapM f = some (l.map g)
  | [], _ => rfl
  | a :: l, h => by
    rw [List.mapM_cons, h a (List.mem_cons_self ..), mapM_some fun b hb => h b (List.mem_cons_of_mem a hb)]
    rfl

theorem rowsOf_length (a b : Nat) (d : List ℝ) : (rowsOf a b d).length = a := by simp [rowsOf]

theorem flatten_rows_take (b : Nat) : ∀ (a : Nat) (d : List ℝ), (rowsOf a b d).flatten = d.take (a * b)
  | 0, d => by simp [rowsOf]
  | a + 1, d => by
    have e : ((fun j => (d.drop (j * b)).take b) ∘ Nat.succ) = fun j => ((d.drop b).drop (j * b)).take b := by
      funext j
      simp only [Function.comp, List.drop_drop, Nat.succ_eq_add_one]
      rw [show (j + 1) * b = b + j * b by ring]
    have ih := flatten_rows_take b a (d.drop b)
    unfold rowsOf at ih ⊢
    rw [List.range_succ_eq_map, List.map_cons, List.flatten_cons, List.map_map, e, ih, Nat.zero_mul, List.drop_zero,
      show (a + 1) * b = b + a * b by ring, List.take_add]

theorem at2_rowsOf {a b : Nat} {d : List ℝ} {j i : Nat} (hj : j < a) (hi : i < b) : at2 (rowsOf a b d) j i = d[j * b + i]? := by
  have hw : ((rowsOf a b d).headD []).length = min b d.length := by
    obtain ⟨a, rfl⟩ : ∃ m, a = m + 1 := ⟨a - 1, by omega⟩
    simp [rowsOf, List.range_succ_eq_map]
  have hin : j * b + i < a * b := by
    calc j * b + i < j * b + b := by omega
      _ = (j + 1) * b := by ring
      _ ≤ a * b := Nat.mul_le_mul_right _ hj
  unfold at2
  rw [rowsOf_length, if_pos hj, flatten_rows_take, hw]
  by_cases hd : b ≤ d.length
  · rw [Nat.min_eq_left hd, List.getElem?_take, if_pos hin]
  · rw [Nat.min_eq_right (by omega)]
    cases j with
    | zero => rw [List.getElem?_take, if_pos (by omega)]; simp
    | succ j =>
      rw [List.getElem?_eq_none, List.getElem?_eq_none]
      · calc d.length ≤ 1 * b := by omega
          _ ≤ (j + 1) * b := Nat.mul_le_mul_right _ (by omega)
          _ ≤ (j + 1) * b + i := by omega
      · rw [List.length_take]
        calc min (a * b) d.length ≤ 1 * d.length := by omega
          _ ≤ (j + 1) * d.length := Nat.mul_le_mul_right _ (by omega)
          _ ≤ (j + 1) * d.length + i := by omega

/-- Entry (j, i) of rows of equal length. -/
theorem flatten_block {b : Nat} : ∀ (a : List (List ℝ)), (∀ r ∈ a, r.length = b) → ∀ (j i : Nat), i < b →
    a.flatten[j * b + i]? = (a[j]?).bind (·[i]?)
  | [], _, j, i, _ => by simp
  | r :: a, h, 0, i, hi => by
    have hr := h r (by simp)
    rw [List.flatten_cons, List.getElem?_append_left (by omega)]
    simp
  | r :: a, h, j + 1, i, hi => by
    have hr := h r (by simp)
    rw [List.flatten_cons, List.getElem?_append_right (by rw [hr]; nlinarith), hr,
      show (j + 1) * b + i - b = j * b + i by rw [Nat.succ_mul]; omega,
      flatten_block a (fun r hr => h r (by simp [hr])) j i hi]
    simp

theorem at2_uniform {b : Nat} (a : List (List ℝ)) (h : ∀ r ∈ a, r.length = b) (j i : Nat) (hi : i < b) :
    at2 a j i = (a[j]?).bind (·[i]?) := by
  unfold at2
  by_cases hj : j < a.length
  · rw [if_pos hj]
    have hw : (a.headD []).length = b := by
      cases a with
      | nil => simp at hj
      | cons r a => exact h r (by simp)
    rw [hw, flatten_block a h j i hi]
  · rw [if_neg hj, List.getElem?_eq_none (by omega)]
    rfl

theorem map_getD_range (d : List ℝ) (n k : Nat) (h : k + n ≤ d.length) :
    (List.range n).map (fun i => d.getD (k + i) 0) = (d.drop k).take n := by
  apply List.ext_getElem?
  intro i
  rw [List.getElem?_map, List.getElem?_take, List.getElem?_drop]
  by_cases hi : i < n
  · rw [List.getElem?_range hi, if_pos hi]
    simp only [Option.map_some]
    rw [List.getD_eq_getElem?_getD, List.getElem?_eq_getElem (by omega)]
    rfl
  · rw [if_neg hi, List.getElem?_eq_none (by simpa using hi)]
    rfl

theorem flatten_rows (b : Nat) : ∀ (a : Nat) (d : List ℝ), d.length = a * b →
    ((List.range a).map fun j => (d.drop (j * b)).take b).flatten = d
  | 0, d, h => by
    rw [Nat.zero_mul] at h
    rw [List.length_eq_zero_iff.mp h]; rfl
  | a + 1, d, h => by
    rw [List.range_succ_eq_map, List.map_cons, List.flatten_cons, List.map_map]
    have h' : (d.drop b).length = a * b := by rw [List.length_drop, h]; rw [Nat.add_mul]; omega
    have e : ((fun j => (d.drop (j * b)).take b) ∘ Nat.succ) = fun j => ((d.drop b).drop (j * b)).take b := by
      funext j
      simp only [Function.comp, List.drop_drop, Nat.succ_eq_add_one]
      rw [show (j + 1) * b = b + j * b by ring]
    rw [e, flatten_rows b a (d.drop b) h', Nat.zero_mul, List.drop_zero, List.take_append_drop]

/-- Reading the cells of a matrix written from `d` gives `d` back. -/
theorem cells_rowsOf (nr nz : Nat) (d : List ℝ) (h : d.length = nz * nr) : cells nr nz (rowsOf nz nr d) = some d := by
  unfold cells
  have hb : ∀ j, j < nz → j * nr + nr ≤ d.length := by
    intro j hj
    rw [h]
    calc j * nr + nr = (j + 1) * nr := by ring
      _ ≤ nz * nr := Nat.mul_le_mul_right _ hj
  rw [mapM_some (g := fun j => (d.drop (j * nr)).take nr)]
  · rw [Option.map_some, flatten_rows nr nz d h]
  · intro j hj
    rw [List.mem_range] at hj
    rw [mapM_some (g := fun i => d.getD (j * nr + i) 0), map_getD_range d nr (j * nr) (hb j hj)]
    intro i hi
    rw [List.mem_range] at hi
    have := hb j hj
    rw [at2_rowsOf hj hi, List.getD_eq_getElem?_getD, List.getElem?_eq_getElem (by omega)]
    rfl

theorem verified_rowsOf (nr nz : Nat) (d : List ℝ) (hz : 0 < nz) (h : d.length = nz * nr) :
    verified nr (rowsOf nz nr d) (some (d.take nr)) = some true := by
  have hn : nr ≤ d.length := by rw [h]; exact Nat.le_mul_of_pos_left nr hz
  have hl : (d.take nr).length = nr := by rw [List.length_take]; omega
  unfold verified
  simp only [hl, lt_irrefl, if_false]
  rw [mapM_some (g := fun i => d.getD (0 + i) 0)]
  · rw [map_getD_range d nr 0 (by omega), List.drop_zero]
    simp
  · intro i hi
    rw [List.mem_range] at hi
    rw [at2_rowsOf hz hi, List.getD_eq_getElem?_getD, Nat.zero_mul, List.getElem?_eq_getElem (by omega)]
    rfl

theorem contour_rowsOf (c : List Pt) :
    contour (some (2, c.length, rowsOf 2 c.length (c.map Pt.r ++ c.map Pt.z))) = some (some c) := by
  unfold contour
  simp only [if_true]
  rw [mapM_some (g := fun i => c.getD i ⟨0, 0⟩)]
  · simp only [Option.map_some]
    congr 2
    apply List.ext_getElem?
    intro i
    rw [List.getElem?_map]
    by_cases hi : i < c.length
    · rw [List.getElem?_range hi]
      simp only [Option.map_some]
      rw [List.getD_eq_getElem?_getD, List.getElem?_eq_getElem hi]
      rfl
    · rw [List.getElem?_eq_none (by simpa using hi), List.getElem?_eq_none (by omega)]
      rfl
  · intro i hi
    rw [List.mem_range] at hi
    rw [at2_rowsOf (by norm_num) hi, at2_rowsOf (by norm_num) hi, List.getElem?_append_left (by simpa using hi),
      List.getElem?_append_right (by simp), List.getElem?_map, List.getElem?_map]
    simp only [List.length_map, Nat.zero_mul, Nat.zero_add, Nat.one_mul, Nat.add_sub_cancel_left]
    rw [List.getElem?_eq_getElem hi, List.getD_eq_getElem?_getD, List.getElem?_eq_getElem hi]
    rfl

/-- The arrays have the sizes of the grid. -/
def Sized (f : NField) : Prop :=
  f.Br.length = f.Z.length * f.R.length ∧ f.Bphi.length = f.Z.length * f.R.length ∧ f.Bz.length = f.Z.length * f.R.length ∧
    ∀ p, f.Psi = some p → p.length = f.Z.length * f.R.length

/-- A contour as it comes back from a file: nothing if it has no points. -/
def nonEmpty (c : List Pt) : Option (List Pt) := if c.length > 0 then some c else none

theorem nonEmpty_getD (c : List Pt) : (nonEmpty c).getD [] = c := by
  unfold nonEmpty
  cases c <;> simp

theorem constructed_radius (f : NField) (hf : Constructed f) :
    findMaxRadius f.axis (radiusDom f.sep f.wall) = .ok f.maxradius f.minradius ∧ f.dom = domainOf f.sep f.wall ∧
      f.separatrix = f.sep.getD [] := by
  obtain ⟨name, desc, R, Z, Br, Bphi, Bz, Psi, axis, sep, wall, h⟩ := hf
  unfold nInit at h
  split at h
  · cases h
  · unfold finish at h
    cases hm : findMaxRadius axis (radiusDom sep wall) with
    | ub => rw [hm] at h; cases h
    | notInside => rw [hm] at h; cases h
    | ok mx mn =>
      rw [hm] at h
      simp only [Res.ok.injEq] at h
      subst h
      exact ⟨hm, rfl, rfl⟩

theorem dump_wall (f : NField) (psi : List ℝ) : contour (FData.doubles (f.dump psi) "wall") = some (nonEmpty (f.wall.getD [])) := by
  unfold NField.dump FData.doubles FData.get nonEmpty
  simp only
  generalize f.wall.getD [] = w
  generalize f.sep.getD [] = s
  by_cases hw : w.length > 0
  · by_cases hs : s.length > 0
    · simp [hw, hs, contour_rowsOf]
    · simp [hw, hs, contour_rowsOf]
  · by_cases hs : s.length > 0
    · simp [hw, hs, contour]
    · simp [hw, hs, contour]

theorem dump_sep (f : NField) (psi : List ℝ) : contour (FData.doubles (f.dump psi) "separatrix") = some (nonEmpty (f.sep.getD [])) := by
  unfold NField.dump FData.doubles FData.get nonEmpty
  simp only
  generalize f.wall.getD [] = w
  generalize f.sep.getD [] = s
  by_cases hs : s.length > 0
  · simp [hs, contour_rowsOf]
  · by_cases hw : w.length > 0
    · simp [hw, hs, contour]
    · simp [hw, hs, contour]

theorem orThrow_some {α β : Type} (a : α) (k : α → Res β) : orThrow (some a) k = k a := rfl

theorem orUB_some {α β : Type} (a : α) (k : α → Res β) : orUB (some a) k = k a := rfl

theorem guardThrow_true {β : Type} (k : Res β) : guardThrow true k = k := rfl

/-- C53: saving a constructed field that has a flux to an HDF5 or MAT file and loading the file gives
the same name, description, grid, components, flux, axis, separatrix and wall, for every grid size. -/
theorem C53_roundtrip_partial (f : NField) (hf : Constructed f) (hs : Sized f) (hz : f.Z ≠ []) (p : List ℝ) (hp : f.Psi = some p) :
    ∃ file g, f.save .hdf5 = .ok file ∧ nLoad file = .ok g ∧ g.name = f.name ∧ g.desc = f.desc ∧ g.R = f.R ∧ g.Z = f.Z ∧
      g.Br = f.Br ∧ g.Bphi = f.Bphi ∧ g.Bz = f.Bz ∧ g.Psi = f.Psi ∧ g.axis = f.axis ∧ g.sep.getD [] = f.sep.getD [] ∧
      g.wall.getD [] = f.wall.getD [] ∧ g.maxradius = f.maxradius ∧ g.minradius = f.minradius ∧ g.separatrix = f.separatrix ∧
      (f.wall ≠ some [] → g.dom = f.dom) := by
  obtain ⟨hrad, hdom, hsepx⟩ := constructed_radius f hf
  obtain ⟨s1, s2, s3, s4⟩ := hs
  have s4 := s4 p hp
  have hz' : 0 < f.Z.length := List.length_pos_iff.mpr hz
  have hle : ∀ d : List ℝ, d.length = f.Z.length * f.R.length → ¬ d.length < f.R.length := by
    intro d hd
    rw [hd, not_lt]
    exact Nat.le_mul_of_pos_left _ hz'
  have hrd : radiusDom (nonEmpty (f.sep.getD [])) (nonEmpty (f.wall.getD [])) = radiusDom f.sep f.wall := by
    unfold radiusDom
    rw [nonEmpty_getD, nonEmpty_getD]
  have hne : ¬ ((nonEmpty (f.wall.getD [])).isNone ∧ (nonEmpty (f.sep.getD [])).isNone) := by
    rintro ⟨a, b⟩
    have a' : f.wall.getD [] = [] := by
      rw [← nonEmpty_getD (f.wall.getD []), Option.isNone_iff_eq_none.mp a]; rfl
    have b' : f.sep.getD [] = [] := by
      rw [← nonEmpty_getD (f.sep.getD []), Option.isNone_iff_eq_none.mp b]; rfl
    have : radiusDom f.sep f.wall = [] := by unfold radiusDom; rw [a', b']; rfl
    rw [this] at hrad
    cases hrad
  have hsave : f.save .hdf5 = .ok (f.dump p) := by
    simp only [NField.save, hp]
    rw [if_neg (by rintro (h | h | h); exacts [hle _ s1 h, hle _ s2 h, hle _ s3 h])]
  refine ⟨f.dump p, ⟨f.name, f.desc, f.R, f.Z, f.Br, f.Bphi, f.Bz, f.Psi, f.axis, nonEmpty (f.sep.getD []), nonEmpty (f.wall.getD []),
    domainOf (nonEmpty (f.sep.getD [])) (nonEmpty (f.wall.getD [])), f.maxradius, f.minradius, f.sep.getD []⟩, hsave, ?_, rfl, rfl, rfl, rfl,
    rfl, rfl, rfl, rfl, rfl, nonEmpty_getD _, nonEmpty_getD _, rfl, rfl, hsepx.symm, ?_⟩
  · have e1 : FData.string (f.dump p) "name" = some f.name := by simp [NField.dump, FData.string, FData.get]
    have e2 : FData.string (f.dump p) "desc" = some f.desc := by simp [NField.dump, FData.string, FData.get]
    have e3 : FData.list (f.dump p) "maxis" = some [f.axis.r, f.axis.z] := by simp [NField.dump, FData.list, FData.get]
    have e4 : FData.list (f.dump p) "r" = some f.R := by simp [NField.dump, FData.list, FData.get]
    have e5 : FData.list (f.dump p) "z" = some f.Z := by simp [NField.dump, FData.list, FData.get]
    have e6 : FData.doubles (f.dump p) "Br" = some (f.Z.length, f.R.length, rowsOf f.Z.length f.R.length f.Br) := by simp [NField.dump, FData.doubles, FData.get]
    have e7 : FData.doubles (f.dump p) "Bphi" = some (f.Z.length, f.R.length, rowsOf f.Z.length f.R.length f.Bphi) := by simp [NField.dump, FData.doubles, FData.get]
    have e8 : FData.doubles (f.dump p) "Bz" = some (f.Z.length, f.R.length, rowsOf f.Z.length f.R.length f.Bz) := by simp [NField.dump, FData.doubles, FData.get]
    have e9 : FData.doubles (f.dump p) "Psi" = some (f.Z.length, f.R.length, rowsOf f.Z.length f.R.length p) := by simp [NField.dump, FData.doubles, FData.get]
    have e10 : FData.list (f.dump p) "verBr" = some (f.Br.take f.R.length) := by simp [NField.dump, FData.list, FData.get]
    have e11 : FData.list (f.dump p) "verBphi" = some (f.Bphi.take f.R.length) := by simp [NField.dump, FData.list, FData.get]
    have e12 : FData.list (f.dump p) "verBz" = some (f.Bz.take f.R.length) := by simp [NField.dump, FData.list, FData.get]
    have ho : ∀ d, orient f.Z.length (f.Z.length, f.R.length, rowsOf f.Z.length f.R.length d) = some (rowsOf f.Z.length f.R.length d) := by
      intro d; simp [orient]
    rw [nLoad, e1, orThrow_some, e2, orThrow_some, e3, orThrow_some, show decide ([f.axis.r, f.axis.z].length = 2) = true from rfl,
      guardThrow_true, e4, orThrow_some, e5, orThrow_some, e6, orThrow_some, ho, orUB_some, e7, orThrow_some, ho, orUB_some, e8,
      orThrow_some, ho, orUB_some, e9]
    simp only [ho, Option.map_some]
    rw [orUB_some, e10, verified_rowsOf _ _ _ hz' s1, orUB_some, guardThrow_true, e11, verified_rowsOf _ _ _ hz' s2, orUB_some,
      guardThrow_true, e12, verified_rowsOf _ _ _ hz' s3, orUB_some, guardThrow_true, dump_wall, orUB_some, dump_sep, orUB_some,
      cells_rowsOf _ _ _ s1, orUB_some, cells_rowsOf _ _ _ s2, orUB_some, cells_rowsOf _ _ _ s3, orUB_some]
    simp only [cells_rowsOf _ _ _ s4, Option.map_some]
    rw [orUB_some, if_neg hne, finish, hrd]
    have : (⟨[f.axis.r, f.axis.z].getD 0 0, [f.axis.r, f.axis.z].getD 1 0⟩ : Pt) = f.axis := rfl
    rw [this, hrad, hp, nonEmpty_getD]
  · intro hw
    rw [hdom]
    cases hfw : f.wall with
    | none =>
      show (nonEmpty (f.sep.getD [])).getD [] = f.sep.getD []
      exact nonEmpty_getD _
    | some w =>
      have : w ≠ [] := fun h => hw (by rw [hfw, h])
      have : w.length > 0 := List.length_pos_iff.mpr this
      simp [domainOf, nonEmpty, this]

/-- A field without flux cannot be saved: the null pointer is used as data. -/
theorem C53_refuted_noflux (f : NField) (h : f.Psi = none) : f.save .hdf5 = .ub := by
  simp only [NField.save, h]

/-- No field can be saved in the SDT format. -/
theorem C53_refuted_sdt (f : NField) : f.save .sdt = .throws := rfl

/-- Files written by other programs may store a contour by columns; a contour of two points is then
taken for one stored by rows: (1, 2), (3, 4) becomes (1, 3), (2, 4). -/
theorem C53_two_point_columns : contour (FData.doubles [("wall", .arr [2, 2] [1, 2, 3, 4])] "wall") = some (some [⟨1, 3⟩, ⟨2, 4⟩]) := by
  simp [contour, FData.doubles, FData.get, rowsOf, at2, List.range_succ, Pt.ext_iff]

/-- With any other number of points a contour stored by columns is read as meant. -/
theorem C53_columns (c : List Pt) (h : c.length ≠ 2) :
    contour (some (c.length, 2, c.map fun p => [p.r, p.z])) = some (some c) := by
  unfold contour
  simp only [if_neg h]
  rw [mapM_some (g := fun i => c.getD i ⟨0, 0⟩)]
  · simp only [Option.map_some]
    congr 2
    apply List.ext_getElem?
    intro i
    rw [List.getElem?_map]
    by_cases hi : i < c.length
    · rw [List.getElem?_range hi]
      simp only [Option.map_some]
      rw [List.getD_eq_getElem?_getD, List.getElem?_eq_getElem hi]
      rfl
    · rw [List.getElem?_eq_none (by simpa using hi), List.getElem?_eq_none (by omega)]
      rfl
  · intro i hi
    rw [List.mem_range] at hi
    rw [at2_uniform (b := 2) _ (by simp) i 0 (by omega), at2_uniform (b := 2) _ (by simp) i 1 (by omega)]
    simp only [List.getElem?_map, List.getElem?_eq_getElem hi, List.getD_eq_getElem?_getD]
    rfl

/-- The square field with a flux is covered. -/
example : ∃ f p, Constructed f ∧ Sized f ∧ f.Z ≠ [] ∧ f.Psi = some p :=
  ⟨_, [1, 2, 3, 4], ⟨_, _, _, _, _, _, _, _, _, _, _, square_constructed (some [1, 2, 3, 4]) none (some squareWall) rfl (.inr rfl)⟩,
    ⟨rfl, rfl, rfl, fun p h => by cases h; rfl⟩, by simp, rfl⟩

end

end Softlib
