/-
C48, directions of the analytical field; C53, C54: transposed matrices and the contours that a
numeric field uses.
-/
import Verif.Magnetic.NumericFileProps

namespace Softlib

open Softlib.Magnetic

noncomputable section

/-- The sign that the documentation gives to a direction: counter-clockwise is positive. -/
def directionSign (s : FieldSign) : ℝ := if s = .ccw then 1 else -1

/-- **C48** The cylindrical components of the field, at every point off the axis of the torus: the
toroidal one is the strength on the axis scaled by the distance, counted positive for a
counter-clockwise field; the radial and the vertical one turn around the magnetic axis with the
direction of the current, with the safety factor as ratio. -/
theorem C48_components (b0 rm zm rminor : ℝ) (sB sI : FieldSign) (q : QProfile) (x y z : ℝ) (hR : hyp x y ≠ 0)
    (hrm : rm ≠ 0) (hq : safety q rminor (hyp (rm - hyp x y) (z - zm)) ≠ 0) :
    ∀ B, B = (mkAField b0 rm zm rminor sB sI q).eval x y z →
      x * B.2.1 - y * B.1 = directionSign sB * b0 * rm ∧
      (x * B.1 + y * B.2.1) * safety q rminor (hyp (rm - hyp x y) (z - zm)) = directionSign sI * b0 * (z - zm) ∧
      B.2.2 * hyp x y * safety q rminor (hyp (rm - hyp x y) (z - zm)) = directionSign sI * b0 * (rm - hyp x y) := by
  rintro B rfl
  have hs := hyp_mul_self x y
  have hval : ∀ s : FieldSign, s.val = directionSign s := by intro s; cases s <;> simp [FieldSign.val, directionSign]
  simp only [AField.eval, mkAField, hval]
  generalize directionSign sB = σB
  generalize directionSign sI = σI
  have hr := hyp_mul_self (rm - hyp x y) (z - zm)
  generalize hyp x y = R at *
  generalize hyp (rm - R) (z - zm) = r at *
  generalize safety q rminor r = Q at *
  have hs2 : R ^ 2 = x ^ 2 + y ^ 2 := by rw [pow_two]; exact hs
  by_cases h0 : r = 0
  · subst h0
    have h1 : rm - R = 0 := by nlinarith [sq_nonneg (rm - R), sq_nonneg (z - zm)]
    have h2 : z - zm = 0 := by nlinarith [sq_nonneg (rm - R), sq_nonneg (z - zm)]
    simp only [ne_eq, not_true_eq_false, if_false, h1, h2]
    refine ⟨?_, by field_simp; ring, by simp⟩
    field_simp
    linear_combination (-(Q * σB * b0 * rm)) * hs2
  · simp only [ne_eq, h0, not_false_eq_true, if_true]
    refine ⟨?_, ?_, ?_⟩
    · field_simp
      linear_combination (-(Q * σB * b0 * rm)) * hs2
    · field_simp
      linear_combination (-(σI * b0 * (z - zm))) * hs2
    · field_simp

/-- Reversing a direction reverses its components. -/
theorem C48_reversed (b0 rm zm rminor : ℝ) (q : QProfile) (x y z : ℝ) :
    (mkAField b0 rm zm rminor .cw .cw q).eval x y z = -((mkAField b0 rm zm rminor .ccw .ccw q).eval x y z) := by
  simp only [AField.eval, mkAField, FieldSign.val]
  refine Prod.ext ?_ (Prod.ext ?_ ?_)
  · simp only [Prod.fst_neg]; ring
  · simp only [Prod.fst_neg, Prod.snd_neg]; ring
  · simp only [Prod.snd_neg]; ring

example : hyp 2 0 ≠ 0 ∧ safety (.constant 1) 1 (hyp (1 - hyp 2 0) (0 - 0)) ≠ 0 := by
  constructor
  · unfold hyp
    simp
  · simp [safety]

/-! ### C53 -/

/-- **C53** A component stored by columns of the grid in radius (`nr` rows of `nz` values) is turned
before it is used: the value at radius `i` and height `j` is entry `j` of row `i` of the file. -/
theorem C53_transposed (file : FData) (name : String) (nr nz : Nat) (hne : nr ≠ nz) (data : List ℝ)
    (hlen : data.length = nr * nz) (hf : file.get name = some (.arr [nr, nz] data)) :
    ∃ m rows d, file.doubles name = some m ∧ orient nz m = some rows ∧ cells nr nz rows = some d ∧ d.length = nz * nr ∧
      ∀ i j, i < nr → j < nz → d[j * nr + i]? = data[i * nz + j]? := by
  have hin : ∀ i j, i < nr → j < nz → i * nz + j < data.length := by
    intro i j hi hj
    rw [hlen]
    calc i * nz + j < i * nz + nz := by omega
      _ = (i + 1) * nz := by ring
      _ ≤ nr * nz := Nat.mul_le_mul_right _ hi
  let v : Nat → Nat → ℝ := fun i j => data.getD (i * nz + j) 0
  have hat : ∀ i j, i < nr → j < nz → at2 (rowsOf nr nz data) i j = some (v i j) := by
    intro i j hi hj
    rw [at2_rowsOf hi hj, List.getElem?_eq_getElem (hin i j hi hj)]
    simp only [v]
    rw [List.getD_eq_getElem?_getD, List.getElem?_eq_getElem (hin i j hi hj)]
    rfl
  have htr : transposeM (rowsOf nr nz data) nr nz = some ((List.range nz).map fun j => (List.range nr).map fun i => v i j) := by
    unfold transposeM
    refine mapM_some ?_
    intro j hj
    rw [List.mem_range] at hj
    refine mapM_some ?_
    intro i hi
    rw [List.mem_range] at hi
    exact hat i j hi hj
  have hcell : cells nr nz ((List.range nz).map fun j => (List.range nr).map fun i => v i j) =
      some (((List.range nz).map fun j => (List.range nr).map fun i => v i j).flatten) := by
    unfold cells
    rw [mapM_some (g := fun j => (List.range nr).map fun i => v i j)]
    · rfl
    · intro j hj
      rw [List.mem_range] at hj
      refine mapM_some ?_
      intro i hi
      rw [List.mem_range] at hi
      rw [at2_uniform (b := nr) _ (by simp) j i hi]
      simp only [List.getElem?_map, List.getElem?_range hj, List.getElem?_range hi, Option.map_some, Option.bind_some]
  refine ⟨(nr, nz, rowsOf nr nz data), _, _, ?_, ?_, hcell, ?_, ?_⟩
  · simp only [FData.doubles, hf]
  · simp only [orient]
    rw [if_pos hne, htr]
  · simp [List.length_flatten, Function.comp_def]
  · intro i j hi hj
    rw [List.getElem?_eq_getElem (hin i j hi hj)]
    have key : ∀ n k : Nat, j + k < n + k →
        (((List.range' k n).map fun j => (List.range nr).map fun i => v i j).flatten)[j * nr + i]? = some (v i (j + k)) := by
      clear hj
      induction j with
      | zero =>
        intro n k hn
        obtain ⟨n, rfl⟩ : ∃ m, n = m + 1 := ⟨n - 1, by omega⟩
        rw [List.range'_succ, List.map_cons, List.flatten_cons, List.getElem?_append_left (by simp; omega)]
        simp only [Nat.zero_mul, Nat.zero_add, List.getElem?_map, List.getElem?_range hi, Option.map_some]
      | succ j ih =>
        intro n k hn
        obtain ⟨n, rfl⟩ : ∃ m, n = m + 1 := ⟨n - 1, by omega⟩
        rw [List.range'_succ, List.map_cons, List.flatten_cons, List.getElem?_append_right (by simp; nlinarith)]
        simp only [List.length_map, List.length_range]
        rw [show (j + 1) * nr + i - nr = j * nr + i by rw [Nat.succ_mul]; omega, ih n (k + 1) (by omega)]
        congr 2
        omega
    rw [List.range_eq_range' (n := nz), key nz 0 (by omega)]
    simp only [v, Nat.add_zero]
    rw [List.getD_eq_getElem?_getD, List.getElem?_eq_getElem (hin i j hi hj)]
    rfl

/-- A component stored by rows is used as it is; on a square grid, where the two layouts have the same
dimensions, a component stored by columns is therefore read with radius and height interchanged. -/
theorem C53_rows (file : FData) (name : String) (nr nz : Nat) (data : List ℝ) (hlen : data.length = nz * nr)
    (hf : file.get name = some (.arr [nz, nr] data)) :
    ∃ m rows, file.doubles name = some m ∧ orient nz m = some rows ∧ cells nr nz rows = some data := by
  refine ⟨(nz, nr, rowsOf nz nr data), rowsOf nz nr data, ?_, ?_, ?_⟩
  · simp only [FData.doubles, hf]
  · simp [orient]
  · exact cells_rowsOf _ _ _ hlen

example : FData.get [("Br", .arr [3, 2] [1, 2, 3, 4, 5, 6])] "Br" = some (.arr [3, 2] [1, 2, 3, 4, 5, 6]) := rfl

/-! ### C54 -/

/-- **C54** The contours of a constructed field: it is inside the wall if it has one, otherwise inside
the separatrix; its radii are the ones of the separatrix if that has points, otherwise of the wall; and
one of the two contours was given. -/
theorem C54_contours (f : NField) (hf : Constructed f) :
    (∀ w, f.wall = some w → f.dom = w) ∧ (∀ s, f.wall = none → f.sep = some s → f.dom = s) ∧
    (∀ s, f.sep = some s → s ≠ [] → findMaxRadius f.axis s = .ok f.maxradius f.minradius) ∧
    (∀ w, f.sep = none ∨ f.sep = some [] → f.wall = some w → findMaxRadius f.axis w = .ok f.maxradius f.minradius) ∧
    (∀ s, f.sep = some s → f.separatrix = s) ∧ (f.sep = none → f.separatrix = []) := by
  obtain ⟨h1, h2, h3⟩ := constructed_radius f hf
  refine ⟨?_, ?_, ?_, ?_, ?_, ?_⟩
  · intro w hw; rw [h2, hw]; rfl
  · intro s hw hs; rw [h2, hw, hs]; rfl
  · intro s hs hne
    rw [hs] at h1
    have : radiusDom (some s) f.wall = s := by
      unfold radiusDom
      simp only [Option.getD_some]
      rw [if_pos (List.length_pos_iff.mpr hne)]
    rw [← h1, this]
  · intro w hs hw
    rw [hw] at h1
    have : radiusDom f.sep (some w) = w := by
      rcases hs with hs | hs <;> simp [radiusDom, hs]
    rw [← h1, this]
  · intro s hs; rw [h3, hs]; rfl
  · intro hs; rw [h3, hs]; rfl

/-- Without any contour no field is made. -/
theorem C54_no_contour (name desc : String) (R Z Br Bphi Bz : List ℝ) (Psi : Option (List ℝ)) (axis : Pt) :
    nInit name desc R Z Br Bphi Bz Psi axis none none = .throws := rfl

/-- The members of a constructed field are the arguments. -/
theorem C54_members (name desc : String) (R Z Br Bphi Bz : List ℝ) (Psi : Option (List ℝ)) (axis : Pt)
    (sep wall : Option (List Pt)) (f : NField) (h : nInit name desc R Z Br Bphi Bz Psi axis sep wall = .ok f) :
    f.name = name ∧ f.desc = desc ∧ f.R = R ∧ f.Z = Z ∧ f.Br = Br ∧ f.Bphi = Bphi ∧ f.Bz = Bz ∧ f.Psi = Psi ∧ f.axis = axis ∧
      f.sep = sep ∧ f.wall = wall ∧ (sep.isSome = true ∨ wall.isSome = true) := by
  unfold nInit at h
  split at h
  · cases h
  · rename_i hn
    unfold finish at h
    split at h
    · cases h
    · cases h
    · simp only [Res.ok.injEq] at h
      subst h
      refine ⟨rfl, rfl, rfl, rfl, rfl, rfl, rfl, rfl, rfl, rfl, rfl, ?_⟩
      cases sep <;> cases wall <;> simp_all

/-- Both kinds of field are constructed. -/
example : (∃ f, Constructed f ∧ f.wall = some squareWall ∧ f.sep = none) ∧ ∃ f, Constructed f ∧ f.wall = none ∧ f.sep = some squareWall :=
  ⟨⟨_, ⟨_, _, _, _, _, _, _, _, _, _, _, square_constructed none none (some squareWall) rfl (.inr rfl)⟩, rfl, rfl⟩,
   ⟨_, ⟨_, _, _, _, _, _, _, _, _, _, _, square_constructed none (some squareWall) none rfl (.inl rfl)⟩, rfl, rfl⟩⟩

end

end Softlib
