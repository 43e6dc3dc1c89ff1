/-
C100: files of numeric fields whose arrays do not fit the grid.

Source: /repo/src/MagneticField/MagneticFieldNumeric2D.cpp 488-735 (`Load`, `Transpose`);
/repo/src/SFile/SFile_HDF5.cpp 195-226 (the matrices are rows of one block).
-/
import Verif.Magnetic.LukeProps

namespace Softlib

open Magnetic

noncomputable section

/-! ### Reading a component -/

/-- What becomes of the matrix of a component or of the flux: turned if necessary, and read cell by
cell.  `none` is a read outside of memory. -/
def component (nr nz : Nat) (m : Nat × Nat × List (List ℝ)) : Option (List ℝ) :=
  (orient nz m).bind (cells nr nz)

theorem mapM_isSome {α β : Type} (f : α → Option β) : ∀ (l : List α),
    (l.mapM f).isSome = true ↔ ∀ a ∈ l, (f a).isSome = true
  | [] => by simp
  | a :: l => by
    rw [List.mapM_cons]
    have ih := mapM_isSome f l
    cases h : f a with
    | none => simp [h]
    | some b =>
      cases h2 : l.mapM f with
      | none =>
        rw [h2] at ih
        simp only [Option.bind_eq_bind, Option.bind_some, Option.bind_none, List.mem_cons, forall_eq_or_imp, h, Option.isSome_some, true_and]
        exact ih
      | some c =>
        rw [h2] at ih
        simp only [Option.bind_eq_bind, Option.bind_some, List.mem_cons, forall_eq_or_imp, h, Option.isSome_some, true_and]
        exact ⟨fun _ => ih.1 rfl, fun _ => rfl⟩

theorem flatten_grid (nx : Nat) (g : Nat → Nat → ℝ) : ∀ ny : Nat,
    ((List.range ny).map fun j => (List.range nx).map fun i => g j i).flatten =
      (List.range (ny * nx)).map fun k : Nat => g (k / nx) (k % nx)
  | 0 => by simp
  | n + 1 => by
    rw [List.range_succ, List.map_append, List.flatten_append, flatten_grid nx g n, Nat.succ_mul, List.range_add, List.map_append]
    congr 1
    simp only [List.map_cons, List.map_nil, List.flatten_cons, List.flatten_nil, List.append_nil, List.map_map]
    apply List.map_congr_left
    intro a ha
    rw [List.mem_range] at ha
    simp only [Function.comp]
    rw [Nat.mul_comm n nx, Nat.mul_add_div (by omega), Nat.div_eq_of_lt ha, Nat.mul_add_mod, Nat.mod_eq_of_lt ha, Nat.add_zero]

/-- When the cells of a matrix can all be read, and what is read: position j * width + i of the block. -/
theorem cells_spec (nr nz W : Nat) (rows : List (List ℝ)) (hr : 0 < nr) (hz : 0 < nz) (hw : (rows.headD []).length = W) :
    ((cells nr nz rows).isSome = true ↔ nz ≤ rows.length ∧ (nz - 1) * W + nr ≤ rows.flatten.length) ∧
    ∀ out, cells nr nz rows = some out → out.length = nz * nr ∧
      ∀ j i, j < nz → i < nr → out[j * nr + i]? = rows.flatten[j * W + i]? := by
  have hle : ∀ j i, j < nz → i < nr → (nz - 1) * W + nr ≤ rows.flatten.length → j * W + i < rows.flatten.length := by
    intro j i hj hi h
    have : j * W ≤ (nz - 1) * W := Nat.mul_le_mul_right _ (by omega)
    omega
  have hiff : (cells nr nz rows).isSome = true ↔ nz ≤ rows.length ∧ (nz - 1) * W + nr ≤ rows.flatten.length := by
    unfold cells
    rw [Option.isSome_map, mapM_isSome]
    constructor
    · intro h
      have h1 := (mapM_isSome _ _).1 (h (nz - 1) (List.mem_range.2 (by omega))) (nr - 1) (List.mem_range.2 (by omega))
      unfold at2 at h1
      rw [hw] at h1
      by_cases hj : nz - 1 < rows.length
      · rw [if_pos hj] at h1
        have := (List.getElem?_eq_some_iff.1 (Option.isSome_iff_exists.1 h1).choose_spec).1
        omega
      · rw [if_neg hj] at h1; cases h1
    · rintro ⟨h1, h2⟩ j hj
      rw [mapM_isSome]
      intro i hi
      rw [List.mem_range] at hi hj
      unfold at2
      rw [hw, if_pos (by omega), List.getElem?_eq_getElem (hle j i hj hi h2)]
      rfl
  refine ⟨hiff, ?_⟩
  intro out hout
  obtain ⟨h1, h2⟩ := hiff.1 (by rw [hout]; rfl)
  obtain ⟨l, hl, hlen, hg⟩ := grid_values nr nz (fun j i => at2 rows j i) (fun j i => rows.flatten.getD (j * W + i) 0) (by
    intro j i hj hi
    unfold at2
    rw [hw, if_pos (by omega), List.getD_eq_getElem?_getD, List.getElem?_eq_getElem (hle j i hj hi h2)]
    rfl)
  unfold cells at hout
  rw [hl] at hout
  cases hout
  refine ⟨hlen, ?_⟩
  intro j i hj hi
  rw [Nat.add_comm (j * nr) i, hg j i hj hi, List.getD_eq_getElem?_getD, List.getElem?_eq_getElem (hle j i hj hi h2)]
  rfl

/-- The matrices of shape (a, b) whose cells can be read on a grid of `nr` radii and `nz` heights. -/
def Fits (nr nz a b : Nat) : Prop :=
  (a = nz ∧ nr ≤ b) ∨ (a ≠ nz ∧ nz ≤ b ∧ (nz - 1) * a + nr ≤ a * b)

/-- The entry of the matrix that is used at radius `i` and height `j`. -/
def usedEntry (nz a b j i : Nat) : Nat :=
  if a = nz then j * b + i else ((j * a + i) % a) * b + (j * a + i) / a

theorem C100_component (nr nz a b : Nat) (d : List ℝ) (hr : 0 < nr) (hz : 0 < nz) (hl : d.length = a * b) :
    ((component nr nz (a, b, rowsOf a b d)).isSome = true ↔ Fits nr nz a b) ∧
    ∀ out, component nr nz (a, b, rowsOf a b d) = some out → out.length = nz * nr ∧
      ∀ j i, j < nz → i < nr → out[j * nr + i]? = d[usedEntry nz a b j i]? := by
  unfold component orient
  by_cases ha : a = nz
  · subst ha
    have hw : ((rowsOf a b d).headD []).length = b := by
      obtain ⟨n, rfl⟩ : ∃ m, a = m + 1 := ⟨a - 1, by omega⟩
      have : b ≤ d.length := by rw [hl]; exact Nat.le_mul_of_pos_left b (by omega)
      simp [rowsOf, List.range_succ_eq_map]; omega
    have hf : (rowsOf a b d).flatten = d := by
      rw [flatten_rows_take, ← hl, List.take_length]
    have hs := cells_spec nr a b (rowsOf a b d) hr hz hw
    rw [hf, rowsOf_length] at hs
    simp only [ne_eq, not_true_eq_false, if_false, Option.bind_some]
    refine ⟨hs.1.trans ?_, fun out ho => ?_⟩
    · unfold Fits
      rw [hl]
      have e : (a - 1) * b + b = a * b := by
        obtain ⟨n, rfl⟩ : ∃ m, a = m + 1 := ⟨a - 1, by omega⟩
        simp [Nat.succ_mul]
      constructor
      · rintro ⟨-, h⟩; exact .inl ⟨rfl, by omega⟩
      · rintro (⟨-, h⟩ | ⟨h, -⟩)
        · exact ⟨le_refl _, by omega⟩
        · exact absurd rfl h
    · obtain ⟨h1, h2⟩ := hs.2 out ho
      refine ⟨h1, fun j i hj hi => ?_⟩
      rw [h2 j i hj hi, usedEntry, if_pos rfl]
  · have hin : ∀ i j, i < b → j < a → j * b + i < d.length := by
      intro i j hi hj
      rw [hl]
      calc j * b + i < j * b + b := by omega
        _ = (j + 1) * b := by ring
        _ ≤ a * b := Nat.mul_le_mul_right _ hj
    have ht : transposeM (rowsOf a b d) a b =
        some ((List.range b).map fun i => (List.range a).map fun j => d.getD (j * b + i) 0) := by
      unfold transposeM
      refine mapM_some ?_
      intro i hi
      rw [List.mem_range] at hi
      refine mapM_some ?_
      intro j hj
      rw [List.mem_range] at hj
      rw [at2_rowsOf hj hi, List.getD_eq_getElem?_getD, List.getElem?_eq_getElem (hin i j hi hj)]
      rfl
    simp only [ne_eq, ha, not_false_eq_true, if_true]
    rw [ht]
    simp only [Option.bind_some]
    by_cases hb : b = 0
    · subst hb
      have hnone : cells nr nz ((List.range 0).map fun i => (List.range a).map fun j => d.getD (j * 0 + i) 0) = none := by
        have := (cells_spec nr nz 0 [] hr hz rfl).1
        cases hc : cells nr nz [] with
        | none => simpa using hc
        | some x => rw [hc] at this; have := (this.1 rfl).1; simp at this; omega
      rw [hnone]
      refine ⟨?_, fun out ho => by cases ho⟩
      simp only [Option.isSome_none, Bool.false_eq_true, false_iff]
      rintro (⟨h, -⟩ | ⟨-, h, -⟩)
      · exact ha h
      · omega
    · have hw : ((((List.range b).map fun i => (List.range a).map fun j => d.getD (j * b + i) 0)).headD []).length = a := by
        obtain ⟨n, rfl⟩ : ∃ m, b = m + 1 := ⟨b - 1, by omega⟩
        simp [List.range_succ_eq_map]
      have hs := cells_spec nr nz a _ hr hz hw
      have hf := flatten_grid a (fun i j => d.getD (j * b + i) 0) b
      have hfl : (((List.range b).map fun i => (List.range a).map fun j => d.getD (j * b + i) 0)).flatten.length = a * b := by
        rw [hf]; simp [Nat.mul_comm]
      refine ⟨hs.1.trans ?_, fun out ho => ?_⟩
      · rw [hfl]
        simp only [List.length_map, List.length_range]
        unfold Fits
        constructor
        · rintro ⟨h1, h2⟩; exact .inr ⟨ha, h1, h2⟩
        · rintro (⟨h, -⟩ | ⟨-, h1, h2⟩)
          · exact absurd h ha
          · exact ⟨h1, h2⟩
      · obtain ⟨h1, h2⟩ := hs.2 out ho
        have h3 := hs.1.1 (by rw [ho]; rfl)
        refine ⟨h1, fun j i hj hi => ?_⟩
        have hk : j * a + i < b * a := by
          rw [hfl] at h3
          have : j * a ≤ (nz - 1) * a := Nat.mul_le_mul_right _ (by omega)
          rw [Nat.mul_comm b a]; omega
        have ha0 : 0 < a := by
          rcases Nat.eq_zero_or_pos a with h | h
          · rw [h] at hk; simp at hk
          · exact h
        rw [h2 j i hj hi, usedEntry, if_neg ha, hf, List.getElem?_map, List.getElem?_range hk, Option.map_some]
        have := hin ((j * a + i) / a) ((j * a + i) % a) (Nat.div_lt_of_lt_mul (by rw [Nat.mul_comm a b]; exact hk)) (Nat.mod_lt _ ha0)
        rw [List.getD_eq_getElem?_getD, List.getElem?_eq_getElem this]
        rfl

/-! ### Reading a contour -/

/-- A contour can be read unless it has rows, not two of them, with less than two columns. -/
theorem C100_contour (a b : Nat) (d : List ℝ) (hl : d.length = a * b) :
    contour (some (a, b, rowsOf a b d)) = none ↔ a ≠ 2 ∧ 0 < a ∧ b < 2 := by
  have hsome : ∀ {α : Type} (o : Option α), o = none ↔ ¬ o.isSome = true := by
    intro α o; cases o <;> simp
  have hin : ∀ i j, i < b → j < a → at2 (rowsOf a b d) j i = some (d.getD (j * b + i) 0) := by
    intro i j hi hj
    have : j * b + i < d.length := by
      rw [hl]
      calc j * b + i < j * b + b := by omega
        _ = (j + 1) * b := by ring
        _ ≤ a * b := Nat.mul_le_mul_right _ hj
    rw [at2_rowsOf hj hi, List.getD_eq_getElem?_getD, List.getElem?_eq_getElem this]
    rfl
  unfold contour
  by_cases h2 : a = 2
  · subst h2
    simp only [if_true, ne_eq, not_true_eq_false, false_and, iff_false]
    rw [hsome, not_not, Option.isSome_map, mapM_isSome]
    intro i hi
    rw [List.mem_range] at hi
    rw [hin i 0 hi (by omega), hin i 1 hi (by omega)]
    rfl
  · dsimp only
    rw [if_neg h2]
    simp only [ne_eq, h2, not_false_eq_true, true_and]
    rw [hsome, Option.isSome_map, mapM_isSome]
    by_cases hb : 2 ≤ b
    · constructor
      · intro h
        exfalso
        apply h
        intro i hi
        rw [List.mem_range] at hi
        rw [hin 0 i (by omega) hi, hin 1 i (by omega) hi]
        rfl
      · omega
    · constructor
      · intro h
        refine ⟨?_, by omega⟩
        rcases Nat.eq_zero_or_pos a with h0 | h0
        · exfalso; apply h; subst h0; simp
        · exact h0
      · rintro ⟨h0, -⟩ h
        have hlast := h (a - 1) (List.mem_range.2 (by omega))
        have hn : at2 (rowsOf a b d) (a - 1) 1 = none := by
          have hw : ((rowsOf a b d).headD []).length = b := by
            obtain ⟨n, rfl⟩ : ∃ m, a = m + 1 := ⟨a - 1, by omega⟩
            have : b ≤ d.length := by rw [hl]; exact Nat.le_mul_of_pos_left b (by omega)
            simp [rowsOf, List.range_succ_eq_map]; omega
          unfold at2
          rw [rowsOf_length, if_pos (by omega), hw, flatten_rows_take, ← hl, List.take_length]
          apply List.getElem?_eq_none
          rw [hl]
          have e : (a - 1) * b + b = a * b := by
            obtain ⟨n, rfl⟩ : ∃ m, a = m + 1 := ⟨a - 1, by omega⟩
            simp [Nat.succ_mul]
          omega
        rw [hn] at hlast
        cases hx : at2 (rowsOf a b d) (a - 1) 0 <;> rw [hx] at hlast <;> simp at hlast

/-! ### Loading -/

theorem orUB_none {α β : Type} (k : α → Res β) : orUB none k = .ub := rfl

theorem orient_sized (nz a b : Nat) (d : List ℝ) (hl : d.length = a * b) :
    ∃ rows, orient nz (a, b, rowsOf a b d) = some rows := by
  unfold orient
  by_cases ha : a = nz
  · exact ⟨_, by simp [ha]; rfl⟩
  · simp only [ne_eq, ha, not_false_eq_true, if_true]
    refine ⟨_, mapM_some (g := fun i => (List.range a).map fun j => d.getD (j * b + i) 0) ?_⟩
    intro i hi
    rw [List.mem_range] at hi
    refine mapM_some ?_
    intro j hj
    rw [List.mem_range] at hj
    have : j * b + i < d.length := by
      rw [hl]
      calc j * b + i < j * b + b := by omega
        _ = (j + 1) * b := by ring
        _ ≤ a * b := Nat.mul_le_mul_right _ hj
    rw [at2_rowsOf hj hi, List.getD_eq_getElem?_getD, List.getElem?_eq_getElem this]
    rfl

/-- The file stores a matrix of shape (a, b) with these values under this name. -/
def HasMatrix (f : FData) (n : String) (a b : Nat) (d : List ℝ) : Prop :=
  f.get n = some (.arr [a, b] d) ∧ d.length = a * b

theorem HasMatrix.doubles {f : FData} {n : String} {a b : Nat} {d : List ℝ} (h : HasMatrix f n a b d) :
    f.doubles n = some (a, b, rowsOf a b d) := by
  unfold FData.doubles; rw [h.1]

/-- A file with everything `Load` asks for and a wall, without the optional variables; nothing is
said about the shapes. -/
structure FieldFile (f : FData) (name desc : String) (axis : Pt) (R Z : List ℝ) (s : Fin 4 → Nat × Nat) (d : Fin 4 → List ℝ) :
    Prop where
  name : f.get "name" = some (.str name)
  desc : f.get "desc" = some (.str desc)
  maxis : f.get "maxis" = some (.arr [2] [axis.r, axis.z])
  r : f.get "r" = some (.arr [R.length] R)
  z : f.get "z" = some (.arr [Z.length] Z)
  br : HasMatrix f "Br" (s 0).1 (s 0).2 (d 0)
  bphi : HasMatrix f "Bphi" (s 1).1 (s 1).2 (d 1)
  bz : HasMatrix f "Bz" (s 2).1 (s 2).2 (d 2)
  wall : HasMatrix f "wall" (s 3).1 (s 3).2 (d 3)
  psi : f.get "Psi" = none
  verBr : f.get "verBr" = none
  verBphi : f.get "verBphi" = none
  verBz : f.get "verBz" = none
  sep : f.get "separatrix" = none
  rne : R ≠ []
  zne : Z ≠ []

/-- C100, what holds instead.  Loading a file never looks at the shape of a component beyond the
first dimension: it is undefined exactly when a cell needed lies outside the block of a component,
when the last point of the wall does, or when the search for the radii is; and otherwise it gives the
values of `usedEntry`.  Missing: rejection of the other shapes (`C100_refuted_outside`,
`C100_refuted_scrambled`). -/
theorem C100_load_partial (f : FData) (name desc : String) (axis : Pt) (R Z : List ℝ) (s : Fin 4 → Nat × Nat)
    (d : Fin 4 → List ℝ) (h : FieldFile f name desc axis R Z s d) :
    (nLoad f = .ub ↔ ¬ Fits R.length Z.length (s 0).1 (s 0).2 ∨ ¬ Fits R.length Z.length (s 1).1 (s 1).2 ∨
      ¬ Fits R.length Z.length (s 2).1 (s 2).2 ∨ ((s 3).1 ≠ 2 ∧ 0 < (s 3).1 ∧ (s 3).2 < 2) ∨
      ∃ w, contour (f.doubles "wall") = some (some w) ∧ findMaxRadius axis w = .ub) ∧
    (∀ g, nLoad f = .ok g → g.R = R ∧ g.Z = Z ∧
      (g.Br.length = Z.length * R.length ∧ g.Bphi.length = Z.length * R.length ∧ g.Bz.length = Z.length * R.length) ∧
      ∀ j i, j < Z.length → i < R.length →
        g.Br[j * R.length + i]? = (d 0)[usedEntry Z.length (s 0).1 (s 0).2 j i]? ∧
        g.Bphi[j * R.length + i]? = (d 1)[usedEntry Z.length (s 1).1 (s 1).2 j i]? ∧
        g.Bz[j * R.length + i]? = (d 2)[usedEntry Z.length (s 2).1 (s 2).2 j i]?) ∧
    ((∃ g, nLoad f = .ok g) ↔ Fits R.length Z.length (s 0).1 (s 0).2 ∧ Fits R.length Z.length (s 1).1 (s 1).2 ∧
      Fits R.length Z.length (s 2).1 (s 2).2 ∧
      ∃ w mx mn, contour (f.doubles "wall") = some (some w) ∧ findMaxRadius axis w = .ok mx mn) := by
  have hr : 0 < R.length := List.length_pos_iff.mpr h.rne
  have hz : 0 < Z.length := List.length_pos_iff.mpr h.zne
  have e1 : f.string "name" = some name := by unfold FData.string; rw [h.name]
  have e2 : f.string "desc" = some desc := by unfold FData.string; rw [h.desc]
  have e3 : f.list "maxis" = some [axis.r, axis.z] := by unfold FData.list; rw [h.maxis]
  have e4 : f.list "r" = some R := by unfold FData.list; rw [h.r]
  have e5 : f.list "z" = some Z := by unfold FData.list; rw [h.z]
  have e9 : f.doubles "Psi" = none := by unfold FData.doubles; rw [h.psi]
  have e10 : f.list "verBr" = none := by unfold FData.list; rw [h.verBr]
  have e11 : f.list "verBphi" = none := by unfold FData.list; rw [h.verBphi]
  have e12 : f.list "verBz" = none := by unfold FData.list; rw [h.verBz]
  have e13 : f.doubles "separatrix" = none := by unfold FData.doubles; rw [h.sep]
  obtain ⟨r0, o0⟩ := orient_sized Z.length _ _ _ h.br.2
  obtain ⟨r1, o1⟩ := orient_sized Z.length _ _ _ h.bphi.2
  obtain ⟨r2, o2⟩ := orient_sized Z.length _ _ _ h.bz.2
  have c0 := C100_component R.length Z.length _ _ _ hr hz h.br.2
  have c1 := C100_component R.length Z.length _ _ _ hr hz h.bphi.2
  have c2 := C100_component R.length Z.length _ _ _ hr hz h.bz.2
  have c3 := C100_contour _ _ _ h.wall.2
  unfold component at c0 c1 c2
  rw [o0, Option.bind_some] at c0
  rw [o1, Option.bind_some] at c1
  rw [o2, Option.bind_some] at c2
  rw [nLoad, e1, orThrow_some, e2, orThrow_some, e3, orThrow_some, show decide ([axis.r, axis.z].length = 2) = true from rfl,
    guardThrow_true, e4, orThrow_some, e5, orThrow_some, h.br.doubles, orThrow_some, o0, orUB_some, h.bphi.doubles, orThrow_some, o1,
    orUB_some, h.bz.doubles, orThrow_some, o2, orUB_some, e9]
  dsimp only
  rw [orUB_some, e10, e11, e12]
  dsimp only [verified]
  rw [orUB_some, guardThrow_true, orUB_some, guardThrow_true, orUB_some, guardThrow_true, h.wall.doubles, e13]
  have en : contour none = some none := rfl
  rw [en]
  simp only [orUB_some]
  generalize contour (some ((s 3).1, (s 3).2, rowsOf (s 3).1 (s 3).2 (d 3))) = cw at c3 ⊢
  have iff0 : ∀ {p q : Prop} {α : Type} {o : Option α}, (o.isSome = true ↔ p) → o = none → ¬ p := by
    intro p q α o h1 h2 h3
    rw [h2] at h1
    exact absurd (h1.2 h3) (by simp)
  rcases cw with _ | cw
  · refine ⟨⟨fun _ => Or.inr (Or.inr (Or.inr (Or.inl (c3.1 rfl)))), fun _ => rfl⟩, ?_, ?_⟩
    · intro g hg
      cases hg
    · exact ⟨fun ⟨_, hh⟩ => (by cases hh), fun ⟨_, _, _, _, _, _, hh, _⟩ => by cases hh⟩
  have n3 : ¬ ((s 3).1 ≠ 2 ∧ 0 < (s 3).1 ∧ (s 3).2 < 2) := fun hh => by cases c3.2 hh
  rw [orUB_some]
  generalize cells R.length Z.length r0 = k0 at c0 ⊢
  generalize cells R.length Z.length r1 = k1 at c1 ⊢
  generalize cells R.length Z.length r2 = k2 at c2 ⊢
  rcases k0 with _ | k0
  · have := iff0 (q := True) c0.1 rfl
    refine ⟨⟨fun _ => Or.inl this, fun _ => rfl⟩, ?_, ?_⟩
    · intro g hg
      cases hg
    · exact ⟨fun ⟨_, hh⟩ => (by cases hh), fun hh => absurd hh.1 this⟩
  rw [orUB_some]
  rcases k1 with _ | k1
  · have := iff0 (q := True) c1.1 rfl
    refine ⟨⟨fun _ => Or.inr (Or.inl this), fun _ => rfl⟩, ?_, ?_⟩
    · intro g hg
      cases hg
    · exact ⟨fun ⟨_, hh⟩ => (by cases hh), fun hh => absurd hh.2.1 this⟩
  rw [orUB_some]
  rcases k2 with _ | k2
  · have := iff0 (q := True) c2.1 rfl
    refine ⟨⟨fun _ => Or.inr (Or.inr (Or.inl this)), fun _ => rfl⟩, ?_, ?_⟩
    · intro g hg
      cases hg
    · exact ⟨fun ⟨_, hh⟩ => (by cases hh), fun hh => absurd hh.2.2.1 this⟩
  rw [orUB_some]
  have f0 := c0.1.1 rfl
  have f1 := c1.1.1 rfl
  have f2 := c2.1.1 rfl
  have hor : ∀ {P : Prop}, ¬ P → ¬ (¬ Fits R.length Z.length (s 0).1 (s 0).2 ∨ ¬ Fits R.length Z.length (s 1).1 (s 1).2 ∨
      ¬ Fits R.length Z.length (s 2).1 (s 2).2 ∨ ((s 3).1 ≠ 2 ∧ 0 < (s 3).1 ∧ (s 3).2 < 2) ∨ P) := by
    rintro P hP (hh | hh | hh | hh | hh)
    · exact hh f0
    · exact hh f1
    · exact hh f2
    · exact n3 hh
    · exact hP hh
  rcases cw with _ | w
  · refine ⟨⟨fun hh => (by cases hh), fun hh => absurd hh (hor ?_)⟩, ?_, ?_⟩
    · rintro ⟨w, hh, -⟩
      cases hh
    · intro g hg
      cases hg
    · exact ⟨fun ⟨_, hh⟩ => (by cases hh), fun ⟨_, _, _, _, _, _, hh, _⟩ => by cases hh⟩
  · rw [if_neg (by simp)]
    unfold finish
    have hd : radiusDom none (some w) = w := rfl
    rw [hd]
    have ha : (⟨[axis.r, axis.z].getD 0 0, [axis.r, axis.z].getD 1 0⟩ : Pt) = axis := rfl
    rw [ha]
    rcases hm : findMaxRadius axis w with _ | _ | ⟨mx, mn⟩
    · refine ⟨⟨fun _ => Or.inr (Or.inr (Or.inr (Or.inr ⟨w, rfl, hm⟩))), fun _ => rfl⟩, ?_, ?_⟩
      · intro g hg
        cases hg
      · refine ⟨fun ⟨_, hh⟩ => (by cases hh), ?_⟩
        rintro ⟨_, _, _, w', mx, mn, hh, hu⟩
        cases hh
        rw [hm] at hu
        cases hu
    · refine ⟨⟨fun hh => (by cases hh), fun hh => absurd hh (hor ?_)⟩, ?_, ?_⟩
      · rintro ⟨w', hh, hu⟩
        cases hh
        rw [hm] at hu
        cases hu
      · intro g hg
        cases hg
      · refine ⟨fun ⟨_, hh⟩ => (by cases hh), ?_⟩
        rintro ⟨_, _, _, w', mx, mn, hh, hu⟩
        cases hh
        rw [hm] at hu
        cases hu
    · refine ⟨⟨fun hh => (by cases hh), fun hh => absurd hh (hor ?_)⟩, ?_, ?_⟩
      · rintro ⟨w', hh, hu⟩
        cases hh
        rw [hm] at hu
        cases hu
      · intro g hg
        cases hg
        refine ⟨rfl, rfl, ⟨(c0.2 _ rfl).1, (c1.2 _ rfl).1, (c2.2 _ rfl).1⟩, fun j i hj hi => ⟨?_, ?_, ?_⟩⟩
        · exact (c0.2 _ rfl).2 j i hj hi
        · exact (c1.2 _ rfl).2 j i hj hi
        · exact (c2.2 _ rfl).2 j i hj hi
      · exact ⟨fun _ => ⟨f0, f1, f2, w, mx, mn, rfl, hm⟩, fun _ => ⟨_, rfl⟩⟩

/-- A file on the grid of two radii and two heights, with a square wall and the radial component given
as a matrix of this shape. -/
def twoByTwo (a b : Nat) (d : List ℝ) : FData :=
  [("name", .str "n"), ("desc", .str "d"), ("maxis", .arr [2] [2, 0]), ("r", .arr [2] [1, 3]), ("z", .arr [2] [-1, 1]),
   ("Br", .arr [a, b] d), ("Bphi", .arr [2, 2] [0, 0, 0, 0]), ("Bz", .arr [2, 2] [0, 0, 0, 0]),
   ("wall", .arr [2, 5] [1, 1, 3, 3, 1, 1, -1, -1, 1, 1])]

theorem twoByTwo_file (a b : Nat) (d : List ℝ) (h : d.length = a * b) :
    FieldFile (twoByTwo a b d) "n" "d" ⟨2, 0⟩ [1, 3] [-1, 1] ![(a, b), (2, 2), (2, 2), (2, 5)]
      ![d, [0, 0, 0, 0], [0, 0, 0, 0], [1, 1, 3, 3, 1, 1, -1, -1, 1, 1]] :=
  ⟨rfl, rfl, rfl, rfl, rfl, ⟨rfl, h⟩, ⟨rfl, rfl⟩, ⟨rfl, rfl⟩, ⟨rfl, rfl⟩, rfl, rfl, rfl, rfl, rfl, by simp, by simp⟩

theorem twoByTwo_wall (a b : Nat) (d : List ℝ) :
    contour ((twoByTwo a b d).doubles "wall") = some (some squareWall) := by
  have e : (twoByTwo a b d).doubles "wall" = some (2, 5, [[1, 1, 3, 3, 1], [1, -1, -1, 1, 1]]) := rfl
  rw [e]
  simp [contour, List.range_succ, at2, squareWall]

/-- C100 is false: with one column too few, the file is read outside of memory. -/
theorem C100_refuted_outside (d : List ℝ) (h : d.length = 2) : nLoad (twoByTwo 2 1 d) = .ub := by
  refine ((C100_load_partial _ _ _ _ _ _ _ _ (twoByTwo_file 2 1 d h)).1).2 (Or.inl ?_)
  simp [Fits]

/-- C100 is false: three numbers are accepted as the component on a grid of four points, where the
second is used twice; and of a matrix that is too wide the first columns are used. -/
theorem C100_refuted_scrambled (x y z u v w : ℝ) :
    (∃ g, nLoad (twoByTwo 1 3 [x, y, z]) = .ok g ∧ g.Br = [x, y, y, z]) ∧
    ∃ g, nLoad (twoByTwo 2 3 [x, y, z, u, v, w]) = .ok g ∧ g.Br = [x, y, u, v] := by
  have key : ∀ a b (d : List ℝ) (h : d.length = a * b), Fits 2 2 a b → ∃ g, nLoad (twoByTwo a b d) = .ok g ∧
      g.Br.length = 4 ∧ ∀ j i, j < 2 → i < 2 → g.Br[j * 2 + i]? = d[usedEntry 2 a b j i]? := by
    intro a b d h hf
    have t := C100_load_partial _ _ _ _ _ _ _ _ (twoByTwo_file a b d h)
    obtain ⟨g, hg⟩ := t.2.2.2 ⟨hf, by simp [Fits], by simp [Fits], squareWall, 3, 1, twoByTwo_wall a b d, squareWall_radius⟩
    exact ⟨g, hg, (t.2.1 g hg).2.2.1.1, fun j i hj hi => ((t.2.1 g hg).2.2.2 j i hj hi).1⟩
  have four : ∀ (l : List ℝ) (p q r s : ℝ), l.length = 4 → l[0]? = some p → l[1]? = some q → l[2]? = some r → l[3]? = some s →
      l = [p, q, r, s] := by
    intro l p q r s hl h0 h1 h2 h3
    match l, hl with
    | [_, _, _, _], _ => simp_all
  constructor
  · obtain ⟨g, hg, hlen, hv⟩ := key 1 3 [x, y, z] rfl (by simp [Fits])
    refine ⟨g, hg, four _ _ _ _ _ hlen ?_ ?_ ?_ ?_⟩
    · exact (hv 0 0 (by omega) (by omega)).trans (by simp [usedEntry])
    · exact (hv 0 1 (by omega) (by omega)).trans (by simp [usedEntry])
    · exact (hv 1 0 (by omega) (by omega)).trans (by simp [usedEntry])
    · exact (hv 1 1 (by omega) (by omega)).trans (by simp [usedEntry])
  · obtain ⟨g, hg, hlen, hv⟩ := key 2 3 [x, y, z, u, v, w] rfl (by simp [Fits])
    refine ⟨g, hg, four _ _ _ _ _ hlen ?_ ?_ ?_ ?_⟩
    · exact (hv 0 0 (by omega) (by omega)).trans (by simp [usedEntry])
    · exact (hv 0 1 (by omega) (by omega)).trans (by simp [usedEntry])
    · exact (hv 1 0 (by omega) (by omega)).trans (by simp [usedEntry])
    · exact (hv 1 1 (by omega) (by omega)).trans (by simp [usedEntry])

/-- The wall may also be wrong: given as one column, it is read outside of memory. -/
example (p q : ℝ) : contour (some (2, 1, rowsOf 2 1 [p, q])) ≠ none ∧ contour (some (3, 1, rowsOf 3 1 [p, q, q])) = none :=
  ⟨fun h => ((C100_contour 2 1 [p, q] rfl).1 h).1 rfl, (C100_contour 3 1 [p, q, q] rfl).2 ⟨by omega, by omega, by omega⟩⟩

/-- The shapes that are meant fit: rows of heights always, and rows of radii unless the grid is square. -/
theorem C100_meant (nr nz : Nat) (hr : 0 < nr) (hz : 0 < nz) :
    (Fits nr nz nz nr ∧ ∀ j i, usedEntry nz nz nr j i = j * nr + i) ∧
    (nr ≠ nz → Fits nr nz nr nz ∧ ∀ j i, i < nr → usedEntry nz nr nz j i = i * nz + j) := by
  refine ⟨⟨.inl ⟨rfl, le_refl _⟩, fun j i => by simp [usedEntry]⟩, fun hne => ⟨.inr ⟨hne, le_refl _, ?_⟩, fun j i hi => ?_⟩⟩
  · obtain ⟨m, rfl⟩ : ∃ m, nz = m + 1 := ⟨nz - 1, by omega⟩
    simp [Nat.mul_succ, Nat.mul_comm]
  · rw [usedEntry, if_neg hne, Nat.mul_comm j nr, Nat.mul_add_mod, Nat.mod_eq_of_lt hi, Nat.mul_add_div hr, Nat.div_eq_of_lt hi,
      Nat.add_zero]

end

end Softlib
