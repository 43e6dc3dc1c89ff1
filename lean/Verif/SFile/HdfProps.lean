/-
Properties C69 (MAT integer arrays), C74 (numeric data round-trips), C75 (strings
round-trip) and C76 (reading is memory safe) of HDF5 and MAT files.
-/
import Verif.SFile.HdfLemmas

namespace Softlib

open Softlib.Config Softlib.SFile Softlib.SFile.Hdf

/-! ### specification -/

/-- The path can be created: the file is open for writing, nothing has that name and the parent
is a group. -/
def FreePath (f : File) (p : Path) : Prop :=
  f.writable = true ∧ p ≠ [] ∧ f.find p = none ∧
    (p.dropLast = [] ∨ ∃ as, f.find p.dropLast = some (.group as))

/-- Entry (i, j) of an array of row pointers; each row is the memory from its pointer on. -/
def rowsEntry (arr : List (List Elem)) (i j : Nat) : Option Elem := (arr[i]?).bind (fun r => r[j]?)

/-- Entry (i, j) of an array returned by a read: `a[i][j]`. -/
def arr2Entry (a : Arr2) (i j : Nat) : Option Elem := (a.ptrs[i]?).bind (fun o => a.data[o + j]?)

/-- The rows lie one after the other in one allocation. -/
def ContiguousRows (arr : List (List Elem)) (rows cols : Nat) : Prop :=
  ∃ mem : List Elem, rows * cols ≤ mem.length ∧
    ∀ i, i < rows → arr[i]? = some (mem.drop (i * cols))

/-- Every row is long enough for the program to use `arr[i][j]` for all `i < rows`,
`j < cols`. -/
def ValidRows (arr : List (List Elem)) (rows cols : Nat) : Prop :=
  ∀ i, i < rows → ∃ r, arr[i]? = some r ∧ cols ≤ r.length

/-- The MATLAB class of each C type, in ASCII. -/
def className : NumTy → List UInt8
  | .f64 => [0x64, 0x6F, 0x75, 0x62, 0x6C, 0x65]
  | .i32 => [0x69, 0x6E, 0x74, 0x33, 0x32]
  | .i64 => [0x69, 0x6E, 0x74, 0x36, 0x34]
  | .u32 => [0x75, 0x69, 0x6E, 0x74, 0x33, 0x32]
  | .u64 => [0x75, 0x69, 0x6E, 0x74, 0x36, 0x34]

/-- The type in the file of each C type. -/
def storedTy : NumTy → Ty
  | .f64 => .f64
  | .i32 => .i32
  | .i64 => .i64
  | .u32 => .u32
  | .u64 => .u64

/-- The variable `p` holds the given elements with their MATLAB class. -/
def HasClassData (f : File) (p : Path) (t : NumTy) (dims : List Nat) (data : List Elem) : Prop :=
  ∃ d, f.dset p = some d ∧ d.ty = storedTy t ∧ d.dims = dims ∧ d.data = data ∧
    lookupIn "MATLAB_class".toList d.attrs = some ⟨.str (className t).length, [], (className t).map .byte⟩

theorem storedTy_eq (t : NumTy) : fileTy t = storedTy t := by cases t <;> rfl

theorem classAttr_eq (t : NumTy) :
    classAttr (matClass t) = ⟨.str (className t).length, [], (className t).map .byte⟩ := by
  cases t <;> decide +kernel

theorem freePath_iff {f : File} {p : Path} : FreePath f p ↔ f.canCreate p = true := by
  rw [hdf_canCreate_iff, FreePath]
  refine and_congr_right fun _ => and_congr_right fun _ => and_congr_right fun _ => ?_
  unfold File.isGroup
  constructor
  · rintro (h | ⟨as, h⟩)
    · rw [h]
    · split
      · rfl
      · rw [h]
  · intro h
    split at h
    · rename_i heq; exact .inl heq
    · split at h
      · rename_i heq; exact .inr ⟨_, heq⟩
      · cases h

theorem hdf_memTy_eq (t : NumTy) : memTy t = fileTy t := by cases t <;> rfl
theorem hdf_readTy_eq (t : NumTy) : readTy t = fileTy t := by cases t <;> rfl

theorem matWriteArray_eq {L : Lib} {t : NumTy} {f : File} {p : Path} {arr : List (List Elem)}
    {rows cols : Nat} {b : List Elem} (hp : FreePath f p) (hh : arr.head? = some b)
    (hb : rows * cols ≤ b.length) :
    ∃ f', matWriteArray L t f p arr rows cols = (f', .ok ()) ∧
      HasClassData f' p t [rows, cols] (b.take (rows * cols)) := by
  have hc := freePath_iff.1 hp
  have hprod : prod [rows, cols] = rows * cols := by simp [prod]
  unfold matWriteArray writeNumArray
  rw [hh, hdf_memTy_eq, createWrite_ok (by simp) hc (by rw [hprod]; exact hb), hprod]
  simp only [WRes.andThen, writeClass]
  rw [addAttr_ok (d := ⟨fileTy t, [rows, cols], b.take (rows * cols), []⟩) (by exact hp.1) (hdf_dset_add hc) rfl]
  refine ⟨_, rfl, _, hdf_dset_set (hdf_dset_add hc), storedTy_eq _, rfl, rfl, ?_⟩
  simp [lookupIn, classAttr_eq]

/-! ### C69 -/

/-- C69, matrices: writing a matrix of any number type (one allocation) under a free name to a
MAT file succeeds and stores its elements, row by row, with their MATLAB class.
Missing from the full claim: lists and multi-dimensional arrays, see the next theorems. -/
theorem C69_matrices_partial (L : Lib) (t : NumTy) (f : File) (p : Path) (arr : List (List Elem))
    (rows cols : Nat) (hp : FreePath f p) (hrow : 0 < rows) (harr : ContiguousRows arr rows cols) :
    ∃ f' data, write L .mat f (.array t p arr rows cols) = (f', .ok ()) ∧
      HasClassData f' p t [rows, cols] data ∧ data.length = rows * cols ∧
      ∀ i j, i < rows → j < cols → data[i * cols + j]? = rowsEntry arr i j := by
  obtain ⟨mem, hm, hi⟩ := harr
  have h0 : arr.head? = some mem := by
    have := hi 0 hrow
    rw [List.head?_eq_getElem?, this]; simp
  obtain ⟨f', hw, hc⟩ := matWriteArray_eq (L := L) (t := t) hp h0 hm
  refine ⟨f', _, hw, hc, by simp; omega, ?_⟩
  intro i j h1 h2
  have : i * cols + j < rows * cols :=
    calc i * cols + j < i * cols + cols := by omega
      _ = (i + 1) * cols := by rw [Nat.add_mul]; omega
      _ ≤ rows * cols := Nat.mul_le_mul_right _ h1
  rw [rowsEntry, hi i h1, List.getElem?_take_of_lt this]
  simp

example : ∃ arr : List (List Elem), ContiguousRows arr 2 2 ∧
    FreePath ⟨true, []⟩ ["a".toList] ∧ rowsEntry arr 1 0 = some (.int 3) :=
  ⟨[[.int 1, .int 2, .int 3, .int 4], [.int 3, .int 4]],
    ⟨[.int 1, .int 2, .int 3, .int 4], by simp, fun i hi => match i, hi with | 0, _ => rfl | 1, _ => rfl⟩,
    ⟨rfl, by simp, rfl, .inl rfl⟩, rfl⟩

/-- C69 fails for multi-dimensional arrays: for every integer type, free name and array the
call throws an exception of the HDF5 library; the values are in the file, without class. -/
theorem C69_multi_always_throws (L : Lib) (t : NumTy) (ht : t ≠ .f64) (f : File) (p : Path)
    (arr : List Elem) (dims : List Nat) (hp : FreePath f p) (hr : dims.length ≤ 32)
    (ha : prod dims ≤ arr.length) :
    (write L .mat f (.multi t p arr dims)).2 = .exc .h5File ∧
    (write L .mat f (.multi t p arr dims)).1.dset p =
      some ⟨fileTy t, dims, arr.take (prod dims), []⟩ := by
  have hc := freePath_iff.1 hp
  simp only [write, matWriteMulti, writeMultiNumArray]
  rw [hdf_memTy_eq, createWrite_ok hr hc ha]
  have hfind : (f.add p (.dset ⟨fileTy t, dims, arr.take (prod dims), []⟩)).find p =
      some (.dset ⟨fileTy t, dims, arr.take (prod dims), []⟩) :=
    hdf_find_add_self (hdf_canCreate_iff.1 hc).2.2.1
  have hno : (f.add p (.dset ⟨fileTy t, dims, arr.take (prod dims), []⟩)).canCreate p = false := by
    cases h : (f.add p (.dset ⟨fileTy t, dims, arr.take (prod dims), []⟩)).canCreate p with
    | false => rfl
    | true => rw [hdf_canCreate_iff, hfind] at h; exact absurd h.2.2.1 (by simp)
  have hstr : matWriteString L (f.add p (.dset ⟨fileTy t, dims, arr.take (prod dims), []⟩)) p
      (bytesOf (matClass t)) =
      (f.add p (.dset ⟨fileTy t, dims, arr.take (prod dims), []⟩), .exc .h5File) := by
    unfold matWriteString createWrite
    rw [if_neg (show ¬ 32 < [(bytesOf (matClass t)).length, 1].length by simp),
      if_pos (show (!(f.add p (.dset ⟨fileTy t, dims, arr.take (prod dims), []⟩)).canCreate p) = true by
        rw [hno]; rfl)]
    rfl
  have hd := hdf_dset_of_find.2 hfind
  cases t with
  | f64 => exact absurd rfl ht
  | i32 => simp only [WRes.andThen]; rw [hstr]; exact ⟨rfl, hd⟩
  | i64 => simp only [WRes.andThen]; rw [hstr]; exact ⟨rfl, hd⟩
  | u32 => simp only [WRes.andThen]; rw [hstr]; exact ⟨rfl, hd⟩
  | u64 => simp only [WRes.andThen]; rw [hstr]; exact ⟨rfl, hd⟩

/-- C69 fails for lists: the call succeeds, but the variable has no MATLAB class. -/
theorem C69_lists_have_no_class (L : Lib) (t : NumTy) (f : File) (p : Path) (arr : List Elem)
    (n : Nat) (hp : FreePath f p) (ha : n ≤ arr.length) :
    ∃ f', write L .mat f (.list t p arr n) = (f', .ok ()) ∧
      f'.dset p = some ⟨fileTy t, [n], arr.take n, []⟩ := by
  have hc := freePath_iff.1 hp
  have hprod : prod [n] = n := by simp [prod]
  simp only [write, matWriteList, writeNumList]
  rw [hdf_memTy_eq, createWrite_ok (by simp) hc (by rw [hprod]; exact ha), hprod]
  exact ⟨_, rfl, hdf_dset_add hc⟩

/-- C69, multi-dimensional arrays of doubles: these succeed and get their class. -/
theorem C69_multi_double (L : Lib) (f : File) (p : Path) (arr : List Elem) (dims : List Nat)
    (hp : FreePath f p) (hr : dims.length ≤ 32) (ha : prod dims ≤ arr.length) :
    ∃ f', write L .mat f (.multi .f64 p arr dims) = (f', .ok ()) ∧
      HasClassData f' p .f64 dims (arr.take (prod dims)) := by
  have hc := freePath_iff.1 hp
  simp only [write, matWriteMulti, writeMultiNumArray]
  rw [hdf_memTy_eq, createWrite_ok hr hc ha]
  simp only [WRes.andThen, writeClass]
  rw [addAttr_ok (d := ⟨fileTy .f64, dims, arr.take (prod dims), []⟩) (by exact hp.1) (hdf_dset_add hc) rfl]
  refine ⟨_, rfl, _, hdf_dset_set (hdf_dset_add hc), storedTy_eq .f64, rfl, rfl, ?_⟩
  simp [lookupIn, classAttr_eq]

/-- C69 as stated is false of the code, for lists and for multi-dimensional arrays. -/
theorem C69_refuted :
    ¬ (∀ (L : Lib) (t : NumTy) (f : File) (p : Path) (arr : List Elem) (n : Nat), FreePath f p →
        n ≤ arr.length → ∃ f', write L .mat f (.list t p arr n) = (f', .ok ()) ∧
          HasClassData f' p t [n] (arr.take n)) ∧
    ¬ (∀ (L : Lib) (t : NumTy) (f : File) (p : Path) (arr : List Elem) (dims : List Nat),
        FreePath f p → dims.length ≤ 32 → prod dims ≤ arr.length →
        ∃ f', write L .mat f (.multi t p arr dims) = (f', .ok ()) ∧
          HasClassData f' p t dims (arr.take (prod dims))) := by
  let L : Lib := ⟨fun _ _ => some id, fun _ => rfl, fun _ e => match e with | .byte b => [b] | _ => [],
    fun _ => rfl⟩
  have hp : FreePath ⟨true, []⟩ ["a".toList] := ⟨rfl, by simp, rfl, .inl rfl⟩
  constructor
  · intro h
    obtain ⟨f', hw, d, hd, _, _, _, ha⟩ := h L .i32 _ _ [.int 1, .int 2] 2 hp (by simp)
    obtain ⟨f'', hw', hd'⟩ := C69_lists_have_no_class L .i32 _ _ [.int 1, .int 2] 2 hp (by simp)
    rw [hw] at hw'; cases hw'
    rw [hd'] at hd; cases hd
    simp [lookupIn] at ha
  · intro h
    obtain ⟨f', hw, _⟩ := h L .i32 _ _ [.int 1, .int 2] [2] hp (by simp) (by simp [prod])
    have := (C69_multi_always_throws L .i32 (by simp) _ _ [.int 1, .int 2] [2] hp (by simp)
      (by simp [prod])).1
    rw [hw] at this; cases this

/-! ### C74 -/

theorem hdf_dset_after {L : Lib} {fmt : Fmt} {f : File} {p : Path} {d : Dset} (ops : List Op)
    (h : f.dset p = some d) : ∃ d', (writes L fmt f ops).dset p = some d' ∧ DsetKept d d' :=
  fileKept_writes L fmt ops f p d h

theorem readAll_kept {α : Type} {L : Lib} {d d' : Dset} {t : NumTy} {k : List Elem → α}
    (h : DsetKept d d') (ht : d.ty = fileTy t) : readAll L d' (readTy t) k = .ok (k d.data) := by
  unfold readAll
  rw [h.1, ht, hdf_readTy_eq, L.conv_self, h.2.2.1]
  simp

theorem write_array_stored {L : Lib} {fmt : Fmt} {t : NumTy} {f : File} {p : Path}
    {arr : List (List Elem)} {rows cols : Nat} {b : List Elem} (hp : FreePath f p)
    (hh : arr.head? = some b) (hb : rows * cols ≤ b.length) :
    ∃ f' d, write L fmt f (.array t p arr rows cols) = (f', .ok ()) ∧ f'.dset p = some d ∧
      d.ty = fileTy t ∧ d.dims = [rows, cols] ∧ d.data = b.take (rows * cols) := by
  have hc := freePath_iff.1 hp
  have hprod : prod [rows, cols] = rows * cols := by simp [prod]
  cases fmt with
  | hdf5 =>
    simp only [write, writeNumArray]
    rw [hh, hdf_memTy_eq, createWrite_ok (by simp) hc (by rw [hprod]; exact hb), hprod]
    exact ⟨_, _, rfl, hdf_dset_add hc, rfl, rfl, rfl⟩
  | mat =>
    obtain ⟨f', hw, d, h1, h2, h3, h4, _⟩ := matWriteArray_eq (L := L) (t := t) hp hh hb
    exact ⟨f', d, hw, h1, h2, h3, h4⟩

/-- C74, matrices: a matrix whose rows lie in one allocation is read back with its extents and
entries, whatever is written to the file in between.
Missing from the full claim: rows in separate allocations, which the writers do not support,
and 2^32 or more rows, on which reading does not end. -/
theorem C74_matrix_partial (L : Lib) (fmt : Fmt) (t : NumTy) (f : File) (p : Path)
    (arr : List (List Elem)) (rows cols : Nat) (hp : FreePath f p) (hrow : 0 < rows)
    (hsmall : rows < 2 ^ 32) (harr : ContiguousRows arr rows cols) :
    ∃ f', write L fmt f (.array t p arr rows cols) = (f', .ok ()) ∧
      ∀ later : List Op, ∃ a, getArray2D L t (writes L fmt f' later) p = .ok a ∧
        a.rows = rows ∧ a.cols = cols ∧
        ∀ i j, i < rows → j < cols → arr2Entry a i j = rowsEntry arr i j ∧ (arr2Entry a i j).isSome := by
  obtain ⟨mem, hm, hi⟩ := harr
  have h0 : arr.head? = some mem := by
    have := hi 0 hrow
    rw [List.head?_eq_getElem?, this]; simp
  obtain ⟨f', d, hw, hd, hty, hdims, hdata⟩ := write_array_stored (L := L) (fmt := fmt) (t := t) hp h0 hm
  refine ⟨f', hw, fun later => ?_⟩
  obtain ⟨d', hd', hk⟩ := hdf_dset_after (L := L) (fmt := fmt) later hd
  refine ⟨⟨rows, cols, (List.range rows).map (· * cols), mem.take (rows * cols)⟩, ?_, rfl, rfl, ?_⟩
  · unfold getArray2D
    rw [hd']
    simp only [hk.2.1, hdims]
    rw [if_neg (by omega), readAll_kept hk hty, hdata]
  · intro i j h1 h2
    have hlt : i * cols + j < rows * cols :=
      calc i * cols + j < i * cols + cols := by omega
        _ = (i + 1) * cols := by rw [Nat.add_mul]; omega
        _ ≤ rows * cols := Nat.mul_le_mul_right _ h1
    have he : arr2Entry ⟨rows, cols, (List.range rows).map (· * cols), mem.take (rows * cols)⟩ i j =
        mem[i * cols + j]? := by
      simp only [arr2Entry, List.getElem?_map, List.getElem?_range h1, Option.map_some,
        Option.bind_some]
      rw [List.getElem?_take_of_lt hlt]
    refine ⟨?_, ?_⟩
    · rw [he, rowsEntry, hi i h1]; simp
    · rw [he, List.getElem?_eq_getElem (by omega)]; rfl

/-- C74 fails for matrices whose rows are separate allocations: if the first row's allocation
is shorter than the whole matrix the write reads past its end. -/
theorem C74_separate_rows_ub (L : Lib) (fmt : Fmt) (t : NumTy) (f : File) (p : Path)
    (arr : List (List Elem)) (b : List Elem) (rows cols : Nat) (hp : FreePath f p)
    (hb : arr.head? = some b) (hlt : b.length < rows * cols) :
    (write L fmt f (.array t p arr rows cols)).2 = .ub := by
  have hc := freePath_iff.1 hp
  have hprod : prod [rows, cols] = rows * cols := by simp [prod]
  have key : ∀ g, (createWrite L f p g (memTy t) [rows, cols] (some b)).2 = .ub := by
    intro g
    unfold createWrite
    rw [if_neg (show ¬ 32 < [rows, cols].length by simp), if_neg (show ¬ (!f.canCreate p) = true by simp [hc])]
    simp only
    rw [if_pos (show b.length < prod [rows, cols] by rw [hprod]; exact hlt)]
  cases fmt with
  | hdf5 => simp only [write, writeNumArray]; rw [hb]; exact key _
  | mat =>
    simp only [write, matWriteArray, writeNumArray]
    rw [hb]
    have := key (fileTy t)
    unfold WRes.andThen
    split
    · rename_i heq; rw [heq] at this; cases this
    · exact this

/-- C74 as stated is false of the code: a 2 × 2 matrix with valid rows is not written. -/
theorem C74_refuted :
    ¬ (∀ (L : Lib) (fmt : Fmt) (t : NumTy) (f : File) (p : Path) (arr : List (List Elem))
        (rows cols : Nat), FreePath f p → 0 < rows → rows < 2 ^ 32 → ValidRows arr rows cols →
        (write L fmt f (.array t p arr rows cols)).2 = .ok ()) := by
  intro h
  let L : Lib := ⟨fun _ _ => some id, fun _ => rfl, fun _ e => match e with | .byte b => [b] | _ => [],
    fun _ => rfl⟩
  have hp : FreePath ⟨true, []⟩ ["a".toList] := ⟨rfl, by simp, rfl, .inl rfl⟩
  have := h L .hdf5 .i32 _ _ [[.int 1, .int 2], [.int 3, .int 4]] 2 2 hp (by simp) (by simp)
    (fun i hi => match i, hi with | 0, _ => ⟨_, rfl, by simp⟩ | 1, _ => ⟨_, rfl, by simp⟩)
  rw [C74_separate_rows_ub L .hdf5 .i32 _ _ _ [.int 1, .int 2] 2 2 hp rfl (by simp)] at this
  cases this

theorem write_list_stored {L : Lib} {fmt : Fmt} {t : NumTy} {f : File} {p : Path} {arr : List Elem}
    {n : Nat} (hp : FreePath f p) (ha : n ≤ arr.length) :
    ∃ f', write L fmt f (.list t p arr n) = (f', .ok ()) ∧
      f'.dset p = some ⟨fileTy t, [n], arr.take n, []⟩ := by
  have hc := freePath_iff.1 hp
  have hprod : prod [n] = n := by simp [prod]
  have : writeNumList L t f p arr n = (f.add p (.dset ⟨fileTy t, [n], arr.take n, []⟩), .ok ()) := by
    unfold writeNumList
    rw [hdf_memTy_eq, createWrite_ok (by simp) hc (by rw [hprod]; exact ha), hprod]
  cases fmt
  · exact ⟨_, this, hdf_dset_add hc⟩
  · exact ⟨_, this, hdf_dset_add hc⟩

/-- C74, lists: a list of `n` numbers (also of none) is read back as a list and as a matrix
with one row, whatever is written in between. -/
theorem C74_list (L : Lib) (fmt : Fmt) (t : NumTy) (f : File) (p : Path) (xs : List Elem)
    (hp : FreePath f p) :
    ∃ f', write L fmt f (.list t p xs xs.length) = (f', .ok ()) ∧
      ∀ later : List Op,
        getArray1D L t (writes L fmt f' later) p = .ok (xs.length, xs) ∧
        getArray2D L t (writes L fmt f' later) p = .ok ⟨1, xs.length, [0], xs⟩ ∧
        (t = .f64 → getList L (writes L fmt f' later) p = .ok (xs.length, xs)) := by
  obtain ⟨f', hw, hd⟩ := write_list_stored (L := L) (fmt := fmt) (t := t) hp (Nat.le_refl xs.length)
  refine ⟨f', hw, fun later => ?_⟩
  obtain ⟨d', hd', hk⟩ := hdf_dset_after (L := L) (fmt := fmt) later hd
  have h2 : getArray2D L t (writes L fmt f' later) p = .ok ⟨1, xs.length, [0], xs⟩ := by
    unfold getArray2D
    rw [hd']
    simp only [hk.2.1]
    rw [readAll_kept hk rfl]
    simp
  refine ⟨?_, h2, ?_⟩
  · unfold getArray1D
    rw [hd']
    simp only [hk.2.1]
    rw [readAll_kept hk rfl]
    simp
  · rintro rfl
    unfold getList
    rw [h2]
    simp

/-- C74, scalars: a number written with `WriteScalar` is read back by `GetScalar`. -/
theorem C74_scalar (L : Lib) (fmt : Fmt) (f : File) (p : Path) (x : Elem) (hp : FreePath f p) :
    ∃ f', write L fmt f (.list .f64 p [x] 1) = (f', .ok ()) ∧
      ∀ later : List Op, getSingle L .f64 (writes L fmt f' later) p = .ok x := by
  obtain ⟨f', hw, h⟩ := C74_list L fmt .f64 f p [x] hp
  refine ⟨f', hw, fun later => ?_⟩
  unfold getSingle
  rw [(h later).2.1]
  simp

/-- C74, multi-dimensional arrays: after the write (which throws for integers in MAT files,
C69) the extents and elements are read back, converted to `double` by the library. -/
theorem C74_multi (L : Lib) (fmt : Fmt) (t : NumTy) (f : File) (p : Path) (xs : List Elem)
    (dims : List Nat) (hp : FreePath f p) (hr : dims.length ≤ 32) (hx : xs.length = prod dims)
    (g : Elem → Elem) (hg : L.conv (fileTy t) .f64 = some g) (later : List Op) (nndims : Nat) :
    getMultiLinear L (writes L fmt (write L fmt f (.multi t p xs dims)).1 later) p nndims =
      .ok (if dims.length ≤ nndims then some (dims, xs.map g) else none) ∧
    (fmt = .hdf5 ∨ t = .f64 → (write L fmt f (.multi t p xs dims)).2 = .ok ()) := by
  have hc := freePath_iff.1 hp
  have htake : xs.take (prod dims) = xs := List.take_of_length_le (by omega)
  have hok : writeMultiNumArray L t f p xs dims = (f.add p (.dset ⟨fileTy t, dims, xs, []⟩), .ok ()) := by
    unfold writeMultiNumArray
    rw [hdf_memTy_eq, createWrite_ok hr hc (by omega), htake]
  have hfile : ∃ d, (write L fmt f (.multi t p xs dims)).1.dset p = some d ∧ d.ty = fileTy t ∧
      d.dims = dims ∧ d.data = xs := by
    cases fmt with
    | hdf5 =>
      simp only [write]; rw [hok]
      exact ⟨_, hdf_dset_add hc, rfl, rfl, rfl⟩
    | mat =>
      by_cases ht : t = .f64
      · subst ht
        obtain ⟨f', hw, d, h1, h2, h3, h4, _⟩ := C69_multi_double L f p xs dims hp hr (by omega)
        rw [hw]
        exact ⟨d, h1, h2, h3, by rw [h4, htake]⟩
      · have := (C69_multi_always_throws L t ht f p xs dims hp hr (by omega)).2
        exact ⟨_, this, rfl, rfl, htake⟩
  obtain ⟨d, hd, hty, hdims, hdata⟩ := hfile
  obtain ⟨d', hd', hk⟩ := hdf_dset_after (L := L) (fmt := fmt) later hd
  refine ⟨?_, ?_⟩
  · unfold getMultiLinear
    rw [hd']
    simp only [hk.2.1, hdims, readAll, hk.1, hty, hg, hk.2.2.1, hdata]
    by_cases hn : dims.length ≤ nndims
    · rw [if_neg (by omega), if_pos hn]
    · rw [if_pos (by omega), if_neg hn]
  · intro h
    cases fmt with
    | hdf5 => simp only [write]; rw [hok]
    | mat =>
      obtain h | h := h
      · cases h
      · subst h
        obtain ⟨f', hw, _⟩ := C69_multi_double L f p xs dims hp hr (by omega)
        rw [hw]

/-- The hypotheses of the theorems above can be met: a library without conversions other than
the identity and a fresh file. -/
example : ∃ (L : Lib) (g : Elem → Elem), L.conv (fileTy .i32) .f64 = some g ∧
    FreePath ⟨true, []⟩ ["a".toList] ∧
    (⟨true, []⟩ : File).find ["a".toList] = none :=
  ⟨⟨fun _ _ => some id, fun _ => rfl, fun _ e => match e with | .byte b => [b] | _ => [], fun _ => rfl⟩,
    id, rfl, ⟨rfl, by simp, rfl, .inl rfl⟩, rfl⟩

/-! ### C75 -/

theorem hdf_raw_bytes (L : Lib) (s : List UInt8) : (s.map Elem.byte).flatMap (L.raw .s1) = s := by
  induction s with
  | nil => rfl
  | cons b s ih => simp only [List.map_cons, List.flatMap_cons, L.raw_char, ih]; rfl

theorem u16Char_charU16 (b : UInt8) : u16Char (.int (charU16 b)) = b := by
  have hb := b.toNat_lt
  simp only [u16Char, charU16, intByte, byteInt]
  have : ((if b.toNat < 128 then (b.toNat : Int) else (b.toNat : Int) - 256) % 65536 % 256).toNat = b.toNat := by
    split <;> omega
  rw [this]
  simp

/-- C75, the exact rule for both formats: what is read back is the part of the string before
its first zero byte. -/
theorem C75_read_back_rule (L : Lib) (fmt : Fmt) (f : File) (p : Path) (s : List UInt8)
    (hp : FreePath f p) :
    ∃ f', write L fmt f (.string p s) = (f', .ok ()) ∧ ∀ later : List Op,
      (match fmt with
        | .hdf5 => getString L (writes L fmt f' later) p
        | .mat => matGetString L (writes L fmt f' later) p) = .ok (s.takeWhile (· ≠ 0)) := by
  have hc := freePath_iff.1 hp
  cases fmt with
  | hdf5 =>
    have hprod : prod [s.length] = s.length := by simp [prod]
    simp only [write, writeString]
    rw [createWrite_ok (by simp) hc (by simp [prod]), hprod, List.take_of_length_le (by simp)]
    refine ⟨_, rfl, fun later => ?_⟩
    obtain ⟨d', hd', hk⟩ := hdf_dset_after (L := L) (fmt := .hdf5) later
      (hdf_dset_add (f := f) (p := p) (d := ⟨.s1, [s.length], s.map .byte, []⟩) hc)
    unfold Hdf.getString
    rw [hd']
    simp only [hk.1, hk.2.2.1, hdf_raw_bytes, cString]
  | mat =>
    have hprod : prod [s.length, 1] = s.length := by simp [prod]
    simp only [write, matWriteString]
    rw [createWrite_ok (by simp) hc (by simp [prod]), hprod, List.take_of_length_le (by simp)]
    simp only [WRes.andThen, writeClass, writeIntDecode]
    rw [addAttr_ok (d := ⟨.u16, [s.length, 1], s.map (fun b => .int (charU16 b)), []⟩) (by exact hp.1)
      (hdf_dset_add hc) rfl]
    simp only [List.nil_append]
    rw [addAttr_ok (d := ⟨.u16, [s.length, 1], s.map (fun b => .int (charU16 b)),
      [("MATLAB_class".toList, classAttr "char")]⟩) (by exact hp.1) (hdf_dset_set (hdf_dset_add hc)) (by simp [lookupIn])]
    refine ⟨_, rfl, fun later => ?_⟩
    obtain ⟨d', hd', hk⟩ := hdf_dset_after (L := L) (fmt := .mat) later
      (hdf_dset_set (p := p) (d' := ⟨.u16, [s.length, 1], s.map (fun b => .int (charU16 b)), _⟩)
        (hdf_dset_set (p := p) (d' := ⟨.u16, [s.length, 1], s.map (fun b => .int (charU16 b)), _⟩)
          (hdf_dset_add (f := f) (p := p) (d := ⟨.u16, [s.length, 1], s.map (fun b => .int (charU16 b)), []⟩) hc)))
    unfold matGetString
    rw [hd']
    simp only [hk.2.1, hk.1, hk.2.2.1]
    rw [if_neg (by simp), if_neg (by simp), if_neg (by simp)]
    have : (List.map (fun b => Elem.int (charU16 b)) s).map u16Char = s := by
      rw [List.map_map]
      conv => rhs; rw [← List.map_id s]
      exact List.map_congr_left (fun b _ => u16Char_charU16 b)
    rw [this, cString]

/-- C75, how MAT files store a string: a column of 16-bit numbers marked as text of two bytes per
character, which is how other programs recognise it. -/
theorem C75_mat_marks (L : Lib) (f : File) (p : Path) (s : List UInt8) (hp : FreePath f p) :
    ∃ f' d, write L .mat f (.string p s) = (f', .ok ()) ∧ f'.dset p = some d ∧
      d.ty = .u16 ∧ d.dims = [s.length, 1] ∧
      lookupIn "MATLAB_class".toList d.attrs =
        some ⟨.str 4, [], [.byte 0x63, .byte 0x68, .byte 0x61, .byte 0x72]⟩ ∧
      lookupIn "MATLAB_int_decode".toList d.attrs = some ⟨.i32, [], [.int 2]⟩ ∧
      d.attrs.length = 2 := by
  have hc := freePath_iff.1 hp
  have hprod : prod [s.length, 1] = s.length := by simp [prod]
  simp only [write, matWriteString]
  rw [createWrite_ok (by simp) hc (by simp [prod]), hprod, List.take_of_length_le (by simp)]
  simp only [WRes.andThen, writeClass, writeIntDecode]
  rw [addAttr_ok (d := ⟨.u16, [s.length, 1], s.map (fun b => .int (charU16 b)), []⟩) (by exact hp.1)
    (hdf_dset_add hc) rfl]
  simp only [List.nil_append]
  rw [addAttr_ok (d := ⟨.u16, [s.length, 1], s.map (fun b => .int (charU16 b)),
    [("MATLAB_class".toList, classAttr "char")]⟩) (by exact hp.1) (hdf_dset_set (hdf_dset_add hc)) (by simp [lookupIn])]
  refine ⟨_, _, rfl, hdf_dset_set (hdf_dset_set (hdf_dset_add hc)), rfl, rfl, ?_, ?_, rfl⟩
  · have : classAttr "char" = ⟨.str 4, [], [.byte 0x63, .byte 0x68, .byte 0x61, .byte 0x72]⟩ := by decide +kernel
    rw [this]; rfl
  · rfl

/-- C75, the same for the groups MAT files use as structures: they are marked as such, groups of
HDF5 files are not marked. -/
theorem C75_struct_marks (L : Lib) (f : File) (p : Path) (hp : FreePath f p) :
    (∃ f', write L .mat f (.struct p) = (f', .ok ()) ∧ f'.find p = some (.group [("MATLAB_class".toList,
      ⟨.str 6, [], [.byte 0x73, .byte 0x74, .byte 0x72, .byte 0x75, .byte 0x63, .byte 0x74]⟩)])) ∧
    ∃ f', write L .hdf5 f (.struct p) = (f', .ok ()) ∧ f'.find p = some (.group []) := by
  have hc := freePath_iff.1 hp
  have hn := (hdf_canCreate_iff.1 hc).2.2.1
  have e : classAttr "struct" =
      ⟨.str 6, [], [.byte 0x73, .byte 0x74, .byte 0x72, .byte 0x75, .byte 0x63, .byte 0x74]⟩ := by decide +kernel
  simp only [write, matCreateStruct, createStruct, createGroup, hc, Bool.not_true, Bool.false_eq_true, if_false, e]
  exact ⟨⟨_, rfl, hdf_find_add_self hn⟩, _, rfl, hdf_find_add_self hn⟩

/-- C75 for strings without zero bytes, in both formats and after any later writes; other
strings are cut off, which is what is missing. -/
theorem C75_strings_partial (L : Lib) (fmt : Fmt) (f : File) (p : Path) (s : List UInt8)
    (hp : FreePath f p) (hs : 0 ∉ s) :
    ∃ f', write L fmt f (.string p s) = (f', .ok ()) ∧ ∀ later : List Op,
      (match fmt with
        | .hdf5 => getString L (writes L fmt f' later) p
        | .mat => matGetString L (writes L fmt f' later) p) = .ok s := by
  obtain ⟨f', hw, h⟩ := C75_read_back_rule L fmt f p s hp
  refine ⟨f', hw, fun later => ?_⟩
  rw [h later]
  congr 1
  clear hw h hp
  induction s with
  | nil => rfl
  | cons b s ih =>
    have hb : b ≠ 0 := fun h => hs (by simp [h])
    rw [List.takeWhile_cons_of_pos (by simpa using hb), ih (fun h => hs (List.mem_cons_of_mem _ h))]

example : (0 : UInt8) ∉ [72, 200, 255, 10] := by decide

/-- C75 as stated is false of the code: a string with a zero byte is cut off. -/
theorem C75_refuted (L : Lib) : ∀ fmt : Fmt, ∃ (f : File) (p : Path) (s : List UInt8), FreePath f p ∧
    ¬ ∃ f', write L fmt f (.string p s) = (f', .ok ()) ∧
      (match fmt with
        | .hdf5 => getString L f' p
        | .mat => matGetString L f' p) = .ok s := by
  intro fmt
  refine ⟨⟨true, []⟩, ["a".toList], [65, 0, 66], ⟨rfl, by simp, rfl, .inl rfl⟩, ?_⟩
  rintro ⟨f', hw, h⟩
  obtain ⟨f'', hw', h'⟩ := C75_read_back_rule L fmt ⟨true, []⟩ ["a".toList] [65, 0, 66]
    ⟨rfl, by simp, rfl, .inl rfl⟩
  rw [hw] at hw'; cases hw'
  have := h' []
  simp only [writes, List.foldl_nil] at this
  rw [this] at h
  revert h
  decide

/-! ### C76 -/

/-- A variable of a well-formed file has as many elements as its extents say. -/
def WellFormedVar (d : Dset) : Prop := d.data.length = prod d.dims

/-- C76, matrices: the exact rule.  Reading a variable as a matrix is undefined exactly if its
rank is not one or two; it does not end exactly for 2^32 or more rows; otherwise it throws an
exception of the library if the elements cannot be converted, or returns an array in which
the entries inside the extents are the converted elements of the variable in row-major order. -/
theorem C76_matrix_rule (L : Lib) (t : NumTy) (f : File) (p : Path) (d : Dset)
    (hd : f.dset p = some d) (hwf : WellFormedVar d) :
    (getArray2D L t f p = .ub ↔ d.dims.length ≠ 1 ∧ d.dims.length ≠ 2) ∧
    (getArray2D L t f p = .diverges ↔ ∃ r c, d.dims = [r, c] ∧ 2 ^ 32 ≤ r) ∧
    ∀ a, getArray2D L t f p = .ok a → a.rows * a.cols = d.data.length ∧
      ∃ g, L.conv d.ty (fileTy t) = some g ∧ ∀ i j, i < a.rows → j < a.cols →
        arr2Entry a i j = (d.data[i * a.cols + j]?).map g ∧ (arr2Entry a i j).isSome := by
  unfold getArray2D
  rw [hd]
  obtain ⟨ty, dims, data, attrs⟩ := d
  unfold WellFormedVar at hwf
  simp only at hwf ⊢
  have hra : ∀ {α : Type} (k : List Elem → α), readAll L ⟨ty, dims, data, attrs⟩ (readTy t) k ≠ .ub ∧
      readAll L ⟨ty, dims, data, attrs⟩ (readTy t) k ≠ .diverges := by
    intro α k
    unfold readAll
    split <;> simp
  have hok : ∀ {α : Type} (k : List Elem → α) (a : α),
      readAll L ⟨ty, dims, data, attrs⟩ (readTy t) k = .ok a →
      ∃ g, L.conv ty (fileTy t) = some g ∧ a = k (data.map g) := by
    intro α k a h
    rw [hdf_readTy_eq] at h
    unfold readAll at h
    split at h
    · cases h
    · rename_i g hg; cases h; exact ⟨g, hg, rfl⟩
  match dims, hwf with
  | [], _ => simp
  | [n], hwf =>
    simp only [prod, List.foldr_cons, List.foldr_nil, Nat.mul_one] at hwf
    refine ⟨⟨fun h => absurd h (hra _).1, fun h => absurd rfl h.1⟩,
      ⟨fun h => absurd h (hra _).2, by rintro ⟨r, c, h, _⟩; cases h⟩, ?_⟩
    intro a ha
    obtain ⟨g, hg, rfl⟩ := hok _ _ ha
    refine ⟨by simp [hwf], g, hg, ?_⟩
    intro i j hi hj
    simp only at hi hj
    have : i = 0 := by omega
    subst this
    simp only [arr2Entry, List.getElem?_cons_zero, Option.bind_some, Nat.zero_add, Nat.zero_mul,
      List.getElem?_map]
    refine ⟨trivial, ?_⟩
    rw [List.getElem?_eq_getElem (by omega)]; rfl
  | [r, c], hwf =>
    simp only [prod, List.foldr_cons, List.foldr_nil, Nat.mul_one] at hwf
    by_cases hr : 2 ^ 32 ≤ r
    · simp only [if_pos hr]
      refine ⟨by simp, ⟨fun _ => ⟨r, c, rfl, hr⟩, fun _ => trivial⟩, ?_⟩
      intro a ha; cases ha
    · simp only [if_neg hr]
      refine ⟨⟨fun h => absurd h (hra _).1, fun h => absurd rfl h.2⟩,
        ⟨fun h => absurd h (hra _).2, ?_⟩, ?_⟩
      · rintro ⟨r', c', h, hr'⟩
        cases h; exact absurd hr' hr
      · intro a ha
        obtain ⟨g, hg, rfl⟩ := hok _ _ ha
        refine ⟨by simp [hwf], g, hg, ?_⟩
        intro i j hi hj
        simp only at hi hj
        have hlt : i * c + j < r * c :=
          calc i * c + j < i * c + c := by omega
            _ = (i + 1) * c := by rw [Nat.add_mul]; omega
            _ ≤ r * c := Nat.mul_le_mul_right _ hi
        simp only [arr2Entry, List.getElem?_map, List.getElem?_range hi, Option.map_some,
          Option.bind_some]
        refine ⟨trivial, ?_⟩
        rw [List.getElem?_eq_getElem (by omega)]; rfl
  | _ :: _ :: _ :: _, _ => simp

/-- C76, lists: undefined exactly if the rank is not one or two; the length returned is the
number of elements. -/
theorem C76_list_rule (L : Lib) (t : NumTy) (f : File) (p : Path) (d : Dset)
    (hd : f.dset p = some d) (hwf : WellFormedVar d) :
    (getArray1D L t f p = .ub ↔ d.dims.length ≠ 1 ∧ d.dims.length ≠ 2) ∧
    getArray1D L t f p ≠ .diverges ∧
    ∀ n x, getArray1D L t f p = .ok (n, x) → n = d.data.length ∧ x.length = n := by
  unfold getArray1D
  rw [hd]
  obtain ⟨ty, dims, data, attrs⟩ := d
  unfold WellFormedVar at hwf
  simp only at hwf ⊢
  match dims, hwf with
  | [], _ => simp
  | [n], hwf =>
    simp only [prod, List.foldr_cons, List.foldr_nil, Nat.mul_one] at hwf
    unfold readAll
    cases L.conv ty (readTy t) with
    | none => simp
    | some g =>
      simp only [List.length_singleton]
      refine ⟨by simp, by simp, ?_⟩
      intro m x h
      cases h
      exact ⟨hwf.symm, by simp [hwf]⟩
  | [r, c], hwf =>
    simp only [prod, List.foldr_cons, List.foldr_nil, Nat.mul_one] at hwf
    unfold readAll
    cases L.conv ty (readTy t) with
    | none => simp
    | some g =>
      refine ⟨by simp, by simp, ?_⟩
      intro m x h
      cases h
      exact ⟨hwf.symm, by simp [hwf]⟩
  | _ :: _ :: _ :: _, _ => simp

/-- C76, multi-dimensional arrays: reading them is safe for every rank, as long as the caller's
array has as many entries as they say. -/
theorem C76_multi_safe (L : Lib) (f : File) (p : Path) (nndims : Nat) :
    getMultiLinear L f p nndims ≠ .ub ∧ getMultiLinear L f p nndims ≠ .diverges ∧
    ∀ dims x, getMultiLinear L f p nndims = .ok (some (dims, x)) → dims.length ≤ nndims := by
  unfold getMultiLinear
  split
  · simp
  · split
    · simp
    · rename_i d hd hn
      unfold readAll
      split
      · simp
      · refine ⟨by simp, by simp, ?_⟩
        intro dims x h
        cases h
        omega

/-- C76, strings in HDF5 files: always safe. -/
theorem C76_string_safe (L : Lib) (f : File) (p : Path) :
    getString L f p ≠ .ub ∧ getString L f p ≠ .diverges := by
  unfold Hdf.getString
  split <;> simp

/-- C76, strings in MAT files: undefined exactly for ranks above two and for 16-bit character
matrices that have more elements than their width (their height, if they are one wide). -/
theorem C76_mat_string_rule (L : Lib) (f : File) (p : Path) (d : Dset)
    (hd : f.dset p = some d) (hwf : WellFormedVar d) :
    matGetString L f p = .ub ↔
      2 < d.dims.length ∨ (d.ty = .u16 ∧ ∃ a b, d.dims = [a, b] ∧ 1 < a ∧ 1 < b) := by
  unfold matGetString
  rw [hd]
  obtain ⟨ty, dims, data, attrs⟩ := d
  unfold WellFormedVar at hwf
  simp only at hwf ⊢
  match dims, hwf with
  | [], _ => simp
  | [n], hwf =>
    simp only [prod, List.foldr_cons, List.foldr_nil, Nat.mul_one] at hwf
    cases ty <;> simp [hwf]
  | [r, c], hwf =>
    simp only [prod, List.foldr_cons, List.foldr_nil, Nat.mul_one] at hwf
    cases ty with
    | u16 =>
      simp only [List.length_cons, List.length_nil, if_neg (show ¬ 2 < 0 + 1 + 1 by omega),
        if_neg (show ¬ 0 + 1 + 1 = 0 by omega), hwf]
      have hkey : (if c = 1 then r else c) < r * c ↔ 1 < r ∧ 1 < c := by
        by_cases hc : c = 1
        · subst hc; simp
        · rw [if_neg hc]
          constructor
          · intro h
            constructor
            · rcases Nat.lt_or_ge 1 r with hr | hr
              · exact hr
              · have : r * c ≤ 1 * c := Nat.mul_le_mul_right _ hr
                omega
            · rcases Nat.eq_zero_or_pos c with rfl | hc'
              · omega
              · omega
          · rintro ⟨h1, h2⟩
            calc c = 1 * c := by omega
              _ < r * c := Nat.mul_lt_mul_of_pos_right h1 (by omega)
      by_cases h : (if c = 1 then r else c) < r * c
      · simp only [if_pos h]
        have := hkey.1 h
        simp only [true_iff]
        exact .inr ⟨trivial, r, c, rfl, this⟩
      · simp only [if_neg h]
        simp only [reduceCtorEq, false_iff]
        rintro (h' | ⟨_, a, b, hab, h1, h2⟩)
        · omega
        · cases hab; exact h (hkey.2 ⟨h1, h2⟩)
    | _ => simp
  | _ :: _ :: _ :: _, _ => simp

/-- C76 as stated is false of the code: there are well-formed variables (a scalar, an array of
rank three, a character matrix) on which reading is undefined. -/
theorem C76_refuted (L : Lib) (t : NumTy) : ∃ (f : File) (p q r : Path) (a b c : Dset),
    f.dset p = some a ∧ f.dset q = some b ∧ f.dset r = some c ∧
    WellFormedVar a ∧ WellFormedVar b ∧ WellFormedVar c ∧
    getArray2D L t f p = .ub ∧ getArray1D L t f q = .ub ∧ matGetString L f r = .ub := by
  let f : File := ⟨false, [(["a".toList], .dset ⟨.f64, [], [.dbl 0], []⟩),
    (["b".toList], .dset ⟨.f64, [1, 1, 1], [.dbl 0], []⟩),
    (["c".toList], .dset ⟨.u16, [2, 2], [.int 65, .int 66, .int 67, .int 68], []⟩)]⟩
  exact ⟨f, ["a".toList], ["b".toList], ["c".toList], _, _, _, rfl, rfl, rfl, rfl, rfl, rfl, rfl, rfl, rfl⟩

/-- C76 for ranks one and two and fewer than 2^32 rows: matrix and list reads return or throw. -/
theorem C76_reads_partial (L : Lib) (t : NumTy) (f : File) (p : Path) (d : Dset)
    (hd : f.dset p = some d) (hwf : WellFormedVar d)
    (hr : (∃ n, d.dims = [n]) ∨ ∃ r c, d.dims = [r, c] ∧ r < 2 ^ 32) :
    ((∃ a, getArray2D L t f p = .ok a) ∨ ∃ e, getArray2D L t f p = .exc e) ∧
    ((∃ a, getArray1D L t f p = .ok a) ∨ ∃ e, getArray1D L t f p = .exc e) := by
  obtain ⟨h1, h2, _⟩ := C76_matrix_rule L t f p d hd hwf
  obtain ⟨k1, k2, _⟩ := C76_list_rule L t f p d hd hwf
  have hub : ¬ (d.dims.length ≠ 1 ∧ d.dims.length ≠ 2) := by
    rcases hr with ⟨n, h⟩ | ⟨r, c, h, _⟩ <;> simp [h]
  have hdiv : ¬ ∃ r c, d.dims = [r, c] ∧ 2 ^ 32 ≤ r := by
    rintro ⟨r', c', h', hlt⟩
    rcases hr with ⟨n, h⟩ | ⟨r, c, h, hs⟩
    · rw [h] at h'; cases h'
    · rw [h] at h'; cases h'; omega
  constructor
  · cases hres : getArray2D L t f p with
    | ok a => exact .inl ⟨a, rfl⟩
    | exc e => exact .inr ⟨e, rfl⟩
    | ub => exact absurd (h1.1 hres) hub
    | diverges => exact absurd (h2.1 hres) hdiv
  · cases hres : getArray1D L t f p with
    | ok a => exact .inl ⟨a, rfl⟩
    | exc e => exact .inr ⟨e, rfl⟩
    | ub => exact absurd (k1.1 hres) hub
    | diverges => exact absurd hres k2

example : WellFormedVar ⟨.i32, [2, 2], [.int 1, .int 2, .int 3, .int 4], []⟩ := by
  simp [WellFormedVar, prod]

end Softlib
