/-
Property C80: variables can be read as integers whatever their stored number type.
-/
import Verif.SFile.HdfIntModel
import Verif.SFile.HdfProps

namespace Softlib

open Softlib.Config Softlib.SFile Softlib.SFile.Hdf

/-! ### specification -/

/-- The integer an element stands for, if it stands for one (for a `double`: its truncation). -/
def intOf (D : DblToInt) (t : NumTy) (e : Elem) : Option Int :=
  match t, e with
  | .f64, .dbl b => D b
  | .f64, _ => none
  | _, .int n => some n
  | _, _ => none

/-- The number fits into `int64_t`. -/
def FitsInt64 (v : Int) : Prop := -(2 ^ 63) ≤ v ∧ v < 2 ^ 63

/-- Every element of the variable stands for an integer that fits. -/
def AllFit (D : DblToInt) (t : NumTy) (data : List Elem) : Prop :=
  ∀ e ∈ data, ∃ v, intOf D t e = some v ∧ FitsInt64 v

theorem castInt64_fits {D : DblToInt} {t : NumTy} {e : Elem} {v : Int} (h : intOf D t e = some v)
    (hf : FitsInt64 v) : castInt64 D t e = some v := by
  obtain ⟨h1, h2⟩ := hf
  cases t <;> cases e <;> simp only [intOf, castInt64, reduceCtorEq] at h ⊢
  all_goals try exact h
  · simp only [Option.some.injEq] at h ⊢
    subst h
    omega

theorem option_mapM_range {β : Type} (g : Nat → Option β) (h : Nat → β) (l : List Nat)
    (hg : ∀ i ∈ l, g i = some (h i)) : l.mapM g = some (l.map h) := by
  induction l with
  | nil => rfl
  | cons a l ih =>
    rw [List.mapM_cons, hg a (by simp), ih (fun i hi => hg i (by simp [hi]))]
    rfl

theorem option_mapM_none {α β : Type} (g : α → Option β) (l : List α) (a : α) (ha : a ∈ l)
    (hg : g a = none) : l.mapM g = none := by
  induction l with
  | nil => cases ha
  | cons b l ih =>
    rw [List.mapM_cons]
    rcases List.mem_cons.1 ha with rfl | h
    · rw [hg]; rfl
    · rw [ih h]
      cases g b <;> rfl

theorem getDataType_num {f : File} {p : Path} {d : Dset} {t : NumTy} (hd : f.dset p = some d)
    (ht : d.ty = fileTy t) : kindReader (getDataType f p) = some t := by
  unfold getDataType
  rw [hd]
  simp only [ht]
  cases t <;> rfl

theorem readAll_own {α : Type} {L : Lib} {d : Dset} {t : NumTy} {k : List Elem → α}
    (ht : d.ty = fileTy t) : readAll L d (readTy t) k = .ok (k d.data) :=
  readAll_kept (.rfl' d) ht

theorem getArray2D_rank2 {L : Lib} {f : File} {p : Path} {d : Dset} {t : NumTy} {r c : Nat}
    (hd : f.dset p = some d) (ht : d.ty = fileTy t) (hdims : d.dims = [r, c]) (hr : r < 2 ^ 32) :
    getArray2D L t f p = .ok ⟨r, c, (List.range r).map (· * c), d.data⟩ := by
  unfold getArray2D
  rw [hd]
  simp only [hdims]
  rw [if_neg (by omega), readAll_own ht]

theorem getArray2D_rank1 {L : Lib} {f : File} {p : Path} {d : Dset} {t : NumTy} {n : Nat}
    (hd : f.dset p = some d) (ht : d.ty = fileTy t) (hdims : d.dims = [n]) :
    getArray2D L t f p = .ok ⟨1, n, [0], d.data⟩ := by
  unfold getArray2D
  rw [hd]
  simp only [hdims]
  rw [readAll_own ht]

/-! ### theorems -/

/-- C80, arrays: a matrix of any number type whose elements stand for integers that fit is
returned with its extents and exactly these integers.  Missing from the full claim: values that
do not fit (wrapped for `uint64_t`, undefined for `double`) and matrices without rows. -/
theorem C80_array_partial (L : Lib) (D : DblToInt) (f : File) (p : Path) (d : Dset) (t : NumTy)
    (r c : Nat) (hd : f.dset p = some d) (ht : d.ty = fileTy t) (hdims : d.dims = [r, c])
    (hwf : WellFormedVar d) (h0 : 0 < r) (hr : r < 2 ^ 32) (hfit : AllFit D t d.data) :
    ∃ v, getIntArray L D f p = .ok ⟨r, c, v⟩ ∧ v.length = r ∧ (∀ row ∈ v, row.length = c) ∧
      ∀ i j, i < r → j < c → ∃ e x, d.data[i * c + j]? = some e ∧ intOf D t e = some x ∧
        (v[i]?).bind (fun row => row[j]?) = some x := by
  have hlen : d.data.length = r * c := by rw [hwf, hdims]; simp [prod]
  have hidx : ∀ i j, i < r → j < c → i * c + j < d.data.length := by
    intro i j hi hj
    rw [hlen]
    calc i * c + j < i * c + c := by omega
      _ = (i + 1) * c := by rw [Nat.add_mul]; omega
      _ ≤ r * c := Nat.mul_le_mul_right _ hi
  let val : Nat → Nat → Int := fun i j => ((d.data[i * c + j]?).bind (intOf D t)).getD 0
  have hcell : ∀ i j, i < r → j < c → ∃ e, d.data[i * c + j]? = some e ∧ intOf D t e = some (val i j) ∧
      castInt64 D t e = some (val i j) := by
    intro i j hi hj
    have h := hidx i j hi hj
    obtain ⟨v, hv, hf⟩ := hfit _ (List.getElem_mem h)
    have he : d.data[i * c + j]? = some (d.data[i * c + j]) := List.getElem?_eq_getElem h
    have : val i j = v := by simp only [val, he, Option.bind_some, hv, Option.getD_some]
    exact ⟨_, he, by rw [this]; exact hv, by rw [this]; exact castInt64_fits hv hf⟩
  have hrow : ∀ i ∈ List.range r, (List.range c).mapM (fun j =>
      ((((List.range r).map (· * c))[i]?).bind (fun o => d.data[o + j]?)).bind (castInt64 D t)) =
      some ((List.range c).map (val i)) := by
    intro i hi
    rw [List.mem_range] at hi
    refine option_mapM_range _ (val i) _ ?_
    intro j hj
    rw [List.mem_range] at hj
    obtain ⟨e, he, _, hc⟩ := hcell i j hi hj
    rw [List.getElem?_map, List.getElem?_range hi]
    simp only [Option.map_some, Option.bind_some, he, hc]
  have hall := option_mapM_range _ (fun i => (List.range c).map (val i)) _ hrow
  refine ⟨(List.range r).map (fun i => (List.range c).map (val i)), ?_, by simp, ?_, ?_⟩
  · unfold getIntArray
    rw [getDataType_num hd ht]
    simp only [get2DAs]
    rw [getArray2D_rank2 hd ht hdims hr]
    simp only
    rw [if_neg (by omega), hall]
  · intro row hrow
    obtain ⟨i, _, rfl⟩ := List.mem_map.1 hrow
    simp
  · intro i j hi hj
    obtain ⟨e, he, hv, _⟩ := hcell i j hi hj
    refine ⟨e, val i j, he, hv, ?_⟩
    rw [List.getElem?_map, List.getElem?_range hi]
    simp only [Option.map_some, Option.bind_some]
    rw [List.getElem?_map, List.getElem?_range hj]
    rfl

/-- C80, lists: a list of any number type whose elements stand for integers that fit is
returned as these integers in order. -/
theorem C80_list_partial (L : Lib) (D : DblToInt) (f : File) (p : Path) (d : Dset) (t : NumTy)
    (hd : f.dset p = some d) (ht : d.ty = fileTy t) (hdims : d.dims = [d.data.length])
    (hfit : AllFit D t d.data) :
    ∃ v, getIntList L D f p = .ok v ∧ d.data.map (intOf D t) = v.map some := by
  let val : Nat → Int := fun i => ((d.data[i]?).bind (intOf D t)).getD 0
  have hcell : ∀ i, i < d.data.length → ∃ e, d.data[i]? = some e ∧ intOf D t e = some (val i) ∧
      castInt64 D t e = some (val i) := by
    intro i h
    obtain ⟨v, hv, hf⟩ := hfit _ (List.getElem_mem h)
    have he : d.data[i]? = some (d.data[i]) := List.getElem?_eq_getElem h
    have : val i = v := by simp only [val, he, Option.bind_some, hv, Option.getD_some]
    exact ⟨_, he, by rw [this]; exact hv, by rw [this]; exact castInt64_fits hv hf⟩
  have hall : (List.range d.data.length).mapM (fun i => (d.data[i]?).bind (castInt64 D t)) =
      some ((List.range d.data.length).map val) := by
    refine option_mapM_range _ val _ ?_
    intro i hi
    obtain ⟨e, he, _, hc⟩ := hcell i (List.mem_range.1 hi)
    rw [he, Option.bind_some, hc]
  have hread : read1D L t f p = .ok (d.data.length, d.data) := by
    have h1 : t ≠ .f64 → getArray1D L t f p = .ok (d.data.length, d.data) := by
      intro _
      unfold getArray1D
      rw [hd]
      obtain ⟨ty, dims, data, attrs⟩ := d
      simp only at hdims ht ⊢
      rw [hdims]
      simp only
      rw [readAll_own ht]
    cases t with
    | f64 =>
      simp only [read1D, getList]
      rw [getArray2D_rank1 hd ht hdims]
      simp
    | _ => exact h1 (by simp)
  refine ⟨(List.range d.data.length).map val, ?_, ?_⟩
  · unfold getIntList
    rw [getDataType_num hd ht]
    simp only
    rw [hread]
    simp only
    rw [hall]
  · apply List.ext_getElem?
    intro i
    rw [List.getElem?_map, List.map_map, List.getElem?_map]
    by_cases hi : i < d.data.length
    · obtain ⟨e, he, hv, _⟩ := hcell i hi
      rw [he, List.getElem?_range hi]
      simp [hv]
    · rw [List.getElem?_eq_none (by omega), List.getElem?_eq_none (by simp; omega)]
      rfl

/-- C80, single integers: a 1 × 1 matrix or a list of one element of any number type. -/
theorem C80_scalar_partial (L : Lib) (D : DblToInt) (f : File) (p : Path) (d : Dset) (t : NumTy)
    (e : Elem) (v : Int) (hd : f.dset p = some d) (ht : d.ty = fileTy t)
    (hdims : d.dims = [1] ∨ d.dims = [1, 1]) (hdata : d.data = [e]) (hv : intOf D t e = some v)
    (hf : FitsInt64 v) : getInt L D f p = .ok v := by
  unfold getInt
  rw [getDataType_num hd ht]
  simp only
  have : getSingle L t f p = .ok e := by
    unfold getSingle
    rcases hdims with h | h
    · rw [getArray2D_rank1 hd ht h]; simp [hdata]
    · rw [getArray2D_rank2 hd ht h (by simp)]; simp [hdata]
  rw [this]
  simp only
  rw [castInt64_fits hv hf]

/-- Single integers are rejected with an error if the variable has other extents. -/
theorem C80_scalar_shape (L : Lib) (D : DblToInt) (f : File) (p : Path) (d : Dset) (t : NumTy)
    (hd : f.dset p = some d) (ht : d.ty = fileTy t)
    (hdims : (∃ n, d.dims = [n] ∧ n ≠ 1) ∨ ∃ r c, d.dims = [r, c] ∧ r < 2 ^ 32 ∧ (r ≠ 1 ∨ c ≠ 1)) :
    getInt L D f p = .exc .sfile := by
  unfold getInt
  rw [getDataType_num hd ht]
  simp only
  have : getSingle L t f p = .exc .sfile := by
    unfold getSingle
    rcases hdims with ⟨n, h, hn⟩ | ⟨r, c, h, hr, hn⟩
    · rw [getArray2D_rank1 hd ht h]; simp [hn]
    · rw [getArray2D_rank2 hd ht h hr]; simp only; rw [if_pos hn]
  rw [this]

/-- Variables that are not numbers, and missing ones, are rejected with an error. -/
theorem C80_not_a_number (L : Lib) (D : DblToInt) (f : File) (p : Path)
    (h : ∀ d, f.dset p = some d → ∀ t : NumTy, d.ty ≠ fileTy t) :
    getIntArray L D f p = .exc .sfile ∧ getIntList L D f p = .exc .sfile ∧
    getInt L D f p = .exc .sfile := by
  have : kindReader (getDataType f p) = none := by
    unfold getDataType
    split
    · rfl
    · rename_i d hd
      have := h d hd
      split
      · rename_i hty; exact absurd hty (this .i32)
      · rename_i hty; exact absurd hty (this .i64)
      · rename_i hty; exact absurd hty (this .u32)
      · rename_i hty; exact absurd hty (this .u64)
      · rename_i hty; exact absurd hty (this .f64)
      · rfl
      · rfl
      · rfl
  refine ⟨?_, ?_, ?_⟩
  · unfold getIntArray; rw [this]
  · unfold getIntList; rw [this]
  · unfold getInt; rw [this]

/-- A matrix without rows is undefined for every number type. -/
theorem C80_no_rows_ub (L : Lib) (D : DblToInt) (f : File) (p : Path) (d : Dset) (t : NumTy) (c : Nat)
    (hd : f.dset p = some d) (ht : d.ty = fileTy t) (hdims : d.dims = [0, c]) :
    getIntArray L D f p = .ub := by
  unfold getIntArray
  rw [getDataType_num hd ht]
  simp only [get2DAs]
  rw [getArray2D_rank2 hd ht hdims (by simp)]
  simp

/-- As a list, a matrix of integers is flattened but a matrix of doubles that is neither a row
nor a column is rejected. -/
theorem C80_list_of_matrix (L : Lib) (D : DblToInt) (f : File) (p : Path) (d : Dset) (t : NumTy)
    (r c : Nat) (hd : f.dset p = some d) (ht : d.ty = fileTy t) (hdims : d.dims = [r, c])
    (hwf : WellFormedVar d) (hr : r < 2 ^ 32) (hr1 : r ≠ 1) (hc1 : c ≠ 1) (hfit : AllFit D t d.data) :
    (t = .f64 → getIntList L D f p = .exc .sfile) ∧
    (t ≠ .f64 → ∃ v, getIntList L D f p = .ok v ∧ d.data.map (intOf D t) = v.map some) := by
  have hlen : d.data.length = r * c := by rw [hwf, hdims]; simp [prod]
  constructor
  · rintro rfl
    unfold getIntList
    rw [getDataType_num hd ht]
    simp only [read1D, getList]
    rw [getArray2D_rank2 hd ht hdims hr]
    simp only
    rw [if_neg (by simp [hr1, hc1])]
  · intro hne
    let f' : File := ⟨false, [(p, .dset ⟨d.ty, [d.data.length], d.data, []⟩)]⟩
    have hd' : f'.dset p = some ⟨d.ty, [d.data.length], d.data, []⟩ := by
      simp [f', File.dset, File.find]
    obtain ⟨v, hv, hm⟩ := C80_list_partial L D f' p _ t hd' ht rfl hfit
    refine ⟨v, ?_, hm⟩
    have hsame : getArray1D L t f p = getArray1D L t f' p := by
      unfold getArray1D
      rw [hd, hd']
      simp only [hdims]
      rw [readAll_own ht, readAll_own (d := ⟨d.ty, [d.data.length], d.data, []⟩) ht]
      rw [hlen]
    have hread : read1D L t f p = read1D L t f' p := by
      cases t with
      | f64 => exact absurd rfl hne
      | _ => exact hsame
    unfold getIntList at hv ⊢
    rw [getDataType_num hd ht]
    rw [getDataType_num hd' ht] at hv
    simp only at hv ⊢
    rw [hread]
    exact hv

/-- A column of doubles without rows has no first row: reading it as a list, of doubles or of
integers, is undefined.  (Lists of other number types without elements are read as such.) -/
theorem C80_list_no_rows (L : Lib) (D : DblToInt) (f : File) (p : Path) (d : Dset)
    (hd : f.dset p = some d) (ht : d.ty = .f64) (hdims : d.dims = [0, 1]) :
    getList L f p = .ub ∧ getIntList L D f p = .ub := by
  have h : getList L f p = .ub := by
    unfold getList
    rw [getArray2D_rank2 (t := .f64) hd ht hdims (by simp)]
    simp
  refine ⟨h, ?_⟩
  unfold getIntList
  rw [getDataType_num (t := .f64) hd ht]
  simp only [read1D, h]

example : ∃ (f : File) (d : Dset), f.dset ["x".toList] = some d ∧ d.ty = .f64 ∧ d.dims = [0, 1] ∧
    WellFormedVar d :=
  ⟨⟨false, [(["x".toList], .dset ⟨.f64, [0, 1], [], []⟩)]⟩, _, rfl, rfl, rfl, rfl⟩

/-- Values of `uint64_t` that do not fit are not rejected but wrapped. -/
theorem C80_uint64_wraps (L : Lib) (D : DblToInt) (f : File) (p : Path) (d : Dset) (n : Int)
    (hd : f.dset p = some d) (ht : d.ty = .u64) (hdims : d.dims = [1]) (hdata : d.data = [.int n])
    (h1 : 2 ^ 63 ≤ n) (h2 : n < 2 ^ 64) : getInt L D f p = .ok (n - 2 ^ 64) := by
  unfold getInt
  rw [getDataType_num (t := .u64) hd ht]
  simp only
  have : getSingle L .u64 f p = .ok (.int n) := by
    unfold getSingle
    rw [getArray2D_rank1 (t := .u64) hd ht hdims]; simp [hdata]
  rw [this]
  simp only [castInt64]
  congr 1
  omega

/-- A double that does not fit is not rejected: the behaviour is undefined. -/
theorem C80_double_ub (L : Lib) (D : DblToInt) (f : File) (p : Path) (d : Dset) (b : BitVec 64)
    (hd : f.dset p = some d) (ht : d.ty = .f64) (hdims : d.dims = [1] ∨ d.dims = [1, 1]) (hdata : d.data = [.dbl b])
    (hb : D b = none) : getInt L D f p = .ub := by
  unfold getInt
  rw [getDataType_num (t := .f64) hd ht]
  simp only
  have : getSingle L .f64 f p = .ok (.dbl b) := by
    unfold getSingle
    rcases hdims with h | h
    · rw [getArray2D_rank1 (t := .f64) hd ht h]; simp [hdata]
    · rw [getArray2D_rank2 (t := .f64) hd ht h (by simp)]; simp [hdata]
  rw [this]
  simp only [castInt64, hb]

/-- C80 as stated is false of the code: a value that does not fit is returned as another one. -/
theorem C80_refuted (L : Lib) (D : DblToInt) : ∃ (f : File) (p : Path) (d : Dset) (n : Int),
    f.dset p = some d ∧ WellFormedVar d ∧ d.ty = .u64 ∧ d.data = [.int n] ∧
    ∃ m, getInt L D f p = .ok m ∧ m ≠ n := by
  refine ⟨⟨false, [(["a".toList], .dset ⟨.u64, [1], [.int (2 ^ 63)], []⟩)]⟩, ["a".toList], _, 2 ^ 63, rfl,
    rfl, rfl, rfl, _, C80_uint64_wraps L D _ _ ⟨.u64, [1], [.int (2 ^ 63)], []⟩ (2 ^ 63) rfl rfl rfl rfl
      (by omega) (by omega), by omega⟩

example : AllFit (fun _ => none) .i32 [.int 1, .int (-5)] := by
  intro e he
  simp only [List.mem_cons, List.not_mem_nil, or_false] at he
  rcases he with rfl | rfl
  · exact ⟨1, rfl, by unfold FitsInt64; omega⟩
  · exact ⟨-5, rfl, by unfold FitsInt64; omega⟩

end Softlib
