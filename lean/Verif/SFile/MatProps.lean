/-
Properties C77 (failures are reported by SFileException), C78 (attributes do not interfere)
and C79 (header of MAT files).
-/
import Verif.SFile.HdfProps
import Verif.SFile.MatHeaderModel
import Verif.SFile.SdtLemmas

namespace Softlib

open Softlib.Config Softlib.SFile Softlib.SFile.Hdf

/-! ### C77 -/

/-- C77 for reading variables: if there is no variable of the given name every reading function
of both formats throws `SFileException`.
Missing from the full claim: missing attributes, unreadable types and failed writes. -/
theorem C77_missing_variable_partial (L : Lib) (f : File) (p : Path) (t : NumTy) (n : Nat)
    (h : f.dset p = none) :
    getArray2D L t f p = .exc .sfile ∧ getArray1D L t f p = .exc .sfile ∧
    getMultiLinear L f p n = .exc .sfile ∧ Hdf.getString L f p = .exc .sfile ∧
    matGetString L f p = .exc .sfile ∧ getList L f p = .exc .sfile ∧
    getSingle L t f p = .exc .sfile ∧
    (∀ m, getAttrScalar f p m = .exc .sfile) ∧ (∀ m, getAttrString L f p m = .exc .sfile) := by
  have h2 : ∀ t, getArray2D L t f p = .exc .sfile := by intro t; unfold getArray2D; rw [h]
  refine ⟨h2 t, ?_, ?_, ?_, ?_, ?_, ?_, ?_, ?_⟩
  · unfold getArray1D; rw [h]
  · unfold getMultiLinear; rw [h]
  · unfold Hdf.getString; rw [h]
  · unfold matGetString; rw [h]
  · unfold getList; rw [h2]
  · unfold getSingle; rw [h2]
  · intro m; unfold getAttrScalar; rw [h]
  · intro m; unfold getAttrString; rw [h]

theorem createWrite_not_sfile (L : Lib) (f : File) (p : Path) (ty mt : Ty) (dims : List Nat)
    (buf : Option (List Elem)) : (createWrite L f p ty mt dims buf).2 ≠ .exc .sfile := by
  unfold createWrite
  split
  · simp
  · split
    · simp
    · simp only
      split
      · simp
      · split
        · simp
        · split <;> simp

theorem addAttr_not_sfile (f : File) (p : Path) (n : Str) (a : Attr) :
    (addAttr f p n a).2 ≠ .exc .sfile := by
  unfold addAttr
  split
  · simp
  · split <;> simp

theorem createGroup_not_sfile (f : File) (p : Path) (as : List (Str × Attr)) :
    (createGroup f p as).2 ≠ .exc .sfile := by
  unfold createGroup
  split <;> simp

theorem andThen_not_sfile {r : WRes} {k : File → WRes} (h : r.2 ≠ .exc .sfile)
    (hk : ∀ g, (k g).2 ≠ .exc .sfile) : (r.andThen k).2 ≠ .exc .sfile := by
  unfold WRes.andThen
  split
  · exact hk _
  · exact h

/-- C77 fails for all writes: no writing function of either format ever throws `SFileException`,
so every failure of a write is an exception of the HDF5 library (or undefined). -/
theorem C77_writes_never_throw_sfile (L : Lib) (fmt : Fmt) (f : File) (o : Op) :
    (write L fmt f o).2 ≠ .exc .sfile := by
  have hstr : ∀ (f : File) (p : Path) (s : List UInt8), (matWriteString L f p s).2 ≠ .exc .sfile :=
    fun f p s => andThen_not_sfile (andThen_not_sfile (createWrite_not_sfile _ _ _ _ _ _ _)
      (fun g => addAttr_not_sfile _ _ _ _)) (fun g => addAttr_not_sfile _ _ _ _)
  cases fmt <;> cases o
  · exact createWrite_not_sfile _ _ _ _ _ _ _
  · exact createWrite_not_sfile _ _ _ _ _ _ _
  · exact createWrite_not_sfile _ _ _ _ _ _ _
  · exact createWrite_not_sfile _ _ _ _ _ _ _
  · exact addAttr_not_sfile _ _ _ _
  · exact addAttr_not_sfile _ _ _ _
  · exact createGroup_not_sfile _ _ _
  · exact andThen_not_sfile (createWrite_not_sfile _ _ _ _ _ _ _) (fun g => addAttr_not_sfile _ _ _ _)
  · exact createWrite_not_sfile _ _ _ _ _ _ _
  · refine andThen_not_sfile (createWrite_not_sfile _ _ _ _ _ _ _) (fun g => ?_)
    split
    · exact addAttr_not_sfile _ _ _ _
    · exact hstr _ _ _
  · exact hstr _ _ _
  · exact createWrite_not_sfile _ _ _ _ _ _ _
  · exact hstr _ _ _
  · exact createGroup_not_sfile _ _ _

/-- Writing under a name that is taken fails, with an exception of the HDF5 library, in both
formats and whatever the kind of the data, and leaves the file unchanged. -/
theorem C77_taken_name_throws (L : Lib) (fmt : Fmt) (f : File) (p : Path) (o : Obj)
    (h : f.find p = some o) (t : NumTy) (arr : List (List Elem)) (xs : List Elem) (rows cols n : Nat)
    (s : List UInt8) :
    write L fmt f (.array t p arr rows cols) = (f, .exc .h5File) ∧
    write L fmt f (.list t p xs n) = (f, .exc .h5File) ∧
    write L fmt f (.string p s) = (f, .exc .h5File) ∧
    write L fmt f (.struct p) = (f, .exc .h5File) := by
  have hno : f.canCreate p = false := by
    cases hc : f.canCreate p with
    | false => rfl
    | true => rw [hdf_canCreate_iff, h] at hc; exact absurd hc.2.2.1 (by simp)
  have hcw : ∀ ty mt dims buf, dims.length ≤ 32 →
      createWrite L f p ty mt dims buf = (f, .exc .h5File) := by
    intro ty mt dims buf hd
    unfold createWrite
    rw [if_neg (by omega), if_pos (show (!f.canCreate p) = true by rw [hno]; rfl)]
  have hg : ∀ as, createGroup f p as = (f, .exc .h5File) := by
    intro as
    unfold createGroup
    rw [if_pos (show (!f.canCreate p) = true by rw [hno]; rfl)]
  cases fmt
  · refine ⟨?_, ?_, ?_, hg _⟩
    · exact hcw _ _ [rows, cols] _ (by simp)
    · exact hcw (fileTy t) (memTy t) [n] (some xs) (by simp)
    · exact hcw .s1 .s1 [s.length] (some (s.map .byte)) (by simp)
  · refine ⟨?_, ?_, ?_, hg _⟩
    rotate_left
    · exact hcw (fileTy t) (memTy t) [n] (some xs) (by simp)
    rotate_left
    · simp only [write, matWriteArray, writeNumArray]
      rw [hcw _ _ _ _ (by simp)]; rfl
    · simp only [write, matWriteString]
      rw [hcw _ _ _ _ (by simp)]; rfl

/-- Reading an attribute that a variable does not have throws an exception of the HDF5
library. -/
theorem C77_missing_attribute_throws (L : Lib) (f : File) (p : Path) (n : Str) (d : Dset)
    (hd : f.dset p = some d) (hn : lookupIn n d.attrs = none) :
    getAttrScalar f p n = .exc .h5Attribute ∧ getAttrString L f p n = .exc .h5Attribute := by
  constructor
  · unfold getAttrScalar; rw [hd]; simp only; rw [hn]
  · unfold getAttrString; rw [hd]; simp only; rw [hn]

/-- C77 as stated is false of the code: a write and a read that fail with another exception. -/
theorem C77_refuted (L : Lib) : ∃ (f : File) (o : Op) (p : Path) (n : Str) (e e' : Exc),
    (∀ fmt, (write L fmt f o).2 = .exc e) ∧ e ≠ .sfile ∧ getAttrScalar f p n = .exc e' ∧ e' ≠ .sfile := by
  let f : File := ⟨true, [(["a".toList], .dset ⟨.f64, [1], [.dbl 0], []⟩)]⟩
  refine ⟨f, .list .f64 ["a".toList] [.dbl 1] 1, ["a".toList], "x".toList, .h5File, .h5Attribute, ?_,
    by simp, ?_, by simp⟩
  · intro fmt
    rw [(C77_taken_name_throws L fmt f ["a".toList] _ rfl .f64 [] [.dbl 1] 0 0 1 []).2.1]
  · exact (C77_missing_attribute_throws L f ["a".toList] "x".toList _ rfl rfl).1

/-! ### C78 -/

/-- C78 for HDF5 files, real attributes: if the variable exists and does not have the attribute
yet, writing succeeds and the value is read back, whatever is written before and after. -/
theorem C78_hdf5_scalar (L : Lib) (f : File) (p : Path) (n : Str) (x : BitVec 64) (d : Dset)
    (hw : f.writable = true) (hd : f.dset p = some d) (hn : lookupIn n d.attrs = none) :
    ∃ f', write L .hdf5 f (.attrScalar p n x) = (f', .ok ()) ∧
      ∀ later : List Op, getAttrScalar (writes L .hdf5 f' later) p n = .ok x := by
  simp only [write, writeAttrScalar]
  rw [addAttr_ok hw hd hn]
  refine ⟨_, rfl, fun later => ?_⟩
  obtain ⟨d', hd', hk⟩ := hdf_dset_after (L := L) (fmt := .hdf5) later (hdf_dset_set (d' :=
    { d with attrs := d.attrs ++ [(n, (⟨.f64, [], [.dbl x]⟩ : Attr))] }) hd)
  unfold getAttrScalar
  rw [hd']
  simp only
  have ha : lookupIn n d'.attrs = some ⟨.f64, [], [.dbl x]⟩ := by
    refine hk.2.2.2 n _ ?_
    show lookupIn n (d.attrs ++ _) = _
    rw [hdf_lookupIn_append_none _ hn]
    simp [lookupIn]
  rw [ha]

/-- C76, C78: reading an attribute as a number is defined exactly when it is stored as one `double`; every other attribute, such as a
string, is read in its own type into the memory of one number. -/
theorem C76_attribute_iff (f : File) (p : Path) (n : Str) (d : Dset) (a : Attr) (hd : f.dset p = some d) (ha : lookupIn n d.attrs = some a) :
    (∀ x, getAttrScalar f p n = .ok x ↔ a.ty = .f64 ∧ a.data = [.dbl x]) ∧
    (getAttrScalar f p n = .ub ↔ ¬ (a.ty = .f64 ∧ ∃ x, a.data = [.dbl x])) := by
  obtain ⟨ty, dims, data⟩ := a
  simp only [getAttrScalar, hd, ha]
  clear ha hd
  cases ty <;> rcases data with _ | ⟨_ | _ | _, _ | ⟨_, _⟩⟩ <;> simp

/-- C76 as stated is refuted for attributes: a string attribute read as a number. -/
theorem C76_refuted_attribute (L : Lib) : ∃ (f : File) (p : Path) (n : Str) (s : List UInt8),
    (write L .hdf5 f (.attrString p n s)).2 = .ok () ∧ getAttrScalar (write L .hdf5 f (.attrString p n s)).1 p n = .ub := by
  refine ⟨⟨true, [(["a".toList], .dset ⟨.f64, [1], [.dbl 0], []⟩)]⟩, ["a".toList], "x".toList, [65, 66], ?_, ?_⟩
  · rfl
  · rfl

/-- C78 for HDF5 files, string attributes (cut off at the first zero byte). -/
theorem C78_hdf5_string (L : Lib) (f : File) (p : Path) (n : Str) (s : List UInt8) (d : Dset)
    (hw : f.writable = true) (hd : f.dset p = some d) (hn : lookupIn n d.attrs = none) :
    ∃ f', write L .hdf5 f (.attrString p n s) = (f', .ok ()) ∧
      ∀ later : List Op, getAttrString L (writes L .hdf5 f' later) p n = .ok (s.takeWhile (· ≠ 0)) := by
  simp only [write, writeAttrString]
  rw [addAttr_ok hw hd hn]
  refine ⟨_, rfl, fun later => ?_⟩
  obtain ⟨d', hd', hk⟩ := hdf_dset_after (L := L) (fmt := .hdf5) later (hdf_dset_set (d' :=
    { d with attrs := d.attrs ++ [(n, (⟨.s1, [s.length], s.map .byte⟩ : Attr))] }) hd)
  unfold getAttrString
  rw [hd']
  simp only
  have ha : lookupIn n d'.attrs = some ⟨.s1, [s.length], s.map .byte⟩ := by
    refine hk.2.2.2 n _ ?_
    show lookupIn n (d.attrs ++ _) = _
    rw [hdf_lookupIn_append_none _ hn]
    simp [lookupIn]
  rw [ha]
  simp only [hdf_raw_bytes, cString]

example : ∃ (f : File) (d : Dset), f.writable = true ∧ f.dset ["a".toList] = some d ∧
    lookupIn "x".toList d.attrs = none :=
  ⟨⟨true, [(["a".toList], .dset ⟨.f64, [1], [.dbl 0], []⟩)]⟩, _, rfl, rfl, rfl⟩

/-- The combined names of MAT and SDT files are unambiguous if attribute names contain no
underscore. -/
theorem attrName_inj {d d' n n' : Str} (hn : '_' ∉ n) (hn' : '_' ∉ n')
    (h : attrName d n = attrName d' n') : d = d' ∧ n = n' := by
  have hr : (attrName d n).reverse = (attrName d' n').reverse := by rw [h]
  simp only [attrName, List.reverse_append, List.reverse_cons, List.append_assoc,
    List.singleton_append] at hr
  have key : ∀ (a b c e : Str), '_' ∉ a → '_' ∉ b → a ++ '_' :: c = b ++ '_' :: e → a = b ∧ c = e := by
    intro a
    induction a with
    | nil =>
      intro b c e _ hb h
      cases b with
      | nil => simp at h; exact ⟨rfl, h⟩
      | cons x b => simp at h; exact absurd (by rw [← h.1]; simp) hb
    | cons x a ih =>
      intro b c e ha hb h
      cases b with
      | nil => simp at h; exact absurd (by rw [h.1]; simp) ha
      | cons y b =>
        simp only [List.cons_append, List.cons.injEq] at h
        obtain ⟨h1, h2⟩ := ih b c e (fun hh => ha (List.mem_cons_of_mem _ hh))
          (fun hh => hb (List.mem_cons_of_mem _ hh)) h.2
        exact ⟨by rw [h.1, h1], h2⟩
  obtain ⟨h1, h2⟩ := key _ _ _ _ (by simpa using hn) (by simpa using hn') hr
  exact ⟨List.reverse_inj.1 h2, List.reverse_inj.1 h1⟩

/-- C78, when an attribute of a data set of an HDF5 file can be written: exactly when the file is writable and the data set has no
attribute of that name; otherwise an exception is thrown and the file is as before. -/
theorem C78_hdf5_written_iff (L : Lib) (f : File) (p : Path) (n : Str) (o : Op) (x : BitVec 64) (s : List UInt8)
    (ho : o = .attrScalar p n x ∨ o = .attrString p n s) :
    ((write L .hdf5 f o).2 = .ok () ↔ f.writable = true ∧ ∃ d, f.dset p = some d ∧ lookupIn n d.attrs = none) ∧
    ((write L .hdf5 f o).2 ≠ .ok () → (write L .hdf5 f o).1 = f ∧
      ((write L .hdf5 f o).2 = .exc .h5File ∨ (write L .hdf5 f o).2 = .exc .h5Attribute)) := by
  have key : ∀ a : Attr, ((addAttr f p n a).2 = .ok () ↔ f.writable = true ∧ ∃ d, f.dset p = some d ∧ lookupIn n d.attrs = none) ∧
      ((addAttr f p n a).2 ≠ .ok () → (addAttr f p n a).1 = f ∧
        ((addAttr f p n a).2 = .exc .h5File ∨ (addAttr f p n a).2 = .exc .h5Attribute)) := by
    intro a
    unfold addAttr
    cases hd : f.dset p with
    | none => simp
    | some d =>
      by_cases hc : (!f.writable || (lookupIn n d.attrs).isSome) = true
      · simp only [if_pos hc]
        refine ⟨⟨fun h => by simp at h, fun ⟨h1, d', h2, h3⟩ => ?_⟩, fun _ => ⟨by simp, by simp⟩⟩
        cases h2
        rw [h1, h3] at hc
        simp at hc
      · simp only [if_neg hc]
        refine ⟨⟨fun _ => ?_, fun _ => trivial⟩, fun h => absurd rfl h⟩
        simp only [Bool.or_eq_true, Bool.not_eq_true', not_or, Bool.not_eq_false, Bool.not_eq_true, Option.isSome_eq_false_iff,
          Option.isNone_iff_eq_none] at hc
        exact ⟨hc.1, d, rfl, hc.2⟩
  rcases ho with rfl | rfl
  · exact key _
  · exact key _

/-- C78 for MAT and SDT files: attributes without underscore in their names have different
combined names unless variable and attribute are the same.  Missing: attribute names with an
underscore, and variables whose name is such a combined name (see the refutation). -/
theorem C78_names_partial (p p' : Path) (n n' : Str) (hp : p ≠ []) (hp' : p' ≠ [])
    (hn : '_' ∉ n) (hn' : '_' ∉ n') :
    (attrPath p n = attrPath p' n' → p = p' ∧ n = n') ∧
    (∀ d d' : Str, attrName d n = attrName d' n' → d = d' ∧ n = n') := by
  refine ⟨?_, fun d d' h => attrName_inj hn hn' h⟩
  intro h
  unfold attrPath at h
  obtain ⟨h1, h2⟩ := List.append_inj' h rfl
  simp only [List.cons.injEq, and_true] at h2
  obtain ⟨h3, h4⟩ := attrName_inj hn hn' h2
  refine ⟨?_, h4⟩
  rw [List.getLast?_eq_some_getLast hp, List.getLast?_eq_some_getLast hp'] at h3
  simp only [Option.getD_some] at h3
  rw [← List.dropLast_concat_getLast hp, ← List.dropLast_concat_getLast hp', h1, h3]

/-- C78 for MAT files: if the combined name is free the attribute is written and read back,
whatever is written later.  Missing: the combined name may be taken although the variable has
no such attribute. -/
theorem C78_mat_partial (L : Lib) (f : File) (p : Path) (n : Str) (x : BitVec 64)
    (hp : FreePath f (attrPath p n)) :
    ∃ f', write L .mat f (.attrScalar p n x) = (f', .ok ()) ∧
      ∀ later : List Op, matGetAttrScalar L (writes L .mat f' later) p n = .ok (.dbl x) := by
  obtain ⟨f', hw, h⟩ := C74_scalar L .mat f (attrPath p n) (.dbl x) hp
  exact ⟨f', hw, h⟩

/-- The same for string attributes of MAT files. -/
theorem C78_mat_string_partial (L : Lib) (f : File) (p : Path) (n : Str) (s : List UInt8)
    (hp : FreePath f (attrPath p n)) (hs : 0 ∉ s) :
    ∃ f', write L .mat f (.attrString p n s) = (f', .ok ()) ∧
      ∀ later : List Op, matGetAttrString L (writes L .mat f' later) p n = .ok s := by
  obtain ⟨f', hw, h⟩ := C75_strings_partial L .mat f (attrPath p n) s hp hs
  exact ⟨f', hw, h⟩

/-- C78 as stated is false of the code.  In MAT files, once attribute "b_c" of variable "a" is
written, attribute "c" of variable "a_b" cannot be written, and reading it gives the value of
the other attribute.  In SDT files reading it does so, too. -/
theorem C78_refuted (L : Lib) (x y : BitVec 64) :
    (∃ f1, write L .mat ⟨true, []⟩ (.attrScalar ["a".toList] "b_c".toList x) = (f1, .ok ()) ∧
      write L .mat f1 (.attrScalar ["a_b".toList] "c".toList y) = (f1, .exc .h5File) ∧
      matGetAttrScalar L f1 ["a_b".toList] "c".toList = .ok (.dbl x)) ∧
    (∀ (α : Type) (st : Store α), getAttributeScalar st "a_b".toList "c".toList =
      getAttributeScalar st "a".toList "b_c".toList) := by
  constructor
  · obtain ⟨f1, hw, h⟩ := C78_mat_partial L ⟨true, []⟩ ["a".toList] "b_c".toList x
      ⟨rfl, by simp [attrPath], rfl, .inl rfl⟩
    have hpath : attrPath ["a_b".toList] "c".toList = attrPath ["a".toList] "b_c".toList := by decide
    refine ⟨f1, hw, ?_, ?_⟩
    · have hfind : ∃ o, f1.find (attrPath ["a".toList] "b_c".toList) = some o := by
        obtain ⟨f2, hw2, hd⟩ := write_list_stored (L := L) (fmt := .mat) (t := .f64) (f := ⟨true, []⟩)
          (p := attrPath ["a".toList] "b_c".toList) (arr := [.dbl x]) (n := 1)
          ⟨rfl, by simp [attrPath], rfl, .inl rfl⟩ (by simp)
        have : write L .mat ⟨true, []⟩ (.attrScalar ["a".toList] "b_c".toList x) = (f2, .ok ()) := hw2
        rw [hw] at this; cases this
        exact ⟨_, hdf_dset_of_find.1 hd⟩
      obtain ⟨o, ho⟩ := hfind
      have := (C77_taken_name_throws L .mat f1 _ o ho .f64 [] [.dbl y] 0 0 1 []).2.1
      show matWriteList L .f64 f1 (attrPath ["a_b".toList] "c".toList) [.dbl y] 1 = _
      rw [hpath]
      exact this
    · have := h []
      simp only [writes, List.foldl_nil, matGetAttrScalar] at this ⊢
      rw [hpath]; exact this
  · intro α st
    have : attrName "a_b".toList "c".toList = attrName "a".toList "b_c".toList := by decide
    unfold getAttributeScalar
    rw [this]

/-! ### C79 -/

/-- A calendar date and time of day, as `localtime` delivers it (a leap second is allowed). -/
def ValidTm (t : Tm) : Prop :=
  t.wday < 7 ∧ t.mon < 12 ∧ 1 ≤ t.mday ∧ t.mday ≤ 31 ∧ t.hour < 24 ∧ t.min < 60 ∧ t.sec ≤ 60 ∧
    1900 + t.year < 2 ^ 31

/-- The abbreviation of the month numbered from zero. -/
def monthAbbrev (m : Nat) : String :=
  match m with
  | 0 => "Jan" | 1 => "Feb" | 2 => "Mar" | 3 => "Apr" | 4 => "May" | 5 => "Jun"
  | 6 => "Jul" | 7 => "Aug" | 8 => "Sep" | 9 => "Oct" | 10 => "Nov" | _ => "Dec"

/-- The abbreviation of the day of the week. -/
def dayAbbrev (d : Nat) : String :=
  match d with
  | 0 => "Sun" | 1 => "Mon" | 2 => "Tue" | 3 => "Wed" | 4 => "Thu" | 5 => "Fri" | _ => "Sat"

/-- A number of at most two digits with both of them. -/
def twoDigits (n : Nat) : Str := [Nat.digitChar (n / 10), Nat.digitChar (n % 10)]

/-- The header's text with the given month. -/
def headerWithMonth (t : Tm) (month : String) : Str :=
  "MATLAB 7.3 MAT-file, Platform: libsoft, Created on: ".toList ++ (dayAbbrev t.wday).toList ++ [' '] ++
    month.toList ++ [' '] ++ twoDigits t.mday ++ [' '] ++ twoDigits t.hour ++ [':'] ++ twoDigits t.min ++
    [':'] ++ twoDigits t.sec ++ [' '] ++ (1900 + t.year).repr.toList ++ " HDF5 schema 1.00 .".toList

/-- A valid header: 116 characters of text, padded with blanks, 8 zero bytes, the version 0x0200
and the byte-order mark "IM". -/
def IsMatHeader (text : Str) (b : List UInt8) : Prop :=
  text.length ≤ 116 ∧
  b = (text ++ List.replicate (116 - text.length) ' ').map (fun c => UInt8.ofNat c.toNat) ++
    [0, 0, 0, 0, 0, 0, 0, 0, 0x00, 0x02, 0x49, 0x4D]

theorem natText_length_le (k : Nat) : ∀ n, n < 10 ^ (k + 1) → (natText n).length ≤ k + 1 := by
  induction k with
  | zero =>
    intro n hn
    rw [natText, dif_pos (by omega)]; simp
  | succ k ih =>
    intro n hn
    rw [natText]
    split
    · simp
    · have := ih (n / 10) (by rw [Nat.pow_succ] at hn; omega)
      simp; omega

theorem digitChar_eq : ∀ d, d < 10 → Nat.digitChar d = Char.ofNat (48 + d) := by decide

theorem natText_repr (n : Nat) : natText n = n.repr.toList := by
  rw [Nat.toList_repr]
  induction n using Nat.strongRecOn with
  | ind n ih =>
    rw [natText, Nat.toDigits_eq_if (by decide)]
    by_cases h : n < 10
    · rw [dif_pos h, if_pos h, digitChar_eq _ h]
    · rw [dif_neg h, if_neg h, ih (n / 10) (by omega), digitChar_eq _ (by omega)]

theorem two_eq (n : Nat) (h : n < 100) : two n = twoDigits n := by
  unfold two twoDigits
  by_cases h1 : n < 10
  · rw [if_pos h1, natText, dif_pos h1, Nat.div_eq_of_lt h1, Nat.mod_eq_of_lt h1, digitChar_eq _ h1]; rfl
  · rw [if_neg h1, natText, dif_neg h1, natText, dif_pos (by omega), digitChar_eq _ (by omega),
      digitChar_eq _ (by omega)]; rfl

theorem headerText_eq (t : Tm) (h : ValidTm t) (hm : t.mon ≠ 0) :
    headerText t = some (headerWithMonth t (monthAbbrev (t.mon - 1))) := by
  have h1 := h.1
  have h2 := h.2.1
  obtain ⟨_, _, _, t4, t5, t6, t7, _⟩ := h
  have hd : atIndex dayNames t.wday = some (dayAbbrev t.wday) :=
    (show ∀ d, d < 7 → atIndex dayNames (d : Nat) = some (dayAbbrev d) by decide) _ h1
  have hmn : atIndex monthNames ((t.mon : Int) - 1) = some (monthAbbrev (t.mon - 1)) :=
    (show ∀ m : Nat, m < 12 → m ≠ 0 → atIndex monthNames ((m : Int) - 1) = some (monthAbbrev (m - 1)) by
      decide) _ h2 hm
  unfold headerText
  have e1 : "MATLAB 7.3 MAT-file, ".toList ++ "Platform: libsoft, ".toList ++ "Created on: ".toList =
      "MATLAB 7.3 MAT-file, Platform: libsoft, Created on: ".toList := by decide +kernel
  have e2 : [' '] ++ "HDF5 schema 1.00 .".toList = " HDF5 schema 1.00 .".toList := by decide +kernel
  extract_lets imon
  subst imon
  rw [hd, hmn]
  simp only
  unfold headerWithMonth
  rw [e1, List.append_assoc _ [' '] "HDF5 schema 1.00 .".toList, e2, two_eq t.mday (by omega),
    two_eq t.hour (by omega), two_eq t.min (by omega), two_eq t.sec (by omega), natText_repr]

theorem headerWithMonth_length (t : Tm) (h : ValidTm t) (m : String) (hm : m.toList.length = 3) :
    (headerWithMonth t m).length ≤ 116 := by
  obtain ⟨_, _, _, h4, h5, h6, h7, h8⟩ := h
  have hy := natText_length_le 9 (1900 + t.year) (by omega)
  rw [natText_repr] at hy
  have hd : (dayAbbrev t.wday).toList.length = 3 := by
    unfold dayAbbrev; split <;> rfl
  unfold headerWithMonth
  have h2 : ∀ n, (twoDigits n).length = 2 := fun _ => rfl
  simp only [List.length_append, h2, hd, hm, List.length_singleton]
  have e1 : "MATLAB 7.3 MAT-file, Platform: libsoft, Created on: ".toList.length = 52 := by decide +kernel
  have e2 : " HDF5 schema 1.00 .".toList.length = 19 := by decide +kernel
  omega

theorem monthAbbrev_length (m : Nat) : (monthAbbrev m).toList.length = 3 := by
  unfold monthAbbrev; split <;> rfl

/-- C79, in January: creating a MAT file is undefined, at every time. -/
theorem C79_january_ub (t : Tm) (h : ValidTm t) (hm : t.mon = 0) : createMat t = .ub := by
  have hn : atIndex monthNames ((t.mon : Int) - 1) = none := by rw [hm]; rfl
  unfold createMat headerText
  simp only [hn]
  cases atIndex dayNames t.wday <;> rfl

/-- C79 in all other months: the header is well-formed, 128 bytes long, but names the previous
month.  Missing from the full claim: the right month, and January. -/
theorem C79_header_partial (t : Tm) (h : ValidTm t) (hm : t.mon ≠ 0) :
    ∃ b, createMat t = .bytes b ∧ b.length = 128 ∧
      IsMatHeader (headerWithMonth t (monthAbbrev (t.mon - 1))) b := by
  have hl := headerWithMonth_length t h _ (monthAbbrev_length (t.mon - 1))
  unfold createMat
  rw [headerText_eq t h hm]
  simp only
  rw [if_neg (by omega)]
  have hmarks : le32 0 ++ (le32 0 ++ le32 0x4D490200) =
      ([0, 0, 0, 0, 0, 0, 0, 0, 0x00, 0x02, 0x49, 0x4D] : List UInt8) := by decide
  refine ⟨_, rfl, ?_, hl, ?_⟩
  · rw [List.append_assoc, List.append_assoc, hmarks]
    simp; omega
  · rw [List.append_assoc, List.append_assoc, hmarks]

/-- C79 as stated is false of the code: on the 1st of January 2025 it is undefined, on the 1st of
February 2025 the header says "Jan". -/
theorem C79_refuted : ¬ ∀ t, ValidTm t →
    ∃ b, createMat t = .bytes b ∧ IsMatHeader (headerWithMonth t (monthAbbrev t.mon)) b := by
  intro h
  obtain ⟨b, hb, _⟩ := h ⟨3, 0, 1, 0, 0, 0, 125⟩ (by simp [ValidTm])
  rw [C79_january_ub _ (by simp [ValidTm]) rfl] at hb
  cases hb

theorem headerWithMonth_split (t : Tm) : ∃ (pre post : Str), pre.length = 56 ∧
    ∀ m, headerWithMonth t m = pre ++ (m.toList ++ post) := by
  refine ⟨"MATLAB 7.3 MAT-file, Platform: libsoft, Created on: ".toList ++ (dayAbbrev t.wday).toList ++ [' '],
    [' '] ++ twoDigits t.mday ++ [' '] ++ twoDigits t.hour ++ [':'] ++ twoDigits t.min ++
    [':'] ++ twoDigits t.sec ++ [' '] ++ (1900 + t.year).repr.toList ++ " HDF5 schema 1.00 .".toList, ?_, ?_⟩
  · have : (dayAbbrev t.wday).toList.length = 3 := by unfold dayAbbrev; split <;> rfl
    have e1 : "MATLAB 7.3 MAT-file, Platform: libsoft, Created on: ".toList.length = 52 := by decide +kernel
    simp only [List.length_append, this, e1, List.length_singleton]
  · intro m
    unfold headerWithMonth
    simp only [List.append_assoc]

/-- Nor is it true outside January: the header never names the current month. -/
theorem C79_wrong_month (t : Tm) (h : ValidTm t) (b : List UInt8) (hb : createMat t = .bytes b) :
    ¬ IsMatHeader (headerWithMonth t (monthAbbrev t.mon)) b := by
  have hm : t.mon ≠ 0 := by
    intro hm; rw [C79_january_ub t h hm] at hb; cases hb
  obtain ⟨b', hb', _, _, hh⟩ := C79_header_partial t h hm
  rw [hb] at hb'; cases hb'
  rintro ⟨_, hh'⟩
  rw [hh] at hh'
  obtain ⟨pre, post, hpre, hsplit⟩ := headerWithMonth_split t
  have key : ∀ (m : String) (r : Str) (s : List UInt8), m.toList.length = 3 →
      (((headerWithMonth t m ++ r).map (fun c => UInt8.ofNat c.toNat) ++ s).drop 56).take 3 =
        m.toList.map (fun c => UInt8.ofNat c.toNat) := by
    intro m r s hm3
    rw [hsplit, List.append_assoc, List.append_assoc, List.map_append, List.append_assoc,
      List.drop_left' (by simp [hpre]), List.map_append, List.append_assoc,
      List.take_left' (by simp [hm3])]
  have h56 := congrArg (fun l : List UInt8 => (l.drop 56).take 3) hh'
  simp only [key _ _ _ (monthAbbrev_length _)] at h56
  obtain ⟨_, h2, _⟩ := h
  clear key hsplit hh' hh hb
  generalize t.mon = m at h2 hm h56
  match m, h2, hm with
  | 1, _, _ => exact absurd h56 (by decide)
  | 2, _, _ => exact absurd h56 (by decide)
  | 3, _, _ => exact absurd h56 (by decide)
  | 4, _, _ => exact absurd h56 (by decide)
  | 5, _, _ => exact absurd h56 (by decide)
  | 6, _, _ => exact absurd h56 (by decide)
  | 7, _, _ => exact absurd h56 (by decide)
  | 8, _, _ => exact absurd h56 (by decide)
  | 9, _, _ => exact absurd h56 (by decide)
  | 10, _, _ => exact absurd h56 (by decide)
  | 11, _, _ => exact absurd h56 (by decide)

example : ValidTm ⟨1, 10, 16, 2, 43, 0, 126⟩ := by simp [ValidTm]

/-- On the 16th of November 2026 the header names October. -/
example : headerText ⟨1, 10, 16, 2, 43, 0, 126⟩ =
    some "MATLAB 7.3 MAT-file, Platform: libsoft, Created on: Mon Oct 16 02:43:00 2026 HDF5 schema 1.00 .".toList := by
  decide +kernel

end Softlib
