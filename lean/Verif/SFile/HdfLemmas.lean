/-
Lemmas on the HDF5 file table: what a write leaves in place.
-/
import Verif.SFile.HdfModel

namespace Softlib

open Softlib.Config Softlib.SFile Softlib.SFile.Hdf

/-- A data set keeps its type, extents and elements and can only gain attributes. -/
def DsetKept (d d' : Dset) : Prop :=
  d'.ty = d.ty ∧ d'.dims = d.dims ∧ d'.data = d.data ∧
    ∀ n a, lookupIn n d.attrs = some a → lookupIn n d'.attrs = some a

/-- Every data set of `f` is still there in `f'`. -/
def FileKept (f f' : File) : Prop :=
  ∀ p d, f.dset p = some d → ∃ d', f'.dset p = some d' ∧ DsetKept d d'

theorem DsetKept.rfl' (d : Dset) : DsetKept d d := ⟨rfl, rfl, rfl, fun _ _ h => h⟩

theorem DsetKept.trans {a b c : Dset} (h : DsetKept a b) (g : DsetKept b c) : DsetKept a c :=
  ⟨g.1.trans h.1, g.2.1.trans h.2.1, g.2.2.1.trans h.2.2.1, fun n x hx => g.2.2.2 n x (h.2.2.2 n x hx)⟩

theorem FileKept.rfl' (f : File) : FileKept f f := fun _ d h => ⟨d, h, .rfl' d⟩

theorem FileKept.trans {a b c : File} (h : FileKept a b) (g : FileKept b c) : FileKept a c := by
  intro p d hd
  obtain ⟨d1, h1, k1⟩ := h p d hd
  obtain ⟨d2, h2, k2⟩ := g p d1 h1
  exact ⟨d2, h2, k1.trans k2⟩

theorem hdf_dset_of_find {f : File} {p : Path} {d : Dset} : f.dset p = some d ↔ f.find p = some (.dset d) := by
  unfold File.dset
  constructor
  · intro h
    split at h
    · rename_i heq; cases h; exact heq
    · cases h
  · intro h; rw [h]

theorem hdf_find_add_self {f : File} {p : Path} {o : Obj} (h : f.find p = none) : (f.add p o).find p = some o := by
  unfold File.find File.add at *
  have h' : f.objs.find? (fun e => e.1 == p) = none := by
    cases hh : f.objs.find? (fun e => e.1 == p) with
    | none => rfl
    | some x => rw [hh] at h; cases h
  simp only [List.find?_append, h']
  simp

theorem hdf_find_add_other {f : File} {p q : Path} {o : Obj} (h : q ≠ p) : (f.add p o).find q = f.find q := by
  unfold File.find File.add
  have : (p == q) = false := by simpa using fun h' => h h'.symm
  simp only [List.find?_append, List.find?_cons, this, List.find?_nil, Option.or_none]

theorem hdf_find_set_self {f : File} {p : Path} {o o' : Obj} (h : f.find p = some o') :
    (f.set p o).find p = some o := by
  unfold File.find File.set at *
  obtain ⟨w, l⟩ := f
  simp only at *
  induction l with
  | nil => cases h
  | cons e l ih =>
    rw [List.find?_cons] at h
    by_cases he : e.1 = p
    · simp [he]
    · have : (e.1 == p) = false := by simpa using he
      rw [this] at h
      simp only [List.map_cons, if_neg he, List.find?_cons, this]
      exact ih h

theorem hdf_find_set_other {f : File} {p q : Path} {o : Obj} (h : q ≠ p) : (f.set p o).find q = f.find q := by
  unfold File.find File.set
  obtain ⟨w, l⟩ := f
  simp only
  induction l with
  | nil => rfl
  | cons e l ih =>
    by_cases he : e.1 = p
    · have : (p == q) = false := by simpa using fun h' => h h'.symm
      simp only [List.map_cons, List.find?_cons, he, if_true, this]
      exact ih
    · simp only [List.map_cons, if_neg he, List.find?_cons]
      cases hq : (e.1 == q) with
      | true => rfl
      | false => exact ih

theorem hdf_lookupIn_append {β : Type} {n : Str} {l : List (Str × β)} {a : β} (m : List (Str × β))
    (h : lookupIn n l = some a) : lookupIn n (l ++ m) = some a := by
  unfold lookupIn at *
  rw [List.find?_append]
  cases hh : l.find? (fun e => e.1 == n) with
  | none => rw [hh] at h; cases h
  | some x => rw [hh] at h; simpa using h

theorem hdf_lookupIn_append_none {β : Type} {n : Str} {l : List (Str × β)} (m : List (Str × β))
    (h : lookupIn n l = none) : lookupIn n (l ++ m) = lookupIn n m := by
  unfold lookupIn at *
  rw [List.find?_append]
  cases hh : l.find? (fun e => e.1 == n) with
  | none => rfl
  | some x => rw [hh] at h; cases h

/-- What `canCreate` means. -/
theorem hdf_canCreate_iff {f : File} {p : Path} : f.canCreate p = true ↔
    f.writable = true ∧ p ≠ [] ∧ f.find p = none ∧ f.isGroup p.dropLast = true := by
  simp [File.canCreate, and_assoc]

theorem fileKept_add {f : File} {p : Path} (o : Obj) (h : f.find p = none) : FileKept f (f.add p o) := by
  intro q d hd
  rw [hdf_dset_of_find] at hd
  by_cases hq : q = p
  · subst hq; rw [h] at hd; cases hd
  · exact ⟨d, hdf_dset_of_find.2 (by rw [hdf_find_add_other hq]; exact hd), .rfl' d⟩

theorem fileKept_createWrite (L : Lib) (f : File) (p : Path) (ty mt : Ty) (dims : List Nat)
    (buf : Option (List Elem)) : FileKept f (createWrite L f p ty mt dims buf).1 := by
  unfold createWrite
  split
  · exact .rfl' f
  · split
    · exact .rfl' f
    · rename_i h
      have hc : f.find p = none := (hdf_canCreate_iff.1 (by simpa using h)).2.2.1
      simp only
      split
      · exact fileKept_add _ hc
      · split
        · exact fileKept_add _ hc
        · split
          · exact fileKept_add _ hc
          · exact fileKept_add _ hc

theorem fileKept_addAttr (f : File) (p : Path) (n : Str) (a : Attr) : FileKept f (addAttr f p n a).1 := by
  unfold addAttr
  split
  · exact .rfl' f
  · rename_i d hd
    split
    · exact .rfl' f
    · intro q e he
      by_cases hq : q = p
      · subst hq
        rw [hd] at he; cases he
        refine ⟨_, hdf_dset_of_find.2 (hdf_find_set_self (hdf_dset_of_find.1 hd)), rfl, rfl, rfl, ?_⟩
        intro m b hb
        exact hdf_lookupIn_append _ hb
      · rw [hdf_dset_of_find] at he
        exact ⟨e, hdf_dset_of_find.2 (by rw [hdf_find_set_other hq]; exact he), .rfl' e⟩

theorem fileKept_createGroup (f : File) (p : Path) (as : List (Str × Attr)) :
    FileKept f (createGroup f p as).1 := by
  unfold createGroup
  split
  · exact .rfl' f
  · rename_i h
    exact fileKept_add _ (hdf_canCreate_iff.1 (by simpa using h)).2.2.1

theorem fileKept_andThen {f : File} {r : WRes} {k : File → WRes} (h : FileKept f r.1)
    (hk : ∀ g, FileKept g (k g).1) : FileKept f (r.andThen k).1 := by
  unfold WRes.andThen
  split
  · exact h.trans (hk _)
  · exact h

theorem fileKept_matWriteString (L : Lib) (f : File) (p : Path) (s : List UInt8) :
    FileKept f (matWriteString L f p s).1 :=
  fileKept_andThen (fileKept_andThen (fileKept_createWrite _ _ _ _ _ _ _) (fun g => fileKept_addAttr g p _ _))
    (fun g => fileKept_addAttr g p _ _)

theorem fileKept_matWriteMulti (L : Lib) (t : NumTy) (f : File) (p : Path) (arr : List Elem)
    (dims : List Nat) : FileKept f (matWriteMulti L t f p arr dims).1 := by
  refine fileKept_andThen (fileKept_createWrite _ _ _ _ _ _ _) (fun g => ?_)
  split
  · exact fileKept_addAttr _ _ _ _
  · exact fileKept_matWriteString _ _ _ _

/-- Whatever is written, successfully or not, every data set stays as it is. -/
theorem fileKept_write (L : Lib) (fmt : Fmt) (f : File) (o : Op) : FileKept f (write L fmt f o).1 := by
  cases fmt <;> cases o
  · exact fileKept_createWrite _ _ _ _ _ _ _
  · exact fileKept_createWrite _ _ _ _ _ _ _
  · exact fileKept_createWrite _ _ _ _ _ _ _
  · exact fileKept_createWrite _ _ _ _ _ _ _
  · exact fileKept_addAttr _ _ _ _
  · exact fileKept_addAttr _ _ _ _
  · exact fileKept_createGroup _ _ _
  · exact fileKept_andThen (fileKept_createWrite _ _ _ _ _ _ _) (fun g => fileKept_addAttr _ _ _ _)
  · exact fileKept_createWrite _ _ _ _ _ _ _
  · exact fileKept_matWriteMulti _ _ _ _ _ _
  · exact fileKept_matWriteString _ _ _ _
  · exact fileKept_createWrite _ _ _ _ _ _ _
  · exact fileKept_matWriteString _ _ _ _
  · exact fileKept_createGroup _ _ _

theorem fileKept_writes (L : Lib) (fmt : Fmt) (ops : List Op) : ∀ f, FileKept f (writes L fmt f ops) := by
  induction ops with
  | nil => exact fun f => .rfl' f
  | cons o ops ih => exact fun f => (fileKept_write L fmt f o).trans (ih _)

/-! ### successful writes -/

theorem createWrite_ok {L : Lib} {f : File} {p : Path} {t : Ty} {dims : List Nat} {b : List Elem}
    (hr : dims.length ≤ 32) (hc : f.canCreate p = true) (hb : prod dims ≤ b.length) :
    createWrite L f p t t dims (some b) =
      (f.add p (.dset ⟨t, dims, b.take (prod dims), []⟩), .ok ()) := by
  unfold createWrite
  rw [if_neg (by omega), if_neg (by simp [hc])]
  simp only
  rw [if_neg (by omega), L.conv_self]
  simp

theorem hdf_dset_add {f : File} {p : Path} {d : Dset} (hc : f.canCreate p = true) :
    (f.add p (.dset d)).dset p = some d :=
  hdf_dset_of_find.2 (hdf_find_add_self (hdf_canCreate_iff.1 hc).2.2.1)

theorem addAttr_ok {f : File} {p : Path} {n : Str} {a : Attr} {d : Dset} (hw : f.writable = true)
    (hd : f.dset p = some d) (hn : lookupIn n d.attrs = none) :
    addAttr f p n a = (f.set p (.dset { d with attrs := d.attrs ++ [(n, a)] }), .ok ()) := by
  unfold addAttr
  rw [hd]
  simp [hw, hn]

theorem hdf_dset_set {f : File} {p : Path} {d d' : Dset} (hd : f.dset p = some d) :
    (f.set p (.dset d')).dset p = some d' :=
  hdf_dset_of_find.2 (hdf_find_set_self (hdf_dset_of_find.1 hd))

end Softlib
