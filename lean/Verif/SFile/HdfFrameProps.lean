/-
Property C81: variables of HDF5 and MAT files are independent, and `HasVariable` tells which exist.
-/
import Verif.SFile.HdfProps

namespace Softlib

open Softlib.Config Softlib.SFile Softlib.SFile.Hdf

/-- The name under which a call stores something: that of the variable, except that MAT files
store an attribute as a variable of its own, named `variable_attribute`. -/
def writtenPath (fmt : Fmt) : Op → Path
  | .array _ p _ _ _ => p
  | .list _ p _ _ => p
  | .multi _ p _ _ => p
  | .string p _ => p
  | .attrScalar p n _ =>
    match fmt with
    | .hdf5 => p
    | .mat => p.dropLast ++ [p.getLast?.getD [] ++ '_' :: n]
  | .attrString p n _ =>
    match fmt with
    | .hdf5 => p
    | .mat => p.dropLast ++ [p.getLast?.getD [] ++ '_' :: n]
  | .struct p => p

/-- The call stores a variable (rather than a group or an attribute of an existing variable). -/
def StoresVariable (fmt : Fmt) : Op → Prop
  | .array .. => True
  | .list .. => True
  | .multi .. => True
  | .string .. => True
  | .attrScalar .. => fmt = .mat
  | .attrString .. => fmt = .mat
  | .struct _ => False

/-- Only the object under `p` may differ. -/
def OnlyAt (p : Path) (f g : File) : Prop := ∀ q, q ≠ p → g.find q = f.find q

theorem onlyAt_refl (p : Path) (f : File) : OnlyAt p f f := fun _ _ => rfl

theorem OnlyAt.trans {p : Path} {f g h : File} (h1 : OnlyAt p f g) (h2 : OnlyAt p g h) : OnlyAt p f h :=
  fun q hq => (h2 q hq).trans (h1 q hq)

theorem onlyAt_add (f : File) (p : Path) (o : Obj) : OnlyAt p f (f.add p o) :=
  fun _ hq => hdf_find_add_other hq

theorem onlyAt_createWrite (L : Lib) (f : File) (p : Path) (ty mt : Ty) (dims : List Nat)
    (b : Option (List Elem)) : OnlyAt p f (createWrite L f p ty mt dims b).1 := by
  unfold createWrite
  split
  · exact onlyAt_refl p f
  · split
    · exact onlyAt_refl p f
    · simp only
      split
      · exact onlyAt_add f p _
      · split
        · exact onlyAt_add f p _
        · split <;> exact onlyAt_add f p _

theorem onlyAt_addAttr (f : File) (p : Path) (n : Str) (a : Attr) : OnlyAt p f (addAttr f p n a).1 := by
  unfold addAttr
  split
  · exact onlyAt_refl p f
  · split
    · exact onlyAt_refl p f
    · exact fun q hq => hdf_find_set_other hq

theorem onlyAt_createGroup (f : File) (p : Path) (as : List (Str × Attr)) :
    OnlyAt p f (createGroup f p as).1 := by
  unfold createGroup
  split
  · exact onlyAt_refl p f
  · exact onlyAt_add f p _

theorem onlyAt_andThen {p : Path} {f : File} {r : WRes} {k : File → WRes} (h : OnlyAt p f r.1)
    (hk : ∀ g, OnlyAt p g (k g).1) : OnlyAt p f (r.andThen k).1 := by
  unfold WRes.andThen
  split
  · exact h.trans (hk _)
  · exact h

theorem onlyAt_matWriteString (L : Lib) (f : File) (p : Path) (s : List UInt8) :
    OnlyAt p f (matWriteString L f p s).1 :=
  onlyAt_andThen (onlyAt_andThen (onlyAt_createWrite _ _ _ _ _ _ _) (fun g => onlyAt_addAttr g p _ _))
    (fun g => onlyAt_addAttr g p _ _)

/-- C81: a write, successful or not, changes nothing under any other name. -/
theorem C81_others_untouched (L : Lib) (fmt : Fmt) (f : File) (o : Op) (q : Path)
    (hq : q ≠ writtenPath fmt o) : (write L fmt f o).1.find q = f.find q := by
  have key : OnlyAt (writtenPath fmt o) f (write L fmt f o).1 := by
    cases fmt <;> cases o
    · exact onlyAt_createWrite _ _ _ _ _ _ _
    · exact onlyAt_createWrite _ _ _ _ _ _ _
    · exact onlyAt_createWrite _ _ _ _ _ _ _
    · exact onlyAt_createWrite _ _ _ _ _ _ _
    · exact onlyAt_addAttr _ _ _ _
    · exact onlyAt_addAttr _ _ _ _
    · exact onlyAt_createGroup _ _ _
    · exact onlyAt_andThen (onlyAt_createWrite _ _ _ _ _ _ _) (fun g => onlyAt_addAttr _ _ _ _)
    · exact onlyAt_createWrite _ _ _ _ _ _ _
    · refine onlyAt_andThen (onlyAt_createWrite _ _ _ _ _ _ _) (fun g => ?_)
      split
      · exact onlyAt_addAttr _ _ _ _
      · exact onlyAt_matWriteString _ _ _ _
    · exact onlyAt_matWriteString _ _ _ _
    · exact onlyAt_createWrite _ _ _ _ _ _ _
    · exact onlyAt_matWriteString _ _ _ _
    · exact onlyAt_createGroup _ _ _
  exact key q hq

/-- A successful write of a variable leaves a data set under its name. -/
theorem createWrite_dset {L : Lib} {f : File} {p : Path} {ty mt : Ty} {dims : List Nat}
    {b : Option (List Elem)} (h : (createWrite L f p ty mt dims b).2 = .ok ()) :
    ((createWrite L f p ty mt dims b).1.dset p).isSome = true := by
  unfold createWrite at h ⊢
  split at h
  · cases h
  · rename_i h32
    split at h
    · cases h
    · rename_i hc
      have hc' : f.canCreate p = true := by simpa using hc
      rw [if_neg h32, if_neg hc]
      simp only at h ⊢
      split at h
      · cases h
      · rename_i b'
        split at h
        · cases h
        · rename_i hlen
          split at h
          · cases h
          · rename_i g hg
            rw [if_neg hlen, hdf_dset_add hc']
            rfl

theorem dset_kept_isSome {f g : File} {p : Path} (h : FileKept f g) (hd : (f.dset p).isSome = true) :
    (g.dset p).isSome = true := by
  obtain ⟨d, hd⟩ := Option.isSome_iff_exists.1 hd
  obtain ⟨d', hd', _⟩ := h p d hd
  rw [hd']
  rfl

theorem andThen_dset {p : Path} {r : WRes} {k : File → WRes} (h : (r.andThen k).2 = .ok ())
    (hr : r.2 = .ok () → (r.1.dset p).isSome = true) (hk : ∀ g, FileKept g (k g).1) :
    ((r.andThen k).1.dset p).isSome = true := by
  obtain ⟨f, res⟩ := r
  cases res with
  | ok u => exact dset_kept_isSome (hk f) (hr rfl)
  | exc e => cases h
  | ub => cases h
  | diverges => cases h

theorem matWriteString_dset {L : Lib} {f : File} {p : Path} {s : List UInt8}
    (h : (matWriteString L f p s).2 = .ok ()) : ((matWriteString L f p s).1.dset p).isSome = true :=
  andThen_dset h (fun h1 => andThen_dset h1 createWrite_dset (fun g => fileKept_addAttr g p _ _))
    (fun g => fileKept_addAttr g p _ _)

/-- C81: a variable whose write succeeded exists, now and after every later history of writes. -/
theorem C81_written_exists (L : Lib) (fmt : Fmt) (f : File) (o : Op) (hs : StoresVariable fmt o)
    (hok : (write L fmt f o).2 = .ok ()) (later : List Op) :
    Hdf.hasVariable (writes L fmt (write L fmt f o).1 later) (writtenPath fmt o) = true := by
  refine dset_kept_isSome (fileKept_writes L fmt later _) ?_
  cases fmt <;> cases o
  · exact createWrite_dset hok
  · exact createWrite_dset hok
  · exact createWrite_dset hok
  · exact createWrite_dset hok
  · cases hs
  · cases hs
  · cases hs
  · exact andThen_dset hok createWrite_dset (fun g => fileKept_addAttr _ _ _ _)
  · exact createWrite_dset hok
  · refine andThen_dset hok createWrite_dset (fun g => ?_)
    split
    · exact fileKept_addAttr _ _ _ _
    · exact fileKept_matWriteString _ _ _ _
  · exact matWriteString_dset hok
  · exact createWrite_dset hok
  · exact matWriteString_dset hok
  · cases hs

/-- C81: a history of writes leaves what is stored under a name as it was unless one of them
is for this name; in particular no variable appears that was not written. -/
theorem C81_unwritten_unchanged (L : Lib) (fmt : Fmt) (ops : List Op) (q : Path) :
    ∀ f : File, (∀ o ∈ ops, writtenPath fmt o ≠ q) →
      (writes L fmt f ops).find q = f.find q ∧
      Hdf.hasVariable (writes L fmt f ops) q = Hdf.hasVariable f q := by
  have key : ∀ f : File, (∀ o ∈ ops, writtenPath fmt o ≠ q) → (writes L fmt f ops).find q = f.find q := by
    induction ops with
    | nil => intro f _; rfl
    | cons o ops ih =>
      intro f h
      have := ih (write L fmt f o).1 (fun x hx => h x (by simp [hx]))
      rw [show writes L fmt f (o :: ops) = writes L fmt (write L fmt f o).1 ops from rfl, this]
      exact C81_others_untouched L fmt f o q (fun e => h o (by simp) e.symm)
  intro f h
  refine ⟨key f h, ?_⟩
  unfold Hdf.hasVariable File.dset
  rw [key f h]

/-- C81: `HasVariable` is right about every operation that reads: a variable that is not there
cannot be read, one that is there has a type. -/
theorem C81_has_variable_reads (L : Lib) (f : File) (p : Path) (t : NumTy) :
    (Hdf.hasVariable f p = false → getArray2D L t f p = .exc .sfile ∧ getArray1D L t f p = .exc .sfile ∧
      Hdf.getString L f p = .exc .sfile) ∧
    (Hdf.hasVariable f p = true ↔ ∃ d, f.dset p = some d) := by
  constructor
  · intro h
    have hn : f.dset p = none := by simpa [Hdf.hasVariable] using h
    refine ⟨?_, ?_, ?_⟩
    · unfold getArray2D; rw [hn]
    · unfold getArray1D; rw [hn]
    · unfold Hdf.getString; rw [hn]
  · rw [Hdf.hasVariable, Option.isSome_iff_exists]

/-- A scalar attribute of a MAT file is a variable of its own. -/
example (L : Lib) : Hdf.hasVariable (writes L .mat ⟨true, []⟩ [.attrScalar ["a".toList] "b".toList 5])
    ["a_b".toList] = true := by
  have := C81_written_exists L .mat ⟨true, []⟩ (.attrScalar ["a".toList] "b".toList 5) rfl
    (by
      show (createWrite L ⟨true, []⟩ _ _ _ _ _).2 = _
      rw [show memTy .f64 = fileTy .f64 from rfl, createWrite_ok (by simp) (by decide) (by simp [prod])]) []
  exact this

end Softlib
