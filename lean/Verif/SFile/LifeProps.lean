/-
Property C87: files keep what is written to them, and file objects can be used in any order.
-/
import Verif.SFile.LifeModel
import Verif.SFile.SdtProps
import Verif.SFile.HdfFrameProps
import Verif.SFile.MatProps

namespace Softlib

open Softlib.Config Softlib.SFile Softlib.SFile.Hdf

/-! ### SDT -/

theorem loadLines_loadKeep {α : Type} (c : Codec α) (ls : List Str) (st : Store α) :
    loadLines c ls st = match loadKeep c ls st with
      | (st', .done) => .ok st'
      | (_, .throws) => .error
      | (_, .ub) => .ub := by
  fun_induction loadKeep c ls st <;> rw [loadLines.eq_def] <;> simp_all

theorem loadKeep_ok {α : Type} {c : Codec α} {ls : List Str} {st st' : Store α}
    (h : loadLines c ls st = .ok st') : loadKeep c ls st = (st', .done) := by
  rw [loadLines_loadKeep] at h
  generalize hk : loadKeep c ls st = r at h ⊢
  obtain ⟨a, b⟩ := r
  cases b <;> simp_all

theorem overwrite_overwrite (old : Str) (pos : Nat) (a b : Str) (h : pos ≤ old.length) :
    overwrite (overwrite old pos a) (pos + a.length) b = overwrite old pos (a ++ b) := by
  have h1 : (old.take pos).length = pos := by simp [h]
  have e1 : (old.take pos ++ a ++ old.drop (pos + a.length)).take (pos + a.length) = old.take pos ++ a := by
    rw [List.take_append_of_le_length (by simp; omega)]
    exact List.take_of_length_le (by simp)
  have e2 : (old.take pos ++ a ++ old.drop (pos + a.length)).drop (pos + a.length + b.length) =
      old.drop (pos + (a ++ b).length) := by
    rw [List.drop_append, List.drop_eq_nil_of_le (by simp; omega), List.nil_append, List.drop_drop]
    congr 1
    simp
    omega
  unfold overwrite
  rw [e1, e2]
  simp

theorem overwrite_nil (old : Str) (pos : Nat) : overwrite old pos [] = old := by
  simp [overwrite]

theorem setFile_self {β : Type} (d : Str → Option β) (n : Str) (b : β) (h : d n = some b) :
    setFile d n b = d := by
  funext m
  unfold setFile
  split
  · rename_i e; rw [e, h]
  · rfl

theorem setFile_twice {β : Type} (d : Str → Option β) (n : Str) (a b : β) :
    setFile (setFile d n a) n b = setFile d n b := by
  funext m
  unfold setFile
  split <;> rfl

theorem setFile_at {β : Type} (d : Str → Option β) (n : Str) (a : β) : setFile d n a n = some a := by
  simp [setFile]

theorem sdt_run_cons_ok {α : Type} {pm : Perm} {c : Codec α} {s s' : Sdt α} {k : SdtCall α}
    (ks : List (SdtCall α)) (h : s.step pm c k = (s', .ok)) :
    s.run pm c (k :: ks) = ((s'.run pm c ks).1, .ok :: (s'.run pm c ks).2) := by
  rw [Sdt.run, h]

theorem replicate_ends (k : Nat) :
    Out.ok :: (List.replicate k Out.ok ++ [Out.ok]) = List.replicate (k + 2) Out.ok := by
  rw [List.replicate_succ, List.replicate_succ']

/-- The writes of a session. -/
theorem sdt_run_writes {α : Type} (pm : Perm) (c : Codec α) (vs : List (Var α)) (n : Str)
    (ks : List (SdtCall α)) : ∀ (d : Str → Option Str) (pos : Nat) (old : Str) (st : Store α),
    d n = some old → pos ≤ old.length →
    (Sdt.mk d (some ⟨n, pos, true⟩) true st).run pm c (vs.map .write ++ ks) =
      let r := (Sdt.mk (setFile d n (overwrite old pos (writeAll c vs)))
        (some ⟨n, pos + (writeAll c vs).length, true⟩) true st).run pm c ks
      (r.1, List.replicate vs.length .ok ++ r.2) := by
  induction vs with
  | nil =>
    intro d pos old st hd _
    simp [writeAll, overwrite_nil, setFile_self d n old hd]
  | cons v vs ih =>
    intro d pos old st hd hp
    have hstep : (Sdt.mk d (some ⟨n, pos, true⟩) true st).step pm c (.write v) =
        (Sdt.mk (setFile d n (overwrite old pos (writeVar c v)))
          (some ⟨n, pos + (writeVar c v).length, true⟩) true st, .ok) := by
      simp [Sdt.step, Sdt.write, hd]
    rw [List.map_cons, List.cons_append, sdt_run_cons_ok _ hstep]
    have := ih (setFile d n (overwrite old pos (writeVar c v))) (pos + (writeVar c v).length)
      (overwrite old pos (writeVar c v)) st (setFile_at _ _ _) (by simp [overwrite]; omega)
    rw [this, setFile_twice, overwrite_overwrite _ _ _ _ hp]
    have e : writeAll c (v :: vs) = writeVar c v ++ writeAll c vs := by simp [writeAll]
    rw [e, List.length_append, Nat.add_assoc]
    simp [List.replicate_succ]

/-- C87, SDT: a file opened for writing, filled and closed contains exactly what was written,
whatever it contained before and whatever the object was used for before, as long as the
object has no file open; no call fails and no other file changes. -/
theorem C87_sdt_session {α : Type} (pm : Perm) (c : Codec α) (s : Sdt α) (n : Str) (vs : List (Var α))
    (hs : s.stream = none) (hw : pm.writable n = true) :
    let r := s.run pm c (.open n .write :: vs.map .write ++ [.close])
    r.2 = List.replicate (vs.length + 2) .ok ∧
    r.1.disk n = some (writeAll c vs) ∧ (∀ m, m ≠ n → r.1.disk m = s.disk m) ∧
    r.1.stream = none ∧ r.1.store = s.store := by
  obtain ⟨d, f, g, st⟩ := s
  cases hs
  have hstep : (Sdt.mk d none g st).step pm c (.open n .write) =
      (Sdt.mk (setFile d n []) (some ⟨n, 0, true⟩) true st, .ok) := by
    simp [Sdt.step, Sdt.open, Sdt.openStream, hw]
  have := sdt_run_writes pm c vs n [.close] (setFile d n []) 0 [] st (setFile_at _ _ _) (by simp)
  rw [List.cons_append, sdt_run_cons_ok _ hstep, this]
  refine ⟨?_, ?_, ?_, rfl, rfl⟩
  · exact replicate_ends vs.length
  · show setFile (setFile d n []) n (overwrite [] 0 (writeAll c vs)) n = _
    rw [setFile_at]
    simp [overwrite]
  · intro m hm
    show setFile (setFile d n []) n _ m = _
    simp [setFile, hm]

/-- C87, SDT: reading the file afterwards with a new object gives every variable written, the
first one if a name was used more than once. -/
theorem C87_sdt_read_back {α : Type} (pm : Perm) (c : Codec α) (s : Sdt α) (n : Str) (vs : List (Var α))
    (hs : s.stream = none) (hw : pm.writable n = true) (hr : pm.readable n = true)
    (h : ∀ v ∈ vs, Storable c v) :
    let d := (s.run pm c (.open n .write :: vs.map .write ++ [.close])).1.disk
    ∃ r, (Sdt.new d : Sdt α).open pm c n .read = (r, .ok) ∧ r.disk = d ∧ r.stream = none ∧
      ∀ x, getDoubles r.store x = vs.findSome? (matrixOf x) ∧
        getString r.store x = vs.findSome? (stringOf x) := by
  intro d
  have hd : d n = some (writeAll c vs) := (C87_sdt_session pm c s n vs hs hw).2.1
  have hk := loadKeep_ok (load_all c vs ⟨[], []⟩ h)
  refine ⟨⟨d, none, true, vs.foldl addVar ⟨[], []⟩⟩, ?_, rfl, rfl, fun x => lookup_fold x vs ⟨[], []⟩⟩
  simp [Sdt.open, Sdt.openStream, Sdt.new, hd, hr, Sdt.loadClose, hk, Sdt.close]

/-- C87, SDT, opening for update, exactly: what is written replaces the beginning of the file,
character by character. -/
theorem C87_sdt_update_exact {α : Type} (pm : Perm) (c : Codec α) (s : Sdt α) (n : Str) (vs : List (Var α))
    (old : Str) (hs : s.stream = none) (hd : s.disk n = some old) (hw : pm.writable n = true)
    (hr : pm.readable n = true) :
    let r := s.run pm c (.open n .update :: vs.map .write ++ [.close])
    r.2 = List.replicate (vs.length + 2) .ok ∧
    r.1.disk n = some (writeAll c vs ++ old.drop (writeAll c vs).length) ∧
    (∀ m, m ≠ n → r.1.disk m = s.disk m) ∧ r.1.stream = none ∧ r.1.store = s.store := by
  obtain ⟨d, f, g, st⟩ := s
  cases hs
  have hd' : d n = some old := hd
  have hstep : (Sdt.mk d none g st).step pm c (.open n .update) =
      (Sdt.mk d (some ⟨n, 0, true⟩) true st, .ok) := by
    simp [Sdt.step, Sdt.open, Sdt.openStream, hw, hr, hd']
  have := sdt_run_writes pm c vs n [.close] d 0 old st hd' (by simp)
  rw [List.cons_append, sdt_run_cons_ok _ hstep, this]
  refine ⟨?_, ?_, ?_, rfl, rfl⟩
  · exact replicate_ends vs.length
  · show setFile d n (overwrite old 0 (writeAll c vs)) n = _
    rw [setFile_at]
    simp [overwrite]
  · intro m hm
    show setFile d n _ m = _
    simp [setFile, hm]

/-- C87 as stated is refuted, first reason: adding a variable to an SDT file opened for update
destroys the variable it contained, without any error. -/
theorem C87_refuted_sdt_update :
    let pm : Perm := ⟨fun _ => true, fun _ => true⟩
    let a : Var Int := .mat "a".toList 1 [[1]]
    let b : Var Int := .mat "b".toList 1 [[2]]
    let s : Sdt Int := Sdt.new (fun _ => none)
    let r := s.run pm integerCodec [.open "f".toList .write, .write a, .close,
      .open "f".toList .update, .write b, .close, .open "f".toList .read]
    r.2 = List.replicate 7 .ok ∧ getDoubles r.1.store "a".toList = none ∧
      getDoubles r.1.store "b".toList = some ⟨1, 1, [[2]]⟩ := by
  decide +kernel

/-- C87 as stated is refuted, second reason: an SDT file that does not exist, or may not be
read, is opened without an error and looks empty. -/
theorem C87_refuted_sdt_missing {α : Type} (pm : Perm) (c : Codec α) (d : Str → Option Str) (n : Str)
    (h : d n = none ∨ pm.readable n = false) :
    ∃ r, (Sdt.new d : Sdt α).open pm c n .read = (r, .ok) ∧ ∀ x, hasVariable r.store x = false := by
  refine ⟨⟨d, none, false, ⟨[], []⟩⟩, ?_, fun x => rfl⟩
  rcases h with h | h <;> simp [Sdt.open, Sdt.openStream, Sdt.new, h, Sdt.loadClose, Sdt.close]

theorem sdt_run_lost {α : Type} (pm : Perm) (c : Codec α) (vs : List (Var α)) (d : Str → Option Str)
    (g : Bool) (st : Store α) :
    ((Sdt.mk d none g st).run pm c (vs.map .write ++ [.close])).2 = List.replicate (vs.length + 1) .ok ∧
    ((Sdt.mk d none g st).run pm c (vs.map .write ++ [.close])).1.disk = d := by
  induction vs generalizing g with
  | nil => simp [Sdt.run, Sdt.step, Sdt.close]
  | cons v vs ih =>
    have hstep : (Sdt.mk d none g st).step pm c (.write v) = (Sdt.mk d none false st, .ok) := by
      simp [Sdt.step, Sdt.write]
    rw [List.map_cons, List.cons_append, sdt_run_cons_ok _ hstep]
    obtain ⟨h1, h2⟩ := ih false
    exact ⟨by rw [h1]; rfl, h2⟩

/-- C87 as stated is refuted, third reason: if the file may not be written, or is to be updated
and does not exist, every write is dropped and no call reports anything. -/
theorem C87_refuted_sdt_unwritable {α : Type} (pm : Perm) (c : Codec α) (d : Str → Option Str) (n : Str)
    (m : Mode) (vs : List (Var α)) (h : m = .write ∧ pm.writable n = false ∨ m = .update ∧ d n = none) :
    let r := (Sdt.new d : Sdt α).run pm c (.open n m :: vs.map .write ++ [.close])
    r.2 = List.replicate (vs.length + 2) .ok ∧ r.1.disk = d := by
  have hstep : (Sdt.new d : Sdt α).step pm c (.open n m) = (Sdt.mk d none false ⟨[], []⟩, .ok) := by
    rcases h with ⟨rfl, h⟩ | ⟨rfl, h⟩ <;> simp [Sdt.step, Sdt.open, Sdt.openStream, Sdt.new, h]
  rw [List.cons_append]
  simp only [sdt_run_cons_ok _ hstep]
  obtain ⟨h1, h2⟩ := sdt_run_lost pm c vs d false ⟨[], []⟩
  exact ⟨by rw [h1, List.replicate_succ (n := vs.length + 1)], h2⟩

/-- C87, SDT: an object that has read one file and reads another holds the variables of both,
those of the first taking precedence. -/
theorem C87_sdt_reuse {α : Type} (pm : Perm) (c : Codec α) (s : Sdt α) (n : Str) (vs : List (Var α))
    (hs : s.stream = none) (hd : s.disk n = some (writeAll c vs)) (hr : pm.readable n = true)
    (h : ∀ v ∈ vs, Storable c v) :
    ∃ r, s.open pm c n .read = (r, .ok) ∧
      ∀ x, getDoubles r.store x = (getDoubles s.store x).or (vs.findSome? (matrixOf x)) ∧
        getString r.store x = (getString s.store x).or (vs.findSome? (stringOf x)) := by
  obtain ⟨d, f, g, st⟩ := s
  cases hs
  have hd' : d n = some (writeAll c vs) := hd
  have hk := loadKeep_ok (load_all c vs st h)
  refine ⟨⟨d, none, true, vs.foldl addVar st⟩, ?_, fun x => lookup_fold x vs st⟩
  simp [Sdt.open, Sdt.openStream, hd', hr, Sdt.loadClose, hk, Sdt.close]

/-- C87 as stated is refuted, fourth reason: opening another SDT file with the same object gives
the variables of the file read before. -/
theorem C87_refuted_sdt_reuse :
    let pm : Perm := ⟨fun _ => true, fun _ => true⟩
    let d : Str → Option Str := fun n =>
      if n = "f".toList then some (writeAll integerCodec [.mat "a".toList 1 [[1]]])
      else some (writeAll integerCodec [.mat "a".toList 1 [[2]]])
    let r := (Sdt.new d : Sdt Int).run pm integerCodec [.open "f".toList .read, .close, .open "g".toList .read]
    r.2 = List.replicate 3 .ok ∧ getDoubles r.1.store "a".toList = some ⟨1, 1, [[1]]⟩ := by
  decide +kernel

/-- C87 as stated is refuted, fifth reason: after an SDT file that could not be read, the next
file opened with the same object is not read, without an error. -/
theorem C87_refuted_sdt_after_error :
    let pm : Perm := ⟨fun _ => true, fun _ => true⟩
    let d : Str → Option Str := fun n =>
      if n = "f".toList then some "nonsense".toList
      else some (writeAll integerCodec [.mat "a".toList 1 [[2]]])
    let r := (Sdt.new d : Sdt Int).run pm integerCodec [.open "f".toList .read, .open "g".toList .read]
    r.2 = [.exc, .ok] ∧ getDoubles r.1.store "a".toList = none := by
  decide +kernel

/-- C87, SDT: no call other than reading a file is undefined or fails, in any state; files other
than the one open or being opened for writing are never touched. -/
theorem C87_sdt_safe {α : Type} (pm : Perm) (c : Codec α) (s : Sdt α) (k : SdtCall α) :
    ((∀ n, k ≠ .open n .read) → (s.step pm c k).2 = .ok) ∧
    ((s.step pm c k).2 = .ub → ∃ n text, k = .open n .read ∧ s.disk n = some text ∧
      loadLines c (lines text) s.store = .ub) ∧
    (∀ m, (∀ f, s.stream = some f → f.name ≠ m ∨ f.out = false) → k ≠ .open m .write →
      (s.step pm c k).1.disk m = s.disk m) := by
  obtain ⟨d, f, g, st⟩ := s
  cases k with
  | «open» n m =>
    cases m with
    | read =>
      refine ⟨fun h => absurd rfl (h n), ?_, ?_⟩
      · intro h
        refine ⟨n, ?_⟩
        cases f with
        | some f => simp [Sdt.step, Sdt.open, Sdt.openStream, Sdt.loadClose] at h
        | none =>
          cases hd : d n with
          | none => simp [Sdt.step, Sdt.open, Sdt.openStream, Sdt.loadClose, hd] at h
          | some text =>
            cases hr : pm.readable n with
            | false => simp [Sdt.step, Sdt.open, Sdt.openStream, Sdt.loadClose, hd, hr] at h
            | true =>
              refine ⟨text, rfl, hd, ?_⟩
              rw [loadLines_loadKeep]
              simp only [Sdt.step, Sdt.open, Sdt.openStream, Sdt.loadClose, hd, hr] at h
              simp only [Option.isSome_some, Bool.and_self, if_true, hd, Option.getD_some] at h
              generalize loadKeep c (lines text) st = r at h ⊢
              obtain ⟨a, b⟩ := r
              cases b <;> simp_all
      · intro m _ _
        have key : ∀ s : Sdt α, (s.loadClose c).1.disk = s.disk := by
          rintro ⟨d, f, g, st⟩
          unfold Sdt.loadClose
          cases f <;> cases g <;> try rfl
          simp only
          split <;> rfl
        simp only [Sdt.step, Sdt.open, key, Sdt.openStream]
        cases f
        · simp only; split <;> rfl
        · rfl
    | update =>
      refine ⟨fun _ => rfl, (by intro h; cases h), ?_⟩
      intro m _ _
      simp only [Sdt.step, Sdt.open, Sdt.openStream]
      cases f
      · simp only; split <;> rfl
      · rfl
    | write =>
      refine ⟨fun _ => rfl, (by intro h; cases h), ?_⟩
      intro m _ hne
      have hm : m ≠ n := fun e => hne (by rw [e])
      simp only [Sdt.step, Sdt.open, Sdt.openStream]
      cases f
      · simp only
        split
        · simp [setFile, hm]
        · rfl
      · rfl
  | write v =>
    refine ⟨fun _ => rfl, (by intro h; cases h), ?_⟩
    intro m hf _
    simp only [Sdt.step, Sdt.write]
    cases f with
    | none => rfl
    | some f =>
      cases g
      · rfl
      · simp only
        split
        · rename_i ho
          rcases hf f rfl with h | h
          · have : m ≠ f.name := fun e => h e.symm
            simp [setFile, this]
          · rw [h] at ho; cases ho
        · rfl
  | close =>
    refine ⟨fun _ => rfl, (by intro h; cases h), ?_⟩
    intro m _ _
    simp only [Sdt.step, Sdt.close]
    cases f <;> rfl

/-- The hypotheses of the SDT theorems are met. -/
example : ∃ s : Sdt Int, s.stream = none ∧ s.store.mats ≠ [] ∧
    s.disk "f".toList = some (writeAll integerCodec [.mat "a".toList 1 [[1]]]) :=
  ⟨⟨fun _ => some (writeAll integerCodec [.mat "a".toList 1 [[1]]]), none, false,
    ⟨[("b".toList, ⟨1, 1, [[3]]⟩)], []⟩⟩, rfl, by simp, rfl⟩

/-! ### HDF5 and MAT -/

/-- The time allows a MAT file to be created (see C79); HDF5 files do not depend on it. -/
def TimeOk (fmt : Fmt) (t : Tm) : Prop := fmt = .mat → ValidTm t ∧ t.mon ≠ 0

/-- No write of the history is itself undefined (an array shorter than announced, see C76). -/
def WritesDefined (L : Lib) (fmt : Fmt) : File → List Op → Prop
  | _, [] => True
  | f, o :: ops => (∃ r, (write L fmt f o).2 = .ok r ∨ ∃ e, (write L fmt f o).2 = .exc e) ∧
      WritesDefined L fmt (write L fmt f o).1 ops

theorem createMat_bytes {t : Tm} (h : ValidTm t) (hm : t.mon ≠ 0) : ∃ b, createMat t = .bytes b := by
  obtain ⟨b, hb, -⟩ := C79_header_partial t h hm
  exact ⟨b, hb⟩

theorem h5_open_eq {fmt : Fmt} {t : Tm} (pm : Perm) (s : H5) (n : Str) (m : Mode) (ht : TimeOk fmt t) :
    s.open fmt pm n m t = s.assign (s.openFile pm n m) := by
  cases fmt with
  | hdf5 => rfl
  | mat =>
    obtain ⟨h1, h2⟩ := ht rfl
    obtain ⟨b, hb⟩ := createMat_bytes h1 h2
    cases m
    · rfl
    · rfl
    · simp only [H5.open, hb]

theorem h5_run_cons {L : Lib} {fmt : Fmt} {pm : Perm} {s s' : H5} {k : Call} {o : Out} (ks : List Call)
    (h : s.step L fmt pm k = (s', o)) (ho : o ≠ .ub) :
    s.run L fmt pm (k :: ks) = ((s'.run L fmt pm ks).1, o :: (s'.run L fmt pm ks).2) := by
  rw [H5.run, h]
  cases o
  · rfl
  · rfl
  · exact absurd rfl ho

theorem writes_writable (L : Lib) (fmt : Fmt) (f : File) (o : Op) :
    (write L fmt f o).1.writable = f.writable := by
  have h1 : ∀ f p ty mt dims b, (createWrite L f p ty mt dims b).1.writable = f.writable := by
    intro f p ty mt dims b
    unfold createWrite
    split
    · rfl
    · split
      · rfl
      · simp only
        split
        · rfl
        · split
          · rfl
          · split <;> rfl
  have h2 : ∀ f p n a, (addAttr f p n a).1.writable = f.writable := by
    intro f p n a
    unfold addAttr
    split
    · rfl
    · split <;> rfl
  have h3 : ∀ f p as, (createGroup f p as).1.writable = f.writable := by
    intro f p as
    unfold createGroup
    split <;> rfl
  have h4 : ∀ (f : File) (r : WRes) (k : File → WRes), r.1.writable = f.writable →
      (∀ g, (k g).1.writable = g.writable) → (r.andThen k).1.writable = f.writable := by
    intro f r k hr hk
    unfold WRes.andThen
    split
    · rw [hk]; exact hr
    · exact hr
  have h5 : ∀ f p s, (matWriteString L f p s).1.writable = f.writable := fun f p s =>
    h4 _ _ _ (h4 _ _ _ (h1 _ _ _ _ _ _) (fun g => h2 _ _ _ _)) (fun g => h2 _ _ _ _)
  cases fmt <;> cases o
  · exact h1 _ _ _ _ _ _
  · exact h1 _ _ _ _ _ _
  · exact h1 _ _ _ _ _ _
  · exact h1 _ _ _ _ _ _
  · exact h2 _ _ _ _
  · exact h2 _ _ _ _
  · exact h3 _ _ _
  · exact h4 _ _ _ (h1 _ _ _ _ _ _) (fun g => h2 _ _ _ _)
  · exact h1 _ _ _ _ _ _
  · rename_i t p arr dims
    refine h4 _ _ _ (h1 _ _ _ _ _ _) (fun g => ?_)
    cases t
    · exact h2 _ _ _ _
    all_goals exact h5 _ _ _
  · exact h5 _ _ _
  · exact h1 _ _ _ _ _ _
  · exact h5 _ _ _
  · exact h3 _ _ _

/-- The writes of a session. -/
theorem h5_run_writes (L : Lib) (fmt : Fmt) (pm : Perm) (ops : List Op) (n : Str) (ks : List Call) :
    ∀ (d : Str → Option (List (Path × Obj))) (hs : List (Str × Bool)) (w : Bool) (f : File),
    d n = some f.objs → f.writable = w → WritesDefined L fmt f ops →
    ∃ os, os.length = ops.length ∧ Out.ub ∉ os ∧
      (H5.mk d hs (.opened n w)).run L fmt pm (ops.map .write ++ ks) =
        let r := (H5.mk (setFile d n (writes L fmt f ops).objs) hs (.opened n w)).run L fmt pm ks
        (r.1, os ++ r.2) := by
  induction ops with
  | nil =>
    intro d hs w f hd hw _
    refine ⟨[], rfl, by simp, ?_⟩
    rw [show writes L fmt f [] = f from rfl, setFile_self d n f.objs hd]
    rfl
  | cons o ops ih =>
    intro d hs w f hd hw hdef
    obtain ⟨⟨r, ho⟩, hdef⟩ := hdef
    obtain ⟨fw, fo⟩ := f
    cases hw
    have hd' : d n = some fo := hd
    obtain ⟨out, hne, hstep⟩ : ∃ out, out ≠ Out.ub ∧
        (H5.mk d hs (.opened n fw)).step L fmt pm (.write o) =
          (H5.mk (setFile d n (write L fmt ⟨fw, fo⟩ o).1.objs) hs (.opened n fw), out) := by
      rcases ho with h | ⟨e, h⟩
      · exact ⟨.ok, by decide, by simp [H5.step, H5.write, hd', h]⟩
      · exact ⟨.exc, by decide, by simp [H5.step, H5.write, hd', h]⟩
    obtain ⟨os, h1, h2, h3⟩ := ih (setFile d n (write L fmt ⟨fw, fo⟩ o).1.objs) hs fw (write L fmt ⟨fw, fo⟩ o).1
      (setFile_at _ _ _) (writes_writable _ _ _ _) hdef
    refine ⟨out :: os, by simp [h1], by simp [h2, hne.symm], ?_⟩
    rw [List.map_cons, List.cons_append, h5_run_cons _ hstep hne, h3, setFile_twice]
    rfl

/-- One complete session: open, write, close. -/
theorem h5_session (L : Lib) (fmt : Fmt) (pm : Perm) (s : H5) (n : Str) (m : Mode) (t : Tm) (ops : List Op)
    (f : File) (ht : TimeOk fmt t) (d : Str → Option (List (Path × Obj)))
    (ho : s.openFile pm n m = some ⟨d, (n, f.writable) :: s.handles, .opened n f.writable⟩)
    (hd : d n = some f.objs) (hdef : WritesDefined L fmt f ops) :
    ∃ os, os.length = ops.length + 2 ∧ Out.ub ∉ os ∧
      s.run L fmt pm (.open n m t :: ops.map .write ++ [.close]) =
        (⟨setFile d n (writes L fmt f ops).objs, s.handles, .null⟩, os) := by
  have hstep : s.step L fmt pm (.open n m t) =
      (⟨d, (n, f.writable) :: s.handles, .opened n f.writable⟩, .ok) := by
    simp only [H5.step, h5_open_eq pm s n m ht, ho, H5.assign]
  obtain ⟨os, h1, h2, h3⟩ := h5_run_writes L fmt pm ops n [.close] d ((n, f.writable) :: s.handles)
    f.writable f hd rfl hdef
  refine ⟨.ok :: (os ++ [.ok]), by simp [h1], by simp [h2], ?_⟩
  rw [List.cons_append, h5_run_cons _ hstep (by decide), h3]
  simp [H5.run, H5.step, H5.close]

/-- C87, HDF5 and MAT: a file opened for writing, filled and closed contains exactly what the
writes put into an empty file, whatever it contained before and whatever the object was used for
before; no other file changes and the library has no more files open than before. -/
theorem C87_h5_session (L : Lib) (fmt : Fmt) (pm : Perm) (s : H5) (n : Str) (t : Tm) (ops : List Op)
    (ht : TimeOk fmt t) (hw : pm.writable n = true) (hh : ∀ h ∈ s.handles, h.1 ≠ n)
    (hdef : WritesDefined L fmt ⟨true, []⟩ ops) :
    let r := s.run L fmt pm (.open n .write t :: ops.map .write ++ [.close])
    r.2.length = ops.length + 2 ∧ Out.ub ∉ r.2 ∧
    r.1.disk n = some (writes L fmt ⟨true, []⟩ ops).objs ∧
    (∀ m, m ≠ n → r.1.disk m = s.disk m) ∧ r.1.handles = s.handles := by
  have ho : s.openFile pm n .write = some ⟨setFile s.disk n [], (n, true) :: s.handles, .opened n true⟩ := by
    have : s.handles.any (fun h => h.1 == n) = false := by
      rw [List.any_eq_false]
      intro x hx
      simpa using hh x hx
    simp [H5.openFile, hw, this]
  obtain ⟨os, h1, h2, h3⟩ := h5_session L fmt pm s n .write t ops ⟨true, []⟩ ht _ ho (setFile_at _ _ _) hdef
  rw [h3]
  refine ⟨h1, h2, setFile_at _ _ _, ?_, rfl⟩
  intro m hm
  simp [setFile, hm]

/-- C87, HDF5 and MAT: opening for update, writing and closing gives what the writes make of the
old contents. -/
theorem C87_h5_update (L : Lib) (fmt : Fmt) (pm : Perm) (s : H5) (n : Str) (t : Tm) (ops : List Op)
    (old : List (Path × Obj)) (ht : TimeOk fmt t) (hd : s.disk n = some old)
    (hw : pm.writable n = true) (hr : pm.readable n = true) (hh : ∀ h ∈ s.handles, h.1 ≠ n)
    (hdef : WritesDefined L fmt ⟨true, old⟩ ops) :
    let r := s.run L fmt pm (.open n .update t :: ops.map .write ++ [.close])
    r.2.length = ops.length + 2 ∧ Out.ub ∉ r.2 ∧
    r.1.disk n = some (writes L fmt ⟨true, old⟩ ops).objs ∧
    (∀ m, m ≠ n → r.1.disk m = s.disk m) ∧ r.1.handles = s.handles := by
  have ho : s.openFile pm n .update = some ⟨s.disk, (n, true) :: s.handles, .opened n true⟩ := by
    have : ¬ (n, false) ∈ s.handles := fun h => hh _ h rfl
    simp [H5.openFile, hw, hr, hd, this]
  obtain ⟨os, h1, h2, h3⟩ := h5_session L fmt pm s n .update t ops ⟨true, old⟩ ht _ ho hd hdef
  rw [h3]
  refine ⟨h1, h2, setFile_at _ _ _, ?_, rfl⟩
  intro m hm
  simp [setFile, hm]

/-- C87, HDF5 and MAT: so an update keeps everything stored under a name that is not written. -/
theorem C87_h5_update_keeps (L : Lib) (fmt : Fmt) (pm : Perm) (s : H5) (n : Str) (t : Tm) (ops : List Op)
    (old : List (Path × Obj)) (ht : TimeOk fmt t) (hd : s.disk n = some old)
    (hw : pm.writable n = true) (hr : pm.readable n = true) (hh : ∀ h ∈ s.handles, h.1 ≠ n)
    (hdef : WritesDefined L fmt ⟨true, old⟩ ops) (q : Path) (hq : ∀ o ∈ ops, writtenPath fmt o ≠ q) :
    ∃ new, (s.run L fmt pm (.open n .update t :: ops.map .write ++ [.close])).1.disk n = some new ∧
      (⟨false, new⟩ : File).find q = (⟨false, old⟩ : File).find q :=
  ⟨_, (C87_h5_update L fmt pm s n t ops old ht hd hw hr hh hdef).2.2.1,
    (C81_unwritten_unchanged L fmt ops q ⟨true, old⟩ hq).1⟩

/-- C87, HDF5 and MAT: an object that opens an existing file for reading sees its contents. -/
theorem C87_h5_read (fmt : Fmt) (pm : Perm) (s : H5) (n : Str) (t : Tm) (objs : List (Path × Obj))
    (hd : s.disk n = some objs) (hr : pm.readable n = true) :
    ∃ r, s.open fmt pm n .read t = (r, .ok) ∧ r.view = some ⟨false, objs⟩ ∧ r.disk = s.disk := by
  refine ⟨⟨s.disk, (n, false) :: s.handles, .opened n false⟩, ?_, by simp [H5.view, hd], rfl⟩
  cases fmt <;> simp [H5.open, H5.openFile, hd, hr, H5.assign]

/-- C87, HDF5 and MAT: a file that does not exist or may not be read (or written, where that is
wanted) is reported by an exception and the object keeps its state. -/
theorem C87_h5_failure_reported (fmt : Fmt) (pm : Perm) (s : H5) (n : Str) (m : Mode) (t : Tm)
    (ht : TimeOk fmt t)
    (h : m ≠ .write ∧ (s.disk n = none ∨ pm.readable n = false) ∨
      m ≠ .read ∧ pm.writable n = false) :
    s.open fmt pm n m t = (s, .exc) := by
  rw [h5_open_eq pm s n m ht]
  have : s.openFile pm n m = none := by
    cases m with
    | read =>
      rcases h with ⟨-, h | h⟩ | ⟨h, -⟩
      · simp [H5.openFile, h]
      · simp [H5.openFile, h]
      · exact absurd rfl h
    | update =>
      rcases h with ⟨-, h | h⟩ | ⟨-, h⟩ <;> simp [H5.openFile, h]
    | write =>
      rcases h with ⟨h, -⟩ | ⟨-, h⟩
      · exact absurd rfl h
      · simp [H5.openFile, h]
  rw [this]
  rfl

/-- A file is open after this history: the last successful opening has not been followed by a
closing. -/
def openAfter (h : List (Call × Out)) : Bool :=
  h.foldl (fun b k => match k with
    | (.open _ _ _, .ok) => true
    | (.close, _) => false
    | _ => b) false

/-- Some opening of this history succeeded. -/
def everOpened (h : List (Call × Out)) : Bool :=
  h.any (fun k => match k with
    | (.open _ _ _, .ok) => true
    | _ => false)

/-- What the two notions say about the object. -/
def PtrIs (p : Ptr) (isOpen ever : Bool) : Prop :=
  match p with
  | .indet => isOpen = false ∧ ever = false
  | .null => isOpen = false ∧ ever = true
  | .opened _ _ => isOpen = true ∧ ever = true

theorem ptrIs_step {L : Lib} {fmt : Fmt} {pm : Perm} {s s' : H5} {k : Call} {o : Out}
    (h : s.step L fmt pm k = (s', o)) (ho : o ≠ .ub) {a b : Bool} (hp : PtrIs s.ptr a b) :
    PtrIs s'.ptr (match (k, o) with
      | (.open _ _ _, .ok) => true
      | (.close, _) => false
      | _ => a) (b || match (k, o) with
      | (.open _ _ _, .ok) => true
      | _ => false) := by
  obtain ⟨d, hs, p⟩ := s
  cases k with
  | «open» n m t =>
    have key : ∀ m', (H5.assign ⟨d, hs, p⟩ (H5.openFile pm ⟨d, hs, p⟩ n m') = (s', o)) →
        (o = .ok ∧ ∃ w, s'.ptr = .opened n w) ∨ (o = .exc ∧ s' = ⟨d, hs, p⟩) := by
      intro m' hk
      cases hf : H5.openFile pm ⟨d, hs, p⟩ n m' with
      | none => rw [hf] at hk; cases hk; exact .inr ⟨rfl, rfl⟩
      | some x =>
        rw [hf] at hk
        cases hk
        refine .inl ⟨rfl, ?_⟩
        cases m' <;> simp only [H5.openFile] at hf <;> split at hf <;> cases hf
        · exact ⟨false, rfl⟩
        · exact ⟨true, rfl⟩
        · exact ⟨true, rfl⟩
    have hres : (o = .ok ∧ ∃ w, s'.ptr = .opened n w) ∨ (o = .exc ∧ s' = ⟨d, hs, p⟩) := by
      simp only [H5.step, H5.open] at h
      split at h
      · split at h
        · cases h; exact absurd rfl ho
        · cases h; exact .inr ⟨rfl, rfl⟩
        · exact key _ h
      · exact key _ h
    rcases hres with ⟨rfl, w, hw⟩ | ⟨rfl, rfl⟩
    · rw [hw]; simp [PtrIs]
    · simpa using hp
  | write op =>
    cases p with
    | opened n w =>
      cases h
      obtain ⟨h1, h2⟩ := hp
      subst h1 h2
      simp [PtrIs]
    | indet => cases h; exact absurd rfl ho
    | null => cases h; exact absurd rfl ho
  | has q =>
    cases h
    simpa using hp
  | close =>
    cases p with
    | opened n w => cases h; obtain ⟨h1, h2⟩ := hp; subst h2; simp [PtrIs]
    | indet => cases h; exact absurd rfl ho
    | null => cases h; exact absurd rfl ho

theorem ptrIs_run (L : Lib) (fmt : Fmt) (pm : Perm) (ks : List Call) : ∀ (s : H5) (a b : Bool),
    PtrIs s.ptr a b → Out.ub ∉ (s.run L fmt pm ks).2 →
    PtrIs (s.run L fmt pm ks).1.ptr
      ((ks.zip (s.run L fmt pm ks).2).foldl (fun b k => match k with
        | (.open _ _ _, .ok) => true
        | (.close, _) => false
        | _ => b) a) (b || everOpened (ks.zip (s.run L fmt pm ks).2)) := by
  induction ks with
  | nil => intro s a b hp _; simpa [H5.run, everOpened] using hp
  | cons k ks ih =>
    intro s a b hp hub
    generalize hst : s.step L fmt pm k = st
    obtain ⟨s', o⟩ := st
    by_cases ho : o = .ub
    · subst ho
      simp [H5.run, hst] at hub
    · rw [h5_run_cons ks hst ho] at hub ⊢
      simp only [List.mem_cons, not_or] at hub
      have := ih s' _ _ (ptrIs_step hst ho hp) hub.2
      simp only [List.zip_cons_cons, List.foldl_cons, everOpened, List.any_cons] at this ⊢
      rw [← Bool.or_assoc]
      exact this

/-- C87, HDF5 and MAT, the exact rule: after any history of a new object, closing it or using it
is undefined exactly if no file is open, and destroying it is undefined exactly if no file
was ever opened. -/
theorem C87_h5_life_exact (L : Lib) (fmt : Fmt) (pm : Perm) (d : Str → Option (List (Path × Obj)))
    (hs : List (Str × Bool)) (ks : List Call) :
    let r := (H5.new d hs).run L fmt pm ks
    Out.ub ∉ r.2 →
    (r.1.close.2 = .ub ↔ openAfter (ks.zip r.2) = false) ∧
    (∀ p, r.1.has p = none ↔ openAfter (ks.zip r.2) = false) ∧
    (∀ p, (r.1.step L fmt pm (.has p)).2 = if openAfter (ks.zip r.2) = true then .ok else .ub) ∧
    (∀ o, openAfter (ks.zip r.2) = false → (r.1.write L fmt o).2 = .ub) ∧
    (r.1.destroy.2 = .ub ↔ everOpened (ks.zip r.2) = false) := by
  intro r hub
  have key := ptrIs_run L fmt pm ks (H5.new d hs) false false ⟨rfl, rfl⟩ hub
  change PtrIs r.1.ptr (openAfter (ks.zip r.2)) (false || everOpened (ks.zip r.2)) at key
  rw [Bool.false_or] at key
  generalize openAfter (ks.zip r.2) = a at key ⊢
  generalize everOpened (ks.zip r.2) = b at key ⊢
  generalize r.1 = x at key ⊢
  obtain ⟨d', hs', p⟩ := x
  cases p <;> obtain ⟨rfl, rfl⟩ := key <;>
    simp [H5.close, H5.has, H5.step, H5.view, H5.write, H5.destroy]

/-- C87 as stated is refuted, sixth reason: closing an HDF5 or MAT file twice is undefined. -/
theorem C87_refuted_close_twice (L : Lib) (fmt : Fmt) (pm : Perm) (d : Str → Option (List (Path × Obj)))
    (hs : List (Str × Bool)) (n : Str) (t : Tm) (h : (d n).isSome) (hr : pm.readable n = true) :
    ((H5.new d hs).run L fmt pm [.open n .read t, .close, .close]).2 = [.ok, .ok, .ub] := by
  obtain ⟨objs, ho⟩ := Option.isSome_iff_exists.1 h
  cases fmt <;>
    simp [H5.run, H5.step, H5.open, H5.openFile, H5.new, ho, hr, H5.assign, H5.close]

/-- C87 as stated is refuted, seventh reason: destroying the object after a file could not be
opened is undefined, because the constructor does not initialise the pointer to the file. -/
theorem C87_refuted_destroy (fmt : Fmt) (pm : Perm) (d : Str → Option (List (Path × Obj)))
    (hs : List (Str × Bool)) (n : Str) (t : Tm) (h : d n = none) :
    let r := (H5.new d hs).open fmt pm n .read t
    r.2 = .exc ∧ r.1.destroy.2 = .ub := by
  cases fmt <;> simp [H5.open, H5.openFile, H5.new, h, H5.assign, H5.destroy]

/-- C87 as stated is refuted, eighth reason: a file left open when the same object opens another
one can never be closed, and cannot be opened for writing again. -/
theorem C87_refuted_handle_lost (L : Lib) :
    let pm : Perm := ⟨fun _ => true, fun _ => true⟩
    let t : Tm := ⟨0, 5, 1, 0, 0, 0, 100⟩
    let r := (H5.new (fun _ => none) []).run L .hdf5 pm [.open "a".toList .write t,
      .open "b".toList .write t, .close, .open "a".toList .write t]
    r.2 = [.ok, .ok, .ok, .exc] := by
  simp [H5.run, H5.step, H5.open, H5.openFile, H5.new, H5.assign, H5.close, setFile]

/-- C87, `Create`: the object made belongs to the format named by the extension, and a name
without a known extension is refused with an exception. -/
theorem C87_create {α : Type} (pm : Perm) (c : Codec α) (texts : Str → Option Str)
    (files : Str → Option (List (Path × Obj))) (hs : List (Str × Bool)) (n : Str) (m : Mode) (t : Tm) :
    (typeOfFile n = .unknown → create pm c texts files hs n m t = (none, .exc)) ∧
    (∀ s, create pm c texts files hs n m t = (some (.sdt s), .ok) ↔
      typeOfFile n = .sdt ∧ (Sdt.new texts : Sdt α).open pm c n m = (s, .ok)) ∧
    (∀ fmt s, create pm c texts files hs n m t = (some (.h5 fmt s), .ok) ↔
      typeOfFile n = (match fmt with | .hdf5 => .hdf5 | .mat => .matlab) ∧
        (H5.new files hs).open fmt pm n m t = (s, .ok)) ∧
    ((create pm c texts files hs n m t).1 = none ↔ (create pm c texts files hs n m t).2 ≠ .ok) := by
  unfold create
  cases typeOfFile n with
  | sdt =>
    generalize (Sdt.new texts : Sdt α).open pm c n m = r
    obtain ⟨s, o⟩ := r
    refine ⟨nofun, fun s' => ?_, fun fmt s' => ?_, ?_⟩
    · cases o <;> simp
    · cases o <;> cases fmt <;> simp
    · cases o <;> simp
  | hdf5 =>
    generalize e : (H5.new files hs).open .hdf5 pm n m t = r
    obtain ⟨s, o⟩ := r
    refine ⟨nofun, fun s' => ?_, fun fmt s' => ?_, ?_⟩
    · cases o <;> simp
    · cases o <;> cases fmt <;> simp [e]
    · cases o <;> simp
  | matlab =>
    generalize e : (H5.new files hs).open .mat pm n m t = r
    obtain ⟨s, o⟩ := r
    refine ⟨nofun, fun s' => ?_, fun fmt s' => ?_, ?_⟩
    · cases o <;> simp
    · cases o <;> cases fmt <;> simp [e]
    · cases o <;> simp
  | unknown =>
    refine ⟨fun _ => rfl, fun s' => by simp, fun fmt s' => ?_, by simp⟩
    cases fmt <;> simp

/-- The hypotheses of the HDF5 theorems are met. -/
example (L : Lib) : WritesDefined L .hdf5 ⟨true, []⟩
    [.string ["a".toList] [1, 2], .string ["a".toList] [3], .struct ["b".toList]] ∧
    TimeOk .mat ⟨0, 5, 1, 0, 0, 0, 100⟩ := by
  refine ⟨?_, fun _ => ⟨⟨by decide, by decide, by decide, by decide, by decide, by decide, by decide,
    by decide⟩, by decide⟩⟩
  simp [WritesDefined, Hdf.write, writeString, createWrite, File.canCreate, File.find, File.isGroup, prod,
    createStruct, createGroup, File.add, L.conv_self]

end Softlib
