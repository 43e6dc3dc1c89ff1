import Verif.Magnetic.FieldMemModel

namespace Softlib

open Softlib.Magnetic.FieldMem

/-- From `s`, the commands `c` end in an exception with a state that satisfies `P`, or go on from `s'`. -/
structure FRuns (P : FSt → Prop) (c : List FCmd) (s s' : FSt) : Prop where
  run : ∀ d p, (∃ m, fExec (c ++ d) p s = .throws m ∧ P m) ∨ ∃ p', fExec (c ++ d) p s = fExec d p' s'

namespace FRuns

variable {P : FSt → Prop} {c c' : List FCmd} {s s' s'' : FSt}

theorem nil : FRuns P [] s s := ⟨fun _ p => Or.inr ⟨p, rfl⟩⟩

theorem append (h : FRuns P c s s') (h' : FRuns P c' s' s'') : FRuns P (c ++ c') s s'' := by
  refine ⟨fun d p => ?_⟩
  rw [List.append_assoc]
  rcases h.run (c' ++ d) p with hh | ⟨p', hh⟩
  · exact Or.inl hh
  · rw [hh]; exact h'.run d p'

theorem new {b : FSlot} {k : FKind} (h : FRuns P c { s with live := (b, k) :: s.live } s') : FRuns P (.new b k :: c) s s' :=
  ⟨fun d p => h.run d p⟩

theorem del {b : FSlot} {k : FKind} {l : List (FSlot × FKind)} (hm : (b, k) ∈ s.live) (hl : s.live.erase (b, k) = l)
    (h : FRuns P c { s with live := l } s') : FRuns P (.del b k :: c) s s' := by
  refine ⟨fun d p => ?_⟩
  have e : fExec (FCmd.del b k :: c ++ d) p s = fExec (c ++ d) p { s with live := l } := by
    rw [List.cons_append, fExec, if_pos hm, hl]
  rw [e]; exact h.run d p

theorem newM {m : FMem} {b : FSlot}
    (h : FRuns P c { s with live := (b, .arr) :: s.live, ptr := fun x => if x = m then some b else s.ptr x } s') :
    FRuns P (.newM m b :: c) s s' := ⟨fun d p => h.run d p⟩

theorem nullM {m : FMem} (h : FRuns P c { s with ptr := fun x => if x = m then none else s.ptr x } s') :
    FRuns P (.nullM m :: c) s s' := ⟨fun d p => h.run d p⟩

theorem setC {x : FCnt} {n : Bool} (h : FRuns P c { s with cnt := fun y => if y = x then some n else s.cnt y } s') :
    FRuns P (.setC x n :: c) s s' := ⟨fun d p => h.run d p⟩

theorem delM {m : FMem} {s₁ : FSt} (hr : fRelease m s = some s₁) (h : FRuns P c s₁ s') : FRuns P (.delM m :: c) s s' := by
  refine ⟨fun d p => ?_⟩
  have e : fExec (FCmd.delM m :: c ++ d) p s = fExec (c ++ d) p s₁ := by rw [List.cons_append, fExec, hr]
  rw [e]; exact h.run d p

theorem check (hp : P s) (h : FRuns P c s s') : FRuns P (.check :: c) s s' := by
  refine ⟨fun d p => ?_⟩
  cases p with
  | zero => exact Or.inl ⟨s, rfl, hp⟩
  | succ p => exact h.run d p

theorem congr (h : FRuns P c s s') (e : s' = s'') : FRuns P c s s'' := e ▸ h

theorem out (h : FRuns P c s s') (p : Nat) : (∃ m, fExec c p s = .throws m ∧ P m) ∨ fExec c p s = .ok s' := by
  have := h.run [] p
  rw [List.append_nil] at this
  rcases this with hh | ⟨p', hh⟩
  · exact Or.inl hh
  · exact Or.inr (by rw [hh]; rfl)

end FRuns

/-- The file object of load `g` is allocated. -/
def FileLeft (g : Nat) (s : FSt) : Prop := ((FBase.sf, g), FKind.one) ∈ s.live

abbrev FLive := List (FSlot × FKind)

/-- The blocks of a component of the field. -/
def fieldLive (b r : FBase) (g : Nat) (t : Bool) : FLive :=
  if t then [((b, g + 1), .arr), ((r, g + 1), .arr)] else [((r, g), .arr), ((b, g), .arr)]

def verLive (b r : FBase) (g : Nat) : Ver → FLive
  | .absent => []
  | .list => [((b, g), .arr)]
  | .matrix => [((r, g), .arr), ((b, g), .arr)]

/-- What is left of a verification vector that is no vector. -/
def verLeft (b r : FBase) (g : Nat) : Ver → FLive
  | .matrix => [((r, g), .arr), ((b, g), .arr)]
  | _ => []

def psiLive (g : Nat) : Option Bool → FLive
  | none => []
  | some t => fieldLive .psi .psiR g t

/-- Everything read before the verification. -/
def readLive (g : Nat) (f : NumFile) : FLive :=
  verLive .verBz .verBzR g f.vz ++ verLive .verBphi .verBphiR g f.vphi ++ verLive .verBr .verBrR g f.vr ++ psiLive g f.psi ++
    fieldLive .bz .bzR g f.tz ++ fieldLive .bphi .bphiR g f.tphi ++ fieldLive .br .brR g f.tr ++
    [((.zg, g), .arr), ((.rg, g), .arr), ((.maxis, g), .arr), ((.sf, g), .one)]

theorem getField_runs (b r : FBase) (g : Nat) (t : Bool) (hbr : b ≠ r) (s : FSt) (hs : FileLeft g s) :
    FRuns (FileLeft g) (getField b r g t) s { s with live := fieldLive b r g t ++ s.live } := by
  unfold getField fGetDoubles
  cases t
  · exact .check hs (.new (.new .nil))
  · simp only [if_true, List.cons_append, List.nil_append, transpose, fieldLive]
    refine .check hs (.new (.new (.new (.new (.del (l := ((b, g + 1), .arr) :: ((r, g + 1), .arr) :: ((r, g), .arr) :: s.live)
      (by simp) ?_ (.del (l := ((b, g + 1), .arr) :: ((r, g + 1), .arr) :: s.live) (by simp) ?_ .nil))))))
    · simp [List.erase_cons, hbr, Ne.symm hbr]
    · simp [List.erase_cons, hbr, Ne.symm hbr]

theorem readPsi_runs (g : Nat) (o : Option Bool) (s : FSt) :
    FRuns (FileLeft g) (readPsi g o) s { s with live := psiLive g o ++ s.live } := by
  cases o with
  | none => exact .nil
  | some t =>
    cases t
    · exact .new (.new .nil)
    · refine .new (.new (.new (.new (.del (l := ((.psi, g + 1), .arr) :: ((.psiR, g + 1), .arr) :: ((.psiR, g), .arr) :: s.live)
        (by simp) ?_ (.del (l := ((.psi, g + 1), .arr) :: ((.psiR, g + 1), .arr) :: s.live) (by simp) ?_ .nil)))))
      · simp [List.erase_cons]
      · simp [List.erase_cons]

theorem readVer_runs (b r : FBase) (g : Nat) (v : Ver) (s : FSt) :
    FRuns (FileLeft g) (readVer b r g v) s { s with live := verLive b r g v ++ s.live } := by
  cases v
  · exact .nil
  · refine .new (.new (.del (by simp) ?_ .nil))
    simp [List.erase_cons, verLive]
  · exact .new (.new .nil)

theorem compareVer_runs (g : Nat) (v : Ver) (s : FSt) (hs : FileLeft g s) : FRuns (FileLeft g) (compareVer v) s s := by
  cases v
  · exact .nil
  · exact .check hs (.check hs .nil)
  · exact .nil

theorem getList_runs (b r : FBase) (g : Nat) (hbr : b ≠ r) (s : FSt) (hs : FileLeft g s) :
    FRuns (FileLeft g) (fGetList b r g) s { s with live := ((b, g), .arr) :: s.live } := by
  refine .check hs (.new (.new (.check ?_ (.del (l := ((b, g), .arr) :: s.live) (by simp) ?_ .nil))))
  · exact List.mem_cons_of_mem _ (List.mem_cons_of_mem _ hs)
  · simp [List.erase_cons]

/-- After the type of the file is known: reading. -/
theorem numRead_runs (g : Nat) (f : NumFile) (s : FSt) (p : Nat) (c : List FCmd) :
    fExec (numRead g f ++ c) p s = .throws s ∧ p = 0 ∨
    (∃ m, fExec (numRead g f ++ c) p s = .throws m ∧ FileLeft g m) ∨
    ∃ p', fExec (numRead g f ++ c) p s = fExec c p' { s with live := readLive g f ++ s.live } := by
  cases p with
  | zero => exact Or.inl ⟨rfl, rfl⟩
  | succ p =>
    right
    have key : FRuns (FileLeft g) (numRead g f).tail s { s with live := readLive g f ++ s.live } := by
      unfold numRead fCreate readLive
      simp only [List.cons_append, List.nil_append, List.tail_cons, List.append_assoc]
      have fl : ∀ (l : FLive), FileLeft g { s with live := l ++ ((FBase.sf, g), FKind.one) :: s.live } :=
        fun l => by simp [FileLeft]
      refine .new (.check (fl []) (.check (fl []) (.check (fl []) ((getList_runs _ _ g (by simp) _ (fl [])).append ?_))))
      refine .check (fl [_]) ((getList_runs _ _ g (by simp) _ (fl [_])).append ?_)
      refine (getList_runs _ _ g (by simp) _ (fl [_, _])).append ?_
      refine (getField_runs _ _ g f.tr (by simp) _ (fl [_, _, _])).append ?_
      refine (getField_runs _ _ g f.tphi (by simp) _ (by simp [FileLeft])).append ?_
      refine (getField_runs _ _ g f.tz (by simp) _ (by simp [FileLeft])).append ?_
      refine (readPsi_runs g f.psi _).append ?_
      refine (readVer_runs _ _ g f.vr _).append ((readVer_runs _ _ g f.vphi _).append ((readVer_runs _ _ g f.vz _).append ?_))
      refine (compareVer_runs g f.vr _ (by simp [FileLeft])).append ((compareVer_runs g f.vphi _ (by simp [FileLeft])).append ?_)
      exact (compareVer_runs g f.vz _ (by simp [FileLeft])).congr (by simp only [List.cons_append, List.nil_append])
    have hs : numRead g f = .check :: (numRead g f).tail := by
      simp only [numRead, fCreate, List.cons_append, List.nil_append, List.append_assoc, List.tail_cons]
    have e : fExec (numRead g f ++ c) (p + 1) s = fExec ((numRead g f).tail ++ c) p s := by
      rw [hs, List.cons_append, fExec, List.tail_cons]
    rw [e]
    exact key.run c p

theorem dropVers_runs (g : Nat) (f : NumFile) (s : FSt) (l : FLive) (hl : s.live = verLive .verBz .verBzR g f.vz ++
      (verLive .verBphi .verBphiR g f.vphi ++ (verLive .verBr .verBrR g f.vr ++ l))) :
    FRuns (FileLeft g) (dropVer .verBr g f.vr ++ (dropVer .verBphi g f.vphi ++ dropVer .verBz g f.vz)) s
      { s with live := verLeft .verBz .verBzR g f.vz ++ (verLeft .verBphi .verBphiR g f.vphi ++ (verLeft .verBr .verBrR g f.vr ++ l)) } := by
  obtain ⟨L, q, n⟩ := s
  simp only at hl
  subst hl
  generalize f.vz = z
  generalize f.vphi = y
  generalize f.vr = x
  have h1 : FRuns (FileLeft g) (dropVer .verBr g x) ⟨verLive .verBz .verBzR g z ++
      (verLive .verBphi .verBphiR g y ++ (verLive .verBr .verBrR g x ++ l)), q, n⟩ ⟨verLive .verBz .verBzR g z ++
      (verLive .verBphi .verBphiR g y ++ (verLeft .verBr .verBrR g x ++ l)), q, n⟩ := by
    cases x
    · exact .nil
    · refine .del (by simp [verLive]) rfl (FRuns.nil.congr ?_)
      cases z <;> cases y <;> simp [verLive, verLeft, List.erase_cons]
    · exact .nil
  have h2 : FRuns (FileLeft g) (dropVer .verBphi g y) ⟨verLive .verBz .verBzR g z ++
      (verLive .verBphi .verBphiR g y ++ (verLeft .verBr .verBrR g x ++ l)), q, n⟩ ⟨verLive .verBz .verBzR g z ++
      (verLeft .verBphi .verBphiR g y ++ (verLeft .verBr .verBrR g x ++ l)), q, n⟩ := by
    cases y
    · exact .nil
    · refine .del (by simp [verLive]) rfl (FRuns.nil.congr ?_)
      cases z <;> simp [verLive, verLeft, List.erase_cons]
    · exact .nil
  have h3 : FRuns (FileLeft g) (dropVer .verBz g z) ⟨verLive .verBz .verBzR g z ++
      (verLeft .verBphi .verBphiR g y ++ (verLeft .verBr .verBrR g x ++ l)), q, n⟩ ⟨verLeft .verBz .verBzR g z ++
      (verLeft .verBphi .verBphiR g y ++ (verLeft .verBr .verBrR g x ++ l)), q, n⟩ := by
    cases z
    · exact .nil
    · refine .del (by simp [verLive]) rfl (FRuns.nil.congr ?_)
      simp [verLive, verLeft, List.erase_cons]
    · exact .nil
  exact h1.append (h2.append h3)

/-- The blocks of a contour that was read. -/
def contourLive (b x y : FBase) (g : Nat) : Option FContour → FLive
  | none => []
  | some (.rows _) => [((b, g), .arr)]
  | some (.cols _) => [((y, g), .arr), ((x, g), .arr)]

/-- The pointers and the count after a contour was read. -/
def contourPtr (a z : FMem) (o : Option FContour) (q : FMem → Option FSlot) : FMem → Option FSlot :=
  match o with
  | none => fun m => if m = z then none else if m = a then none else q m
  | some _ => q

def contourCnt (c : FCnt) (o : Option FContour) (q : FCnt → Option Bool) : FCnt → Option Bool :=
  fun m => if m = c then some (match o with | none => false | some k => decide (0 < k.length)) else q m

theorem readContour_runs (b r x y : FBase) (c : FCnt) (a z : FMem) (g : Nat) (o : Option FContour) (s : FSt)
    (h : b ≠ r ∧ b ≠ x ∧ b ≠ y ∧ r ≠ x ∧ r ≠ y) :
    FRuns (FileLeft g) (readContour b r x y c a z g o) s
      ⟨contourLive b x y g o ++ s.live, contourPtr a z o s.ptr, contourCnt c o s.cnt⟩ := by
  obtain ⟨h1, h2, h3, h4, h5⟩ := h
  rcases o with _ | n | n
  · exact .setC (.nullM (.nullM .nil))
  · exact .new (.new (.setC (.del (l := ((b, g), .arr) :: s.live) (by simp) (by simp) .nil)))
  · refine .new (.new (.setC (.new (.new (.del (l := ((y, g), .arr) :: ((x, g), .arr) :: ((r, g), .arr) :: s.live) (by simp) ?_
      (.del (l := ((y, g), .arr) :: ((x, g), .arr) :: s.live) (by simp) ?_ .nil))))))
    · simp [List.erase_cons, Ne.symm h1, Ne.symm h2, Ne.symm h3]
    · simp [List.erase_cons, Ne.symm h4, Ne.symm h5]

/-- The release of what was read from the file, 661-664; `A` is what was allocated later or is kept. -/
theorem numRelease_runs (g : Nat) (f : NumFile) (A l : FLive) (q : FMem → Option FSlot) (n : FCnt → Option Bool)
    (hA : ∀ b i, b ∈ [FBase.maxis, .rg, .zg, .br, .bphi, .bz, .brR, .bphiR, .bzR] → ((b, i), FKind.arr) ∉ A) :
    FRuns (FileLeft g) [.del (.maxis, g) .arr, .del (.rg, g) .arr, .del (.zg, g) .arr,
      .del (.br, genOf g f.tr) .arr, .del (.bphi, genOf g f.tphi) .arr, .del (.bz, genOf g f.tz) .arr,
      .del (.brR, genOf g f.tr) .arr, .del (.bphiR, genOf g f.tphi) .arr, .del (.bzR, genOf g f.tz) .arr]
      ⟨A ++ (fieldLive .bz .bzR g f.tz ++ (fieldLive .bphi .bphiR g f.tphi ++ (fieldLive .br .brR g f.tr ++
        (((.zg, g), .arr) :: ((.rg, g), .arr) :: ((.maxis, g), .arr) :: ((.sf, g), .one) :: l)))), q, n⟩
      ⟨A ++ ((.sf, g), .one) :: l, q, n⟩ := by
  have e : ∀ b i (t : FLive), b ∈ [FBase.maxis, .rg, .zg, .br, .bphi, .bz, .brR, .bphiR, .bzR] →
      (A ++ t).erase ((b, i), FKind.arr) = A ++ t.erase ((b, i), FKind.arr) :=
    fun b i t hb => List.erase_append_right _ (hA b i hb)
  generalize f.tr = x
  generalize f.tphi = y
  generalize f.tz = z
  cases x <;> cases y <;> cases z <;>
  · simp only [fieldLive, genOf, if_true, if_false, Bool.false_eq_true, List.cons_append, List.nil_append]
    refine .del (by simp) (e _ _ _ (by simp)) (.del ?_ (e _ _ _ (by simp)) (.del ?_ (e _ _ _ (by simp)) (.del ?_ (e _ _ _ (by simp))
      (.del ?_ (e _ _ _ (by simp)) (.del ?_ (e _ _ _ (by simp)) (.del ?_ (e _ _ _ (by simp)) (.del ?_ (e _ _ _ (by simp)) (.del ?_
      (e _ _ _ (by simp)) (FRuns.nil.congr ?_))))))))) <;> simp [List.erase_cons]

def psiCopy (g : Nat) : Option Bool → FLive
  | none => []
  | some _ => [((.mPsi, g), .arr)]

def gridLive (g : Nat) : FLive :=
  [((.mBz, g), .arr), ((.mBphi, g), .arr), ((.mBr, g), .arr), ((.mZ, g), .arr), ((.mR, g), .arr)]

/-- What was read and is never released, besides the file object. -/
def keptLive (g : Nat) (f : NumFile) : FLive :=
  verLeft .verBz .verBzR g f.vz ++ (verLeft .verBphi .verBphiR g f.vphi ++ (verLeft .verBr .verBrR g f.vr ++ psiLive g f.psi))

def sepLive (g : Nat) (f : NumFile) : FLive := contourLive .sep .rsepN .zsepN g f.sep

def wallLive (g : Nat) (f : NumFile) : FLive := contourLive .wall .rwallN .zwallN g f.wall

/-- Allocated when the releases of `numCopy` are done. -/
def copyLive (g : Nat) (f : NumFile) (l : FLive) : FLive :=
  psiCopy g f.psi ++ (gridLive g ++ (sepLive g f ++ (wallLive g f ++ (keptLive g f ++ ((.sf, g), .one) :: l))))

def contourLen : Option FContour → Bool
  | none => false
  | some k => decide (0 < k.length)

def numCnt (f : NumFile) : FCnt → Option Bool
  | .nwall => some (contourLen f.wall)
  | .nsep => some (contourLen f.sep)

/-- The pointers of the object after the grid was copied. -/
def copyPtr (g : Nat) (f : NumFile) (q : FMem → Option FSlot) : FMem → Option FSlot
  | .R => some (.mR, g)
  | .Z => some (.mZ, g)
  | .Br => some (.mBr, g)
  | .Bphi => some (.mBphi, g)
  | .Bz => some (.mBz, g)
  | .Psi => f.psi.map fun _ => (.mPsi, g)
  | .rwall => if f.wall.isNone then none else q .rwall
  | .zwall => if f.wall.isNone then none else q .zwall
  | .rsep => if f.sep.isNone then none else q .rsep
  | .zsep => if f.sep.isNone then none else q .zsep
  | m => q m

theorem copyPsi_runs (g : Nat) (o : Option Bool) (s : FSt) : FRuns (FileLeft g) (copyPsi g o) s
    ⟨psiCopy g o ++ s.live, fun m => if m = .Psi then o.map fun _ => (.mPsi, g) else s.ptr m, s.cnt⟩ := by
  cases o with
  | none => exact .nullM .nil
  | some t => exact .newM .nil

theorem keptLive_not (g : Nat) (f : NumFile) (b : FBase) (i : Nat)
    (hb : b ∈ [FBase.maxis, .rg, .zg, .br, .bphi, .bz, .brR, .bphiR, .bzR]) :
    ((b, i), FKind.arr) ∉ psiCopy g f.psi ++ (gridLive g ++ (sepLive g f ++ (wallLive g f ++ keptLive g f))) := by
  have hp : ((b, i), FKind.arr) ∉ psiLive g f.psi := by
    rcases f.psi with _ | t
    · simp [psiLive]
    · cases t <;> simp only [List.mem_cons, List.not_mem_nil, or_false] at hb <;>
        rcases hb with h | h | h | h | h | h | h | h | h <;> subst h <;> simp [psiLive, fieldLive]
  have hc : ((b, i), FKind.arr) ∉ psiCopy g f.psi ++ gridLive g := by
    rcases f.psi with _ | t <;> simp only [List.mem_cons, List.not_mem_nil, or_false] at hb <;>
        rcases hb with h | h | h | h | h | h | h | h | h <;> subst h <;> simp [psiCopy, gridLive]
  have hs : ((b, i), FKind.arr) ∉ sepLive g f := by
    unfold sepLive
    rcases f.sep with _ | n | n <;> simp only [List.mem_cons, List.not_mem_nil, or_false] at hb <;>
        rcases hb with h | h | h | h | h | h | h | h | h <;> subst h <;> simp [contourLive]
  have hw : ((b, i), FKind.arr) ∉ wallLive g f := by
    unfold wallLive
    rcases f.wall with _ | n | n <;> simp only [List.mem_cons, List.not_mem_nil, or_false] at hb <;>
        rcases hb with h | h | h | h | h | h | h | h | h <;> subst h <;> simp [contourLive]
  have hv : ∀ (c r : FBase) v, c ∈ [FBase.verBr, .verBphi, .verBz] → r ∈ [FBase.verBrR, .verBphiR, .verBzR] →
      ((b, i), FKind.arr) ∉ verLeft c r g v := by
    intro c r v hc hr
    cases v
    · simp [verLeft]
    · simp [verLeft]
    · simp only [verLeft, List.mem_cons, List.not_mem_nil, or_false, Prod.mk.injEq] at *
      rintro (⟨⟨h, _⟩, _⟩ | ⟨⟨h, _⟩, _⟩)
      · subst h; rcases hr with h | h | h <;> subst h <;> simp at hb
      · subst h; rcases hc with h | h | h <;> subst h <;> simp at hb
  have h1 := hv .verBz .verBzR f.vz (by simp) (by simp)
  have h2 := hv .verBphi .verBphiR f.vphi (by simp) (by simp)
  have h3 := hv .verBr .verBrR f.vr (by simp) (by simp)
  simp only [List.mem_append, not_or, keptLive] at hc ⊢
  exact ⟨hc.1, hc.2, hs, hw, h1, h2, h3, hp⟩

theorem numCopy_runs (g : Nat) (f : NumFile) (l : FLive) (q : FMem → Option FSlot) (n : FCnt → Option Bool) :
    FRuns (FileLeft g) (numCopy g f) ⟨readLive g f ++ l, q, n⟩ ⟨copyLive g f l, copyPtr g f q, numCnt f⟩ := by
  unfold numCopy
  simp only [List.append_assoc]
  have e := dropVers_runs g f ⟨readLive g f ++ l, q, n⟩ (psiLive g f.psi ++ (fieldLive .bz .bzR g f.tz ++
    (fieldLive .bphi .bphiR g f.tphi ++ (fieldLive .br .brR g f.tr ++
    ([((.zg, g), .arr), ((.rg, g), .arr), ((.maxis, g), .arr), ((.sf, g), .one)] ++ l)))))
    (by simp only [readLive, List.append_assoc])
  have e1 := readContour_runs .wall .wallR .rwallN .zwallN .nwall .rwall .zwall g f.wall
  have e2 := readContour_runs .sep .sepR .rsepN .zsepN .nsep .rsep .zsep g f.sep
  have hd : dropVer .verBr g f.vr ++ (dropVer .verBphi g f.vphi ++ (dropVer .verBz g f.vz ++
      (readContour .wall .wallR .rwallN .zwallN .nwall .rwall .zwall g f.wall ++
      (readContour .sep .sepR .rsepN .zsepN .nsep .rsep .zsep g f.sep ++
      ([.newM .R (.mR, g), .newM .Z (.mZ, g), .newM .Br (.mBr, g), .newM .Bphi (.mBphi, g), .newM .Bz (.mBz, g)] ++ (copyPsi g f.psi ++
      [.del (.maxis, g) .arr, .del (.rg, g) .arr, .del (.zg, g) .arr,
      .del (.br, genOf g f.tr) .arr, .del (.bphi, genOf g f.tphi) .arr, .del (.bz, genOf g f.tz) .arr,
      .del (.brR, genOf g f.tr) .arr, .del (.bphiR, genOf g f.tphi) .arr, .del (.bzR, genOf g f.tz) .arr]))))))
      = (dropVer .verBr g f.vr ++ (dropVer .verBphi g f.vphi ++ dropVer .verBz g f.vz)) ++
      (readContour .wall .wallR .rwallN .zwallN .nwall .rwall .zwall g f.wall ++
      (readContour .sep .sepR .rsepN .zsepN .nsep .rsep .zsep g f.sep ++
      ([.newM .R (.mR, g), .newM .Z (.mZ, g), .newM .Br (.mBr, g), .newM .Bphi (.mBphi, g), .newM .Bz (.mBz, g)] ++ (copyPsi g f.psi ++
      [.del (.maxis, g) .arr, .del (.rg, g) .arr, .del (.zg, g) .arr,
      .del (.br, genOf g f.tr) .arr, .del (.bphi, genOf g f.tphi) .arr, .del (.bz, genOf g f.tz) .arr,
      .del (.brR, genOf g f.tr) .arr, .del (.bphiR, genOf g f.tphi) .arr, .del (.bzR, genOf g f.tz) .arr])))) := by
    simp only [List.append_assoc]
  rw [hd]
  refine e.append ((e1 _ (by simp)).append ((e2 _ (by simp)).append (FRuns.append (.newM (.newM (.newM (.newM (.newM .nil)))))
    ((copyPsi_runs g f.psi _).append ?_))))
  have k := numRelease_runs g f (psiCopy g f.psi ++ (gridLive g ++ (sepLive g f ++ (wallLive g f ++ keptLive g f)))) l
    (copyPtr g f q) (numCnt f) (fun b i hb => keptLive_not g f b i hb)
  have hl : copyLive g f l =
      psiCopy g f.psi ++ (gridLive g ++ (sepLive g f ++ (wallLive g f ++ keptLive g f))) ++ ((.sf, g), .one) :: l := by
    simp only [copyLive, List.append_assoc]
  rw [hl]
  refine Eq.mp ?_ k
  congr 1
  have hc : ∀ (a b : FSt), a.live = b.live → a.ptr = b.ptr → a.cnt = b.cnt → a = b := by
    rintro ⟨_, _, _⟩ ⟨_, _, _⟩ rfl rfl rfl; rfl
  apply hc
  · simp only [gridLive, sepLive, wallLive, keptLive, List.append_assoc, List.cons_append, List.nil_append]
  · funext m
    rcases hw : f.wall with _ | w <;> rcases hs : f.sep with _ | v <;> cases m <;> simp [copyPtr, contourPtr, hw, hs]
  · funext m
    rcases hw : f.wall with _ | w <;> rcases hs : f.sep with _ | v <;> cases m <;> simp [numCnt, contourCnt, contourLen, hw, hs]

/-- The contours of the object. -/
def contourObj (ma mz : FBase) (g : Nat) : Option FContour → FLive
  | none => []
  | some _ => [((mz, g), .arr), ((ma, g), .arr)]

/-- What is left of a contour with two columns: the array of the vertical coordinates. -/
def contourLeft (y : FBase) (g : Nat) : Option FContour → FLive
  | some (.cols _) => [((y, g), .arr)]
  | _ => []

/-- Allocated after `Load`. -/
def loadLive (g : Nat) (f : NumFile) (l : FLive) : FLive :=
  contourObj .mrsep .mzsep g f.sep ++ (contourObj .mrwall .mzwall g f.wall ++ (psiCopy g f.psi ++ (gridLive g ++
    (contourLeft .zsepN g f.sep ++ (contourLeft .zwallN g f.wall ++ (keptLive g f ++ ((.sf, g), .one) :: l))))))

def loadPtr (g : Nat) (f : NumFile) (q : FMem → Option FSlot) : FMem → Option FSlot
  | .rwall => f.wall.map fun _ => (.mrwall, g)
  | .zwall => f.wall.map fun _ => (.mzwall, g)
  | .rsep => f.sep.map fun _ => (.mrsep, g)
  | .zsep => f.sep.map fun _ => (.mzsep, g)
  | m => copyPtr g f q m

theorem numContours_runs (g : Nat) (f : NumFile) (l : FLive) (q : FMem → Option FSlot)
    (hf : f.wall.isSome ∨ f.sep.isSome) :
    FRuns (FileLeft g) (numContours g f) ⟨copyLive g f l, copyPtr g f q, numCnt f⟩ ⟨loadLive g f l, loadPtr g f q, numCnt f⟩ := by
  obtain ⟨tr, tphi, tz, psi, vr, vphi, vz, wall, sep⟩ := f
  have hn : needContour wall sep = [] := by
    cases wall <;> cases sep <;> simp_all [needContour]
  unfold numContours
  rw [hn, List.nil_append]
  refine FRuns.append ?_ (FRuns.check (by simp [FileLeft, loadLive]) .nil)
  have hk : ∀ (m : NumFile), loadPtr g m q = fun x =>
      if x = .zsep then m.sep.map fun _ => (.mzsep, g) else if x = .rsep then m.sep.map fun _ => (.mrsep, g) else
      if x = .zwall then m.wall.map fun _ => (.mzwall, g) else if x = .rwall then m.wall.map fun _ => (.mrwall, g) else copyPtr g m q x := by
    intro m; funext x; cases x <;> rfl
  rw [hk]
  have e1 : FRuns (FileLeft g) (copyContour .wall .rwallN .mrwall .mzwall .rwall .zwall g wall)
      ⟨copyLive g ⟨tr, tphi, tz, psi, vr, vphi, vz, wall, sep⟩ l, copyPtr g ⟨tr, tphi, tz, psi, vr, vphi, vz, wall, sep⟩ q,
        numCnt ⟨tr, tphi, tz, psi, vr, vphi, vz, wall, sep⟩⟩
      ⟨contourObj .mrwall .mzwall g wall ++ (psiCopy g psi ++ (gridLive g ++ (contourLive .sep .rsepN .zsepN g sep ++
        (contourLeft .zwallN g wall ++ (keptLive g ⟨tr, tphi, tz, psi, vr, vphi, vz, wall, sep⟩ ++ ((.sf, g), .one) :: l))))),
        fun x => if x = .zwall then wall.map fun _ => (.mzwall, g) else if x = .rwall then wall.map fun _ => (.mrwall, g) else
          copyPtr g ⟨tr, tphi, tz, psi, vr, vphi, vz, wall, sep⟩ q x, numCnt ⟨tr, tphi, tz, psi, vr, vphi, vz, wall, sep⟩⟩ := by
    unfold copyLive
    generalize keptLive g ⟨tr, tphi, tz, psi, vr, vphi, vz, wall, sep⟩ ++ ((.sf, g), .one) :: l = X
    generalize numCnt ⟨tr, tphi, tz, psi, vr, vphi, vz, wall, sep⟩ = N
    rcases wall with _ | w | w
    · refine FRuns.nil.congr ?_
      congr 1
      funext x
      cases x <;> rfl
    · refine .newM (.newM (.del ?_ ?_ .nil))
      · simp [wallLive, contourLive]
      · rcases psi with _ | t <;> rcases sep with _ | v | v <;>
          simp [wallLive, sepLive, contourLive, contourLeft, contourObj, psiCopy, gridLive, List.erase_cons]
    · refine .newM (.newM (.del ?_ ?_ .nil))
      · simp [wallLive, contourLive]
      · rcases psi with _ | t <;> rcases sep with _ | v | v <;>
          simp [wallLive, sepLive, contourLive, contourLeft, contourObj, psiCopy, gridLive, List.erase_cons]
  refine e1.append ?_
  unfold loadLive
  generalize keptLive g ⟨tr, tphi, tz, psi, vr, vphi, vz, wall, sep⟩ ++ ((.sf, g), .one) :: l = X
  generalize numCnt ⟨tr, tphi, tz, psi, vr, vphi, vz, wall, sep⟩ = N
  rcases sep with _ | w | w
  · refine FRuns.nil.congr ?_
    congr 1
    funext x
    cases x <;> rfl
  · refine .newM (.newM (.del ?_ ?_ .nil))
    · simp [contourLive]
    · rcases psi with _ | t <;> rcases wall with _ | v | v <;>
        simp [contourLive, contourLeft, contourObj, psiCopy, gridLive, List.erase_cons]
  · refine .newM (.newM (.del ?_ ?_ .nil))
    · simp [contourLive]
    · rcases psi with _ | t <;> rcases wall with _ | v | v <;>
        simp [contourLive, contourLeft, contourObj, psiCopy, gridLive, List.erase_cons]

/-- `Load` of a file with a contour. -/
theorem numLoad_runs (g : Nat) (f : NumFile) (s : FSt) (p : Nat) (c : List FCmd) (hf : f.wall.isSome ∨ f.sep.isSome) :
    fExec (numLoad g f ++ c) p s = .throws s ∧ p = 0 ∨
    (∃ m, fExec (numLoad g f ++ c) p s = .throws m ∧ FileLeft g m) ∨
    ∃ p', fExec (numLoad g f ++ c) p s = fExec c p' ⟨loadLive g f s.live, loadPtr g f s.ptr, numCnt f⟩ := by
  have e : numLoad g f ++ c = numRead g f ++ (numCopy g f ++ numContours g f ++ c) := by
    simp only [numLoad, List.append_assoc]
  rw [e]
  rcases numRead_runs g f s p (numCopy g f ++ numContours g f ++ c) with h | h | ⟨p', h⟩
  · exact Or.inl h
  · exact Or.inr (Or.inl h)
  · right
    rw [h]
    exact ((numCopy_runs g f s.live s.ptr s.cnt).append (numContours_runs g f s.live s.ptr hf)).run c p'

/-- `Load` of a file without a contour. -/
theorem numLoad_bare (g : Nat) (f : NumFile) (s : FSt) (p : Nat) (c : List FCmd) (hw : f.wall = none) (hs : f.sep = none) :
    fExec (numLoad g f ++ c) p s = .throws s ∧ p = 0 ∨ ∃ m, fExec (numLoad g f ++ c) p s = .throws m ∧ FileLeft g m := by
  have e : numLoad g f ++ c = numRead g f ++ (numCopy g f ++ (numContours g f ++ c)) := by
    simp only [numLoad, List.append_assoc]
  rw [e]
  rcases numRead_runs g f s p (numCopy g f ++ (numContours g f ++ c)) with h | h | ⟨p', h⟩
  · exact Or.inl h
  · exact Or.inr h
  · right
    rw [h]
    rcases (numCopy_runs g f s.live s.ptr s.cnt).run (numContours g f ++ c) p' with h | ⟨p'', h⟩
    · exact h
    · refine ⟨⟨copyLive g f s.live, copyPtr g f s.ptr, numCnt f⟩, ?_, by simp [FileLeft, copyLive]⟩
      rw [h]
      simp only [numContours, hw, hs, needContour, Option.isNone_none, Bool.and_self, if_true, List.cons_append, fExec]

/-- The places of exceptions that can be passed. -/
def fPlaces (c : List FCmd) : Nat := c.count .check

theorem fExec_past (c : List FCmd) (hc : FCmd.fail ∉ c) : ∀ (p : Nat) (s : FSt), fPlaces c ≤ p → ∀ m, fExec c p s ≠ .throws m := by
  induction c with
  | nil => intro p s _ m h; cases h
  | cons a c ih =>
    have hc' : FCmd.fail ∉ c := fun h => hc (List.mem_cons_of_mem _ h)
    intro p s hp m
    have step : ∀ s, a ≠ .check → fExec c p s ≠ .throws m := by
      intro s ha
      refine ih hc' p s ?_ m
      rw [fPlaces, List.count_cons] at hp
      rw [fPlaces]; omega
    cases a with
    | new b k => exact step _ (by simp)
    | del b k =>
      rw [fExec]
      by_cases h : (b, k) ∈ s.live
      · rw [if_pos h]; exact step _ (by simp)
      · rw [if_neg h]; exact fun h => by cases h
    | newM x b => exact step _ (by simp)
    | nullM x => exact step _ (by simp)
    | delM x =>
      rw [fExec]
      cases fRelease x s with
      | none => exact fun h => by cases h
      | some s' => exact step _ (by simp)
    | setC x n => exact step _ (by simp)
    | delC x a b =>
      rw [fExec]
      cases s.cnt x with
      | none => exact fun h => by cases h
      | some n =>
        cases n with
        | false => exact step _ (by simp)
        | true =>
          dsimp only
          cases (fRelease a s).bind (fRelease b) with
          | none => exact fun h => by cases h
          | some s' => exact step _ (by simp)
    | check =>
      cases p with
      | zero => simp [fPlaces] at hp
      | succ p =>
        rw [fExec]
        refine ih hc' p s ?_ m
        simp only [fPlaces, List.count_cons_self] at hp
        rw [fPlaces]; omega
    | fail => exact absurd (List.mem_cons_self ..) hc

/-- A contour of length zero is copied but not released. -/
def emptyLeft (ma mz : FBase) (g : Nat) : Option FContour → FLive
  | none => []
  | some k => if k.length = 0 then [((mz, g), .arr), ((ma, g), .arr)] else []

/-- What is left after a numeric field was loaded and destroyed. -/
def numLeft (f : NumFile) : FLive :=
  (if f.psi.isSome then [((.sPsi, 0), .gsl)] else []) ++
    [((.sBz, 0), .gsl), ((.sBphi, 0), .gsl), ((.sBr, 0), .gsl), ((.za, 0), .gsl), ((.ra, 0), .gsl)] ++
    emptyLeft .mrsep .mzsep 0 f.sep ++ emptyLeft .mrwall .mzwall 0 f.wall ++
    (if f.psi.isSome then [((.mPsi, 0), .arr)] else []) ++
    contourLeft .zsepN 0 f.sep ++ contourLeft .zwallN 0 f.wall ++
    verLeft .verBz .verBzR 0 f.vz ++ verLeft .verBphi .verBphiR 0 f.vphi ++ verLeft .verBr .verBrR 0 f.vr ++
    psiLive 0 f.psi ++ [((.sf, 0), .one)]

/-- The destruction, by the lengths of the contours; `X` is what the object does not hold. -/
theorem numDelete_aux (psi : Bool) (ow os : Option Nat) (X : FLive) (q : FMem → Option FSlot) (n : FCnt → Option Bool) (p : Nat)
    (hR : q .R = some (.mR, 0)) (hZ : q .Z = some (.mZ, 0)) (hBr : q .Br = some (.mBr, 0))
    (hBphi : q .Bphi = some (.mBphi, 0)) (hBz : q .Bz = some (.mBz, 0)) (hrw : q .rwall = ow.map fun _ => (.mrwall, 0))
    (hzw : q .zwall = ow.map fun _ => (.mzwall, 0)) (hrs : q .rsep = os.map fun _ => (.mrsep, 0))
    (hzs : q .zsep = os.map fun _ => (.mzsep, 0)) (hnw : n .nwall = some (decide (0 < ow.getD 0))) (hns : n .nsep = some (decide (0 < os.getD 0))) :
    ∃ s, fExec (initInterp psi ++ baseInit) p ⟨(if os.isSome then [((.mzsep, 0), .arr), ((.mrsep, 0), .arr)] else []) ++
        ((if ow.isSome then [((.mzwall, 0), .arr), ((.mrwall, 0), .arr)] else []) ++ ((if psi then [((.mPsi, 0), .arr)] else []) ++
          (gridLive 0 ++ X))), q, n⟩ = .ok s ∧
      ∃ m, deleteField s = .ok m ∧ m.live = (if psi then [((.sPsi, 0), .gsl)] else []) ++
        ([((.sBz, 0), .gsl), ((.sBphi, 0), .gsl), ((.sBr, 0), .gsl), ((.za, 0), .gsl), ((.ra, 0), .gsl)] ++
        ((if os = some 0 then [((.mzsep, 0), .arr), ((.mrsep, 0), .arr)] else []) ++
        ((if ow = some 0 then [((.mzwall, 0), .arr), ((.mrwall, 0), .arr)] else []) ++
        ((if psi then [((.mPsi, 0), .arr)] else []) ++ X)))) := by
  rcases psi with _ | _ <;> rcases ow with _ | _ | ow <;> rcases os with _ | _ | os <;>
    simp [initInterp, baseInit, fExec, deleteField, fDestroy, fRelease, gridLive, hR, hZ, hBr, hBphi, hBz, hrw, hzw, hrs, hzs, hnw, hns,
      List.erase_cons]

theorem numDelete (f : NumFile) (p : Nat) :
    ∃ s, fExec (initInterp f.psi.isSome ++ baseInit) p ⟨loadLive 0 f [], loadPtr 0 f (fun _ => none), numCnt f⟩ = .ok s ∧
      ∃ m, deleteField s = .ok m ∧ m.live = numLeft f := by
  obtain ⟨s, h, m, h1, h2⟩ := numDelete_aux f.psi.isSome (f.wall.map FContour.length) (f.sep.map FContour.length)
    (contourLeft .zsepN 0 f.sep ++ (contourLeft .zwallN 0 f.wall ++ (verLeft .verBz .verBzR 0 f.vz ++
      (verLeft .verBphi .verBphiR 0 f.vphi ++ (verLeft .verBr .verBrR 0 f.vr ++ (psiLive 0 f.psi ++ [((.sf, 0), .one)]))))))
    (loadPtr 0 f (fun _ => none)) (numCnt f) p rfl rfl rfl rfl rfl (by rcases hw : f.wall <;> simp [loadPtr, hw])
    (by rcases hw : f.wall <;> simp [loadPtr, hw]) (by rcases hw : f.sep <;> simp [loadPtr, hw])
    (by rcases hw : f.sep <;> simp [loadPtr, hw]) (by rcases hw : f.wall <;> simp [numCnt, contourLen, hw]) (by rcases hw : f.sep <;> simp [numCnt, contourLen, hw])
  refine ⟨s, ?_, m, h1, ?_⟩
  · rw [← h]
    congr 2
    rcases hw : f.wall <;> rcases hs : f.sep <;> rcases hp : f.psi <;>
      simp [loadLive, keptLive, contourObj, psiCopy, hw, hs, hp]
  · rw [h2]
    rcases hw : f.wall <;> rcases hs : f.sep <;> simp [numLeft, emptyLeft, hw, hs]

/-- **C130** A numeric field is loaded from a file with a contour and destroyed.  Nothing is released twice, by a wrong operator, or
without being allocated.  If the type of the file is unknown, nothing is left; after an exception at any other place the file object is
left.  If there is no exception, exactly the following is left: the objects of GSL, the flux of the object, contours of length zero, the
vertical coordinates of contours given by two columns, verification vectors that are matrices, the flux as it was read, and the file
object. -/
theorem C130_numeric (f : NumFile) (p : Nat) (hf : f.wall.isSome ∨ f.sep.isSome) :
    (p = 0 ∧ ∃ m, numLife f p = .throws m ∧ m.live = []) ∨
    (∃ m, numLife f p = .throws m ∧ ((FBase.sf, 0), FKind.one) ∈ m.live) ∨
    ∃ m, numLife f p = .ok m ∧ m.live = numLeft f := by
  have e : numNew f p = fExec (numLoad 0 f ++ (initInterp f.psi.isSome ++ baseInit)) p FSt.start := by
    simp only [numNew, numConstruct, List.append_assoc]
  rcases numLoad_runs 0 f FSt.start p (initInterp f.psi.isSome ++ baseInit) hf with ⟨h, hp⟩ | ⟨m, h, hm⟩ | ⟨p', h⟩
  · exact Or.inl ⟨hp, _, by rw [numLife, e, h], rfl⟩
  · exact Or.inr (Or.inl ⟨m, by rw [numLife, e, h], hm⟩)
  · obtain ⟨s, hs, m, hd, hm⟩ := numDelete f p'
    refine Or.inr (Or.inr ⟨m, ?_, hm⟩)
    rw [numLife, e, h]
    have : fExec (initInterp f.psi.isSome ++ baseInit) p' ⟨loadLive 0 f FSt.start.live, loadPtr 0 f FSt.start.ptr, numCnt f⟩ = .ok s := hs
    rw [this]
    exact hd

/-- **C130** Without an exception the field is made and destroyed, and `numLeft` is left. -/
theorem C130_numeric_made (f : NumFile) (p : Nat) (hf : f.wall.isSome ∨ f.sep.isSome) (hp : fPlaces (numConstruct f) ≤ p) :
    ∃ m, numLife f p = .ok m ∧ m.live = numLeft f := by
  have hc : FCmd.fail ∉ numConstruct f := by
    obtain ⟨tr, tphi, tz, psi, vr, vphi, vz, wall, sep⟩ := f
    have hn : needContour wall sep = [] := by cases wall <;> cases sep <;> simp_all [needContour]
    have h1 : ∀ b r g v, FCmd.fail ∉ readVer b r g v := by intro b r g v; cases v <;> simp [readVer]
    have h2 : ∀ v, FCmd.fail ∉ compareVer v := by intro v; cases v <;> simp [compareVer]
    have h3 : ∀ b g v, FCmd.fail ∉ dropVer b g v := by intro b g v; cases v <;> simp [dropVer]
    have h4 : ∀ b r x y c a z g o, FCmd.fail ∉ readContour b r x y c a z g o := by
      intro b r x y c a z g o; rcases o with _ | n | n <;> simp [readContour]
    have h5 : ∀ b x c d a z g o, FCmd.fail ∉ copyContour b x c d a z g o := by
      intro b x c d a z g o; rcases o with _ | n | n <;> simp [copyContour]
    have h6 : ∀ b r g t, FCmd.fail ∉ getField b r g t := by
      intro b r g t; cases t <;> simp [getField, fGetDoubles, transpose]
    have h7 : FCmd.fail ∉ readPsi 0 psi := by rcases psi with _ | t; { simp [readPsi] }; { cases t <;> simp [readPsi, transpose] }
    have h8 : FCmd.fail ∉ copyPsi 0 psi := by rcases psi with _ | t <;> simp [copyPsi]
    simp [numConstruct, numLoad, numRead, numCopy, numContours, fCreate, fGetList, fGetDoubles, initInterp, baseInit, h1, h2, h3, h4, h5,
      h6, h7, h8, hn]
  have hne := fExec_past _ hc p FSt.start hp
  rcases C130_numeric f p hf with ⟨_, m, h, _⟩ | ⟨m, h, _⟩ | h
  · exfalso
    simp only [numLife, numNew] at h
    cases ho : fExec (numConstruct f) p FSt.start with
    | ub => rw [ho] at h; cases h
    | throws s => exact hne s ho
    | ok s =>
      rw [ho] at h
      exact fExec_past fDestroy (by simp [fDestroy]) 0 s (by decide) m h
  · exfalso
    simp only [numLife, numNew] at h
    cases ho : fExec (numConstruct f) p FSt.start with
    | ub => rw [ho] at h; cases h
    | throws s => exact hne s ho
    | ok s =>
      rw [ho] at h
      exact fExec_past fDestroy (by simp [fDestroy]) 0 s (by decide) m h
  · exact h

/-- **C130** A file without wall and separatrix is always refused.  Unless the type of the file is unknown, the file object is left. -/
theorem C130_refuted_no_contour (f : NumFile) (p : Nat) (hw : f.wall = none) (hs : f.sep = none) :
    (p = 0 ∧ ∃ m, numLife f p = .throws m ∧ m.live = []) ∨ ∃ m, numLife f p = .throws m ∧ ((FBase.sf, 0), FKind.one) ∈ m.live := by
  have e : numNew f p = fExec (numLoad 0 f ++ (initInterp f.psi.isSome ++ baseInit)) p FSt.start := by
    simp only [numNew, numConstruct, List.append_assoc]
  rcases numLoad_bare 0 f FSt.start p (initInterp f.psi.isSome ++ baseInit) hw hs with ⟨h, hp⟩ | ⟨m, h, hm⟩
  · exact Or.inl ⟨hp, _, by rw [numLife, e, h], rfl⟩
  · exact Or.inr ⟨m, by rw [numLife, e, h], hm⟩

/-- More places are not reached. -/
theorem fExec_far (c : List FCmd) : ∀ (p : Nat) (s : FSt), fPlaces c ≤ p → fExec c p s = fExec c (fPlaces c) s := by
  induction c with
  | nil => intro p s _; rfl
  | cons a c ih =>
    intro p s hp
    have step : ∀ s, a ≠ .check → fExec c p s = fExec c (fPlaces (a :: c)) s := by
      intro s ha
      have e : fPlaces (a :: c) = fPlaces c := by simp [fPlaces, List.count_cons, ha]
      rw [e] at hp ⊢
      exact ih p s hp
    cases a with
    | new b k => exact step _ (by simp)
    | del b k =>
      rw [fExec, fExec]
      by_cases h : (b, k) ∈ s.live
      · rw [if_pos h, if_pos h]; exact step _ (by simp)
      · rw [if_neg h, if_neg h]
    | newM x b => exact step _ (by simp)
    | nullM x => exact step _ (by simp)
    | delM x =>
      rw [fExec, fExec]
      cases fRelease x s with
      | none => rfl
      | some s' => exact step _ (by simp)
    | setC x n => exact step _ (by simp)
    | delC x a b =>
      rw [fExec, fExec]
      cases s.cnt x with
      | none => rfl
      | some n =>
        cases n with
        | false => exact step _ (by simp)
        | true =>
          dsimp only
          cases (fRelease a s).bind (fRelease b) with
          | none => rfl
          | some s' => exact step _ (by simp)
    | check =>
      have e : fPlaces (.check :: c) = fPlaces c + 1 := by simp [fPlaces]
      rw [e] at hp ⊢
      cases p with
      | zero => omega
      | succ p => exact ih p s (by omega)
    | fail => rfl

/-- **C130** (refuted) The smallest file, with a wall of at least one point, loaded without complaint and destroyed: the file object and
the five objects of GSL are left.  With everything a file may have, 20 blocks are left. -/
theorem C130_refuted_leak :
    (numLife ⟨false, false, false, none, .absent, .absent, .absent, some (.rows 100), none⟩ 100).view =
      .ok [((.sBz, 0), .gsl), ((.sBphi, 0), .gsl), ((.sBr, 0), .gsl), ((.za, 0), .gsl), ((.ra, 0), .gsl), ((.sf, 0), .one)] ∧
    ∃ l, (numLife ⟨true, true, true, some true, .matrix, .matrix, .matrix, some (.cols 0), some (.cols 100)⟩ 100).view = .ok l ∧
      l.length = 20 := by
  refine ⟨by decide +kernel, numLeft ⟨true, true, true, some true, .matrix, .matrix, .matrix, some (.cols 0), some (.cols 100)⟩, ?_, ?_⟩ <;>
    decide +kernel

/-- **C130** (refuted) An axis that is not a point: the numbers and the file object are left.  A field that differs from its
verification vector: everything that was read is left.  A contour that does not contain the axis: everything that was made is left. -/
theorem C130_refuted_exceptions :
    (numLife ⟨false, false, false, none, .list, .absent, .absent, some (.rows 100), none⟩ 6).view =
      .throws [((.maxis, 0), .arr), ((.sf, 0), .one)] ∧
    (numLife ⟨false, false, false, none, .list, .absent, .absent, some (.rows 100), none⟩ 15).view =
      .throws [((.verBr, 0), .arr), ((.bzR, 0), .arr), ((.bz, 0), .arr), ((.bphiR, 0), .arr), ((.bphi, 0), .arr), ((.brR, 0), .arr),
        ((.br, 0), .arr), ((.zg, 0), .arr), ((.rg, 0), .arr), ((.maxis, 0), .arr), ((.sf, 0), .one)] ∧
    (numLife ⟨false, false, false, none, .list, .absent, .absent, some (.rows 100), none⟩ 16).view =
      .throws [((.mzwall, 0), .arr), ((.mrwall, 0), .arr), ((.mBz, 0), .arr), ((.mBphi, 0), .arr), ((.mBr, 0), .arr), ((.mZ, 0), .arr),
        ((.mR, 0), .arr), ((.sf, 0), .one)] := by
  decide +kernel

/-! ### LUKE -/

/-- The outcome for a LUKE equilibrium depends only on whether the contours are empty. -/
theorem lukeLife_pos (n : Nat) (w : Option Nat) (p : Nat) :
    lukeLife ⟨n, w⟩ p = lukeLife ⟨if 0 < n then 1 else 0, w.map fun k => if 0 < k then 1 else 0⟩ p := by
  have h : ∀ k : Nat, decide (0 < k) = decide (0 < if 0 < k then 1 else 0) := by
    intro k; by_cases hk : 0 < k <;> simp [hk]
  have e : lukeFieldLoad 0 ⟨n, w⟩ = lukeFieldLoad 0 ⟨if 0 < n then 1 else 0, w.map fun k => if 0 < k then 1 else 0⟩ := by
    unfold lukeFieldLoad lukeDrop loadWall
    simp only
    rw [← h n]
    cases w with
    | none => rfl
    | some k =>
      simp only [Option.map_some]
      rw [← h k]
  simp only [lukeLife, lukeNew, e]

/-- **C130** (refuted) Every exception during the reading of a LUKE equilibrium is undefined behaviour: the destructor of the base part
looks at `nwall`, which has no value before the wall is read. -/
theorem C130_refuted_luke_destructor (f : LukeMF) (p : Nat) (hp : p < 26) : lukeLife f p = .ub := by
  obtain ⟨n, w⟩ := f
  rw [lukeLife_pos]
  have key : ∀ (b c : Bool) (p : Fin 26), (lukeLife ⟨if b then 1 else 0, some (if c then 1 else 0)⟩ p).view = .ub ∧
      (lukeLife ⟨if b then 1 else 0, none⟩ p).view = .ub := by decide +kernel
  have h : (lukeLife ⟨if 0 < n then 1 else 0, w.map fun k => if 0 < k then 1 else 0⟩ p).view = .ub := by
    cases w with
    | none =>
      have h := (key (decide (0 < n)) false ⟨p, hp⟩).2
      simp only [decide_eq_true_eq] at h
      exact h
    | some k =>
      have h := (key (decide (0 < n)) (decide (0 < k)) ⟨p, hp⟩).1
      simp only [decide_eq_true_eq] at h
      exact h
  revert h
  generalize lukeLife _ p = o
  cases o <;> simp [FOut.view]

/-- What is left of the equilibrium: the flux, the coordinates of the flux surfaces, and the file object; with `n` = 0 the separatrix. -/
def lukeFieldRest (n : Nat) : FLive :=
  (if n = 0 then [((.mzsep, 0), .arr), ((.mrsep, 0), .arr)] else []) ++
    [((.pty, 0), .arr), ((.ptx, 0), .arr), ((.mPsi, 0), .arr), ((.sf, 0), .one)]

def gslLeft : FLive :=
  [((.sPsi, 0), .gsl), ((.sBz, 0), .gsl), ((.sBphi, 0), .gsl), ((.sBr, 0), .gsl), ((.za, 0), .gsl), ((.ra, 0), .gsl)]

theorem lukeLife_far (f : LukeMF) (p q : Nat) (hp : fPlaces (baseInit ++ lukeFieldLoad 0 f ++ initInterp true) ≤ p)
    (hq : fPlaces (baseInit ++ lukeFieldLoad 0 f ++ initInterp true) ≤ q) : lukeLife f p = lukeLife f q := by
  simp only [lukeLife, lukeNew, fExec_far _ p _ hp, fExec_far _ q _ hq]

/-- **C130** A LUKE equilibrium without a wall that was read. If the axis is not within the separatrix, an exception leaves the flux, the
coordinates of the flux surfaces and the file object; otherwise these and the six objects of GSL are left after the destruction. -/
theorem C130_luke (n p : Nat) (hp : 27 ≤ p) :
    (lukeLife ⟨n, none⟩ 26).view = .throws (lukeFieldRest n) ∧ (lukeLife ⟨n, none⟩ p).view = .ok (gslLeft ++ lukeFieldRest n) := by
  have hf : lukeLife ⟨n, none⟩ p = lukeLife ⟨n, none⟩ 27 := lukeLife_far _ _ _ hp (Nat.le_of_eq rfl)
  rw [hf]
  simp only [lukeLife_pos n]
  have key : ∀ b : Bool, (lukeLife ⟨if b then 1 else 0, none⟩ 26).view = .throws (lukeFieldRest (if b then 1 else 0)) ∧
      (lukeLife ⟨if b then 1 else 0, none⟩ 27).view = .ok (gslLeft ++ lukeFieldRest (if b then 1 else 0)) := by decide +kernel
  have h := key (decide (0 < n))
  simp only [decide_eq_true_eq] at h
  have e : lukeFieldRest (if 0 < n then 1 else 0) = lukeFieldRest n := by
    unfold lukeFieldRest; by_cases h : n = 0
    · subst h; rfl
    · rw [if_pos (show 0 < n by omega), if_neg h, if_neg (by omega)]
  rw [e] at h
  exact h

/-- **C130** The same with a file for the wall, with `k` points: an unknown type, a file that cannot be opened, a file without the
variable, a variable of the wrong size, an axis that is not within the contour; and success.  A wall without points is left too. -/
theorem C130_luke_wall (n k p : Nat) (hp : 31 ≤ p) :
    (lukeLife ⟨n, some k⟩ 26).view = .throws (lukeFieldRest n) ∧
    (lukeLife ⟨n, some k⟩ 27).view = .throws (((.sfWall, 0), .one) :: lukeFieldRest n) ∧
    (lukeLife ⟨n, some k⟩ 28).view = .throws (((.sfWall, 0), .one) :: lukeFieldRest n) ∧
    (lukeLife ⟨n, some k⟩ 29).view = .throws (((.wallR, 0), .arr) :: ((.wall, 0), .arr) :: ((.sfWall, 0), .one) :: lukeFieldRest n) ∧
    (lukeLife ⟨n, some k⟩ 30).view = .throws ((if k = 0 then [((.mzwall, 0), .arr), ((.mrwall, 0), .arr)] else []) ++
      ((.sfWall, 0), .one) :: lukeFieldRest n) ∧
    (lukeLife ⟨n, some k⟩ p).view = .ok (gslLeft ++ ((if k = 0 then [((.mzwall, 0), .arr), ((.mrwall, 0), .arr)] else []) ++
      ((.sfWall, 0), .one) :: lukeFieldRest n)) := by
  have hf : lukeLife ⟨n, some k⟩ p = lukeLife ⟨n, some k⟩ 31 := lukeLife_far _ _ _ hp (Nat.le_of_eq rfl)
  rw [hf]
  simp only [lukeLife_pos n (some k), Option.map_some]
  have e : ∀ i : Nat, lukeFieldRest i = lukeFieldRest (if 0 < i then 1 else 0) := by
    intro i
    unfold lukeFieldRest; by_cases h : i = 0
    · subst h; rfl
    · rw [if_pos (show 0 < i by omega), if_neg h, if_neg (by omega)]
  have e2 : ∀ l : FLive, (if k = 0 then l else []) = if (if 0 < k then 1 else 0) = 0 then l else [] := by
    intro l
    by_cases h : k = 0
    · subst h; rfl
    · rw [if_neg h, if_pos (show 0 < k by omega), if_neg (by omega)]
  rw [e n, e2]
  have key : ∀ b c : Bool,
      (lukeLife ⟨if b then 1 else 0, some (if c then 1 else 0)⟩ 26).view = .throws (lukeFieldRest (if b then 1 else 0)) ∧
      (lukeLife ⟨if b then 1 else 0, some (if c then 1 else 0)⟩ 27).view = .throws (((.sfWall, 0), .one) :: lukeFieldRest (if b then 1 else 0)) ∧
      (lukeLife ⟨if b then 1 else 0, some (if c then 1 else 0)⟩ 28).view = .throws (((.sfWall, 0), .one) :: lukeFieldRest (if b then 1 else 0)) ∧
      (lukeLife ⟨if b then 1 else 0, some (if c then 1 else 0)⟩ 29).view =
        .throws (((.wallR, 0), .arr) :: ((.wall, 0), .arr) :: ((.sfWall, 0), .one) :: lukeFieldRest (if b then 1 else 0)) ∧
      (lukeLife ⟨if b then 1 else 0, some (if c then 1 else 0)⟩ 30).view =
        .throws ((if (if c then 1 else 0) = 0 then [((.mzwall, 0), .arr), ((.mrwall, 0), .arr)] else []) ++
          ((.sfWall, 0), .one) :: lukeFieldRest (if b then 1 else 0)) ∧
      (lukeLife ⟨if b then 1 else 0, some (if c then 1 else 0)⟩ 31).view =
        .ok (gslLeft ++ ((if (if c then 1 else 0) = 0 then [((.mzwall, 0), .arr), ((.mrwall, 0), .arr)] else []) ++
          ((.sfWall, 0), .one) :: lukeFieldRest (if b then 1 else 0))) := by decide +kernel
  have h := key (decide (0 < n)) (decide (0 < k))
  simp only [decide_eq_true_eq] at h
  exact h

/-! ### Saving -/

theorem saveContour_runs (n : Nat) (s : FSt) (hs : FileLeft 0 s) : FRuns (FileLeft 0) (saveContour n) s s := by
  unfold saveContour
  split
  · exact .nil
  · refine .new (.new (.check ?_ (.del (by simp) rfl (.del ?_ rfl (FRuns.nil.congr ?_)))))
    · exact List.mem_cons_of_mem _ (List.mem_cons_of_mem _ hs)
    · simp [List.erase_cons]
    · simp [List.erase_cons]

/-- **C130** Saving releases everything but the file object, for all contours; after an exception the file object is left, unless the
type of the file is unknown. -/
theorem C130_save (nsep nwall p : Nat) :
    (p = 0 ∧ fExec (numSave nsep nwall) p FSt.start = .throws FSt.start) ∨
    (∃ m, fExec (numSave nsep nwall) p FSt.start = .throws m ∧ ((FBase.sf, 0), FKind.one) ∈ m.live) ∨
    ∃ m, fExec (numSave nsep nwall) p FSt.start = .ok m ∧ m.live = [((.sf, 0), .one)] := by
  cases p with
  | zero => exact Or.inl ⟨rfl, rfl⟩
  | succ p =>
    right
    have hs : FileLeft 0 { FSt.start with live := [((.sf, 0), .one)] } := List.mem_cons_self ..
    have hr : ∀ k, FRuns (FileLeft 0) (List.replicate k .check) { FSt.start with live := [((.sf, 0), .one)] }
        { FSt.start with live := [((.sf, 0), .one)] } := by
      intro k
      induction k with
      | zero => exact .nil
      | succ k ih => exact .check hs ih
    have h : FRuns (FileLeft 0) (FCmd.new (.sf, 0) .one :: FCmd.check :: (List.replicate 12 .check ++ saveContour nsep ++ saveContour nwall))
        FSt.start { FSt.start with live := [((.sf, 0), .one)] } :=
      .new (.check hs (((hr 12).append (saveContour_runs nsep _ hs)).append (saveContour_runs nwall _ hs)))
    rcases h.out p with h | h
    · exact Or.inl h
    · exact Or.inr ⟨_, h, rfl⟩

/-- **C130** Saving can fail in fourteen to sixteen places: in opening the file, in each of the twelve variables, and in each contour that
has points; a contour without points is not written. -/
theorem C130_save_iff (nsep nwall p : Nat) :
    (∃ m, fExec (numSave nsep nwall) p FSt.start = .ok m) ↔
      14 + (if nsep = 0 then 0 else 1) + (if nwall = 0 then 0 else 1) ≤ p := by
  have pos : ∀ n, saveContour n = saveContour (if n = 0 then 0 else 1) := by
    intro n
    by_cases hn : n = 0 <;> simp [saveContour, hn]
  have e : numSave nsep nwall = numSave (if nsep = 0 then 0 else 1) (if nwall = 0 then 0 else 1) := by
    unfold numSave
    rw [pos nsep, pos nwall]
  rw [e]
  have hview : ∀ (r : FOut), (∃ m, r = .ok m) ↔ (match r.view with | .ok _ => true | _ => false) = true := by
    intro r
    cases r <;> simp [FOut.view]
  have main : ∀ (a b : Fin 2),
      (∀ q : Fin 17, ((match (fExec (numSave a b) q FSt.start).view with | .ok _ => true | _ => false) = true ↔ 14 + a.1 + b.1 ≤ q.1)) ∧
      fPlaces (numSave a b) ≤ 16 := by decide +kernel
  have main' : ∀ (a b : Fin 2), (∃ m, fExec (numSave a b) p FSt.start = .ok m) ↔ 14 + a.1 + b.1 ≤ p := by
    intro a b
    obtain ⟨h1, h2⟩ := main a b
    rw [hview]
    by_cases hp : p < 17
    · exact h1 ⟨p, hp⟩
    · rw [fExec_far _ p _ (by omega), ← fExec_far _ 16 _ h2]
      exact iff_of_true ((h1 ⟨16, by omega⟩).mpr (by simp; omega)) (by omega)
  by_cases h1 : nsep = 0 <;> by_cases h2 : nwall = 0 <;> simp only [h1, h2, if_true, if_false]
  · exact main' 0 0
  · exact main' 0 1
  · exact main' 1 0
  · exact main' 1 1

/-- **C130** (refuted) Saving a field with a separatrix leaves the file object; if the separatrix cannot be written, the copy of the
separatrix is left too. -/
theorem C130_refuted_save :
    (fExec (numSave 100 0) 100 FSt.start).view = .ok [((.sf, 0), .one)] ∧
    (fExec (numSave 100 0) 14 FSt.start).view = .throws [((.out, 0), .arr), ((.outR, 0), .arr), ((.sf, 0), .one)] := by
  decide +kernel

/-! ### Loading again -/

theorem fRelease_keeps {m : FMem} {s s' : FSt} {b : FSlot} {k : FKind} (h : fRelease m s = some s') (hb : s.ptr m ≠ some b)
    (hl : (b, k) ∈ s.live) : s'.ptr = s.ptr ∧ (b, k) ∈ s'.live := by
  unfold fRelease at h
  cases hp : s.ptr m with
  | none => rw [hp] at h; cases h; exact ⟨rfl, hl⟩
  | some c =>
    rw [hp] at h
    dsimp only at h
    by_cases hc : (c, FKind.arr) ∈ s.live
    · rw [if_pos hc] at h
      cases h
      refine ⟨rfl, (List.mem_erase_of_ne ?_).2 hl⟩
      intro he
      cases he
      exact hb hp
    · rw [if_neg hc] at h; cases h

/-- Releases through pointers leave everything that no pointer points to. -/
theorem fExec_keeps (c : List FCmd) (hc : ∀ x ∈ c, (∃ m, x = FCmd.delM m) ∨ ∃ n a b, x = FCmd.delC n a b) (p : Nat) (b : FSlot) (k : FKind) :
    ∀ (s s' : FSt), fExec c p s = .ok s' → (∀ m, s.ptr m ≠ some b) → (b, k) ∈ s.live → (b, k) ∈ s'.live := by
  induction c with
  | nil => intro s s' h _ hl; cases h; exact hl
  | cons x c ih =>
    intro s s' h hb hl
    have ih' := ih (fun y hy => hc y (List.mem_cons_of_mem _ hy))
    rcases hc x (List.mem_cons_self ..) with ⟨m, rfl⟩ | ⟨n, a, z, rfl⟩
    · rw [fExec] at h
      cases hr : fRelease m s with
      | none => rw [hr] at h; cases h
      | some t =>
        rw [hr] at h
        obtain ⟨h1, h2⟩ := fRelease_keeps hr (hb m) hl
        exact ih' t s' h (by rw [h1]; exact hb) h2
    · rw [fExec] at h
      cases hn : s.cnt n with
      | none => rw [hn] at h; cases h
      | some j =>
        rw [hn] at h
        cases j with
        | false => exact ih' s s' h hb hl
        | true =>
          dsimp only at h
          cases hr : fRelease a s with
          | none => rw [hr] at h; cases h
          | some t =>
            rw [hr] at h
            obtain ⟨h1, h2⟩ := fRelease_keeps hr (hb a) hl
            rw [Option.bind_some] at h
            cases hr2 : fRelease z t with
            | none => rw [hr2] at h; cases h
            | some t2 =>
              rw [hr2] at h
              obtain ⟨h3, h4⟩ := fRelease_keeps hr2 (by rw [h1]; exact hb z) h2
              exact ih' t2 s' h (by rw [h3, h1]; exact hb) h4

/-- The blocks of the arrays of the field. -/
def IsFieldArray (b : FBase) : Prop := b = .mR ∨ b = .mZ ∨ b = .mBr ∨ b = .mBphi ∨ b = .mBz

/-- An object after a number of loads: all arrays of the field are there, and the pointers point to the last ones or to nothing. -/
def Reloaded (g : Nat) (s : FSt) : Prop :=
  (∀ b i, IsFieldArray b → 2 * i < g → ((b, 2 * i), FKind.arr) ∈ s.live) ∧
    ∀ b i m, IsFieldArray b → s.ptr m = some (b, i) → i + 2 = g ∧ m ≠ .interpval ∧ m ≠ .jacobian ∧ m ≠ .jacobianR

theorem numLoads_ok (fs : List NumFile) (hfs : ∀ f ∈ fs, f.wall.isSome ∨ f.sep.isSome) :
    ∀ (g : Nat) (p : Nat) (s s' : FSt), fExec (numLoads fs (2 * g)) p s = .ok s' → Reloaded (2 * g) s →
      Reloaded (2 * (g + fs.length)) s' := by
  induction fs with
  | nil => intro g p s s' h hr; cases h; exact hr
  | cons f fs ih =>
    intro g p s s' h hr
    have hf := hfs f (List.mem_cons_self ..)
    rw [numLoads] at h
    rcases numLoad_runs (2 * g) f s p (numLoads fs (2 * g + 2)) hf with ⟨h1, _⟩ | ⟨m, h1, _⟩ | ⟨p', h1⟩
    · rw [h1] at h; cases h
    · rw [h1] at h; cases h
    · rw [h1] at h
      have := ih (fun x hx => hfs x (List.mem_cons_of_mem _ hx)) (g + 1) p' _ s' h ?_
      · rw [List.length_cons]
        have e : g + (fs.length + 1) = g + 1 + fs.length := by omega
        rw [e]; exact this
      · refine ⟨fun b i hb hi => ?_, fun b i m hb hm => ?_⟩
        · by_cases h2 : 2 * i < 2 * g
          · have := hr.1 b i hb h2
            simp [loadLive, this]
          · have : i = g := by omega
            subst this
            rcases hb with h | h | h | h | h <;> subst h <;> simp [loadLive, gridLive]
        · have : 2 * (g + 1) = 2 * g + 2 := by omega
          rw [this]
          have nf : ∀ c, c ∈ [FBase.mPsi, .mrwall, .mzwall, .mrsep, .mzsep] → ¬ IsFieldArray c := by
            intro c hc hb
            rcases hb with h | h | h | h | h <;> subst h <;> simp at hc
          have no : ∀ (o : Option FContour) (c : FBase), c ∈ [FBase.mPsi, .mrwall, .mzwall, .mrsep, .mzsep] →
              o.map (fun _ => (c, 2 * g)) = some (b, i) → False := by
            intro o c hc h
            cases o with
            | none => cases h
            | some _ => cases h; exact nf _ hc hb
          cases m with
          | R => cases hm; simp
          | Z => cases hm; simp
          | Br => cases hm; simp
          | Bphi => cases hm; simp
          | Bz => cases hm; simp
          | Psi =>
            exfalso
            simp only [loadPtr, copyPtr] at hm
            cases hp : f.psi with
            | none => rw [hp] at hm; cases hm
            | some _ => rw [hp] at hm; cases hm; exact nf _ (by simp) hb
          | rwall => exact (no f.wall .mrwall (by simp) hm).elim
          | zwall => exact (no f.wall .mzwall (by simp) hm).elim
          | rsep => exact (no f.sep .mrsep (by simp) hm).elim
          | zsep => exact (no f.sep .mzsep (by simp) hm).elim
          | interpval => exact absurd rfl (hr.2 b i _ hb hm).2.1
          | jacobian => exact absurd rfl (hr.2 b i _ hb hm).2.2.1
          | jacobianR => exact absurd rfl (hr.2 b i _ hb hm).2.2.2

/-- **C130** (refuted) An object is loaded several times without exceptions and then destroyed: the arrays of all loads but the last one
are left. -/
theorem C130_refuted_reload (fs : List NumFile) (hfs : ∀ f ∈ fs, f.wall.isSome ∨ f.sep.isSome) (p : Nat) (s t : FSt)
    (hs : fExec (baseInit ++ numLoads fs 0) p FSt.start = .ok s) (ht : deleteField s = .ok t) (i : Nat) (hi : i + 1 < fs.length) (b : FBase)
    (hb : b = .mR ∨ b = .mZ ∨ b = .mBr ∨ b = .mBphi ∨ b = .mBz) : ((b, 2 * i), FKind.arr) ∈ t.live := by
  have hr : Reloaded (2 * (0 + fs.length)) s := by
    refine numLoads_ok fs hfs 0 p
      ⟨[((.jacobian, 0), .arr), ((.jacobianR, 0), .arr), ((.interpval, 0), .arr)],
        fun x => if x = .jacobian then some (.jacobian, 0) else if x = .jacobianR then some (.jacobianR, 0) else
          if x = .interpval then some (.interpval, 0) else none, fun _ => none⟩ s hs ⟨fun _ _ _ h => by omega, ?_⟩
    intro c j m hc hm
    exfalso
    dsimp only at hm
    split at hm
    · cases hm; rcases hc with h | h | h | h | h <;> cases h
    · split at hm
      · cases hm; rcases hc with h | h | h | h | h <;> cases h
      · split at hm
        · cases hm; rcases hc with h | h | h | h | h <;> cases h
        · cases hm
  refine fExec_keeps fDestroy (by simp [fDestroy]) 0 (b, 2 * i) .arr s t ht ?_ (hr.1 b i hb (by omega))
  intro m hm
  have := (hr.2 b (2 * i) m hb hm).1
  omega

/-- Two loads and the destruction: thirteen blocks are left. -/
example : ((match fExec (baseInit ++ numLoads [⟨false, false, false, none, .absent, .absent, .absent, some (.rows 100), none⟩,
      ⟨false, false, true, some false, .absent, .absent, .absent, none, some (.cols 7)⟩] 0) 100 FSt.start with
    | .ok s => deleteField s
    | o => o).view) = .ok [((.mPsi, 2), .arr), ((.zsepN, 2), .arr), ((.psiR, 2), .arr), ((.psi, 2), .arr), ((.sf, 2), .one),
      ((.mzwall, 0), .arr), ((.mrwall, 0), .arr), ((.mBz, 0), .arr), ((.mBphi, 0), .arr), ((.mBr, 0), .arr), ((.mZ, 0), .arr),
      ((.mR, 0), .arr), ((.sf, 0), .one)] := by
  decide +kernel

/-- The hypotheses of `C130_numeric` are met by files with a separatrix only. -/
example : (numLife ⟨false, true, false, none, .absent, .list, .absent, none, some (.cols 40)⟩ 100).view =
    .ok [((.sBz, 0), .gsl), ((.sBphi, 0), .gsl), ((.sBr, 0), .gsl), ((.za, 0), .gsl), ((.ra, 0), .gsl), ((.zsepN, 0), .arr),
      ((.sf, 0), .one)] := by
  decide +kernel

/-- A file of unknown type leaves nothing; a file that cannot be opened leaves its object. -/
example : (numLife ⟨false, false, false, none, .absent, .absent, .absent, none, none⟩ 0).view = .throws [] ∧
    (numLife ⟨false, false, false, none, .absent, .absent, .absent, none, none⟩ 1).view = .throws [((.sf, 0), .one)] := by
  decide +kernel

end Softlib
