/-
Memory of the readers of numeric distributions (C113).  Model: ReaderMemModel.lean.
-/
import Verif.Dist.ReaderMemModel

namespace Softlib

open Softlib.Dist.ReaderMem

/-- The commands take the blocks `l` to the blocks `l'` unless an exception is thrown, and then `P` holds for what is allocated. -/
structure RunsTo (P : Live → Prop) (c : List Cmd) (l l' : Live) : Prop where
  run : ∀ d ts, (∃ m, exec (c ++ d) ts l = .throws m ∧ P m) ∨ ∃ ts', exec (c ++ d) ts l = exec d ts' l'

theorem RunsTo.nil (P : Live → Prop) (l : Live) : RunsTo P [] l l := ⟨fun _ ts => Or.inr ⟨ts, rfl⟩⟩

theorem RunsTo.new {P : Live → Prop} {v : Slot} {k : BKind} {c : List Cmd} {l l' : Live} (h : RunsTo P c ((v, k) :: l) l') :
    RunsTo P (.new v k :: c) l l' := ⟨fun d ts => h.run d ts⟩

theorem RunsTo.del {P : Live → Prop} {v : Slot} {k : BKind} {c : List Cmd} {l l' : Live} (hm : (v, k) ∈ l)
    (h : RunsTo P c (l.erase (v, k)) l') : RunsTo P (.del v k :: c) l l' := by
  refine ⟨fun d ts => ?_⟩
  have e : exec (Cmd.del v k :: c ++ d) ts l = exec (c ++ d) ts (l.erase (v, k)) := by
    rw [List.cons_append, exec, if_pos hm]
  rw [e]; exact h.run d ts

theorem RunsTo.check {P : Live → Prop} {c : List Cmd} {l l' : Live} (hp : P l) (h : RunsTo P c l l') : RunsTo P (.check :: c) l l' := by
  refine ⟨fun d ts => ?_⟩
  cases ts with
  | nil => exact h.run d []
  | cons b ts =>
    cases b with
    | true => exact Or.inl ⟨l, rfl, hp⟩
    | false => exact h.run d ts

theorem RunsTo.append {P : Live → Prop} {c c' : List Cmd} {l l' l'' : Live} (h : RunsTo P c l l') (h' : RunsTo P c' l' l'') :
    RunsTo P (c ++ c') l l'' := by
  refine ⟨fun d ts => ?_⟩
  rw [List.append_assoc]
  rcases h.run (c' ++ d) ts with hh | ⟨ts', hh⟩
  · exact Or.inl hh
  · rw [hh]; exact h'.run d ts'

theorem RunsTo.out {P : Live → Prop} {c : List Cmd} {l l' : Live} (h : RunsTo P c l l') (ts : List Bool) :
    (∃ m, exec c ts l = .throws m ∧ P m) ∨ exec c ts l = .ok l' := by
  have := h.run [] ts
  rw [List.append_nil] at this
  rcases this with hh | ⟨ts', hh⟩
  · exact Or.inl hh
  · exact Or.inr (by rw [hh]; rfl)

/-- The file object is allocated. -/
def HasFile (m : Live) : Prop := ((Base.sf, 0), BKind.one) ∈ m

/-- The objects of the radii. -/
def radiusBlocks : Nat → Live
  | 0 => []
  | n + 1 => [((.spline, n), .gsl), ((.xia, n), .gsl), ((.pa, n), .gsl), ((.msdf, n), .one)] ++ radiusBlocks n

theorem radiusBlocks_length (n : Nat) : (radiusBlocks n).length = 4 * n := by
  induction n with
  | zero => rfl
  | succ n ih => simp [radiusBlocks, ih]; omega

theorem radiusBlocks_not (n : Nat) (b : Base) (i : Nat) (k : BKind) (hb : b ≠ .spline ∧ b ≠ .xia ∧ b ≠ .pa ∧ b ≠ .msdf) :
    ((b, i), k) ∉ radiusBlocks n := by
  induction n with
  | zero => simp [radiusBlocks]
  | succ n ih => simp [radiusBlocks, hb, ih]

theorem initRadii_runs (n : Nat) (l : Live) (hl : HasFile l) : RunsTo HasFile (initRadii n) l (radiusBlocks n ++ l) := by
  induction n with
  | zero => exact RunsTo.nil _ _
  | succ n ih =>
    have e : initRadii (n + 1) = initRadii n ++ (Cmd.new (.msdf, n) .one :: initMomentum n) := by
      simp [initRadii, List.range_succ, List.flatMap_append]
    rw [e]
    refine RunsTo.append ih ?_
    have hf : HasFile (radiusBlocks n ++ l) := List.mem_append_right _ hl
    refine .new (.check (List.mem_cons_of_mem _ hf) (.check (List.mem_cons_of_mem _ hf) (.new (.new (.new ?_)))))
    exact RunsTo.nil _ _

/-- The loading of all radii followed by the release of a block that was there before. -/
theorem erase_radii (n : Nat) (b : Base) (i : Nat) (k : BKind) (l : Live) (hb : b ≠ .spline ∧ b ≠ .xia ∧ b ≠ .pa ∧ b ≠ .msdf) :
    (radiusBlocks n ++ l).erase ((b, i), k) = radiusBlocks n ++ l.erase ((b, i), k) :=
  List.erase_append_right _ (radiusBlocks_not n b i k hb)

/-- Everything that can happen to an object, given what the loader does. -/
theorem lifetime_out {load dtor : List Cmd} {l' l'' : Live} {n : Nat}
    (h1 : RunsTo HasFile load [((.self, 0), .one)] l') (h2 : RunsTo HasFile dtor l' (radiusBlocks n ++ l''))
    (hm : ((Base.self, 0), BKind.one) ∈ l'') (ts : List Bool) :
    (∃ m, exec (lifetime load dtor) ts [] = .throws m ∧ HasFile m) ∨
      exec (lifetime load dtor) ts [] = .ok (radiusBlocks n ++ l''.erase ((.self, 0), .one)) := by
  refine RunsTo.out ?_ ts
  unfold lifetime
  rw [List.cons_append, List.cons_append]
  refine RunsTo.new ((h1.append h2).append (RunsTo.del (List.mem_append_right _ hm) ?_))
  rw [erase_radii n _ _ _ _ (by simp)]
  exact RunsTo.nil _ _

/-- The blocks left behind by a reader of LUKE files. -/
def lukeRest : Live :=
  [((.f, 0), .arr), ((.xiRows, 0), .arr), ((.xi, 0), .arr), ((.betaRows, 0), .arr), ((.beta, 0), .arr), ((.pRows, 0), .arr),
    ((.p, 0), .arr), ((.rRows, 0), .arr), ((.r, 0), .arr), ((.sf, 0), .one)]

theorem lukeRead_runs (l : Live) : RunsTo HasFile lukeRead l (((.dat, 0), .one) :: (lukeRest ++ l)) := by
  unfold lukeRead create getMatrix lukeRest
  simp only [List.cons_append, List.nil_append]
  repeat first
    | exact RunsTo.nil _ _
    | refine RunsTo.new ?_
    | refine RunsTo.check (by simp [HasFile]) ?_

theorem mem_radiusBlocks (n : Nat) (x : Slot × BKind) :
    x ∈ radiusBlocks n ↔ ∃ i, i < n ∧
      (x = ((.msdf, i), .one) ∨ x = ((.pa, i), .gsl) ∨ x = ((.xia, i), .gsl) ∨ x = ((.spline, i), .gsl)) := by
  induction n with
  | zero => simp [radiusBlocks]
  | succ n ih =>
    simp only [radiusBlocks, List.mem_append, ih, List.mem_cons, List.not_mem_nil, or_false]
    constructor
    · rintro (h | ⟨i, hi, h⟩)
      · refine ⟨n, by omega, ?_⟩
        rcases h with h | h | h | h <;> simp [h]
      · exact ⟨i, by omega, h⟩
    · rintro ⟨i, hi, h⟩
      by_cases hin : i = n
      · subst hin
        left
        rcases h with h | h | h | h <;> simp [h]
      · exact Or.inr ⟨i, by omega, h⟩

/-- What is left: the listed blocks and those of the objects of the radii. -/
def LeftOver (base : Live) (nr : Nat) (m : Live) : Prop :=
  m.length = base.length + 4 * nr ∧
    ∀ x, x ∈ m ↔ x ∈ base ∨ ∃ i, i < nr ∧
      (x = ((.msdf, i), .one) ∨ x = ((.pa, i), .gsl) ∨ x = ((.xia, i), .gsl) ∨ x = ((.spline, i), .gsl))

theorem leftOver_radii (base : Live) (nr : Nat) : LeftOver base nr (radiusBlocks nr ++ base) := by
  refine ⟨by rw [List.length_append, radiusBlocks_length]; omega, fun x => ?_⟩
  rw [List.mem_append, mem_radiusBlocks]; exact or_comm

theorem dat_release (nr : Nat) (rest : Live) : RunsTo HasFile [.del (.dat, 0) .one] (radiusBlocks nr ++ ((.dat, 0), .one) :: rest)
    (radiusBlocks nr ++ rest) := by
  refine RunsTo.del (by simp) ?_
  rw [erase_radii nr _ _ _ _ (by simp), List.erase_cons_head]
  exact RunsTo.nil _ _

theorem lukeLoad_runs (nr : Nat) (l : Live) : RunsTo HasFile (lukeLoad nr) l (radiusBlocks nr ++ (lukeRest ++ l)) := by
  unfold lukeLoad
  have hf : HasFile (((.dat, 0), .one) :: (lukeRest ++ l)) := by simp [HasFile, lukeRest]
  exact (((lukeRead_runs l).append (.check hf (.nil _ _))).append (initRadii_runs nr _ hf)).append (dat_release nr _)

/-- **C113** The reader of LUKE files releases only what is allocated and as it was allocated.  After loading `nr` radii and
destroying the object, ten blocks and four for each radius are left; after an exception at any place the file object is left. -/
theorem C113_luke (nr : Nat) (ts : List Bool) :
    (∃ m, exec (lifetime (lukeLoad nr) []) ts [] = .throws m ∧ ((Base.sf, 0), BKind.one) ∈ m) ∨
    ∃ m, exec (lifetime (lukeLoad nr) []) ts [] = .ok m ∧ LeftOver
      [((.f, 0), .arr), ((.xiRows, 0), .arr), ((.xi, 0), .arr), ((.betaRows, 0), .arr), ((.beta, 0), .arr), ((.pRows, 0), .arr),
        ((.p, 0), .arr), ((.rRows, 0), .arr), ((.r, 0), .arr), ((.sf, 0), .one)] nr m := by
  rcases lifetime_out (n := nr) (lukeLoad_runs nr _) (RunsTo.nil HasFile _) (by simp) ts with h | h
  · exact Or.inl h
  · exact Or.inr ⟨_, h, leftOver_radii _ nr⟩

/-- The blocks left behind by a reader of the old SOFT format; `h1`, `h2`, `h3`: the file has the verification vectors. -/
def verBlocks (has : Bool) (i : Nat) : Live := if has then [((.verRows, i), .arr), ((.ver, i), .arr)] else []

def deprRest (h1 h2 h3 : Bool) : Live :=
  verBlocks h3 2 ++ verBlocks h2 1 ++ verBlocks h1 0 ++
    [((.f, 0), .arr), ((.xiRows, 0), .arr), ((.xi, 0), .arr), ((.pRows, 0), .arr),
      ((.p, 0), .arr), ((.rRows, 0), .arr), ((.r, 0), .arr), ((.sf, 0), .one)]

theorem deprRead_runs (h1 h2 h3 : Bool) (l : Live) :
    RunsTo HasFile (deprRead h1 h2 h3) l (((.dat, 0), .one) :: (deprRest h1 h2 h3 ++ l)) := by
  cases h1 <;> cases h2 <;> cases h3 <;>
  · simp only [deprRead, create, getMatrix, deprRest, verifyMem, verBlocks, List.cons_append, List.nil_append, if_true,
      Bool.false_eq_true, if_false]
    repeat first
      | refine RunsTo.new ?_
      | refine RunsTo.check (by simp [HasFile]) ?_
      | refine RunsTo.del (by simp) ?_
    simp only [List.erase_cons, List.cons_append, List.nil_append]
    simp
    exact RunsTo.nil _ _

theorem deprMem_runs (h1 h2 h3 : Bool) (nr : Nat) (l : Live) :
    RunsTo HasFile (deprMem h1 h2 h3 nr) l (radiusBlocks nr ++ (deprRest h1 h2 h3 ++ l)) := by
  unfold deprMem
  have hf : HasFile (((.dat, 0), .one) :: (deprRest h1 h2 h3 ++ l)) := by simp [HasFile, deprRest]
  exact (((deprRead_runs h1 h2 h3 l).append (.check hf (.nil _ _))).append (initRadii_runs nr _ hf)).append (dat_release nr _)

/-- **C113** The same for the old SOFT format: the matrices of the verification vectors are left too. -/
theorem C113_depr (h1 h2 h3 : Bool) (nr : Nat) (ts : List Bool) :
    (∃ m, exec (lifetime (deprMem h1 h2 h3 nr) []) ts [] = .throws m ∧ ((Base.sf, 0), BKind.one) ∈ m) ∨
    ∃ m, exec (lifetime (deprMem h1 h2 h3 nr) []) ts [] = .ok m ∧ LeftOver
      ((if h3 then [((.verRows, 2), .arr), ((.ver, 2), .arr)] else []) ++ (if h2 then [((.verRows, 1), .arr), ((.ver, 1), .arr)] else []) ++
        (if h1 then [((.verRows, 0), .arr), ((.ver, 0), .arr)] else []) ++
        [((.f, 0), .arr), ((.xiRows, 0), .arr), ((.xi, 0), .arr), ((.pRows, 0), .arr),
        ((.p, 0), .arr), ((.rRows, 0), .arr), ((.r, 0), .arr), ((.sf, 0), .one)]) nr m := by
  rcases lifetime_out (n := nr) (deprMem_runs h1 h2 h3 nr _) (RunsTo.nil HasFile _) (by simp) ts with h | h
  · exact Or.inl h
  · refine Or.inr ⟨_, h, ?_⟩
    have e : (deprRest h1 h2 h3 ++ [((Base.self, 0), BKind.one)]).erase ((.self, 0), .one) = deprRest h1 h2 h3 := by
      cases h1 <;> cases h2 <;> cases h3 <;> decide
    rw [e]
    exact leftOver_radii _ nr

theorem dreamMem_runs (nr : Nat) (l : Live) : RunsTo HasFile (dreamMem nr) l (radiusBlocks nr ++
    [((.xi, 0), .arr), ((.p, 0), .arr), ((.r, 0), .arr), ((.f, 0), .arr), ((.dat, 0), .one), ((.sf, 0), .one)] ++ l) := by
  unfold dreamMem
  rw [List.append_assoc (radiusBlocks nr)]
  refine RunsTo.append ?_ (initRadii_runs nr _ (by simp [HasFile]))
  unfold create
  simp only [List.cons_append, List.nil_append]
  repeat first
    | refine RunsTo.new ?_
    | refine RunsTo.check (by simp [HasFile]) ?_
    | refine RunsTo.del (by simp) ?_
  simp only [List.erase_cons]
  simp
  exact RunsTo.nil _ _

/-- **C113** For DREAM output (first time step) the destructor releases the data; the file object and the objects of the radii are
left. -/
theorem C113_dream_partial (nr : Nat) (ts : List Bool) :
    (∃ m, exec (lifetime (dreamMem nr) dreamDestroy) ts [] = .throws m ∧ ((Base.sf, 0), BKind.one) ∈ m) ∨
    ∃ m, exec (lifetime (dreamMem nr) dreamDestroy) ts [] = .ok m ∧ LeftOver [((.sf, 0), .one)] nr m := by
  have hd : RunsTo HasFile dreamDestroy (radiusBlocks nr ++
      [((.xi, 0), .arr), ((.p, 0), .arr), ((.r, 0), .arr), ((.f, 0), .arr), ((.dat, 0), .one), ((.sf, 0), .one)] ++ [((.self, 0), .one)])
      (radiusBlocks nr ++ [((.sf, 0), .one), ((.self, 0), .one)]) := by
    unfold dreamDestroy
    rw [List.append_assoc]
    refine RunsTo.del (by simp) ?_
    rw [erase_radii nr _ _ _ _ (by simp)]
    refine RunsTo.del (by simp) ?_
    rw [erase_radii nr _ _ _ _ (by simp)]
    refine RunsTo.del (by simp) ?_
    rw [erase_radii nr _ _ _ _ (by simp)]
    refine RunsTo.del (by simp) ?_
    rw [erase_radii nr _ _ _ _ (by simp)]
    refine RunsTo.del (by simp) ?_
    rw [erase_radii nr _ _ _ _ (by simp)]
    simp
    exact RunsTo.nil _ _
  rcases lifetime_out (n := nr) (dreamMem_runs nr _) hd (by simp) ts with h | h
  · exact Or.inl h
  · exact Or.inr ⟨_, h, leftOver_radii _ nr⟩

/-- The blocks of the object that is returned, with or without logarithms. -/
def pickedBlocks (log : Bool) : Live :=
  [((.spline, 0), .gsl), ((.xia, 0), .gsl), ((.pa, 0), .gsl)] ++ (if log then [((.logf, 0), .arr)] else []) ++ [((.slice, 0), .arr)]

/-- **C113** One radius of a LUKE file: besides the object, its splines and the arrays in use, the file object, the arrays of rows,
the reference velocity and, with logarithms, the copy of the values are left. -/
theorem C113_luke_momentum (log : Bool) (ts : List Bool) :
    (∃ m, exec (lukeMomentumMem log) ts [] = .throws m ∧ ((Base.msdf, 0), BKind.one) ∈ m) ∨
    exec (lukeMomentumMem log) ts [] = .ok (pickedBlocks log ++
      [((.xiRows, 0), .arr), ((.xi, 0), .arr), ((.betaRows, 0), .arr), ((.beta, 0), .arr), ((.pRows, 0), .arr),
        ((.p, 0), .arr), ((.rRows, 0), .arr), ((.sf, 0), .one), ((.msdf, 0), .one)]) := by
  refine RunsTo.out (P := fun m => ((Base.msdf, 0), BKind.one) ∈ m) ?_ ts
  cases log <;>
  · simp only [lukeMomentumMem, lukeRead, create, getMatrix, pickMomentum, initMomentum, initMomentumLog, pickedBlocks, List.cons_append,
      List.nil_append, if_true, Bool.false_eq_true, if_false]
    repeat first
      | refine RunsTo.new ?_
      | refine RunsTo.check (by simp) ?_
    refine RunsTo.del (by simp) ?_
    simp only [List.erase_cons]
    simp
    refine RunsTo.del (by simp) ?_
    simp only [List.erase_cons]
    simp
    refine RunsTo.del (by simp) ?_
    simp only [List.erase_cons]
    simp
    exact RunsTo.nil _ _

/-- **C113** The same for the old SOFT format: the verification vectors are left instead of the reference velocity. -/
theorem C113_depr_momentum (h1 h2 h3 log : Bool) (ts : List Bool) :
    (∃ m, exec (deprMomentumMem h1 h2 h3 log) ts [] = .throws m ∧ ((Base.msdf, 0), BKind.one) ∈ m) ∨
    exec (deprMomentumMem h1 h2 h3 log) ts [] = .ok (pickedBlocks log ++ verBlocks h3 2 ++ verBlocks h2 1 ++ verBlocks h1 0 ++
      [((.xiRows, 0), .arr), ((.xi, 0), .arr), ((.pRows, 0), .arr),
        ((.p, 0), .arr), ((.rRows, 0), .arr), ((.sf, 0), .one), ((.msdf, 0), .one)]) := by
  refine RunsTo.out (P := fun m => ((Base.msdf, 0), BKind.one) ∈ m) ?_ ts
  cases h1 <;> cases h2 <;> cases h3 <;> cases log <;>
  · simp only [deprMomentumMem, deprRead, verifyMem, verBlocks, create, getMatrix, pickMomentum, initMomentum, initMomentumLog, pickedBlocks, List.cons_append,
      List.nil_append, if_true, Bool.false_eq_true, if_false]
    repeat first
      | refine RunsTo.new ?_
      | refine RunsTo.check (by simp) ?_
    refine RunsTo.del (by simp) ?_
    simp only [List.erase_cons]
    simp
    repeat first
      | refine RunsTo.new ?_
      | refine RunsTo.check (by simp) ?_
    refine RunsTo.del (by simp) ?_
    simp only [List.erase_cons]
    simp
    refine RunsTo.del (by simp) ?_
    simp only [List.erase_cons]
    simp
    refine RunsTo.del (by simp) ?_
    simp only [List.erase_cons]
    simp
    exact RunsTo.nil _ _

/-- **C113** (refuted) No file in the SOFT format with at least one radius is loaded: unless an exception is thrown before, the array
of rows of the first distribution, made by `new[]`, is released by `delete`. -/
theorem C113_refuted_soft (nr : Nat) (ts : List Bool) (hn : 1 ≤ nr) :
    (∃ m, exec (lifetime (softMem nr) []) ts [] = .throws m ∧ ((Base.sf, 0), BKind.one) ∈ m) ∨
      exec (lifetime (softMem nr) []) ts [] = .ub := by
  obtain ⟨n, rfl⟩ : ∃ n, nr = n + 1 := ⟨nr - 1, by omega⟩
  have hsplit : ∃ rest, lifetime (softMem (n + 1)) [] =
      (Cmd.new (.self, 0) .one :: create ++ [.check, .check] ++ getMatrix .rRows .r 0 ++ [.new (.dat, 0) .one, .new (.fr, 0) .arr] ++
        getMatrix .pRows .p 1 ++ getMatrix .xiRows .xi 1 ++ [.check, .new (.f, 1) .arr, .new (.fRows, 1) .arr]) ++
        Cmd.del (.fRows, 1) .one :: rest := by
    refine ⟨Cmd.check :: ((List.map Nat.succ (List.range n)).flatMap softRadiusMem ++
      (Cmd.check :: (initRadii (n + 1) ++ [.del (.r, 0) .arr, .del (.dat, 0) .one, .del (.self, 0) .one]))), ?_⟩
    simp [lifetime, softMem, softRead, List.range_succ_eq_map, List.flatMap_cons, softRadiusMem]
  obtain ⟨rest, hs⟩ := hsplit
  rw [hs]
  have hrun : ∃ l', ((Base.fRows, 1), BKind.one) ∉ l' ∧ RunsTo HasFile
      (Cmd.new (.self, 0) .one :: create ++ [.check, .check] ++ getMatrix .rRows .r 0 ++ [.new (.dat, 0) .one, .new (.fr, 0) .arr] ++
        getMatrix .pRows .p 1 ++ getMatrix .xiRows .xi 1 ++ [.check, .new (.f, 1) .arr, .new (.fRows, 1) .arr]) [] l' := by
    refine ⟨[((.fRows, 1), .arr), ((.f, 1), .arr), ((.xiRows, 1), .arr), ((.xi, 1), .arr), ((.pRows, 1), .arr), ((.p, 1), .arr),
      ((.fr, 0), .arr), ((.dat, 0), .one), ((.rRows, 0), .arr), ((.r, 0), .arr), ((.sf, 0), .one), ((.self, 0), .one)], by simp, ?_⟩
    unfold create getMatrix
    simp only [List.cons_append, List.nil_append]
    repeat first
      | refine RunsTo.new ?_
      | refine RunsTo.check (by simp [HasFile]) ?_
    exact RunsTo.nil _ _
  obtain ⟨l', hl', hr⟩ := hrun
  rcases hr.run (Cmd.del (.fRows, 1) .one :: rest) ts with ⟨m, h, hm⟩ | ⟨ts', h⟩
  · exact Or.inl ⟨m, h, hm⟩
  · right
    rw [h, exec, if_neg hl']

/-- **C113** (refuted) A LUKE file with three radii, loaded without complaint and destroyed: 22 blocks are left. -/
theorem C113_refuted_leak : ∃ m, exec (lifetime (lukeLoad 3) []) [] [] = .ok m ∧ m.length = 22 := by
  exact ⟨_, rfl, rfl⟩

/-- **C113** (refuted) A grid of the wrong size is refused after its matrix was made; the matrix and those read before are left.  LUKE:
the momenta; old SOFT format: the radii, and the distribution. -/
theorem C113_refuted_size (h1 h2 h3 : Bool) (nr : Nat) (ts : List Bool) :
    exec (lifetime (lukeLoad nr) []) (false :: false :: false :: false :: false :: true :: ts) [] =
      .throws [((.pRows, 0), .arr), ((.p, 0), .arr), ((.rRows, 0), .arr), ((.r, 0), .arr), ((.sf, 0), .one), ((.self, 0), .one)] ∧
    exec (lifetime (deprMem h1 h2 h3 nr) []) (false :: false :: true :: ts) [] =
      .throws [((.rRows, 0), .arr), ((.r, 0), .arr), ((.sf, 0), .one), ((.self, 0), .one)] ∧
    exec (lifetime (deprMem h1 h2 h3 nr) [])
        (false :: false :: false :: false :: false :: false :: false :: false :: true :: ts) [] =
      .throws [((.fRows, 0), .arr), ((.f, 0), .arr), ((.xiRows, 0), .arr), ((.xi, 0), .arr), ((.pRows, 0), .arr), ((.p, 0), .arr),
        ((.rRows, 0), .arr), ((.r, 0), .arr), ((.sf, 0), .one), ((.self, 0), .one)] := ⟨rfl, rfl, rfl⟩

/-- A file that is refused because it cannot be opened: the file object is left. -/
example : exec (lifetime (lukeLoad 3) []) [true] [] = .throws [((.sf, 0), .one), ((.self, 0), .one)] := by decide

/-- A SOFT file without radii releases correctly. -/
example : ∃ m, exec (lifetime (softMem 0) []) [] [] = .ok m ∧ m.length = 3 := ⟨_, rfl, rfl⟩

example : exec (lifetime (softMem 2) []) [] [] = .ub := by decide

end Softlib
