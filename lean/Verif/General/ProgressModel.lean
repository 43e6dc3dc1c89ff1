/-
Model of `ProgressTracker`.

Source: /repo/src/General/ProgressTracker.cpp 34-101, 247-349.

Counters are integers; the code uses 64-bit signed ones, and all values computed here stay
below `n + nprint + 1`.  Timers only affect the text after the counter and are left out.
-/
import Verif.Config.LexModel

namespace Softlib.General

/-- The members used for counting. -/
structure Tracker where
  dprint : Nat
  modlevel : Nat
  next : Nat
  nextindex : Nat
  deriving DecidableEq, Repr

/-- `UpdateNext`, ProgressTracker.cpp 66-73. -/
def updateNext (t : Tracker) : Tracker :=
  ⟨t.dprint, t.modlevel,
   if t.next < t.modlevel then t.next + (t.dprint + 1) else t.next + t.dprint,
   t.nextindex + 1⟩

/-- The constructor, ProgressTracker.cpp 34-53 (`nprint` must not be zero, else line 44 divides
by zero). -/
def newTracker (n nprint : Nat) : Tracker :=
  updateNext ⟨n / nprint, (n % nprint) * (n / nprint + 1), 0, 0⟩

/-- `PrintProgress(i)`, ProgressTracker.cpp 78-101, called without interference; the result
tells which counter is printed, if any. -/
def printProgress (t : Tracker) (i : Nat) : Tracker × Option Nat :=
  if i < t.next then (t, none) else (updateNext t, some t.nextindex)

/-- Reports for the iterations `i, i+1, …` (`k` of them): pairs of iteration and printed
counter. -/
def reports : Nat → Nat → Tracker → List (Nat × Nat)
  | _, 0, _ => []
  | i, k + 1, t =>
    match printProgress t i with
    | (t', none) => reports (i + 1) k t'
    | (t', some c) => (i, c) :: reports (i + 1) k t'

/-- A loop of `n` iterations reporting after each. -/
def runLoop (n nprint : Nat) : List (Nat × Nat) := reports 1 n (newTracker n nprint)

/-- Tracker state together with what was printed by a sequence of undisturbed calls. -/
def calls (t : Tracker) : List Nat → List Nat
  | [] => []
  | i :: is =>
    match printProgress t i with
    | (t', none) => calls t' is
    | (t', some c) => c :: calls t' is

/-! ### concurrent calls -/

/-- Where a call of `PrintProgress` is. -/
inductive Pc where
  /-- before line 79 -/
  | start
  /-- `index` has been read, before the critical section -/
  | got (index : Nat)
  /-- past the critical section, about to print -/
  | printing (index : Nat)
  | done
  deriving DecidableEq, Repr

structure Conc where
  tr : Tracker
  pc : Nat → Pc
  printed : List Nat

/-- The call with number `k`, made with argument `arg k`, executes one step: reading `index`
(line 79), the critical section (82-92), or printing (94-98). -/
def concStep (arg : Nat → Nat) (s : Conc) (k : Nat) : Conc :=
  match s.pc k with
  | .start => ⟨s.tr, fun j => if j = k then .got s.tr.nextindex else s.pc j, s.printed⟩
  | .got c =>
    if arg k < s.tr.next then ⟨s.tr, fun j => if j = k then .done else s.pc j, s.printed⟩
    else ⟨updateNext s.tr, fun j => if j = k then .printing c else s.pc j, s.printed⟩
  | .printing c => ⟨s.tr, fun j => if j = k then .done else s.pc j, s.printed ++ [c]⟩
  | .done => s

/-- A schedule names the call that moves next. -/
def concRun (arg : Nat → Nat) (s : Conc) (sched : List Nat) : Conc := sched.foldl (concStep arg) s

def concInit (n nprint : Nat) : Conc := ⟨newTracker n nprint, fun _ => .start, []⟩

/-! ### time strings -/

/-- `TimeUnit`, ProgressTracker.h 13-19. -/
inductive TimeUnit where
  | days | hours | minutes | seconds | milliseconds
  deriving DecidableEq, Repr

def TimeUnit.toNat : TimeUnit → Nat
  | .days => 1
  | .hours => 2
  | .minutes => 3
  | .seconds => 4
  | .milliseconds => 5

structure TimeParts where
  days : Int
  hours : Int
  mins : Int
  secs : Int
  msecs : Int
  deriving DecidableEq, Repr

/-- `TimeString`, ProgressTracker.cpp 247-271: the five numbers it computes. -/
def timeParts (msec : Int) (tu : TimeUnit) : TimeParts :=
  let SECOND : Int := 1000
  let MINUTE : Int := 60 * SECOND
  let HOUR : Int := 60 * MINUTE
  let DAY : Int := 24 * HOUR
  let days := if tu.toNat ≤ 1 then Int.tdiv msec DAY else 0
  let hours := if tu.toNat ≤ 2 then Int.tdiv (msec - days * DAY) HOUR else 0
  let mins := if tu.toNat ≤ 3 then Int.tdiv (msec - days * DAY - hours * HOUR) MINUTE else 0
  let secs := if tu.toNat ≤ 4 then Int.tdiv (msec - days * DAY - hours * HOUR - mins * MINUTE) SECOND else 0
  let msecs := if tu.toNat < 5 then msec - days * DAY - hours * HOUR - mins * MINUTE - secs * SECOND else msec
  ⟨days, hours, mins, secs, msecs⟩

end Softlib.General
