/-
Model of the texts and estimates of `ProgressTracker`.

Source: /repo/src/General/ProgressTracker.cpp 151-198 (estimates), 247-349 (texts).

`long long int` is `Int` (overflow is treated in TimeOverflowModel).  `os << n` writes `intOut n`.
-/
import Verif.General.ProgressModel
import Verif.SFile.SdtModel

namespace Softlib.General
open Softlib.Config Softlib.SFile

/-- `formatstring`, ProgressTracker.cpp 282. -/
def escOn : Str := "\x1b[1;33m".toList
/-- Lines 296, 311, 326, 343. -/
def escOff : Str := "\x1b[0m".toList

/-- One number with its unit, ProgressTracker.cpp 290-298 (hours), 305-313 (minutes), 320-328
(seconds): a leading zero if something stands before it. -/
def timePart (color force : Bool) (n : Int) (unit : Str) : Str :=
  (if color then escOn else []) ++ (if n < 10 ∧ force then ['0'] else []) ++ intOut n ++
    (if color then escOff else []) ++ unit

/-- `FormattedTimeString`, ProgressTracker.cpp 276-349; `f0`, `f1`, `f2` are the values of `force`
after the days, hours and minutes. -/
def formattedTimeString (p : TimeParts) (color : Bool) : Str :=
  let f0 := decide (p.days > 0)
  let f1 := f0 || decide (p.hours > 0)
  let f2 := f1 || decide (p.mins > 0)
  (if f0 then intOut p.days ++ ['d'] else []) ++
  (if f1 then timePart color f0 p.hours ['h'] else []) ++
  (if f2 then timePart color f1 p.mins ['m'] else []) ++
  (if f2 || decide (p.secs > 0) then timePart color f2 p.secs ['s'] else []) ++
  (if !f2 && decide (p.secs < 10) then
    (if color then escOn else []) ++
    (if p.secs > 0 then
      (if p.msecs < 10 then ['0', '0'] else if p.msecs < 100 then ['0'] else []) else []) ++
    intOut p.msecs ++ (if color then escOff else []) ++ ['m', 's']
  else [])

/-- `TimeString`, ProgressTracker.cpp 247-274. -/
def timeString (msec : Int) (color : Bool) (tu : TimeUnit) : Str :=
  formattedTimeString (timeParts msec tu) color

/-- The line printed by `PrintProgressLines`, ProgressTracker.cpp 105-145; `est` is the estimate of
the remaining time, if estimates are wanted. -/
def progressLine (color : Bool) (index nprint total diff : Int) (est : Option Int) : Str :=
  (if color then "\x1b[1;32m".toList else []) ++ "PROGRESS".toList ++
  (if color then escOff else []) ++ " (".toList ++ intOut index ++ "/".toList ++ intOut nprint ++
  ") :: ".toList ++ timeString total color .hours ++ " / ".toList ++
  timeString diff color .hours ++ " passed".toList ++
  (match est with
    | none => []
    | some e => ", ".toList ++ timeString e color .hours ++ " remaining (".toList ++
        timeString (e + total) color .hours ++ " total)".toList) ++ "\n".toList

/-! ### estimates -/

/-- `dt1` and `dt2`, ProgressTracker.h 36-39; not initialised by the constructor. -/
structure EstSt where
  dt1 : Option Int
  dt2 : Option Int
  deriving DecidableEq, Repr

def EstSt.init : EstSt := ⟨none, none⟩

/-- `EstimateRemainingTimeDeterministic(i)`, ProgressTracker.cpp 163-198, `dt` being the time since
the last line; `none` if an indeterminate value is used. -/
def estimateDet (nprint : Int) (st : EstSt) (i dt : Int) : Option Int × EstSt :=
  let Ni := nprint - i
  let eT := Ni * dt
  let r : Option Int :=
    if i ≥ 2 then
      match st.dt1 with
      | none => none
      | some dt1 =>
        let d2t := dt - dt1
        let NNp12 := if Int.tmod Ni 2 = 0 then Int.tdiv Ni 2 * (Ni + 1)
          else Ni * Int.tdiv (Ni + 1) 2
        some (if d2t * dt > 0 then eT + NNp12 * d2t else eT)
    else some eT
  (r, ⟨some dt, st.dt1⟩)

/-- `EstimateRemainingTimeAverage(i)`, ProgressTracker.cpp 151-156, `ti` being the total time; `none`
for a division by zero. -/
def estimateAvg (nprint i ti : Int) : Option Int :=
  if i = 0 then none else some (Int.tdiv ((nprint - i) * ti) i)

/-- The estimates printed with the lines `i, i+1, …`, the blocks before them having taken the given
times. -/
def estimates (nprint : Int) (st : EstSt) (i : Int) : List Int → List (Option Int)
  | [] => []
  | dt :: dts =>
    (estimateDet nprint st i dt).1 :: estimates nprint (estimateDet nprint st i dt).2 (i + 1) dts

end Softlib.General
