/-
Model of `Timer` and `SOFTLibException`, with properties C29, C30 and C31.

Source: /repo/src/General/Timer.cpp 20-137, /repo/include/softlib/Timer.h,
/repo/include/softlib/SOFTLibException.h 17-36.

The clock counts nanoseconds (`high_resolution_clock` of libstdc++); time stamps are integers.
The format engine of `snprintf` is not modelled: `text` stands for the complete formatted
message, which is assumed to contain no zero character.
-/
import Verif.Config.LexModel

namespace Softlib.General

/-! ### parts of an elapsed time -/

def US : Int := 1000
def MS : Int := 1000 * US
def SEC : Int := 1000 * MS
def MINUTE : Int := 60 * SEC
def HOUR : Int := 60 * MINUTE

/-- `struct time`, Timer.h: counts of the duration members.  The member `days` has the type
`chrono::hours`, Timer.h 13-20. -/
structure TimeStruct where
  tp : Int
  days : Int
  hours : Int
  minutes : Int
  seconds : Int
  milliseconds : Int
  microseconds : Int
  deriving DecidableEq, Repr

/-- `GetTimeStruct`, Timer.cpp 71-78, for the total `x = toc - tic + offset`.  A
`duration_cast` truncates.  Since `days` counts hours, line 74 and later subtract one hour per
day. -/
def timeStruct (x : Int) : TimeStruct :=
  let days := Int.tdiv (Int.tdiv x HOUR) 24
  let x1 := x - days * HOUR
  let hours := Int.tdiv x1 HOUR
  let x2 := x1 - hours * HOUR
  let minutes := Int.tdiv x2 MINUTE
  let x3 := x2 - minutes * MINUTE
  let seconds := Int.tdiv x3 SEC
  let x4 := x3 - seconds * SEC
  let ms := Int.tdiv x4 MS
  let x5 := x4 - ms * MS
  ⟨Int.tdiv x US, days, hours, minutes, seconds, ms, Int.tdiv x5 US⟩

/-- `ToString`, Timer.cpp 120-137: the numbers that are shown, with the length of their unit in
microseconds according to the unit's name. -/
def shownParts (t : TimeStruct) : List (Int × Int) :=
  (if t.days > 0 then [(t.days, 24 * 3600 * 1000000)] else []) ++
  (if t.hours > 0 then [(t.hours, 3600 * 1000000)] else []) ++
  (if t.minutes > 0 then [(t.minutes, 60 * 1000000)] else []) ++
  (if t.seconds > 0 then [(t.seconds, 1000000)] else []) ++
  (if t.milliseconds > 0 then [(t.milliseconds, 1000)] else []) ++
  [(t.microseconds, 1)]

/-! ### stopwatch -/

structure TimerSt where
  tic : Int
  toc : Int
  offset : Int
  stopped : Bool
  deriving DecidableEq, Repr

/-- A call, with the clock reading it makes. -/
inductive TimerOp where
  | reset (t : Int)
  | stop (t : Int)
  | continue (t : Int)
  deriving DecidableEq, Repr

/-- `Reset` 99-103, `Stop` 108-111, `Continue` 86-94. -/
def timerStep (s : TimerSt) : TimerOp → TimerSt
  | .reset t => ⟨t, s.toc, 0, false⟩
  | .stop t => ⟨s.tic, t, s.offset, true⟩
  | .continue t =>
    if s.stopped then ⟨t, s.toc, s.offset + (s.toc - s.tic), false⟩ else ⟨t, s.toc, 0, false⟩

/-- The constructor 20-22 at clock reading `t0`; `toc` starts out with an arbitrary value. -/
def timerNew (t0 toc0 : Int) : TimerSt := ⟨t0, toc0, 0, false⟩

/-- `toc - tic + offset`, Timer.cpp 63-71, at clock reading `now`. -/
def timerElapsed (s : TimerSt) (now : Int) : Int :=
  (if s.stopped then s.toc else now) - s.tic + s.offset

/-- `GetMicroseconds` 43-52 and `GetMilliseconds` 28-37 (integer division). -/
def getMicroseconds (s : TimerSt) (now : Int) : Int := Int.tdiv (timerElapsed s now) US
def getMilliseconds (s : TimerSt) (now : Int) : Int := Int.tdiv (getMicroseconds s now) 1000

/-! ### exceptions -/

/-- What `snprintf` leaves in the buffer when the complete text is `text` and the buffer size
is `size`. -/
def snprintfOut (size : Nat) (text : List Char) : List Char := text.take (size - 1)

/-- `ConstructErrorMessage`, SOFTLibException.h 21-36.  `fmt` is the result of formatting,
`none` for an encoding error. -/
def constructErrorMessage (msg : List Char) (fmt : Option (List Char)) : List Char :=
  match fmt with
  | none => msg
  | some text =>
    if text.length ≥ 1000 then snprintfOut text.length text else snprintfOut 1000 text

end Softlib.General

namespace Softlib

open Softlib.General

/-! ### C29 -/

theorem timeStruct_nonneg (x : Int) (h : 0 ≤ x) :
    timeStruct x =
      ⟨x / 1000, x / 86400000000000, x / 3600000000000 - x / 86400000000000,
       x / 60000000000 % 60, x / 1000000000 % 60, x / 1000000 % 1000, x / 1000 % 1000⟩ := by
  have td : ∀ (a b : Int), 0 ≤ a → Int.tdiv a b = a / b := fun a b h => Int.tdiv_eq_ediv_of_nonneg h
  simp only [timeStruct, show HOUR = 3600000000000 from rfl, show MINUTE = 60000000000 from rfl,
    show SEC = 1000000000 from rfl, show MS = 1000000 from rfl, show US = 1000 from rfl]
  rw [td x _ h, td x _ h, td _ 24 (by omega)]
  generalize hd : x / 3600000000000 / 24 = d
  have hd' : x / 86400000000000 = d := by omega
  rw [td (x - d * 3600000000000) _ (by omega)]
  generalize hh : (x - d * 3600000000000) / 3600000000000 = hr
  have hh' : x / 3600000000000 = hr + d := by omega
  rw [td (x - d * 3600000000000 - hr * 3600000000000) _ (by omega)]
  generalize hm : (x - d * 3600000000000 - hr * 3600000000000) / 60000000000 = mi
  rw [td (x - d * 3600000000000 - hr * 3600000000000 - mi * 60000000000) _ (by omega)]
  generalize hs : (x - d * 3600000000000 - hr * 3600000000000 - mi * 60000000000) / 1000000000 = se
  rw [td (x - d * 3600000000000 - hr * 3600000000000 - mi * 60000000000 - se * 1000000000) _ (by omega)]
  generalize hms : (x - d * 3600000000000 - hr * 3600000000000 - mi * 60000000000 - se * 1000000000) / 1000000 = ms
  rw [td _ 1000 (by omega)]
  simp only [TimeStruct.mk.injEq, true_and]
  refine ⟨?_, ?_, ?_, ?_, ?_, ?_⟩ <;> omega

/-- C29, exact form for every elapsed time of at least zero: minutes, seconds, milliseconds and
microseconds are right; the hours shown are the total number of hours less the number of days
(instead of 24 per day). -/
theorem C29_exact (x : Int) (h : 0 ≤ x) :
    let t := timeStruct x
    t.days = x / (24 * HOUR) ∧ t.days + t.hours = x / HOUR ∧
    0 ≤ t.minutes ∧ t.minutes < 60 ∧ 0 ≤ t.seconds ∧ t.seconds < 60 ∧
    0 ≤ t.milliseconds ∧ t.milliseconds < 1000 ∧ 0 ≤ t.microseconds ∧ t.microseconds < 1000 ∧
    ((((t.days + t.hours) * 60 + t.minutes) * 60 + t.seconds) * 1000 + t.milliseconds) * 1000 + t.microseconds = x / US ∧
    t.tp = x / US := by
  simp only [timeStruct_nonneg x h, show HOUR = 3600000000000 from rfl, show US = 1000 from rfl]
  refine ⟨?_, ?_, ?_, ?_, ?_, ?_, ?_, ?_, ?_, ?_, ?_, ?_⟩ <;> first | trivial | omega

/-- C29 for every elapsed time below one day: the parts add up and are within their bounds.
Missing: a day or more, see `C29_refuted`. -/
theorem C29_below_a_day_partial (x : Int) (h : 0 ≤ x) (hx : x < 24 * HOUR) :
    let t := timeStruct x
    t.days = 0 ∧ 0 ≤ t.hours ∧ t.hours < 24 ∧ 0 ≤ t.minutes ∧ t.minutes < 60 ∧
    0 ≤ t.seconds ∧ t.seconds < 60 ∧ 0 ≤ t.milliseconds ∧ t.milliseconds < 1000 ∧
    0 ≤ t.microseconds ∧ t.microseconds < 1000 ∧
    (((((t.days * 24 + t.hours) * 60 + t.minutes) * 60 + t.seconds) * 1000 + t.milliseconds) * 1000
      + t.microseconds) = x / US := by
  simp only [HOUR, MINUTE, SEC, MS, US] at hx
  simp only [timeStruct_nonneg x h, US]
  refine ⟨?_, ?_, ?_, ?_, ?_, ?_, ?_, ?_, ?_, ?_, ?_, ?_⟩ <;> omega

/-- C29 fails for every elapsed time of a day or more: the parts add up to too much. -/
theorem C29_wrong_from_a_day (x : Int) (hx : 24 * HOUR ≤ x) :
    let t := timeStruct x
    x / US < (((((t.days * 24 + t.hours) * 60 + t.minutes) * 60 + t.seconds) * 1000 + t.milliseconds) * 1000
      + t.microseconds) := by
  simp only [HOUR, MINUTE, SEC, MS, US] at hx
  simp only [timeStruct_nonneg x (by omega), US]
  omega

/-- C29 as stated is refuted: after exactly one day the report is 1 day and 23 hours. -/
theorem C29_refuted : timeStruct (24 * HOUR) = ⟨86400000000, 1, 23, 0, 0, 0, 0⟩ := by decide

/-- C29, the text: omitting zero parts loses nothing; the shown parts add up to what the struct
holds. -/
theorem C29_text (x : Int) (h : 0 ≤ x) :
    ((shownParts (timeStruct x)).map (fun p => p.1 * p.2)).sum =
      (((((timeStruct x).days * 24 + (timeStruct x).hours) * 60 + (timeStruct x).minutes) * 60 +
        (timeStruct x).seconds) * 1000 + (timeStruct x).milliseconds) * 1000 + (timeStruct x).microseconds := by
  have hn := timeStruct_nonneg x h
  obtain ⟨h1, h2, h3, h4, h5⟩ : 0 ≤ (timeStruct x).days ∧ 0 ≤ (timeStruct x).hours ∧ 0 ≤ (timeStruct x).minutes ∧
      0 ≤ (timeStruct x).seconds ∧ 0 ≤ (timeStruct x).milliseconds := by
    rw [hn]; simp only; refine ⟨?_, ?_, ?_, ?_, ?_⟩ <;> omega
  have part : ∀ (a u : Int), 0 ≤ a → ((if a > 0 then [(a, u)] else []).map (fun p : Int × Int => p.1 * p.2)).sum = a * u := by
    intro a u ha
    split
    · simp
    · have : a = 0 := by omega
      simp [this]
  simp only [shownParts, List.map_append, List.sum_append, part _ _ h1, part _ _ h2, part _ _ h3, part _ _ h4,
    part _ _ h5, List.map_cons, List.map_nil, List.sum_cons, List.sum_nil]
  omega

example : timeStruct 3723004005000 = ⟨3723004005, 0, 1, 2, 3, 4, 5⟩ := by decide

/-! ### C30 -/

/-- What a stopwatch should do: accumulated time and, while running, the start of the present
run. -/
structure Ideal where
  acc : Int
  since : Option Int

def idealStep (s : Ideal) : TimerOp → Ideal
  | .reset t => ⟨0, some t⟩
  | .stop t => match s.since with
    | some t0 => ⟨s.acc + (t - t0), none⟩
    | none => s
  | .continue t => match s.since with
    | some _ => s
    | none => ⟨s.acc, some t⟩

def idealTime (s : Ideal) (now : Int) : Int :=
  match s.since with
  | some t0 => s.acc + (now - t0)
  | none => s.acc

/-- Histories in which `Stop` is only called on a running and `Continue` only on a stopped
timer. -/
def Proper : Bool → List TimerOp → Prop
  | _, [] => True
  | _, .reset _ :: ops => Proper true ops
  | running, .stop _ :: ops => running = true ∧ Proper false ops
  | running, .continue _ :: ops => running = false ∧ Proper true ops

/-- C30 for histories in which `Stop` and `Continue` alternate (with `Reset` anywhere), every
length, all time stamps, every moment of asking: the time reported is the time run since the
last reset; milliseconds and microseconds are its integer parts.
Missing: `Stop` on a stopped and `Continue` on a running timer, see `C30_refuted`. -/
theorem C30_running_time_partial (t0 toc0 now : Int) (ops : List TimerOp) (h : Proper true ops) :
    let s := ops.foldl timerStep (timerNew t0 toc0)
    timerElapsed s now = idealTime (ops.foldl idealStep ⟨0, some t0⟩) now ∧
    getMicroseconds s now = Int.tdiv (idealTime (ops.foldl idealStep ⟨0, some t0⟩) now) 1000 ∧
    getMilliseconds s now = Int.tdiv (idealTime (ops.foldl idealStep ⟨0, some t0⟩) now) 1000000 := by
  have key : ∀ (ops : List TimerOp) (s : TimerSt) (i : Ideal),
      ((s.stopped = false ∧ i.since = some s.tic ∧ i.acc = s.offset) ∨
       (s.stopped = true ∧ i.since = none ∧ i.acc = s.toc - s.tic + s.offset)) →
      Proper (!s.stopped) ops →
      timerElapsed (ops.foldl timerStep s) now = idealTime (ops.foldl idealStep i) now := by
    intro ops
    induction ops with
    | nil =>
      intro s i hr _
      simp only [List.foldl_nil, timerElapsed, idealTime]
      rcases hr with ⟨h1, h2, h3⟩ | ⟨h1, h2, h3⟩
      · simp only [h1, h2, h3]; simp; omega
      · simp only [h1, h2, h3]; simp
    | cons op ops ih =>
      intro s i hr hp
      simp only [List.foldl_cons]
      apply ih
      · cases op with
        | reset t => exact .inl ⟨rfl, rfl, rfl⟩
        | stop t =>
          rcases hr with ⟨h1, h2, h3⟩ | ⟨h1, h2, h3⟩
          · right
            simp only [timerStep, idealStep, h2]
            exact ⟨trivial, trivial, by rw [h3]; omega⟩
          · simp [Proper, h1] at hp
        | «continue» t =>
          rcases hr with ⟨h1, h2, h3⟩ | ⟨h1, h2, h3⟩
          · simp [Proper, h1] at hp
          · left
            simp only [timerStep, idealStep, h1, h2, if_true]
            exact ⟨trivial, trivial, by rw [h3]; omega⟩
      · cases op with
        | reset t => exact hp
        | stop t => exact hp.2
        | «continue» t =>
          simp only [timerStep]
          split
          · exact hp.2
          · exact hp.2
  have h1 := key ops (timerNew t0 toc0) ⟨0, some t0⟩ (.inl ⟨rfl, rfl, rfl⟩) h
  refine ⟨h1, ?_, ?_⟩
  · rw [getMicroseconds, h1]; rfl
  · rw [getMilliseconds, getMicroseconds, h1]
    generalize idealTime _ _ = x
    rw [show US = 1000 from rfl]
    rcases Int.le_total 0 x with hx | hx
    · rw [Int.tdiv_eq_ediv_of_nonneg hx, Int.tdiv_eq_ediv_of_nonneg (by omega : 0 ≤ x / 1000),
        Int.tdiv_eq_ediv_of_nonneg hx]
      omega
    · obtain ⟨y, rfl⟩ : ∃ y, x = -y := ⟨-x, by omega⟩
      rw [Int.neg_tdiv, Int.neg_tdiv, Int.neg_tdiv, Int.tdiv_eq_ediv_of_nonneg (by omega : 0 ≤ y),
        Int.tdiv_eq_ediv_of_nonneg (by omega : 0 ≤ y / 1000), Int.tdiv_eq_ediv_of_nonneg (by omega : 0 ≤ y)]
      omega

/-- C30 as stated is refuted twice: stopping at 5 and again at 8 reports 8 instead of 5;
continuing a timer that has run from 0 to 5 reports 2 instead of 7 at time 7. -/
theorem C30_refuted :
    timerElapsed ([.stop 5, .stop 8].foldl timerStep (timerNew 0 0)) 9 = 8 ∧
    idealTime ([.stop 5, .stop 8].foldl idealStep ⟨0, some 0⟩) 9 = 5 ∧
    timerElapsed ([.continue 5].foldl timerStep (timerNew 0 0)) 7 = 2 ∧
    idealTime ([.continue 5].foldl idealStep ⟨0, some 0⟩) 7 = 7 := by decide

example : timerElapsed ([.stop 5, .continue 20, .stop 23, .reset 30, .stop 31, .continue 40].foldl timerStep (timerNew 0 0)) 44
    = 5 := by decide

/-- The history the timer acts on: a second `Stop` counts the time since the first one, as if the
timer had been continued at once, and `Continue` on a running timer is a `Reset`. `u` is the
time of the last `Stop`, if the timer is stopped. -/
def asIf : Option Int → List TimerOp → List TimerOp
  | _, [] => []
  | _, .reset t :: ops => .reset t :: asIf none ops
  | none, .stop t :: ops => .stop t :: asIf (some t) ops
  | some u, .stop t :: ops => .continue u :: .stop t :: asIf (some t) ops
  | none, .continue t :: ops => .reset t :: asIf none ops
  | some _, .continue t :: ops => .continue t :: asIf none ops

/-- C30, exact for every history whatever: the time reported is the running time of the history
in which every second `Stop` is preceded by a `Continue` at the time of the first, and every
`Continue` on a running timer is a `Reset`; in that history `Stop` and `Continue` alternate. -/
theorem C30_every_history (t0 toc0 now : Int) (ops : List TimerOp) :
    Proper true (asIf none ops) ∧
    timerElapsed (ops.foldl timerStep (timerNew t0 toc0)) now =
      idealTime ((asIf none ops).foldl idealStep ⟨0, some t0⟩) now := by
  have hp : ∀ (ops : List TimerOp) (u : Option Int), Proper u.isNone (asIf u ops) := by
    intro ops
    induction ops with
    | nil => intro u; cases u <;> trivial
    | cons op ops ih =>
      intro u
      cases op with
      | reset t => cases u <;> exact ih none
      | stop t => cases u <;> simp [asIf, Proper] <;> exact ih (some t)
      | «continue» t =>
        cases u
        · exact ih none
        · simp [asIf, Proper]; exact ih none
  refine ⟨hp ops none, ?_⟩
  have key : ∀ (ops : List TimerOp) (s : TimerSt) (i : Ideal) (u : Option Int),
      ((u = none ∧ s.stopped = false ∧ i.since = some s.tic ∧ i.acc = s.offset) ∨
       (u = some s.toc ∧ s.stopped = true ∧ i.since = none ∧ i.acc = s.toc - s.tic + s.offset)) →
      timerElapsed (ops.foldl timerStep s) now = idealTime ((asIf u ops).foldl idealStep i) now := by
    intro ops
    induction ops with
    | nil =>
      intro s i u hr
      have e : asIf u [] = [] := by cases u <;> rfl
      simp only [List.foldl_nil, timerElapsed, idealTime, e]
      rcases hr with ⟨-, h1, h2, h3⟩ | ⟨-, h1, h2, h3⟩
      · simp only [h1, h2, h3]; simp; omega
      · simp only [h1, h2, h3]; simp
    | cons op ops ih =>
      intro s i u hr
      simp only [List.foldl_cons]
      cases op with
      | reset t =>
        have e : asIf u (.reset t :: ops) = .reset t :: asIf none ops := by cases u <;> rfl
        rw [e, List.foldl_cons]
        exact ih _ _ _ (.inl ⟨rfl, rfl, rfl, rfl⟩)
      | stop t =>
        rcases hr with ⟨rfl, h1, h2, h3⟩ | ⟨rfl, h1, h2, h3⟩
        · simp only [asIf, List.foldl_cons]
          refine ih _ _ _ (.inr ?_)
          simp only [timerStep, idealStep, h2]
          exact ⟨trivial, trivial, trivial, by rw [h3]; omega⟩
        · simp only [asIf, List.foldl_cons]
          refine ih _ _ _ (.inr ?_)
          simp only [timerStep, idealStep, h2]
          exact ⟨trivial, trivial, trivial, by rw [h3]; omega⟩
      | «continue» t =>
        rcases hr with ⟨rfl, h1, h2, h3⟩ | ⟨rfl, h1, h2, h3⟩
        · simp only [asIf, List.foldl_cons]
          refine ih _ _ _ (.inl ?_)
          simp [timerStep, idealStep, h1]
        · simp only [asIf, List.foldl_cons]
          refine ih _ _ _ (.inl ?_)
          simp only [timerStep, idealStep, h1, h2, if_true]
          exact ⟨trivial, trivial, trivial, by rw [h3]; omega⟩
  exact key ops _ _ _ (.inl ⟨rfl, rfl, rfl, rfl⟩)

example : asIf none [.stop 5, .stop 8, .continue 9, .continue 11] =
    [.stop 5, .continue 5, .stop 8, .continue 9, .reset 11] := by decide

/-! ### C31 -/

/-- C31, exact form: the text loses its last character from 1000 characters on. -/
theorem C31_exact (msg text : List Char) :
    constructErrorMessage msg (some text) = if text.length < 1000 then text else text.dropLast := by
  simp only [constructErrorMessage, snprintfOut]
  by_cases h : text.length < 1000
  · rw [if_neg (by omega), if_pos h, List.take_of_length_le (by omega)]
  · rw [if_pos (by omega), if_neg h, List.dropLast_eq_take]

/-- C31 for messages shorter than 1000 characters.  Missing: longer ones, see `C31_refuted`. -/
theorem C31_short_partial (msg text : List Char) (h : text.length < 1000) :
    constructErrorMessage msg (some text) = text := by
  rw [C31_exact, if_pos h]

/-- C31 as stated is refuted by every message of 1000 or more characters. -/
theorem C31_refuted (msg text : List Char) (h : 1000 ≤ text.length) :
    constructErrorMessage msg (some text) ≠ text := by
  rw [C31_exact, if_neg (by omega)]
  intro e
  have := congrArg List.length e
  rw [List.length_dropLast] at this
  omega

/-- C31: if formatting fails the message is the unformatted text. -/
theorem C31_formatting_fails (msg : List Char) : constructErrorMessage msg none = msg := rfl

/-- A message of exactly 1000 characters. -/
example : constructErrorMessage [] (some (List.replicate 1000 'x')) = List.replicate 999 'x' := by
  rw [C31_exact, List.length_replicate, if_neg (by omega), List.dropLast_replicate]

end Softlib
