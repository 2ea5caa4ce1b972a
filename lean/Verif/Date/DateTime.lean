import Verif.Date.Civil
import Verif.Date.Duration
/-
Dates of the expression language (core/expression/src/vm/date/mod.rs, core/expression/src/vm/helpers.rs).

* A date-time is an instant: seconds since 1970 in universal time and nanoseconds, with a time zone.
  The code's `DateTime<Tz>` carries its zone; here the zone is an argument.
* The `chrono` crate is trusted: it follows the Gregorian calendar (`Verif.Date.Civil`), and every
  `with_…` method takes the local date and time, changes it, and asks the zone for the instant with
  that local time, failing when there is none or when there are two (`LocalResult::single`). Leap
  seconds (nanoseconds of 10⁹ and more) are left out.
* A zone is any function giving the offset of an instant, with the resolution of local times it
  determines. Results outside a range of instants are failures (chrono: years −262143 to 262142; within
  a day of the ends chrono also refuses some local dates, which the model does not). The range is kept
  abstract.
* `month_diff` computes with `f64`; here it is exact, with rationals. Dates more than some hundred
  thousand years apart may round differently.
-/
namespace Zen.Cal

open Dur

/-! ### local date and time -/

/-- `chrono::NaiveDateTime` -/
structure Local where
  date : Date
  h : Int
  mi : Int
  s : Int
  ns : Int
deriving DecidableEq, Repr

def Local.Valid (l : Local) : Prop :=
  l.date.Valid ∧ 0 ≤ l.h ∧ l.h < 24 ∧ 0 ≤ l.mi ∧ l.mi < 60 ∧ 0 ≤ l.s ∧ l.s < 60 ∧ 0 ≤ l.ns ∧ l.ns < 1000000000

instance (l : Local) : Decidable l.Valid := by unfold Local.Valid; infer_instance

/-- seconds from the local time 1970-01-01T00:00:00 -/
def Local.secs (l : Local) : Int := (l.date.dayNo - 719162) * 86400 + l.h * 3600 + l.mi * 60 + l.s

/-- nanoseconds from the local time 1970-01-01T00:00:00 -/
def Local.nanos (l : Local) : Int := l.secs * 1000000000 + l.ns

/-- the local time some seconds after 1970-01-01T00:00:00 -/
def Local.ofSecs (n ns : Int) : Local :=
  ⟨ofDay (n / 86400 + 719162), n % 86400 / 3600, n % 3600 / 60, n % 60, ns⟩

/-! ### zones and instants -/

/-- a time zone: the offset of local time at every instant, and the instant of a local time when
there is exactly one; `ok` tells which instants are in range -/
structure Zone where
  offset : Int → Int
  single : Int → Option Int
  ok : Int → Bool
  single_iff : ∀ l u, single l = some u ↔ u + offset u = l ∧ ∀ v, v + offset v = l → v = u

/-- the zone with a constant offset -/
def Zone.fixed (o : Int) (ok : Int → Bool) : Zone where
  offset _ := o
  single l := some (l - o)
  ok := ok
  single_iff l u := by
    constructor
    · intro h; cases h; exact ⟨by omega, fun v hv => by omega⟩
    · rintro ⟨h, -⟩; rw [← h]; congr 1; omega

/-- an instant -/
structure Inst where
  utc : Int
  ns : Int
deriving DecidableEq, Repr

def Inst.Valid (t : Inst) : Prop := 0 ≤ t.ns ∧ t.ns < 1000000000

/-- nanoseconds since 1970; instants are compared by it -/
def Inst.nanos (t : Inst) : Int := t.utc * 1000000000 + t.ns

/-- `DateTime::timestamp_millis` -/
def Inst.millis (t : Inst) : Int := t.utc * 1000 + t.ns / 1000000

/-- `DateTime::naive_local` -/
def Zone.toLocal (z : Zone) (t : Inst) : Local := Local.ofSecs (t.utc + z.offset t.utc) t.ns

/-- the only instant with a local time, if it is in range -/
def Zone.resolve (z : Zone) (l : Local) : Option Inst :=
  (z.single l.secs).bind fun u => if z.ok u then some ⟨u, l.ns⟩ else none

/-- chrono's `map_local` -/
def Zone.mapLocal (z : Zone) (f : Local → Option Local) (t : Inst) : Option Inst :=
  (f (z.toLocal t)).bind z.resolve

def Local.withNano (n : Int) (l : Local) : Option Local :=
  if 0 ≤ n ∧ n < 1000000000 then some { l with ns := n } else none

def Local.withSecond (n : Int) (l : Local) : Option Local :=
  if 0 ≤ n ∧ n < 60 then some { l with s := n } else none

def Local.withMinute (n : Int) (l : Local) : Option Local :=
  if 0 ≤ n ∧ n < 60 then some { l with mi := n } else none

def Local.withHour (n : Int) (l : Local) : Option Local :=
  if 0 ≤ n ∧ n < 24 then some { l with h := n } else none

def Local.withDate (d : Date) (l : Local) : Option Local :=
  if d.Valid then some { l with date := d } else none

/-- `with_day`; `with_day0(0)` is `with_day(1)` -/
def Local.withDay (n : Int) (l : Local) : Option Local := l.withDate { l.date with d := n }

/-- `with_month`; `with_month0(n)` is `with_month(n + 1)` -/
def Local.withMonth (n : Int) (l : Local) : Option Local := l.withDate { l.date with m := n }

def Local.withYear (n : Int) (l : Local) : Option Local := l.withDate { l.date with y := n }

/-- the weekday of a date, Monday being 0 (`num_days_from_monday`) -/
def Date.weekday (a : Date) : Int := a.dayNo % 7

/-- the quarter of a date (`Datelike::quarter`) -/
def Date.quarter (a : Date) : Int := (a.m - 1) / 3 + 1

def Date.addDays (a : Date) (n : Int) : Date := ofDay (a.dayNo + n)

/-- chrono's `diff_months`: the same day some months later, or the last day of that month when it is
shorter -/
def Date.addMonths (a : Date) (n : Int) : Date :=
  let t := a.y * 12 + (a.m - 1) + n
  ⟨t / 12, t % 12 + 1, min a.d (monthDays (t / 12) (t % 12 + 1))⟩

/-- `checked_add_days` and `checked_sub_days` (negative `n`); adding no days returns the same instant -/
def Zone.addDays (z : Zone) (n : Int) (t : Inst) : Option Inst :=
  if n = 0 then some t else z.mapLocal (fun l => some { l with date := l.date.addDays n }) t

/-- `checked_add_months` and `checked_sub_months` (negative `n`) -/
def Zone.addMonths (z : Zone) (n : Int) (t : Inst) : Option Inst :=
  z.mapLocal (fun l => some { l with date := l.date.addMonths n }) t

/-! ### mod.rs, module `helper` -/

/-- `start_of` (mod.rs:260-304) -/
def startOf (z : Zone) (u : DUnit) (t : Inst) : Option Inst :=
  match u with
  | .second => z.mapLocal (Local.withNano 0) t
  | .minute => do
    let t ← z.mapLocal (Local.withSecond 0) t
    z.mapLocal (Local.withNano 0) t
  | .hour => do
    let t ← z.mapLocal (Local.withMinute 0) t
    let t ← z.mapLocal (Local.withSecond 0) t
    z.mapLocal (Local.withNano 0) t
  | .day => do
    let t ← z.mapLocal (Local.withHour 0) t
    let t ← z.mapLocal (Local.withMinute 0) t
    let t ← z.mapLocal (Local.withSecond 0) t
    z.mapLocal (Local.withNano 0) t
  | .week => do
    let t ← z.addDays (-(z.toLocal t).date.weekday) t
    let t ← z.mapLocal (Local.withHour 0) t
    let t ← z.mapLocal (Local.withMinute 0) t
    let t ← z.mapLocal (Local.withSecond 0) t
    z.mapLocal (Local.withNano 0) t
  | .month => do
    let t ← z.mapLocal (Local.withDay 1) t
    let t ← z.mapLocal (Local.withHour 0) t
    let t ← z.mapLocal (Local.withMinute 0) t
    let t ← z.mapLocal (Local.withSecond 0) t
    z.mapLocal (Local.withNano 0) t
  | .quarter => do
    let t ← z.mapLocal (Local.withMonth (((z.toLocal t).date.quarter - 1) * 3 + 1)) t
    let t ← z.mapLocal (Local.withDay 1) t
    let t ← z.mapLocal (Local.withHour 0) t
    let t ← z.mapLocal (Local.withMinute 0) t
    let t ← z.mapLocal (Local.withSecond 0) t
    z.mapLocal (Local.withNano 0) t
  | .year => do
    let t ← z.mapLocal (Local.withMonth 1) t
    let t ← z.mapLocal (Local.withDay 1) t
    let t ← z.mapLocal (Local.withHour 0) t
    let t ← z.mapLocal (Local.withMinute 0) t
    let t ← z.mapLocal (Local.withSecond 0) t
    z.mapLocal (Local.withNano 0) t

/-- `end_of` (mod.rs:306-358) -/
def endOf (z : Zone) (u : DUnit) (t : Inst) : Option Inst := do
  let t ← z.mapLocal (Local.withNano 999999999) t
  match u with
  | .second => some t
  | .minute => z.mapLocal (Local.withSecond 59) t
  | .hour => do
    let t ← z.mapLocal (Local.withMinute 59) t
    z.mapLocal (Local.withSecond 59) t
  | .day => do
    let t ← z.mapLocal (Local.withHour 23) t
    let t ← z.mapLocal (Local.withMinute 59) t
    z.mapLocal (Local.withSecond 59) t
  | .week => do
    let t ← z.addDays (6 - (z.toLocal t).date.weekday) t
    let t ← z.mapLocal (Local.withHour 23) t
    let t ← z.mapLocal (Local.withMinute 59) t
    z.mapLocal (Local.withSecond 59) t
  | .month => do
    let d := (z.toLocal t).date
    let t ← z.mapLocal (Local.withDay (monthDays d.y d.m)) t
    let t ← z.mapLocal (Local.withHour 23) t
    let t ← z.mapLocal (Local.withMinute 59) t
    z.mapLocal (Local.withSecond 59) t
  | .quarter => do
    let d := (z.toLocal t).date
    let t ← z.mapLocal (Local.withMonth (d.quarter * 3)) t
    let t ← z.mapLocal (Local.withDay (monthDays d.y (d.quarter * 3))) t
    let t ← z.mapLocal (Local.withHour 23) t
    let t ← z.mapLocal (Local.withMinute 59) t
    z.mapLocal (Local.withSecond 59) t
  | .year => do
    let d := (z.toLocal t).date
    let t ← z.mapLocal (Local.withMonth 12) t
    let t ← z.mapLocal (Local.withDay (monthDays d.y 12)) t
    let t ← z.mapLocal (Local.withHour 23) t
    let t ← z.mapLocal (Local.withMinute 59) t
    z.mapLocal (Local.withSecond 59) t

/-- `TimeDelta::try_seconds` and `checked_add_signed`; a `TimeDelta` holds at most `i64::MAX` milliseconds -/
def Zone.addSeconds (z : Zone) (n : Int) (t : Inst) : Option Inst :=
  if (-9223372036854775 ≤ n ∧ n ≤ 9223372036854775) ∧ z.ok (t.utc + n) = true then some { t with utc := t.utc + n }
  else none

/-- `add_duration` (mod.rs:250-258) -/
def addDuration (z : Zone) (t : Inst) (d : Duration) : Option Inst := do
  let t ← z.addSeconds d.seconds t
  let t ← z.addMonths d.months t
  z.mapLocal (Local.withYear ((z.toLocal t).date.y + d.years)) t

/-- `set` (mod.rs:398-409); the value is not negative -/
def set (z : Zone) (u : DUnit) (n : Nat) (t : Inst) : Option Inst :=
  match u with
  | .second => z.mapLocal (Local.withSecond n) t
  | .minute => z.mapLocal (Local.withMinute n) t
  | .hour => z.mapLocal (Local.withHour n) t
  | .day => z.mapLocal (Local.withDay n) t
  | .month => z.mapLocal (Local.withMonth n) t
  | .year => if n < 2147483648 then z.mapLocal (Local.withYear n) t else none
  | .week | .quarter => some t

/-- `is_same` (mod.rs:411-421) -/
def isSame (z : Zone) (a b : Inst) (u : Option DUnit) : Option Bool :=
  match u with
  | some u => do
    let s ← startOf z u a
    let e ← endOf z u a
    some (decide (s.nanos ≤ b.nanos) && decide (b.nanos ≤ e.nanos))
  | none => some (decide (a.millis = b.millis))

/-- `is_before` (mod.rs:423-431) -/
def isBefore (z : Zone) (a b : Inst) (u : Option DUnit) : Option Bool :=
  match u with
  | some u => do
    let e ← endOf z u a
    some (decide (e.nanos < b.nanos))
  | none => some (decide (a.nanos < b.nanos))

/-- `is_after` (mod.rs:433-441) -/
def isAfter (z : Zone) (a b : Inst) (u : Option DUnit) : Option Bool :=
  match u with
  | some u => do
    let s ← startOf z u a
    some (decide (b.nanos < s.nanos))
  | none => some (decide (b.nanos < a.nanos))

/-- `add_months_to_date` (mod.rs:469-476) -/
def addMonthsToDate (z : Zone) (t : Inst) (n : Int) : Inst := (z.addMonths n t).getD t

/-- the part of `month_diff` after its first lines (mod.rs:448-466) -/
def monthDiffFrom (za : Zone) (a : Inst) (zb : Zone) (b : Inst) : Rat :=
  let la := (za.toLocal a).date
  let lb := (zb.toLocal b).date
  let whole := (lb.y - la.y) * 12 + (lb.m - la.m)
  let anchor := addMonthsToDate za a whole
  let c := b.millis - anchor.millis < 0
  let anchor2 := addMonthsToDate za a (whole + if c then -1 else 1)
  let numerator := b.millis - anchor.millis
  let denominator := if c then anchor.millis - anchor2.millis else anchor2.millis - anchor.millis
  let fractional : Rat := if denominator ≠ 0 then (numerator : Rat) / denominator else 0
  Neg.neg (whole + fractional)

/-- `month_diff` (mod.rs:443-467) -/
def monthDiff (za : Zone) (a : Inst) (zb : Zone) (b : Inst) : Rat :=
  if (za.toLocal a).date.d < (zb.toLocal b).date.d then -monthDiffFrom zb b za a
  else monthDiffFrom za a zb b

/-- `diff` (mod.rs:360-396), which never fails: milliseconds, or whole units, towards zero -/
def diff (za : Zone) (a : Inst) (zb : Zone) (b : Inst) (u : Option DUnit) : Int :=
  let zoneDelta := (zb.offset b.utc - za.offset a.utc) * 1000
  let ms := a.millis - b.millis
  match u with
  | none => ms
  | some u =>
    let r : Rat := match u with
      | .year => monthDiff za a zb b / 12
      | .month => monthDiff za a zb b
      | .quarter => monthDiff za a zb b / 3
      | .week => ((ms - zoneDelta : Int) : Rat) / 604800000
      | .day => ((ms - zoneDelta : Int) : Rat) / 86400000
      | .hour => (ms : Rat) / 3600000
      | .minute => (ms : Rat) / 60000
      | .second => (ms : Rat) / 1000
    if r < 0 then ⌈r⌉ else ⌊r⌋

/-! ### helpers.rs: the deprecated date functions, on local times -/

/-- `date_time_start_of` (helpers.rs:75-98); the result is never outside the range of dates here -/
def naiveStartOf (u : DUnit) (l : Local) : Option Local :=
  match u with
  | .second => some l
  | .minute => l.withSecond 0
  | .hour => do (← l.withSecond 0).withMinute 0
  | .day => do (← (← l.withSecond 0).withMinute 0).withHour 0
  | .week => do
    let r ← (← (← l.withSecond 0).withMinute 0).withHour 0
    some { r with date := r.date.addDays (-l.date.weekday) }
  | .month => do (← (← (← l.withSecond 0).withMinute 0).withHour 0).withDay 1
  | .year => do (← (← (← (← l.withSecond 0).withMinute 0).withHour 0).withDay 1).withMonth 1
  | .quarter => none

/-- `date_time_end_of` (helpers.rs:100-123) -/
def naiveEndOf (u : DUnit) (l : Local) : Option Local :=
  match u with
  | .second => some l
  | .minute => l.withSecond 59
  | .hour => do (← l.withSecond 59).withMinute 59
  | .day => do (← (← l.withSecond 59).withMinute 59).withHour 23
  | .week => do
    let r ← (← (← l.withSecond 59).withMinute 59).withHour 23
    some { r with date := r.date.addDays (6 - l.date.weekday) }
  | .month => do (← (← (← l.withSecond 59).withMinute 59).withHour 23).withDay (monthDays l.date.y l.date.m)
  | .year => do
    let r ← (← (← l.withSecond 59).withMinute 59).withHour 23
    let r ← r.withDay (monthDays l.date.y l.date.m)
    r.withMonth 12
  | .quarter => none

end Zen.Cal
