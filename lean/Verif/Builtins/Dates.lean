import Verif.Builtins.Funcs
import Verif.Date.DateTime
/-
The deprecated date functions (core/expression/src/functions/deprecated.rs) and the methods of dates
(core/expression/src/functions/date_method.rs, core/expression/src/vm/date/mod.rs).

* Reading and printing dates, times and `humantime` durations, the clock and the time zone database
  are parameters (`DLib`); everything else is computed with the calendar of `Verif.Date`.
* The dates of `Val` carry no time zone, so methods work on their own kind of argument (`Arg`) and
  result (`MRes`), in which a date has its zone.
-/
namespace Zen
namespace Fn
open Dur (DUnit Duration Build)
open Cal (Local Zone Inst)

/-- `DateTime<Tz>` -/
structure ZDate where
  zone : Zone
  name : String
  t : Inst

/-- library functions the date functions call -/
structure DLib where
  /-- `date_time` (helpers.rs:15-26) -/
  dateTime : String → Option Local
  /-- `time` (helpers.rs:28-43), in seconds from midnight -/
  time : String → Option Nat
  /-- `humantime::parse_duration(..).as_secs()` -/
  humantime : String → Option Nat
  /-- the instants `NaiveDateTime::from_timestamp_opt` accepts -/
  okSecs : Int → Bool
  /-- `NaiveDateTime::to_string` -/
  showLocal : Local → String
  /-- `helper::now()` -/
  now : ZDate
  /-- `helper::parse_date(.., None)` of anything but a date (mod.rs:210-248) -/
  parse : Val → Option ZDate
  /-- `Tz::from_str` -/
  tz : String → Option (Zone × String)
  /-- whether all items of a format string are known to `chrono` -/
  fmtOk : String → Bool
  /-- `date_time.format(fmt).to_string()` with a valid format -/
  fmt : String → ZDate → String
  /-- `DateTime::to_string` -/
  show_ : ZDate → String

/-! ### Deprecated functions -/

/-- the day of the year (`Datelike::ordinal`) -/
def ordinal (d : Cal.Date) : Int := d.dayNo - Cal.yearStart d.y + 1

/-- the ISO week (`Datelike::iso_week().week()`): the week's number within the year of its Thursday -/
def isoWeek (d : Cal.Date) : Int :=
  let thu := d.dayNo - d.weekday + 3
  (thu - Cal.yearStart (Cal.yearOf thu)) / 7 + 1

/-- `time.format("%b")` -/
def monthName (m : Int) : String :=
  if m = 1 then "Jan" else if m = 2 then "Feb" else if m = 3 then "Mar" else if m = 4 then "Apr"
  else if m = 5 then "May" else if m = 6 then "Jun" else if m = 7 then "Jul" else if m = 8 then "Aug"
  else if m = 9 then "Sep" else if m = 10 then "Oct" else if m = 11 then "Nov" else "Dec"

/-- `Weekday::to_string` -/
def weekdayName (w : Int) : String :=
  if w = 0 then "Mon" else if w = 1 then "Tue" else if w = 2 then "Wed" else if w = 3 then "Thu"
  else if w = 4 then "Fri" else if w = 5 then "Sat" else "Sun"

/-- `__internal_convert_datetime` (deprecated.rs:123-143) -/
def convertDate (L : DLib) : Val → Res Local
  | .str s => match L.dateTime s with
    | some l => .ok l
    | none => .error (.err "Failed to convert value to date time")
  | .num n => match toI64 n with
    | none => .error (.err "Failed to convert value to date time")
    | some i => if L.okSecs i then .ok (Local.ofSecs i 0)
      else .error (.err "Failed to convert value to date time")
  | _ => .error (.err "Failed to convert value to date time")

/-- `parse_date` (deprecated.rs:145-159) -/
def depDate (L : DLib) (args : List Val) : Res Val := do
  match ← argVar args 0 with
  | .str s => match L.dateTime s with
    | some l => return .num l.secs
    | none => .error (.err "Failed to parse date time")
  | .num n => match toI64 n with
    | some i => return .num i
    | none => .error (.err "Number overflow")
  | _ => .error (.err "Unsupported type for date function")

/-- `parse_time` (deprecated.rs:161-171) -/
def depTime (L : DLib) (args : List Val) : Res Val := do
  match ← argVar args 0 with
  | .str s => match L.time s with
    | some k => return .num k
    | none => .error (.err "Failed to parse date time")
  | .num n => match toU32 n with
    | some i => return .num i
    | none => .error (.err "Number overflow")
  | _ => .error (.err "Unsupported type for time function")

/-- `parse_duration` (deprecated.rs:173-183) -/
def depDuration (L : DLib) (args : List Val) : Res Val := do
  match ← argVar args 0 with
  | .str s => match L.humantime s with
    | some k => return .num k
    | none => .error (.err "invalid duration")
  | .num n => match toUsize n with
    | some i => return .num i
    | none => .error (.err "Number overflow")
  | _ => .error (.err "Unsupported type for duration function")

/-- the functions that read one part of a date (deprecated.rs:185-237) -/
def depPart (L : DLib) (part : Local → Val) (args : List Val) : Res Val := do
  let a ← argVar args 0
  let l ← convertDate L a
  return part l

/-- `DateUnit::try_from` (helpers.rs:55-73) -/
def dateUnit (u : String) : Option DUnit :=
  if u = "s" ∨ u = "second" ∨ u = "seconds" then some .second
  else if u = "m" ∨ u = "minute" ∨ u = "minutes" then some .minute
  else if u = "h" ∨ u = "hour" ∨ u = "hours" then some .hour
  else if u = "d" ∨ u = "day" ∨ u = "days" then some .day
  else if u = "w" ∨ u = "week" ∨ u = "weeks" then some .week
  else if u = "M" ∨ u = "month" ∨ u = "months" then some .month
  else if u = "y" ∨ u = "year" ∨ u = "years" then some .year
  else none

/-- `start_of`, `end_of` (deprecated.rs:239-265) -/
def depEdge (L : DLib) (edge : DUnit → Local → Option Local) (args : List Val) : Res Val := do
  let a ← argVar args 0
  let u ← argStr args 1
  let l ← convertDate L a
  match dateUnit u with
  | none => .error (.err "Invalid date unit")
  | some u => match edge u l with
    | none => .error (.err "Failed to calculate period")
    | some r => return .num r.secs

/-- `enum DeprecatedFunction` (deprecated.rs:13-28) -/
inductive DName where
  | date | time | duration | year | dayOfWeek | dayOfMonth | dayOfYear | weekOfYear | monthOfYear
  | monthString | dateString | weekdayString | startOf | endOf
deriving DecidableEq, Repr

/-- the implementation of every deprecated function (deprecated.rs:30-115) -/
def depCall (L : DLib) : DName → List Val → Res Val
  | .date => depDate L
  | .time => depTime L
  | .duration => depDuration L
  | .year => depPart L fun l => .num l.date.y
  | .dayOfWeek => depPart L fun l => .num (l.date.weekday + 1 : Int)
  | .dayOfMonth => depPart L fun l => .num l.date.d
  | .dayOfYear => depPart L fun l => .num (ordinal l.date)
  | .weekOfYear => depPart L fun l => .num (isoWeek l.date)
  | .monthOfYear => depPart L fun l => .num l.date.m
  | .monthString => depPart L fun l => .str (monthName l.date.m)
  | .dateString => depPart L fun l => .str (L.showLocal l)
  | .weekdayString => depPart L fun l => .str (weekdayName l.date.weekday)
  | .startOf => depEdge L Cal.naiveStartOf
  | .endOf => depEdge L Cal.naiveEndOf

/-! ### Methods of dates -/

/-- an argument of a method: a date with its zone, or another value -/
inductive Arg where
  | date (d : Option ZDate)
  | val (v : Val)

/-- the result of a method -/
inductive MRes where
  | date (d : Option ZDate)
  | val (v : Val)

/-- `args.dynamic::<VmDate>(0)` -/
def thisDate (args : List Arg) : Res (Option ZDate) :=
  match (args[0]? : Option Arg) with
  | some (.date d) => .ok d
  | _ => .error (.err "Argument is not a valid dynamic")

/-- `args.str(pos)` on method arguments -/
def mStr (args : List Arg) (i : Nat) : Res String :=
  match args[i]? with
  | some (.val (.str s)) => .ok s
  | _ => .error (.err "Argument is not a string")

/-- `args.ostr(pos)` on method arguments -/
def mOStr (args : List Arg) (i : Nat) : Res (Option String) :=
  match args[i]? with
  | some (.val (.str s)) => .ok (some s)
  | none => .ok none
  | some _ => .error (.err "Argument is not a string")

/-- `__internal_extract_duration_unit` (date_method.rs:215-221) -/
def mUnit (args : List Arg) (i : Nat) : Res DUnit := do
  let s ← mStr args i
  match DUnit.parse s.toList with
  | some u => return u
  | none => .error (.err "Invalid duration unit")

/-- `__internal_extract_duration_unit_opt` (date_method.rs:223-235) -/
def mUnitOpt (args : List Arg) (i : Nat) : Res (Option DUnit) := do
  match ← mOStr args i with
  | none => return none
  | some s => match DUnit.parse s.toList with
    | some u => return some u
    | none => .error (.err "Invalid duration unit")

/-- `__internal_extract_duration` (date_method.rs:204-213) -/
def mDuration (b : Build) (args : List Arg) (i : Nat) : Res Duration :=
  match args[i]? with
  | none => .error (.err "Argument out of bounds")
  | some (.val (.str s)) => match Duration.parse b s.toList with
    | .ok d => .ok d
    | .err _ => .error (.err "Invalid duration")
    | .panic => .error .panic
  | some (.val (.num n)) => do
    let u ← mUnit args (i + 1)
    match Duration.fromUnit b n u with
    | .ok d => .ok d
    | .err _ => .error (.err "Invalid duration unit")
    | .panic => .error .panic
  | some _ => .error (.err "Invalid duration arguments")

/-- `VmDate::new(args.var(pos)?.clone(), None)` -/
def mDate (L : DLib) (args : List Arg) (i : Nat) : Res (Option ZDate) :=
  match args[i]? with
  | none => .error (.err "Argument out of bounds")
  | some (.date d) => .ok d
  | some (.val v) => .ok (L.parse v)

/-- a method changing a valid date (mod.rs:93-123, 134-140) -/
def onDate (d : Option ZDate) (f : ZDate → Option Inst) : MRes :=
  .date (match d with | none => none | some d => (f d).map fun t => { d with t })

/-- `add` (date_method.rs:237-243) -/
def mAdd (b : Build) (args : List Arg) : Res MRes := do
  let this ← thisDate args
  let dur ← mDuration b args 1
  return onDate this fun d => Cal.addDuration d.zone d.t dur

/-- `sub` (date_method.rs:245-251, mod.rs:101-107) -/
def mSub (b : Build) (args : List Arg) : Res MRes := do
  let this ← thisDate args
  let dur ← mDuration b args 1
  match this with
  | none => return .date none
  | some d => match dur.negate b with
    | none => .error .panic
    | some dur => return onDate (some d) fun d => Cal.addDuration d.zone d.t dur

/-- `set` (date_method.rs:253-262) -/
def mSet (args : List Arg) : Res MRes := do
  let this ← thisDate args
  let u ← mUnit args 1
  match (args[2]? : Option Arg) with
  | some (.val (.num n)) => match toU32 n with
    | none => .error (.err "Invalid duration value")
    | some k => return onDate this fun d => Cal.set d.zone u k d.t
  | _ => .error (.err "Argument is not a number")

/-- `format` (date_method.rs:264-270, mod.rs:82-91). Printing with an unknown item makes
`Display::fmt` fail, on which `to_string` panics. -/
def mFormat (L : DLib) (args : List Arg) : Res MRes := do
  let this ← thisDate args
  let f ← mOStr args 1
  match this, f with
  | none, _ => return .val (.str "Invalid date")
  | some d, none => return .val (.str (L.show_ d))
  | some d, some f => if L.fmtOk f then return .val (.str (L.fmt f d)) else .error .panic

/-- `start_of`, `end_of` (date_method.rs:272-286) -/
def mEdge (edge : Zone → DUnit → Inst → Option Inst) (args : List Arg) : Res MRes := do
  let this ← thisDate args
  let u ← mUnit args 1
  return onDate this fun d => edge d.zone u d.t

/-- `diff` (date_method.rs:288-302, mod.rs:125-132) -/
def mDiff (L : DLib) (args : List Arg) : Res MRes := do
  let this ← thisDate args
  let other ← mDate L args 1
  let u ← mUnitOpt args 2
  match this, other with
  | some a, some b => return .val (.num (Cal.diff a.zone a.t b.zone b.t u))
  | _, _ => return .val .null

/-- `tz` (date_method.rs:304-310, mod.rs:74-80) -/
def mTz (L : DLib) (args : List Arg) : Res MRes := do
  let this ← thisDate args
  let name ← mStr args 1
  match L.tz name with
  | none => .error (.err "Invalid timezone")
  | some (z, n) => return .date (this.map fun d => { d with zone := z, name := n })

/-- `CompareOperation` (date_method.rs:48-54) -/
inductive CmpOp where | isSame | isBefore | isAfter | isSameOrBefore | isSameOrAfter
deriving DecidableEq, Repr

/-- a comparison of two dates, false when one is invalid (mod.rs:142-175) -/
def cmpDates (f : Zone → Inst → Inst → Option DUnit → Option Bool) (a b : Option ZDate) (u : Option DUnit) :
    Bool :=
  match a, b with
  | some a, some b => (f a.zone a.t b.t u).getD false
  | _, _ => false

/-- `compare_using` (date_method.rs:312-344) -/
def mCompare (L : DLib) (op : CmpOp) (args : List Arg) : Res MRes := do
  let this ← thisDate args
  let other ← mDate L args 1
  let u ← mUnitOpt args 2
  return .val (.bool (match op with
    | .isSame => cmpDates Cal.isSame this other u
    | .isBefore => cmpDates Cal.isBefore this other u
    | .isAfter => cmpDates Cal.isAfter this other u
    | .isSameOrBefore => cmpDates Cal.isBefore this other u || cmpDates Cal.isSame this other u
    | .isSameOrAfter => cmpDates Cal.isAfter this other u || cmpDates Cal.isSame this other u))

/-- `GetterOperation` (date_method.rs:56-75) -/
inductive Getter where
  | second | minute | hour | day | weekday | dayOfYear | week | month | quarter | year | timestamp
  | offsetName | isValid | isYesterday | isToday | isTomorrow | isLeapYear
deriving DecidableEq, Repr

/-- `VmDate::yesterday` and `VmDate::tomorrow` (mod.rs:57-63) -/
def dayFromNow (L : DLib) (sign : Int) : Option ZDate :=
  (Cal.addDuration L.now.zone L.now.t { seconds := sign * 86400 }).map fun t => { L.now with t }

/-- `getter` (date_method.rs:346-409) -/
def mGet (L : DLib) (g : Getter) (args : List Arg) : Res MRes := do
  let this ← thisDate args
  match g, this with
  | .isValid, this => return .val (.bool this.isSome)
  | _, none => return .val .null
  | g, some d =>
    let l := d.zone.toLocal d.t
    return .val (match g with
      | .second => .num l.s
      | .minute => .num l.mi
      | .hour => .num l.h
      | .day => .num l.date.d
      | .weekday => .num (l.date.weekday + 1 : Int)
      | .dayOfYear => .num (ordinal l.date)
      | .week => .num (isoWeek l.date)
      | .month => .num l.date.m
      | .quarter => .num l.date.quarter
      | .year => .num l.date.y
      | .timestamp => .num d.t.millis
      | .offsetName => .str d.name
      | .isValid => .bool true
      | .isYesterday => .bool (cmpDates Cal.isSame this (dayFromNow L (-1)) (some .day))
      | .isToday => .bool (cmpDates Cal.isSame this (some L.now) (some .day))
      | .isTomorrow => .bool (cmpDates Cal.isSame this (dayFromNow L 1) (some .day))
      | .isLeapYear => .bool (Cal.leap l.date.y))

/-- `enum DateMethod` (date_method.rs:10-46) -/
inductive MName where
  | add | sub | set | format | startOf | endOf | diff | tz
  | compare (op : CmpOp)
  | get (g : Getter)
deriving DecidableEq, Repr

/-- the implementation of every method (date_method.rs:77-184) -/
def mCall (L : DLib) (b : Build) : MName → List Arg → Res MRes
  | .add => mAdd b
  | .sub => mSub b
  | .set => mSet
  | .format => mFormat L
  | .startOf => mEdge Cal.startOf
  | .endOf => mEdge Cal.endOf
  | .diff => mDiff L
  | .tz => mTz L
  | .compare op => mCompare L op
  | .get g => mGet L g

end Fn
end Zen
