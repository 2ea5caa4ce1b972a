import Verif.Builtins.Dates
/-
The table of built-in functions: names, numbers of arguments and implementations
(core/expression/src/functions/mod.rs, registry.rs, defs.rs).
-/
namespace Zen
namespace Fn

/-- the name of a function in expressions: camelCase of the variant, `d` for `Date` (internal.rs:7-54) -/
def Name.text : Name → String
  | .len => "len" | .contains => "contains" | .flatten => "flatten" | .merge => "merge"
  | .mergeDeep => "mergeDeep" | .upper => "upper" | .lower => "lower" | .trim => "trim"
  | .startsWith => "startsWith" | .endsWith => "endsWith" | .matches_ => "matches"
  | .extract => "extract" | .fuzzyMatch => "fuzzyMatch" | .split => "split" | .abs => "abs"
  | .sum => "sum" | .avg => "avg" | .min => "min" | .max => "max" | .rand => "rand"
  | .median => "median" | .mode => "mode" | .floor => "floor" | .ceil => "ceil"
  | .round => "round" | .trunc => "trunc" | .isNumeric => "isNumeric" | .string => "string"
  | .number => "number" | .bool => "bool" | .type => "type" | .keys => "keys"
  | .values => "values" | .date => "d"

/-- all functions (internal.rs:9-54) -/
def Name.all : List Name :=
  [.len, .contains, .flatten, .merge, .mergeDeep, .upper, .lower, .trim, .startsWith, .endsWith,
   .matches_, .extract, .fuzzyMatch, .split, .abs, .sum, .avg, .min, .max, .rand, .median, .mode,
   .floor, .ceil, .round, .trunc, .isNumeric, .string, .number, .bool, .type, .keys, .values, .date]

/-- `InternalFunction::try_from(&str)` -/
def Name.ofText (s : String) : Option Name := Name.all.find? fun n => n.text == s

/-- required and total number of parameters (the signatures of internal.rs:57-325, defs.rs) -/
def Name.arity : Name → Nat × Nat
  | .contains | .startsWith | .endsWith | .matches_ | .extract | .fuzzyMatch | .split => (2, 2)
  | .round | .trunc => (1, 2)
  | .date => (0, 2)
  | _ => (1, 1)

/-- the name of a deprecated function (deprecated.rs:11-28) -/
def DName.text : DName → String
  | .date => "date" | .time => "time" | .duration => "duration" | .year => "year"
  | .dayOfWeek => "dayOfWeek" | .dayOfMonth => "dayOfMonth" | .dayOfYear => "dayOfYear"
  | .weekOfYear => "weekOfYear" | .monthOfYear => "monthOfYear" | .monthString => "monthString"
  | .dateString => "dateString" | .weekdayString => "weekdayString" | .startOf => "startOf"
  | .endOf => "endOf"

/-- all deprecated functions (deprecated.rs:13-28) -/
def DName.all : List DName :=
  [.date, .time, .duration, .year, .dayOfWeek, .dayOfMonth, .dayOfYear, .weekOfYear, .monthOfYear,
   .monthString, .dateString, .weekdayString, .startOf, .endOf]

/-- `DeprecatedFunction::try_from(&str)` -/
def DName.ofText (s : String) : Option DName := DName.all.find? fun n => n.text == s

/-- number of parameters (deprecated.rs:35-110) -/
def DName.arity : DName → Nat × Nat
  | .startOf | .endOf => (2, 2)
  | _ => (1, 1)

/-- the name of a method: camelCase of the variant (date_method.rs:8-46) -/
def MName.text : MName → String
  | .add => "add" | .sub => "sub" | .set => "set" | .format => "format" | .startOf => "startOf" | .endOf => "endOf"
  | .diff => "diff" | .tz => "tz"
  | .compare .isSame => "isSame" | .compare .isBefore => "isBefore" | .compare .isAfter => "isAfter"
  | .compare .isSameOrBefore => "isSameOrBefore" | .compare .isSameOrAfter => "isSameOrAfter"
  | .get .second => "second" | .get .minute => "minute" | .get .hour => "hour" | .get .day => "day"
  | .get .dayOfYear => "dayOfYear" | .get .week => "week" | .get .weekday => "weekday" | .get .month => "month"
  | .get .quarter => "quarter" | .get .year => "year" | .get .timestamp => "timestamp" | .get .offsetName => "offsetName"
  | .get .isValid => "isValid" | .get .isYesterday => "isYesterday" | .get .isToday => "isToday"
  | .get .isTomorrow => "isTomorrow" | .get .isLeapYear => "isLeapYear"

/-- all methods (date_method.rs:10-46) -/
def MName.all : List MName :=
  [.add, .sub, .set, .format, .startOf, .endOf, .diff, .tz, .compare .isSame, .compare .isBefore, .compare .isAfter,
   .compare .isSameOrBefore, .compare .isSameOrAfter, .get .second, .get .minute, .get .hour, .get .day, .get .dayOfYear,
   .get .week, .get .weekday, .get .month, .get .quarter, .get .year, .get .timestamp, .get .offsetName, .get .isValid,
   .get .isYesterday, .get .isToday, .get .isTomorrow, .get .isLeapYear]

/-- `DateMethod::try_from(&str)` -/
def MName.ofText (s : String) : Option MName := MName.all.find? fun n => n.text == s

/-- required and total number of parameters, with the date itself (date_method.rs:77-184, 312-324, 346-352, defs.rs:47-53, 118-136) -/
def MName.arity : MName → Nat × Nat
  | .add | .sub | .diff | .compare _ => (2, 3)
  | .set => (3, 3)
  | .startOf | .endOf | .tz => (2, 2)
  | .format => (1, 2)
  | .get _ => (1, 1)

/-- the built-in functions as the virtual machine calls them: by name, internal ones first
(functions/mod.rs:25-34). Arithmetic on decimals and methods are handed on; the name of an unknown
function is refused by the compiler already. -/
def builtins (L : Lib) (D : Dec.Rounding) (checks : Bool) (DL : DLib) (num : NumOps)
    (mArity : String → Option (Nat × Nat)) (method : String → List Val → Except BErr Val) : Builtins where
  checks := checks
  num := num
  fnArity := fun f => match Name.ofText f with
    | some n => some n.arity
    | none => (DName.ofText f).map DName.arity
  fn := fun f args => match Name.ofText f with
    | some n => call L D checks n args
    | none => match DName.ofText f with
      | some n => depCall DL n args
      | none => .error (.err "Function not found")
  mArity := mArity
  method := method

end Fn
end Zen
