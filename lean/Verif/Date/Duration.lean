import Verif.Core.Bytes
import Mathlib.Data.Rat.Floor
/-
Durations (core/expression/src/vm/date/duration.rs, duration_unit.rs, duration_parser.rs).

* Text is a list of characters; the parser keeps the characters not read yet (`Chars`) and computes
  byte offsets from their length, as the code does. Cutting the text inside a character is a panic.
* Machine integers are integers together with the range checks the code makes. Where the code makes
  none (`* 3`, negation), the outcome depends on how the crate is compiled: with overflow checks it
  panics, without it wraps (`Build`).
* `Decimal` is an exact rational: the rounding of `checked_mul` to 28 digits and its failure beyond
  96 bits are not modelled.
-/
namespace Zen.Dur
open Bytes

/-- how the crate is compiled: whether arithmetic overflow panics (`debug`) or wraps (`release`) -/
structure Build where
  overflowChecks : Bool

/-- a computation that may panic -/
inductive Res (ε α : Type) where
  | panic
  | err (e : ε)
  | ok (a : α)
deriving DecidableEq, Repr

/-- the ranges of `i32`, `i64` and `u64` -/
def i32Max : Nat := 2147483647
def i64Max : Nat := 9223372036854775807
def u64Max : Nat := 18446744073709551615

/-- arithmetic on `bits`-bit signed integers without an explicit check -/
def Build.wrap (b : Build) (half : Int) (x : Int) : Option Int :=
  if -half ≤ x ∧ x < half then some x
  else if b.overflowChecks then none
  else some ((x + half) % (2 * half) - half)

/-- `struct Duration` (duration.rs:7-12) -/
structure Duration where
  seconds : Int := 0
  months : Int := 0
  years : Int := 0
deriving DecidableEq, Repr

/-- `enum DurationUnit` (duration_unit.rs:5-14) -/
inductive DUnit where
  | second | minute | hour | day | week | month | quarter | year
deriving DecidableEq, Repr

/-- `DurationUnit::parse` (duration_unit.rs:32-44) -/
def DUnit.parse (u : List Char) : Option DUnit :=
  if u = "seconds".toList ∨ u = "second".toList ∨ u = "secs".toList ∨ u = "sec".toList ∨ u = "s".toList then
    some .second
  else if u = "minutes".toList ∨ u = "minute".toList ∨ u = "min".toList ∨ u = "mins".toList ∨ u = "m".toList then
    some .minute
  else if u = "hours".toList ∨ u = "hour".toList ∨ u = "hr".toList ∨ u = "hrs".toList ∨ u = "h".toList then
    some .hour
  else if u = "days".toList ∨ u = "day".toList ∨ u = "d".toList then some .day
  else if u = "weeks".toList ∨ u = "week".toList ∨ u = "w".toList then some .week
  else if u = "months".toList ∨ u = "month".toList ∨ u = "mo".toList ∨ u = "M".toList then some .month
  else if u = "quarters".toList ∨ u = "quarter".toList ∨ u = "qtr".toList ∨ u = "q".toList then some .quarter
  else if u = "years".toList ∨ u = "year".toList ∨ u = "y".toList then some .year
  else none

/-- `DurationUnit::as_secs` (duration_unit.rs:46-58) -/
def DUnit.asSecs : DUnit → Option Nat
  | .second => some 1
  | .minute => some 60
  | .hour => some 3600
  | .day => some 86400
  | .week => some (86400 * 7)
  | .quarter => none
  | .month => none
  | .year => none

/-- `DurationParseError` (duration_parser.rs:8-24) -/
inductive PErr where
  | invalidCharacter (off : Nat)
  | numberExpected (off : Nat)
  | unknownUnit (start stop value : Nat) (unit : List Char)
  | numberOverflow
  | empty
deriving DecidableEq, Repr

/-- the pattern `'0'..='9'` -/
def isDigit (c : Char) : Bool := 48 ≤ c.toNat && c.toNat ≤ 57

/-- the pattern `'a'..='z' | 'A'..='Z'` -/
def isLetter (c : Char) : Bool :=
  (97 ≤ c.toNat && c.toNat ≤ 122) || (65 ≤ c.toNat && c.toNat ≤ 90)

/-- `c as u64 - '0' as u64` -/
def digitVal (c : Char) : Nat := c.toNat - 48

/-- `DurationParser::off` (duration_parser.rs:33-35); `rest` is what the iterator has not read -/
def off (src rest : List Char) : Nat := byteLen src - byteLen rest

/-- the loop of `parse_first_char` (duration_parser.rs:39-50) -/
def firstGo (o : Nat) : List Char → Except PErr (Option (Nat × List Char))
  | [] => .ok none
  | c :: r =>
    if isDigit c then .ok (some (digitVal c, r))
    else if isWs c then firstGo o r
    else .error (.numberExpected o)

/-- `DurationParser::parse_first_char` (duration_parser.rs:37-51): the digit and the text after it -/
def firstChar (src rest : List Char) : Except PErr (Option (Nat × List Char)) :=
  firstGo (off src rest) rest

/-- `n.checked_mul(10).and_then(|x| x.checked_add(…))` (duration_parser.rs:105-108) -/
def pushDigit (n : Nat) (c : Char) : Option Nat :=
  if n * 10 ≤ u64Max ∧ n * 10 + digitVal c ≤ u64Max then some (n * 10 + digitVal c) else none

/-- the first inner loop of `parse` (duration_parser.rs:101-120), over the rest of a number and the
first letter of its unit: the number, the offset of the letter, the text after it -/
def scanNum (src : List Char) (n o : Nat) : List Char → Except PErr (Nat × Nat × List Char)
  | [] => .ok (n, o, [])
  | c :: r =>
    if isDigit c then
      match pushDigit n c with
      | none => .error .numberOverflow
      | some n' => scanNum src n' (off src r) r
    else if isWs c then scanNum src n (off src r) r
    else if isLetter c then .ok (n, o, r)
    else .error (.invalidCharacter o)

/-- the second inner loop of `parse` (duration_parser.rs:121-136), over the rest of a unit: the
offset where it stops, the digit that ended it if a digit did, the text after that -/
def scanUnit (src : List Char) (o : Nat) : List Char → Except PErr (Nat × Option Nat × List Char)
  | [] => .ok (o, none, [])
  | c :: r =>
    if isDigit c then .ok (o, some (digitVal c), r)
    else if isWs c then .ok (o, none, r)
    else if isLetter c then scanUnit src (off src r) r
    else .error (.invalidCharacter o)

/-- what `parse_unit` does with a known unit (duration_parser.rs:62-95) -/
def addUnit (b : Build) (d : Duration) (n : Nat) (u : DUnit) : Res PErr Duration :=
  let calendar : Res PErr Duration :=
    match u with
    | .quarter =>
      if n ≤ i32Max then
        match b.wrap 2147483648 ((n : Int) * 3) with
        | none => .panic
        | some m => .ok { d with months := m }
      else .err .numberOverflow
    | .month => if n ≤ i32Max then .ok { d with months := n } else .err .numberOverflow
    | .year => if n ≤ i32Max then .ok { d with years := n } else .err .numberOverflow
    | _ => .ok d
  match calendar with
  | .panic => .panic
  | .err e => .err e
  | .ok d =>
    match u.asSecs with
    | none => .ok d
    | some secs =>
      if n ≤ i64Max then
        if secs * n ≤ i64Max then
          if d.seconds + (secs * n : Nat) ≤ i64Max then
            .ok { d with seconds := d.seconds + (secs * n : Nat) }
          else .err .numberOverflow
        else .err .numberOverflow
      else .err .numberOverflow

/-- `DurationParser::parse_unit` (duration_parser.rs:52-96) -/
def parseUnit (b : Build) (src : List Char) (d : Duration) (n start stop : Nat) : Res PErr Duration :=
  match slice src start stop with
  | none => .panic
  | some unit =>
    match DUnit.parse unit with
    | none => .err (.unknownUnit start stop n unit)
    | some u => addUnit b d n u

/-- the outer loop of `parse` (duration_parser.rs:100-142). Each turn reads at least one character
unless nothing is left; the fuel, one more than the number of characters, never runs out
(`C22_no_panic`). -/
def loop (b : Build) (src : List Char) : Nat → Nat → Duration → List Char → Res PErr Duration
  | 0, _, _, _ => .panic
  | fuel + 1, n, d, rest =>
    match scanNum src n (off src rest) rest with
    | .error e => .err e
    | .ok (n, start, r1) =>
      match scanUnit src (off src r1) r1 with
      | .error e => .err e
      | .ok (stop, next, r2) =>
        match parseUnit b src d n start stop with
        | .panic => .panic
        | .err e => .err e
        | .ok d =>
          match next with
          | some n' => loop b src fuel n' d r2
          | none =>
            match firstChar src r2 with
            | .error e => .err e
            | .ok none => .ok d
            | .ok (some (n', r3)) => loop b src fuel n' d r3

/-- `Duration::parse` (duration.rs:15-22) and `DurationParser::parse` (duration_parser.rs:98-143) -/
def Duration.parse (b : Build) (src : List Char) : Res PErr Duration :=
  match firstChar src src with
  | .error e => .err e
  | .ok none => .err .empty
  | .ok (some (n, rest)) => loop b src (src.length + 1) n {} rest

/-- rounding towards zero, as `Decimal::to_i64` and `to_i32` do -/
def truncate (q : Rat) : Int := if 0 ≤ q then ⌊q⌋ else ⌈q⌉

/-- `Decimal::to_i32` -/
def toI32 (q : Rat) : Option Int :=
  if -2147483648 ≤ truncate q ∧ truncate q < 2147483648 then some (truncate q) else none

/-- `Decimal::to_i64` -/
def toI64 (q : Rat) : Option Int :=
  if -9223372036854775808 ≤ truncate q ∧ truncate q < 9223372036854775808 then some (truncate q) else none

/-- `Duration::from_unit` (duration.rs:24-47) -/
def Duration.fromUnit (b : Build) (n : Rat) (u : DUnit) : Res Unit Duration :=
  match u.asSecs with
  | some secs =>
    match toI64 (n * secs) with
    | some s => .ok { seconds := s }
    | none => .err ()
  | none =>
    match u with
    | .month => match toI32 n with
      | some m => .ok { months := m }
      | none => .err ()
    | .quarter => match toI32 n with
      | some m => match b.wrap 2147483648 (m * 3) with
        | some m => .ok { months := m }
        | none => .panic
      | none => .err ()
    | .year => match toI32 n with
      | some y => .ok { years := y }
      | none => .err ()
    | _ => .err ()

/-- `Duration::negate` (duration.rs:49-55) -/
def Duration.negate (b : Build) (d : Duration) : Option Duration :=
  (b.wrap 2147483648 (-d.years)).bind fun y =>
  (b.wrap 2147483648 (-d.months)).bind fun m =>
  (b.wrap 9223372036854775808 (-d.seconds)).map fun s => { seconds := s, months := m, years := y }

/-- `Duration::day` (duration.rs:57-62) -/
def Duration.day : Duration := { seconds := (DUnit.day.asSecs.getD 0 : Nat) }

end Zen.Dur
