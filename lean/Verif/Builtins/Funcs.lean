import Verif.Builtins.Decimal
import Verif.Core.Bytes
import Verif.Expr.Ops
import Mathlib.Data.List.Sort
/-
The built-in functions of the expression language
(core/expression/src/functions/internal.rs, functions/arguments.rs).

* A call returns a value, an error, or crashes (`panic`). Rust checks integer overflow only in debug
  builds; the parameter `checks` of the functions concerned says which build is meant.
* Numbers are the numeric values of `Decimal`s; sums and quotients are rounded by the parameter
  `Dec.Rounding`. Scales (`1.0` against `1.00`) are not represented.
* Error messages are shortened; the position of the offending argument is left out.
* What the code takes from libraries is the parameter `Lib`: letter case, regular expressions,
  string similarity, reading and printing numbers, random numbers, and dates.
-/
namespace Zen
namespace Fn

abbrev Res (α : Type) := Except BErr α

/-- a compiled regular expression (crate `regex`): `is_match` and the groups of `captures` -/
structure Regex where
  isMatch : String → Bool
  captures : String → Option (List (Option String))

/-- library functions the built-ins call -/
structure Lib where
  upper : String → String
  lower : String → String
  /-- `Regex::new` -/
  regex : String → Option Regex
  /-- `strsim::normalized_damerau_levenshtein` followed by `Decimal::from_f64(..).unwrap_or(0)` -/
  similarity : String → String → Rat
  /-- `Decimal::to_string` -/
  showNum : Rat → String
  /-- `Decimal::from_str_exact` or else `Decimal::from_scientific` -/
  readNum : String → Option Rat
  /-- `fastrand::i64(0..=upper)` for a non-empty range -/
  random : Int → Int
  /-- `VmDate::new` / `VmDate::now` with an optional time zone name; an unknown zone is `none` -/
  mkDate : Option Val → Option String → Option (Option Int)

/-! ### Arguments (functions/arguments.rs) -/

/-- `var` (arguments.rs:23-26) -/
def argVar (args : List Val) (i : Nat) : Res Val :=
  match args[i]? with
  | some v => .ok v
  | none => .error (.err "Argument out of bounds")

/-- `str` (arguments.rs:43-56) -/
def argStr (args : List Val) (i : Nat) : Res String :=
  match args[i]? with
  | some (.str s) => .ok s
  | _ => .error (.err "Argument is not a string")

/-- `ostr` (arguments.rs:43-51) -/
def argOStr (args : List Val) (i : Nat) : Res (Option String) :=
  match args[i]? with
  | some (.str s) => .ok (some s)
  | none => .ok none
  | some _ => .error (.err "Argument is not a string")

/-- `onumber` (arguments.rs:58-66) -/
def argONum (args : List Val) (i : Nat) : Res (Option Rat) :=
  match args[i]? with
  | some (.num n) => .ok (some n)
  | none => .ok none
  | some _ => .error (.err "Argument is not a number")

/-- `number` (arguments.rs:68-71) -/
def argNum (args : List Val) (i : Nat) : Res Rat :=
  match args[i]? with
  | some (.num n) => .ok n
  | _ => .error (.err "Argument is not a number")

/-- `array` (arguments.rs:73-86) -/
def argArr (args : List Val) (i : Nat) : Res (List Val) :=
  match args[i]? with
  | some (.arr xs) => .ok xs
  | _ => .error (.err "Argument is not an array")

/-- `object` (arguments.rs:88-104) -/
def argObj (args : List Val) (i : Nat) : Res (List (String × Val)) :=
  match args[i]? with
  | some (.obj m) => .ok m
  | _ => .error (.err "Argument is not an object")

/-- `Variable::type_name` (core/types/src/variable/mod.rs:167-177) -/
def typeName : Val → String
  | .null => "null"
  | .bool _ => "bool"
  | .num _ => "number"
  | .str _ => "string"
  | .arr _ => "array"
  | .obj _ => "object"
  | .dyn (.date _) => "date"
  | .dyn (.interval _ _ _ _) => "interval"

/-! ### Strings -/

/-- `starts_with` (internal.rs:387-392) -/
def startsWith (args : List Val) : Res Val := do
  let a ← argStr args 0
  let b ← argStr args 1
  return .bool (b.toList.isPrefixOf a.toList)

/-- `ends_with` (internal.rs:394-399) -/
def endsWith (args : List Val) : Res Val := do
  let a ← argStr args 0
  let b ← argStr args 1
  return .bool (b.toList.isSuffixOf a.toList)

/-- `matches` (internal.rs:401-408) -/
def matches_ (L : Lib) (args : List Val) : Res Val := do
  let a ← argStr args 0
  let b ← argStr args 1
  match L.regex b with
  | none => .error (.err "Invalid regular expression")
  | some r => return .bool (r.isMatch a)

/-- `upper` (internal.rs:410-413) -/
def upper (L : Lib) (args : List Val) : Res Val := do
  let a ← argStr args 0
  return .str (L.upper a)

/-- `lower` (internal.rs:415-418) -/
def lower (L : Lib) (args : List Val) : Res Val := do
  let a ← argStr args 0
  return .str (L.lower a)

/-- `str::trim` -/
def trimC (s : List Char) : List Char :=
  (((s.dropWhile Bytes.isWs).reverse).dropWhile Bytes.isWs).reverse

/-- `trim` (internal.rs:420-423) -/
def trim (args : List Val) : Res Val := do
  let a ← argStr args 0
  return .str (String.ofList (trimC a.toList))

/-- `extract` (internal.rs:425-444): the groups that took part in the match -/
def extract (L : Lib) (args : List Val) : Res Val := do
  let a ← argStr args 0
  let b ← argStr args 1
  match L.regex b with
  | none => .error (.err "Invalid regular expression")
  | some r => return .arr (((r.captures a).getD []).filterMap fun c => c.map Val.str)

/-- `str::split` with a non-empty separator; `cur` is the part collected so far, reversed. The skip
counter passes over the rest of a separator that was found. -/
def splitGo (sep : List Char) : List Char → Nat → List Char → List (List Char)
  | [], _, cur => [cur.reverse]
  | _ :: r, skip + 1, cur => splitGo sep r skip cur
  | c :: r, 0, cur =>
    if sep.isPrefixOf (c :: r) then cur.reverse :: splitGo sep r (sep.length - 1) []
    else splitGo sep r 0 (c :: cur)

/-- `str::split`: an empty separator splits before and after every character -/
def splitC (s sep : List Char) : List (List Char) :=
  if sep = [] then [] :: (s.map fun c => [c]) ++ [[]] else splitGo sep s 0 []

/-- `split` (internal.rs:446-457) -/
def split (args : List Val) : Res Val := do
  let a ← argStr args 0
  let b ← argStr args 1
  return .arr ((splitC a.toList b.toList).map fun p => .str (String.ofList p))

/-- `fuzzy_match` (internal.rs:837-867) -/
def fuzzyMatch (L : Lib) (args : List Val) : Res Val := do
  let a ← argVar args 0
  let b ← argStr args 1
  match a with
  | .str a => return .num (L.similarity a b)
  | .arr xs => match allStrs xs with
    | none => .error (.err "Expected string array")
    | some ss => return .arr (ss.map fun s => .num (L.similarity s b))
  | _ => .error (.err "Fuzzy match not available for type")

/-! ### Arrays and objects -/

/-- `flatten` (internal.rs:459-473); the loop is `flattenV` -/
def flatten (args : List Val) : Res Val := do
  let xs ← argArr args 0
  return .arr (flattenV xs)

/-- entry by entry insertion into a map, as in the loops of internal.rs:517-519 and 558-560 -/
def insertAll (m : List (String × Val)) (es : List (String × Val)) : List (String × Val) :=
  es.foldl (fun m e => aSet m e.1 e.2) m

/-- the loop of `merge` over arrays (internal.rs:497-506) -/
def mergeArrs : List Val → List Val → Res (List Val)
  | acc, [] => .ok acc
  | acc, .arr ys :: r => mergeArrs (acc ++ ys) r
  | acc, .null :: r => mergeArrs acc r
  | _, _ :: _ => .error (.err "Expected array of arrays")

/-- the loop of `merge` over objects (internal.rs:513-525) -/
def mergeObjs : List (String × Val) → List Val → Res (List (String × Val))
  | acc, [] => .ok acc
  | acc, .obj m :: r => mergeObjs (insertAll acc m) r
  | acc, .null :: r => mergeObjs acc r
  | _, _ :: _ => .error (.err "Expected array of objects")

/-- `merge` (internal.rs:475-531) -/
def merge (args : List Val) : Res Val := do
  let xs ← argArr args 0
  match xs.find? (fun v => !v.isNull) with
  | none => return .obj []
  | some (.arr _) => return .arr (← mergeArrs [] xs)
  | some (.obj _) => return .obj (← mergeObjs [] xs)
  | some _ => .error (.err "merge expects an array of arrays or objects")

mutual
/-- `deep_merge_variables` (internal.rs:551-582) -/
def deepV : Val → Val → Val
  | base, .obj b => match base with
    | .obj a => .obj (deepE (insertAll [] a) b)
    | _ => .obj b
  | base, .arr b => match base with
    | .arr a => .arr (a ++ b)
    | _ => .arr b
  | _, .null => .null
  | _, .bool b => .bool b
  | _, .num n => .num n
  | _, .str s => .str s
  | _, .dyn d => .dyn d
/-- its loop over the entries of the patch (internal.rs:562-568) -/
def deepE (m : List (String × Val)) : List (String × Val) → List (String × Val)
  | [] => m
  | (k, v) :: r =>
    deepE (aSet m k (match aGet m k with | some old => deepV old v | none => v)) r
end

/-- the loop of `merge_deep` (internal.rs:538-546) -/
def mergeDeepGo : Val → List Val → Res Val
  | acc, [] => .ok acc
  | acc, .obj m :: r => mergeDeepGo (deepV acc (.obj m)) r
  | acc, .null :: r => mergeDeepGo acc r
  | _, _ :: _ => .error (.err "Expected array of objects")

/-- `merge_deep` (internal.rs:533-549) -/
def mergeDeep (args : List Val) : Res Val := do
  let xs ← argArr args 0
  mergeDeepGo (.obj []) xs

/-- `keys` (internal.rs:869-897) -/
def keys (args : List Val) : Res Val := do
  match ← argVar args 0 with
  | .arr xs => return .arr ((List.range xs.length).map fun (i : Nat) => Val.num i)
  | .obj m => return .arr (m.map fun e => .str e.1)
  | _ => .error (.err "Cannot determine keys")

/-- `values` (internal.rs:899-905) -/
def values (args : List Val) : Res Val := do
  let m ← argObj args 0
  return .arr (m.map Prod.snd)

/-- `len` (internal.rs:792-806) -/
def len (args : List Val) : Res Val := do
  match ← argVar args 0 with
  | .str s => return .num (Zen.byteLen s)
  | .arr xs => return .num xs.length
  | _ => .error (.err "Cannot determine len")

/-- does the second list occur in the first (`str::contains`) -/
def hasInfix (needle : List Char) : List Char → Bool
  | [] => needle.isEmpty
  | c :: r => needle.isPrefixOf (c :: r) || hasInfix needle r

/-- comparison of an element with the value looked for (internal.rs:817-823) -/
def elemEq : Val → Val → Bool
  | .num a, .num b => decide (a = b)
  | .str a, .str b => a == b
  | .bool a, .bool b => a == b
  | .null, .null => true
  | _, _ => false

/-- `contains` (internal.rs:808-835) -/
def contains (args : List Val) : Res Val := do
  let a ← argVar args 0
  let b ← argVar args 1
  match a, b with
  | .str a, .str b => return .bool (hasInfix b.toList a.toList)
  | .arr xs, b => return .bool (xs.any fun x => elemEq x b)
  | _, _ => .error (.err "Cannot determine contains")

/-! ### Numbers -/

/-- `__internal_number_array` without the argument access (internal.rs:348-351) -/
def allNums : List Val → Option (List Rat)
  | [] => some []
  | .num n :: r => (allNums r).map (n :: ·)
  | _ :: _ => none

/-- the dates of an array (internal.rs:374-382) -/
def allDates : List Val → Option (List (Option Int))
  | [] => some []
  | .dyn (.date d) :: r => (allDates r).map (d :: ·)
  | _ :: _ => none

/-- `__internal_number_array` (internal.rs:344-352) -/
def numArray (args : List Val) (i : Nat) : Res (List Rat) := do
  let xs ← argArr args i
  match allNums xs with
  | some ns => return ns
  | none => .error (.err "Expected a number array")

/-- `__internal_number_or_date_array` (internal.rs:359-385): the first element decides -/
def numOrDateArray (args : List Val) (i : Nat) : Res (List Rat ⊕ List (Option Int)) := do
  let xs ← argArr args i
  match xs with
  | .num _ :: _ => match allNums xs with
    | some ns => return .inl ns
    | none => .error (.err "Expected a number array")
  | _ => match allDates xs with
    | some ds => return .inr ds
    | none => .error (.err "Expected a number array")

/-- `Iterator::min` on numbers -/
def minNum : List Rat → Option Rat
  | [] => none
  | x :: r => some (r.foldl (fun m y => if y < m then y else m) x)

/-- `Iterator::max` on numbers: of equal elements the last -/
def maxNum : List Rat → Option Rat
  | [] => none
  | x :: r => some (r.foldl (fun m y => if y < m then m else y) x)

/-- `Iterator::min` on dates -/
def minDate : List (Option Int) → Option (Option Int)
  | [] => none
  | x :: r => some (r.foldl (fun m y => if dateLt y m then y else m) x)

/-- `Iterator::max` on dates -/
def maxDate : List (Option Int) → Option (Option Int)
  | [] => none
  | x :: r => some (r.foldl (fun m y => if dateLt y m then m else y) x)

/-- `min` (internal.rs:632-645) -/
def min (args : List Val) : Res Val := do
  match ← numOrDateArray args 0 with
  | .inl ns => match minNum ns with
    | some m => return .num m
    | none => .error (.err "Empty array")
  | .inr ds => match minDate ds with
    | some d => return .dyn (.date d)
    | none => .error (.err "Empty array")

/-- `max` (internal.rs:647-660) -/
def max (args : List Val) : Res Val := do
  match ← numOrDateArray args 0 with
  | .inl ns => match maxNum ns with
    | some m => return .num m
    | none => .error (.err "Empty array")
  | .inr ds => match maxDate ds with
    | some d => return .dyn (.date d)
    | none => .error (.err "Empty array")

/-- `try_fold` with `checked_add` (internal.rs:664-667, 677-680) -/
def sumFrom (D : Dec.Rounding) : Rat → List Rat → Option Rat
  | acc, [] => some acc
  | acc, x :: r => (D.add acc x).bind fun a => sumFrom D a r

/-- `sum` (internal.rs:675-683) -/
def sum (D : Dec.Rounding) (args : List Val) : Res Val := do
  let ns ← numArray args 0
  match sumFrom D 0 ns with
  | some s => return .num s
  | none => .error (.err "Number overflow")

/-- `avg` (internal.rs:662-673) -/
def avg (D : Dec.Rounding) (args : List Val) : Res Val := do
  let ns ← numArray args 0
  match sumFrom D 0 ns with
  | none => .error (.err "Number overflow")
  | some s => match D.div s ns.length with
    | some q => return .num q
    | none => .error (.err "Empty array")

/-- `median` (internal.rs:685-703) after sorting. For an empty array `center - 1` underflows: a panic
with overflow checks, otherwise an index nothing is stored at. The operator `/` panics where
`checked_div` fails. -/
def medianOf (D : Dec.Rounding) (checks : Bool) (a : List Rat) : Res Val :=
  let center := a.length / 2
  if a.length % 2 = 1 then
    match a[center]? with
    | some n => .ok (.num n)
    | none => .error (.err "Index out of bounds")
  else if center = 0 then
    if checks then .error .panic else .error (.err "Index out of bounds")
  else match a[center - 1]? with
    | none => .error (.err "Index out of bounds")
    | some l => match a[center]? with
      | none => .error (.err "Index out of bounds")
      | some r => match D.add l r with
        | none => .error (.err "Number overflow")
        | some s => match D.div s 2 with
          | some q => .ok (.num q)
          | none => .error .panic

/-- `median` (internal.rs:685-703) -/
def median (D : Dec.Rounding) (checks : Bool) (args : List Val) : Res Val := do
  let ns ← numArray args 0
  medianOf D checks (ns.insertionSort (· ≤ ·))

/-- `*counts.entry(num).or_insert(0) += 1` on the entries of a `BTreeMap` in key order -/
def bump : List (Rat × Nat) → Rat → List (Rat × Nat)
  | [], n => [(n, 1)]
  | (k, c) :: r, n =>
    if n < k then (n, 1) :: (k, c) :: r
    else if n = k then (k, c + 1) :: r
    else (k, c) :: bump r n

/-- `max_by_key(|&(_, count)| count)`: the last of the entries with the highest count -/
def maxByCount : List (Rat × Nat) → Option (Rat × Nat)
  | [] => none
  | e :: r => some (r.foldl (fun m y => if y.2 < m.2 then m else y) e)

/-- `mode` (internal.rs:705-719) -/
def mode (args : List Val) : Res Val := do
  let ns ← numArray args 0
  match maxByCount (ns.foldl bump []) with
  | some (n, _) => return .num n
  | none => .error (.err "Empty array")

/-- `abs` (internal.rs:584-587) -/
def abs (args : List Val) : Res Val := do
  let n ← argNum args 0
  return .num |n|

/-- `ceil` (internal.rs:589-592) -/
def ceil (args : List Val) : Res Val := do
  let n ← argNum args 0
  return .num (⌈n⌉ : Int)

/-- `floor` (internal.rs:594-597) -/
def floor (args : List Val) : Res Val := do
  let n ← argNum args 0
  return .num (⌊n⌋ : Int)

/-- `round_dp_with_strategy(dp, MidpointAwayFromZero)` -/
def roundAway (n : Rat) (dp : Nat) : Rat :=
  if n < 0 then -((⌊-n * 10 ^ dp + 1 / 2⌋ : Int) / 10 ^ dp)
  else (⌊n * 10 ^ dp + 1 / 2⌋ : Int) / 10 ^ dp

/-- `trunc_with_scale(dp)` -/
def truncDp (n : Rat) (dp : Nat) : Rat :=
  if n < 0 then -((⌊-n * 10 ^ dp⌋ : Int) / 10 ^ dp)
  else (⌊n * 10 ^ dp⌋ : Int) / 10 ^ dp

/-- the optional number of decimal places (internal.rs:601-605, 615-619) -/
def decimalPlaces (args : List Val) (i : Nat) : Res Nat := do
  match ← argONum args i with
  | none => return 0
  | some n => match toU32 n with
    | some k => return k
    | none => .error (.err "Invalid number of decimal places")

/-- `round` (internal.rs:599-611) -/
def round (args : List Val) : Res Val := do
  let n ← argNum args 0
  let dp ← decimalPlaces args 1
  return .num (roundAway n dp)

/-- `trunc` (internal.rs:613-622) -/
def trunc (args : List Val) : Res Val := do
  let n ← argNum args 0
  let dp ← decimalPlaces args 1
  return .num (truncDp n dp)

/-- `rand` (internal.rs:624-630). `fastrand::i64` panics on an empty range. -/
def rand (L : Lib) (args : List Val) : Res Val := do
  let n ← argNum args 0
  match toI64 (Dec.halfEven n) with
  | none => .error (.err "Invalid upper range")
  | some u => if 0 ≤ u then return .num (L.random u) else .error .panic

/-! ### Types -/

/-- `to_type` (internal.rs:721-724) -/
def toType (args : List Val) : Res Val := do
  let a ← argVar args 0
  return .str (typeName a)

/-- the value computed by `to_bool` (internal.rs:728-738) -/
def boolOf : Val → Bool
  | .null => false
  | .bool b => b
  | .num n => !decide (n = 0)
  | .str s =>
    if trimC s.toList = "true".toList then true
    else if trimC s.toList = "false".toList then false
    else s.toList.isEmpty
  | _ => true

/-- `to_bool` (internal.rs:726-741) -/
def toBool (args : List Val) : Res Val := do
  let a ← argVar args 0
  return .bool (boolOf a)

/-- `to_string` (internal.rs:743-754) -/
def toString (L : Lib) (args : List Val) : Res Val := do
  match ← argVar args 0 with
  | .null => return .str "null"
  | .bool b => return .str (if b then "true" else "false")
  | .num n => return .str (L.showNum n)
  | .str s => return .str s
  | _ => .error (.err "Cannot convert to string")

/-- `to_number` (internal.rs:756-774) -/
def toNumber (L : Lib) (args : List Val) : Res Val := do
  match ← argVar args 0 with
  | .num n => return .num n
  | .str s => match L.readNum (String.ofList (trimC s.toList)) with
    | some n => return .num n
    | none => .error (.err "Invalid number")
  | .bool b => return .num (if b then 1 else 0)
  | _ => .error (.err "Cannot convert to number")

/-- `is_numeric` (internal.rs:776-790) -/
def isNumeric (L : Lib) (args : List Val) : Res Val := do
  match ← argVar args 0 with
  | .num _ => return .bool true
  | .str s => return .bool (L.readNum (String.ofList (trimC s.toList))).isSome
  | _ => return .bool false

/-- `date` (internal.rs:907-920) -/
def date (L : Lib) (args : List Val) : Res Val := do
  let tz ← argOStr args 1
  match L.mkDate args[0]? tz with
  | some d => return .dyn (.date d)
  | none => .error (.err "Invalid timezone")

/-- `enum InternalFunction` (internal.rs:9-54) -/
inductive Name where
  | len | contains | flatten | merge | mergeDeep
  | upper | lower | trim | startsWith | endsWith | matches_ | extract | fuzzyMatch | split
  | abs | sum | avg | min | max | rand | median | mode | floor | ceil | round | trunc
  | isNumeric | string | number | bool | type | keys | values | date
deriving DecidableEq, Repr

/-- the `implementation` of every function (internal.rs:57-325) -/
def call (L : Lib) (D : Dec.Rounding) (checks : Bool) : Name → List Val → Res Val
  | .len => len
  | .contains => contains
  | .flatten => flatten
  | .merge => merge
  | .mergeDeep => mergeDeep
  | .upper => upper L
  | .lower => lower L
  | .trim => trim
  | .startsWith => startsWith
  | .endsWith => endsWith
  | .matches_ => matches_ L
  | .extract => extract L
  | .fuzzyMatch => fuzzyMatch L
  | .split => split
  | .abs => abs
  | .sum => sum D
  | .avg => avg D
  | .min => min
  | .max => max
  | .rand => rand L
  | .median => median D checks
  | .mode => mode
  | .floor => floor
  | .ceil => ceil
  | .round => round
  | .trunc => trunc
  | .isNumeric => isNumeric L
  | .string => toString L
  | .number => toNumber L
  | .bool => toBool
  | .type => toType
  | .keys => keys
  | .values => values
  | .date => date L

end Fn
end Zen
