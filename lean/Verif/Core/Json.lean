import Verif.Core.Val
import Verif.Core.MapLemmas
/-
Conversion between JSON documents and values (core/types/src/variable/conv.rs), and reading a
value directly from a deserializer (core/types/src/variable/de.rs).

* A JSON document is a tree; its objects are lists of entries with distinct keys (`Json.Wf`), its numbers are of a type
  `N` (`serde_json::Number`).
* The number libraries are parameters (`NumLib`): what a number's value is, and what the parsers and the printer give.
-/
namespace Zen

/-- `serde_json::Value` -/
inductive Json (N : Type) where
  | null
  | bool (b : Bool)
  | num (n : N)
  | str (s : String)
  | arr (xs : List (Json N))
  | obj (m : List (String × Json N))

/-- the functions of `serde_json` and `rust_decimal` that the conversion calls -/
structure NumLib (N : Type) where
  /-- the number that is written -/
  value : N → Rat
  /-- `Decimal::from_str_exact` of the text -/
  strExact : N → Option Rat
  /-- `Decimal::from_scientific` of the text -/
  scientific : N → Option Rat
  /-- `as_f64` and `Decimal::from_f64` -/
  viaFloat : N → Option Rat
  /-- `as_u64` -/
  asU64 : N → Option Rat
  /-- `as_i64` -/
  asI64 : N → Option Rat
  /-- `Number::from_string_unchecked` or `Number::from_str` of `n.normalize().to_string()` -/
  print : Rat → N

section
variable {N : Type} (lib : NumLib N) (ap : Bool)

/-- `decimal_from_number` (conv.rs:17-36); `ap`: built with `arbitrary_precision` -/
def decimalFromNumber (n : N) : Option Rat :=
  if ap then (lib.strExact n).orElse fun _ => (lib.scientific n).orElse fun _ => lib.viaFloat n
  else (lib.asU64 n).orElse fun _ => (lib.asI64 n).orElse fun _ => lib.viaFloat n

/-- collecting entries into a map -/
def ofEntries {α : Type} (m : List (String × α)) : List (String × α) := m.foldl (fun acc e => aSet acc e.1 e.2) []

mutual
/-- `Variable::try_from_value` (conv.rs:40-64); the error is `NumberOutOfRange` of the number -/
def Json.strict : Json N → Except N Val
  | .null => .ok .null
  | .bool b => .ok (.bool b)
  | .num n => match decimalFromNumber lib ap n with
    | some d => .ok (.num d)
    | none => .error n
  | .str s => .ok (.str s)
  | .arr xs => match Json.strictL xs with
    | .ok ys => .ok (.arr ys)
    | .error e => .error e
  | .obj m => match Json.strictE m with
    | .ok ys => .ok (.obj (ofEntries ys))
    | .error e => .error e
def Json.strictL : List (Json N) → Except N (List Val)
  | [] => .ok []
  | x :: xs => match Json.strict x with
    | .error e => .error e
    | .ok y => match Json.strictL xs with
      | .error e => .error e
      | .ok ys => .ok (y :: ys)
def Json.strictE : List (String × Json N) → Except N (List (String × Val))
  | [] => .ok []
  | (k, x) :: xs => match Json.strict x with
    | .error e => .error e
    | .ok y => match Json.strictE xs with
      | .error e => .error e
      | .ok ys => .ok ((k, y) :: ys)
end

mutual
/-- `From<Value> for Variable` (conv.rs:67-84) and `From<&Value> for Variable` (conv.rs:86-103) -/
def Json.lossy : Json N → Val
  | .null => .null
  | .bool b => .bool b
  | .num n => match decimalFromNumber lib ap n with
    | some d => .num d
    | none => .null
  | .str s => .str s
  | .arr xs => .arr (Json.lossyL xs)
  | .obj m => .obj (ofEntries (Json.lossyE m))
def Json.lossyL : List (Json N) → List Val
  | [] => []
  | x :: xs => Json.lossy x :: Json.lossyL xs
def Json.lossyE : List (String × Json N) → List (String × Val)
  | [] => []
  | (k, x) :: xs => (k, Json.lossy x) :: Json.lossyE xs
end

mutual
/-- `From<Variable> for Value` (conv.rs:152-198); `dyn` is `to_value` of a date or interval. Whether an array or object is
taken out of its cell or copied makes no difference to the result. -/
def Val.toJson (dyn : Dyn → Json N) : Val → Json N
  | .null => .null
  | .bool b => .bool b
  | .num n => .num (lib.print n)
  | .str s => .str s
  | .arr xs => .arr (Val.toJsonL dyn xs)
  | .obj m => .obj (ofEntries (Val.toJsonE dyn m))
  | .dyn d => dyn d
def Val.toJsonL (dyn : Dyn → Json N) : List Val → List (Json N)
  | [] => []
  | x :: xs => Val.toJson dyn x :: Val.toJsonL dyn xs
def Val.toJsonE (dyn : Dyn → Json N) : List (String × Val) → List (String × Json N)
  | [] => []
  | (k, x) :: xs => (k, Val.toJson dyn x) :: Val.toJsonE dyn xs
end

/-- `NUMBER_TOKEN` (core/types/src/constant.rs:2) -/
def numberToken : String := "$serde_json::private::Number"

/-- what a deserialization can report -/
inductive VisitErr (N : Type) where
  | outOfRange (n : N)
  | textOutOfRange (s : String)
  | badToken
  | trailing

mutual
/-- `VariableVisitor` (core/types/src/variable/de.rs:17-117) on a document, entries in the order of the text. With
`arbitrary_precision` a number arrives as a map whose first key is `NUMBER_TOKEN`; so does an object of the document that
has this key first: `text` reads the number out of a string. What follows such an entry is reported by `serde_json`. -/
def Json.visit (text : String → Option Rat) : Json N → Except (VisitErr N) Val
  | .null => .ok .null
  | .bool b => .ok (.bool b)
  | .num n => match decimalFromNumber lib ap n with
    | some d => .ok (.num d)
    | none => .error (.outOfRange n)
  | .str s => .ok (.str s)
  | .arr xs => match Json.visitL text xs with
    | .ok ys => .ok (.arr ys)
    | .error e => .error e
  | .obj [] => .ok (.obj [])
  | .obj ((k, x) :: m) => match Json.visit text x with
    | .error e => .error e
    | .ok y =>
      if ap && k == numberToken then
        match y with
        | .str s => match text s with
          | none => .error (.textOutOfRange s)
          | some d => if m.isEmpty then .ok (.num d) else .error .trailing
        | _ => .error .badToken
      else match Json.visitE text m with
        | .error e => .error e
        | .ok ys => .ok (.obj (ofEntries ((k, y) :: ys)))
def Json.visitL (text : String → Option Rat) : List (Json N) → Except (VisitErr N) (List Val)
  | [] => .ok []
  | x :: xs => match Json.visit text x with
    | .error e => .error e
    | .ok y => match Json.visitL text xs with
      | .error e => .error e
      | .ok ys => .ok (y :: ys)
def Json.visitE (text : String → Option Rat) : List (String × Json N) → Except (VisitErr N) (List (String × Val))
  | [] => .ok []
  | (k, x) :: xs => match Json.visit text x with
    | .error e => .error e
    | .ok y => match Json.visitE text xs with
      | .error e => .error e
      | .ok ys => .ok ((k, y) :: ys)
end

end
end Zen
