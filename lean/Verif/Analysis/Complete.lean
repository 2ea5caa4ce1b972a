import Verif.Core.Bytes
import Verif.Types.VType
import Verif.Builtins.Registry
/-
What an editor is offered at a position of an expression, and what it is shown there
(core/expression/src/intellisense/completion.rs and inspection.rs).

Simplifications: a completion is its label, kind, boost and the type a method is for; the texts `detail` and
`info`, which are only shown, are left out. The tables of the Rust standard library for `char::is_alphanumeric`
and `str::to_lowercase` are parameters. The fields of an object type come in the order of its list; in the code
they come in the order of a hash map. The length of a token is a difference of natural numbers, 0 where that of
the code would overflow (spans of the parser do not end before they start).
-/
namespace Zen.Comp
open Zen.Bytes

/-- the parts of Unicode that are used: `char::is_alphanumeric` (completion.rs:182, 207) and
`str::to_lowercase` (completion.rs:194, 197) -/
structure Uni where
  alnum : Char → Bool
  lower : List Char → List Char

/-- `CompletionKind` (completion.rs:11-18) -/
inductive Kind where
  | variable
  | function
  | method
  | property
deriving DecidableEq

/-- `Completion` (completion.rs:20-31) -/
structure Item where
  label : String
  kind : Kind
  boost : Option Int
  methodFor : Option VT

/-- `IntelliSenseToken` (intellisense/mod.rs): its span and type -/
structure Tok where
  lo : Nat
  hi : Nat
  kind : VT

/-- a character of a word (completion.rs:182) -/
def word (u : Uni) (c : Char) : Bool := u.alnum c || c == '_' || c == '$' || c == '#'

/-- a character of a property (completion.rs:207) -/
def propChar (u : Uni) (c : Char) : Bool := u.alnum c || c == '_' || c == '#'

/-- `str::rfind` with a predicate: the offset of the last character with it, and the character -/
def rfind (p : Char → Bool) (s : List Char) : Option (Nat × Char) :=
  ((Bytes.charIndices 0 s).filter fun x => p x.2).getLast?

/-- `extract_prefix` (completion.rs:180-187). `none` is a panic: the offset behind the last character that
is not of a word is taken to be one byte behind its start. -/
def extractPrefix (u : Uni) (before : List Char) : Option (List Char) :=
  Bytes.dropBytes before (match rfind (fun c => !word u c) before with
    | some (i, _) => i + 1
    | none => 0)

/-- `str::trim_end` -/
def trimEnd (s : List Char) : List Char := (s.reverse.dropWhile isWs).reverse

/-- `find_property_dot` (completion.rs:201-212). That the byte at the start of a character is that of a dot is
that the character is a dot. -/
def findDot (u : Uni) (before : List Char) : Option Nat :=
  let t := trimEnd before
  if t.getLast? = some '.' then some (Bytes.byteLen t - 1)
  else match rfind (fun c => !propChar u c) t with
    | some (i, c) => if c = '.' then some i else none
    | none => none

/-- the order by which the token before the dot is chosen (completion.rs:50-55): `b` is not before `a` -/
def notAfter (a b : Tok) : Bool :=
  decide (a.hi < b.hi) || (decide (a.hi = b.hi) && decide (a.hi - a.lo ≤ b.hi - b.lo))

/-- one step of `Iterator::max_by`, which keeps the last of the greatest -/
def keepLast (best : Option Tok) (t : Tok) : Option Tok :=
  match best with
  | none => some t
  | some b => if notAfter b t then some t else some b

/-- the type in front of the dot (completion.rs:46-57) -/
def target (tokens : List Tok) (dot : Nat) : VT :=
  match (tokens.filter fun t => decide (t.hi ≤ dot) && decide (0 < t.hi)).foldl keepLast none with
  | some t => t.kind
  | none => .any

/-- the fields of an object, also of one that may be missing (completion.rs:69-86, 107-124) -/
def fields (kind : Kind) (boost : Int) (t : VT) : List Item :=
  match t.unwrap.1 with
  | .obj o => o.map fun f => ⟨f.1, kind, some boost, none⟩
  | _ => []

/-- `method` (completion.rs:165-178, 473-479). The first parameter of every method is a date
(date_method.rs:82-184, 312-323, 346-349). -/
def method (m : Fn.MName) : Item := ⟨m.text, .method, none, some .date⟩

/-- `build_property` (completion.rs:67-102) -/
def buildProperty (t : VT) : List Item :=
  fields .property 10 t ++
    Fn.MName.all.flatMap fun m =>
      if t.sat .date || (match t with | .any => true | _ => false) then [method m] else []

/-- the closures by name (functions/mod.rs:47-58) -/
def closures : List String := ["all", "none", "some", "one", "filter", "map", "flatMap", "count"]

/-- `build_scope` (completion.rs:104-143, 145-163) -/
def buildScope (data : VT) : List Item :=
  fields .variable 20 data ++ ⟨"$root", .variable, some (-10), none⟩ ::
    (Fn.Name.all.map (fun f => ⟨f.text, .function, some 10, none⟩) ++
      closures.map fun f => ⟨f, .function, none, none⟩)

/-- `filter` (completion.rs:189-199) -/
def keep (u : Uni) (items : List Item) (pre : List Char) : List Item :=
  if pre = [] then items
  else items.filter fun i => (u.lower pre).isPrefixOf (u.lower i.label.toList)

/-- `Completions::build` (completion.rs:36-64); `none` is a panic -/
def build (u : Uni) (source : List Char) (pos : Nat) (data : VT) (tokens : List Tok) : Option (List Item) :=
  let before := (Bytes.takeBytes source pos).getD source
  match extractPrefix u before with
  | none => none
  | some pre =>
    some (keep u (match findDot u before with
      | some dot => buildProperty (target tokens dot)
      | none => buildScope data) pre)

/-- `completions` (intellisense/mod.rs:83-96) for the tokens of `type_check`, `none` if the source is not read -/
def completions (u : Uni) (source : List Char) (pos : Nat) (data : VT) (checked : Option (List Tok)) :
    Option (List Item) :=
  match checked with
  | none => some (buildScope data)
  | some tokens => build u source pos data tokens

/-- `function_param_names` (completion.rs:315-350) for the functions -/
def paramNames : Fn.Name → List String
  | .len => ["var"]
  | .contains | .fuzzyMatch => ["haystack", "needle"]
  | .flatten => ["arr"]
  | .upper | .lower | .trim => ["str"]
  | .startsWith => ["str", "prefix"]
  | .endsWith => ["str", "suffix"]
  | .matches_ | .extract => ["str", "pattern"]
  | .split => ["str", "delimiter"]
  | .abs | .floor | .ceil => ["num"]
  | .sum | .avg | .min | .max | .median | .mode => ["arr"]
  | .rand => ["max"]
  | .round | .trunc => ["num", "digits"]
  | .isNumeric | .string | .number | .bool | .type => ["value"]
  | .keys | .values => ["obj"]
  | .date => ["dateOrTimezone", "timezone"]
  | .merge | .mergeDeep => ["objects"]

/-- `method_param_names` (completion.rs:454-471) -/
def methodNames : Fn.MName → List String
  | .add | .sub => ["amount", "unit"]
  | .set => ["value", "unit"]
  | .format => ["format"]
  | .startOf | .endOf => ["unit"]
  | .diff => ["otherDate", "unit"]
  | .tz => ["timezone"]
  | .compare _ => ["otherDate", "unit"]
  | .get _ => []

/-- the names in a signature: those of the table, `var` for what it lacks, and whether the parameter may be left
out (completion.rs:376-385, 480-490); `total` and `required` are those of the definition -/
def shownParams (names : List String) (skip required total : Nat) : List (String × Bool) :=
  ((List.range total).drop skip).map fun i => ((names[i - skip]?).getD "var", decide (required ≤ i))

/-- the parameters shown for a function (completion.rs:368-393) -/
def functionParams (f : Fn.Name) : List (String × Bool) := shownParams (paramNames f) 0 f.arity.1 f.arity.2

/-- the parameters shown for a method, without the date itself (completion.rs:473-500) -/
def methodParams (m : Fn.MName) : List (String × Bool) := shownParams (methodNames m) 1 m.arity.1 m.arity.2

/-- `InspectionResult` (inspection.rs:5-11) -/
structure Shown where
  lo : Nat
  hi : Nat
  kind : VT
  label : List Char

/-- one step of `Iterator::min_by_key`, which keeps the first of the least -/
def keepFirst (best : Option Tok) (t : Tok) : Option Tok :=
  match best with
  | none => some t
  | some b => if t.hi - t.lo < b.hi - b.lo then some t else some b

/-- `inspect_at` (inspection.rs:13-33) -/
def inspectAt (source : List Char) (pos : Nat) (tokens : List Tok) : Option Shown :=
  match (tokens.filter fun t => decide (t.lo ≤ pos) && decide (pos ≤ t.hi) && decide (t.lo < t.hi)).foldl
      keepFirst none with
  | none => none
  | some t => some ⟨t.lo, t.hi, t.kind, (Bytes.slice source t.lo t.hi).getD []⟩

end Zen.Comp
