import Verif.Policy.ParseModel
import Verif.Core.Dot
import Verif.Types.VType
/-
From the document of a policy to its blocks that compute: `parse` of expressions, matches, assertions and decision
tables with the declared types of output columns (core/engine/src/policy/blocks/expression.rs, match_block.rs,
assertion.rs, decision_table.rs, mod.rs).
Texts are lists of characters. A diagnostic is its severity, its code and its place in the block; the message, the
path of the policy and the id of the block are left out. The cells of a rule are handed on as they are.
-/
namespace Zen.PB
open Zen Zen.Doc

/-- the codes used here (`DiagnosticCode`) -/
inductive Code where
  | writePath | emptyBlock | maxDepth | typeMismatch
  deriving DecidableEq, Repr

/-- where a diagnostic is: at the block, at an expression of it, at its key, at the head of a column
(policy/blocks/mod.rs:81-150) -/
inductive Place where
  | block
  | key
  | expr (id : Str)
  | head (id : Str)
  deriving DecidableEq, Repr

structure Diag where
  error : Bool
  code : Code
  place : Place
  deriving DecidableEq, Repr

/-- `WriteTarget::validate_path` (policy/blocks/mod.rs:59-72): is it `Ok` -/
def validPath (path : Str) : Bool :=
  if path = [] then false
  else (splitDotC path).all fun segment => !segment.isEmpty && !segment.any isWs

/-- the target of an expression, a match or an assertion (expression.rs:51-65, match_block.rs:74-88,
assertion.rs:91-102) and its diagnostic; `place` is where an error is -/
def parseKey (place : Place) (doc : Str) : Str × List Diag :=
  let key := trimC doc
  if key = [] then (key, [⟨false, .writePath, .block⟩])
  else if validPath key then (key, [])
  else ([], [⟨true, .writePath, place⟩])

/-- `ExpressionDoc` and `ExpressionIr` (expression.rs:20-35) -/
structure Expression where
  key : Str
  value : Str
  deriving DecidableEq, Repr

/-- `ExpressionIr::parse` (expression.rs:37-78) -/
def parseExpression (doc : Expression) : Expression × List Diag :=
  let k := parseKey .key doc.key
  let value := trimC doc.value
  (⟨k.1, value⟩, k.2 ++ if value = [] then [⟨false, .emptyBlock, .block⟩] else [])

/-- `MatchArmDoc` and `MatchArm` (match_block.rs:37-59) -/
structure Arm where
  id : Str
  condition : Str
  value : Str
  deriving DecidableEq, Repr

/-- `MatchDoc` and `MatchIr` (match_block.rs:28-52) -/
structure Match where
  key : Str
  arms : List Arm
  deriving DecidableEq, Repr

/-- the loop over arms (match_block.rs:95-109) -/
def armStep (st : List Arm × List Diag) (arm : Arm) : List Arm × List Diag :=
  let value := trimC arm.value
  (st.1 ++ [⟨arm.id, trimC arm.condition, value⟩],
    st.2 ++ if value = [] then [⟨false, .emptyBlock, .expr arm.id⟩] else [])

/-- `MatchIr::parse` (match_block.rs:61-115) -/
def parseMatch (doc : Match) : Match × List Diag :=
  let k := parseKey .key doc.key
  let none := if doc.arms = [] then [⟨false, .emptyBlock, .block⟩] else []
  let r := doc.arms.foldl armStep ([], k.2 ++ none)
  (⟨k.1, r.1⟩, r.2)

/-- `ConditionDoc` and `AssertionCondition` (assertion.rs:29-62); the operator is a flag -/
structure Condition where
  id : Str
  expression : Str
  isAnd : Bool
  depth : Nat
  deriving DecidableEq, Repr

/-- `AssertionDoc` and `AssertionIr` (assertion.rs:22-54) -/
structure Assertion where
  output : Str
  conditions : List Condition
  deriving DecidableEq, Repr

/-- `MAX_RECURSION_DEPTH` (policy/mod.rs:3) -/
def maxDepth : Nat := 32

/-- the closure of assertion.rs:111-141 -/
def condStep (st : List Condition × List Diag) (c : Condition) : List Condition × List Diag :=
  let e := trimC c.expression
  if e = [] then (st.1, st.2 ++ [⟨false, .emptyBlock, .expr c.id⟩])
  else if maxDepth ≤ c.depth then (st.1, st.2 ++ [⟨true, .maxDepth, .expr c.id⟩])
  else (st.1 ++ [⟨c.id, e, c.isAnd, c.depth⟩], st.2)

/-- `AssertionIr::parse` (assertion.rs:78-148) -/
def parseAssertion (doc : Assertion) : Assertion × List Diag :=
  let k := parseKey .block doc.output
  let none := if doc.conditions = [] then [⟨true, .emptyBlock, .block⟩] else []
  let r := doc.conditions.foldl condStep ([], k.2 ++ none)
  (⟨k.1, r.1⟩, r.2)

/-! ### Decision tables -/

/-- `DeclaredBase` (decision_table.rs:113-120) -/
inductive Base where
  | string | number | bool | date
  | dictionary (name : Str)
  deriving DecidableEq, Repr

/-- `DeclaredType` (decision_table.rs:122-126) -/
structure Declared where
  base : Base
  array : Bool
  deriving DecidableEq, Repr

/-- `str::strip_suffix("[]")` -/
def stripList (s : Str) : Option Str :=
  if ['[', ']'].isSuffixOf s then some (s.take (s.length - 2)) else none

/-- the names of types (decision_table.rs:138-150); `none` is the error -/
def parseBase (raw : Str) : Option Base :=
  if raw = "string".toList then some .string
  else if raw = "number".toList then some .number
  else if raw = "boolean".toList then some .bool
  else if raw = "date".toList then some .date
  else if (validateIdentifier raw).isSome then none
  else some (.dictionary raw)

/-- `DeclaredType::parse` (decision_table.rs:129-153); the outer `none` is the error -/
def parseType (text : Str) : Option (Option Declared) :=
  let raw := trimC text
  if raw = [] then some none
  else match stripList raw with
    | some base => (parseBase (trimEndC base)).map fun b => some ⟨b, true⟩
    | none => (parseBase raw).map fun b => some ⟨b, false⟩

/-- `Display for DeclaredType` (decision_table.rs:170-184) -/
def Declared.show (d : Declared) : Str :=
  (match d.base with
    | .string => "string".toList
    | .number => "number".toList
    | .bool => "boolean".toList
    | .date => "date".toList
    | .dictionary n => n) ++ if d.array then ['[', ']'] else []

/-- `DeclaredType::resolve` (decision_table.rs:155-167) -/
def Declared.resolve (d : Declared) (dictionaries : Str → Option VT) : Option VT :=
  let base : Option VT := match d.base with
    | .string => some .string
    | .number => some .number
    | .bool => some .bool
    | .date => some .date
    | .dictionary n => dictionaries n
  base.map fun b => if d.array then .arr b else b

/-- `DecisionTableOutputField` (types/src/decision/mod.rs:137-151), without its name -/
structure OutDoc where
  id : Str
  field : Str
  type : Option Str
  deriving DecidableEq, Repr

/-- `OutputColumn` (decision_table.rs:104-111) -/
structure OutCol where
  id : Str
  field : Str
  rawField : Str
  collect : Bool
  declared : Option Declared
  deriving DecidableEq, Repr

/-- `str::contains("[]")` -/
def hasList : Str → Bool
  | [] => false
  | c :: r => ['[', ']'].isPrefixOf (c :: r) || hasList r

/-- the path and the flag of an output field (decision_table.rs:233-237) -/
def splitField (raw : Str) (collectAll : Bool) : Str × Bool :=
  match stripList raw with
  | some s => (trimEndC s, true)
  | none => (raw, collectAll)

/-- `parse_output_column` (decision_table.rs:228-294) -/
def parseColumn (collectAll : Bool) (col : OutDoc) : OutCol × List Diag :=
  let raw := trimC col.field
  let p := splitField raw collectAll
  let f : Str × List Diag :=
    if raw = [] then ([], [⟨false, .writePath, .expr col.id⟩])
    else if p.1 = [] then ([], [⟨true, .writePath, .expr col.id⟩])
    else if hasList p.1 then ([], [⟨true, .writePath, .expr col.id⟩])
    else if validPath p.1 then (p.1, [])
    else ([], [⟨true, .writePath, .expr col.id⟩])
  let t : Option Declared × List Diag :=
    match parseType (col.type.getD []) with
    | some d => (d, [])
    | none => (none, [⟨true, .typeMismatch, .head col.id⟩])
  (⟨col.id, f.1, raw, p.2, t.1⟩, f.2 ++ t.2)

/-- `DecisionTableInputField` (types/src/decision/mod.rs:127-135) -/
structure InCol where
  id : Str
  name : Str
  field : Option Str
  deriving DecidableEq, Repr

/-- `DecisionTableIr::parse` (decision_table.rs:187-226) for cells of any type -/
def parseTable {R : Type} (collectAll : Bool) (inputs : List InCol) (outputs : List OutDoc) (rules : List R) :
    (List InCol × List OutCol × List R) × List Diag :=
  let empty := if rules.isEmpty then [⟨false, .emptyBlock, .block⟩] else []
  let ins := inputs.map fun c => { c with field := c.field.map trimC, name := trimC c.name }
  let outs := outputs.foldl (fun st c => let r := parseColumn collectAll c; (st.1 ++ [r.1], st.2 ++ r.2)) ([], empty)
  ((ins, outs.1, rules), outs.2)

end Zen.PB
