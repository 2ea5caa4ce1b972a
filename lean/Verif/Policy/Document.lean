import Verif.Core.Json
import Verif.Engine.Table
/-
Reading and writing the document of a policy: core/engine/src/policy/raw.rs with the documents of the blocks
(policy/blocks/assertion.rs, decision_table.rs, expression.rs, match_block.rs) and the columns of tables (types/src/decision/mod.rs).
JSON numbers are integers (the only number read is a depth; a fraction is refused like a number out of range). A map of cells is a list.
Left out: that a derived reader also takes a list of the fields in order for an object, and which error is reported.
-/
namespace Zen.PolicyDoc
open Zen

abbrev J := Json Int
abbrev Fields := List (String × J)

/-- a text -/
def rStr : J → Option String
  | .str s => some s
  | _ => none

/-- a flag -/
def rBool : J → Option Bool
  | .bool b => some b
  | _ => none

/-- `u32` -/
def rU32 : J → Option Nat
  | .num n => if 0 ≤ n ∧ n.toNat < 4294967296 then some n.toNat else none
  | _ => none

/-- all elements -/
def rAll {α : Type} (r : J → Option α) : List J → Option (List α)
  | [] => some []
  | x :: xs => do
    let a ← r x
    let as ← rAll r xs
    some (a :: as)

/-- `Vec` -/
def rList {α : Type} (r : J → Option α) : J → Option (List α)
  | .arr xs => rAll r xs
  | _ => none

/-- a field that has to be there -/
def req {α : Type} (r : J → Option α) (o : Fields) (k : String) : Option α := (aGet o k).bind r

/-- a field with `#[serde(default)]` -/
def opt {α : Type} (r : J → Option α) (d : α) (o : Fields) (k : String) : Option α :=
  match aGet o k with
  | none => some d
  | some v => r v

/-- a struct is read from an object -/
def rObj {α : Type} (r : Fields → Option α) : J → Option α
  | .obj o => r o
  | _ => none

/-- `ConditionOperatorDoc` (assertion.rs:39-44): is it `And` -/
def rOp : J → Option Bool
  | .str "and" => some true
  | .str "or" => some false
  | _ => none

/-- `ConditionDoc` (assertion.rs:29-37) -/
structure ConditionDoc where
  id : String
  expression : String
  isAnd : Bool
  depth : Nat
  deriving DecidableEq

def rCondition : Fields → Option ConditionDoc := fun o => do
  let id ← req rStr o "id"
  let expression ← req rStr o "expression"
  let op ← req rOp o "operator"
  let depth ← opt rU32 0 o "depth"
  some ⟨id, expression, op, depth⟩

def wCondition (c : ConditionDoc) : J :=
  .obj [("id", .str c.id), ("expression", .str c.expression), ("operator", .str (if c.isAnd then "and" else "or")), ("depth", .num c.depth)]

/-- `AssertionDoc` (assertion.rs:22-27) -/
structure AssertionDoc where
  output : String
  conditions : List ConditionDoc
  deriving DecidableEq

def rAssertion : Fields → Option AssertionDoc := fun o => do
  let output ← req rStr o "output"
  let conditions ← req (rList (rObj rCondition)) o "conditions"
  some ⟨output, conditions⟩

def wAssertion (d : AssertionDoc) : J := .obj [("output", .str d.output), ("conditions", .arr (d.conditions.map wCondition))]

/-- `ExpressionDoc` (expression.rs:20-27) -/
structure ExpressionDoc where
  key : String
  value : String
  deriving DecidableEq

def rExpression : Fields → Option ExpressionDoc := fun o => do
  let key ← opt rStr "" o "key"
  let value ← opt rStr "" o "value"
  some ⟨key, value⟩

def wExpression (d : ExpressionDoc) : J := .obj [("key", .str d.key), ("value", .str d.value)]

/-- `MatchArmDoc` (match_block.rs:37-45) -/
structure ArmDoc where
  id : String
  condition : String
  value : String
  deriving DecidableEq

def rArm : Fields → Option ArmDoc := fun o => do
  let id ← req rStr o "id"
  let condition ← opt rStr "" o "condition"
  let value ← opt rStr "" o "value"
  some ⟨id, condition, value⟩

def wArm (a : ArmDoc) : J := .obj [("id", .str a.id), ("condition", .str a.condition), ("value", .str a.value)]

/-- `MatchDoc` (match_block.rs:28-35) -/
structure MatchDoc where
  key : String
  arms : List ArmDoc
  deriving DecidableEq

def rMatch : Fields → Option MatchDoc := fun o => do
  let key ← opt rStr "" o "key"
  let arms ← opt (rList (rObj rArm)) [] o "arms"
  some ⟨key, arms⟩

def wMatch (d : MatchDoc) : J := .obj [("key", .str d.key), ("arms", .arr (d.arms.map wArm))]

/-- a text of white space only -/
def blank (s : String) : Bool := trimC s.toList = []

/-- `empty_string_is_none` (decision/mod.rs:234-250) -/
def rMaybe : J → Option (Option String)
  | .str s => some (if blank s then none else some s)
  | .null => some none
  | _ => none

def wMaybe : Option String → J
  | some s => .str s
  | none => .null

/-- `DecisionTableInputField` (decision/mod.rs:127-135) -/
structure InDoc where
  id : String
  name : String
  field : Option String
  deriving DecidableEq

def rIn : Fields → Option InDoc := fun o => do
  let id ← req rStr o "id"
  let name ← opt rStr "" o "name"
  let field ← opt rMaybe none o "field"
  some ⟨id, name, field⟩

def wIn (c : InDoc) : J := .obj [("id", .str c.id), ("name", .str c.name), ("field", wMaybe c.field)]

/-- `DecisionTableOutputField` (decision/mod.rs:137-151) -/
structure OutDoc where
  id : String
  name : String
  field : String
  type : Option String
  deriving DecidableEq

def rOut : Fields → Option OutDoc := fun o => do
  let id ← req rStr o "id"
  let name ← opt rStr "" o "name"
  let field ← req rStr o "field"
  let type ← opt rMaybe none o "type"
  some ⟨id, name, field, type⟩

def wOut (c : OutDoc) : J :=
  .obj ([("id", .str c.id), ("name", .str c.name), ("field", .str c.field)] ++
    match c.type with
    | some t => [("type", .str t)]
    | none => [])

/-- `DecisionTableHitPolicy` (decision/mod.rs:119-125): is it `Collect` -/
def rHit : J → Option Bool
  | .str "first" => some false
  | .str "collect" => some true
  | _ => none

/-- the cells of a rule, `HashMap<Arc<str>, Arc<str>>` -/
def rCells : Fields → Option (List (String × String))
  | [] => some []
  | (k, v) :: r => do
    let s ← rStr v
    let cs ← rCells r
    some ((k, s) :: cs)

def wCells (cs : List (String × String)) : J := .obj (cs.map fun c => (c.1, .str c.2))

/-- `DecisionTableDoc` (decision_table.rs:38-49) -/
structure TableDoc where
  collect : Bool
  inputs : List InDoc
  outputs : List OutDoc
  rules : List (List (String × String))
  deriving DecidableEq

def rTable : Fields → Option TableDoc := fun o => do
  let hit ← opt rHit false o "hitPolicy"
  let inputs ← opt (rList (rObj rIn)) [] o "inputs"
  let outputs ← opt (rList (rObj rOut)) [] o "outputs"
  let rules ← opt (rList (rObj rCells)) [] o "rules"
  some ⟨hit, inputs, outputs, rules⟩

def wTable (d : TableDoc) : J :=
  .obj [("hitPolicy", .str (if d.collect then "collect" else "first")), ("inputs", .arr (d.inputs.map wIn)),
    ("outputs", .arr (d.outputs.map wOut)), ("rules", .arr (d.rules.map wCells))]

/-- the loop over columns (decision_table.rs:63-87): the inputs and the outputs -/
def splitColumns : List J → Option (List J × List J)
  | [] => some ([], [])
  | .obj o :: r =>
    match aGet o "kind" with
    | some (.str "input") => (splitColumns r).map fun p => (.obj (aErase o "kind") :: p.1, p.2)
    | some (.str "output") => (splitColumns r).map fun p => (p.1, .obj (aErase o "kind") :: p.2)
    | _ => none
  | _ :: _ => none

/-- `decode_wire` (decision_table.rs:52-95) -/
def decodeWire : J → Option TableDoc
  | .obj o =>
    let split := (aGet o "inputs").isSome || (aGet o "outputs").isSome
    if split && (aGet o "columns").isSome then none
    else if split then rTable o
    else match aGet o "columns" with
      | some (.arr columns) => do
        let p ← splitColumns columns
        rTable (aSet (aSet (aErase o "columns") "inputs" (.arr p.1)) "outputs" (.arr p.2))
      | _ => rTable (aErase o "columns")
  | _ => none

/-- `PropertyTypeDoc` (raw.rs:263-281) -/
inductive TypeDoc where
  | string (values : Option (List String))
  | number | boolean | date
  | relationship (target : String)
  | reference (target : String)
  deriving DecidableEq

/-- `Option<Vec<Arc<str>>>` -/
def rTexts : J → Option (Option (List String))
  | .null => some none
  | j => (rList rStr j).map some

def rType : Fields → Option TypeDoc := fun o =>
  match aGet o "type" with
  | some (.str "string") => (opt rTexts none o "enum").map .string
  | some (.str "number") => some .number
  | some (.str "boolean") => some .boolean
  | some (.str "date") => some .date
  | some (.str "relationship") => (req rStr o "target").map .relationship
  | some (.str "reference") => (req rStr o "target").map .reference
  | _ => none

def wType : TypeDoc → Fields
  | .string none => [("type", .str "string")]
  | .string (some vs) => [("type", .str "string"), ("enum", .arr (vs.map .str))]
  | .number => [("type", .str "number")]
  | .boolean => [("type", .str "boolean")]
  | .date => [("type", .str "date")]
  | .relationship t => [("type", .str "relationship"), ("target", .str t)]
  | .reference t => [("type", .str "reference"), ("target", .str t)]

/-- `PropertyDoc` (raw.rs:232-243); its type is written among its fields -/
structure PropertyDoc where
  id : String
  name : String
  type : TypeDoc
  array : Bool
  optional : Bool
  deriving DecidableEq

def rProperty : Fields → Option PropertyDoc := fun o => do
  let id ← req rStr o "id"
  let name ← req rStr o "name"
  let array ← opt rBool false o "array"
  let optional ← opt rBool false o "optional"
  let type ← rType o
  some ⟨id, name, type, array, optional⟩

def wProperty (p : PropertyDoc) : J :=
  .obj ([("id", .str p.id), ("name", .str p.name)] ++ wType p.type ++ [("array", .bool p.array), ("optional", .bool p.optional)])

/-- `ScopeDoc` (raw.rs:224-230): is it `Global` -/
def rScope : J → Option Bool
  | .str "entity" => some false
  | .str "global" => some true
  | _ => none

/-- `DataModelDoc` (raw.rs:214-222) -/
structure DataModelDoc where
  name : String
  global : Bool
  properties : List PropertyDoc
  deriving DecidableEq

def rModel : Fields → Option DataModelDoc := fun o => do
  let name ← req rStr o "name"
  let scope ← opt rScope false o "scope"
  let properties ← opt (rList (rObj rProperty)) [] o "properties"
  some ⟨name, scope, properties⟩

def wModel (d : DataModelDoc) : J :=
  .obj [("name", .str d.name), ("scope", .str (if d.global then "global" else "entity")), ("properties", .arr (d.properties.map wProperty))]

/-- `DictionaryEntryDoc` (raw.rs:253-261) -/
structure EntryDoc where
  id : String
  value : String
  label : String
  deriving DecidableEq

def rEntry : Fields → Option EntryDoc := fun o => do
  let id ← opt rStr "" o "id"
  let value ← req rStr o "value"
  let label ← opt rStr "" o "label"
  some ⟨id, value, label⟩

def wEntry (e : EntryDoc) : J := .obj [("id", .str e.id), ("value", .str e.value), ("label", .str e.label)]

/-- `DictionaryDoc` (raw.rs:245-251) -/
structure DictionaryDoc where
  name : String
  entries : List EntryDoc
  deriving DecidableEq

def rDictionary : Fields → Option DictionaryDoc := fun o => do
  let name ← req rStr o "name"
  let entries ← opt (rList (rObj rEntry)) [] o "entries"
  some ⟨name, entries⟩

def wDictionary (d : DictionaryDoc) : J := .obj [("name", .str d.name), ("entries", .arr (d.entries.map wEntry))]

/-- `BlockDoc` (raw.rs:15-42) -/
inductive BlockDoc where
  | assertion (id : String) (data : AssertionDoc)
  | decisionTable (id : String) (data : TableDoc)
  | expression (id : String) (data : ExpressionDoc)
  | match_ (id : String) (data : MatchDoc)
  | dataModel (id : String) (data : DataModelDoc)
  | dictionary (id : String) (data : DictionaryDoc)
  | ignored (value : J)

/-- `BlockTag::from_name` (raw.rs:155-165) with what `decode_known` (raw.rs:57-91) does for it -/
def decodeData : String → Option (String → J → Option BlockDoc)
  | "assertion" => some fun id d => (rObj rAssertion d).map (.assertion id)
  | "decisionTable" => some fun id d => (decodeWire d).map (.decisionTable id)
  | "expression" => some fun id d => (rObj rExpression d).map (.expression id)
  | "match" => some fun id d => (rObj rMatch d).map (.match_ id)
  | "dataModel" => some fun id d => (rObj rModel d).map (.dataModel id)
  | "dictionary" => some fun id d => (rObj rDictionary d).map (.dictionary id)
  | _ => none

/-- the data in `PropsEnvelope` (raw.rs:185-189): `null` is like missing -/
def rData (o : Fields) : Option J :=
  match aGet o "data" with
  | none | some .null => none
  | some d => some d

/-- `BlockEnvelope` (raw.rs:179-183): the id and the data -/
def rEnvelope : Fields → Option (String × J) := fun o => do
  let id ← req rStr o "id"
  let data ← req (rObj rData) o "props"
  some (id, data)

/-- `deserialize` of a block (raw.rs:94-113) -/
def rBlock (j : J) : Option BlockDoc :=
  match j with
  | .obj o =>
    match aGet o "type" with
    | some (.str name) =>
      match decodeData name with
      | some f => (rEnvelope o).bind fun p => f p.1 p.2
      | none => some (.ignored j)
    | _ => none
  | _ => none

/-- `TaggedBlockRef` (raw.rs:191-212) -/
def tagged (kind id : String) (data : J) : J := .obj [("type", .str kind), ("id", .str id), ("props", .obj [("data", data)])]

/-- `serialize` of a block (raw.rs:115-142) -/
def wBlock : BlockDoc → J
  | .assertion id d => tagged "assertion" id (wAssertion d)
  | .decisionTable id d => tagged "decisionTable" id (wTable d)
  | .expression id d => tagged "expression" id (wExpression d)
  | .match_ id d => tagged "match" id (wMatch d)
  | .dataModel id d => tagged "dataModel" id (wModel d)
  | .dictionary id d => tagged "dictionary" id (wDictionary d)
  | .ignored v => v

/-- `PolicyDocument` (raw.rs:7-13) -/
structure Document where
  imports : List String
  blocks : List BlockDoc

def rDocument : J → Option Document := rObj fun o => do
  let imports ← opt (rList rStr) [] o "imports"
  let blocks ← req (rList rBlock) o "blocks"
  some ⟨imports, blocks⟩

def wDocument (d : Document) : J := .obj [("imports", .arr (d.imports.map .str)), ("blocks", .arr (d.blocks.map wBlock))]

end Zen.PolicyDoc
