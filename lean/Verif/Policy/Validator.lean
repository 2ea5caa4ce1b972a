import Verif.Core.Dot
import Verif.Core.MapLemmas
/-
Validation of the input of a policy (core/engine/src/policy/validator.rs) and the pools that references are
looked up in (core/engine/src/policy/refs.rs).
-/
namespace Zen.Policy
open Zen

/-- `PropertyTypeIr` (policy/ir.rs:164-173) -/
inductive PKind where
  | string
  | enum (values : List String)
  | number
  | boolean
  | date
  | relationship (target : String)
  | reference (target : String)

/-- `Property` (policy/ir.rs:155-162); its id is not needed -/
structure PProp where
  name : String
  kind : PKind
  array : Bool
  optional : Bool

/-- `InputSchema` (policy/validator.rs:69-75). The maps and sets are hash tables in the code. `entities` holds
the properties of a data model. -/
structure InSchema where
  entities : List (String × List PProp)
  globals : List (String × PProp)
  roots : List String
  refTargets : List String
  /-- values of the dictionaries -/
  dicts : List (String × List String)

/-- `InputValidationError` -/
structure InErr where
  path : String
  expected : String
  got : String
deriving DecidableEq

/-- `MAX_RECURSION_DEPTH` (policy/mod.rs:3) -/
def maxDepth : Nat := 32

/-- `type_name` (variable/mod.rs:167-177) -/
def typeName : Val → String
  | .null => "null"
  | .bool _ => "bool"
  | .num _ => "number"
  | .str _ => "string"
  | .arr _ => "array"
  | .obj _ => "object"
  | .dyn (.date _) => "date"
  | .dyn (.interval _ _ _ _) => "interval"

/-! ## Pools -/

/-- `RefPoolIndex` (policy/refs.rs:7-9) -/
abbrev Pools := List (String × List (String × Val))

/-- one item of a pool (policy/refs.rs:21-24). Collecting into a hash map keeps the last item of an id. -/
def poolAdd (p : List (String × Val)) (x : Val) : List (String × Val) :=
  match x.dot "id" with
  | some (.str id) => aSet p id x
  | _ => p

/-- one pool (policy/refs.rs:15-27) -/
def poolOf (input : Val) (target : String) : List (String × Val) :=
  match input.dot target with
  | some (.arr xs) => xs.foldl poolAdd []
  | _ => []

/-- `RefPoolIndex::from_input` (policy/refs.rs:12-31) -/
def poolsOf (input : Val) (targets : List String) : Pools :=
  targets.foldl (fun ps t => aSet ps t (poolOf input t)) []

/-- `RefPoolIndex::contains` (policy/refs.rs:33-37) -/
def poolContains (ps : Pools) (target id : String) : Bool :=
  match aGet ps target with
  | some p => (aGet p id).isSome
  | none => false

/-! ## Validation -/

def quoted (values : List String) : String := String.intercalate ", " (values.map fun v => "'" ++ v ++ "'")

/-- `Display for PropertyTypeIr` (policy/ir.rs:539-560) -/
def PKind.text : PKind → String
  | .string => "string"
  | .enum vs => "enum (" ++ quoted vs ++ ")"
  | .number => "number"
  | .boolean => "bool"
  | .date => "date (string)"
  | .reference t => "reference id (string → " ++ t ++ ")"
  | .relationship t => "object (" ++ t ++ ")"

/-- `validate_enum` (policy/validator.rs:247-277) -/
def validateEnum (v : Val) (values : List String) (path : String) : List InErr :=
  match v with
  | .str s => if values.contains s then [] else [⟨path, "one of " ++ quoted values, "'" ++ s ++ "'"⟩]
  | v => [⟨path, "one of " ++ quoted values, typeName v⟩]

/-- `validate_reference` (policy/validator.rs:279-295) -/
def validateReference (pools : Pools) (v : Val) (target path : String) : List InErr :=
  match v with
  | .str id => if poolContains pools target id then []
    else [⟨path, "reference id present in '" ++ target ++ "' pool", "'" ++ id ++ "' (not found)"⟩]
  | v => [⟨path, "reference id (string → " ++ target ++ ")", typeName v⟩]

/-- `validate_kind` (policy/validator.rs:212-245); `ent` is `validate_entity` at the current depth -/
def validateKind (S : InSchema) (pools : Pools) (ent : Val → String → String → List InErr) (v : Val) (kind : PKind) (path : String) :
    List InErr :=
  let wrong : List InErr := [⟨path, kind.text, typeName v⟩]
  match kind with
  | .string => match v with | .str _ => [] | _ => wrong
  | .enum vs => validateEnum v vs path
  | .number => match v with | .num _ => [] | _ => wrong
  | .boolean => match v with | .bool _ => [] | _ => wrong
  | .date => match v with | .str _ => [] | _ => wrong
  | .reference t => validateReference pools v t path
  | .relationship t => match aGet S.entities t, aGet S.dicts t with
    | none, some vs => validateEnum v vs path
    | _, _ => ent v t path

/-- the items of an array that are not null, with their position -/
def validateItems (f : Val → String → List InErr) (path : String) : Nat → List Val → List InErr
  | _, [] => []
  | i, x :: xs => (if x.isNull then [] else f x (path ++ "[" ++ toString i ++ "]")) ++ validateItems f path (i + 1) xs

/-- `validate_array_of_property` (policy/validator.rs:178-193) and the branch before it
(policy/validator.rs:161-165, 170-176) -/
def validateProp (S : InSchema) (pools : Pools) (ent : Val → String → String → List InErr) (v : Val) (p : PProp) (path : String) :
    List InErr :=
  if p.array then match v with
    | .arr xs => validateItems (fun x path => validateKind S pools ent x p.kind path) path 0 xs
    | v => [⟨path, "array of " ++ p.kind.text, typeName v⟩]
  else validateKind S pools ent v p.kind path

/-- one entry of an object (policy/validator.rs:150-165) -/
def validateEntry (f : Val → PProp → String → List InErr) (props : List PProp) (path k : String) (v : Val) : List InErr :=
  if v.isNull then []
  else match props.find? fun p => p.name == k with
    | some p => f v p (path ++ "." ++ p.name)
    | none => []

/-- the loop over the entries of an object (policy/validator.rs:149-166) -/
def validateEntries (f : Val → PProp → String → List InErr) (props : List PProp) (path : String) : List (String × Val) → List InErr
  | [] => []
  | (k, v) :: m =>
    validateEntry f props path k v ++ validateEntries f props path m

/-- `validate_entity` (policy/validator.rs:126-168). The first argument is what is left of
`MAX_RECURSION_DEPTH`; the recursion is on it and does not depend on the value being finite. -/
def validateEntity (S : InSchema) (pools : Pools) : Nat → Val → String → String → List InErr
  | 0, _, _, path => [⟨path, "entity nesting within " ++ toString maxDepth ++ " levels", "deeper"⟩]
  | n + 1, v, name, path => match v with
    | .obj m => match aGet S.entities name with
      | some props => validateEntries (validateProp S pools (validateEntity S pools n)) props path m
      | none => []
    | v => [⟨path, "object (" ++ name ++ ")", typeName v⟩]

/-- `validate_array_of_entity` (policy/validator.rs:195-210) -/
def validateArrayOfEntity (S : InSchema) (pools : Pools) (v : Val) (name path : String) : List InErr :=
  match v with
  | .arr xs => validateItems (fun x path => validateEntity S pools maxDepth x name path) path 0 xs
  | v => [⟨path, "array of " ++ name, typeName v⟩]

/-- one entry of the input (policy/validator.rs:99-111) -/
def validateTop (S : InSchema) (pools : Pools) (k : String) (v : Val) : List InErr :=
  if v.isNull then []
  else if S.refTargets.contains k then validateArrayOfEntity S pools v k k
  else if S.roots.contains k then validateEntity S pools maxDepth v k k
  else match aGet S.globals k with
    | some p => validateProp S pools (validateEntity S pools maxDepth) v p k
    | none => []

/-- `InputSchema::validate` (policy/validator.rs:78-114) -/
def validateInput (S : InSchema) (input : Val) : List InErr :=
  let pools := poolsOf input S.refTargets
  match input with
  | .obj m => m.flatMap fun e => validateTop S pools e.1 e.2
  | .null => []
  | v => [⟨"", "object", typeName v⟩]

end Zen.Policy
