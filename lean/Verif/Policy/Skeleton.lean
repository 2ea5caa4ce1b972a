import Verif.Policy.Validator
import Verif.Types.VType
import Verif.Core.Json
/-
The inputs of a policy and the skeleton of an input (core/engine/src/policy/queries/schema.rs, skeleton.rs), and the schema
that inputs are validated against (core/engine/src/policy/validator.rs:12-66).
Left out: the inputs of graphs. Sets are lists; the iteration order of the set of reference targets only matters for paths that are
equal, which its members are not among each other. The skeleton is a JSON value: null, the number 0, texts, lists and objects.
-/
namespace Zen.Policy
open Zen

/-- `DataModelIr` (policy/ir.rs:128-132); `global` is its scope -/
structure DModel where
  name : String
  global : Bool
  props : List PProp

/-- a property that is not there yet (workspace/db.rs:940-943) -/
def addProp (b : List PProp) (p : PProp) : List PProp := if b.any fun q => q.name == p.name then b else b ++ [p]

/-- `compute_unit_entities` (workspace/db.rs:931-957); the models of the policies in the order of their paths -/
def entitiesOf (ms : List DModel) : List (String × List PProp) :=
  (ms.filter fun m => !m.global).foldl (fun acc m => aSet acc m.name (m.props.foldl addProp ((aGet acc m.name).getD []))) []

/-- `visible_globals` (validator.rs:28-44) -/
def globalsOf (ms : List DModel) : List (String × PProp) :=
  ((ms.filter fun m => m.global).flatMap DModel.props).foldl
    (fun acc p => if (aGet acc p.name).isSome then acc else aSet acc p.name p) []

def PKind.relTarget : PKind → Option String
  | .relationship t => some t
  | _ => none

def PKind.refTarget : PKind → Option String
  | .reference t => some t
  | _ => none

/-- the targets in the properties of some models (ir.rs:183-200) -/
def targetsOf (f : PKind → Option String) (ms : List DModel) : List String :=
  ms.flatMap fun m => m.props.filterMap fun p => f p.kind

/-- `classify_roots` (ir.rs:176-215): roots and reference targets -/
def classifyRoots (ms : List DModel) : List String × List String :=
  let ents := (ms.filter fun m => !m.global).map DModel.name
  let rels := targetsOf PKind.relTarget (ms.filter fun m => !m.global)
  let globalRels := targetsOf PKind.relTarget (ms.filter fun m => m.global)
  let refs := targetsOf PKind.refTarget ms
  let globalOnly := globalRels.filter fun t => !rels.contains t && !refs.contains t
  let nested := rels ++ refs ++ globalOnly
  (ents.filter fun e => !nested.contains e, refs)

/-- `visible_data_models` (validator.rs:46-66) -/
def visibleModels (ms : List DModel) : List DModel :=
  (entitiesOf ms).map (fun e => ⟨e.1, false, e.2⟩) ++ ms.filter fun m => m.global

/-- `input_schema` (validator.rs:13-26) -/
def schemaOf (ms : List DModel) (dicts : List (String × List String)) : InSchema where
  entities := entitiesOf ms
  globals := globalsOf ms
  roots := (classifyRoots (visibleModels ms)).1
  refTargets := (classifyRoots (visibleModels ms)).2
  dicts := dicts

/-- a property with the entity it is of, if it is not there yet (scope.rs:523-541) -/
def addVisible (acc : List (Option String × PProp)) (e : Option String × PProp) : List (Option String × PProp) :=
  if acc.any fun x => x.1 == e.1 && x.2.name == e.2.name then acc else acc ++ [e]

/-- `walk_visible_properties` (queries/scope.rs:513-545) -/
def visibleProps (ms : List DModel) : List (Option String × PProp) :=
  (ms.flatMap fun m => m.props.map fun p => (if m.global then none else some m.name, p)).foldl addVisible []

section
variable (E : List (String × List PProp)) (D : List (String × List String))

/-- `wire_property_type` (ir.rs:217-241); `obj` is `wire_object` -/
def wireProp (obj : String → VT) (p : PProp) : VT :=
  let inner : VT := match p.kind with
    | .string | .date => .string
    | .enum vs => .enum none vs
    | .number => .number
    | .boolean => .bool
    | .reference _ => .string
    | .relationship t => match aGet E t, aGet D t with
      | none, some vs => .enum (some t) vs
      | _, _ => obj t
  if p.array then .arr inner else inner

/-- `wire_object` (ir.rs:243-264). It descends into entities that are not in `visited` only, so as deep as there are such entities;
the first argument is a bound for that. -/
def wireObj : Nat → List String → String → VT
  | 0, _, _ => .any
  | n + 1, visited, name =>
    if visited.contains name then .any
    else match aGet E name with
      | some props => .obj (ofEntries (props.map fun p => (p.name, wireProp E D (wireObj n (name :: visited)) p)))
      | none => .obj []

/-- deep enough for all entities -/
def wireTop (name : String) : VT := wireObj E D (E.length + 1) [] name
end

/-- each once -/
def onceEach : List String → List String
  | [] => []
  | s :: l => if l.contains s then onceEach l else s :: onceEach l

/-- `inputs` (queries/schema.rs:142-198); `keep` tells which paths are reachable from the goals, if any are given -/
def inputsOf (ms : List DModel) (D : List (String × List String)) (keep : String → Bool) : List (String × VT) :=
  let E := entitiesOf ms
  let c := classifyRoots ms
  let own := ((visibleProps ms).filter fun e => match e.1 with
      | some entity => c.1.contains entity
      | none => true).map fun e =>
    (match e.1 with
      | some entity => entity ++ "." ++ e.2.name
      | none => e.2.name, wireProp E D (wireTop E D) e.2)
  let pools := ((onceEach c.2).filter fun t => (aGet E t).isSome).map fun t => (t, VT.arr (wireTop E D t))
  ((own ++ pools).filter fun i => keep i.1).mergeSort fun a b => decide (a.1 ≤ b.1)

mutual
/-- `default_for` (skeleton.rs:50-74) -/
def defaultFor : VT → Val
  | .string | .date | .interval => .str ""
  | .number => .num 0
  | .bool => .bool false
  | .null | .any => .null
  | .nullable _ => .null
  | .arr t => .arr [defaultFor t]
  | .const c => .str c
  | .enum _ vs => match vs with
    | v :: _ => .str v
    | [] => .null
  | .obj o => .obj (defaultFields o)
def defaultFields : List (String × VT) → List (String × Val)
  | [] => []
  | (k, t) :: r => (k, defaultFor t) :: defaultFields r
end

/-- the object below, or an empty one (skeleton.rs:40-46) -/
def childOf : Option Val → List (String × Val)
  | some (.obj c) => c
  | _ => []

/-- `insert` (skeleton.rs:31-48) -/
def skelInsert : List (String × Val) → List String → Val → List (String × Val)
  | m, [], _ => m
  | m, [k], v => aSet m k v
  | m, k :: k' :: ks, v => aSet m k (.obj (skelInsert (childOf (aGet m k)) (k' :: ks) v))

/-- `input_skeleton` (skeleton.rs:10-16) -/
def skeletonOf (inputs : List (String × VT)) : Val :=
  .obj (inputs.foldl (fun m i => skelInsert m (splitDot i.1) (defaultFor i.2)) [])

def skeleton (ms : List DModel) (D : List (String × List String)) (keep : String → Bool) : Val := skeletonOf (inputsOf ms D keep)

end Zen.Policy
