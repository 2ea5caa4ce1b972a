import Verif.Policy.DepGraph
import Verif.Policy.Coverage
/-
The schema of a request that says under which conditions an input is needed
(core/engine/src/policy/queries/conditional.rs, and the inputs and outputs it divides, queries/schema.rs).
Left out: policies with entities, as in Policy/DepGraph (the inputs are the properties of the data models, the computed
paths all have a block of the unit), decision graphs in place of policies (schema.rs:143-145, 201-203), and the types of the
properties. Sets of paths are lists here; the code keeps them in hash sets, and their order is never looked at.
-/
namespace Zen.Policy
open Zen

/-- `flatten_reads` (conditional.rs:171-186): unlike before a run, reads through an alias or behind an index are left out. For
text that is not an expression the reads are given (`lost`), as before. -/
def Cfg.direct (C : Cfg) (src : String) : List String :=
  if src.isEmpty then []
  else match C.F .standard src with
    | .ok n => ((Reads.propReads false n).filter fun r => !r.viaAlias && !r.unresolved).map fun r => dots r.path
    | .error _ => ((C.lost .standard src).filter fun q => !q.isEmpty).map dots

/-- `ArmInfo` (conditional.rs:18-24); `discriminant_value` is computed from the test -/
structure ArmInfo where
  id : String
  cond : String
  test : ArmTest
  reads : List String

/-- an arm with a condition (conditional.rs:65-80) -/
def armInfo (C : Cfg) (a : Arm) : ArmInfo := ⟨a.id, a.cond, recogniseArm C.F a.cond, C.direct a.value⟩

/-- the arms of a match block (conditional.rs:57-81); `none` for other blocks and for a match block that writes nothing -/
def matchInfo (C : Cfg) (b : PBlock) : Option (List ArmInfo) :=
  match b.body with
  | .match_ m => if m.key.isEmpty then none else some ((m.arms.filter fun a => !a.cond.isEmpty).map (armInfo C))
  | _ => none

/-- `collect_match_blocks` (conditional.rs:48-86); the blocks come in the order of the paths of their policies -/
def matchBlocks (C : Cfg) (P : List PBlock) : List (List ArmInfo) := P.filterMap (matchInfo C)

/-- `discriminant_value` (conditional.rs:88-98) -/
def discValue : ArmTest → Option String
  | .enum _ [v] => some v
  | .bool _ [b] => some (if b then "true" else "false")
  | _ => none

/-- the path of a test on an enumeration or a boolean (conditional.rs:141-144) -/
def enumBool : ArmTest → Option (List String)
  | .enum p _ => some p
  | .bool p _ => some p
  | _ => none

/-- `shared_enum_bool_path` (conditional.rs:135-152), the part after the first arm -/
def sharedWith (p : List String) : List ArmInfo → Option (List String)
  | [] => some p
  | a :: as => match enumBool a.test with
    | some q => if q = p then sharedWith p as else none
    | none => none

/-- `shared_enum_bool_path` (conditional.rs:135-152) -/
def sharedEnumBool : List ArmInfo → Option (List String)
  | [] => none
  | a :: as => match enumBool a.test with
    | some p => sharedWith p as
    | none => none

/-- `is_input_derived` (conditional.rs:154-162) -/
def inputDerived (G : PGraph) (p : String) : Bool := (aGet G.writers p).isNone

/-- `matches!(resolved_type, Enum(..) | Bool)` after `resolve_in_unit` (conditional.rs:116-119, 164-169) -/
def isEnumBool (t : VT) : Bool := match t.unwrap.1 with
  | .enum _ _ => true
  | .bool => true
  | _ => false

/-- `DiscriminantInfo` (conditional.rs:30-34) -/
structure Disc where
  arms : List ArmInfo
  property : String

/-- one turn of the loop of `clean_discriminant` (conditional.rs:106-125) -/
def cleanBlock (G : PGraph) (scope : VT) (arms : List ArmInfo) : Option Disc :=
  match sharedEnumBool arms with
  | none => none
  | some path =>
    if inputDerived G (dots path) && isEnumBool (resolveAt scope (dots path)) then some ⟨arms, dots path⟩ else none

/-- `clean_discriminant` (conditional.rs:100-133) -/
def cleanDisc (G : PGraph) (scope : VT) (blocks : List (List ArmInfo)) : Option Disc :=
  match blocks.filterMap (cleanBlock G scope) with
  | [d] => some d
  | _ => none

/-- `schema_roots` (conditional.rs:188-196) -/
def schemaRoots (G : PGraph) (goals : List String) : List String := if goals.isEmpty then aKeys G.writers else goals

/-- `intersection` (conditional.rs:315-324) -/
def interAll : List (List String) → List String
  | [] => []
  | first :: rest => first.filter fun p => rest.all fun c => c.contains p

/-- `PathPrefix::extends(path, p) || PathPrefix::extends(p, path)` (conditional.rs:285, 333-334) -/
def related (a b : String) : Bool := extends_ a b || extends_ b a

/-- `GuardedProperty` (workspace/types/result.rs:145-152), without the type -/
structure Guarded where
  path : String
  required : Option String
  deriving DecidableEq

/-- `SchemaGroup` (workspace/types/result.rs:154-159) -/
structure Group where
  inputs : List Guarded
  outputs : List Guarded
  deriving DecidableEq

/-- `group_for` (conditional.rs:326-356) -/
def groupFor (set inputs outputs : List String) (guard : String → Option String) : Group :=
  { inputs := (inputs.filter fun i => set.any fun p => related i p).map fun i => ⟨i, guard i⟩
    outputs := (outputs.filter fun i => set.any fun p => related i p).map fun i => ⟨i, guard i⟩ }

/-- `inputs` (schema.rs:142-198) with `goal_reachable_input_paths` (schema.rs:301-320): `declared` are the properties of the data models -/
def listedInputs (G : PGraph) (declared goals : List String) : List String :=
  sortBy (fun a b => decide (a ≤ b)) (if goals.isEmpty then declared
    else declared.filter fun i => (G.inputs goals).any fun r => related i r)

/-- `outputs` (schema.rs:200-223) -/
def listedOutputs (G : PGraph) (goals : List String) : List String :=
  sortBy (fun a b => decide (a ≤ b)) (if goals.isEmpty then aKeys G.writers
    else (aKeys G.writers).filter fun p => (G.reachable goals).contains p)

/-- `DiscriminantVariant` (workspace/types/result.rs:161-168) -/
structure Variant where
  value : Option String
  arm : String
  group : Group
  deriving DecidableEq

/-- `ConditionalSchema` (workspace/types/result.rs:178-193) -/
inductive CondSchema where
  | union (common : Group) (property : String) (variants : List Variant)
  | flat (common conditional : Group)
  deriving DecidableEq

/-! ### One discriminating property -/

/-- `cones` (conditional.rs:209-214) -/
def cones (G : PGraph) (arms : List ArmInfo) : List (List String) := arms.map fun a => G.reachable a.reads

/-- `forced` (conditional.rs:216-220) -/
def unionForced (C : Cfg) (d : Disc) : List String := d.property :: d.arms.flatMap fun a => C.direct a.cond

/-- `common_set` (conditional.rs:221-230) -/
def unionCommon (C : Cfg) (G : PGraph) (goals : List String) (d : Disc) : List String :=
  (G.reachable (schemaRoots G goals)).filter (fun p => !(cones G d.arms).flatten.contains p) ++ interAll (cones G d.arms) ++ unionForced C d

/-- `variant_set` (conditional.rs:238-239) -/
def variantSet (C : Cfg) (G : PGraph) (goals : List String) (d : Disc) (a : ArmInfo) : List String :=
  (G.reachable a.reads).filter fun p => !(unionCommon C G goals d).contains p

/-- `build_union` (conditional.rs:198-256) -/
def buildUnion (C : Cfg) (G : PGraph) (goals : List String) (d : Disc) (inputs outputs : List String) : CondSchema :=
  .union (groupFor (unionCommon C G goals d) inputs outputs fun _ => none) d.property
    (d.arms.map fun a => ⟨discValue a.test, a.id, groupFor (variantSet C G goals d a) inputs outputs fun _ => none⟩)

/-! ### Any number of match blocks -/

/-- `union` (conditional.rs:269, 277-278) -/
def flatUnion (G : PGraph) (blocks : List (List ArmInfo)) : List String := (cones G blocks.flatten).flatten

/-- `common_set` (conditional.rs:276, 284-289) -/
def flatCommon (C : Cfg) (G : PGraph) (goals : List String) (blocks : List (List ArmInfo)) : List String :=
  (G.reachable (schemaRoots G goals)).filter (fun p => !(flatUnion G blocks).contains p) ++ blocks.flatten.flatMap fun a => C.direct a.cond

/-- `conditional_set` (conditional.rs:290) -/
def conditionalSet (C : Cfg) (G : PGraph) (goals : List String) (blocks : List (List ArmInfo)) : List String :=
  (flatUnion G blocks).filter fun p => !(flatCommon C G goals blocks).contains p

/-- `conditions` (conditional.rs:271-281, 293-299): the conditions of the arms with a path that is related -/
def guardConds (G : PGraph) (blocks : List (List ArmInfo)) (path : String) : List String :=
  dedup ((blocks.flatten.filter fun a => (G.reachable a.reads).any fun p => related path p).map ArmInfo.cond)

/-- `guard_for` (conditional.rs:292-308) -/
def guardFor (G : PGraph) (blocks : List (List ArmInfo)) (path : String) : Option String :=
  if (guardConds G blocks path).isEmpty then none else some (String.intercalate " or " (guardConds G blocks path))

/-- `build_flat` (conditional.rs:258-313) -/
def buildFlat (C : Cfg) (G : PGraph) (goals : List String) (blocks : List (List ArmInfo)) (inputs outputs : List String) : CondSchema :=
  .flat (groupFor (flatCommon C G goals blocks) inputs outputs fun _ => none)
    (groupFor (conditionalSet C G goals blocks) inputs outputs (guardFor G blocks))

/-- `conditional_schema` (conditional.rs:36-46); `scope` is the type of everything that can be read in the unit, `declared` are the
properties of the data models -/
def conditionalSchema (C : Cfg) (P : List PBlock) (scope : VT) (declared goals : List String) : CondSchema :=
  let G := graphOf C P
  match cleanDisc G scope (matchBlocks C P) with
  | some d => buildUnion C G goals d (listedInputs G declared goals) (listedOutputs G goals)
  | none => buildFlat C G goals (matchBlocks C P) (listedInputs G declared goals) (listedOutputs G goals)

end Zen.Policy
