import Verif.Policy.Blocks
import Verif.Analysis.Discriminant
import Verif.Types.VType
/-
Exhaustiveness: when the analysis takes the arms of a match block, or the rows of a table, to cover every value
(core/engine/src/policy/blocks/match_block.rs, decision_table.rs, policy/queries/scope.rs).

Simplifications: conditions are parsed by the same front end as at run time (the analysis uses the same parser
with metadata switched on, and gives up on a syntax error); the types of the input columns of a table, which the
expression type checker infers, are given.
-/
namespace Zen.Policy
open Zen

/-- the inner loop of `resolve_at` (scope.rs:717-724) up to the test for `Any` -/
def peel : VT → VT
  | .arr t => peel t
  | .nullable (.arr t) => peel t
  | t => t

/-- `resolve_at` (scope.rs:714-728) on the segments -/
def resolveSegs : VT → List String → VT
  | t, [] => t
  | t, k :: ks => match (peel t).unwrap.1 with
    | .any => .any
    | _ => resolveSegs ((peel t).get k) ks

/-- `resolve_at` (scope.rs:714-728) -/
def resolveAt (t : VT) (path : String) : VT := resolveSegs t (splitDot path)

/-- `source.trim().is_empty()` -/
def isBlank (s : String) : Bool := s.toList.all Char.isWhitespace

section
variable (F : FrontEnd)

/-- `arm_test` (core/expression/src/intellisense/mod.rs:371-388) -/
def recogniseArm (src : String) : ArmTest :=
  if isBlank src then .dflt
  else match F .standard src with
    | .ok n => ArmTest.fromNode n
    | .error _ => .unrecognized

/-- `on_reference` (intellisense/mod.rs:405-412) -/
def onReference : ArmTest → Bool
  | .enum p _ => decide (p = ["$"])
  | .bool p _ => decide (p = ["$"])
  | .number p _ => decide (p = ["$"])
  | _ => true

/-- `cell_test` (intellisense/mod.rs:390-416) -/
def recogniseCell (src : String) : ArmTest :=
  if isBlank src then .dflt
  else match F .unary src with
    | .ok n => if onReference (ArmTest.fromNode n) then ArmTest.fromNode n else .unrecognized
    | .error _ => .unrecognized
end

/-- the values of enumeration tests, `none` as soon as another test is met (match_block.rs:304-310,
decision_table.rs:606-612) -/
def collectEnum : List ArmTest → Option (List String)
  | [] => some []
  | .enum _ vs :: ts => (collectEnum ts).map (vs ++ ·)
  | _ => none

/-- `seen_true`, `seen_false` (match_block.rs:314-326, decision_table.rs:616-625) -/
def collectBool : List ArmTest → Bool × Bool → Option (Bool × Bool)
  | [], seen => some seen
  | .bool _ vs :: ts, seen => collectBool ts (vs.foldl (fun s b => (s.1 || b, s.2 || !b)) seen)
  | _, _ => none

/-- `cover` (match_block.rs:330-339, decision_table.rs:629-638) -/
def collectNum : List ArmTest → Option Cover → Option (Option Cover)
  | [], acc => some acc
  | .number _ c :: ts, acc => collectNum ts (some (match acc with
    | some a => Cover.mergedWith a c
    | none => c))
  | _, _ => none

/-- `cells_cover` (decision_table.rs:599-643), and the last part of `discriminant_covered`
(match_block.rs:298-343), which is the same code -/
def cellsCover (tests : List ArmTest) (ty : VT) : Bool :=
  if ty.unwrap.2 then false
  else match ty.unwrap.1 with
    | .enum _ declared => match collectEnum tests with
      | some vs => declared.all vs.contains
      | none => false
    | .bool => match collectBool tests (false, false) with
      | some s => s.1 && s.2
      | none => false
    | .number => match collectNum tests none with
      | some (some c) => c.isTotal
      | _ => false
    | _ => false

/-- the path of a test that has one (match_block.rs:277-282) -/
def testPath : ArmTest → Option (List String)
  | .enum p _ => some p
  | .bool p _ => some p
  | .number p _ => some p
  | _ => none

/-- the path all tests share (match_block.rs:275-291) -/
def sharedPath : List ArmTest → Option (List String) → Option (List String)
  | [], p => p
  | t :: ts, shared => match testPath t with
    | none => none
    | some q => match shared with
      | none => sharedPath ts (some q)
      | some p => if p = q then sharedPath ts (some p) else none

/-- the path written with dots (match_block.rs:292-296) -/
def dotted (path : List String) : String := String.ofList (List.intercalate ['.'] (path.map String.toList))

/-- `discriminant_covered` (match_block.rs:271-344) -/
def discriminantCovered (tests : List ArmTest) (scope : VT) : Bool :=
  match sharedPath tests none with
  | none => false
  | some path => cellsCover tests (resolveAt scope (dotted path))

section
variable (F : FrontEnd)

/-- `tests` (match_block.rs:194-213) -/
def armTests (arms : List Arm) : List ArmTest :=
  (arms.filter fun a => !a.cond.isEmpty).map fun a => recogniseArm F a.cond

/-- `has_default` (match_block.rs:193-199) -/
def hasDefault (arms : List Arm) : Bool := arms.any fun a => a.cond.isEmpty

/-- The analysis does not count null among the values of the block (match_block.rs:226-237). -/
def exhaustive (m : MatchB) (scope : VT) : Bool :=
  hasDefault m.arms || discriminantCovered (armTests F m.arms) scope

/-- the input columns a row constrains (decision_table.rs:573-576) -/
def constrained (t : PTable) (rule : Rule) : List TInput :=
  t.inputs.filter fun ic => (cellOf rule ic.id).isSome

/-- `groups` (decision_table.rs:571-590) -/
def cellGroups (t : PTable) : List Rule → List (String × List ArmTest) → List (String × List ArmTest)
  | [], g => g
  | rule :: rest, g => match constrained t rule with
    | [ic] => match fieldOf ic, cellOf rule ic.id with
      | some _, some cell =>
        cellGroups t rest (aSet g ic.id ((aGet g ic.id).getD [] ++ [recogniseCell F cell]))
      | _, _ => cellGroups t rest g
    | _ => cellGroups t rest g

/-- `column_covered` (decision_table.rs:547-597); `types` is `input_field_types` -/
def columnCovered (t : PTable) (col : OCol) (types : List (String × VT)) : Bool :=
  let valueRows := t.rules.filter fun rule => (cellOf rule col.id).isSome
  if valueRows.isEmpty then false
  else if valueRows.any fun rule => t.inputs.all fun ic => (cellOf rule ic.id).isNone then true
  else (cellGroups F t valueRows []).any fun g => match aGet types g.1 with
    | some ty => cellsCover g.2 ty
    | none => false
end

end Zen.Policy
