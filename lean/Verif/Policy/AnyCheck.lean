import Verif.Policy.Paths
/-
Whether a type has a part that is `any` (core/engine/src/policy/blocks/type_check.rs).  Objects are
cells shared by reference, so a type may contain itself; the search keeps the cells it is inside of.
-/
namespace Zen.AnyC
open Zen.Policy

/-- `VariableType` (core/expression/src/variable/types/mod.rs): the kinds that the search tells
apart.  `other` stands for every kind that has no parts and is not `Any`; an object is the address
of its cell, as `Rc::as_ptr` gives it. -/
inductive CTy where
  | any
  | other
  | array (t : CTy)
  | nullable (t : CTy)
  | object (a : Nat)
deriving DecidableEq, Repr

/-- the cells: the types of the fields of each object, by address -/
abbrev Cells := List (List CTy)

def Cells.fields (H : Cells) (a : Nat) : List CTy := H.getD a []

mutual
/-- `contains_any_rec` (policy/blocks/type_check.rs:33-51): the answer and `visited` afterwards.  The
number bounds how deep objects are entered; `C85_contains` shows that it never runs out. -/
def containsAnyRec (H : Cells) : Nat → CTy → List Nat → Bool × List Nat
  | _, .any, vis => (true, vis)
  | _, .other, vis => (false, vis)
  | n, .array t, vis => containsAnyRec H n t vis
  | n, .nullable t, vis => containsAnyRec H n t vis
  | 0, .object _, vis => (false, vis)
  | n + 1, .object a, vis =>
    if a ∈ vis then (false, vis)
    else
      let r := anyField H n (H.fields a) (a :: vis)
      (r.1, r.2.erase a)
termination_by n t => (n, sizeOf t)
/-- `fields.values().any(…)` (policy/blocks/type_check.rs:45): stops at the first -/
def anyField (H : Cells) : Nat → List CTy → List Nat → Bool × List Nat
  | _, [], vis => (false, vis)
  | n, t :: l, vis =>
    let r := containsAnyRec H n t vis
    if r.1 then r else anyField H n l r.2
termination_by n l => (n, sizeOf l)
end

/-- `type_contains_any` (policy/blocks/type_check.rs:28-31) -/
def typeContainsAny (H : Cells) (t : CTy) : Bool := (containsAnyRec H (H.length + 1) t []).1

/-! ## Which writes of `any` are reported -/

/-- `Diagnostic`, as far as it matters here: whether it is an error, and its `expression_id` -/
structure Dg where
  error : Bool
  expr : Option String
deriving DecidableEq, Repr

/-- `AnalysisContext` (policy/blocks/context.rs:62-75) in the enriched pass; `poisoned` is shared by
all contexts, the rest belongs to one block -/
structure Cx where
  poisoned : List String := []
  diags : List Dg := []
  reads : List String := []

/-- `any_is_consequence` (policy/blocks/context.rs:210-231) -/
def anyIsConsequence (cx : Cx) (expr : Option String) : Bool :=
  let priorError := cx.diags.any fun d =>
    d.error && match expr with
      | some id => d.expr == some id
      | none => true
  if priorError then true
  else if cx.poisoned.isEmpty then false
  else cx.reads.any fun r => cx.poisoned.any fun p => extends_ p r || extends_ r p

/-- `report_any` (policy/blocks/type_check.rs:11-26): an error of the expression -/
def reportAny (cx : Cx) (expr : Option String) : Cx := { cx with diags := cx.diags ++ [⟨true, expr⟩] }

/-- `record_write_sourced` in the enriched pass (policy/blocks/context.rs:184-208), without the scope
and the list of writes -/
def recordWrite (H : Cells) (cx : Cx) (path : String) (ty : CTy) (expr : Option String) : Cx :=
  if typeContainsAny H ty then
    let cx := if anyIsConsequence cx expr then cx else reportAny cx expr
    { cx with poisoned := path :: cx.poisoned }
  else cx

/-- what the analysis of a block does with its context: reads are recorded (context.rs:417-419),
diagnostics are added (context.rs:245-272, 421-437) and writes are recorded -/
inductive Ev where
  | read (path : String)
  | diag (d : Dg)
  | write (path : String) (ty : CTy) (expr : Option String)

def step (H : Cells) (cx : Cx) : Ev → Cx
  | .read p => { cx with reads := cx.reads ++ [p] }
  | .diag d => { cx with diags := cx.diags ++ [d] }
  | .write p t e => recordWrite H cx p t e

/-- `analyze_block` (policy/queries/dependency.rs:312-335): a new context with the shared paths -/
def analyzeBlock (H : Cells) (poisoned : List String) (evs : List Ev) : Cx :=
  evs.foldl (step H) { poisoned := poisoned }

/-- the loop over the schedule (policy/queries/dependency.rs:611-646): the paths and the diagnostics
of each block -/
def enriched (H : Cells) : List (List Ev) → List String → List (List Dg)
  | [], _ => []
  | b :: bs, poisoned =>
    let cx := analyzeBlock H poisoned b
    cx.diags :: enriched H bs cx.poisoned

end Zen.AnyC
