import Verif.Analysis.Flow
import Verif.Policy.Validator
import Verif.Policy.Place
/-
Which computed properties hold instances of an entity (core/engine/src/policy/queries/scope.rs:163-273).

Hash tables are association lists. The order in which the keys of one are visited is a parameter. The recursion of
`resolve_instance` is given a number of steps; it ends because a path that is being visited is not visited again, and
`Verif/Props/C71.lean` shows that the number is enough.
-/
namespace Zen.Policy.Inst
open Zen Zen.Policy

/-- `InstanceTarget` (core/engine/src/workspace/types/result.rs:130-135) -/
structure Target where
  target : String
  array : Bool
deriving DecidableEq, Repr

/-- `InstanceSource` (policy/blocks/context.rs:37-41) -/
structure Source where
  path : String
  element : Bool
deriving DecidableEq, Repr

/-- `flow_source` of the analysis (policy/blocks/context.rs:233-243), first pass -/
def sourceOf (n : Node) : Option Source := (Flow.flowOf n).map fun f => ⟨dots f.path, f.element⟩

/-- the loop of `arm_instance_source` (policy/blocks/match_block.rs:255-269) over the values of the arms: `none` for an empty one -/
def armLoop : List (Option Node) → Option Source → Option Source
  | [], shared => shared
  | none :: vs, shared => armLoop vs shared
  | some n :: vs, shared => match sourceOf n with
    | none => none
    | some s => match shared with
      | none => armLoop vs (some s)
      | some e => if e = s then armLoop vs (some e) else none

/-- `arm_instance_source` -/
def armSource (vs : List (Option Node)) : Option Source := armLoop vs none

/-- `EntityGraph` (queries/scope.rs:91-96) without the sources of the entities, and what else the resolution is given: the entities that
references are looked up in, `ref_targets` of `classify_roots` (policy/ir.rs:176-215), and the source of each path that a block writes -/
structure Ents where
  models : List (String × List PProp)
  globals : List (String × PProp)
  pool : List String
  sources : List (String × Source)

/-- the entity a property leads to (scope.rs:233-242, 264-272) -/
def leads (p : PProp) : Option Target :=
  match p.kind with
  | .relationship t => some ⟨t, p.array⟩
  | .reference t => some ⟨t, p.array⟩
  | _ => none

/-- `declared_hop` (scope.rs:261-273) -/
def declared (G : Ents) (entity field : String) : Option Target :=
  match aGet G.models entity with
  | none => none
  | some ps => match ps.find? fun p => p.name == field with
    | none => none
    | some p => leads p

abbrev Memo := List (String × Option Target)

/-- the loop over the segments after the first (scope.rs:246-257); `cum` is `cumulative` -/
def hops (G : Ents) (rec : Memo → String → Option Target × Memo) : Memo → String → Target → List String → Option Target × Memo
  | memo, _, cur, [] => (some cur, memo)
  | memo, cum, cur, f :: fs =>
    let cum := cum ++ "." ++ f
    if cur.array then (none, memo)
    else match declared G cur.target f with
      | some t => hops G rec memo cum t fs
      | none => match rec memo cum with
        | (none, memo) => (none, memo)
        | (some t, memo) => hops G rec memo cum t fs

/-- `resolve_source_path` (scope.rs:216-259) on the segments of the path -/
def srcPath (G : Ents) (rec : Memo → String → Option Target × Memo) (memo : Memo) : List String → Option Target × Memo
  | [] => (none, memo)
  | root :: rest =>
    if (aGet G.models root).isSome then hops G rec memo root ⟨root, G.pool.contains root⟩ rest
    else match aGet G.globals root with
      | some p => match leads p with
        | some t => hops G rec memo root t rest
        | none => (none, memo)
      | none => match rec memo root with
        | (none, memo) => (none, memo)
        | (some t, memo) => hops G rec memo root t rest

/-- an element of what was found (scope.rs:203-208) -/
def pick (src : Source) (t : Target) : Option Target :=
  if src.element then (if t.array then some { t with array := false } else none) else some t

/-- `resolve_instance` (scope.rs:185-214) -/
def resolve (G : Ents) : Nat → List String → Memo → String → Option Target × Memo
  | 0, _, memo, _ => (none, memo)
  | n + 1, visiting, memo, path => match aGet memo path with
    | some known => (known, memo)
    | none =>
      if path ∈ visiting then (none, memo)
      else match aGet G.sources path with
        | none => (none, aSet memo path none)
        | some src => match srcPath G (resolve G n (path :: visiting)) memo (splitDot src.path) with
          | (r, memo) => (r.bind (pick src), aSet memo path (r.bind (pick src)))

/-- `resolve_instance_targets` (scope.rs:163-183), the paths visited in this order -/
def targets (G : Ents) (order : List String) : List (String × Target) :=
  (order.foldl (fun memo p => (resolve G (G.sources.length + 2) [] memo p).2) []).filterMap fun e => e.2.map fun t => (e.1, t)

end Zen.Policy.Inst
