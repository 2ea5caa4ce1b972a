import Verif.Policy.DepGraph
/-
The tree of what a property is derived from (core/engine/src/policy/queries/dependencies.rs).
Left out: the types in the nodes, and targets that no block writes but that are part of a property that one writes
(`field_dependency_node`, dependencies.rs:54-142): for those the tree is put together from the expression that gives the field.
-/
namespace Zen.Policy
open Zen

/-- `DependencyNode` (workspace/types/result.rs:204-212), without the type -/
inductive DNode where
  | mk (property : String) (writtenBy : Option BlockRef) (unresolved : Bool) (deps : List DNode)

/-- What the search looks things up in: the writers of the graph, the form of a path from the entity (`entity_form`), and the
paths that a block reads for a property it writes, each with whether it could not be resolved (`direct_paths`) -/
structure DepEnv where
  writer : String → Option BlockRef
  rewrite : String → Option String
  direct : BlockRef → String → List (String × Bool)

/-- the property a path stands for (dependencies.rs:157-164) -/
def DepEnv.name (E : DepEnv) (target : String) : String :=
  if (E.writer target).isSome then target
  else match E.rewrite target with
    | some ef => if (E.writer ef).isSome then ef else target
    | none => target

/-- `node_cache` -/
abbrev DCache := List (String × DNode)

/-- `build_dep_node` (dependencies.rs:144-273), at most so deep; `visited` is on return what it was before, and so is an argument -/
def DepEnv.build (E : DepEnv) : Nat → List String → DCache → String → Bool → Option ((DNode × Bool) × DCache)
  | 0, _, _, _, _ => none
  | fuel + 1, visited, cache, target, lost =>
    let property := E.name target
    match aGet cache property with
    | some node => some ((node, false), cache)
    | none =>
      let by_ := E.writer property
      let unresolved := by_.isNone && lost
      if visited.contains property then some ((.mk property by_ unresolved [], true), cache)
      else match by_ with
        | none =>
          let node := DNode.mk property none unresolved []
          some ((node, false), aSet cache property node)
        | some owner =>
          match children (fun c q u => E.build fuel (property :: visited) c q u) cache (E.direct owner property) with
          | none => none
          | some ((deps, tainted), cache) =>
            let node := DNode.mk property by_ unresolved deps
            some ((node, tainted), if tainted then cache else aSet cache property node)
where
  /-- the children in order, and whether one of them is tainted (dependencies.rs:239-258) -/
  children (rec : DCache → String → Bool → Option ((DNode × Bool) × DCache)) : DCache → List (String × Bool) → Option ((List DNode × Bool) × DCache)
    | cache, [] => some (([], false), cache)
    | cache, (q, u) :: rest =>
      match rec cache q u with
      | none => none
      | some ((child, t), cache) =>
        match children rec cache rest with
        | none => none
        | some ((deps, t'), cache) => some ((child :: deps, t || t'), cache)

/-! ### The reads of a block -/

/-- the reads recorded for an expression (`record_reads`, blocks/context.rs:417-419), each with whether it could not be resolved;
those of text that is not an expression count as resolved -/
def Cfg.recorded (C : Cfg) (k : Kind) (src : String) : List (List String × Bool) :=
  if src.isEmpty then []
  else match C.F k src with
    | .ok n => (Reads.propReads (isUnary k) n).map fun r => (r.path, r.unresolved)
    | .error _ => ((C.lost k src).filter fun q => !q.isEmpty).map fun q => (q, false)

/-- an expression of a block with its id -/
structure Site where
  id : String
  kind : Kind
  src : String

/-- the expressions in the order in which they are analysed (`analyze`: expression.rs:124-128, assertion.rs:178-181,
match_block.rs:196-221, decision_table.rs:351-392, 428-441, 449). All conditions of an assertion contribute to what it writes, and so does the
one expression of an expression block, so their ids do not matter. -/
def Body.sites : Body → List Site
  | .expression _ value => [⟨"", .standard, value⟩]
  | .assertion a => a.conds.map fun c => ⟨"", .standard, c.expression⟩
  | .match_ m => m.arms.flatMap fun a => [⟨a.id, .standard, a.cond⟩, ⟨a.id, .standard, a.value⟩]
  | .table t => (t.inputs.filterMap fun i => (fieldOf i).map fun f => ⟨i.id, Kind.standard, f⟩) ++
      (t.rules.flatMap fun rule => t.inputs.filterMap fun i => (cellOf rule i.id).map fun cell => ⟨i.id, cellKind i, cell⟩) ++
      t.active.flatMap fun c => t.rules.filterMap fun rule => (cellOf rule c.id).map fun cell => ⟨c.id, Kind.standard, cell⟩

/-- what contributes to what is written: `write_sites` (expression.rs:91-103, assertion.rs:164-176, match_block.rs:140-151,
decision_table.rs:333-349) -/
def Body.contributing : Body → List (String × List String)
  | .expression key value => if key.isEmpty || value.isEmpty then [] else [(key, [""])]
  | .assertion a => if a.output.isEmpty then [] else [(a.output, a.conds.map fun _ => "")]
  | .match_ m => if m.key.isEmpty then [] else [(m.key, m.arms.map Arm.id)]
  | .table t => t.active.map fun c => (c.field, t.inputs.map TInput.id ++ [c.id])

/-- the ids whose reads count for a property: `write_dependency_expr_ids` (blocks/mod.rs:374-382) and `allowed`
(dependencies.rs:202-218) -/
def Body.allowed (b : Body) (property : String) : List String :=
  if b.contributing.any fun w => w.1 = property then (b.contributing.filter fun w => w.1 = property).flatMap Prod.snd
  else (b.contributing.filter fun w => extends_ property w.1).flatMap Prod.snd

/-- the reads of a block with the ids of their expressions -/
def Body.record (C : Cfg) (b : Body) : List (String × String × Bool) :=
  b.sites.flatMap fun s => (C.recorded s.kind s.src).map fun r => (s.id, dots r.1, r.2)

/-- of the reads of a path in an expression only the first is kept: `finish` (blocks/context.rs:343-351) -/
def firstFlag (reads : List (String × String × Bool)) (id path : String) : Bool :=
  ((reads.find? fun r => r.1 = id && r.2.1 = path).map fun r => r.2.2).getD false

/-- `direct_paths` (dependencies.rs:201-237) -/
def Body.direct (C : Cfg) (b : Body) (property : String) : List (String × Bool) :=
  let reads := (b.record C).filter fun r => b.contributing.isEmpty || (b.allowed property).contains r.1
  (dedup (reads.map fun r => r.2.1)).map fun path =>
    (path, (reads.filter fun r => r.2.1 = path).all fun r => firstFlag (b.record C) r.1 path)

/-- what the tree of a policy is built from; there are no entities, so no path has another form -/
def depEnv (C : Cfg) (P : List PBlock) : DepEnv where
  writer p := aGet (graphOf C P).writers p
  rewrite _ := none
  direct r p := match blockAt P r with
    | some b => b.body.direct C p
    | none => []

/-- `dependencies` (dependencies.rs:13-51) of a property that is written, or that is no part of a property that is written; the search is never
deeper than there are properties with a writer, and one more -/
def dependencies (C : Cfg) (P : List PBlock) (target : String) : Option DNode :=
  ((depEnv C P).build ((graphOf C P).writers.length + 2) [] [] target false).map fun r => r.1.1

end Zen.Policy
