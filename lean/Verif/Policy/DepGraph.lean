import Verif.Policy.Unit
/-
The graph of the properties of a policy and what is computed from it before a run: what the goals need, which inputs have
to be there, and what is run when no goals are given (core/engine/src/policy/queries/dependency.rs,
core/engine/src/policy/evaluator.rs).
Left out: policies with entities (`entity_form` rewrites no path, dependency.rs:418-419, 510-516, and `input_satisfied` has
no entity to look up, evaluator.rs:220-229), the types kept in the nodes, the validation of the input against the data model
(evaluator.rs:163-168), and references (evaluator.rs:124-130). All blocks belong to policies that are visible, so a path
with a writer is never an input (dependency.rs:281-284: `visible` holds the policies of the unit, and so do the blocks of the graph).
-/
namespace Zen.Policy
open Zen

/-! ### The graph -/

/-- `RuleShallowAnalysis` (dependency.rs:50-56) -/
structure RuleIO where
  ref : BlockRef
  reads : List String
  writes : List String

/-- `DependencyGraph` and `EvalGraph` (dependency.rs:77-81, 173-178; `from_graph` copies the graph and takes the writers out of
the nodes, dependency.rs:181-212). A node is its path. -/
structure PGraph where
  nodes : List String
  edges : List (String × String)
  writers : List (String × BlockRef)

/-- the writes that are looked at: `if data_model_paths.matches_prefix(..).is_some() { continue; }` (dependency.rs:434-436, 497-499) -/
def RuleIO.kept (model : String → Bool) (r : RuleIO) : List String := r.writes.filter fun w => !model w

/-- the prefixes of a written path that become nodes (dependency.rs:461-469) -/
def above (model : String → Bool) (w : String) : List String := (dotPrefixes w).filter fun p => !model p

/-- the nodes (dependency.rs:421-445, 470-477); the code keeps them in a map, so each once -/
def graphNodes (model : String → Bool) (rules : List RuleIO) : List String :=
  rules.flatMap fun r => r.reads ++ (r.kept model).flatMap fun w => w :: above model w

/-- the edges from a written path to what it is part of (dependency.rs:488-490; a path is never its own proper prefix) -/
def upEdges (model : String → Bool) (rules : List RuleIO) : List (String × String) :=
  rules.flatMap fun r => (r.kept model).flatMap fun w => (above model w).map fun p => (w, p)

/-- the edges from one read to one write of a block (dependency.rs:504-509, 518-531) -/
def readEdges (nodes : List String) (writers : List (String × BlockRef)) (read write : String) : List (String × String) :=
  (if nodes.contains read && (read != write && !extends_ read write) then [(read, write)] else []) ++
    ((dotPrefixes read).filter fun a => nodes.contains a && (a != write && ((aGet writers a).isSome && !extends_ a write))).map fun a => (a, write)

/-- `compute_graph` (dependency.rs:409-537) -/
def computeGraph (model : String → Bool) (rules : List RuleIO) : PGraph :=
  let writers := computeWriters model (rules.map fun r => ⟨r.ref, r.writes⟩)
  let nodes := graphNodes model rules
  { nodes, writers,
    edges := upEdges model rules ++
      rules.flatMap fun r => (r.kept model).flatMap fun w => r.reads.flatMap fun x => readEdges nodes writers x w }

/-- `neighbors_directed(idx, Incoming)`; the last one pushed is the first to be taken, and the graph gives the edges added last
first -/
def PGraph.ups (G : PGraph) (p : String) : List String := (G.edges.filter fun e => e.2 = p).map Prod.fst

/-- the loop of `reachable_from` (dependency.rs:263-270), so many times; the top of the stack is the head of the list -/
def PGraph.visit (G : PGraph) : Nat → List String → List String → Option (List String)
  | _, [], seen => some seen
  | 0, _ :: _, _ => none
  | n + 1, p :: stack, seen => if p ∈ seen then G.visit n stack seen else G.visit n (G.ups p ++ stack) (seen ++ [p])

/-- the goals that are nodes (dependency.rs:259-262) -/
def PGraph.start (G : PGraph) (goals : List String) : List String := (goals.filter fun g => G.nodes.contains g).reverse

/-- `reachable_from` (dependency.rs:256-272; 136-153 is the same); the loop ends within this many turns -/
def PGraph.reachable (G : PGraph) (goals : List String) : List String :=
  (G.visit (goals.length + G.edges.length) (G.start goals) []).getD []

/-- `reachable_input_paths` (dependency.rs:274-286) -/
def PGraph.inputs (G : PGraph) (goals : List String) : List String := (G.reachable goals).filter fun p => (aGet G.writers p).isNone

/-- `terminal_sinks` (dependency.rs:288-308) -/
def PGraph.sinks (G : PGraph) : List String :=
  dedup (G.nodes.filter fun p => (aGet G.writers p).isSome && !G.edges.any fun e => e.1 = p)

/-! ### A request -/

/-- the reads recorded for an expression (`record_reads`, blocks/context.rs:417-419): those that could not be resolved are
among them -/
def Cfg.noted (C : Cfg) (k : Kind) (src : String) : List (List String) :=
  if src.isEmpty then []
  else match C.F k src with
    | .ok n => Reads.reported (isUnary k) n
    | .error _ => (C.lost k src).filter fun q => !q.isEmpty

/-- what a block reads and writes according to the first analysis (`compute_shallow`, dependency.rs:363-384; `analyze`:
expression.rs:124-140, assertion.rs:178-190, match_block.rs:191-253, decision_table.rs:351-522): the same expressions as in the
plan of its reads -/
def PBlock.io (C : Cfg) (b : PBlock) : RuleIO :=
  ⟨b.ref, ((b.body.sources ++ b.body.later).flatMap fun s => C.noted s.1 s.2).map dots, b.body.writes⟩

/-- the graph of the policy (workspace/db.rs:856-860) -/
def graphOf (C : Cfg) (P : List PBlock) : PGraph := computeGraph C.model (P.map (PBlock.io C))

/-- `input_path_satisfied` (evaluator.rs:232-244), on the segments -/
def satisfied : Val → List String → Bool
  | _, [] => true
  | .arr _, _ :: _ => true
  | .obj m, k :: ks => match aGet m k with
    | some v => satisfied v ks
    | none => false
  | _, _ :: _ => false

/-- `is_optional` (dependency.rs:704-706) -/
def isOptional (optional : List String) (p : String) : Bool := optional.contains p || optional.any fun o => extends_ o p

/-- the inputs that are not there (evaluator.rs:193-202) -/
def missing (C : Cfg) (P : List PBlock) (optional goals : List String) (input : Val) : List String :=
  sortBy (fun a b => decide (a ≤ b)) (((graphOf C P).inputs goals).filter fun p => !isOptional optional p && !satisfied input (splitDot p))

/-- `EvaluationError`, as far as it is about a request -/
inductive ReqErr where
  | goalNotFound (goal : String)
  | missingInputs (paths : List String)
  | run (e : XErr)

/-- `EvalArtifact::evaluate` (evaluator.rs:112-155) with `validate_request` and `compute_order_to_run` (evaluator.rs:157-214) -/
def request (C : Cfg) (P : List PBlock) (optional goals : List String) (input : Val) : Option (Except ReqErr Val) :=
  match goals.find? fun g => !(graphOf C P).nodes.contains g with
  | some g => some (.error (.goalNotFound g))
  | none =>
    if goals.isEmpty then (runPolicy C P (graphOf C P).sinks input).map fun r => r.mapError .run
    else if (missing C P optional goals input).isEmpty then (runPolicy C P goals input).map fun r => r.mapError .run
    else some (.error (.missingInputs (missing C P optional goals input)))

end Zen.Policy
