import Verif.Expr.Ev
import Verif.Core.Merge
import Verif.Engine.Table
/-
Decision graphs: the stable graph of petgraph as far as the engine uses it, the removal of edges by
switches and the walker (core/engine/src/decision_graph/walker.rs), and the evaluation loop
(core/engine/src/decision_graph/graph.rs). What a node computes is a parameter here (`GCfg.handle`);
Verif/Engine/Engine.lean fills it in.
-/
namespace Zen

/-- `SwitchStatement` (types/src/decision/mod.rs:192-197) -/
structure Stmt where
  id : String
  condition : String

/-- `Expression` (types/src/decision/mod.rs:176-182) -/
structure ExprItem where
  key : String
  value : String

/-- `TransformAttributes` (types/src/decision/mod.rs:207-218); `loop` is `TransformExecutionMode::Loop` -/
structure Attrs where
  inputField : Option String := none
  outputPath : Option String := none
  loop : Bool := false
  passThrough : Bool := false

/-- `DecisionNodeKind` (types/src/decision/mod.rs:42-69). Function and custom nodes run foreign code
and are one kind here; a schema is named by its text. -/
inductive NKind where
  | input (schema : Option String)
  | output (schema : Option String)
  | switch (hit : HitPolicy) (stmts : List Stmt)
  | expression (items : List ExprItem) (attrs : Attrs)
  | table (t : Table) (attrs : Attrs)
  | decision (key : String) (attrs : Attrs)
  | foreign (code : String)

namespace NKind
def isInput : NKind → Bool | .input _ => true | _ => false
def isOutput : NKind → Bool | .output _ => true | _ => false
def isSwitch : NKind → Bool | .switch _ _ => true | _ => false
end NKind

/-- `DecisionNode` (types/src/decision/mod.rs:26-34) -/
structure GNode where
  id : String
  name : String
  kind : NKind

/-- `DecisionEdge` (types/src/decision/mod.rs:17-24) -/
structure EdgeDoc where
  source : String
  target : String
  handle : Option String

/-- An edge of the stable graph: its index, its end points (node indices), and the source handle of
its weight. -/
structure GEdge where
  id : Nat
  src : Nat
  tgt : Nat
  handle : Option String
deriving DecidableEq

/-- `StableDiGraph` (petgraph, library): the nodes that were not removed, by index, ascending; the
edges that were not removed, in the order they were added. -/
structure Graph where
  nodes : List (Nat × GNode)
  edges : List GEdge

namespace Graph

/-- `node_weight` -/
def node? (g : Graph) (n : Nat) : Option GNode := (g.nodes.find? (·.1 = n)).map Prod.snd

/-- `edges_directed(n, Outgoing)`: petgraph keeps the edges of a node in a linked list with the
newest first. -/
def outE (g : Graph) (n : Nat) : List GEdge := (g.edges.filter (·.src = n)).reverse
/-- `edges_directed(n, Incoming)` -/
def inE (g : Graph) (n : Nat) : List GEdge := (g.edges.filter (·.tgt = n)).reverse

/-- `neighbors_directed` -/
def succs (g : Graph) (n : Nat) : List Nat := (g.outE n).map (·.tgt)
def preds (g : Graph) (n : Nat) : List Nat := (g.inE n).map (·.src)

/-- `remove_edge` -/
def removeEdge (g : Graph) (id : Nat) : Graph := { g with edges := g.edges.filter (·.id ≠ id) }

/-- `remove_node`, which also removes the edges at the node -/
def removeNode (g : Graph) (n : Nat) : Graph :=
  { nodes := g.nodes.filter (·.1 ≠ n), edges := g.edges.filter fun e => e.src ≠ n ∧ e.tgt ≠ n }

/-- `if g.edges(nid).count().is_zero() { g.remove_node(nid) }` (walker.rs:290-292); `edges` are the
outgoing ones -/
def dropIfDone (g : Graph) (n : Nat) : Graph := if (g.outE n).isEmpty then g.removeNode n else g

/-- `remove_edge_recursive` (walker.rs:271-295). The first argument bounds the recursion depth; a
call on an edge that is gone does nothing, so the number of edges suffices (`C30_removal_fuel`). -/
def removeRec : Nat → Graph → Nat → Graph
  | 0, g, _ => g
  | fuel + 1, g, id => match g.edges.find? (·.id = id) with
    | none => g                                                        -- walker.rs:272-274
    | some e =>
      let g := g.removeEdge id
      -- (target_nid, Incoming)
      let g := if (g.inE e.tgt).isEmpty
        then (((g.outE e.tgt).map (·.id)).foldl (removeRec fuel) g).dropIfDone e.tgt else g
      -- (source_nid, Outgoing)
      if (g.outE e.src).isEmpty
        then (((g.inE e.src).map (·.id)).foldl (removeRec fuel) g).dropIfDone e.src else g

end Graph

/-- `build_graph` (graph.rs:64-90): node indices are positions; `index_map` keeps the last node of
an id; an edge with an unknown end is an error. -/
def indexOf (nodes : List GNode) (id : String) : Option Nat :=
  (nodes.zipIdx.reverse.find? (·.1.id = id)).map Prod.snd

/-- `DecisionGraphValidationError` (decision_graph/error.rs), and the errors of an evaluation
(core/engine/src/error.rs) -/
inductive GErr where
  | missingNode (id : String)
  | invalidInputCount (n : Nat)
  | cyclic
  | depthLimit
  | node (id : String) (msg : String)
deriving DecidableEq

/-- the edge loop of `build_graph` (graph.rs:77-87) -/
def buildEdges (nodes : List GNode) : Nat → List EdgeDoc → Except GErr (List GEdge)
  | _, [] => .ok []
  | i, e :: r => match indexOf nodes e.source with
    | none => .error (.missingNode e.source)
    | some s => match indexOf nodes e.target with
      | none => .error (.missingNode e.target)
      | some t => match buildEdges nodes (i + 1) r with
        | .error er => .error er
        | .ok es => .ok (⟨i, s, t, e.handle⟩ :: es)

/-- `build_graph` (graph.rs:64-90) -/
def buildGraph (nodes : List GNode) (edges : List EdgeDoc) : Except GErr Graph :=
  match buildEdges nodes 0 edges with
  | .error e => .error e
  | .ok es => .ok ⟨nodes.zipIdx.map fun p => (p.2, p.1), es⟩

/-- what is left after removing, again and again, the edges that leave a node without incoming
edges -/
def peel : Nat → List GEdge → List GEdge
  | 0, es => es
  | k + 1, es => peel k (es.filter fun e => es.any (·.tgt = e.src))

/-- `petgraph::algo::is_cyclic_directed` (library). The library runs a depth-first search; this
stands for it, `C31_cyclic` shows that it decides the existence of a cycle. -/
def Graph.isCyclic (g : Graph) : Bool := !(peel g.edges.length g.edges).isEmpty

/-- `validate` (graph.rs:96-113) -/
def Graph.validate (g : Graph) : Except GErr Unit :=
  let inputs := (g.nodes.filter (·.2.kind.isInput)).length
  if inputs ≠ 1 then .error (.invalidInputCount inputs)
  else if g.isCyclic then .error .cyclic
  else .ok ()

/-- `NodeData` (walker.rs:23-27) -/
structure NodeData where
  name : String
  data : Val
  nodesView : Option Val := none

/-- What tracing reports about a switch (walker.rs:191-208, 297-306): its input and the ids of the
chosen statements. `nodes` is the `$nodes` the conditions could see (not part of the report). -/
structure SwitchTrace where
  node : Nat
  input : Val
  nodes : Option Val
  valid : List String

/-- `GraphWalker` (walker.rs:29-37). `ordered` is a bit set, `toVisit` a stack (top first here),
`data` a hash map. `strace` collects what is passed to `on_trace`. -/
structure Walker where
  iter : Nat := 0
  data : List (Nat × NodeData) := []
  ordered : List Nat := []
  toVisit : List Nat := []
  switches : List Nat := []
  strace : List SwitchTrace := []

/-- The surroundings of a graph evaluation: front end and built-ins for the conditions of switches,
the node handlers, whether `$nodes` is offered (`ZEN_CONFIG.nodes_in_context`), and the iteration
order of the hash map `node_data`. A handler receives the node, its input and `$nodes`. -/
structure GCfg where
  F : FrontEnd
  B : Builtins
  handle : GNode → Val → Option Val → Except String Val
  nodesInContext : Bool
  ord : List (Nat × NodeData) → List (Nat × NodeData)

namespace Walker

/-- walker.rs:39 -/
def ITER_MAX : Nat := 1000

/-- `node_data.get` -/
def dataOf (w : Walker) (n : Nat) : Option NodeData := (w.data.find? (·.1 = n)).map Prod.snd

/-- `initialize_input_nodes` (walker.rs:48-55) -/
def inputNodes (g : Graph) : List Nat := (g.nodes.filter (·.2.kind.isInput)).map Prod.fst

/-- `self.to_visit.extend(l)`: the last element is on top -/
def push (w : Walker) (l : List Nat) : Walker := { w with toVisit := l.reverse ++ w.toVisit }

/-- `new` (walker.rs:42-46) -/
def new (g : Graph) : Walker := ({} : Walker).push (inputNodes g)

/-- `reset` (walker.rs:69-75) -/
def reset (w : Walker) (g : Graph) : Walker :=
  { ({ w with ordered := [], toVisit := [] } : Walker).push (inputNodes g) with iter := w.iter + 1 }

/-- `get_all_node_data` and `nodes_context` (walker.rs:95-114) -/
def nodesContext (C : GCfg) (w : Walker) : Option Val :=
  if C.nodesInContext then
    some (.obj ((C.ord w.data).foldl (fun m p => aSet m p.2.name (p.2.nodesView.getD p.2.data)) []))
  else none

/-- the head of `merge_node_data` (walker.rs:135-138) -/
def headVal : Val → Val
  | .obj m => .obj m
  | .arr xs => .arr xs
  | _ => .obj []

/-- `merge_node_data` (walker.rs:126-141) on the data found -/
def mergeData : List Val → Val
  | [] => .obj []
  | d :: ds => ds.foldl Val.mergeClone (headVal d)

/-- `incoming_node_data` (walker.rs:116-124) -/
def incoming (w : Walker) (g : Graph) (n : Nat) : Val :=
  mergeData (((g.preds n).filterMap w.dataOf).map NodeData.data)

/-- `ending_variables` (walker.rs:81-93) -/
def ending (w : Walker) (g : Graph) : Val :=
  (g.nodes.map Prod.fst).foldl (fun acc n =>
    if n ∈ w.ordered ∧ (g.succs n).isEmpty then
      match w.dataOf n with
      | none => acc
      | some d => acc.merge d.data
    else acc) (.obj [])

/-- `switch_statement_evaluate` (walker.rs:261-269) -/
def stmtHolds (C : GCfg) (e : Ev) (s : Stmt) : Bool :=
  if s.condition.isEmpty then true
  else match e.run C.F C.B s.condition with
    | .ok (.bool b) => b
    | _ => false

/-- the isolate of a switch (walker.rs:171-174) -/
def switchEv (input : Val) (nodes : Option Val) : Ev :=
  let e : Ev := { scope := { base := input } }
  match nodes with
  | some v => e.setLocal "$nodes" v
  | none => e

/-- `valid_statements` (walker.rs:176-189) -/
def validStmts (C : GCfg) (e : Ev) (hit : HitPolicy) (stmts : List Stmt) : List String :=
  match hit with
  | .first => ((stmts.find? (stmtHolds C e)).toList).map Stmt.id
  | .collect => (stmts.filter (stmtHolds C e)).map Stmt.id

/-- the filter of `edges_to_remove` (walker.rs:211-220) -/
def edgeInvalid (valid : List String) (e : GEdge) : Bool :=
  match e.handle with
  | none => true
  | some h => !valid.contains h

/-- outcome of one iteration of the loop in `next` -/
inductive Step where
  | stop                             -- `return None`, or the stack is empty
  | visit (n : Nat) (g : Graph) (w : Walker)
  | again (g : Graph) (w : Walker)

/-- `all_dependencies_resolved`, `get_unresolved_dependencies` (walker.rs:244-258) -/
def unresolved (w : Walker) (g : Graph) (n : Nat) : List Nat :=
  (g.preds n).filter (· ∉ w.ordered)

/-- one iteration of `while let Some(nid) = self.to_visit.pop()` (walker.rs:153-240) -/
def step (C : GCfg) (g : Graph) (w : Walker) : Step :=
  match w.toVisit with
  | [] => .stop
  | n :: rest =>
    let w : Walker := { w with toVisit := rest }
    if n ∈ w.ordered then .again g w
    else if ¬ (w.unresolved g n).isEmpty then
      .again g (({ w with toVisit := n :: rest } : Walker).push (w.unresolved g n))
    else
      let w : Walker := { w with ordered := n :: w.ordered }
      match g.node? n with
      | none => .stop
      | some node => match node.kind with
        | .switch hit stmts =>
          if n ∈ w.switches then .visit n g (w.push (g.succs n))
          else
            let input := w.incoming g n
            let nodes := w.nodesContext C
            let valid := validStmts C (switchEv input nodes) hit stmts
            let drop := ((g.outE n).filter (edgeInvalid valid)).map (·.id)
            let g := drop.foldl (fun g id => g.removeRec (g.edges.length + 1) id) g
            let w : Walker := { w with
              switches := w.switches ++ [n], strace := w.strace ++ [⟨n, input, nodes, valid⟩] }
            if drop.isEmpty then .visit n g (w.push (g.succs n)) else .again g (w.reset g)
        | _ => .visit n g (w.push (g.succs n))

/-- `next` (walker.rs:143-242): `none` when the fuel ran out; otherwise the node to visit, if any,
and the new state -/
def next (C : GCfg) : Nat → Graph → Walker → Option (Option Nat × Graph × Walker)
  | 0, _, _ => none
  | fuel + 1, g, w => match step C g w with
    | .stop => some (none, g, w)
    | .visit n g w => some (some n, g, w)
    | .again g w => next C fuel g w

/-- with the guard at the start of `next` (walker.rs:149-151) -/
def nextGuarded (C : GCfg) (fuel : Nat) (g : Graph) (w : Walker) :
    Option (Option Nat × Graph × Walker) :=
  if w.iter ≥ ITER_MAX then some (none, g, w) else next C fuel g w
end Walker

/-- one handled node: its index, the input it was given, the output it returned -/
structure Handled where
  node : Nat
  input : Val
  output : Val

/-- the result of the loop: the graph and the walker at the end, the nodes handled (oldest first),
and whether an output node ended the loop -/
structure Walked where
  graph : Graph
  walker : Walker
  log : List Handled
  atOutput : Bool

/-- `nodes_view` (graph.rs:273-280) -/
def nodesViewOf (parent : Option Val) (node : GNode) (output : Val) : Option Val :=
  match node.kind, parent with
  | .input _, some p => some (output.dotInsert "$nodes" p).1
  | _, _ => none

/-- what a visited node returns: the input node receives the context, a switch passes its input on,
all others go to their handler (graph.rs:188-241) -/
def nodeResult (C : GCfg) (ctx : Val) (node : GNode) (input : Val) (nodes : Option Val) :
    Except String Val :=
  match node.kind with
  | .switch _ _ => .ok input
  | .input _ => C.handle node ctx nodes
  | _ => C.handle node input nodes

/-- the loop of `evaluate` (graph.rs:178-295); `none` when the fuel ran out -/
def evalLoop (C : GCfg) (ctx : Val) (parent : Option Val) :
    Nat → Graph → Walker → List Handled → Option (Except GErr Walked)
  | 0, _, _, _ => none
  | fuel + 1, g, w, log => match w.nextGuarded C fuel g with
    | none => none
    | some (none, g, w) => some (.ok ⟨g, w, log, false⟩)
    | some (some n, g, w) =>
      if (w.dataOf n).isSome then evalLoop C ctx parent fuel g w log
      else match g.node? n with
        | none => some (.error (.node "" "index out of bounds"))    -- `self.graph[nid]` would panic
        | some node =>
          let input := w.incoming g n
          match nodeResult C ctx node input (w.nodesContext C) with
          | .error m => some (.error (.node node.id m))
          | .ok out =>
            let w : Walker := { w with data := w.data ++ [(n, ⟨node.name, out, nodesViewOf parent node out⟩)] }
            let log := log ++ [⟨n, (if node.kind.isInput then ctx else input), out⟩]
            if node.kind.isOutput then some (.ok ⟨g, w, log, true⟩)
            else evalLoop C ctx parent fuel g w log

/-- `evaluate` (graph.rs:164-319) up to the cleaning of the result; `iteration` is the nesting depth -/
def evalGraph (C : GCfg) (maxDepth iteration : Nat) (ctx : Val) (parent : Option Val) (fuel : Nat)
    (g : Graph) : Option (Except GErr Walked) :=
  match g.validate with
  | .error e => some (.error e)
  | .ok () =>
    if iteration ≥ maxDepth then some (.error .depthLimit)
    else evalLoop C ctx parent fuel g (Walker.new g) []

end Zen
