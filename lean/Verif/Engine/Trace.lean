import Verif.Engine.Graph
/-
The trace of a graph evaluation (core/engine/src/decision_graph/tracer.rs), and the loop of `evaluate`
once more with the calls that fill it.
Not modelled: the durations, and the cleaning of the values in a trace at its end.
-/
namespace Zen

/-- `DecisionGraphTrace` (tracer.rs:76-91), without `performance` -/
structure NTrace where
  id : String
  name : String
  input : Val
  output : Val
  traceData : Option Val
  order : Nat

/-- the hash map of `NodeTracer` (tracer.rs:9); `none` when tracing is off -/
abbrev Tracer := Option (List (String × NTrace))

/-- `NodeTracer::new` (tracer.rs:12-14) -/
def Tracer.new (enabled : Bool) : Tracer := if enabled then some [] else none

/-- `trace.order = traces.len(); traces.insert(trace.id, trace)` (tracer.rs:41, 59, 68-69) -/
def traceInsert (ts : List (String × NTrace)) (t : NTrace) : List (String × NTrace) :=
  aSet ts t.id { t with order := ts.length }

/-- `SwitchStatementTrace` (walker.rs:296-304) -/
def statementsVal (valid : List String) : Val :=
  .obj [("statements", .arr (valid.map fun id => .obj [("id", .str id)]))]

/-- what a switch passes to `on_trace` (walker.rs:191-208); `depth_clone(1)` of a value is an equal
value -/
def switchTrace (node : GNode) (t : SwitchTrace) : NTrace where
  id := node.id
  name := node.name
  input := t.input
  output := t.input
  traceData := some (statementsVal t.valid)
  order := 0

/-- `trace_callback` (tracer.rs:62-71). The node of the switch is looked up in the graph at the start
of the evaluation: the walker removes nodes but never changes one. -/
def Tracer.callback (g : Graph) (tr : Tracer) (t : SwitchTrace) : Tracer :=
  match tr, g.node? t.node with
  | some ts, some node => some (traceInsert ts (switchTrace node t))
  | _, _ => tr

/-- the output recorded for a node (tracer.rs:42, 47-57) -/
def tracedOutput (node : GNode) (result : Except String Val) : Val :=
  match result with
  | .ok out => if node.kind.isOutput then .null else out
  | .error _ => .null

/-- `record_execution` (tracer.rs:16-60); `data` is the trace data of the response or of the error -/
def Tracer.record (tr : Tracer) (node : GNode) (input : Val) (result : Except String Val) (data : Option Val) : Tracer :=
  match tr with
  | none => none
  | some ts =>
    if node.kind.isSwitch then some ts
    else some (traceInsert ts
      { id := node.id, name := node.name
        input := if node.kind.isInput then .null else input
        output := tracedOutput node result
        traceData := data, order := 0 })

/-- the surroundings with the trace data a handler reports for a node, its input and `$nodes` -/
structure TCfg extends GCfg where
  data : GNode → Val → Option Val → Option Val

/-- the loop of `evaluate` (graph.rs:175-295) with the tracer. `next` passes what switches decide to
the callback while it runs: here, what it added to `strace`, in order. `g0` is the graph at the start. -/
def evalTraced (T : TCfg) (g0 : Graph) (ctx : Val) (parent : Option Val) :
    Nat → Graph → Walker → List Handled → Tracer → Option (Except (GErr × Tracer) (Walked × Tracer))
  | 0, _, _, _, _ => none
  | fuel + 1, g, w, log, tr => match w.nextGuarded T.toGCfg fuel g with
    | none => none
    | some (none, g, w') => some (.ok (⟨g, w', log, false⟩, (w'.strace.drop w.strace.length).foldl (Tracer.callback g0) tr))
    | some (some n, g, w') =>
      let tr := (w'.strace.drop w.strace.length).foldl (Tracer.callback g0) tr
      if (w'.dataOf n).isSome then evalTraced T g0 ctx parent fuel g w' log tr
      else match g.node? n with
        | none => some (.error (.node "" "index out of bounds", tr))
        | some node =>
          let input := w'.incoming g n
          let nodes := w'.nodesContext T.toGCfg
          let result := nodeResult T.toGCfg ctx node input nodes
          let data := T.data node (if node.kind.isInput then ctx else input) nodes
          let tr := tr.record node input result data
          match result with
          | .error m => some (.error (.node node.id m, tr))
          | .ok out =>
            let w' : Walker := { w' with data := w'.data ++ [(n, ⟨node.name, out, nodesViewOf parent node out⟩)] }
            let log := log ++ [⟨n, (if node.kind.isInput then ctx else input), out⟩]
            if node.kind.isOutput then some (.ok (⟨g, w', log, true⟩, tr))
            else evalTraced T g0 ctx parent fuel g w' log tr

/-- `evaluate` (graph.rs:164-319) with the tracer; `enabled` is `config.trace` -/
def evalGraphTraced (T : TCfg) (enabled : Bool) (maxDepth iteration : Nat) (ctx : Val) (parent : Option Val) (fuel : Nat)
    (g : Graph) : Option (Except (GErr × Tracer) (Walked × Tracer)) :=
  match g.validate with
  | .error e => some (.error (e, none))
  | .ok () =>
    if iteration ≥ maxDepth then some (.error (.depthLimit, none))
    else evalTraced T g ctx parent fuel g (Walker.new g) [] (Tracer.new enabled)

end Zen
