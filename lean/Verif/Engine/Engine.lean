import Verif.Engine.GraphEval
import Verif.Core.Dot
/-
The engine above the graph: the node handlers, transform attributes, nested decisions and the
cleaning of results. Function and custom nodes, JSON schema validation and the loader are
parameters.
-/
namespace Zen

/-! ## Transform attributes -/

/-- A node handler as `run_with` sees it (transform_attributes.rs:9-12): it receives an input and
`has_more` and may carry state `σ` from call to call. -/
abbrev Handler (σ : Type) := σ → Val → Bool → Except String Val × σ

/-- the loop over the elements (transform_attributes.rs:52-70) -/
def runLoop {σ : Type} (h : Handler σ) (passThrough : Bool) : σ → List Val → Except String (List Val) × σ
  | s, [] => (.ok [], s)
  | s, x :: xs => match h s x (!xs.isEmpty) with
    | (.error e, s) => (.error e, s)
    | (.ok out, s) =>
      let out := if passThrough then x.mergeClone out else out
      match runLoop h passThrough s xs with
      | (.error e, s) => (.error e, s)
      | (.ok outs, s) => (.ok (out :: outs), s)

/-- output path and pass through (transform_attributes.rs:76-86) -/
def shapeOutput (a : Attrs) (nodeInput output : Val) : Val :=
  let output := match a.outputPath with
    | some p => ((Val.obj []).dotInsert p output).1
    | none => output
  if a.passThrough then nodeInput.mergeClone output else output

/-- the input of the handler: the whole input, or the value of the input field
(transform_attributes.rs:21-29); `sel` evaluates the field in the isolate of the node -/
def selectInput (a : Attrs) (nodeInput : Val) (sel : String → Except String Val) : Except String Val :=
  match a.inputField with
  | none => .ok nodeInput
  | some f => sel f

/-- `run_with` (transform_attributes.rs:16-89) -/
def runWith {σ : Type} (a : Attrs) (nodeInput : Val) (sel : String → Except String Val) (h : Handler σ) (s : σ) :
    Except String Val × σ :=
  match selectInput a nodeInput sel with
  | .error e => (.error e, s)
  | .ok input =>
    if a.loop then
      match input with
      | .arr xs => match runLoop h a.passThrough s xs with
        | (.error e, s) => (.error e, s)
        | (.ok outs, s) => (.ok (shapeOutput a nodeInput (.arr outs)), s)
      | _ => (.error "Expected an array", s)
    else match h s input false with
      | (.error e, s) => (.error e, s)
      | (.ok out, s) => (.ok (shapeOutput a nodeInput out), s)

/-! ## Cleaning -/

mutual
/-- `VariableCleaner::clean` (cleaner.rs:18-53), on data; the set of visited cells is about sharing.
The code removes `$nodes` from an object and then cleans the values that are left; here they are
cleaned first, which recurses structurally. -/
def Val.clean : Val → Val
  | .obj m => .obj (aErase (Val.cleanE m) "$nodes")
  | .arr xs => .arr (Val.cleanL xs)
  | v => v
def Val.cleanL : List Val → List Val
  | [] => []
  | x :: xs => Val.clean x :: Val.cleanL xs
def Val.cleanE : List (String × Val) → List (String × Val)
  | [] => []
  | (k, v) :: m => (k, Val.clean v) :: Val.cleanE m
end

/-! ## Handlers -/

/-- `GraphContent` (types/src/decision/mod.rs): nodes and edges of a document -/
structure Content where
  nodes : List GNode
  edges : List EdgeDoc

/-- The surroundings of the engine. `schema` validates a value (library), `loader` finds a
sub-decision, `foreign` runs function and custom nodes. -/
structure Env where
  F : FrontEnd
  B : Builtins
  schema : String → Val → Except String Unit
  loader : String → Except String Content
  foreign : GNode → Val → Option Val → Except String Val
  nodesInContext : Bool
  ord : List (Nat × NodeData) → List (Nat × NodeData)
  compiled : Bool
  trace : Bool

/-- `make_isolate` (nodes/context.rs:220-232) -/
def nodeScope (input : Val) (nodes : Option Val) : Scope :=
  ⟨input, match nodes with | some v => [("$nodes", v)] | none => []⟩

/-- the loop of the expression handler (nodes/expression/mod.rs:32-54) -/
def runItems (F : FrontEnd) (B : Builtins) : List ExprItem → Ev → Val → Except String Val
  | [], _, result => .ok result
  | it :: rest, e, result =>
    if it.key = "" ∨ it.value = "" then runItems F B rest e result
    else match e.run F B it.value with
      | .error _ => .error ("Failed to evaluate expression: \"" ++ it.value ++ "\"")
      | .ok v => runItems F B rest (e.apply F B (.insertDollar it.key v)).2 (result.dotInsert it.key v).1

/-- `InputNodeHandler`, `OutputNodeHandler` (nodes/input/mod.rs:17-23, nodes/output/mod.rs:17-23) -/
def checked (E : Env) (schema : Option String) (input : Val) : Except String Val :=
  match schema with
  | none => .ok input
  | some s => match E.schema s input with
    | .error m => .error m
    | .ok () => .ok input

/-- a handler without state -/
def plain (f : Val → Except String Val) : Handler Unit := fun _ v _ => (f v, ())

/-- the input field of the attributes (transform_attributes.rs:23-28) -/
def selField (E : Env) (input : Val) (nodes : Option Val) (f : String) : Except String Val :=
  match freshRun E.F E.B (nodeScope input nodes) .standard f with
  | .error _ => .error "Failed to evaluate expression"
  | .ok v => .ok v

/-- `handle_node` (graph.rs:392-425) for each kind of node (graph.rs:188-241); `sub` evaluates a
nested decision. Each element of a loop starts from the unchanged graph
(nodes/decision/mod.rs:29-38), so a nested decision has no state. -/
def handleNode (E : Env) (sub : String → Val → Option Val → Except String Val) (node : GNode) (input : Val)
    (nodes : Option Val) : Except String Val :=
  match node.kind with
  | .input s => checked E s input
  | .output s => checked E s input
  | .switch _ _ => .ok input
  | .expression items a => (runWith a input (selField E input nodes)
      (plain fun x => runItems E.F E.B items { scope := nodeScope x nodes } (.obj [])) ()).1
  | .table t a => (runWith a input (selField E input nodes)
      (plain fun x => .ok (runTable E.F E.B t E.compiled E.trace (nodeScope x nodes)).output) ()).1
  | .decision key a => (runWith a input (selField E input nodes) (plain fun x => sub key x nodes) ()).1
  | .foreign _ => E.foreign node input nodes

/-! ## Evaluation -/

open Classical in
/-- The result of `evalGraph`, which does not depend on the fuel (`evalGraph_det`) and exists
(`C31_terminates`). -/
noncomputable def evalGraphT (C : GCfg) (maxDepth iteration : Nat) (ctx : Val) (parent : Option Val) (g : Graph) :
    Except GErr Walked :=
  if h : ∃ r fuel, evalGraph C maxDepth iteration ctx parent fuel g = some r then Classical.choose h
  else .error .depthLimit

/-- text of an error (`err.to_string()` in nodes/decision/mod.rs:107) -/
def GErr.text : GErr → String
  | .missingNode id => "Missing node " ++ id
  | .invalidInputCount _ => "Invalid input count"
  | .cyclic => "Cyclic graph"
  | .depthLimit => "Depth limit exceeded"
  | .node _ m => m

/-- configuration of the graph evaluation for a given way to run nested decisions -/
def Env.cfg (E : Env) (sub : String → Val → Option Val → Except String Val) : GCfg where
  F := E.F
  B := E.B
  handle := handleNode E sub
  nodesInContext := E.nodesInContext
  ord := E.ord

/-- `DecisionGraph::try_new` and `evaluate` (graph.rs:50-58, 164-319) with the budget
`maxDepth - iteration`. The result is not cleaned here. -/
noncomputable def Env.evalContent (E : Env) (sub : String → Val → Option Val → Except String Val) (d : Nat) (c : Content)
    (ctx : Val) (parent : Option Val) : Except GErr Val :=
  match buildGraph c.nodes c.edges with
  | .error e => .error e
  | .ok g => match evalGraphT (E.cfg sub) d 0 ctx parent g with
    | .error e => .error e
    | .ok r => .ok (r.walker.ending r.graph)

/-- the evaluator of a decision node (nodes/decision/mod.rs:40-110): load, then evaluate with one
level less -/
def Env.subOf (E : Env) (ev : Content → Val → Option Val → Except GErr Val) (key : String) (v : Val) (nodes : Option Val) :
    Except String Val :=
  match E.loader key with
  | .error m => .error m
  | .ok c => match ev c v nodes with
    | .error e => .error e.text
    | .ok v => .ok v

/-- evaluation of a document with a budget of `d` levels; with none left the limit is reported before
any node runs (graph.rs:171-173), so the nested evaluator there is of no account -/
noncomputable def Env.evalAt (E : Env) : Nat → Content → Val → Option Val → Except GErr Val
  | 0 => E.evalContent (fun _ _ _ => .error "") 0
  | d + 1 => E.evalContent (E.subOf (E.evalAt d)) (d + 1)

/-- `Decision::evaluate` (decision.rs, engine.rs): the top level, where the result is cleaned
(graph.rs:300-302) -/
noncomputable def Env.evaluate (E : Env) (maxDepth : Nat) (c : Content) (ctx : Val) : Except GErr Val :=
  match E.evalAt maxDepth c ctx none with
  | .error e => .error e
  | .ok v => .ok v.clean

end Zen
