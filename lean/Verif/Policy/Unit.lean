import Verif.Policy.Blocks
import Verif.Policy.Driver
import Verif.Policy.Place
/-
A policy whose blocks are not iterated, put together: what its blocks write and read according to the analysis
(core/engine/src/policy/blocks, core/engine/src/workspace/db.rs:595-684), what they do, and the run of the driver over
them (core/engine/src/policy/evaluator.rs).
Left out: policies with entities (`entity_sources` is empty, so no block is iterated and `EntityForm::rewrite` changes no
path), checks of the request before the run, and the trace. A run that failed gives no values, so what its last block
had written is not kept.
-/
namespace Zen.Policy
open Zen

/-! ### Assertions -/

/-- `ConditionOperator` and `apply` (assertion.rs:61-75) -/
inductive COp where
  | and
  | or

def COp.apply : COp → Bool → Bool → Bool
  | .and, a, b => a && b
  | .or, a, b => a || b

/-- `AssertionCondition` (assertion.rs:53-58) -/
structure Cond where
  expression : String
  op : COp
  depth : Nat

/-- `AssertionIr` (assertion.rs:47-50) -/
structure AssertB where
  output : String
  conds : List Cond

/-- `Frame` (assertion.rs:330-334) -/
structure AFrame where
  acc : Bool
  started : Bool
  combine : COp

/-- `Frame::close` (assertion.rs:336-344) -/
def AFrame.close (f : AFrame) (group : Bool) : Bool := if f.started then f.combine.apply f.acc group else group

/-- the variables of the loop (assertion.rs:276-280) -/
structure ASt where
  stack : List AFrame := []
  acc : Bool := false
  started : Bool := false
  depth : Nat := 0
  combine : COp := .and

/-- `while condition.depth > depth` (assertion.rs:283-293), so many times -/
def ASt.down : Nat → ASt → ASt
  | 0, a => a
  | n + 1, a => ASt.down n
      { stack := ⟨a.acc, a.started, a.combine⟩ :: a.stack, acc := false, started := false, depth := a.depth + 1, combine := .and }

/-- `while condition.depth < depth` (assertion.rs:294-300), so many times -/
def ASt.up : Nat → ASt → ASt
  | 0, a => a
  | n + 1, a => ASt.up n (match a.stack with
    | f :: fs => { a with stack := fs, acc := f.close a.acc, started := true, depth := a.depth - 1 }
    | [] => { a with depth := a.depth - 1 })

def ASt.goto (a : ASt) (depth : Nat) : ASt := (a.down (depth - a.depth)).up ((a.down (depth - a.depth)).depth - depth)

section
variable (F : FrontEnd) (B : Builtins)

/-- the loop over the conditions and the frames left open (assertion.rs:282-326) -/
def condLoop (s : Scope) : List Cond → ASt → Except XErr Bool
  | [], a => .ok (a.stack.foldl (fun acc f => f.close acc) a.acc)
  | c :: cs, a =>
    match freshRun F B s .standard c.expression with
    | .error e => .error (c.expression, e)
    | .ok v =>
      let a := a.goto c.depth
      condLoop s cs { a with acc := if a.started then a.combine.apply a.acc (truthy v) else truthy v, started := true, combine := c.op }

/-- `evaluate_conditions` (assertion.rs:266-327) -/
def evalConds (s : Scope) (cs : List Cond) : Except XErr Bool := if cs.isEmpty then .ok false else condLoop F B s cs {}

/-- `AssertionIr::execute` (assertion.rs:208-222) -/
def AssertB.commit (a : AssertB) (cx : Cx) : Except XErr Cx :=
  match evalConds F B cx.scope a.conds with
  | .error e => .error e
  | .ok b => .ok (if a.output.isEmpty then cx else cx.write a.output (.bool b))

/-- `ExpressionIr::execute` (expression.rs:142-161) -/
def exprCommit (key value : String) (cx : Cx) : Except XErr Cx :=
  if key.isEmpty || value.isEmpty then .ok cx
  else match freshRun F B cx.scope .standard value with
    | .error e => .error (value, e)
    | .ok v => .ok (cx.write key v)

end

/-! ### Blocks -/

/-- `BlockKind` (blocks/mod.rs:216-221) -/
inductive Body where
  | expression (key value : String)
  | assertion (a : AssertB)
  | match_ (m : MatchB)
  | table (t : PTable)

/-- a block of the policy or of one it imports -/
structure PBlock where
  ref : BlockRef
  body : Body

/-- `Pick` (evaluator.rs:260-264) -/
inductive Pick where
  | unconditional
  | arm (s : MSel)
  | rows (s : TSel)

/-- What a policy is run with: the language, the data model (`data_model_paths`), whether the run is one with extras, a
trace is kept, the index of a table, and the order in which a hash map of collected columns is gone through;
`lost` are the reads reported for text that is not an expression. -/
structure Cfg where
  F : FrontEnd
  B : Builtins
  model : String → Bool
  extras : Bool
  trace : Bool
  index : PTable → Option TableIx
  order : List (String × List Val) → List (String × List Val)
  lost : Kind → String → List (List String)

/-- the paths a block writes (`write_sites`: expression.rs:91-103, assertion.rs:164-176, match_block.rs:140-151,
decision_table.rs:333-349; `analyze` records the same) -/
def Body.writes : Body → List String
  | .expression key value => if key.isEmpty || value.isEmpty then [] else [key]
  | .assertion a => if a.output.isEmpty then [] else [a.output]
  | .match_ m => if m.key.isEmpty then [] else [m.key]
  | .table t => t.active.map OCol.field

/-- whether the expression is read as a unary test (`kind` of `flatten`, workspace/db.rs:640-662) -/
def isUnary : Kind → Bool
  | .standard => false
  | .unary => true

/-- `flatten` (workspace/db.rs:640-662) without entities, as lists of segments -/
def Cfg.reads (C : Cfg) (k : Kind) (src : String) : List (List String) :=
  if src.isEmpty then []
  else match C.F k src with
    | .ok n => Reads.planned (isUnary k) n
    | .error _ => (C.lost k src).filter fun q => !q.isEmpty

/-- `col.field` decides how a cell is read (decision_table.rs:666-669) -/
def cellKind (inp : TInput) : Kind := match fieldOf inp with
  | some _ => .unary
  | none => .standard

/-- the expressions that are evaluated whatever is chosen (`read_plan`: expression.rs:113-118, assertion.rs:197-206,
match_block.rs:167-170, decision_table.rs:653-671) -/
def Body.sources : Body → List (Kind × String)
  | .expression _ value => [(.standard, value)]
  | .assertion a => a.conds.map fun c => (.standard, c.expression)
  | .match_ m => (m.arms.filter fun a => !a.cond.isEmpty).map fun a => (.standard, a.cond)
  | .table t => (t.inputs.filterMap fun i => (fieldOf i).map fun f => (Kind.standard, f)) ++
      t.rules.flatMap fun rule => t.inputs.filterMap fun i => (cellOf rule i.id).map fun cell => (cellKind i, cell)

/-- the expressions of what was chosen (`collect_reads`, evaluator.rs:267-284; `match_arm_reads` and `cell_reads`,
blocks/mod.rs:187-206; match_block.rs:171-179, decision_table.rs:672-685) -/
def Body.chosen : Body → Pick → List (Kind × String)
  | .match_ m, .arm s => match s.matched.bind fun id => m.arms.find? fun a => a.id = id with
    | some a => if a.value.isEmpty then [] else [(.standard, a.value)]
    | none => []
  | .table t, .rows s => s.used.flatMap fun u => match t.rules[u.1]? with
    | some rule => (t.active.filter fun c => c.id = u.2).filterMap fun c => (cellOf rule c.id).map fun cell => (Kind.standard, cell)
    | none => []
  | _, _ => []

/-- everything that may be chosen -/
def Body.later : Body → List (Kind × String)
  | .match_ m => (m.arms.filter fun a => !a.value.isEmpty).map fun a => (.standard, a.value)
  | .table t => t.rules.flatMap fun rule => t.active.filterMap fun c => (cellOf rule c.id).map fun cell => (Kind.standard, cell)
  | _ => []

/-- consecutive duplicates are removed (`Vec::dedup`) -/
def adjacent : List String → List String
  | a :: b :: l => if a = b then adjacent (b :: l) else a :: adjacent (b :: l)
  | l => l

/-- `BlockReadPlan::dedup` (blocks/mod.rs:181-185) -/
def dedup (l : List String) : List String := adjacent (sortBy (fun a b => decide (a ≤ b)) l)

def Cfg.paths (C : Cfg) (srcs : List (Kind × String)) : List (List String) := srcs.flatMap fun s => C.reads s.1 s.2

/-- the table of writers of the policy -/
def writersIn (C : Cfg) (P : List PBlock) (p : String) : List BlockRef :=
  writersOfLongestPrefix (collectDemandWriters (computeWriters C.model (P.map fun b => ⟨b.ref, b.body.writes⟩))) p

def blockAt (P : List PBlock) (r : BlockRef) : Option PBlock := P.find? fun b => b.ref = r

/-- `bind_env` (evaluator.rs:421-428): a `$` is taken out of the environment -/
def Cx.bind (c : Cx) : Cx := { c with env := c.env.map fun e => match e with
  | .obj m => .obj (aErase m "$")
  | e => e }

/-- `select_pick` (evaluator.rs:497-503) after the environment is bound (evaluator.rs:533-536) -/
def Body.select (C : Cfg) : Body → Cx → Except XErr Pick × Cx
  | .match_ m, cx => ((MatchB.select C.F C.B m C.extras cx.bind.scope).map Pick.arm, cx.bind)
  | .table t, cx => ((PTable.select C.F C.B t C.extras (C.index t) cx.bind.scope).map Pick.rows, cx.bind)
  | _, cx => (.ok .unconditional, cx)

/-- `commit_pick` (evaluator.rs:505-515) -/
def Body.write (C : Cfg) : Body → Pick → Cx → Except XErr Cx
  | .match_ m, .arm s, cx => (MatchB.commit C.F C.B m C.trace s cx).map Prod.fst
  | .table t, .rows s, cx => (PTable.commit C.F C.B t C.order C.trace s cx).map Prod.fst
  | .expression key value, _, cx => exprCommit C.F C.B key value cx
  | .assertion a, _, cx => AssertB.commit C.F C.B a cx
  | _, _, cx => .ok cx

/-- the environment is bound anew before writing (evaluator.rs:544-545) -/
def Body.commit (C : Cfg) (b : Body) (p : Pick) (cx : Cx) : Except XErr Unit × Cx :=
  match b.write C p cx.bind with
  | .ok cx => (.ok (), cx)
  | .error e => (.error e, cx.bind)

/-- the driver over the blocks of the policy -/
def sys (C : Cfg) (P : List PBlock) : Sys Cx Pick XErr where
  rule r := (blockAt P r).isSome
  writersOf := writersIn C P
  uncond r := match blockAt P r with
    | some b => dedup ((C.paths b.body.sources).map dots)
    | none => []
  select r cx := match blockAt P r with
    | some b => b.body.select C cx
    | none => (.ok .unconditional, cx)
  cond r p := match blockAt P r with
    | some b => (b.body.chosen p).flatMap fun s => dedup ((C.reads s.1 s.2).map dots)
    | none => []
  commit r p cx := match blockAt P r with
    | some b => b.body.commit C p cx
    | none => (.ok (), cx)

/-- `Driver::new` (evaluator.rs:401-420): the environment starts as a copy of the store -/
def Cx.start (input : Val) : Cx := { store := input, env := some input }

/-- a run for some goals (evaluator.rs:132-138), giving the store afterwards -/
def runPolicy (C : Cfg) (P : List PBlock) (goals : List String) (input : Val) : Option (Except XErr Val) :=
  (drive (sys C P) (P.length + 1) goals (Cx.start input)).map fun r => match r with
    | (.ok (), st) => .ok st.store.store
    | (.error e, _) => .error e

end Zen.Policy
