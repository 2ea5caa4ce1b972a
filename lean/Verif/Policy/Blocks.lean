import Verif.Engine.Table
/-
Match blocks and decision tables of a policy: core/engine/src/policy/blocks/match_block.rs,
decision_table.rs (`select`, `commit`) and `ExecutionContext::write` (context.rs).

Blocks work in two phases. `select` evaluates conditions in the environment bound before it
(evaluator.rs:533-536, 592-613); then the reads of what was chosen are demanded; `commit` evaluates the chosen
values in an environment bound anew (evaluator.rs:544-545, 634-654), so a `$` of the first phase is gone.
The model is at the level of values: sharing between the store and the environment beyond the copy made
by `mirror_top_level` is not modelled here (see C05, C40).
-/
namespace Zen.Policy
open Zen

/-- `ExecutionError` (context.rs:53-58): the expression and what went wrong; the block and the policy are
known from the call -/
abbrev XErr := String × IErr

/-- the part of `ExecutionContext` (context.rs:447-456) that blocks write to: the store and, for a block
that is not iterated, the environment (`env_mirror`). For an iterated block the environment is the store
itself (`phase.scoped`, evaluator.rs:634-653). -/
structure Cx where
  store : Val
  env : Option Val := none

/-- what expressions are evaluated in during `commit` -/
def Cx.scope (c : Cx) : Scope := { base := c.env.getD c.store }

/-- `&path[..path.find('.').unwrap_or(path.len())]` (context.rs:487) -/
def topSeg (path : String) : String := String.ofList (path.toList.takeWhile (· ≠ '.'))

/-- `mirror_top_level` (context.rs:479-497) -/
def mirror (store : Val) (path : String) (env : Val) : Val :=
  match store, env with
  | .obj m, .obj e => match aGet m (topSeg path) with
    | some v => .obj (aSet e (topSeg path) v)
    | none => .obj e
  | _, env => env

/-- `ExecutionContext::write` (context.rs:468-477); the write log only copies the value -/
def Cx.write (c : Cx) (path : String) (v : Val) : Cx :=
  let store := (c.store.dotInsert path v).1
  { store := store, env := c.env.map (mirror store path) }

/-- `as_bool().unwrap_or(false)` -/
def truthy : Val → Bool
  | .bool b => b
  | _ => false

/-! ### Match blocks -/

/-- `MatchArm` (match_block.rs:54-58) -/
structure Arm where
  id : String
  cond : String
  value : String

/-- `MatchIr` (match_block.rs:48-51) -/
structure MatchB where
  key : String
  arms : List Arm

/-- `MatchSelection` (match_block.rs:23-26) -/
structure MSel where
  matched : Option String
  arms : List (String × Bool)

section
variable (F : FrontEnd) (B : Builtins)

/-- the condition of one arm (match_block.rs:356-364) -/
def armTest (s : Scope) (lenient : Bool) (a : Arm) : Except XErr Bool :=
  if a.cond.isEmpty then .ok true
  else match freshRun F B s .standard a.cond with
    | .ok v => .ok (truthy v)
    | .error e => if lenient then .ok false else .error (a.cond, e)

/-- the loop of `select` (match_block.rs:352-372) -/
def selectArms (s : Scope) (extras : Bool) : List Arm → MSel → Except XErr MSel
  | [], sel => .ok sel
  | a :: as, sel =>
    if sel.matched.isSome && !extras then .ok sel
    else match armTest F B s (extras && sel.matched.isSome) a with
      | .error e => .error e
      | .ok b => selectArms s extras as
          { matched := if b && sel.matched.isNone then some a.id else sel.matched
            arms := sel.arms ++ [(a.id, b)] }

/-- `MatchIr::select` (match_block.rs:346-375) -/
def MatchB.select (m : MatchB) (extras : Bool) (s : Scope) : Except XErr MSel :=
  selectArms F B s extras m.arms { matched := none, arms := [] }

/-- the value written by a chosen arm (match_block.rs:386-394) -/
def armValue (cx : Cx) : Option Arm → Except XErr Val
  | none => .ok .null
  | some a =>
    if a.value.isEmpty then .ok .null
    else match freshRun F B cx.scope .standard a.value with
      | .ok v => .ok v
      | .error e => .error (a.value, e)

/-- `MatchIr::commit` (match_block.rs:377-410): the context after the write, and the value and arms for the
trace -/
def MatchB.commit (m : MatchB) (trace : Bool) (sel : MSel) (cx : Cx) :
    Except XErr (Cx × Val × List (String × Bool)) :=
  match armValue F B cx (sel.matched.bind fun id => m.arms.find? fun a => a.id = id) with
  | .error e => .error e
  | .ok v => .ok (if m.key.isEmpty then cx else cx.write m.key v,
      if trace then v else .null, if trace then sel.arms else [])

/-! ### Tables: choosing cells -/

/-- `OutputColumn` (decision_table.rs:105-111): `field` is the path to write to, empty for a column that
writes nothing -/
structure OCol where
  id : String
  field : String
  collect : Bool
  deriving DecidableEq

/-- `DecisionTableIr` (decision_table.rs:97-102) -/
structure PTable where
  inputs : List TInput
  outputs : List OCol
  rules : List Rule

/-- `col.field.as_ref()` with `Some(field) if !field.is_empty()` (decision_table.rs:1177-1178, 1074-1077) -/
def fieldOf (inp : TInput) : Option String :=
  match inp.field with
  | some f => if f.isEmpty then none else some f
  | none => none

/-- the isolate and the column values seen so far (`col_refs`, decision_table.rs:694-695; a vector with one
entry per input column) -/
structure TSt where
  ev : Ev
  refs : Nat → Option Val := fun _ => none

/-- the value of a column, computed once (decision_table.rs:1179-1188, 1081-1090) -/
def colValue (i : Nat) (f : String) (st : TSt) : Except XErr Val × TSt :=
  match st.refs i with
  | some v => (.ok v, st)
  | none => match st.ev.run F B f with
    | .error e => (.error (f, e), st)
    | .ok v => (.ok v, { st with refs := fun j => if j = i then some v else st.refs j })

/-- `evaluate_cell` (decision_table.rs:1165-1203) -/
def evalCell (i : Nat) (inp : TInput) (rule : Rule) (st : TSt) : Except XErr Bool × TSt :=
  match cellOf rule inp.id with
  | none => (.ok true, st)
  | some cell => match fieldOf inp with
    | some f => match colValue F B i f st with
      | (.error e, st) => (.error e, st)
      | (.ok v, st) =>
        let st := { st with ev := st.ev.setLocal "$" v }
        match st.ev.runUnary F B cell with
        | .ok b => (.ok b, st)
        | .error e => (.error (cell, e), st)
    | none => match st.ev.run F B cell with
      | .ok v => (.ok (truthy v), st)
      | .error e => (.error (cell, e), st)

/-- `evaluate_row_inputs` (decision_table.rs:1126-1139) and, with the cells decided by the index left out,
`evaluate_row_inputs_pruned` (decision_table.rs:1106-1124) -/
def rowPlain (decided : Nat → Bool) (rule : Rule) : Nat → List TInput → TSt → Except XErr Bool × TSt
  | _, [], st => (.ok true, st)
  | i, inp :: rest, st =>
    if decided i then rowPlain decided rule (i + 1) rest st
    else match evalCell F B i inp rule st with
      | (.error e, st) => (.error e, st)
      | (.ok false, st) => (.ok false, st)
      | (.ok true, st) => rowPlain decided rule (i + 1) rest st

/-- `evaluate_row_inputs_full` (decision_table.rs:1141-1163): every cell is evaluated; an error counts as
`false` where the plain evaluation would not have come -/
def rowFull (rule : Rule) (unreached : Bool) : Nat → List TInput → Bool → TSt → Except XErr (List Bool) × TSt
  | _, [], _, st => (.ok [], st)
  | i, inp :: rest, failed, st => match evalCell F B i inp rule st with
    | (.error e, st) =>
      if unreached || failed then match rowFull rule unreached (i + 1) rest true st with
        | (.ok bs, st) => (.ok (false :: bs), st)
        | (.error e, st) => (.error e, st)
      else (.error e, st)
    | (.ok b, st) => match rowFull rule unreached (i + 1) rest (failed || !b) st with
      | (.ok bs, st) => (.ok (b :: bs), st)
      | (.error e, st) => (.error e, st)

/-- `col_rows` and its intersection with what is left (decision_table.rs:1094-1101) -/
def pNarrow (column : ColIx) (value : Val) (acc : Option Bits) : Bits :=
  let colRows := match column.rowsFor value with
    | some hit => column.fallback.unionWith hit
    | none => column.fallback
  match acc with
  | none => colRows
  | some a => a.intersectWith colRows

/-- the loop of `candidate_rows` (decision_table.rs:1069-1103) -/
def candLoop : Nat → List (Option ColIx) → List TInput → Option Bits → TSt → Except XErr (Option Bits) × TSt
  | _, [], _, acc, st => (.ok acc, st)
  | _, _, [], acc, st => (.ok acc, st)
  | i, none :: cols, _ :: inps, acc, st => candLoop (i + 1) cols inps acc st
  | i, some column :: cols, inp :: inps, acc, st => match fieldOf inp with
    | none => candLoop (i + 1) cols inps acc st
    | some f => match colValue F B i f st with
      | (.error e, st) => (.error e, st)
      | (.ok v, st) =>
        if v.isDyn then (.ok none, st)
        else candLoop (i + 1) cols inps (some (pNarrow column v acc)) st

/-- `candidate_rows` (decision_table.rs:1060-1104) -/
def candRows (t : PTable) (ix : Option TableIx) (st : TSt) : Except XErr (Option Bits) × TSt :=
  match ix with
  | none => (.ok none, st)
  | some ix => candLoop F B 0 ix t.inputs none st

/-- the columns that write something (decision_table.rs:697-701) -/
def PTable.active (t : PTable) : List OCol := t.outputs.filter fun c => !c.field.isEmpty

/-- `TableSelection` (decision_table.rs:30-34) with the running counters `pending_scalars` and `taken`
(decision_table.rs:703-704); `bits` are the rows of `input_bits` -/
structure TSel where
  matched : List Nat := []
  used : List (Nat × String) := []
  bits : List (List Bool) := []
  pending : Nat
  taken : List Bool

/-- the loop over the active columns for a matching row (decision_table.rs:758-769): the new `taken`, the
cells used, the number of scalar columns served -/
def takeCells (rule : Rule) (row : Nat) : List OCol → List Bool → List Bool × List (Nat × String) × Nat
  | c :: cs, tk :: tks =>
    let r := takeCells rule row cs tks
    match cellOf rule c.id with
    | none => (tk :: r.1, r.2)
    | some _ =>
      if c.collect then (tk :: r.1, (row, c.id) :: r.2.1, r.2.2)
      else if tk then (tk :: r.1, r.2)
      else (true :: r.1, (row, c.id) :: r.2.1, r.2.2 + 1)
  | _, tks => (tks, [], 0)

/-- a matching row is recorded (decision_table.rs:757-769) -/
def TSel.hit (sel : TSel) (t : PTable) (row : Nat) (rule : Rule) : TSel :=
  let r := takeCells rule row t.active sel.taken
  { sel with
    matched := sel.matched ++ [row]
    taken := r.1
    used := sel.used ++ r.2.1
    pending := sel.pending - r.2.2 }

/-- `satisfied` (decision_table.rs:719) -/
def TSel.satisfied (sel : TSel) (t : PTable) : Bool :=
  !(t.active.any OCol.collect) && sel.pending == 0 && !sel.matched.isEmpty

/-- the evaluation of one row (decision_table.rs:724-752): whether it matches and what is put into the
bits -/
def evalRow (t : PTable) (extras : Bool) (ix : Option TableIx) (cand : Option Bits) (unreached : Bool)
    (row : Nat) (rule : Rule) (st : TSt) : Except XErr (Bool × List Bool) × TSt :=
  if extras then match rowFull F B rule unreached 0 t.inputs false st with
    | (.ok bs, st) => (.ok (bs.all id, bs), st)
    | (.error e, st) => (.error e, st)
  else if skipped cand row then (.ok (false, []), st)
  else match rowPlain F B (decidedBy cand ix row) rule 0 t.inputs st with
    | (.ok b, st) => (.ok (b, []), st)
    | (.error e, st) => (.error e, st)

/-- the loop over the rows (decision_table.rs:718-770) -/
def selectRows (t : PTable) (extras : Bool) (ix : Option TableIx) (cand : Option Bits) :
    Nat → List Rule → TSel → TSt → Except XErr TSel
  | _, [], sel, _ => .ok sel
  | row, rule :: rest, sel, st =>
    if sel.satisfied t && !extras then .ok sel
    else match evalRow F B t extras ix cand (sel.satisfied t) row rule st with
      | (.error e, _) => .error e
      | (.ok (b, bs), st) =>
        let sel' := { sel with bits := sel.bits ++ [bs] }
        if !b || sel.satisfied t then selectRows t extras ix cand (row + 1) rest sel' st
        else selectRows t extras ix cand (row + 1) rest (sel'.hit t row rule) st

/-- the selection before the first row (decision_table.rs:703-707) -/
def TSel.start (t : PTable) : TSel :=
  { pending := (t.active.filter fun c => !c.collect).length, taken := t.active.map fun _ => false }

/-- `DecisionTableIr::select` (decision_table.rs:693-777). With `extras` the index is not consulted. The
index is built from the table on first use (decision_table.rs:1054-1058); `ix = none` is a table without
one. -/
def PTable.select (t : PTable) (extras : Bool) (ix : Option TableIx) (s : Scope) : Except XErr TSel :=
  if extras then selectRows F B t true ix none 0 t.rules (.start t) { ev := { scope := s } }
  else match candRows F B t ix { ev := { scope := s } } with
    | (.error e, _) => .error e
    | (.ok cand, st) => selectRows F B t false ix cand 0 t.rules (.start t) st

/-! ### Tables: writing -/

/-- `collected.entry(field).or_default()` (decision_table.rs:793-797) -/
def collOpen (coll : List (String × List Val)) (f : String) : List (String × List Val) :=
  match aGet coll f with
  | some _ => coll
  | none => aSet coll f []

/-- `collected.entry(field).or_default().push(value)` (decision_table.rs:823) -/
def collPush (coll : List (String × List Val)) (f : String) (v : Val) : List (String × List Val) :=
  aSet coll f ((aGet coll f).getD [] ++ [v])

/-- what `commit` keeps: context, `collected`, `scalar_written`, and the trace of the current row and of
earlier rows (decision_table.rs:791-804) -/
structure CSt where
  cx : Cx
  coll : List (String × List Val)
  written : List String := []
  row : List (String × Val) := []
  evals : List (List (String × Val)) := []

/-- the columns of one row (decision_table.rs:806-828) -/
def commitCols (trace : Bool) (used : List (Nat × String)) (row : Nat) (rule : Rule) :
    List OCol → CSt → Except XErr CSt
  | [], st => .ok st
  | c :: cs, st =>
    if (row, c.id) ∈ used then match cellOf rule c.id with
      | none => commitCols trace used row rule cs st
      | some cell => match freshRun F B st.cx.scope .standard cell with
        | .error e => .error (cell, e)
        | .ok v =>
          let st := { st with row := if trace then aSet st.row c.field v else st.row }
          if c.collect then commitCols trace used row rule cs { st with coll := collPush st.coll c.field v }
          else commitCols trace used row rule cs
            { st with cx := st.cx.write c.field v, written := c.field :: st.written }
    else commitCols trace used row rule cs st

/-- the loop over the matched rows (decision_table.rs:800-832) -/
def commitRows (t : PTable) (trace : Bool) (used : List (Nat × String)) : List Nat → CSt → Except XErr CSt
  | [], st => .ok st
  | row :: rows, st => match t.rules[row]? with
    | none => commitRows t trace used rows st
    | some rule => match commitCols F B trace used row rule t.outputs { st with row := [] } with
      | .error e => .error e
      | .ok st => commitRows t trace used rows
          { st with evals := if trace then st.evals ++ [st.row] else st.evals }

/-- scalar columns that got no value are set to null (decision_table.rs:834-839) -/
def nullCols : List OCol → List String → Cx → Cx
  | [], _, cx => cx
  | c :: cs, written, cx =>
    if !c.collect && !c.field.isEmpty && !written.contains c.field then
      nullCols cs (c.field :: written) (cx.write c.field .null)
    else nullCols cs written cx

/-- `DecisionTableIr::commit` (decision_table.rs:779-856). `collected` is a hash map, so the order in which
its entries are written is left open: `order` rearranges them. -/
def PTable.commit (t : PTable) (order : List (String × List Val) → List (String × List Val)) (trace : Bool)
    (sel : TSel) (cx : Cx) : Except XErr (Cx × List (List (String × Val))) :=
  let coll := t.outputs.foldl (fun coll c => if c.collect && !c.field.isEmpty then collOpen coll c.field else coll) []
  match commitRows F B t trace sel.used sel.matched { cx := cx, coll := coll } with
  | .error e => .error e
  | .ok st => .ok ((order st.coll).foldl (fun cx kv => cx.write kv.1 (.arr kv.2))
      (nullCols t.outputs st.written st.cx), st.evals)

end
end Zen.Policy
