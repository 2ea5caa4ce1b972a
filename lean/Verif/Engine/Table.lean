import Verif.Expr.Ev
import Verif.Analysis.Discriminant
import Verif.Engine.Bits
import Verif.Core.Dot
/-
Decision table nodes: core/engine/src/nodes/decision_table/mod.rs and its row index
core/engine/src/nodes/decision_table/index.rs (also used by policy tables).
-/
namespace Zen

/-- `char::is_whitespace` (Unicode `White_Space`), used by `str::trim` -/
def isWs (c : Char) : Bool :=
  let n := c.toNat
  decide (9 ≤ n ∧ n ≤ 13) || n == 0x20 || n == 0x85 || n == 0xA0 || n == 0x1680 ||
    decide (0x2000 ≤ n ∧ n ≤ 0x200A) || n == 0x2028 || n == 0x2029 || n == 0x202F || n == 0x205F ||
    n == 0x3000

/-- `str::trim_end` on characters -/
def trimEndC (cs : List Char) : List Char := (cs.reverse.dropWhile isWs).reverse
/-- `str::trim` on characters -/
def trimC (cs : List Char) : List Char := trimEndC (cs.dropWhile isWs)

/-- `DecisionTableInputField` (types/src/decision/mod.rs:128-135) -/
structure TInput where
  id : String
  field : Option String

/-- `DecisionTableOutputField` (types/src/decision/mod.rs:137-151) -/
structure TOutput where
  id : String
  field : String

/-- `write_path` (types/src/decision/mod.rs:153-161): the path an output column writes to and
whether it is a collect column (`path[]`) -/
def TOutput.writePath (o : TOutput) : String × Bool :=
  let field := trimC o.field.toList
  if ['[', ']'].isSuffixOf field then
    (String.ofList (trimEndC (field.take (field.length - 2))), true)
  else (String.ofList field, false)

/-- one row: cell texts by column id (`HashMap<Arc<str>, Arc<str>>`) -/
abbrev Rule := List (String × String)

inductive HitPolicy where | first | collect
deriving DecidableEq

/-- `DecisionTableContent` (types/src/decision/mod.rs:107-117) without transform attributes -/
structure Table where
  rules : List Rule
  inputs : List TInput
  outputs : List TOutput
  hit : HitPolicy

/-- the non-empty text of a cell: `rule.get(id)` followed by the `is_empty` test
(mod.rs:302-307, 340-345, 419-424) -/
def cellOf (rule : Rule) (id : String) : Option String :=
  match aGet rule id with
  | some c => if c.isEmpty then none else some c
  | none => none

/-! ### The row index (index.rs) -/

/-- index.rs:9 -/
def MIN_INDEX_ROWS : Nat := 8

/-- `HashMap::get` with an arbitrary key type (library) -/
def hGet {K V : Type} [DecidableEq K] : List (K × V) → K → Option V
  | [], _ => none
  | (k, v) :: r, key => if k = key then some v else hGet r key

/-- `entry(key).or_insert_with(|| with_capacity(rows)).insert(row)` (index.rs:76-80, 85-89, 96-100) -/
def entryInsert {K : Type} [DecidableEq K] (rows row : Nat) : List (K × Bits) → K → List (K × Bits)
  | [], key => [(key, (Bits.withCapacity rows).insert row)]
  | (k, b) :: r, key => if k = key then (k, b.insert row) :: r else (k, b) :: entryInsert rows row r key

/-- `ColumnIndex` (index.rs:16-23) -/
structure ColIx where
  strings : List (String × Bits) := []
  numbers : List (Rat × Bits) := []
  bools : List (Bool × Bits) := []
  captured : Bits
  fallback : Bits

/-- `TableIndex` (index.rs:11-14) -/
abbrev TableIx := List (Option ColIx)

/-- `IntelliSense::cell_test` (expression/src/intellisense/mod.rs:390-418): the unary parser is
that of the evaluator (`F`); only tests of `$` itself count -/
def cellTest (F : FrontEnd) (cell : String) : ArmTest :=
  if (trimC cell.toList).isEmpty then .dflt
  else match F .unary cell with
    | .error _ => .unrecognized
    | .ok n => match ArmTest.fromNode n with
      | .enum p vs => if p = ["$"] then .enum p vs else .unrecognized
      | .bool p vs => if p = ["$"] then .bool p vs else .unrecognized
      | .number p c => if p = ["$"] then .number p c else .unrecognized
      | t => t

/-- one row of `ColumnIndex::build` (index.rs:69-114). `point.normalize()` only changes the scale
of the decimal, numbers here are their numeric value. -/
def ColIx.addRow (F : FrontEnd) (id : String) (rows row : Nat) (rule : Rule) (ix : ColIx) : ColIx :=
  match cellOf rule id with
  | none => { ix with fallback := ix.fallback.insert row }
  | some cell => match cellTest F cell with
    | .enum _ values =>
      { ix with
        strings := values.foldl (entryInsert rows row) ix.strings
        captured := ix.captured.insert row }
    | .bool _ values =>
      { ix with
        bools := values.foldl (entryInsert rows row) ix.bools
        captured := ix.captured.insert row }
    | .number _ cover => match cover.points with
      | some points =>
        { ix with
          numbers := points.foldl (entryInsert rows row) ix.numbers
          captured := ix.captured.insert row }
      | none => { ix with fallback := ix.fallback.insert row }
    | _ => { ix with fallback := ix.fallback.insert row }

/-- the loop over the rows (index.rs:69) -/
def ColIx.addRows (F : FrontEnd) (id : String) (rows : Nat) : Nat → List Rule → ColIx → ColIx
  | _, [], ix => ix
  | row, rule :: rs, ix => addRows F id rows (row + 1) rs (ix.addRow F id rows row rule)

/-- `ColumnIndex::build` (index.rs:54-120) -/
def ColIx.build (F : FrontEnd) (col : TInput) (rules : List Rule) (rows : Nat) : Option ColIx :=
  match col.field with
  | none => none
  | some f =>
    if f.isEmpty then none
    else
      let ix := ColIx.addRows F col.id rows 0 rules
        { captured := Bits.withCapacity rows, fallback := Bits.withCapacity rows }
      if ix.captured.anySet then some ix else none

/-- `TableIndex::build` (index.rs:26-43) -/
def TableIx.build (F : FrontEnd) (inputs : List TInput) (rules : List Rule) : Option TableIx :=
  let rows := rules.length
  if rows < MIN_INDEX_ROWS then none
  else
    let columns := inputs.map fun col => ColIx.build F col rules rows
    if columns.any Option.isSome then some columns else none

/-- `TableIndex::decides` (index.rs:45-50) -/
def TableIx.decides (ix : TableIx) (col row : Nat) : Bool :=
  match ix[col]? with
  | some (some c) => c.captured.contains row
  | _ => false

/-- `ColumnIndex::rows_for` (index.rs:122-129) -/
def ColIx.rowsFor (ix : ColIx) : Val → Option Bits
  | .str s => hGet ix.strings s
  | .num n => hGet ix.numbers n
  | .bool b => hGet ix.bools b
  | _ => none

/-! ### Evaluation (mod.rs) -/

/-- `DecisionTableNodeTrace` (mod.rs:452-464), reduced to the row numbers -/
inductive TableTrace where
  | firstHit (row : Nat)
  | collect (rows : List Nat)

/-- `NodeResponse` -/
structure TableOut where
  output : Val
  trace : Option TableTrace

section
variable (F : FrontEnd) (B : Builtins)

/-- whether one cell passes (mod.rs:309-321; the same code as `cell_passes`, 151-175) -/
def cellPasses (e : Ev) (field : Option String) (cell : String) : Bool × Ev :=
  match field with
  | none => ((match e.run F B cell with | .ok (.bool b) => b | _ => false), e)
  | some f => match e.setReference F B f with
    | (.error _, e) => (false, e)
    | (.ok (), e) => ((match e.runUnary F B cell with | .ok b => b | .error _ => false), e)

/-- `row_matches` (mod.rs:292-325); `decided col` is the test `pruned.is_some_and(…)` -/
def rowMatches (decided : Nat → Bool) (rule : Rule) : Nat → List TInput → Ev → Bool × Ev
  | _, [], e => (true, e)
  | col, inp :: rest, e =>
    if decided col then rowMatches decided rule (col + 1) rest e
    else match cellOf rule inp.id with
      | none => rowMatches decided rule (col + 1) rest e
      | some cell => match cellPasses F B e inp.field cell with
        | (true, e) => rowMatches decided rule (col + 1) rest e
        | (false, e) => (false, e)

/-- the outputs of `evaluate_row` (mod.rs:413-429). Evaluating an output does not change the
evaluator. -/
def rowOutputs (e : Ev) (rule : Rule) : List TOutput → Val → Option Val
  | [], acc => some acc
  | o :: rest, acc =>
    if o.writePath.1.isEmpty then rowOutputs e rule rest acc
    else match cellOf rule o.id with
      | none => rowOutputs e rule rest acc
      | some cell => match e.run F B cell with
        | .error _ => none
        | .ok v => rowOutputs e rule rest (acc.dotInsert o.writePath.1 v).1

/-- `evaluate_row` (mod.rs:402-441), without the trace details (`row_trace_parts` only reads) -/
def evaluateRow (t : Table) (decided : Nat → Bool) (rule : Rule) (e : Ev) : Option Val × Ev :=
  match rowMatches F B decided rule 0 t.inputs e with
  | (false, e) => (none, e)
  | (true, e) => (rowOutputs F B e rule t.outputs (.obj []), e)

/-- the rows for one index entry: `hit.map(as_slice).unwrap_or_default()` (mod.rs:210) -/
def hitWords : Option Bits → List Nat
  | some b => b.words
  | none => []

/-- one indexed column of `candidate_rows` (mod.rs:199-217) -/
def narrow (column : ColIx) (value : Val) : Option Bits → Bits
  | none => match column.rowsFor value with
    | some hit => column.fallback.unionWith hit
    | none => column.fallback
  | some acc => acc.mask column.fallback (hitWords (column.rowsFor value))

/-- `matches!(value, Variable::Dynamic(_))` (mod.rs:196-198) -/
def Val.isDyn : Val → Bool
  | .dyn _ => true
  | _ => false

/-- `candidate_rows` (mod.rs:181-220). Columns and inputs are the same list of columns
(`inputs[col_idx]`). The evaluator changes even when the result is `None`. -/
def candidateRows : List (Option ColIx) → List TInput → Option Bits → Ev → Option Bits × Ev
  | [], _, acc, e => (acc, e)
  | _, [], acc, e => (acc, e)
  | none :: cols, _ :: inps, acc, e => candidateRows cols inps acc e
  | some column :: cols, inp :: inps, acc, e => match inp.field with
    | none => candidateRows cols inps acc e
    | some f =>
      if f.isEmpty then candidateRows cols inps acc e
      else match e.setReference F B f with
        | (.error _, e) => (none, e)
        | (.ok (), e) => match e.getReference f with
          | none => (none, e)
          | some value =>
            if value.isDyn then (none, e)
            else candidateRows cols inps (some (narrow column value acc)) e

/-- `index.and_then(|ix| candidate_rows(..))` (mod.rs:54-56, 114-115, 228-229) -/
def candidates (t : Table) (ix : Option TableIx) (e : Ev) : Option Bits × Ev :=
  match ix with
  | none => (none, e)
  | some ix => candidateRows F B ix t.inputs none e

/-- `candidates.as_ref().is_some_and(|c| !c.contains(row))` (mod.rs:59-61, 119-121, 238-240) -/
def skipped (cand : Option Bits) (row : Nat) : Bool :=
  match cand with
  | some c => !c.contains row
  | none => false

/-- `pruner = candidates.as_ref().and(index)` and `decides` (mod.rs:57, 62, 116, 122, 230, 241) -/
def decidedBy (cand : Option Bits) (ix : Option TableIx) (row col : Nat) : Bool :=
  match cand, ix with
  | some _, some ix => ix.decides col row
  | _, _ => false

/-- the loop of `handle_first_hit` (mod.rs:58-68, 75-87): the first row with an output -/
def firstRow (t : Table) (skip : Nat → Bool) (decided : Nat → Nat → Bool) :
    Nat → List Rule → Ev → Option (Nat × Val)
  | _, [], _ => none
  | row, rule :: rest, e =>
    if skip row then firstRow t skip decided (row + 1) rest e
    else match evaluateRow F B t (decided row) rule e with
      | (some v, _) => some (row, v)
      | (none, e) => firstRow t skip decided (row + 1) rest e

/-- `handle_first_hit` (mod.rs:50-104) -/
def handleFirstHit (t : Table) (ix : Option TableIx) (trace : Bool) (e : Ev) : TableOut :=
  if !trace then
    let (cand, e) := candidates F B t ix e
    match firstRow F B t (skipped cand) (decidedBy cand ix) 0 t.rules e with
    | some (_, v) => ⟨v, none⟩
    | none => ⟨.null, none⟩
  else
    match firstRow F B t (fun _ => false) (fun _ _ => false) 0 t.rules e with
    | some (row, v) => ⟨v, some (.firstHit row)⟩
    | none => ⟨.null, none⟩

/-- the loop of `handle_collect` (mod.rs:118-141) -/
def collectRows (t : Table) (skip : Nat → Bool) (decided : Nat → Nat → Bool) :
    Nat → List Rule → Ev → List (Nat × Val)
  | _, [], _ => []
  | row, rule :: rest, e =>
    if skip row then collectRows t skip decided (row + 1) rest e
    else match evaluateRow F B t (decided row) rule e with
      | (some v, e) => (row, v) :: collectRows t skip decided (row + 1) rest e
      | (none, e) => collectRows t skip decided (row + 1) rest e

/-- `handle_collect` (mod.rs:106-149) -/
def handleCollect (t : Table) (ix : Option TableIx) (trace : Bool) (e : Ev) : TableOut :=
  let ix := if trace then none else ix
  let (cand, e) := candidates F B t ix e
  let rows := collectRows F B t (skipped cand) (decidedBy cand ix) 0 t.rules e
  ⟨.arr (rows.map Prod.snd), if trace then some (.collect (rows.map Prod.fst)) else none⟩

/-- `evaluate_row_cells` (mod.rs:327-355): the scalars object (when asked for) and the values of
the collect columns with their column number -/
def rowCells (e : Ev) (rule : Rule) (scalars : Bool) :
    Nat → List TOutput → Val → List (Nat × Val) → Option (Val × List (Nat × Val))
  | _, [], sc, cs => some (sc, cs)
  | col, o :: rest, sc, cs =>
    if o.writePath.1.isEmpty || (!o.writePath.2 && !scalars) then rowCells e rule scalars (col + 1) rest sc cs
    else match cellOf rule o.id with
      | none => rowCells e rule scalars (col + 1) rest sc cs
      | some cell => match e.run F B cell with
        | .error _ => none
        | .ok v =>
          if o.writePath.2 then rowCells e rule scalars (col + 1) rest sc (cs ++ [(col, v)])
          else rowCells e rule scalars (col + 1) rest (sc.dotInsert o.writePath.1 v).1 cs

/-- `collected[column_idx].push(value)` (mod.rs:255-257), `collected` as a list of columns -/
def pushCol (collected : List (List Val)) (cv : Nat × Val) : List (List Val) :=
  match collected[cv.1]? with
  | some vs => collected.set cv.1 (vs ++ [cv.2])
  | none => collected

/-- state of the loop of `handle_first_hit_collect` (mod.rs:232-235); `scalars = none` until the
first row fired, `rows` are the rows that fired (so `matched` is `rows ≠ []`) -/
structure FcState where
  scalars : Option Val := none
  collected : List (List Val)
  rows : List Nat := []

/-- the loop of `handle_first_hit_collect` (mod.rs:237-266) -/
def firstCollectRows (t : Table) (skip : Nat → Bool) (decided : Nat → Nat → Bool) :
    Nat → List Rule → Ev → FcState → FcState
  | _, [], _, st => st
  | row, rule :: rest, e, st =>
    if skip row then firstCollectRows t skip decided (row + 1) rest e st
    else match rowMatches F B (decided row) rule 0 t.inputs e with
      | (false, e) => firstCollectRows t skip decided (row + 1) rest e st
      | (true, e) => match rowCells F B e rule st.scalars.isNone 0 t.outputs (.obj []) [] with
        | none => firstCollectRows t skip decided (row + 1) rest e st
        | some (sc, cs) => firstCollectRows t skip decided (row + 1) rest e
          { scalars := (match st.scalars with | none => some sc | some s => some s)
            collected := cs.foldl pushCol st.collected
            rows := st.rows ++ [row] }

/-- the final loop over the columns (mod.rs:277-284) -/
def insertCollected : List TOutput → List (List Val) → Val → Val
  | o :: os, vs :: vss, out =>
    if !o.writePath.2 || o.writePath.1.isEmpty then insertCollected os vss out
    else insertCollected os vss (out.dotInsert o.writePath.1 (.arr vs)).1
  | _, _, out => out

/-- `handle_first_hit_collect` (mod.rs:222-290) -/
def handleFirstHitCollect (t : Table) (ix : Option TableIx) (trace : Bool) (e : Ev) : TableOut :=
  let ix := if trace then none else ix
  let (cand, e) := candidates F B t ix e
  let st := firstCollectRows F B t (skipped cand) (decidedBy cand ix) 0 t.rules e
    { collected := t.outputs.map fun _ => [] }
  if st.rows.isEmpty then ⟨.null, none⟩
  else ⟨insertCollected t.outputs st.collected (st.scalars.getD (.obj [])),
    if trace then some (.collect st.rows) else none⟩

/-- `handle` (mod.rs:37-46) -/
def handleTable (t : Table) (ix : Option TableIx) (trace : Bool) (e : Ev) : TableOut :=
  match t.hit with
  | .first =>
    if t.outputs.any fun o => o.writePath.2 then handleFirstHitCollect F B t ix trace e
    else handleFirstHit F B t ix trace e
  | .collect => handleCollect F B t ix trace e

/-- What the engine runs: the index is built from the same table when the graph is compiled
(model/decision_content.rs:205-222), or is absent when it was not; the isolate starts with the
input and the local `$nodes` (nodes/context.rs:220-232). -/
def runTable (t : Table) (compiled trace : Bool) (scope : Scope) : TableOut :=
  handleTable F B t (if compiled then TableIx.build F t.inputs t.rules else none) trace { scope := scope }

end
end Zen
