import Verif.Engine.Table
/-
What a decision table means, without evaluator state, index or trace: each cell is judged on its
own against the input.
-/
namespace Zen
section
variable (F : FrontEnd) (B : Builtins)

/-- A cell holds: the cell of a column with an expression is a unary test of the value of that
expression (available to the test as `$`); the cell of a column without one is a condition. -/
def CellHolds (scope : Scope) (field : Option String) (cell : String) : Prop :=
  match field with
  | none => freshRun F B scope .standard cell = .ok (.bool true)
  | some f => ∃ r, freshRun F B scope .standard f = .ok r ∧
      freshRun F B (scope.setLocal "$" r) .unary cell = .ok (.bool true)

/-- All non-empty cells of the row hold. -/
def RowHolds (scope : Scope) (t : Table) (rule : Rule) : Prop :=
  ∀ inp ∈ t.inputs, ∀ cell, cellOf rule inp.id = some cell → CellHolds F B scope inp.field cell

/-- the value of an output cell, if there is a cell and it evaluates -/
def cellVal (scope : Scope) (rule : Rule) (o : TOutput) : Option Val :=
  match cellOf rule o.id with
  | none => none
  | some cell => match freshRun F B scope .standard cell with
    | .ok v => some v
    | .error _ => none

/-- the non-empty output cells of the given columns evaluate (columns without a path do not count) -/
def OutputsEvaluate (scope : Scope) (rule : Rule) (cols : List TOutput) : Prop :=
  ∀ o ∈ cols, o.writePath.1 ≠ "" → ∀ cell, cellOf rule o.id = some cell →
    ∃ v, freshRun F B scope .standard cell = .ok v

/-- the object with the values of the given columns at their paths, written in column order -/
def writeAll (scope : Scope) (rule : Rule) (cols : List TOutput) (acc : Val) : Val :=
  cols.foldl (fun acc o =>
    if o.writePath.1 = "" then acc
    else match cellVal F B scope rule o with
      | some v => (acc.dotInsert o.writePath.1 v).1
      | none => acc) acc

/-- The row matches and has the output `v`. -/
def Fires (scope : Scope) (t : Table) (rule : Rule) (v : Val) : Prop :=
  RowHolds F B scope t rule ∧ OutputsEvaluate F B scope rule t.outputs ∧
    v = writeAll F B scope rule t.outputs (.obj [])

/-- first hit: the output of the first row that fires, null if there is none -/
def FirstHitSpec (scope : Scope) (t : Table) (v : Val) : Prop :=
  (∃ (i : Nat) (rule : Rule), t.rules[i]? = some rule ∧ Fires F B scope t rule v ∧
    ∀ j, j < i → ∀ r, t.rules[j]? = some r → ¬ ∃ w, Fires F B scope t r w) ∨
  (v = .null ∧ ∀ r ∈ t.rules, ¬ ∃ w, Fires F B scope t r w)

/-- collect: the outputs of exactly the rows that fire, in row order -/
inductive Collected (scope : Scope) (t : Table) : List Rule → List Val → Prop
  | nil : Collected scope t [] []
  | hit {r rs v vs} : Fires F B scope t r v → Collected scope t rs vs → Collected scope t (r :: rs) (v :: vs)
  | miss {r rs vs} : (¬ ∃ v, Fires F B scope t r v) → Collected scope t rs vs → Collected scope t (r :: rs) vs

/-! First-hit tables with collect columns (`path[]`): the scalar columns come from the first row that
fires, the collect columns from that row and every later matching row. -/

/-- columns that collect / that do not -/
def collectCols (t : Table) : List TOutput := t.outputs.filter fun o => o.writePath.2
def scalarCols (t : Table) : List TOutput := t.outputs.filter fun o => !o.writePath.2

/-- later rows: matching, and the collect cells evaluate -/
inductive LaterRows (scope : Scope) (t : Table) : List Rule → List Rule → Prop
  | nil : LaterRows scope t [] []
  | hit {r rs fs} : RowHolds F B scope t r → OutputsEvaluate F B scope r (collectCols t) →
      LaterRows scope t rs fs → LaterRows scope t (r :: rs) (r :: fs)
  | miss {r rs fs} : ¬ (RowHolds F B scope t r ∧ OutputsEvaluate F B scope r (collectCols t)) →
      LaterRows scope t rs fs → LaterRows scope t (r :: rs) fs

/-- the contributing rows: the first one matching with all outputs evaluating, then later ones -/
inductive FiredRows (scope : Scope) (t : Table) : List Rule → List Rule → Prop
  | nil : FiredRows scope t [] []
  | first {r rs fs} : RowHolds F B scope t r → OutputsEvaluate F B scope r t.outputs →
      LaterRows F B scope t rs fs → FiredRows scope t (r :: rs) (r :: fs)
  | miss {r rs fs} : ¬ (RowHolds F B scope t r ∧ OutputsEvaluate F B scope r t.outputs) →
      FiredRows scope t rs fs → FiredRows scope t (r :: rs) fs

/-- the collected arrays written at their paths -/
def writeCollected (scope : Scope) (fired : List Rule) (cols : List TOutput) (acc : Val) : Val :=
  cols.foldl (fun acc o =>
    if o.writePath.1 = "" then acc
    else (acc.dotInsert o.writePath.1 (.arr (fired.filterMap fun r => cellVal F B scope r o))).1) acc

def FirstCollectSpec (scope : Scope) (t : Table) (v : Val) : Prop :=
  ∃ fired, FiredRows F B scope t t.rules fired ∧
    v = match fired with
      | [] => .null
      | r :: _ => writeCollected F B scope fired (collectCols t)
          (writeAll F B scope r (scalarCols t) (.obj []))

/-- the meaning of a table -/
def TableSpec (scope : Scope) (t : Table) (v : Val) : Prop :=
  match t.hit with
  | .collect => ∃ vs, v = .arr vs ∧ Collected F B scope t t.rules vs
  | .first =>
    if (collectCols t).isEmpty then FirstHitSpec F B scope t v else FirstCollectSpec F B scope t v

end

/-- the expression does not look at `$` (nor at the whole context, which contains it) and assigns
nothing -/
def NoDollar (F : FrontEnd) (src : String) : Prop :=
  ∀ n, F .standard src = .ok n → NoAssign n ∧ Avoids ["$"] n

/-- The table uses `$` only where it is meant to be used, in the unary tests of cells: column
expressions, condition cells and output cells do not mention it. -/
structure Tidy (F : FrontEnd) (t : Table) : Prop where
  fields : ∀ inp ∈ t.inputs, ∀ f, inp.field = some f → NoDollar F f
  conds : ∀ rule ∈ t.rules, ∀ inp ∈ t.inputs, inp.field = none →
    ∀ cell, cellOf rule inp.id = some cell → NoDollar F cell
  outs : ∀ rule ∈ t.rules, ∀ o ∈ t.outputs, ∀ cell, cellOf rule o.id = some cell → NoDollar F cell

end Zen
