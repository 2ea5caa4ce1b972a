import Verif.Policy.Blocks
/-
Model of the table hints of the policy linter (core/engine/src/policy/linter/table_hygiene.rs).
-/
namespace Zen.Policy
open Zen

/-- `str::trim` -/
def trimmed (s : String) : String := String.ofList (trimC s.toList)

/-- `TableView::cell` (table_hygiene.rs:59-63): the trimmed text of a cell, empty if there is none -/
def textOf (rule : Rule) (id : String) : String :=
  match aGet rule id with
  | some c => trimmed c
  | none => ""

/-- `RowView` (table_hygiene.rs:19-22) -/
structure RowView where
  inputs : List String
  outputs : List String
  deriving DecidableEq

/-- the `RowView` of a rule (table_hygiene.rs:47-54) -/
def PTable.rowView (t : PTable) (rule : Rule) : RowView :=
  { inputs := t.inputs.map fun c => textOf rule c.id, outputs := t.outputs.map fun c => textOf rule c.id }

/-- `TableView::first_hit` (table_hygiene.rs:25-57): the rows, unless the table has no outputs, a collecting
output or no inputs. (The labels of the columns, used in messages only, are left out.) -/
def PTable.view (t : PTable) : Option (List RowView) :=
  if t.outputs.isEmpty || t.outputs.any OCol.collect then none
  else if t.inputs.isEmpty then none
  else some (t.rules.map t.rowView)

/-- `TableView::shadows` (table_hygiene.rs:65-71) -/
def shadows (earlier later : RowView) : Bool :=
  (earlier.inputs.zip later.inputs).all fun p => p.1.isEmpty || p.1 == p.2

/-- one hint about rows: the row, the earlier row it is compared with, and whether the message says
"duplicates" (or "is unreachable") -/
structure RowHint where
  later : Nat
  earlier : Nat
  duplicate : Bool
  deriving DecidableEq

/-- the loop body of `RedundantTableRow::check` (table_hygiene.rs:84-111) -/
def rowHint (rows : List RowView) (later : Nat) : Option RowHint :=
  match rows[later]? with
  | none => none
  | some l =>
    match (List.range later).find? fun i => match rows[i]? with
      | some e => shadows e l
      | none => false with
    | none => none
    | some i => match rows[i]? with
      | none => none
      | some e => some ⟨later, i, e.inputs == l.inputs && e.outputs == l.outputs⟩

/-- `RedundantTableRow::check` for one table (table_hygiene.rs:75-113) -/
def PTable.rowHints (t : PTable) : List RowHint :=
  match t.view with
  | none => []
  | some rows => (List.range' 1 (rows.length - 1)).filterMap (rowHint rows)

/-- the cells of the other columns (table_hygiene.rs:161-167) -/
def RowView.key (r : RowView) (col : Nat) : List String := r.inputs.eraseIdx col

/-- the cell of the column (`row.inputs[col_idx]`) -/
def RowView.cell (r : RowView) (col : Nat) : String := r.inputs.getD col ""

/-- the grouping of rows (table_hygiene.rs:159-172): a row joins the first group with its key, or starts
one -/
def addTo (key : List String) (idx : Nat) : List (List String × List Nat) → List (List String × List Nat)
  | [] => [(key, [idx])]
  | (k, ms) :: gs => if k = key then (k, ms ++ [idx]) :: gs else (k, ms) :: addTo key idx gs

/-- the groups (table_hygiene.rs:159-172) -/
def groups (rows : List RowView) (col : Nat) : List (List String × List Nat) :=
  rows.zipIdx.foldl (fun gs p => addTo (p.1.key col) p.2 gs) []

/-- `fall_through_preserved` (table_hygiene.rs:208-234) -/
def fallThrough (col : Nat) (key : List String) (members : List Nat) (outputs : List String) :
    List (RowView × Nat) → Bool
  | [] => false
  | (row, idx) :: rest =>
    if ((row.key col).zip key).all fun p => p.1.isEmpty || p.1 == p.2 then
      if (row.cell col).isEmpty then row.outputs == outputs
      else if members.contains idx then fallThrough col key members outputs rest
      else false
    else fallThrough col key members outputs rest

/-- the columns of the rows with the given numbers -/
def rowsAt (rows : List RowView) (members : List Nat) : List RowView := members.filterMap (rows[·]?)

/-- the loop over the groups (table_hygiene.rs:174-205), with `merges_anything` -/
def groupLoop (rows : List RowView) (col : Nat) : List (List String × List Nat) → Bool → Bool
  | [], merges => merges
  | (key, members) :: gs, merges =>
    let ms := rowsAt rows members
    match ms with
    | [] => groupLoop rows col gs merges
    | m :: _ =>
      if ms.any fun r => r.outputs != m.outputs then false
      else if members.length = 1 then
        if (m.cell col).isEmpty then groupLoop rows col gs merges else false
      else if !(ms.any fun r => (r.cell col).isEmpty) &&
          !fallThrough col key members m.outputs rows.zipIdx then false
      else groupLoop rows col gs (merges || ms.any fun r => r.cell col != m.cell col)

/-- `never_affects_outcome` (table_hygiene.rs:158-206) -/
def neverAffects (rows : List RowView) (col : Nat) : Bool := groupLoop rows col (groups rows col) false

/-- what is said about a column -/
inductive ColHint | noConditions | neverChanges
  deriving DecidableEq

/-- `NonDiscriminatingColumn::check` for one table (table_hygiene.rs:117-154) -/
def PTable.colHints (t : PTable) : List (Nat × ColHint) :=
  match t.view with
  | none => []
  | some rows =>
    if rows.length < 2 then []
    else (List.range t.inputs.length).filterMap fun col =>
      if rows.all fun r => (r.cell col).isEmpty then some (col, .noConditions)
      else if neverAffects rows col then some (col, .neverChanges)
      else none

end Zen.Policy
