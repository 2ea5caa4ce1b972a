import Verif.Engine.Table
/-
From the document of a policy to its data models and dictionaries: core/engine/src/policy/ir.rs:263-487.
Texts are lists of characters. A diagnostic is its code with what its location and its message hold; the path of the policy and the id
of the block, which are the same in all of them, are left out.
-/
namespace Zen.Doc
open Zen

abbrev Str := List Char

/-- the reasons of `validate_identifier` -/
inductive Reason where
  | empty | digit | dot | bracket | space
  deriving DecidableEq, Repr

/-- the loop of `validate_identifier` (ir.rs:270-280) -/
def scanName : Str → Option Reason
  | [] => none
  | c :: r =>
    if c = '.' then some .dot
    else if c = '[' ∨ c = ']' then some .bracket
    else if isWs c then some .space
    else scanName r

/-- `validate_identifier` (ir.rs:263-282); `none` is `Ok` -/
def validateIdentifier (name : Str) : Option Reason :=
  match name with
  | [] => some .empty
  | c :: _ => if c.isDigit then some .digit else scanName name

/-- `PropertyTypeDoc` (policy/raw.rs:263-281) -/
inductive KindDoc where
  | string (values : Option (List Str))
  | number | boolean | date
  | relationship (target : Str)
  | reference (target : Str)
  deriving DecidableEq, Repr

/-- `PropertyDoc` (policy/raw.rs:232-243) -/
structure PropDoc where
  id : Str
  name : Str
  kind : KindDoc
  array : Bool
  optional : Bool
  deriving DecidableEq, Repr

/-- `DataModelDoc` (policy/raw.rs:214-222); `global` is its scope -/
structure ModelDoc where
  name : Str
  global : Bool
  props : List PropDoc

/-- `PropertyTypeIr` (ir.rs:165-173) -/
inductive Kind where
  | string
  | enum (values : List Str)
  | number | boolean | date
  | relationship (target : Str)
  | reference (target : Str)
  deriving DecidableEq, Repr

/-- `Property` (ir.rs:156-163) -/
structure Prop' where
  id : Str
  name : Str
  kind : Kind
  array : Bool
  optional : Bool
  deriving DecidableEq, Repr

/-- `DataModelIr` (ir.rs:128-133) -/
structure Model where
  name : Str
  global : Bool
  props : List Prop'
  deriving DecidableEq, Repr

/-- the diagnostics of ir.rs:284-487 -/
inductive Diag where
  | missing
  | invalid (r : Reason)
  | propMissing (prop : Str)
  | propInvalid (prop : Str) (r : Reason)
  | propTwice (prop name : Str)
  | valueTwice (at_ value : Str)
  deriving DecidableEq, Repr

/-- one value of an enumeration (ir.rs:362-374): the values and the duplicates so far -/
def valueStep (st : List Str × List Str) (v : Str) : List Str × List Str :=
  let v := trimC v
  if v = [] then st
  else if st.1.any fun prev => prev == v then
    if st.2.any fun d => d == v then st else (st.1, st.2 ++ [v])
  else (st.1 ++ [v], st.2)

/-- the values of an enumeration and the duplicates (ir.rs:359-375) -/
def values (vs : Option (List Str)) : List Str × List Str := (vs.getD []).foldl valueStep ([], [])

/-- the kind of a property with the values that are repeated (ir.rs:357-405) -/
def kindOf : KindDoc → Kind × List Str
  | .string vs =>
    let (trimmed, dups) := values vs
    (if trimmed = [] then .string else .enum trimmed, dups)
  | .number => (.number, [])
  | .boolean => (.boolean, [])
  | .date => (.date, [])
  | .relationship t => (.relationship (trimC t), [])
  | .reference t => (.reference (trimC t), [])

/-- the loop over properties: the names seen with the ids of their properties, the properties and the diagnostics -/
structure PSt where
  seen : List (Str × Str)
  props : List Prop'
  diags : List Diag

/-- one property (ir.rs:314-414) -/
def propStep (st : PSt) (d : PropDoc) : PSt :=
  let name := trimC d.name
  if name = [] then { st with diags := st.diags ++ [.propMissing d.id] }
  else match validateIdentifier name with
    | some r => { st with diags := st.diags ++ [.propInvalid d.id r] }
    | none =>
      match st.seen.lookup name with
      | some prev => { st with diags := st.diags ++ [.propTwice prev name] }
      | none =>
        { seen := (name, d.id) :: st.seen
          props := st.props ++ [⟨d.id, name, (kindOf d.kind).1, d.array, d.optional⟩]
          diags := st.diags ++ (kindOf d.kind).2.map (.valueTwice d.id) }

/-- `DataModelIr::parse` (ir.rs:284-421) -/
def parseModel (doc : ModelDoc) : Option Model × List Diag :=
  let name := trimC doc.name
  if name = [] ∧ doc.global = false then (none, [.missing])
  else match (if name = [] then none else validateIdentifier name) with
    | some r => (none, [.invalid r])
    | none =>
      let st := doc.props.foldl propStep ⟨[], [], []⟩
      (some ⟨name, doc.global, st.props⟩, st.diags)

/-- `DictionaryEntryDoc` (policy/raw.rs:253-261) -/
structure EntryDoc where
  id : Str
  value : Str
  label : Str
  deriving DecidableEq, Repr

/-- `DictionaryEntry` (ir.rs:430-434) -/
structure Entry where
  value : Str
  label : Str
  deriving DecidableEq, Repr

/-- one entry of a dictionary (ir.rs:462-484) -/
def entryStep (st : List Entry × List Diag) (e : EntryDoc) : List Entry × List Diag :=
  let value := trimC e.value
  if value = [] then st
  else if st.1.any fun p => p.value == value then (st.1, st.2 ++ [.valueTwice e.id value])
  else (st.1 ++ [⟨value, trimC e.label⟩], st.2)

/-- `DictionaryIr::parse` (ir.rs:437-487): the name and the entries -/
def parseDict (name : Str) (entries : List EntryDoc) : Option (Str × List Entry) × List Diag :=
  let name := trimC name
  if name = [] then (none, [.missing])
  else match validateIdentifier name with
    | some r => (none, [.invalid r])
    | none =>
      let st := entries.foldl entryStep ([], [])
      (some (name, st.1), st.2)

end Zen.Doc
