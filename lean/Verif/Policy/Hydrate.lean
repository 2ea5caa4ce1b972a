import Verif.Policy.Validator
import Verif.Heap.Model
/-
Replacing reference ids by entities before a policy is evaluated
(core/engine/src/policy/evaluator.rs, core/engine/src/policy/refs.rs).
-/
namespace Zen.Policy
open Zen

/-- `ReferenceField` (policy/queries/scope.rs:80-84) -/
structure RefField where
  path : String
  target : String
  array : Bool

/-- a slot that holds a known id is replaced (policy/evaluator.rs:747-752) -/
def hydrateSlot (pool : List (String × Val)) (x : Val) : Val :=
  match x with
  | .str id => match aGet pool id with
    | some o => o
    | none => x
  | x => x

/-- one field (policy/evaluator.rs:735-759), on values without sharing: writing the slots of the array found at
the path is putting a new array there -/
def hydrateField (pools : Pools) (store : Val) (f : RefField) : Val :=
  match aGet pools f.target with
  | none => store
  | some pool => match store.dot f.path with
    | none => store
    | some v =>
      if f.array then match v with
        | .arr xs => (store.dotInsert f.path (.arr (xs.map (hydrateSlot pool)))).1
        | _ => store
      else match v with
        | .str id => match aGet pool id with
          | some o => (store.dotInsert f.path o).1
          | none => store
        | _ => store

/-- `hydrate_references` (policy/evaluator.rs:734-761) with the pools of the store (policy/evaluator.rs:124-130) -/
def hydrate (fields : List RefField) (store : Val) : Val :=
  let pools := poolsOf store (fields.map RefField.target)
  fields.foldl (hydrateField pools) store

/-! ## The same on shared values -/

namespace H

abbrev HPools := List (String × List (String × HVal))

def poolAdd (h : Heap) (p : List (String × HVal)) (x : HVal) : List (String × HVal) :=
  match h.dot x (splitDot "id") with
  | some (.str id) => aSet p id x
  | _ => p

/-- one pool (policy/refs.rs:15-27) -/
def poolOf (h : Heap) (input : HVal) (target : String) : List (String × HVal) :=
  match h.dot input (splitDot target) with
  | some (.arr a) => match h[a]? with
    | some (.arr xs) => xs.foldl (poolAdd h) []
    | _ => []
  | _ => []

def poolsOf (h : Heap) (input : HVal) (targets : List String) : HPools :=
  targets.foldl (fun ps t => aSet ps t (poolOf h input t)) []

def hydrateSlot (pool : List (String × HVal)) (x : HVal) : HVal :=
  match x with
  | .str id => match aGet pool id with
    | some o => o
    | none => x
  | x => x

/-- one field (policy/evaluator.rs:735-759): the slots are written in the cell of the array -/
def hydrateField (pools : HPools) (store : HVal) (h : Heap) (f : RefField) : Heap :=
  match aGet pools f.target with
  | none => h
  | some pool => match h.dot store (splitDot f.path) with
    | none => h
    | some v =>
      if f.array then match v with
        | .arr a => match h[a]? with
          | some (.arr xs) => h.set a (.arr (xs.map (hydrateSlot pool)))
          | _ => h
        | _ => h
      else match v with
        | .str id => match aGet pool id with
          | some o => (h.dotInsert store (splitDot f.path) o).1
          | none => h
        | _ => h

/-- the store of an evaluation (policy/evaluator.rs:123-130): a copy of the top level of the input, hydrated -/
def prepare (fields : List RefField) (h : Heap) (input : HVal) : Heap × HVal :=
  let c := Heap.depthClone 1 h input
  let pools := poolsOf c.1 c.2 (fields.map RefField.target)
  (fields.foldl (hydrateField pools c.2) c.1, c.2)

end H

end Zen.Policy
