import Verif.Heap.Model
/-
A block on the properties of an entity is run once for every instance of it (core/engine/src/policy/evaluator.rs:286-398,
565-676). The instances are shared between the store, the scope a block is evaluated in and the object that stands for the
owner, so this is modelled on values with sharing (`Verif/Heap/Model.lean`).

What the block does is left open: choosing, and a list of steps that evaluate something in the scope and write. Left out: the
trace; the evaluator and its caches (C10, C14; the environment of the evaluator is the scope itself). A dynamic value is its
content, where the code compares addresses (`same_ref`).
-/
namespace Zen.Policy.Iter
open Zen

/-- a property of the object behind a value is set, `as_object()` and `borrow_mut().insert(..)` -/
def setKey (h : Heap) (v : HVal) (k : String) (x : HVal) : Heap :=
  match v with
  | .obj a => match h.objAt a with
    | some m => h.set a (.obj (aSet m k x))
    | none => h
  | _ => h

/-- a property is taken out, `borrow_mut().remove(..)` -/
def dropKey (h : Heap) (v : HVal) (k : String) : Heap :=
  match v with
  | .obj a => match h.objAt a with
    | some m => h.set a (.obj (aErase m k))
    | none => h
  | _ => h

/-- `InstanceSlot` (evaluator.rs:347-353) with the owner that was put in -/
inductive Slot where
  | direct
  | wrapped (wrapper : HVal) (owner : String × HVal)

/-- `needs_owner` (evaluator.rs:306-311): the owner, when there is one and the instance has no property of its name -/
def missingOwner (h : Heap) (owner : Option (String × HVal)) (inst : HVal) : Option (String × HVal) :=
  match owner, inst with
  | some (n, o), .obj a => match h.objAt a with
    | some m => if (aGet m n).isSome then none else some (n, o)
    | none => none
  | _, _ => none

/-- the value that stands for the instance (evaluator.rs:313-337): itself, or a copy of its top level that has the owner -/
def stand (h : Heap) (owner : Option (String × HVal)) (inst : HVal) : Heap × HVal × Slot :=
  match missingOwner h owner inst with
  | none => (h, inst, .direct)
  | some (n, o) =>
    let c := Heap.depthClone 1 h inst
    (setKey c.1 c.2 n o, c.2, .wrapped c.2 (n, o))

/-- `PhaseScope::bind` (evaluator.rs:299-344) -/
def bind (h : Heap) (scope : HVal) (entity : String) (owner : Option (String × HVal)) (inst : HVal) : Heap × Option Slot :=
  match scope with
  | .obj _ =>
    let b := stand h owner inst
    (setKey (dropKey b.1 scope "$") scope entity b.2.1, some b.2.2)
  | _ => (h, none)

/-- `is_injected_owner` and `same_ref` (evaluator.rs:377-397) -/
def injected (owner : String × HVal) (k : String) (v : HVal) : Bool := decide (owner.1 = k) && decide (v = owner.2)

/-- `InstanceSlot::write_back` (evaluator.rs:356-375) -/
def writeBack (h : Heap) (slot : Slot) (inst : HVal) : Heap :=
  match slot with
  | .direct => h
  | .wrapped w owner => match w, inst with
    | .obj a, .obj _ => match h.objAt a with
      | some m => m.foldl (fun h e => if injected owner e.1 e.2 then h else setKey h inst e.1 e.2) h
      | none => h
    | _, _ => h

/-- A step of a block: what it evaluates in the scope gives the values to write (the cells it makes are new ones), each
written with `ExecutionContext::write` (context.rs:468-477, without `env_mirror`). An expression, an assertion and a match
block have one step, a table one for each column or, when it collects, one for all. -/
abbrev Step (E : Type) := Heap → HVal → Except E (Heap × List (List String × HVal))

/-- the writes of a step -/
def puts (h : Heap) (scope : HVal) (ws : List (List String × HVal)) : Heap :=
  ws.foldl (fun h w => (Heap.dotInsert h scope w.1 w.2).1) h

/-- `commit_pick` (evaluator.rs:505-515) -/
def runSteps {E : Type} (scope : HVal) : List (Step E) → Heap → Except E Unit × Heap
  | [], h => (.ok (), h)
  | s :: ss, h => match s h scope with
    | .error e => (.error e, h)
    | .ok (h, ws) => runSteps scope ss (puts h scope ws)

section
variable {E P : Type}

/-- the loop of the choices (evaluator.rs:590-615); `unconditional` when the scope is not an object -/
def selectAll (select : Heap → HVal → Except E P) (unconditional : P) (scope : HVal) (entity : String)
    (owner : Option (String × HVal)) : List HVal → Heap → Except E (List P) × Heap
  | [], h => (.ok [], h)
  | x :: xs, h => match bind h scope entity owner x with
    | (h, none) => match selectAll select unconditional scope entity owner xs h with
      | (.ok ps, h) => (.ok (unconditional :: ps), h)
      | r => r
    | (h, some _) => match select h scope with
      | .error e => (.error e, h)
      | .ok p => match selectAll select unconditional scope entity owner xs h with
        | (.ok ps, h) => (.ok (p :: ps), h)
        | r => r

/-- the loop of the writes (evaluator.rs:639-674), with the choice of each instance -/
def commitAll (commit : P → List (Step E)) (scope : HVal) (entity : String) (owner : Option (String × HVal)) :
    List (HVal × P) → Heap → Except E Unit × Heap
  | [], h => (.ok (), h)
  | (x, p) :: xs, h => match bind h scope entity owner x with
    | (h, none) => commitAll commit scope entity owner xs h
    | (h, some slot) => match runSteps scope (commit p) h with
      | (.error e, h) => (.error e, writeBack h slot x)
      | (.ok (), h) => commitAll commit scope entity owner xs (writeBack h slot x)

/-- the instances (evaluator.rs:573-580) -/
def instances (h : Heap) (store : HVal) (path : List String) : Option (List HVal) :=
  match h.dot store path with
  | some (.arr a) => match h[a]? with
    | some (.arr xs) => some xs
    | _ => none
  | _ => none

/-- `owner_binding` (evaluator.rs:581-586): the owner of a path with one segment is not bound -/
def ownerOf (h : Heap) (store : HVal) (path : List String) (name : Option String) : Option (String × HVal) :=
  match name with
  | none => none
  | some n => if path.length < 2 then none else (h.dot store path.dropLast).map fun v => (n, v)

/-- `run_iterated` (evaluator.rs:565-676). `chooses`: it is a match block or a table; `demand` runs the blocks the choices
read from, `unconditional` is the choice of the other blocks. -/
def runIterated (chooses : Bool) (select : Heap → HVal → Except E P) (unconditional : P) (demand : List P → Heap → Except E Unit × Heap)
    (commit : P → List (Step E)) (store : HVal) (entity : String) (path : List String) (name : Option String) (h : Heap) :
    Except E Unit × Heap :=
  match instances h store path with
  | none => (.ok (), h)
  | some xs =>
    let owner := ownerOf h store path name
    let chosen := if chooses then
        let c := Heap.depthClone 1 h store
        selectAll select unconditional c.2 entity owner xs c.1
      else (.ok (xs.map fun _ => unconditional), h)
    match chosen with
    | (.error e, h) => (.error e, h)
    | (.ok ps, h) => match demand ps h with
      | (.error e, h) => (.error e, h)
      | (.ok (), h) =>
        let c := Heap.depthClone 1 h store
        commitAll commit c.2 entity owner (xs.zip ps) c.1

end
end Zen.Policy.Iter
