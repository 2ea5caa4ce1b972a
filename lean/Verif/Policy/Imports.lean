import Verif.Core.MapLemmas
/-
Imports between policies: the documents collected for an evaluation
(core/engine/src/policy/runtime.rs) and the components of a workspace
(core/engine/src/workspace/db.rs, core/engine/src/policy/queries/scope.rs).
-/
namespace Zen.Policy
open Zen

/-! ## Transitive imports -/

/-- `PolicyDocument`, as far as imports are concerned; `body` is the rest -/
structure PDoc (D : Type) where
  imports : List String
  body : D

/-- `DecisionContent` -/
inductive PContent (D : Type) where
  | policy (d : PDoc D)
  | graph

inductive PErr (E : Type) where
  | load (e : E)
  /-- `ContentKindMismatch` -/
  | kind (key : String)

variable {D E : Type}

/-- the loop over the imports of one document (policy/runtime.rs:91-100). `enqueued` is a set in the code;
here it lists its elements in the order of insertion. -/
def enqueueAll (load : String → Except E (PContent D)) : List String → List String → List (String × PContent D) →
    Except (PErr E) (List String × List (String × PContent D))
  | [], enq, queue => .ok (enq, queue)
  | i :: is, enq, queue =>
    if i ∈ enq then enqueueAll load is enq queue
    else match load i with
      | .error e => .error (.load e)
      | .ok c => enqueueAll load is (enq ++ [i]) (queue ++ [(i, c)])

/-- the loop of `collect_transitive_policies` (policy/runtime.rs:79-103); `none` when the fuel ran out. The
loader is a function: it answers the same for the same key during one collection. -/
def collectLoop (load : String → Except E (PContent D)) : Nat → List String → List (String × PContent D) → List (String × PDoc D) →
    Option (Except (PErr E) (List (String × PDoc D)))
  | 0, _, _, _ => none
  | _ + 1, _, [], docs => some (.ok docs)
  | n + 1, enq, (path, content) :: queue, docs => match content with
    | .graph => some (.error (.kind path))
    | .policy d => match enqueueAll load d.imports enq queue with
      | .error e => some (.error e)
      | .ok (enq, queue) => collectLoop load n enq queue (docs ++ [(path, d)])

/-- `collect_transitive_policies` (policy/runtime.rs:67-106) -/
def collectPolicies (load : String → Except E (PContent D)) (fuel : Nat) (entry : String) (content : PContent D) :
    Option (Except (PErr E) (List (String × PDoc D))) :=
  collectLoop load fuel [entry] [(entry, content)] []

/-! ## Components -/

/-- the edges of `compute_import_graph` (policy/queries/scope.rs:475-498): policies are listed with their imports,
imports of unknown policies are left out -/
def importEdges (P : List (String × List String)) : List (String × String) :=
  P.flatMap fun e => (e.2.filter fun i => (aKeys P).contains i).map fun i => (e.1, i)

/-- `neighbors_undirected` -/
def importNbrs (P : List (String × List String)) (p : String) : List String :=
  ((importEdges P).filter fun e => e.1 == p).map Prod.snd ++ ((importEdges P).filter fun e => e.2 == p).map Prod.fst

/-- the inner loop of `compute_components` (workspace/db.rs:812-822); the top of the stack is the head -/
def componentFrom (nbrs : String → List String) : Nat → List String → List String → List String → Option (List String × List String)
  | 0, _, _, _ => none
  | _ + 1, [], seen, members => some (seen, members)
  | n + 1, p :: stack, seen, members =>
    if p ∈ seen then componentFrom nbrs n stack seen members
    else componentFrom nbrs n ((nbrs p).reverse ++ stack) (p :: seen) (members ++ [p])

def insertKey (k : String) : List String → List String
  | [] => [k]
  | x :: l => if k ≤ x then k :: x :: l else x :: insertKey k l

/-- `sort` -/
def sortKeys (l : List String) : List String := l.foldr insertKey []

/-- the outer loop (workspace/db.rs:807-825) -/
def componentsLoop (nbrs : String → List String) (fuel : Nat) : List String → List String → List (List String) →
    Option (List (List String))
  | [], _, cs => some cs
  | p :: ps, seen, cs =>
    if p ∈ seen then componentsLoop nbrs fuel ps seen cs
    else match componentFrom nbrs fuel [p] seen [] with
      | none => none
      | some (seen, members) => componentsLoop nbrs fuel ps seen (cs ++ [sortKeys members])

/-- `compute_components` (workspace/db.rs:799-834) -/
def computeComponents (P : List (String × List String)) (fuel : Nat) : Option (List (List String)) :=
  componentsLoop (importNbrs P) fuel (sortKeys (aKeys P)) [] []

/-- `policy_to_component` (workspace/db.rs:826-831): later entries replace earlier ones -/
def componentIndex : List (List String) → Nat → List (String × Nat) → List (String × Nat)
  | [], _, m => m
  | c :: cs, i, m => componentIndex cs (i + 1) (c.foldl (fun m p => aSet m p i) m)

end Zen.Policy
