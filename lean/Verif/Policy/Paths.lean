import Verif.Core.Dot
import Verif.Core.VMap
/-
Property paths of policies and the table of writers
(core/engine/src/policy/queries/dependency.rs, core/engine/src/policy/evaluator.rs).
-/
namespace Zen.Policy
open Zen

/-- `BlockRef` (workspace/types): a block is named by its policy and its id -/
structure BlockRef where
  policy : String
  block : String
deriving DecidableEq

/-- The prefixes a path is cut into by the loops that look for one dot after the other
(`while let Some(dot) = raw[cut..].find('.')`, queries/dependency.rs:229-236, 462-465, 519-522), shortest
first. -/
def dotPrefixesC : List Char → List (List Char)
  | [] => []
  | c :: r => if c = '.' then [] :: (dotPrefixesC r).map (c :: ·) else (dotPrefixesC r).map (c :: ·)

def dotPrefixes (path : String) : List String := (dotPrefixesC path.toList).map String.ofList

/-- `PathPrefix::extends` (queries/dependency.rs:660-665). The code compares bytes; a dot is one byte and never
part of another character, so comparing characters is the same. -/
def extends_ (pre path : String) : Bool :=
  pre == path ||
    (decide (path.toList.length > pre.toList.length) && pre.toList.isPrefixOf path.toList &&
      decide (path.toList[pre.toList.length]? = some '.'))

/-- `push` (queries/dependency.rs:221-226) -/
def pushOwner (out : List (String × List BlockRef)) (target : String) (owner : BlockRef) : List (String × List BlockRef) :=
  let list := (aGet out target).getD []
  aSet out target (if owner ∈ list then list else list ++ [owner])

/-- the targets one written path contributes to (queries/dependency.rs:227-236) -/
def demandTargets (writers : List (String × BlockRef)) (path : String) : List String :=
  path :: (dotPrefixes path).filter fun p => (aGet writers p).isSome

/-- a stable sort (`sort`, `sort_by` of the standard library), by insertion -/
def insertBy {α : Type} (le : α → α → Bool) (x : α) : List α → List α
  | [] => [x]
  | y :: ys => if le x y then x :: y :: ys else y :: insertBy le x ys

def sortBy {α : Type} (le : α → α → Bool) : List α → List α
  | [] => []
  | x :: xs => insertBy le x (sortBy le xs)

theorem insertBy_perm {α : Type} (le : α → α → Bool) (x : α) : ∀ l : List α, (insertBy le x l).Perm (x :: l)
  | [] => List.Perm.refl _
  | y :: ys => by
    unfold insertBy
    split
    · exact List.Perm.refl _
    · exact ((insertBy_perm le x ys).cons y).trans (List.Perm.swap x y ys)

theorem sortBy_perm {α : Type} (le : α → α → Bool) : ∀ l : List α, (sortBy le l).Perm l
  | [] => List.Perm.refl _
  | x :: xs => (insertBy_perm le x _).trans ((sortBy_perm le xs).cons x)

/-- `EvalGraph::collect_demand_writers` (queries/dependency.rs:214-239). The table of writers is a hash map in the
code; it is sorted by path before use. -/
def collectDemandWriters (writers : List (String × BlockRef)) : List (String × List BlockRef) :=
  (sortBy (fun a b => decide (a.1 ≤ b.1)) writers).foldl
    (fun out e => (demandTargets writers e.1).foldl (fun out t => pushOwner out t e.2) out) []

/-- `EvalGraph::demand_writers_for` (queries/dependency.rs:245-250) -/
def demandWritersFor (table : List (String × List BlockRef)) (path : String) : List BlockRef :=
  (aGet table path).getD []

/-- `Driver::writers_of_longest_prefix` (evaluator.rs:439-454): the path itself, then its prefixes, longest
first (`rfind`). -/
def writersOfLongestPrefix (table : List (String × List BlockRef)) (prop : String) : List BlockRef :=
  if (demandWritersFor table prop).isEmpty then
    (((dotPrefixes prop).reverse.find? fun p => !(demandWritersFor table p).isEmpty).map (demandWritersFor table)).getD []
  else demandWritersFor table prop

/-- `RuleShallowAnalysis` (queries/dependency.rs:50-56), as far as the table of writers is concerned -/
structure RuleWrites where
  ref : BlockRef
  writes : List String

/-- one `if !writers.contains_key(..) { writers.insert(..) }` (queries/dependency.rs:447-459, 478-487) -/
def addWriter (writers : List (String × BlockRef)) (path : String) (owner : BlockRef) : List (String × BlockRef) :=
  if (aGet writers path).isSome then writers else writers ++ [(path, owner)]

/-- one write of a rule (queries/dependency.rs:433-492): the path, then the prefixes of the path; `model` is
`data_model_paths.matches_prefix(..).is_some()` -/
def addWrite (model : String → Bool) (writers : List (String × BlockRef)) (owner : BlockRef) (path : String) : List (String × BlockRef) :=
  if model path then writers
  else (dotPrefixes path).foldl (fun ws p => if model p then ws else addWriter ws p owner) (addWriter writers path owner)

/-- the table of writers built by `compute_graph` (queries/dependency.rs:409-493;
`EvalGraph::from_graph`, queries/dependency.rs:181-194, takes it over) -/
def computeWriters (model : String → Bool) (rules : List RuleWrites) : List (String × BlockRef) :=
  rules.foldl (fun ws r => r.writes.foldl (fun ws p => addWrite model ws r.ref p) ws) []

/-- `DataModelPaths::matches_prefix(..).is_some()` (queries/dependency.rs:695-702) -/
def matchesModel (all : List String) (path : String) : Bool :=
  all.contains path || all.any fun p => extends_ p path || extends_ path p

end Zen.Policy
