import Verif.Policy.Imports
import Verif.Policy.Paths
/-
Paths that are written in several components of a workspace
(core/engine/src/policy/queries/components.rs).
-/
namespace Zen.WC
open Zen Zen.Policy

/-- `RuleShallowAnalysis`, as far as it matters here: the policy of the rule and the paths it writes -/
structure RuleWrites where
  policy : String
  writes : List String

/-- the inner loop (policy/queries/components.rs:24-32) -/
def addWrites (policy : String) (c : Nat) (m : List (String × List (String × Nat))) (writes : List String) :
    List (String × List (String × Nat)) :=
  writes.foldl (fun m w => if w = "" then m else aSet m w ((aGet m w).getD [] ++ [(policy, c)])) m

/-- `by_path` (policy/queries/components.rs:19-33) -/
def byPath (index : List (String × Nat)) (rules : List RuleWrites) : List (String × List (String × Nat)) :=
  rules.foldl (fun m r => match aGet index r.policy with
    | none => m
    | some c => addWrites r.policy c m r.writes) []

/-- `Vec::dedup`: of equal neighbours only the first stays -/
def dedupAdj : List String → List String
  | [] => []
  | [x] => [x]
  | x :: y :: l => if x = y then dedupAdj (y :: l) else x :: dedupAdj (y :: l)

/-- the size of a `HashSet` of the numbers -/
def distinct (l : List Nat) : Nat := l.eraseDups.length

/-- the closure of `filter_map` (policy/queries/components.rs:37-46) -/
def conflictOf (e : String × List (String × Nat)) : Option (String × List String) :=
  if distinct (e.2.map Prod.snd) < 2 then none
  else some (e.1, dedupAdj (sortKeys (e.2.map Prod.fst)))

/-- `cross_component_write_conflicts` (policy/queries/components.rs:17-50); `ord` gives the order in
which the hash map is walked -/
def conflicts (ord : List (String × List (String × Nat)) → List (String × List (String × Nat)))
    (index : List (String × Nat)) (rules : List RuleWrites) : List (String × List String) :=
  ((ord (byPath index rules)).filterMap conflictOf).foldr (insertBy fun a b => decide (a.1 ≤ b.1)) []

/-- `component_members` (policy/queries/components.rs:9-15) -/
def componentMembers (index : List (String × Nat)) (components : List (List String)) (policy : String) : List String :=
  match aGet index policy with
  | some k => (components[k]?).getD []
  | none => []

end Zen.WC
