import Verif.Policy.Coverage
import Verif.Types.VType
/-
The type a match block gives to its target in the shallow pass. It is the only place of that pass that looks at the
scope: expressions are not typed (context.rs:111-136, 515-530), a table column counts as covered
(decision_table.rs:488-490), and the shallow analysis keeps reads and writes but no diagnostics
(dependency.rs:372-377).
-/
namespace Zen.Ws
open Zen Zen.Policy

/-- `merge_types` (context.rs:301-338) without its report; `same` as in `VT.merge` -/
def mergeTypes (same : VT → VT → Bool) : List VT → VT
  | [] => .null
  | t :: ts => ts.foldl (VT.merge same) t

/-- `analyze` (match_block.rs:191-253) in the shallow pass: the type of the written target. Expressions have type
`Any` (context.rs:520-523). -/
def shallowMatch (F : FrontEnd) (same : VT → VT → Bool) (m : MatchB) (scope : VT) : VT :=
  mergeTypes same ((m.arms.map fun a => if a.value.isEmpty then VT.null else VT.any)
    ++ if exhaustive F m scope then [] else [VT.null])

theorem foldl_any (same : VT → VT → Bool) : ∀ (l : List VT) (t : VT), (t = .null ∨ t = .any) → (∀ x ∈ l, x = .null ∨ x = .any) →
    l.foldl (VT.merge same) t = .null ∨ l.foldl (VT.merge same) t = .any
  | [], t, h, _ => h
  | x :: l, t, h, hl => by
    refine foldl_any same l (VT.merge same t x) ?_ fun y hy => hl y (List.mem_cons_of_mem _ hy)
    rcases h with rfl | rfl <;> rcases hl x (List.mem_cons_self ..) with rfl | rfl <;>
      simp [VT.merge, VT.mg, VT.fin, VT.unwrap]

theorem mergeTypes_null (same : VT → VT → Bool) {l : List VT} (h : ∀ x ∈ l, x = .null ∨ x = .any) :
    mergeTypes same (l ++ [.null]) = mergeTypes same l := by
  cases l with
  | nil => rfl
  | cons t l =>
    simp only [mergeTypes, List.cons_append, List.foldl_append, List.foldl_cons, List.foldl_nil]
    rcases foldl_any same l t (h t (List.mem_cons_self ..)) (fun y hy => h y (List.mem_cons_of_mem _ hy)) with e | e <;>
      rw [e] <;> simp [VT.merge, VT.mg, VT.fin, VT.unwrap]

theorem shallowMatch_eq (F : FrontEnd) (same : VT → VT → Bool) (m : MatchB) (scope : VT) : shallowMatch F same m scope =
    mergeTypes same (m.arms.map fun a => if a.value.isEmpty then VT.null else VT.any) := by
  unfold shallowMatch
  split
  · rw [List.append_nil]
  · refine mergeTypes_null same fun x hx => ?_
    obtain ⟨a, -, rfl⟩ := List.mem_map.1 hx
    split <;> simp

end Zen.Ws
