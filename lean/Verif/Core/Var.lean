import Verif.Core.VMap
/-
`Variable` with its real object representation, and its equality
(core/types/src/variable/mod.rs).
-/
namespace Zen

/-- `enum Variable` (core/types/src/variable/mod.rs:37-45). Numbers by numeric value.
`Dynamic` values are compared by `Rc::ptr_eq`, so a dynamic is its address. -/
inductive Var where
  | null
  | bool (b : Bool)
  | num (n : Rat)
  | str (s : String)
  | arr (xs : List Var)
  | obj (m : VMap Var)
  | dyn (addr : Nat)

mutual
/-- `PartialEq for Variable` (variable/mod.rs:496-509). -/
def Var.beq : Var → Var → Bool
  | .null, .null => true
  | .bool a, .bool b => a == b
  | .num a, .num b => decide (a = b)
  | .str a, .str b => a == b
  | .arr a, .arr b => Var.beqList a b
  | .obj (.small e), .obj n => e.length == n.len && Var.beqEntries e n
  | .obj (.large t), .obj n => t.length == n.len && Var.beqEntries t n
  | .dyn a, .dyn b => a == b
  | _, _ => false
/-- `Vec<Variable> == Vec<Variable>` -/
def Var.beqList : List Var → List Var → Bool
  | [], [] => true
  | a :: as, b :: bs => Var.beq a b && Var.beqList as bs
  | _, _ => false
/-- the `.iter().all(|(key, value)| other.get(key).is_some_and(|o| o == value))` of
`PartialEq for VariableMap` (map.rs:352-359). `all` does not depend on the iteration order, so
the hash table's order is not a parameter here; `o == value` is computed as `value == o`. -/
def Var.beqEntries : List (String × Var) → VMap Var → Bool
  | [], _ => true
  | (k, v) :: r, n =>
    (match n.get k with | some o => Var.beq v o | none => false) && Var.beqEntries r n
end

/-- Keys are unique in every object at every depth (what C01 establishes for every object built
through the API). -/
inductive Var.Wf : Var → Prop
  | null : Wf .null
  | bool b : Wf (.bool b)
  | num n : Wf (.num n)
  | str s : Wf (.str s)
  | arr xs : (∀ x ∈ xs, Wf x) → Wf (.arr xs)
  | small e : (e.map Prod.fst).Nodup → (∀ k x, (k, x) ∈ e → Wf x) → Wf (.obj (.small e))
  | large t : (t.map Prod.fst).Nodup → (∀ k x, (k, x) ∈ t → Wf x) → Wf (.obj (.large t))
  | dyn a : Wf (.dyn a)

end Zen
