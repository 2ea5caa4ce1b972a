import Verif.Core.VMap
/-
The runtime value at the level of data: the model used by the expression language, tables,
graphs and policies.

Simplifications with respect to core/types/src/variable/mod.rs:
* an object is the association list of its entries in iteration order with unique keys
  (what C01 shows `VariableMap` to be); insertion appends, replacement keeps the position.
* `Rc` sharing is not represented here; it is in Verif/Heap.
* numbers are rationals (numeric value of the `Decimal`).
-/
namespace Zen

/-- Interval brackets (core/expression/src/lexer/token.rs, `Bracket`). -/
inductive Brk where
  | lparen | rparen | lsq | rsq | lcurly | rcurly
deriving DecidableEq, Repr

/-- `VmIntervalData` (core/expression/src/vm/interval.rs). A date is `none` when invalid. -/
inductive IData where
  | num (n : Rat)
  | date (d : Option Int)
deriving DecidableEq

/-- Dynamic values created by the virtual machine: dates (`VmDate`, time stamp only) and
intervals (`VmInterval`). -/
inductive Dyn where
  | date (d : Option Int)
  | interval (lb rb : Brk) (l r : IData)
deriving DecidableEq

/-- `enum Variable` (core/types/src/variable/mod.rs:37-45). -/
inductive Val where
  | null
  | bool (b : Bool)
  | num (n : Rat)
  | str (s : String)
  | arr (xs : List Val)
  | obj (m : List (String × Val))
  | dyn (d : Dyn)

namespace Val

def isNull : Val → Bool | .null => true | _ => false
def isObj : Val → Bool | .obj _ => true | _ => false
def isArr : Val → Bool | .arr _ => true | _ => false

/-- Property lookup on a value: `None` for anything that is not an object
(variable/mod.rs:190-199, one step of `dot`). -/
def get : Val → String → Option Val
  | .obj m, k => aGet m k
  | _, _ => none

mutual
/-- `PartialEq for Variable` (variable/mod.rs:496-509). Dynamic values are compared by content
instead of by `Rc` pointer. -/
def beq : Val → Val → Bool
  | .null, .null => true
  | .bool a, .bool b => a == b
  | .num a, .num b => decide (a = b)
  | .str a, .str b => a == b
  | .arr a, .arr b => beqList a b
  | .obj a, .obj b => a.length == b.length && beqEntries a b
  | .dyn a, .dyn b => decide (a = b)
  | _, _ => false
/-- element-wise equality of arrays -/
def beqList : List Val → List Val → Bool
  | [], [] => true
  | a :: as, b :: bs => beq a b && beqList as bs
  | _, _ => false
/-- entry-wise lookup equality of objects (map.rs:352-359) -/
def beqEntries : List (String × Val) → List (String × Val) → Bool
  | [], _ => true
  | (k, v) :: r, n => (match aGet n k with | some o => beq v o | none => false) && beqEntries r n
end

mutual
/-- number of constructors, for termination arguments -/
def size : Val → Nat
  | .arr xs => 1 + sizeList xs
  | .obj m => 1 + sizeEntries m
  | _ => 1
def sizeList : List Val → Nat
  | [] => 0
  | x :: r => x.size + sizeList r + 1
def sizeEntries : List (String × Val) → Nat
  | [] => 0
  | (_, v) :: r => v.size + sizeEntries r + 1
end

/-- Unique keys at every depth. -/
inductive Wf : Val → Prop
  | null : Wf .null
  | bool b : Wf (.bool b)
  | num n : Wf (.num n)
  | str s : Wf (.str s)
  | arr xs : (∀ x ∈ xs, Wf x) → Wf (.arr xs)
  | obj m : (m.map Prod.fst).Nodup → (∀ k x, (k, x) ∈ m → Wf x) → Wf (.obj m)
  | dyn d : Wf (.dyn d)

end Val

set_option linter.unusedSectionVars false
section
variable {P : Val → Prop} (null : P .null) (bool : ∀ b, P (.bool b)) (num : ∀ n, P (.num n))
    (str : ∀ s, P (.str s)) (arr : ∀ xs, (∀ x ∈ xs, P x) → P (.arr xs))
    (obj : ∀ m, (∀ k x, (k, x) ∈ m → P x) → P (.obj m)) (dyn : ∀ d, P (.dyn d))
include null bool num str arr obj dyn
mutual
/-- Induction on values with hypotheses for every element and every property value. -/
theorem Val.ind : ∀ v : Val, P v
  | .null => null
  | .bool b => bool b
  | .num n => num n
  | .str s => str s
  | .arr xs => arr xs (Val.indList xs)
  | .obj m => obj m (Val.indEntries m)
  | .dyn d => dyn d
theorem Val.indList : ∀ (xs : List Val), ∀ x ∈ xs, P x
  | [], _, h => nomatch h
  | y :: ys, x, h => by
      rcases List.mem_cons.1 h with h | h
      · rw [h]; exact Val.ind y
      · exact Val.indList ys x h
theorem Val.indEntries : ∀ (m : List (String × Val)), ∀ k x, (k, x) ∈ m → P x
  | [], _, _, h => nomatch h
  | (k', y) :: ys, k, x, h => by
      rcases List.mem_cons.1 h with h | h
      · cases h; exact Val.ind y
      · exact Val.indEntries ys k x h
end
end

end Zen
