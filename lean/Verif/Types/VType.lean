import Verif.Core.MapLemmas
/-
Types used by the analysis (core/types/src/variable_type).

Simplifications: a type is a tree; object types are association lists with distinct keys (a hash map in the
code; nothing below depends on the order), and cyclic types, which the `RefCell` allows, are not represented.
-/
namespace Zen

/-- `VariableType` (variable_type/mod.rs:14-29) -/
inductive VT where
  | any
  | null
  | bool
  | string
  | number
  | date
  | interval
  | arr (t : VT)
  | obj (o : List (String × VT))
  | const (c : String)
  | enum (name : Option String) (vs : List String)
  | nullable (t : VT)

namespace VT

/-- `unwrap_nullable` (util.rs:9-14) -/
def unwrap : VT → VT × Bool
  | .nullable t => (t, true)
  | t => (t, false)

/-- `get` (util.rs:33-42) -/
def get : VT → String → VT
  | .obj o, k => (aGet o k).getD .any
  | .nullable t, k => t.get k
  | _, _ => .null

/-- `iterator` (util.rs:16-23) -/
def iterator : VT → Option VT
  | .arr t => some t
  | .interval => some .number
  | .nullable t => t.iterator
  | _ => none

/-- `Any | Null | Nullable(_)` (util.rs:66-69, 238-241) -/
def loose : VT → Bool
  | .any => true
  | .null => true
  | .nullable _ => true
  | _ => false

mutual
/-- `satisfies` (util.rs:44-87): `sat t c` is `t.satisfies(c)`. The cases are arranged by the constraint. -/
def sat : VT → VT → Bool
  | _, .any => true
  | t, .nullable c => match t with
    | .any => true
    | .nullable a => sat a c
    | t => sat t c
  | t, .null => match t with
    | .any => true
    | .null => true
    | _ => false
  | t, .bool => match t with
    | .any => true
    | .bool => true
    | _ => false
  | t, .string => match t with
    | .any => true
    | .string => true
    | .const _ => true
    | .enum _ _ => true
    | _ => false
  | t, .number => match t with
    | .any => true
    | .number => true
    | _ => false
  | t, .date => match t with
    | .any => true
    | .date => true
    | .number => true
    | .string => true
    | .const _ => true
    | .enum _ _ => true
    | _ => false
  | t, .interval => match t with
    | .any => true
    | .interval => true
    | _ => false
  | t, .arr c => match t with
    | .any => true
    | .arr a => sat a c
    | _ => false
  | t, .obj o => match t with
    | .any => true
    | .obj o1 => satFields o1 o
    | _ => false
  | t, .const c => match t with
    | .any => true
    | .const c1 => decide (c1 = c)
    | .string => true
    | .enum _ e => e.all fun i => decide (i = c)
    | _ => false
  | t, .enum _ e => match t with
    | .any => true
    | .const c => e.contains c
    | .enum _ e1 => e1.all fun c => e.contains c
    | .string => true
    | _ => false
/-- the fields of the constraint (util.rs:60-71) -/
def satFields (o1 : List (String × VT)) : List (String × VT) → Bool
  | [] => true
  | (k, v) :: r => (match aGet o1 k with
    | some t => sat t v
    | none => v.loose) && satFields o1 r
end

/-- `widen` (util.rs:132-141) -/
def widen : VT → VT
  | .const _ => .string
  | .enum _ _ => .string
  | .nullable t => .nullable t.widen
  | t => t

/-- values pushed if missing (util.rs:194-200, 210-216, 225-231) -/
def pushNew (vs : List String) : List String → List String
  | [] => vs
  | c :: cs => pushNew (if vs.contains c then vs else vs ++ [c]) cs

/-- the name of a merged enumeration (util.rs:218-221) -/
def joinName : Option String → Option String → Option String
  | some a, some b => some (a ++ " | " ++ b)
  | _, _ => none

/-- the last step of `merge` (util.rs:237-246) -/
def fin (nullable : Bool) (r : VT) : VT := if nullable && !r.loose then .nullable r else r

mutual
/-- `merge` (util.rs:143-247) for a right operand that has (`rn`) or has not been unwrapped yet. `same` stands
for `Rc::ptr_eq` on element types. -/
def mg (same : VT → VT → Bool) : Bool → VT → VT → VT
  | false, l, .nullable r => mg same true l r
  | true, l, .nullable r => match l.unwrap.1 with
    | .null => .nullable (.nullable r)
    | _ => .any
  | _, _, .any => .any
  | rn, l, .null => fin (l.unwrap.2 || rn) (match l.unwrap.1 with
    | .any => .any
    | .null => .null
    | t => .nullable t)
  | rn, l, .bool => fin (l.unwrap.2 || rn) (match l.unwrap.1 with
    | .null => .nullable .bool
    | .bool => .bool
    | _ => .any)
  | rn, l, .string => fin (l.unwrap.2 || rn) (match l.unwrap.1 with
    | .null => .nullable .string
    | .string => .string
    | .const _ => .string
    | .enum _ _ => .string
    | _ => .any)
  | rn, l, .number => fin (l.unwrap.2 || rn) (match l.unwrap.1 with
    | .null => .nullable .number
    | .number => .number
    | _ => .any)
  | rn, l, .date => fin (l.unwrap.2 || rn) (match l.unwrap.1 with
    | .null => .nullable .date
    | .date => .date
    | _ => .any)
  | rn, l, .interval => fin (l.unwrap.2 || rn) (match l.unwrap.1 with
    | .null => .nullable .interval
    | .interval => .interval
    | _ => .any)
  | rn, l, .arr b => fin (l.unwrap.2 || rn) (match l.unwrap.1 with
    | .null => .nullable (.arr b)
    | .arr a => if same a b then .arr a else match a with
      | .any => .arr b
      | a => match b with
        | .any => .arr a
        | b => .arr (mg same false a b)
    | _ => .any)
  | rn, l, .obj o => fin (l.unwrap.2 || rn) (match l.unwrap.1 with
    | .null => .nullable (.obj o)
    | .obj o1 => .obj (mgFields same o1 o)
    | _ => .any)
  | rn, l, .const c => fin (l.unwrap.2 || rn) (match l.unwrap.1 with
    | .null => .nullable (.const c)
    | .const c1 => if c1 = c then .const c1 else .enum none [c1, c]
    | .string => .string
    | .enum _ vs => .enum none (pushNew vs [c])
    | _ => .any)
  | rn, l, .enum n e => fin (l.unwrap.2 || rn) (match l.unwrap.1 with
    | .null => .nullable (.enum n e)
    | .const c => .enum none (pushNew e [c])
    | .enum n1 vs => .enum (joinName n1 n) (pushNew vs e)
    | .string => .string
    | _ => .any)
/-- the fields of two object types (util.rs:171-193) -/
def mgFields (same : VT → VT → Bool) (m : List (String × VT)) : List (String × VT) → List (String × VT)
  | [] => m
  | (k, v) :: r => mgFields same (aSet m k (match aGet m k with
    | some cur => mg same false cur v
    | none => v)) r
end

/-- `merge` (util.rs:143-247) -/
def merge (same : VT → VT → Bool) (a b : VT) : VT := mg same false a b


end VT

theorem VT.ind {P : VT → Prop} (any : P .any) (null : P .null) (bool : P .bool) (string : P .string)
    (number : P .number) (date : P .date) (interval : P .interval) (arr : ∀ t, P t → P (.arr t))
    (obj : ∀ o, (∀ kv ∈ o, P kv.2) → P (.obj o)) (const : ∀ c, P (.const c)) (enum : ∀ n vs, P (.enum n vs))
    (nullable : ∀ t, P t → P (.nullable t)) (t : VT) : P t :=
  VT.rec (motive_1 := P) (motive_2 := fun o => ∀ kv ∈ o, P kv.2) (motive_3 := fun kv => P kv.2)
    any null bool string number date interval arr obj const enum nullable
    (fun _ h => nomatch h)
    (fun kv r h1 h2 x hx => by
      rcases List.mem_cons.1 hx with rfl | hx
      · exact h1
      · exact h2 x hx)
    (fun _ _ h => h) t

end Zen
