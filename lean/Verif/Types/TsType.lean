import Verif.Types.VType
import Verif.Types.Inhabits
/-
Types of function nodes, written in TypeScript (core/engine/src/workspace/graph/ts_type.rs). The parser for TypeScript is another
library; the model starts from the syntax tree.
Simplified: members that are not properties and properties with computed names are members without a name, and a property without a
type has the type `any` (`kw .other`); for both the code does the same. A type reference with a qualified name has no name here.
-/
namespace Zen.Ts
open Zen

/-- keywords; `other` is any, unknown, object, symbol and so on -/
inductive Kw where
  | number
  | bigint
  | string
  | boolean
  | null
  | undefined
  | void
  | never
  | other

inductive TLit where
  | str (s : String)
  | num (q : Rat)
  | bool (b : Bool)
  | bigint
  | tpl

/-- what can stand before a type -/
inductive Op where
  | keyof
  | unique
  | readonly
deriving DecidableEq

/-- `TsType` -/
inductive Ty where
  | kw (k : Kw)
  | lit (l : TLit)
  | arr (t : Ty)
  | tuple (ts : List Ty)
  /-- name, type, whether it is optional -/
  | obj (members : List (Option String × Ty × Bool))
  | union (ts : List Ty)
  | inter (ts : List Ty)
  | paren (t : Ty)
  /-- an optional element of a tuple -/
  | opt (t : Ty)
  /-- the rest of a tuple -/
  | rest (t : Ty)
  | oper (op : Op) (t : Ty)
  | ref (name : Option String) (params : List Ty)
  /-- functions and everything else -/
  | other

/-- `keyword` (ts_type.rs:86-99) -/
def keyword : Kw → VT
  | .number | .bigint => .number
  | .string => .string
  | .boolean => .bool
  | .null | .undefined | .void | .never => .null
  | .other => .any

/-- `literal` (ts_type.rs:101-111) -/
def literal : TLit → VT
  | .str s => .const s
  | .num _ => .number
  | .bool _ => .bool
  | .bigint => .number
  | .tpl => .string

/-- `wrap_optional` (workspace/graph/mod.rs:30-39) -/
def wrapOptional : VT → VT
  | .any => .any
  | .null => .null
  | .nullable t => .nullable t
  | t => .nullable t

/-- `reduce` with `merge`, or `Any` (ts_type.rs:60-66, 139-155) -/
def mergeAll (same : VT → VT → Bool) : List VT → VT
  | [] => .any
  | t :: ts => ts.foldl (VT.merge same) t

/-- the end of `reference` (ts_type.rs:169-174) -/
def refType (name : Option String) (first : VT) : VT :=
  match name with
  | some "Array" | some "ReadonlyArray" => .arr first
  | some "Promise" | some "Awaited" | some "Readonly" => first
  | some "Date" => .date
  | _ => .any

mutual
/-- `convert` (ts_type.rs:55-84); `same` is as for `merge` -/
def convert (same : VT → VT → Bool) : Ty → VT
  | .kw k => keyword k
  | .lit l => literal l
  | .arr t => .arr (convert same t)
  | .tuple ts => .arr (mergeAll same (convertAll same ts))
  | .obj ms => match convertMembers same [] ms with
    | some fields => .obj fields
    | none => .any
  | .union ts => mergeAll same (convertAll same ts)
  | .inter ts => mergeAll same (convertAll same ts)
  | .paren t => convert same t
  | .opt t => .nullable (convert same t)
  | .rest t => convert same t
  | .oper _ t => convert same t
  | .ref name params => refType name ((convertAll same params).head?.getD .any)
  | .other => .any
def convertAll (same : VT → VT → Bool) : List Ty → List VT
  | [] => []
  | t :: ts => convert same t :: convertAll same ts
/-- the loop of `type_literal` (ts_type.rs:113-137) -/
def convertMembers (same : VT → VT → Bool) (fields : List (String × VT)) : List (Option String × Ty × Bool) → Option (List (String × VT))
  | [] => some fields
  | (none, _, _) :: _ => none
  | (some k, t, optional) :: ms =>
    convertMembers same (aSet fields k (if optional then wrapOptional (convert same t) else convert same t)) ms
end

end Zen.Ts
