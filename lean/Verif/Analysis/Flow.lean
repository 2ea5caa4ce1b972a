import Verif.Expr.EvalLemmas
import Verif.Analysis.ReadsSpec
/-
From which property the value of an expression is taken (core/expression/src/intellisense/entity_flow.rs).
-/
namespace Zen.Flow
open Zen

/-- `FlowSource` (entity_flow.rs:7-11) -/
structure Src where
  path : List String
  element : Bool
deriving DecidableEq, Repr

/-- `path_of` (entity_flow.rs:67-85) -/
def pathOf : Node → Option (List String)
  | .ident x => some [x]
  | .member n p => match pathOf n with
    | none => none
    | some q => match p with
      | .str k => some (q ++ [k])
      | _ => none
  | _ => none

/-- a source that is not an element (entity_flow.rs:31, 40, 47) -/
def whole : Option Src → Option Src
  | some s => if s.element then none else some s
  | none => none

/-- `agreeing` (entity_flow.rs:61-65) -/
def agreeing (a b : Option Src) : Option Src :=
  match a, b with
  | some l, some r => if l = r then some l else none
  | _, _ => none

/-- `from_node` (entity_flow.rs:14-59) -/
def flowOf : Node → Option Src
  | .paren n => flowOf n
  | .ident x => (pathOf (.ident x)).map fun p => ⟨p, false⟩
  | .root => (pathOf .root).map fun p => ⟨p, false⟩
  | .member n p => match p with
    | .str k => (pathOf (.member n (.str k))).map fun q => ⟨q, false⟩
    | .num _ => (whole (flowOf n)).map fun s => ⟨s.path, true⟩
    | _ => none
  | .slice n _ _ => whole (flowOf n)
  | .closure .filter over _ _ => whole (flowOf over)
  | .binary (.logic .coalesce) l r => agreeing (flowOf l) (flowOf r)
  | .cond _ t f => agreeing (flowOf t) (flowOf f)
  | _ => none

end Zen.Flow
