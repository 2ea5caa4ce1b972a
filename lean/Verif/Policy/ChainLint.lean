import Verif.Expr.Ast
/-
The hint on chained conditionals of the policy linter: core/engine/src/policy/linter/prefer_match.rs and the
helpers `unwrap_parens` and `dotted_path` of linter/mod.rs. Positions in the source are left out.
-/
namespace Zen.Policy
open Zen

/-- `AstOps::unwrap_parens` (linter/mod.rs:65-70) -/
def unwrap : Node → Node
  | .paren n => unwrap n
  | n => n

/-- `dotted_path` after `unwrap_parens` (linter/mod.rs:76) -/
def pathIn : Node → Option String
  | .paren n => pathIn n
  | .ident s => some s
  | .member n p => match pathIn n with
    | some base => match unwrap p with
      | .str k => some (base ++ "." ++ k)
      | _ => none
    | none => none
  | _ => none

/-- `AstOps::dotted_path` (linter/mod.rs:72-84) -/
def pathOf : Node → Option String
  | .paren _ => none
  | n => pathIn n

mutual
/-- the dotted paths of the nodes visited by `walk` (core/expression/src/parser/ast.rs:75-158, prefer_match.rs:70-75); a closure
function has the iterated expression and its body as arguments -/
def walked : Node → List String
  | .tmpl ps => walkedL ps
  | .arr ps => walkedL ps
  | .obj kvs => walkedP kvs
  | .assigns kvs o => walkedP kvs ++ walkedO o
  | .ident s => [s]
  | .paren n => walked n
  | .member n p => (pathOf (.member n p)).toList ++ walked n ++ walked p
  | .slice n f t => walked n ++ walkedO t ++ walkedO f
  | .interval l r _ _ => walked l ++ walked r
  | .cond c t f => walked c ++ walked t ++ walked f
  | .unary _ n => walked n
  | .binary _ l r => walked l ++ walked r
  | .call _ as => walkedL as
  | .closure _ o _ b => walked o ++ walked b
  | .method _ n as => walked n ++ walkedL as
  | _ => []
def walkedO : Option Node → List String
  | none => []
  | some n => walked n
def walkedL : List Node → List String
  | [] => []
  | n :: ns => walked n ++ walkedL ns
def walkedP : List (Node × Node) → List String
  | [] => []
  | (k, v) :: ns => walked k ++ walked v ++ walkedP ns
end

/-- `other.len() > path.len() && other.starts_with(&format!("{path}."))` (prefer_match.rs:80) -/
def longer (other path : String) : Bool :=
  decide (other.toList.length > path.toList.length) && (path.toList ++ ['.']).isPrefixOf other.toList

/-- `PreferMatch::maximal_paths` (prefer_match.rs:69-84); the set is a list without repetitions -/
def maximal (n : Node) : List String :=
  ((walked n).filter fun p => !(walked n).any fun q => longer q p).eraseDups

/-- the paths of the conditions, in order (prefer_match.rs:26-46) -/
def conditionPaths : Node → List (List String)
  | .paren n => conditionPaths n
  | .cond c _ f => maximal c :: conditionPaths f
  | _ => []

/-- `ChainInfo` (prefer_match.rs:16-20) without the span -/
structure ChainInfo where
  conditions : Nat
  scrutinee : Option String
  deriving DecidableEq

/-- `common` (prefer_match.rs:51-56) -/
def common : List (List String) → List String
  | [] => []
  | p :: ps => ps.foldl (fun acc q => acc.filter fun x => q.contains x) p

/-- `PreferMatch::inspect` (prefer_match.rs:25-67) -/
def inspect (n : Node) : Option ChainInfo :=
  if (conditionPaths n).length < 2 then none
  else some
    { conditions := (conditionPaths n).length
      scrutinee := match common (conditionPaths n) with
        | [p] => some p
        | _ => none }

end Zen.Policy
