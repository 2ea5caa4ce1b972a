import Verif.Parse.SyntaxInd
/-
The hint that parentheses are not needed
(core/engine/src/policy/linter/redundant_parentheses.rs).
-/
namespace Zen
namespace Parse
open Zen.Lex

/-- `Side` (redundant_parentheses.rs:13-17) -/
inductive Side where | left | right
deriving DecidableEq, Repr

/-- `ParenSite` (redundant_parentheses.rs:19-29). The precedence stored with an operand is looked up again where it is
used, it is determined by the operator. -/
inductive Site where
  | delimited
  | operand (o : Oper) (side : Side)
  | base
  | guarded
deriving DecidableEq, Repr

/-- `operand_site` (redundant_parentheses.rs:119-125) -/
def operandSite (o : Oper) (side : Side) : Site :=
  match binOp o with
  | some _ => .operand o side
  | none => .guarded

/-- `is_atom` (redundant_parentheses.rs:169-179). `Node::Closure` is the body of a closure function only, which is not a
node of its own here: the call of the function is an atom. -/
def isAtom : Node → Bool
  | .binary .. | .unary .. | .cond .. | .assigns .. | .error => false
  | _ => true

/-- `is_compound` (redundant_parentheses.rs:181-186) -/
def isCompound : Node → Bool
  | .binary .. | .unary .. | .cond .. => true
  | _ => false

/-- `same_family` (redundant_parentheses.rs:188-190) -/
def sameFamily : Oper → Oper → Bool
  | .arith _, .arith _ => true
  | a, b => a == b

/-- the nodes of the pattern at redundant_parentheses.rs:131-141 -/
def isBase : Node → Bool
  | .ident _ | .root | .pointer | .member .. | .slice .. | .call .. | .closure .. | .method .. | .paren _ => true
  | _ => false

/-- `is_redundant` (redundant_parentheses.rs:127-167) -/
def redundant (x : Node) : Site → Bool
  | .delimited => isAtom x || isCompound x
  | .guarded => isAtom x
  | .base => isBase x
  | .operand o side =>
    match x with
    | .binary p _ _ => sameFamily p o && (match binOp p, binOp o with
      | some (i, _), some (q, right) => decide (i > q) || (i == q && (match side, right with
        | .left, false | .right, true => true
        | _, _ => false))
      | _, _ => false)
    | .unary p _ => sameFamily p o && (match unOp p, binOp o with
      | some i, some (q, _) => decide (i > q)
      | _, _ => false)
    | x => isAtom x

/-- A hint: the site and the content of the parentheses, and what is written when they are dropped. The code keeps
the spans of the parentheses and of the content. -/
structure Finding (α : Type) where
  site : Site
  inner : Node
  result : α

/-- the same hint seen from the outside -/
def Finding.map {α β : Type} (g : α → β) (f : Finding α) : Finding β := ⟨f.site, f.inner, g f.result⟩

/-- the site of what is inside parentheses at the site `s` (redundant_parentheses.rs:46-49) -/
def inside (s : Site) : Node → Site
  | .paren _ => s
  | _ => .delimited

mutual
/-- `ParenScan::visit` (redundant_parentheses.rs:37-117). A closure function has the iterated expression and its body as
arguments (lines 102-104 and 113). -/
def visit (s : Site) : Node → List (Finding Node)
  | .paren x => (if redundant x s then [⟨s, x, x⟩] else []) ++ (visit (inside s x) x).map (.map .paren)
  | .binary o l r => (visit (operandSite o .left) l).map (.map (.binary o · r)) ++
      (visit (operandSite o .right) r).map (.map (.binary o l ·))
  | .unary o x => (visit .guarded x).map (.map (.unary o ·))
  | .cond c t f => (visit .guarded c).map (.map (.cond · t f)) ++ (visit .guarded t).map (.map (.cond c · f)) ++
      (visit .guarded f).map (.map (.cond c t ·))
  | .member n p => (visit .base n).map (.map (.member · p)) ++ (visit .delimited p).map (.map (.member n ·))
  | .slice n a b => (visit .base n).map (.map (.slice · a b)) ++ (visitOpt a).map (.map (.slice n · b)) ++
      (visitOpt b).map (.map (.slice n a ·))
  | .interval l r lb rb => (visit .delimited l).map (.map (.interval · r lb rb)) ++
      (visit .delimited r).map (.map (.interval l · lb rb))
  | .arr xs => (visitList xs).map (.map .arr)
  | .tmpl xs => (visitList xs).map (.map .tmpl)
  | .obj kvs => (visitPairs .delimited kvs).map (.map .obj)
  | .assigns kvs o => (visitPairs .guarded kvs).map (.map (.assigns · o)) ++ (visitOpt o).map (.map (.assigns kvs ·))
  | .call f xs => (visitList xs).map (.map (.call f ·))
  | .closure k o al b => (visit .delimited o).map (.map (.closure k · al b)) ++
      (visit .delimited b).map (.map (.closure k o al ·))
  | .method m n xs => (visit .base n).map (.map (.method m · xs)) ++ (visitList xs).map (.map (.method m n ·))
  | .null | .bool _ | .num _ | .str _ | .pointer | .ident _ | .root | .error => []
/-- the items of an array, the parts of a template, the arguments of a call -/
def visitList : List Node → List (Finding (List Node))
  | [] => []
  | x :: xs => (visit .delimited x).map (.map (· :: xs)) ++ (visitList xs).map (.map (x :: ·))
/-- the entries of an object and assignments, with the site of the keys -/
def visitPairs (s : Site) : List (Node × Node) → List (Finding (List (Node × Node)))
  | [] => []
  | (k, v) :: kvs => (visit s k).map (.map fun k' => (k', v) :: kvs) ++
      (visit .delimited v).map (.map fun v' => (k, v') :: kvs) ++ (visitPairs s kvs).map (.map ((k, v) :: ·))
/-- an optional part -/
def visitOpt : Option Node → List (Finding (Option Node))
  | none => []
  | some x => (visit .delimited x).map (.map some)
end

/-- `RedundantParentheses::scan` (redundant_parentheses.rs:193-202) -/
def scan (n : Node) : List (Finding Node) := visit .delimited n

end Parse
end Zen
