import Verif.Core.Val
/-
Syntax trees and operators of the expression language.
-/
namespace Zen

/-- `ArithmeticOperator` (core/expression/src/lexer/token.rs:117-131) -/
inductive AOp where | add | sub | mul | div | mod | pow
deriving DecidableEq, Repr
/-- `LogicalOperator` (token.rs:133-143) -/
inductive LOp where | and | or | not | coalesce
deriving DecidableEq, Repr
/-- `ComparisonOperator` (token.rs:145-163) -/
inductive COp where | eq | ne | lt | gt | le | ge | in_ | notIn
deriving DecidableEq, Repr
/-- `Operator` (token.rs:69-81) -/
inductive Oper where
  | arith (o : AOp) | logic (o : LOp) | cmp (o : COp)
  | range | comma | slice | dot | question | assign | semi
deriving DecidableEq, Repr

/-- `ClosureFunction` (core/expression/src/functions/mod.rs) -/
inductive Clo where | all | none | some | one | filter | map | flatMap | count
deriving DecidableEq, Repr

/-- `Node` (core/expression/src/parser/ast.rs:9-72).
Simplifications: a call of a closure function is a separate constructor carrying the iterated
expression, the alias and the body, because the parser produces exactly the argument list
`[expr, Closure { body, alias }]` for those kinds and produces `Closure` nowhere else
(core/expression/src/parser/parser.rs:736-785); function and method kinds are names; the error
node carries no payload. -/
inductive Node where
  | null
  | bool (b : Bool)
  | num (n : Rat)
  | str (s : String)
  | tmpl (parts : List Node)
  | pointer
  | arr (xs : List Node)
  | obj (kvs : List (Node × Node))
  | assigns (list : List (Node × Node)) (output : Option Node)
  | ident (s : String)
  | paren (n : Node)
  | root
  | member (n p : Node)
  | slice (n : Node) (from_ to : Option Node)
  | interval (l r : Node) (lb rb : Brk)
  | cond (c t f : Node)
  | unary (op : Oper) (n : Node)
  | binary (op : Oper) (l r : Node)
  | call (f : String) (args : List Node)
  | closure (k : Clo) (over : Node) (alias : Option String) (body : Node)
  | method (m : String) (this : Node) (args : List Node)
  | error

section
set_option linter.unusedSectionVars false
variable {P : Node → Prop}
  (null : P .null) (bool : ∀ b, P (.bool b)) (num : ∀ n, P (.num n)) (str : ∀ s, P (.str s))
  (tmpl : ∀ ps, (∀ n ∈ ps, P n) → P (.tmpl ps)) (pointer : P .pointer)
  (arr : ∀ ps, (∀ n ∈ ps, P n) → P (.arr ps))
  (obj : ∀ kvs, (∀ p ∈ kvs, P p.1 ∧ P p.2) → P (.obj kvs))
  (assigns : ∀ kvs o, (∀ p ∈ kvs, P p.1 ∧ P p.2) → (∀ n, o = some n → P n) → P (.assigns kvs o))
  (ident : ∀ s, P (.ident s)) (paren : ∀ n, P n → P (.paren n)) (root : P .root)
  (member : ∀ n p, P n → P p → P (.member n p))
  (slice : ∀ n f t, P n → (∀ m, f = some m → P m) → (∀ m, t = some m → P m) → P (.slice n f t))
  (interval : ∀ l r lb rb, P l → P r → P (.interval l r lb rb))
  (cond : ∀ c t f, P c → P t → P f → P (.cond c t f))
  (unary : ∀ op n, P n → P (.unary op n))
  (binary : ∀ op l r, P l → P r → P (.binary op l r))
  (call : ∀ f as, (∀ n ∈ as, P n) → P (.call f as))
  (closure : ∀ k o al b, P o → P b → P (.closure k o al b))
  (method : ∀ m t as, P t → (∀ n ∈ as, P n) → P (.method m t as))
  (error : P .error)
include null bool num str tmpl pointer arr obj assigns ident paren root member slice interval cond
  unary binary call closure method error
mutual
/-- Structural induction on syntax trees. -/
theorem Node.ind : ∀ n : Node, P n
  | .null => null
  | .bool b => bool b
  | .num n => num n
  | .str s => str s
  | .tmpl ps => tmpl ps (Node.indList ps)
  | .pointer => pointer
  | .arr ps => arr ps (Node.indList ps)
  | .obj kvs => obj kvs (Node.indPairs kvs)
  | .assigns kvs o => assigns kvs o (Node.indPairs kvs) (Node.indOpt o)
  | .ident s => ident s
  | .paren n => paren n (Node.ind n)
  | .root => root
  | .member n p => member n p (Node.ind n) (Node.ind p)
  | .slice n f t => slice n f t (Node.ind n) (Node.indOpt f) (Node.indOpt t)
  | .interval l r lb rb => interval l r lb rb (Node.ind l) (Node.ind r)
  | .cond c t f => cond c t f (Node.ind c) (Node.ind t) (Node.ind f)
  | .unary op n => unary op n (Node.ind n)
  | .binary op l r => binary op l r (Node.ind l) (Node.ind r)
  | .call f as => call f as (Node.indList as)
  | .closure k o al b => closure k o al b (Node.ind o) (Node.ind b)
  | .method m t as => method m t as (Node.ind t) (Node.indList as)
  | .error => error
theorem Node.indList : ∀ (ps : List Node), ∀ n ∈ ps, P n
  | [], _, h => nomatch h
  | y :: ys, x, h => by
      rcases List.mem_cons.1 h with h | h
      · rw [h]; exact Node.ind y
      · exact Node.indList ys x h
theorem Node.indPairs : ∀ (ps : List (Node × Node)), ∀ p ∈ ps, P p.1 ∧ P p.2
  | [], _, h => nomatch h
  | (a, b) :: ys, x, h => by
      rcases List.mem_cons.1 h with h | h
      · rw [h]; exact ⟨Node.ind a, Node.ind b⟩
      · exact Node.indPairs ys x h
theorem Node.indOpt : ∀ (o : Option Node), ∀ n, o = some n → P n
  | none, _, h => nomatch h
  | some m, n, h => by cases h; exact Node.ind m
end
end

end Zen
