import Verif.Expr.Eval
import Verif.Expr.Compiler
/-
Vocabulary used by the property statements about expressions.
-/
namespace Zen

/-- The compiler accepts the expression. -/
def Compiles (B : Builtins) (n : Node) : Prop := ∃ code, compile B n = .ok code

/-- Compiling the expression and running it in `scope` ends with result `r` (a value or a
failure). -/
def Yields (B : Builtins) (scope : Scope) (n : Node) (r : Except VErr Val) : Prop :=
  ∃ code fuel, compile B n = .ok code ∧ runCode B code scope fuel = some r

mutual
/-- no assignment anywhere in the expression -/
def NoAssign : Node → Prop
  | .tmpl ps => NoAssignL ps
  | .arr ps => NoAssignL ps
  | .obj kvs => NoAssignP kvs
  | .assigns _ _ => False
  | .paren n => NoAssign n
  | .member n p => NoAssign n ∧ NoAssign p
  | .slice n f t => NoAssign n ∧ NoAssignO f ∧ NoAssignO t
  | .interval l r _ _ => NoAssign l ∧ NoAssign r
  | .cond c t f => NoAssign c ∧ NoAssign t ∧ NoAssign f
  | .unary _ n => NoAssign n
  | .binary _ l r => NoAssign l ∧ NoAssign r
  | .call _ as => NoAssignL as
  | .closure _ o _ b => NoAssign o ∧ NoAssign b
  | .method _ t as => NoAssign t ∧ NoAssignL as
  | _ => True
def NoAssignO : Option Node → Prop
  | none => True
  | some n => NoAssign n
def NoAssignL : List Node → Prop
  | [] => True
  | n :: ns => NoAssign n ∧ NoAssignL ns
def NoAssignP : List (Node × Node) → Prop
  | [] => True
  | (k, v) :: ns => NoAssign k ∧ NoAssign v ∧ NoAssignP ns
end

mutual
/-- the expression neither mentions a name in `L` nor the whole context `$root` -/
def Avoids (L : List String) : Node → Prop
  | .tmpl ps => AvoidsL L ps
  | .arr ps => AvoidsL L ps
  | .obj kvs => AvoidsP L kvs
  | .assigns kvs o => AvoidsP L kvs ∧ AvoidsO L o
  | .ident v => v ∉ L
  | .root => False
  | .paren n => Avoids L n
  | .member n p => Avoids L n ∧ Avoids L p
  | .slice n f t => Avoids L n ∧ AvoidsO L f ∧ AvoidsO L t
  | .interval l r _ _ => Avoids L l ∧ Avoids L r
  | .cond c t f => Avoids L c ∧ Avoids L t ∧ Avoids L f
  | .unary _ n => Avoids L n
  | .binary _ l r => Avoids L l ∧ Avoids L r
  | .call _ as => AvoidsL L as
  | .closure _ o _ b => Avoids L o ∧ Avoids L b
  | .method _ t as => Avoids L t ∧ AvoidsL L as
  | _ => True
def AvoidsO (L : List String) : Option Node → Prop
  | none => True
  | some n => Avoids L n
def AvoidsL (L : List String) : List Node → Prop
  | [] => True
  | n :: ns => Avoids L n ∧ AvoidsL L ns
def AvoidsP (L : List String) : List (Node × Node) → Prop
  | [] => True
  | (k, v) :: ns => Avoids L k ∧ Avoids L v ∧ AvoidsP L ns
end

end Zen
