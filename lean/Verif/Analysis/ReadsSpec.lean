import Verif.Analysis.Reads
import Verif.Expr.Eval
/-
When two environments look the same to an expression, and the proof that a tame expression looks only at the
reported paths.
-/
namespace Zen.Reads
open Zen

/-- the value at a path, null where nothing is found -/
def readAt : Val → List String → Val
  | v, [] => v
  | .obj m, k :: ks => readAt ((aGet m k).getD .null) ks
  | _, _ :: _ => .null

/-- Two environments give the same value at a path; a path from `$root` starts at the environment itself. -/
def Agree (b b' : Val) : List String → Prop
  | "$root" :: r => readAt b r = readAt b' r
  | p => readAt b p = readAt b' p

mutual
/-- no assignment that stays visible: none outside bodies of closures -/
def asgFree : Node → Bool
  | .tmpl ps => asgFreeL ps
  | .arr xs => asgFreeL xs
  | .obj kvs => asgFreeP kvs
  | .assigns _ _ => false
  | .paren n => asgFree n
  | .member n p => asgFree n && asgFree p
  | .slice n f t => asgFree n && asgFreeO f && asgFreeO t
  | .interval l r _ _ => asgFree l && asgFree r
  | .cond c t f => asgFree c && asgFree t && asgFree f
  | .unary _ n => asgFree n
  | .binary _ l r => asgFree l && asgFree r
  | .call _ as => asgFreeL as
  | .closure _ o _ _ => asgFree o
  | .method _ t as => asgFree t && asgFreeL as
  | _ => true
def asgFreeO : Option Node → Bool
  | none => true
  | some n => asgFree n
def asgFreeL : List Node → Bool
  | [] => true
  | n :: ns => asgFree n && asgFreeL ns
def asgFreeP : List (Node × Node) → Bool
  | [] => true
  | (a, b) :: ns => asgFree a && asgFree b && asgFreeP ns
end

/-- operators that may leave their right operand out -/
def lazyOp : Oper → Bool
  | .logic _ => true
  | _ => false

/-- the key of an assignment: a text, as the parser makes it, that does not name `$root` -/
def keyOk : Node → Bool
  | .str k => decide ((splitDot k).head? ≠ some "$root")
  | _ => false

mutual
/-- Tame expressions: what is made only sometimes, or in another order, assigns nothing; and the name `$root` is not
used for other things. -/
def tame : Node → Bool
  | .tmpl ps => tameL ps
  | .arr xs => tameL xs
  | .obj kvs => tameP kvs
  | .assigns list out => tameA list && tameO out
  | .ident v => decide (v ≠ "$root")
  | .paren n => tame n
  | .member n p => tame n && tame p
  | .slice n f t => tame n && (tameO f && asgFreeO f) && (tameO t && asgFreeO t)
  | .interval l r _ _ => tame l && tame r
  | .cond c t f => tame c && (tame t && asgFree t) && (tame f && asgFree f)
  | .unary _ n => tame n
  | .binary op l r => tame l && tame r && (!lazyOp op || asgFree r)
  | .call _ as => tameL as
  | .closure _ o al b => tame o && tame b && decide (al ≠ some "$root")
  | .method _ t as => tame t && tameL as
  | _ => true
def tameO : Option Node → Bool
  | none => true
  | some n => tame n
def tameL : List Node → Bool
  | [] => true
  | n :: ns => tame n && tameL ns
def tameP : List (Node × Node) → Bool
  | [] => true
  | (a, b) :: ns => tame a && tame b && tameP ns
def tameA : List (Node × Node) → Bool
  | [] => true
  | (a, b) :: ns => keyOk a && tame b && tameA ns
end

mutual
/-- how deep closures are nested -/
def nesting : Node → Nat
  | .tmpl ps => nestingL ps
  | .arr xs => nestingL xs
  | .obj kvs => nestingP kvs
  | .assigns list out => max (nestingP list) (nestingO out)
  | .paren n => nesting n
  | .member n p => max (nesting n) (nesting p)
  | .slice n f t => max (nesting n) (max (nestingO f) (nestingO t))
  | .interval l r _ _ => max (nesting l) (nesting r)
  | .cond c t f => max (nesting c) (max (nesting t) (nesting f))
  | .unary _ n => nesting n
  | .binary _ l r => max (nesting l) (nesting r)
  | .call _ as => nestingL as
  | .closure _ o _ b => max (nesting o) (nesting b + 1)
  | .method _ t as => max (nesting t) (nestingL as)
  | _ => 0
def nestingO : Option Node → Nat
  | none => 0
  | some n => nesting n
def nestingL : List Node → Nat
  | [] => 0
  | n :: ns => max (nesting n) (nestingL ns)
def nestingP : List (Node × Node) → Nat
  | [] => 0
  | (a, b) :: ns => max (max (nesting a) (nesting b)) (nestingP ns)
end

end Zen.Reads
