import Verif.Types.Provider
import Verif.Props.C08
import Verif.Expr.Spec
/-
Vocabulary of the soundness statement for the type checker: scopes that fit their types, and the expressions
whose inferred type can be relied on.
-/
namespace Zen
namespace Ty
open VT

/-- the types in a scope list no key twice -/
structure TScope.WF (sc : TScope) : Prop where
  root : VT.WF sc.root
  pointer : VT.WF sc.pointer
  aliases : ∀ k t, aGet sc.aliases k = some t → VT.WF t

/-- the data in a scope has the type the checker assumes: an object type -/
structure Fits (sc : TScope) (env : Scope) : Prop where
  locals : (aKeys env.locals).Nodup
  root : ∃ o, sc.root = .obj o ∧ Inh sc.root env.materialize

/-- the closure elements have the types the checker assumes -/
structure FrFits (sc : TScope) (fr : Frames) : Prop where
  pointer : ∀ h, fr.head? = some h → Inh sc.pointer h.2
  some_ : ∀ k v, aliasOf fr k = some v → ∃ t, aGet sc.aliases k = some t ∧ Inh t v
  none_ : ∀ k, aliasOf fr k = none → aGet sc.aliases k = none

/-- two types whose merge covers the values of both (see C08) -/
abbrev Mergeable (a b : VT) : Prop := Alike (fun _ _ => True) (fun t => t = .any) a b

/-- each further type can be merged with the union of those before -/
def MergeableAll (same : VT → VT → Bool) (acc : VT) : List VT → Prop
  | [] => True
  | t :: ts => Mergeable acc t ∧ MergeableAll same (merge same acc t) ts

/-- an interval under any number of `nullable`s -/
def isIntervalLike : VT → Bool
  | .interval => true
  | .nullable t => isIntervalLike t
  | _ => false

/-- calls whose inferred type covers the result, by the types of the arguments and the inferred type -/
def SureCall : Fn.Name → List VT → VT → Prop
  | .keys, args, _ => args.head? ≠ some .any
  | .fuzzyMatch, args, _ => args.head? ≠ some .any
  | .min, args, _ => args.head? ≠ some .any ∧ args.head? ≠ some (.arr .any)
  | .max, args, _ => args.head? ≠ some .any ∧ args.head? ≠ some (.arr .any)
  | .merge, _, t => t = .any
  | .mergeDeep, _, t => t = .obj []
  | .values, _, t => t = .arr .any
  | .flatten, args, _ => ∀ a t, args.head? = some a → a.iterator = some t → isIntervalLike t = false
  | _, _, _ => True

/-- functions whose result type depends on the types of their arguments -/
def overloaded : Fn.Name → Bool
  | .keys | .fuzzyMatch | .min | .max | .flatten => true
  | _ => false

/-- methods whose result has the declared type even for an invalid date -/
def SureMethod : Fn.MName → Prop
  | .diff => False
  | .get g => g = .isValid
  | _ => True

mutual
/-- the inferred type of the expression can be relied on, given that the checker accepts it -/
def Sure (same : VT → VT → Bool) (sc : TScope) : Node → Prop
  | .arr xs => SureL same sc xs ∧
    match (detList true same sc xs).1 with
    | [] => True
    | t :: ts => MergeableAll same t ts
  | .obj kvs => (∀ kv ∈ kvs, constStr (determine true same sc kv.1).kind = none) ∨
    (SureP same sc kvs ∧ ∃ cs : List String, cs.Nodup ∧
      kvs.map (fun kv => (determine true same sc kv.1).kind) = cs.map VT.const)
  | .assigns _ _ => False
  | .paren n => Sure same sc n
  | .member n p => Sure same sc n ∧ Sure same sc p
  | .slice n _ _ => Sure same sc n
  | .cond _ t f => Sure same sc t ∧ Sure same sc f ∧
    Mergeable (determine true same sc t).kind (determine true same sc f).kind
  | .unary op n => op = .arith .add → Sure same sc n ∧ (determine true same sc n).kind = .number
  | .binary op l r => match op with
    | .arith .add => Sure same sc l ∧ Sure same sc r
    | .arith .div => False
    | .arith .mod => False
    | .logic .and => Sure same sc r ∧ (determine true same sc r).kind = .bool
    | .logic .or => Sure same sc r ∧ (determine true same sc r).kind = .bool
    | .logic .coalesce => Sure same sc l ∧ Sure same sc r ∧
      ∀ t, (determine true same sc l).kind = .nullable t → Mergeable t (determine true same sc r).kind
    | _ => True
  | .call f args => ∀ n, Fn.Name.ofText f = some n →
    (overloaded n = true → SureL same sc args) ∧
    SureCall n (detList true same sc args).1 (callKind true same f (detList true same sc args).1).kind
  | .closure k over al body => match k with
    | .filter => Sure same sc over ∧ (determine true same sc over).kind ≠ .interval
    | .map => Sure same sc over ∧ Sure same (sc.enter al (determine true same sc over).kind) body
    | .flatMap => Sure same sc over ∧ Sure same (sc.enter al (determine true same sc over).kind) body ∧
      let b := (determine true same (sc.enter al (determine true same sc over).kind) body).kind
      (b.iterator = none ∨ ∃ t, b = .arr t)
    | _ => True
  | .method m _ _ => ∀ n, aGet methodNames m = some n → SureMethod n
  | _ => True
def SureL (same : VT → VT → Bool) (sc : TScope) : List Node → Prop
  | [] => True
  | n :: ns => Sure same sc n ∧ SureL same sc ns
def SureP (same : VT → VT → Bool) (sc : TScope) : List (Node × Node) → Prop
  | [] => True
  | (k, v) :: ns => Sure same sc k ∧ Sure same sc v ∧ SureP same sc ns
end

/-- assignments whose effect on the types of later expressions can be relied on: every target is a constant, and
the operands neither assign nor mention `$root` -/
def SureAsg (same : VT → VT → Bool) : TScope → List (Node × Node) → Prop
  | _, [] => True
  | sc, (k, v) :: r => (NoAssign k ∧ Avoids [] k ∧ Sure same sc k) ∧ (NoAssign v ∧ Avoids [] v ∧ Sure same sc v) ∧
    ∃ c, (determine true same sc k).kind = .const c ∧
      SureAsg same { sc with root := (dotInsertP sc.root (splitDot c) (determine true same sc v).kind).getD sc.root } r

/-- the inferred type of a whole expression can be relied on: assignments only at the top -/
def SureTop (same : VT → VT → Bool) (sc : TScope) : Node → Prop
  | .assigns list none => SureAsg same { sc with root := asgRoot sc.root } list ∧
    ∀ k ∈ aKeys (detAsg true same { sc with root := asgRoot sc.root } [] list).2.1, '.' ∉ k.toList
  | .assigns list (some n) => SureAsg same { sc with root := asgRoot sc.root } list ∧ NoAssign n ∧ Avoids [] n ∧
    Sure same (detAsg true same { sc with root := asgRoot sc.root } [] list).1 n
  | n => NoAssign n ∧ Sure same sc n

/-- the methods give results of the declared type, where that can be relied on -/
def MethodsTyped (method : String → List Val → Except BErr Val) : Prop :=
  ∀ m n args v, aGet methodNames m = some n → SureMethod n → method m args = .ok v →
    ∀ ts, (methodKind m ts).bad = false → Inh (methodKind m ts).kind v

end Ty
end Zen
