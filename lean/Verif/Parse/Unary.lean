import Verif.Parse.Lexer
import Verif.Parse.Parser
import Verif.Expr.Ev
/-
Tests of table cells (core/expression/src/parser/unary.rs), on top of the expressions of
`Verif/Parse/Parser.lean`, and the front end of the isolate: source text to syntax tree.
-/
namespace Zen
namespace Parse
open Zen.Lex

/-- `UnaryNodeBehaviour` (unary.rs:279-283) -/
inductive Behaviour where
  | compare (c : COp) | asBoolean
deriving DecidableEq, Repr

/-- the arm of internal functions (unary.rs:346-381) -/
def fnBehaviour : Fn.Name → Behaviour
  | .flatten | .merge | .mergeDeep | .extract | .split | .keys | .values => .compare .in_
  | .contains | .startsWith | .endsWith | .matches_ | .isNumeric => .asBoolean
  | .len | .upper | .lower | .trim | .abs | .sum | .avg | .min | .max | .rand | .median | .mode | .floor | .ceil
  | .round | .trunc | .string | .number | .bool | .fuzzyMatch | .type | .date => .compare .eq

/-- the arm of closure functions (unary.rs:398-407) -/
def cloBehaviour : Clo → Behaviour
  | .all | .some | .none | .one => .asBoolean
  | .filter | .map | .flatMap => .compare .in_
  | .count => .compare .eq

/-- the arm of methods (unary.rs:409-442) -/
def methodBehaviour (m : String) : Behaviour :=
  if m = "isSame" ∨ m = "isBefore" ∨ m = "isAfter" ∨ m = "isSameOrBefore" ∨ m = "isSameOrAfter" ∨ m = "isValid" ∨
      m = "isYesterday" ∨ m = "isToday" ∨ m = "isTomorrow" ∨ m = "isLeapYear" then .asBoolean
  else .compare .eq

/-- `UnaryNodeBehaviour::from` (unary.rs:285-446). Names of functions that are not internal are deprecated
functions, all compared (unary.rs:382-397). -/
def behaviour : Node → Behaviour
  | .null | .root | .bool _ | .num _ | .str _ | .tmpl _ | .obj _ | .assigns _ _ | .ident _ | .member _ _ => .compare .eq
  | .pointer | .error => .asBoolean
  | .arr _ | .slice _ _ _ | .interval _ _ _ _ => .compare .in_
  | .cond _ t f => if behaviour t = behaviour f then behaviour t else .compare .eq
  | .unary _ n => behaviour n
  | .paren n => behaviour n
  | .binary op l r => match op with
    | .arith _ => if behaviour l = behaviour r then behaviour l else .compare .eq
    | .range | .slice => .compare .in_
    | _ => .asBoolean
  | .call f _ => match Fn.Name.ofText f with
    | some n => fnBehaviour n
    | none => .compare .eq
  | .closure k _ _ _ => cloBehaviour k
  | .method m _ _ => methodBehaviour m

/-- `ROOT_NODE` (unary.rs:14) -/
def refNode : Node := .ident "$"

/-- what becomes of an expression that stands alone (unary.rs:97-128) -/
def wrapped (x : Node) : Node :=
  match behaviour x with
  | .compare c => .binary (.cmp c) refNode x
  | .asBoolean => .call "bool" [x]

/-- the comparison at the current position (unary.rs:72, 79) -/
def cmpAt : List Token → Option COp
  | [] => none
  | t :: _ => match t.kind with
    | .op (.cmp c) => some c
    | _ => none

/-- `expression_pair` (unary.rs:68-133) with the expressions given -/
def exprPair (rec : Rec) (ts : List Token) : Node × List Token :=
  match cmpAt ts with
  | some c => match rec .global 0 0 ts.tail with
    | (y, r) => (.binary (.cmp c) refNode y, r)
  | none => match rec .global 0 0 ts with
    | (x, r) => match cmpAt r with
      | some c => match rec .global 0 0 r.tail with
        | (y, r1) => (.binary (.cmp c) x y, r1)
      | none => (wrapped x, r)

/-- the join operators (unary.rs:35-49) -/
def joinAt : Lex.Kind → Option LOp
  | .op (.logic .and) => some .and
  | .op (.logic .or) => some .or
  | .op .comma => some .or
  | _ => none

/-- the loop of `root_expression` (unary.rs:30-65) -/
def rootLoop (rec : Rec) : Nat → Node → List Token → Node × List Token
  | 0, _, ts => (.error, ts)
  | n + 1, l, ts =>
    match ts with
    | [] => (l, [])
    | t :: r => match joinAt t.kind with
      | none => (.error, ts)
      | some j => match exprPair rec r with
        | (x, r1) => rootLoop rec n (.binary (.logic j) l x) r1

/-- `root_expression` (unary.rs:27-66); every round of the loop consumes a token -/
def rootExpr (rec : Rec) (ts : List Token) : Node × List Token :=
  match exprPair rec ts with
  | (x, r) => rootLoop rec (ts.length + 1) x r

/-- `Parser<Unary>::parse` (unary.rs:17-25) and `ParserResult::error` -/
def parseUnary (L : PLib) (ts : List Token) : Option Node :=
  result (rootExpr (binExpr ⟨L, true, hasRange ts⟩ (ts.length + 1)) ts)

/-- source to tree (core/expression/src/isolate.rs:118-132); `enc` gives the bytes of a text, each as a
character. The texts of errors are left out. -/
def frontEnd (L : PLib) (enc : String → List Char) : FrontEnd := fun k src =>
  match tokenize (enc src) with
  | .error _ => .error (.front "lexer")
  | .ok ts =>
    match (match k with | .standard => parse L ts | .unary => parseUnary L ts) with
    | none => .error (.front "parser")
    | some n => .ok n

end Parse
end Zen
