import Verif.Parse.Syntax
import Verif.Props.C47
import Verif.Props.C15
/-
What the tests of table cells mean. This is the specification the parser of cells is compared with:
which tokens are which tests, and when a test holds of a reference value. It does not mention the functions of
`Verif/Parse/Unary.lean`.
-/
namespace Zen
namespace Parse
open Zen.Lex

/-- a test: a comparison without a left side, or an expression -/
inductive Test where
  | lead (c : COp) (x : Node)
  | plain (x : Node)

/-- the expression of a test -/
def Test.expr : Test → Node
  | .lead _ x => x
  | .plain x => x

/-- how tests are joined -/
inductive Join where | and | or
deriving DecidableEq, Repr

/-- tokens of a test -/
inductive TestW (C : PCfg) : Test → List Token → Prop
  | lead {t c x ts} : t.kind = .op (.cmp c) → Written C .global 0 0 x ts → TestW C (.lead c x) (t :: ts)
  | plain {x ts} : Written C .global 0 0 x ts → TestW C (.plain x) ts

/-- `,` and `or` are the same join -/
inductive JoinW : Join → Lex.Kind → Prop
  | and : JoinW .and (.op (.logic .and))
  | or : JoinW .or (.op (.logic .or))
  | comma : JoinW .or (.op .comma)

/-- tokens of the tests after the first one -/
inductive RestW (C : PCfg) : List (Join × Test) → List Token → Prop
  | nil : RestW C [] []
  | cons {j t k ts rest rs} : JoinW j k.kind → TestW C t ts → RestW C rest rs → RestW C ((j, t) :: rest) (k :: ts ++ rs)

/-- what an expression that stands alone asks: to be the reference value, to have it among its elements, or to be
true -/
inductive Sense where | same | among | cond
deriving DecidableEq, Repr

/-- functions whose result is a collection -/
def listFns : List String := ["flatten", "merge", "mergeDeep", "extract", "split", "keys", "values"]
/-- functions whose result is a condition -/
def condFns : List String := ["contains", "startsWith", "endsWith", "matches", "isNumeric"]
/-- methods of dates whose result is a condition -/
def condMethods : List String :=
  ["isSame", "isBefore", "isAfter", "isSameOrBefore", "isSameOrAfter", "isValid", "isYesterday", "isToday", "isTomorrow",
   "isLeapYear"]

/-- the sense of an expression is seen from its form -/
inductive Use : Node → Sense → Prop
  | null : Use .null .same
  | bool (b) : Use (.bool b) .same
  | num (q) : Use (.num q) .same
  | str (s) : Use (.str s) .same
  | tmpl (ps) : Use (.tmpl ps) .same
  | obj (kvs) : Use (.obj kvs) .same
  | name (s) : Use (.ident s) .same
  | root : Use .root .same
  | member (n p) : Use (.member n p) .same
  | arr (xs) : Use (.arr xs) .among
  | slice (n f t) : Use (.slice n f t) .among
  | interval (l r lb rb) : Use (.interval l r lb rb) .among
  | compare (c l r) : Use (.binary (.cmp c) l r) .cond
  | and (l r) : Use (.binary (.logic .and) l r) .cond
  | or (l r) : Use (.binary (.logic .or) l r) .cond
  | quantifier {k} (o al b) : k = .all ∨ k = .some ∨ k = .none ∨ k = .one → Use (.closure k o al b) .cond
  | collect {k} (o al b) : k = .filter ∨ k = .map ∨ k = .flatMap → Use (.closure k o al b) .among
  | count (o al b) : Use (.closure .count o al b) .same
  | callCond {f} (xs) : f ∈ condFns → Use (.call f xs) .cond
  | callList {f} (xs) : f ∈ listFns → Use (.call f xs) .among
  | call {f} (xs) : f ∉ condFns → f ∉ listFns → Use (.call f xs) .same
  | methodCond {m} (t xs) : m ∈ condMethods → Use (.method m t xs) .cond
  | method {m} (t xs) : m ∉ condMethods → Use (.method m t xs) .same
  | paren {x s} : Use x s → Use (.paren x) s
  | sign {o x s} : o = .add ∨ o = .sub → Use x s → Use (.unary (.arith o) x) s
  | not {x} : Use x .cond → Use (.unary (.logic .not) x) .cond
  | arith {l r s} (o) : Use l s → Use r s → Use (.binary (.arith o) l r) s
  | arithMixed {l r s s'} (o) : Use l s → Use r s' → s ≠ s' → Use (.binary (.arith o) l r) .same
  | branch {t f s} (c) : Use t s → Use f s → Use (.cond c t f) s
  | branchMixed {t f s s'} (c) : Use t s → Use f s' → s ≠ s' → Use (.cond c t f) .same

/-- comparing numbers by order -/
def ordered (c : COp) (x y : Rat) : Prop :=
  match c with
  | .lt => x < y
  | .le => x ≤ y
  | .gt => y < x
  | .ge => y ≤ x
  | _ => False
/-- comparing instants by order -/
def orderedI (c : COp) (x y : Int) : Prop :=
  match c with
  | .lt => x < y
  | .le => x ≤ y
  | .gt => y < x
  | .ge => y ≤ x
  | _ => False
def IsOrder (c : COp) : Prop := c = .lt ∨ c = .le ∨ c = .gt ∨ c = .ge

/-- `Compare c r v b`: comparing `r` with `v` gives `b` -/
inductive Compare : COp → Val → Val → Bool → Prop
  | eq {r v b} : (b = true ↔ SameScalar r v) → Compare .eq r v b
  | ne {r v b} : (b = true ↔ ¬ SameScalar r v) → Compare .ne r v b
  | num {c x y b} : IsOrder c → (b = true ↔ ordered c x y) → Compare c (.num x) (.num y) b
  | date {c x y b} : IsOrder c → (b = true ↔ orderedI c x y) →
      Compare c (.dyn (.date (some x))) (.dyn (.date (some y))) b
  | elem {r vs b} : Scalar r → (b = true ↔ ∃ y ∈ vs, SameScalar r y) → Compare .in_ r (.arr vs) b
  | notElem {r vs b} : Scalar r → (b = true ↔ ¬ ∃ y ∈ vs, SameScalar r y) → Compare .notIn r (.arr vs) b
  | key {k m b} : (b = true ↔ ∃ v, aGet m k = some v) → Compare .in_ (.str k) (.obj m) b

/-- `x` is an interval with these bounds -/
inductive Bounds (B : Builtins) (scope : Scope) : Node → Brk → Brk → Rat → Rat → Prop
  | mk {l r lb rb lo hi} : Operand B scope l (.num lo) → Operand B scope r (.num hi) → round_ lb → round_ rb →
      Bounds B scope (.interval l r lb rb) lb rb lo hi

/-- whether a test holds of the reference value `r` -/
inductive Holds (B : Builtins) (scope : Scope) (r : Val) : Test → Bool → Prop
  /-- a leading comparison compares `r` -/
  | lead {c x v b} : Operand B scope x v → Compare c r v b → Holds B scope r (.lead c x) b
  | leadIn {x lb rb lo hi q b} : Bounds B scope x lb rb lo hi → r = .num q → (b = true ↔ Member lb rb lo hi q) →
      Holds B scope r (.lead .in_ x) b
  | leadNotIn {x lb rb lo hi q b} : Bounds B scope x lb rb lo hi → r = .num q → (b = true ↔ ¬ Member lb rb lo hi q) →
      Holds B scope r (.lead .notIn x) b
  /-- a literal, a name, a number computed: equality -/
  | same {x v b} : Use x .same → Operand B scope x v → (b = true ↔ SameScalar r v) → Holds B scope r (.plain x) b
  /-- an array: one of its elements -/
  | among {x vs b} : Use x .among → Operand B scope x (.arr vs) → Scalar r → (b = true ↔ ∃ y ∈ vs, SameScalar r y) →
      Holds B scope r (.plain x) b
  /-- an interval: membership -/
  | within {x lb rb lo hi q b} : Bounds B scope x lb rb lo hi → r = .num q → (b = true ↔ Member lb rb lo hi q) →
      Holds B scope r (.plain x) b
  /-- a condition, whatever `r` is -/
  | cond {x b} : Use x .cond → Operand B scope x (.bool b) → Holds B scope r (.plain x) b

/-- the verdict `b` after some tests decides the cell without the next one -/
def settled : Join → Bool → Prop
  | .or, b => b = true
  | .and, b => b = false

/-- the verdict of a cell, test after test from the left; a test that does not matter any more has to be well formed
but may fail -/
inductive Ends (B : Builtins) (scope : Scope) (r : Val) : Bool → List (Join × Test) → Bool → Prop
  | nil {b} : Ends B scope r b [] b
  | skip {j t rest b b'} : settled j b → Compiles B t.expr → Ends B scope r b rest b' →
      Ends B scope r b ((j, t) :: rest) b'
  | take {j t rest b c b'} : ¬ settled j b → Holds B scope r t c → Ends B scope r c rest b' →
      Ends B scope r b ((j, t) :: rest) b'

end Parse
end Zen
