import Verif.Parse.Parser
/-
The written form of expressions: which sequences of tokens stand for which syntax tree. This is the
specification the parser is compared with; it does not mention the parser's functions.

Binary operators have a strength, the stronger binding tighter; `^` groups to the right, all
others to the left; prefix operators have a strength as well. A position takes operators of strength at
least `L`, where a level `L` is `2 * strength`, or `2 * strength + 1` right of an operator that
groups to the left. The end of an expression whose last part is open (a right operand, the operand of a prefix
operator, the alternative of a condition) belongs to that part.
-/
namespace Zen
namespace Parse
open Zen.Lex

/-- strength of the binary operators: or, and, comparisons, sums, products, powers, `??` -/
def strength : Oper → Option Nat
  | .logic .or => some 1
  | .logic .and => some 2
  | .cmp _ => some 3
  | .arith .add | .arith .sub => some 4
  | .arith .mul | .arith .div | .arith .mod => some 6
  | .arith .pow => some 7
  | .logic .coalesce => some 8
  | _ => none

/-- strength of the prefix operators: `not` between sums and products, signs above everything -/
def prefixStrength : Oper → Option Nat
  | .logic .not => some 5
  | .arith .add | .arith .sub => some 9
  | _ => none

/-- the level of the place right of a binary operator of strength `k` -/
def place (o : Oper) (k : Nat) : Nat := if o = .arith .pow then 2 * k else 2 * k + 1

/-- the lowest level of a place that is open at the end of an expression; 100 if there is none -/
def edge : Node → Nat
  | .unary o x => min (2 * (prefixStrength o).getD 0) (edge x)
  | .binary o _ r => min (place o ((strength o).getD 0)) (edge r)
  | .cond _ _ _ => 0
  | _ => 100

/-- the words for variables and `null`, as keys of objects -/
def wordOf : Ident → String
  | .context => "$"
  | .root => "$root"
  | .callback => "#"
  | .null => "null"

/-- the names of the closure functions -/
def closureName : Clo → String
  | .all => "all"
  | .none => "none"
  | .some => "some"
  | .one => "one"
  | .filter => "filter"
  | .map => "map"
  | .flatMap => "flatMap"
  | .count => "count"

/-- the names of the methods -/
def methodNames : List String :=
  ["add", "sub", "set", "format", "startOf", "endOf", "diff", "tz", "isSame", "isBefore", "isAfter", "isSameOrBefore",
   "isSameOrAfter", "second", "minute", "hour", "day", "dayOfYear", "week", "weekday", "month", "quarter", "year", "timestamp",
   "offsetName", "isValid", "isYesterday", "isToday", "isTomorrow", "isLeapYear"]

/-- what may follow a dot: words, also those that are operators between conditions, and the names of variables -/
def afterDot (k : Kind) : Prop :=
  k = .literal ∨ (∃ i, k = .ident i) ∨ (∃ o, k = .op (.logic o)) ∨ k = .op (.cmp .in_)

/-- written expressions, as a parameter of the forms that contain them: context, number of enclosing
closures, level, tree, tokens -/
abbrev Expr := Ctx → Nat → Nat → Node → List Token → Prop

section
set_option inductive.autoPromoteIndices false
variable (C : PCfg) (E : Expr)

/-- expressions separated by commas up to the closing bracket `b`; a comma may come before it -/
inductive Items : Brk → Nat → List Node → List Token → Prop
  | nil {b d z} : z.kind = .bracket b → Items b d [] [z]
  | last {b d x ts z} : E .global d 0 x ts → z.kind = .bracket b → Items b d [x] (ts ++ [z])
  | more {b d x ts t xs ts'} : E .global d 0 x ts → t.kind = .op .comma → Items b d xs ts' →
      Items b d (x :: xs) (ts ++ t :: ts')

/-- the parts of a template up to its end; a closing brace without an opening one (the lexer makes no such token) is skipped -/
inductive Parts : Nat → List Node → List Token → Prop
  | nil {d z} : z.kind = .quote .backtick → Parts d [] [z]
  | text {d t ns ts} : t.kind = .literal → Parts d ns ts → Parts d (.str (C.lib.dec t.value) :: ns) (t :: ts)
  | expr {d a x tx b ns ts} : a.kind = .tmpl .exprStart → E .global d 0 x tx → b.kind = .tmpl .exprEnd → Parts d ns ts →
      Parts d (x :: ns) (a :: tx ++ b :: ts)
  | stray {d t ns ts} : t.kind = .tmpl .exprEnd → Parts d ns ts → Parts d ns (t :: ts)

/-- the key of an entry of an object -/
inductive Key : Nat → Node → List Token → Prop
  | ident {d t i} : t.kind = .ident i → Key d (.str (wordOf i)) [t]
  | bool {d t b} : t.kind = .bool b → Key d (.str (if b then "true" else "false")) [t]
  | number {d t} : t.kind = .number → Key d (.str (C.lib.dec t.value)) [t]
  | literal {d t} : t.kind = .literal → Key d (.str (C.lib.dec t.value)) [t]
  | string {d q a t b} : q ≠ .backtick → a.kind = .quote q → t.kind = .literal → b.kind = .quote q →
      Key d (.str (C.lib.dec t.value)) [a, t, b]
  | computed {d a x tx b} : a.kind = .bracket .lsq → E .global d 0 x tx → b.kind = .bracket .rsq →
      Key d x (a :: tx ++ [b])

/-- the entries of an object up to its end -/
inductive Entries : Nat → List (Node × Node) → List Token → Prop
  | last {d k tk c v tv z} : Key C E d k tk → c.kind = .op .slice → E .global d 0 v tv → z.kind = .bracket .rcurly →
      Entries d [(k, v)] (tk ++ c :: tv ++ [z])
  | more {d k tk c v tv t kvs ts} : Key C E d k tk → c.kind = .op .slice → E .global d 0 v tv → t.kind = .op .comma →
      Entries d kvs ts → Entries d ((k, v) :: kvs) (tk ++ c :: tv ++ t :: ts)

/-- an optional bound of a slice -/
inductive Bound : Nat → Option Node → List Token → Prop
  | none {d} : Bound d none []
  | some {d x ts} : E .global d 0 x ts → Bound d (some x) ts

/-- the alias of a closure -/
inductive Alias : Option String → List Token → Prop
  | none : Alias none []
  | some {a t} : a.kind = .literal → a.value = "as".toList → t.kind = .literal → Alias (some (C.lib.dec t.value)) [a, t]

/-- tokens that can name a function: words, and the names of variables, which the lexer writes as `$`, `$root` and `#` -/
def namesFn (d : Nat) (k : Kind) : Prop :=
  k = .literal ∨ k = .ident .context ∨ k = .ident .root ∨ (k = .ident .callback ∧ d = 0)

/-- an expression without operators at its top; the flag says whether accesses may follow it -/
inductive Primary : Nat → Bool → Node → List Token → Prop
  | null {d t} : t.kind = .ident .null → Primary d false .null [t]
  | bool {d t b} : t.kind = .bool b → Primary d false (.bool b) [t]
  | num {d t q} : t.kind = .number → C.lib.number t.value = some q → Primary d false (.num q) [t]
  | str {d q a t b} : q ≠ .backtick → a.kind = .quote q → t.kind = .literal → b.kind = .quote q →
      Primary d false (.str (C.lib.dec t.value)) [a, t, b]
  | tmpl {d a ns ts} : a.kind = .quote .backtick → Parts C E d ns ts → Primary d false (.tmpl ns) (a :: ts)
  | emptyObj {d a b} : C.range = false → a.kind = .bracket .lcurly → b.kind = .bracket .rcurly →
      Primary d false (.obj []) [a, b]
  | obj {d a kvs ts} : a.kind = .bracket .lcurly → Entries C E d kvs ts → Primary d false (.obj kvs) (a :: ts)
  | name {d t} : t.kind = .literal ∨ t.kind = .ident .context ∨ (t.kind = .ident .callback ∧ d = 0) →
      Primary d true (.ident (C.lib.dec t.value)) [t]
  | root {d t} : t.kind = .ident .root → Primary d true .root [t]
  | pointer {d t} : t.kind = .ident .callback → 0 < d → Primary d true .pointer [t]
  | paren {d a x ts b} : a.kind = .bracket .lparen → E .global d 0 x ts → b.kind = .bracket .rparen →
      Primary d true (.paren x) (a :: ts ++ [b])
  | arr {d a xs ts} : a.kind = .bracket .lsq → Items E .rsq d xs ts → (xs = [] → C.range = false) →
      Primary d true (.arr xs) (a :: ts)
  | interval {d a b lb rb l tl t r tr} : C.range = true → a.kind = .bracket lb → lb = .lparen ∨ lb = .lsq →
      E .global d 0 l tl → t.kind = .op .range → E .global d 0 r tr → b.kind = .bracket rb → rb ≠ .lparen → rb ≠ .lsq →
      Primary d true (.interval l r lb rb) (a :: tl ++ t :: tr ++ [b])
  | call {d t a xs ts} : namesFn d t.kind → isFn (C.lib.dec t.value) = true → a.kind = .bracket .lparen →
      Items E .rparen d xs ts → Primary d true (.call (C.lib.dec t.value) xs) (t :: a :: ts)
  | closure {d t k a o tO al tal c b tb z} : namesFn d t.kind → isFn (C.lib.dec t.value) = false →
      C.lib.dec t.value = closureName k → a.kind = .bracket .lparen → E .global d 0 o tO → Alias C al tal →
      c.kind = .op .comma → E .closure (d + 1) 0 b tb → z.kind = .bracket .rparen →
      Primary d true (.closure k o al b) (t :: a :: tO ++ tal ++ c :: tb ++ [z])
  | member {d n ts t p} : Primary d true n ts → t.kind = .op .dot → afterDot p.kind →
      Primary d true (.member n (.str (C.lib.dec p.value))) (ts ++ [t, p])
  | index {d n ts a x tx b} : Primary d true n ts → a.kind = .bracket .lsq → E .global d 0 x tx → b.kind = .bracket .rsq →
      Primary d true (.member n x) (ts ++ a :: tx ++ [b])
  | slice {d n ts a x tx c y ty b} : Primary d true n ts → a.kind = .bracket .lsq → Bound E d x tx → c.kind = .op .slice →
      Bound E d y ty → b.kind = .bracket .rsq → Primary d true (.slice n x y) (ts ++ a :: tx ++ c :: ty ++ [b])
  | method {d n ts t p a xs tx} : Primary d true n ts → t.kind = .op .dot → afterDot p.kind →
      C.lib.dec p.value ∈ methodNames → a.kind = .bracket .lparen → Items E .rparen d xs tx →
      Primary d true (.method (C.lib.dec p.value) n xs) (ts ++ t :: p :: a :: tx)

end

/-- in table cells `and` and `or` join tests, so they are not operators of the expressions outside closures -/
def joins (C : PCfg) (c : Ctx) (o : Oper) : Prop := C.unary = true ∧ c = .global ∧ (o = .logic .and ∨ o = .logic .or)

/-- an operator of strength `k` may follow the left operand `l`: no open place at the end of `l` takes it. Joins in cells
are not taken by such places. -/
def openFor (C : PCfg) (o : Oper) (k : Nat) (l : Node) : Prop := 2 * k < edge l ∨ (0 < edge l ∧ joins C .global o)

/-- written expressions: context, number of enclosing closures, level, tree, tokens -/
inductive Written (C : PCfg) : Ctx → Nat → Nat → Node → List Token → Prop
  | primary {c d L f n ts} : Primary C (Written C) d f n ts → Written C c d L n ts
  | unary {c d L o t s x ts} : t.kind = .op o → prefixStrength o = some s → Written C .global d (2 * s) x ts →
      Written C c d L (.unary o x) (t :: ts)
  | binary {c d L o t k l tl r tr} : t.kind = .op o → strength o = some k → ¬ joins C c o → L ≤ 2 * k →
      Written C c d L l tl → openFor C o k l → Written C .global d (place o k) r tr →
      Written C c d L (.binary o l r) (tl ++ t :: tr)
  | cond {c d q s x tx y ty z tz} : q.kind = .op .question → s.kind = .op .slice → Written C c d 0 x tx → 0 < edge x →
      Written C .global d 0 y ty → Written C .global d 0 z tz →
      Written C c d 0 (.cond x y z) (tx ++ q :: ty ++ s :: tz)

end Parse
end Zen
