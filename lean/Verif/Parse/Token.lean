import Verif.Expr.Ast
/-
Tokens of the expression language (core/expression/src/lexer/token.rs). Operators and brackets are
those of syntax trees (Verif/Expr/Ast.lean, Verif/Core/Val.lean).
-/
namespace Zen
namespace Lex

/-- `Identifier` (token.rs:29-39) -/
inductive Ident where
  | context | root | callback | null
deriving DecidableEq, Repr

/-- `QuotationMark` (token.rs:41-49) -/
inductive Quote where
  | single | double | backtick
deriving DecidableEq, Repr

/-- `TemplateString` (token.rs:51-57) -/
inductive TmplTok where
  | exprStart | exprEnd
deriving DecidableEq, Repr

/-- `TokenKind` (token.rs:16-27) -/
inductive Kind where
  | ident (i : Ident)
  | bool (b : Bool)
  | number
  | quote (q : Quote)
  | literal
  | op (o : Oper)
  | bracket (b : Brk)
  | tmpl (t : TmplTok)
deriving DecidableEq, Repr

/-- `Token` (token.rs:8-14); a text is the list of its bytes, each as a character, as the cursor reads them -/
structure Token where
  kind : Kind
  start : Nat
  stop : Nat
  value : List Char
deriving DecidableEq, Repr

/-- `FromStr for Operator` (token.rs:99-115) with the texts of the three operator enums -/
def opOfText (s : List Char) : Option Oper :=
  if s = ['.', '.'] then some .range
  else if s = [','] then some .comma
  else if s = [':'] then some .slice
  else if s = ['.'] then some .dot
  else if s = ['?'] then some .question
  else if s = ['+'] then some (.arith .add)
  else if s = ['-'] then some (.arith .sub)
  else if s = ['*'] then some (.arith .mul)
  else if s = ['/'] then some (.arith .div)
  else if s = ['%'] then some (.arith .mod)
  else if s = ['^'] then some (.arith .pow)
  else if s = "and".toList then some (.logic .and)
  else if s = "or".toList then some (.logic .or)
  else if s = "not".toList ∨ s = ['!'] then some (.logic .not)
  else if s = ['?', '?'] then some (.logic .coalesce)
  else if s = ['=', '='] then some (.cmp .eq)
  else if s = ['!', '='] then some (.cmp .ne)
  else if s = ['<'] then some (.cmp .lt)
  else if s = ['>'] then some (.cmp .gt)
  else if s = ['<', '='] then some (.cmp .le)
  else if s = ['>', '='] then some (.cmp .ge)
  else if s = "in".toList then some (.cmp .in_)
  else if s = "not in".toList then some (.cmp .notIn)
  else none

/-- `Bracket::from_str` (token.rs:165-179) -/
def brkOfText (s : List Char) : Option Brk :=
  if s = ['('] then some .lparen
  else if s = [')'] then some .rparen
  else if s = ['['] then some .lsq
  else if s = [']'] then some .rsq
  else if s = ['{'] then some .lcurly
  else if s = ['}'] then some .rcurly
  else none

/-- `Identifier::try_from` (token.rs:29-39) -/
def Ident.ofText (s : List Char) : Option Ident :=
  if s = ['$'] then some .context
  else if s = "$root".toList then some .root
  else if s = ['#'] then some .callback
  else if s = "null".toList then some .null
  else none

/-- the text of a quotation mark (`IntoStaticStr`, token.rs:41-49) -/
def Quote.text : Quote → List Char
  | .single => ['\'']
  | .double => ['"']
  | .backtick => ['`']

end Lex
end Zen
