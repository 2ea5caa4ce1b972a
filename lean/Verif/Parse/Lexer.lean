import Verif.Parse.Token
/-
The lexer (core/expression/src/lexer/lexer.rs, cursor.rs, codes.rs).

* The source is the list of its bytes, each as a character: the cursor reads bytes (`c as char`, cursor.rs:86-89).
* The cursor is a position and the input that remains after it. A function that scans one token returns the tokens it pushes
  and how many bytes it has consumed; `back` is not consuming. The loops go through the remaining input byte by byte,
  skipping what has been consumed already.
* Positions are not truncated to 32 bits: sources are shorter than 4 GiB.
* `scan_cursor_item` and `template_string` call each other in the code; inside a template the character is never a backtick,
  so `item` leaves templates out.
-/
namespace Zen
namespace Lex

/-- `LexerError` (error.rs:3-13) -/
inductive LexErr where
  | unexpectedSymbol (s : List Char) (start stop : Nat)
  | unmatchedSymbol (c : Char) (pos : Nat)
  | unexpectedEof (c : Char) (pos : Nat)
deriving DecidableEq, Repr

/-! ### classes (codes.rs:1-10) -/

def isSpace (c : Char) : Bool := c == ' ' || c == '\n' || c == '\t'
def isDigit (c : Char) : Bool := decide ('0' ≤ c) && decide (c ≤ '9')
def isBracket (c : Char) : Bool := c == '(' || c == ')' || c == '[' || c == ']' || c == '{' || c == '}'
def isCmp (c : Char) : Bool := c == '>' || c == '<' || c == '!'
def isOper (c : Char) : Bool :=
  c == ',' || c == ':' || c == '+' || c == '-' || c == '/' || c == '*' || c == '^' || c == '%'
def isAlpha (c : Char) : Bool :=
  (decide ('A' ≤ c) && decide (c ≤ 'Z')) || (decide ('a' ≤ c) && decide (c ≤ 'z')) || c == '$' || c == '_' || c == '#'
def isAlnum (c : Char) : Bool :=
  (decide ('A' ≤ c) && decide (c ≤ 'Z')) || (decide ('a' ≤ c) && decide (c ≤ 'z')) || isDigit c || c == '$' || c == '_' || c == '#'

/-- `&source[a..b]` -/
def slice (src : List Char) (a b : Nat) : List Char := (src.drop a).take (b - a)

/-- what one call of a scanning function does: tokens pushed, bytes consumed -/
abbrev Step := Except LexErr (List Token × Nat)

/-- a token for `n` bytes from `p` on -/
def tok (src : List Char) (k : Kind) (p n : Nat) : Token := ⟨k, p, p + n, slice src p (p + n)⟩

/-- one operator token of `n` bytes, named by its text -/
def opStep (src : List Char) (p n : Nat) : Step :=
  match opOfText (slice src p (p + n)) with
  | some o => .ok ([tok src (.op o) p n], n)
  | none => .error (.unexpectedSymbol (slice src p (p + n)) p (p + n))

/-- `string` (lexer.rs:188-219): `rest` is the input after the opening quote -/
def string (src : List Char) (q : Quote) (p : Nat) (c : Char) (rest : List Char) : Step :=
  match rest.findIdx? (· == c) with
  | none => .error (.unexpectedEof (src.getLast?.getD ' ') (src.length - 1))
  | some k => .ok ([⟨.quote q, p, p + 1, q.text⟩, ⟨.literal, p + 1, p + 1 + k, slice src (p + 1) (p + 1 + k)⟩,
      ⟨.quote q, p + 1 + k, p + 1 + k + 1, q.text⟩], k + 2)

/-- the first loop of `number` (lexer.rs:226-248): how many bytes it takes -/
def mantissa : Bool → List Char → Nat
  | _, [] => 0
  | fractal, c :: r =>
    if isDigit c || c == '_' || c == '.' then
      if fractal && c == '.' then 0
      else if c == '.' then if r.head? = some '.' then 0 else mantissa true r + 1
      else mantissa fractal r + 1
    else 0

/-- the exponent (lexer.rs:250-270): how many bytes it takes, none if there is no digit -/
def exponent : List Char → Nat
  | 'e' :: r =>
    let sign := if r.head? = some '+' ∨ r.head? = some '-' then 1 else 0
    let n := ((r.drop sign).takeWhile isDigit).length
    if n = 0 then 0 else 1 + sign + n
  | _ => 0

/-- `number` (lexer.rs:221-278): `rest` is the input after the first digit -/
def number (src : List Char) (p : Nat) (rest : List Char) : Step :=
  let m := mantissa false rest
  let n := 1 + m + exponent (rest.drop m)
  .ok ([tok src .number p n], n)

/-- `bracket` (lexer.rs:280-297) -/
def bracket (src : List Char) (p : Nat) : Step :=
  match brkOfText (slice src p (p + 1)) with
  | some b => .ok ([tok src (.bracket b) p 1], 1)
  | none => .error (.unexpectedSymbol (slice src p (p + 1)) p (p + 1))

/-- `dot` (lexer.rs:299-321) -/
def dot (src : List Char) (p : Nat) (rest : List Char) : Step :=
  opStep src p (if rest.head? = some '.' then 2 else 1)

/-- `cmp_operator` (lexer.rs:323-344) -/
def cmpOperator (src : List Char) (p : Nat) (rest : List Char) : Step :=
  opStep src p (if rest.head? = some '=' then 2 else 1)

/-- `semi` (lexer.rs:346-355) -/
def semi (src : List Char) (p : Nat) : Step := .ok ([tok src (.op .semi) p 1], 1)

/-- `equals` (lexer.rs:357-376) -/
def equals (src : List Char) (p : Nat) (rest : List Char) : Step :=
  if rest.head? = some '=' then .ok ([tok src (.op (.cmp .eq)) p 2], 2) else .ok ([tok src (.op .assign) p 1], 1)

/-- `question_mark` (lexer.rs:378-396) -/
def questionMark (src : List Char) (p : Nat) (rest : List Char) : Step :=
  if rest.head? = some '?' then .ok ([tok src (.op (.logic .coalesce)) p 2], 2) else .ok ([tok src (.op .question) p 1], 1)

/-- `operator` (lexer.rs:398-415) -/
def operator (src : List Char) (p : Nat) : Step := opStep src p 1

/-- `not` (lexer.rs:417-437): `rest` is the input after the word -/
def notWord (p : Nat) (rest : List Char) : Step :=
  if " in ".toList.isPrefixOf rest then .ok ([⟨.op (.cmp .notIn), p, p + 6, "not in".toList⟩], 7)
  else .ok ([⟨.op (.logic .not), p, p + 3, "not".toList⟩], 3)

/-- `identifier` (lexer.rs:439-485): `rest` is the input after the first character -/
def identifier (src : List Char) (p : Nat) (rest : List Char) : Step :=
  let n := 1 + (rest.takeWhile isAlnum).length
  let v := slice src p (p + n)
  if v = "and".toList then .ok ([tok src (.op (.logic .and)) p n], n)
  else if v = "or".toList then .ok ([tok src (.op (.logic .or)) p n], n)
  else if v = "in".toList then .ok ([tok src (.op (.cmp .in_)) p n], n)
  else if v = "true".toList then .ok ([tok src (.bool true) p n], n)
  else if v = "false".toList then .ok ([tok src (.bool false) p n], n)
  else if v = "not".toList then notWord p (rest.drop (n - 1))
  else .ok ([tok src (match Ident.ofText v with | some i => .ident i | none => .literal) p n], n)

/-- `scan_cursor_item` (lexer.rs:58-83) without templates -/
def item (src : List Char) (p : Nat) (c : Char) (rest : List Char) : Step :=
  if isSpace c then .ok ([], 1)
  else if c = '\'' then string src .single p c rest
  else if c = '"' then string src .double p c rest
  else if isDigit c then number src p rest
  else if isBracket c then bracket src p
  else if isCmp c then cmpOperator src p rest
  else if isOper c then operator src p
  else if c = '?' then questionMark src p rest
  else if c = '=' then equals src p rest
  else if c = '.' then dot src p rest
  else if c = ';' then semi src p
  else if isAlpha c then identifier src p rest
  else .error (.unmatchedSymbol c p)

/-- the loop of `template_string` (lexer.rs:111-183); `ss` is `str_start`, `e` the position of the remaining input, `skip` how
much of it has been consumed already. Returns the position after the template. -/
def tmplLoop (src : List Char) : Bool → Nat → Nat → Nat → List Char → Step
  | inExpr, ss, _, _, [] =>
    .ok ((if !inExpr && decide (ss < src.length) then [⟨.literal, ss, src.length, slice src ss src.length⟩] else []) ++
      [⟨.quote .backtick, src.length, src.length, ['`']⟩], src.length)
  | inExpr, ss, skip + 1, e, _ :: r => tmplLoop src inExpr ss skip (e + 1) r
  | inExpr, ss, 0, e, c :: r =>
    if c = '`' then
      .ok ((if ss < e then [⟨.literal, ss, e, slice src ss e⟩] else []) ++ [⟨.quote .backtick, e, e + 1, ['`']⟩], e + 1)
    else if inExpr then
      if c = '}' then
        match tmplLoop src false (e + 1) 0 (e + 1) r with
        | .error x => .error x
        | .ok (ts, n) => .ok (⟨.tmpl .exprEnd, ss, e, ['}']⟩ :: ts, n)
      else match item src e c r with
        | .error x => .error x
        | .ok (ts, n) => match tmplLoop src true ss (n - 1) (e + 1) r with
          | .error x => .error x
          | .ok (ts', m) => .ok (ts ++ ts', m)
    else if c = '$' ∧ r.head? = some '{' then
      match tmplLoop src true ss 1 (e + 1) r with
      | .error x => .error x
      | .ok (ts, n) => .ok (⟨.literal, ss, e, slice src ss e⟩ :: ⟨.tmpl .exprStart, e, e + 2, ['$', '{']⟩ :: ts, n)
    else tmplLoop src false ss 0 (e + 1) r

/-- `template_string` (lexer.rs:100-186): `rest` is the input after the backtick -/
def template (src : List Char) (p : Nat) (rest : List Char) : Step :=
  match tmplLoop src false (p + 1) 0 (p + 1) rest with
  | .error x => .error x
  | .ok (ts, n) => .ok (⟨.quote .backtick, p, p + 1, ['`']⟩ :: ts, n - p)

/-- `scan` (lexer.rs:50-56) -/
def scan (src : List Char) : Nat → Nat → List Char → Except LexErr (List Token)
  | _, _, [] => .ok []
  | skip + 1, p, _ :: r => scan src skip (p + 1) r
  | 0, p, c :: r => match (if c = '`' then template src p r else item src p c r) with
    | .error x => .error x
    | .ok (ts, n) => match scan src (n - 1) (p + 1) r with
      | .error x => .error x
      | .ok ts' => .ok (ts ++ ts')

/-- `Lexer::tokenize` (lexer.rs:22-32) -/
def tokenize (src : List Char) : Except LexErr (List Token) := scan src 0 0 src

end Lex
end Zen
