import Verif.Parse.Token
/-
What a tokenization of a source is, as a grammar over the text: the tokens cut the text into lexemes with white space between
them, each lexeme being the longest of its sort. Nothing of the lexer is used here, only the kinds of tokens.
-/
namespace Zen
namespace Lex
namespace Spec

def White (c : Char) : Prop := c ∈ [' ', '\n', '\t']
def Digit (c : Char) : Prop := '0' ≤ c ∧ c ≤ '9'
def Letter (c : Char) : Prop := ('A' ≤ c ∧ c ≤ 'Z') ∨ ('a' ≤ c ∧ c ≤ 'z') ∨ c ∈ ['$', '_', '#']
def WordChar (c : Char) : Prop := Letter c ∨ Digit c

instance (c : Char) : Decidable (White c) := by unfold White; infer_instance
instance (c : Char) : Decidable (Digit c) := by unfold Digit; infer_instance
instance (c : Char) : Decidable (Letter c) := by unfold Letter; infer_instance
instance (c : Char) : Decidable (WordChar c) := by unfold WordChar; infer_instance

/-- the operators written with symbols -/
def symbols : List (List Char × Oper) :=
  [("+".toList, .arith .add), ("-".toList, .arith .sub), ("*".toList, .arith .mul), ("/".toList, .arith .div),
   ("%".toList, .arith .mod), ("^".toList, .arith .pow), ("!".toList, .logic .not), ("??".toList, .logic .coalesce),
   ("==".toList, .cmp .eq), ("!=".toList, .cmp .ne), ("<".toList, .cmp .lt), (">".toList, .cmp .gt), ("<=".toList, .cmp .le),
   (">=".toList, .cmp .ge), ("..".toList, .range), (",".toList, .comma), (":".toList, .slice), (".".toList, .dot),
   ("?".toList, .question), ("=".toList, .assign), (";".toList, .semi)]

/-- the words with a meaning of their own -/
def keywords : List (List Char × Kind) :=
  [("and".toList, .op (.logic .and)), ("or".toList, .op (.logic .or)), ("not".toList, .op (.logic .not)),
   ("in".toList, .op (.cmp .in_)), ("true".toList, .bool true), ("false".toList, .bool false),
   ("null".toList, .ident .null), ("$".toList, .ident .context), ("$root".toList, .ident .root), ("#".toList, .ident .callback)]

def brackets : List (List Char × Brk) :=
  [("(".toList, .lparen), (")".toList, .rparen), ("[".toList, .lsq), ("]".toList, .rsq), ("{".toList, .lcurly),
   ("}".toList, .rcurly)]

/-- the digits before an exponent: `m`, followed by `r` -/
structure Mantissa (m r : List Char) : Prop where
  first : ∃ d, m.head? = some d ∧ Digit d
  chars : ∀ c ∈ m, Digit c ∨ c = '_' ∨ c = '.'
  oneDot : m.count '.' ≤ 1
  noRange : m.getLast? = some '.' → r.head? ≠ some '.'

/-- an exponent -/
def Exponent (e : List Char) : Prop :=
  ∃ sign digits, e = 'e' :: sign ++ digits ∧ sign ∈ [[], ['+'], ['-']] ∧ digits ≠ [] ∧ ∀ c ∈ digits, Digit c

/-- a number, followed by `r`: the longest mantissa, then the longest exponent if there is one -/
def Number (w r : List Char) : Prop :=
  ∃ m e, w = m ++ e ∧
    Mantissa m (e ++ r) ∧ (∀ m' r', m' ++ r' = m ++ (e ++ r) → Mantissa m' r' → m'.length ≤ m.length) ∧
    (e = [] ∨ Exponent e) ∧ (∀ e' r', e' ++ r' = e ++ r → Exponent e' → e'.length ≤ e.length)

/-- a word, followed by `r`: the longest sequence of word characters starting with a letter -/
structure Word (w r : List Char) : Prop where
  first : ∃ c, w.head? = some c ∧ Letter c
  chars : ∀ c ∈ w, WordChar c
  longest : ∀ c, r.head? = some c → ¬ WordChar c

/-- a token made of the text `w`, followed by `r` -/
inductive Lexeme : List Char → List Char → Kind → Prop
  | word {w r k} : Word w r → ¬ (w = "not".toList ∧ " in ".toList <+: r) →
      (w, k) ∈ keywords ∨ (k = .literal ∧ ∀ k', (w, k') ∉ keywords) → Lexeme w r k
  | number {w r} : Number w r → Lexeme w r .number
  | symbol {w r o} : (w, o) ∈ symbols → (∀ w' o', (w', o') ∈ symbols → w' <+: w ++ r → w'.length ≤ w.length) →
      Lexeme w r (.op o)
  | bracket {w r b} : (w, b) ∈ brackets → Lexeme w r (.bracket b)

/-- the text `w` at position `p`, followed by `r`, makes these tokens -/
inductive Piece : Nat → List Char → List Char → List Token → Prop
  | space {p c r} : White c → Piece p [c] r []
  | lexeme {p w r k} : Lexeme w r k → Piece p w r [⟨k, p, p + w.length, w⟩]
  | notIn {p r} : Piece p "not in ".toList r [⟨.op (.cmp .notIn), p, p + 6, "not in".toList⟩]
  | string {p q c w r} : (q, c) ∈ [(Quote.single, '\''), (Quote.double, '"')] → c ∉ w →
      Piece p (c :: w ++ [c]) r [⟨.quote q, p, p + 1, [c]⟩, ⟨.literal, p + 1, p + 1 + w.length, w⟩,
        ⟨.quote q, p + 1 + w.length, p + 2 + w.length, [c]⟩]

/-- the literal text of a template -/
def Text (w : List Char) : Prop := '`' ∉ w ∧ ¬ ['$', '{'] <:+: w

/-- where the text being read stands: outside templates, in the text of one, in an expression inside one. An expression
remembers where the text before it began. -/
inductive Mode where
  | top | text | expr (ss : Nat)

/-- the literal of a template, left out if empty -/
def litTok (p : Nat) (w : List Char) : List Token := if w = [] then [] else [⟨.literal, p, p + w.length, w⟩]

/-- `Lexed src m p s ts`: the rest `s` of the source, from position `p` on, makes the tokens `ts`. -/
inductive Lexed (src : List Char) : Mode → Nat → List Char → List Token → Prop
  | done {p} : Lexed src .top p [] []
  | piece {p w r ts ts'} : Piece p w r ts → Lexed src .top (p + w.length) r ts' → Lexed src .top p (w ++ r) (ts ++ ts')
  /-- a template begins -/
  | tmpl {p r ts} : Lexed src .text (p + 1) r ts → Lexed src .top p ('`' :: r) (⟨.quote .backtick, p, p + 1, ['`']⟩ :: ts)
  /-- text up to an expression -/
  | textExpr {p w r ts} : Text w → Lexed src (.expr p) (p + w.length + 2) r ts →
      Lexed src .text p (w ++ '$' :: '{' :: r)
        (⟨.literal, p, p + w.length, w⟩ :: ⟨.tmpl .exprStart, p + w.length, p + w.length + 2, ['$', '{']⟩ :: ts)
  /-- text up to the end of the template -/
  | textEnd {p w r ts} : Text w → Lexed src .top (p + w.length + 1) r ts →
      Lexed src .text p (w ++ '`' :: r) (litTok p w ++ ⟨.quote .backtick, p + w.length, p + w.length + 1, ['`']⟩ :: ts)
  /-- text up to the end of the source: the template is closed there -/
  | textEof {p w} : Text w →
      Lexed src .text p w (litTok p w ++ [⟨.quote .backtick, p + w.length, p + w.length, ['`']⟩])
  | exprPiece {ss p w r ts ts'} : Piece p w r ts → w ≠ ['}'] → Lexed src (.expr ss) (p + w.length) r ts' →
      Lexed src (.expr ss) p (w ++ r) (ts ++ ts')
  /-- the end of an expression; the span of the token is not where the brace is -/
  | exprEnd {ss p r ts} : Lexed src .text (p + 1) r ts →
      Lexed src (.expr ss) p ('}' :: r) (⟨.tmpl .exprEnd, ss, p, ['}']⟩ :: ts)
  /-- the template ends within an expression: everything since the text before it becomes a literal, once more -/
  | exprTick {ss p r ts} : Lexed src .top (p + 1) r ts →
      Lexed src (.expr ss) p ('`' :: r)
        (⟨.literal, ss, p, (src.drop ss).take (p - ss)⟩ :: ⟨.quote .backtick, p, p + 1, ['`']⟩ :: ts)
  /-- the source ends within an expression -/
  | exprEof {ss p} : Lexed src (.expr ss) p [] [⟨.quote .backtick, p, p, ['`']⟩]

end Spec
end Lex
end Zen
