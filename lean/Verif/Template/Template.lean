import Verif.Core.Val
import Verif.Core.Bytes
/-
Templates (core/template/src): `{{ … }}` interpolation, used by custom nodes for their
configuration fields (core/engine/src/nodes/custom/adapter.rs:48).

* Text is a list of characters; offsets are byte offsets as in Rust, and slicing a string at an
  offset that is not a character boundary is a panic (`none`), so that the absence of panics is a
  theorem.
* The evaluator is any function that takes the source of an expression and a state and returns a
  value and the next state, or fails. (`Isolate::run_standard`, modelled in Verif/Expr, is one.)
* The textual form of numbers and dynamic values is a parameter: `Decimal` and the dynamic types
  print themselves.
-/
namespace Zen.Tmpl
open Bytes

/-- `str::trim`, called in lib.rs:16 -/
def trim (s : List Char) : List Char :=
  (((s.dropWhile isWs).reverse).dropWhile isWs).reverse

/-- `enum Token` (lexer.rs:5-9) -/
inductive Token where
  | text (s : List Char)
  | openBracket
  | closeBracket
deriving DecidableEq, Repr

/-- the fields of `struct Lexer` that change (lexer.rs:11-16) -/
structure Lexer where
  tokens : List Token := []
  textStart : Option Nat := none

/-- `Lexer::flush` (lexer.rs:56-61) -/
def Lexer.flush (source : List Char) (l : Lexer) (index : Nat) : Option Lexer :=
  match l.textStart with
  | some start => (slice source start index).map fun t =>
      { tokens := l.tokens ++ [.text t], textStart := none }
  | none => some l

/-- the loop of `Lexer::collect` (lexer.rs:36-50) over the remaining `char_indices` -/
def Lexer.loop (source : List Char) : Lexer → List (Nat × Char) → Option Lexer
  | l, [] => some l
  | l, [(index, _)] => some { l with textStart := some (l.textStart.getD index) }
  | l, (index, c) :: (index', c') :: rest =>
    if c = '{' ∧ c' = '{' then
      (l.flush source index).bind fun l =>
        Lexer.loop source { l with tokens := l.tokens ++ [.openBracket] } rest
    else if c = '}' ∧ c' = '}' then
      (l.flush source index).bind fun l =>
        Lexer.loop source { l with tokens := l.tokens ++ [.closeBracket] } rest
    else
      Lexer.loop source { l with textStart := some (l.textStart.getD index) } ((index', c') :: rest)

/-- `Lexer::from(source).collect()` (lexer.rs:18-32, 35-54) -/
def lex (source : List Char) : Option (List Token) :=
  ((Lexer.loop source {} (charIndices 0 source)).bind fun l =>
    l.flush source (byteLen source)).map (·.tokens)

/-- `enum Node` (parser.rs:7-10) -/
inductive Node where
  | text (s : List Char)
  | expression (s : List Char)
deriving DecidableEq, Repr

/-- `enum ParserState` (parser.rs:13-16) -/
inductive PState where
  | text
  | expression
deriving DecidableEq

/-- `enum ParserError` (error.rs:40-46) -/
inductive PErr where
  | openBracket
  | closeBracket
deriving DecidableEq

/-- `Parser::collect` with `text`, `open_bracket` and `close_bracket` (parser.rs:41-76) -/
def parseLoop : PState → List Node → List Token → Except PErr (List Node)
  | _, nodes, [] => .ok nodes
  | .text, nodes, .text t :: r => parseLoop .text (nodes ++ [.text t]) r
  | .expression, nodes, .text t :: r => parseLoop .expression (nodes ++ [.expression t]) r
  | s, nodes, .openBracket :: r =>
    if s = .expression then .error .openBracket else parseLoop .expression nodes r
  | s, nodes, .closeBracket :: r =>
    if s ≠ .expression then .error .closeBracket else parseLoop .text nodes r

/-- `Parser::from(tokens).collect()` (parser.rs:24-38, 41-51) -/
def parse (ts : List Token) : Except PErr (List Node) := parseLoop .text [] ts

/-- what `Display` of a value needs to know about numbers and dynamic values -/
structure Show where
  num : Rat → String
  dyn : Dyn → String

mutual
/-- `impl Display for Variable` (core/types/src/variable/mod.rs:456-488) -/
def display (S : Show) : Val → String
  | .null => "null"
  | .bool b => if b then "true" else "false"
  | .num n => S.num n
  | .str s => "\"" ++ s ++ "\""
  | .arr xs => "[" ++ ",".intercalate (displayList S xs) ++ "]"
  | .obj m => "{" ++ ",".intercalate (displayEntries S m) ++ "}"
  | .dyn d => S.dyn d
/-- the elements of an array, each printed -/
def displayList (S : Show) : List Val → List String
  | [] => []
  | x :: r => display S x :: displayList S r
/-- the entries of an object, each printed -/
def displayEntries (S : Show) : List (String × Val) → List String
  | [] => []
  | (k, x) :: r => ("\"" ++ k ++ "\":" ++ display S x) :: displayEntries S r
end

/-- `var_to_string` (interpreter.rs:87-92) -/
def varToString (S : Show) : Val → String
  | .str s => s
  | v => display S v

/-- `enum InterpreterResult` (interpreter.rs:10-13) -/
inductive IResult where
  | string (s : List Char)
  | value (v : Val)

/-- `enum TemplateRenderError` (error.rs:7-13); `ε` are the errors of the evaluator -/
inductive RErr (ε : Type) where
  | isolate (e : ε)
  | parser (e : PErr)

/-- an evaluator of expressions with its state -/
abbrev Evaluator (σ ε : Type) := List Char → σ → Except ε (Val × σ)

/-- the loop of `collect_for` with `text` and `expression` (interpreter.rs:45-50, 76-84) -/
def interpLoop {σ ε : Type} (run : Evaluator σ ε) :
    List IResult → σ → List Node → Except (RErr ε) (List IResult)
  | results, _, [] => .ok results
  | results, st, .text d :: r => interpLoop run (results ++ [.string d]) st r
  | results, st, .expression d :: r =>
    match run d st with
    | .error e => .error (.isolate e)
    | .ok (v, st') => interpLoop run (results ++ [.value v]) st' r

/-- the end of `collect_for` (interpreter.rs:52-73) -/
def finish (S : Show) (results : List IResult) : Val :=
  match results with
  | [] => .null
  | [.value v] => v
  | [.string s] => .str (String.ofList s)
  | rs => .str (String.join (rs.map fun
      | .string s => String.ofList s
      | .value v => varToString S v))

/-- `render` (lib.rs:15-20); the outer `none` is a panic -/
def render {σ ε : Type} (S : Show) (run : Evaluator σ ε) (st : σ) (template : List Char) :
    Option (Except (RErr ε) Val) :=
  (lex (trim template)).map fun tokens =>
    match parse tokens with
    | .error e => .error (.parser e)
    | .ok nodes => match interpLoop run [] st nodes with
      | .error e => .error e
      | .ok results => .ok (finish S results)

end Zen.Tmpl
