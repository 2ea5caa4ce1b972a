import Verif.Parse.Token
import Verif.Builtins.Registry
/-
The parser of the expression language (core/expression/src/parser/parser.rs, standard.rs, unary.rs,
constants.rs). A position is the list of tokens from the current one on, so moving on is taking the
tail, `set_position` is returning to an earlier list, and moving on at the end stays at the end.

Simplified: positions in the source and node metadata are left out, an error node carries neither a
message nor a node, and a call of a closure function to which an error was pushed has an error
node as its body (`Verif/Expr/Ast.lean` says why such calls are a separate constructor). `depth` is
a natural number; in the code it is a `u8`. `recursive::recursive` (growing the stack) is left out.
Decoding of texts and reading of decimals are parameters.
-/
namespace Zen
namespace Parse
open Zen.Lex

/-- what the parser takes from its surroundings -/
structure PLib where
  /-- the text of a token, whose bytes the model has, as a string -/
  dec : List Char → String
  /-- `Decimal::from_str_exact`, else `Decimal::from_scientific` (parser.rs:239-240) -/
  number : List Char → Option Rat

/-- `ParserContext` (parser.rs:1347-1351) -/
inductive Ctx where
  | global | closure
deriving DecidableEq, Repr

/-- the parser's constants: flavor, and whether there is a range operator in the tokens (parser.rs:51-71) -/
structure PCfg where
  lib : PLib
  unary : Bool
  range : Bool

/-- `PostfixCombination` (parser.rs:1305-1311) -/
inductive Comb where
  | mixed | computed | property | inherit
deriving DecidableEq, Repr

/-- `PostfixCombination::and` (parser.rs:1314-1321) -/
def Comb.and : Comb → Comb → Comb
  | .computed, .computed => .computed
  | .property, .property => .property
  | .inherit, o => o
  | _, _ => .mixed

/-- `BINARY_OPERATORS` (constants.rs:50-72): precedence, and whether the operator is right associative -/
def binOp : Oper → Option (Nat × Bool)
  | .logic .or => some (10, false)
  | .logic .and => some (15, false)
  | .cmp _ => some (20, false)
  | .arith .add => some (30, false)
  | .arith .sub => some (30, false)
  | .arith .mul => some (60, false)
  | .arith .div => some (60, false)
  | .arith .mod => some (60, false)
  | .arith .pow => some (70, true)
  | .logic .coalesce => some (80, false)
  | _ => none

/-- `UNARY_OPERATORS` (constants.rs:74-82) -/
def unOp : Oper → Option Nat
  | .logic .not => some 50
  | .arith .add => some 200
  | .arith .sub => some 200
  | _ => none

mutual
/-- `Node::has_error` (core/expression/src/parser/ast.rs:75-173) -/
def hasError : Node → Bool
  | .error => true
  | .null | .bool _ | .num _ | .str _ | .pointer | .ident _ | .root => false
  | .tmpl ps => hasErrorL ps
  | .arr ps => hasErrorL ps
  | .obj kvs => hasErrorP kvs
  | .assigns kvs o => hasErrorP kvs || hasErrorO o
  | .paren n => hasError n
  | .member n p => hasError n || hasError p
  | .slice n f t => hasError n || hasErrorO f || hasErrorO t
  | .interval l r _ _ => hasError l || hasError r
  | .cond c t f => hasError c || hasError t || hasError f
  | .unary _ n => hasError n
  | .binary _ l r => hasError l || hasError r
  | .call _ as => hasErrorL as
  | .closure _ o _ b => hasError o || hasError b
  | .method _ t as => hasError t || hasErrorL as
def hasErrorL : List Node → Bool
  | [] => false
  | n :: ns => hasError n || hasErrorL ns
def hasErrorP : List (Node × Node) → Bool
  | [] => false
  | (a, b) :: ns => hasError a || hasError b || hasErrorP ns
def hasErrorO : Option Node → Bool
  | none => false
  | some n => hasError n
end

/-- `Node::member_key` (ast.rs:194-218) -/
def memberKey : Node → Option (List String)
  | .member n p => do
      let ks ← memberKey n
      match p with
      | .str k => some (ks ++ [k])
      | .root => some (ks ++ ["$root"])
      | _ => none
  | .ident s => some [s]
  | .root => some ["$root"]
  | _ => none

/-- `transform_key` (parser.rs:943-961) -/
def transformKey (n : Node) : Node :=
  match memberKey n with
  | none => .error
  | some ks => .str (String.intercalate "." ks)

/-- `ClosureFunction::try_from` (core/expression/src/functions/mod.rs:47-58) -/
def cloOfText (s : String) : Option Clo :=
  if s = "all" then some .all
  else if s = "none" then some .none
  else if s = "some" then some .some
  else if s = "one" then some .one
  else if s = "filter" then some .filter
  else if s = "map" then some .map
  else if s = "flatMap" then some .flatMap
  else if s = "count" then some .count
  else none

/-- is it an internal or a deprecated function? (functions/mod.rs:28-32) -/
def isFn (s : String) : Bool := (Fn.Name.ofText s).isSome || (Fn.DName.ofText s).isSome

/-- the names of the methods (core/expression/src/functions/date_method.rs:10-46) -/
def methods : List String :=
  ["add", "sub", "set", "format", "startOf", "endOf", "diff", "tz", "isSame", "isBefore", "isAfter",
   "isSameOrBefore", "isSameOrAfter", "second", "minute", "hour", "day", "dayOfYear", "week", "weekday",
   "month", "quarter", "year", "timestamp", "offsetName", "isValid", "isYesterday", "isToday", "isTomorrow",
   "isLeapYear"]

/-- `is_valid_property` (parser.rs:1275-1286) -/
def validProperty : Kind → Bool
  | .ident _ => true
  | .literal => true
  | .op (.logic _) => true
  | .op (.cmp .in_) => true
  | _ => false

/-- `current_kind` (parser.rs:110-112) -/
def kind? (ts : List Token) : Option Kind := ts.head?.map Token.kind

/-- `expect` (parser.rs:211-229): the tokens after the expected one, or nothing if it is another -/
def expect (k : Kind) (ts : List Token) : Option (List Token) :=
  if kind? ts = some k then some ts.tail else none

/-- what the parser calls for an expression inside: context, depth, precedence, tokens -/
abbrev Rec := Ctx → Nat → Nat → List Token → Node × List Token

/-- `number` (parser.rs:231-250) -/
def number (C : PCfg) (t : Token) (ts : List Token) : Node × List Token :=
  match C.lib.number t.value with
  | some q => (.num q, ts.tail)
  | none => (.error, ts)

/-- `simple_string` (parser.rs:291-317) -/
def simpleString (C : PCfg) (q : Quote) (ts : List Token) : Node × List Token :=
  match expect (.quote q) ts with
  | none => (.error, ts)
  | some r =>
    match expect .literal r with
    | none => (.error, (expect (.quote q) r).getD r)
    | some r1 =>
      match expect (.quote q) r1 with
      | none => (.error, r1)
      | some r2 => (.str (C.lib.dec ((r.head?.map Token.value).getD [])), r2)

/-- the loop of `template_string` (parser.rs:335-375); `none` when it returns an error -/
def tmplLoop (C : PCfg) (rec : Rec) (d : Nat) : Nat → List Node → List Token → Option (List Node) × List Token
  | 0, _, ts => (none, ts)
  | n + 1, acc, ts =>
    match ts with
    | [] => (some acc, [])
    | t :: r =>
      match t.kind with
      | .quote .backtick => (some acc, ts)
      | .tmpl .exprStart =>
        match rec .global d 0 r with
        | (x, r1) =>
          match expect (.tmpl .exprEnd) r1 with
          | some r2 => tmplLoop C rec d n (acc ++ [x]) r2
          | none => tmplLoop C rec d n (acc ++ [x, .error]) r1
      | .tmpl .exprEnd => tmplLoop C rec d n acc r
      | .literal => tmplLoop C rec d n (acc ++ [.str (C.lib.dec t.value)]) r
      | _ => (none, ts)

/-- `template_string` (parser.rs:319-381) -/
def templateString (C : PCfg) (rec : Rec) (d : Nat) (ts : List Token) : Node × List Token :=
  match expect (.quote .backtick) ts with
  | none => (.error, ts)
  | some [] => (.error, [])
  | some (t :: r) =>
    match tmplLoop C rec d ((t :: r).length + 1) [] (t :: r) with
    | (none, r1) => (.error, r1)
    | (some ns, r1) =>
      match expect (.quote .backtick) r1 with
      | none => (.error, r1)
      | some r2 => (.tmpl ns, r2)

/-- the arguments of a function or method (parser.rs:401-420, 787-806): up to the closing parenthesis,
which is consumed; an error is pushed when it is missing -/
def argsLoop (rec : Rec) (d : Nat) : Nat → List Node → List Token → List Node × List Token
  | 0, acc, ts => (acc ++ [.error], ts)
  | n + 1, acc, ts =>
    match expect (.bracket .rparen) ts with
    | some r => (acc, r)
    | none =>
      match rec .global d 0 ts with
      | (x, r) =>
        match expect (.op .comma) r with
        | some r1 => argsLoop rec d n (acc ++ [x]) r1
        | none =>
          match expect (.bracket .rparen) r with
          | some r1 => (acc ++ [x], r1)
          | none => (acc ++ [x, .error], r)

/-- `method_call` up to its `with_postfix` (parser.rs:383-438) from the opening parenthesis on -/
def methodCall (rec : Rec) (d : Nat) (node : Node) (m : String) (r : List Token) : Node × List Token :=
  match argsLoop rec d (r.length + 1) [] r.tail with
  | (as, r1) => (.method m node as, r1)

/-- `with_property_access` (parser.rs:486-607) after the opening bracket -/
def propertyAccess (rec : Rec) (d : Nat) (node : Node) (r : List Token) : Node × List Token :=
  if r = [] then (.error, []) else
  match expect (.op .slice) r with
  | some r1 =>
    if r1 = [] then (.error, []) else
    match expect (.bracket .rsq) r1 with
    | some r2 => (.slice node none none, r2)
    | none =>
      match rec .global d 0 r1 with
      | (y, r2) =>
        match expect (.bracket .rsq) r2 with
        | none => (.error, r2)
        | some r3 => (.slice node none (some y), r3)
  | none =>
    match rec .global d 0 r with
    | (x, r1) =>
      if r1 = [] then (.error, []) else
      match expect (.op .slice) r1 with
      | some r2 =>
        if r2 = [] then (.error, []) else
        match expect (.bracket .rsq) r2 with
        | some r3 => (.slice node (some x) none, r3)
        | none =>
          match rec .global d 0 r2 with
          | (y, r3) =>
            match expect (.bracket .rsq) r3 with
            | none => (.error, r3)
            | some r4 => (.slice node (some x) (some y), r4)
      | none =>
        match expect (.bracket .rsq) r1 with
        | none => (.error, r1)
        | some r2 => (.member node x, r2)

/-- `with_postfix` (parser.rs:609-638) with `with_member_access` (440-484); a method call ends with its
own `with_postfix` (435-436) -/
def postfixes (C : PCfg) (rec : Rec) (d : Nat) : Nat → Node → List Token → (Node × Comb) × List Token
  | 0, _, ts => ((.error, .mixed), ts)
  | n + 1, node, ts =>
    match ts with
    | [] => ((node, .mixed), [])
    | t :: r =>
      if t.kind = .bracket .lsq then
        match propertyAccess rec d node r with
        | (x, r1) =>
          match postfixes C rec d n x r1 with
          | ((y, c), r2) => ((y, c.and .computed), r2)
      else if t.kind = .op .dot then
        match r with
        | [] =>
          match postfixes C rec d n (.member node .error) [] with
          | ((y, c), r2) => ((y, c.and .property), r2)
        | p :: r1 =>
          if validProperty p.kind then
            if kind? r1 = some (.bracket .lparen) then
              if methods.contains (C.lib.dec p.value) then
                match methodCall rec d node (C.lib.dec p.value) r1 with
                | (x, r2) =>
                  match postfixes C rec d n x r2 with
                  | ((y, _), r3) =>
                    match postfixes C rec d n y r3 with
                    | ((z, c), r4) => ((z, c.and .property), r4)
              else
                match postfixes C rec d n .error r1 with
                | ((y, c), r2) => ((y, c.and .property), r2)
            else
              match postfixes C rec d n (.member node (.str (C.lib.dec p.value))) r1 with
              | ((y, c), r2) => ((y, c.and .property), r2)
          else
            match postfixes C rec d n (.member node .error) r with
            | ((y, c), r2) => ((y, c.and .property), r2)
      else ((node, .inherit), ts)

/-- `with_postfix` with enough room for the tokens -/
def withPostfix (C : PCfg) (rec : Rec) (d : Nat) (node : Node) (ts : List Token) : (Node × Comb) × List Token :=
  postfixes C rec d (ts.length + 1) node ts

/-- the loop of `assigned_object` (parser.rs:972-1009). Result: an error that is returned, or the pairs
and where to start again for the output. -/
def assignLoop (C : PCfg) (rec : Rec) (d : Nat) :
    Nat → List (Node × Node) → List Token → Option (List (Node × Node) × Option (List Token)) × List Token
  | 0, _, ts => (none, ts)
  | n + 1, acc, ts =>
    if ts = [] then (some (acc, none), []) else
    match expect (.op .semi) ts with
    | none => (none, ts)
    | some [] => (some (acc, none), [])
    | some (t :: r) =>
      match withPostfix C rec d (.ident (C.lib.dec t.value)) r with
      | ((key, c), r1) =>
        match expect (.op .assign) r1 with
        | none => (some (acc, some (t :: r)), r1)
        | some r2 =>
          if c = .property ∨ c = .inherit then
            match rec .global d 0 r2 with
            | (v, r3) => assignLoop C rec d n (acc ++ [(transformKey key, v)]) r3
          else (none, r2)

/-- `assigned_object` (parser.rs:935-1027) at the assignment sign -/
def assignedObject (C : PCfg) (rec : Rec) (d : Nat) (key : Node) (ts : List Token) : Node × List Token :=
  match expect (.op .assign) ts with
  | none => (.error, ts)
  | some r =>
    match rec .global d 0 r with
    | (v, r1) =>
      match assignLoop C rec d (r1.length + 1) [(transformKey key, v)] r1 with
      | (none, r2) => (.error, r2)
      | (some (kvs, none), r2) => (.assigns kvs none, r2)
      | (some (kvs, some r2), _) =>
        match rec .global d 0 r2 with
        | (o, r3) => (.assigns kvs (some o), r3)

/-- the alias of a closure (parser.rs:742-770); `none` when the name is missing -/
def aliasOf (C : PCfg) (ts : List Token) : Option (Option String) × List Token :=
  match ts with
  | [] => (some none, [])
  | t :: r =>
    if t.kind = .literal ∧ t.value = "as".toList then
      match r with
      | [] => (none, [])
      | a :: r1 => if a.kind = .literal then (some (some (C.lib.dec a.value)), r1) else (none, r)
    else (some none, ts)

/-- the call of a closure function after its opening parenthesis (parser.rs:737-785) with `closure` (640-658) -/
def closureCall (C : PCfg) (rec : Rec) (d : Nat) (k : Clo) (r : List Token) : Node × List Token :=
  match rec .global d 0 r with
  | (over, r1) =>
    match aliasOf C r1 with
    | (al, r2) =>
      match rec .closure (d + 1) 0 ((expect (.op .comma) r2).getD r2) with
      | (body, r4) =>
        match al, expect (.op .comma) r2, expect (.bracket .rparen) r4 with
        | some a, some _, some r5 => (.closure k over a body, r5)
        | _, _, r5 => (.closure k over none .error, r5.getD r4)

/-- `identifier` (parser.rs:660-822) -/
def identifier (C : PCfg) (rec : Rec) (d : Nat) (t : Token) (r : List Token) : Node × List Token :=
  if kind? r ≠ some (.bracket .lparen) then
    match withPostfix C rec d (if t.kind = .ident .root then .root else .ident (C.lib.dec t.value)) r with
    | ((x, c), r1) =>
      if kind? r1 = some (.op .assign) then
        if c = .property ∨ c = .inherit then assignedObject C rec d x r1 else (.error, r1)
      else (x, r1)
  else if isFn (C.lib.dec t.value) then
    match argsLoop rec d (r.length + 1) [] r.tail with
    | (as, r1) =>
      match withPostfix C rec d (.call (C.lib.dec t.value) as) r1 with
      | ((x, _), r2) => (x, r2)
  else
    match cloOfText (C.lib.dec t.value) with
    | none => (.error, r)
    | some k =>
      match closureCall C rec d k r.tail with
      | (x, r1) =>
        match withPostfix C rec d x r1 with
        | ((y, _), r2) => (y, r2)

/-- `interval` (parser.rs:824-883). At the end of the tokens after the right bound it gives up
without going back (862). -/
def interval (C : PCfg) (rec : Rec) (d : Nat) (ts : List Token) : Option Node × List Token :=
  if C.range then
    match ts with
    | [] => (none, ts)
    | t :: r =>
      match t.kind with
      | .bracket lb =>
        match rec .global d 0 r with
        | (x, r1) =>
          if hasError x then (none, ts) else
          match expect (.op .range) r1 with
          | none => (none, ts)
          | some r2 =>
            match rec .global d 0 r2 with
            | (y, r3) =>
              if hasError y then (none, ts) else
              match r3 with
              | [] => (none, [])
              | t1 :: r4 =>
                match t1.kind with
                | .bracket rb =>
                  match withPostfix C rec d (.interval x y lb rb) r4 with
                  | ((z, _), r5) => (some z, r5)
                | _ => (none, ts)
      | _ => (none, ts)
  else (none, ts)

/-- the loop of `array` (parser.rs:907-922) -/
def arrayLoop (rec : Rec) (d : Nat) : Nat → List Node → List Token → Option (List Node) × List Token
  | 0, _, ts => (none, ts)
  | n + 1, acc, ts =>
    match expect (.bracket .rsq) ts with
    | some r => (some acc, r)
    | none =>
      if acc.isEmpty then
        match rec .global d 0 ts with
        | (x, r) => arrayLoop rec d n (acc ++ [x]) r
      else
        match expect (.op .comma) ts with
        | none => (none, ts)
        | some r =>
          match expect (.bracket .rsq) r with
          | some r1 => (some acc, r1)
          | none =>
            match rec .global d 0 r with
            | (x, r1) => arrayLoop rec d n (acc ++ [x]) r1

/-- `array` (parser.rs:885-933) -/
def array (C : PCfg) (rec : Rec) (d : Nat) (ts : List Token) : Node × List Token :=
  match expect (.bracket .lsq) ts with
  | none => (.error, ts)
  | some r =>
    match arrayLoop rec d (r.length + 2) [] r with
    | (none, r1) => (.error, r1)
    | (some xs, r1) =>
      match withPostfix C rec d (.arr xs) r1 with
      | ((x, _), r2) => (x, r2)

/-- the text of an identifier (core/expression/src/lexer/token.rs:29-39) -/
def identText : Ident → String
  | .context => "$"
  | .root => "$root"
  | .callback => "#"
  | .null => "null"

/-- `object_key` (parser.rs:1088-1178) -/
def objectKey (C : PCfg) (rec : Rec) (d : Nat) (ts : List Token) : Node × List Token :=
  match ts with
  | [] => (.error, [])
  | t :: r =>
    match t.kind with
    | .ident i => (.str (identText i), r)
    | .bool b => (.str (if b then "true" else "false"), r)
    | .number => (.str (C.lib.dec t.value), r)
    | .literal => (.str (C.lib.dec t.value), r)
    | .bracket .lsq =>
      match rec .global d 0 r with
      | (x, r1) =>
        match expect (.bracket .rsq) r1 with
        | none => (.error, r1)
        | some r2 => (x, r2)
    | .quote .single => simpleString C .single ts
    | .quote .double => simpleString C .double ts
    | _ => (.error, ts)

/-- the loop of `object` (parser.rs:1047-1070) and the closing bracket (1072-1079) -/
def objectLoop (C : PCfg) (rec : Rec) (d : Nat) :
    Nat → List (Node × Node) → List Token → Option (List (Node × Node)) × List Token
  | 0, _, ts => (none, ts)
  | n + 1, acc, ts =>
    match objectKey C rec d ts with
    | (k, r) =>
      match expect (.op .slice) r with
      | none => (none, r)
      | some r1 =>
        match rec .global d 0 r1 with
        | (v, r2) =>
          if r2 = [] then (some (acc ++ [(k, v), (.null, .error)]), []) else
          match expect (.op .comma) r2 with
          | some r3 => objectLoop C rec d n (acc ++ [(k, v)]) r3
          | none =>
            match expect (.bracket .rcurly) r2 with
            | some r3 => (some (acc ++ [(k, v)]), r3)
            | none => (none, r2)

/-- `object` (parser.rs:1029-1086) -/
def object (C : PCfg) (rec : Rec) (d : Nat) (ts : List Token) : Node × List Token :=
  match expect (.bracket .lcurly) ts with
  | none => (.error, ts)
  | some r =>
    match expect (.bracket .rcurly) r with
    | some r1 => (.obj [], r1)
    | none =>
      match objectLoop C rec d (r.length + 1) [] r with
      | (none, r1) => (.error, r1)
      | (some kvs, r1) => (.obj kvs, r1)

/-- `literal` (parser.rs:1217-1272) -/
def literal (C : PCfg) (rec : Rec) (d : Nat) (ts : List Token) : Node × List Token :=
  match ts with
  | [] => (.error, [])
  | t :: r =>
    match t.kind with
    | .ident .null => (.null, r)
    | .ident _ => identifier C rec d t r
    | .literal => identifier C rec d t r
    | .bool b => (.bool b, r)
    | .number => number C t ts
    | .quote .backtick => templateString C rec d ts
    | .quote q => simpleString C q ts
    | .bracket .lsq =>
      match interval C rec d ts with
      | (some x, r1) => (x, r1)
      | (none, r1) => array C rec d r1
    | .bracket .lcurly => object C rec d ts
    | .bracket .rcurly => (.error, ts)
    | .bracket _ =>
      match interval C rec d ts with
      | (some x, r1) => (x, r1)
      | (none, r1) => (.error, r1)
    | .op _ => (.error, ts)
    | .tmpl _ => (.error, ts)

/-- `unary_expression` (standard.rs:76-141, unary.rs:202-264) -/
def unaryExpr (C : PCfg) (rec : Rec) (d : Nat) (ts : List Token) : Node × List Token :=
  match ts with
  | [] => (.error, [])
  | t :: r =>
    if d > 0 ∧ t.kind = .ident .callback then
      match withPostfix C rec d .pointer r with
      | ((x, _), r1) => (x, r1)
    else
      match t.kind with
      | .op o =>
        match unOp o with
        | none => (.error, ts)
        | some q =>
          match rec .global d q r with
          | (x, r1) => (.unary o x, r1)
      | k =>
        match interval C rec d ts with
        | (some x, r1) => (x, r1)
        | (none, ts1) =>
          if k = .bracket .lparen then
            match rec .global d 0 ts1.tail with
            | (x, r1) =>
              match expect (.bracket .rparen) r1 with
              | none => (.error, r1)
              | some r2 =>
                match withPostfix C rec d (.paren x) r2 with
                | ((y, _), r3) => (y, r3)
          else literal C rec d ts1

/-- is the loop of `binary_expression` left at this operator whatever its precedence (unary.rs:147-156)? -/
def stopsAt (C : PCfg) (ctx : Ctx) (o : Oper) : Bool :=
  C.unary && ctx == .global && (o == .comma || o == .logic .and || o == .logic .or)

/-- the loop of `binary_expression` (standard.rs:29-63, unary.rs:142-189) -/
def binLoop (C : PCfg) (rec : Rec) (ctx : Ctx) (d p : Nat) : Nat → Node → List Token → Node × List Token
  | 0, _, ts => (.error, ts)
  | n + 1, l, ts =>
    match ts with
    | [] => (l, [])
    | t :: r =>
      match t.kind with
      | .op o =>
        if stopsAt C ctx o then (l, ts) else
        match binOp o with
        | none => (l, ts)
        | some (q, right) =>
          if q < p then (l, ts) else
          match rec .global d (if right then q else q + 1) r with
          | (x, r1) => binLoop C rec ctx d p n (.binary o l x) r1
      | _ => (l, ts)

/-- `conditional` (parser.rs:1180-1215); the condition itself when there is no question mark -/
def conditional (rec : Rec) (d : Nat) (c : Node) (ts : List Token) : Node × List Token :=
  match expect (.op .question) ts with
  | none => (c, ts)
  | some r =>
    match rec .global d 0 r with
    | (x, r1) =>
      match expect (.op .slice) r1 with
      | none => (.error, r1)
      | some r2 =>
        match rec .global d 0 r2 with
        | (y, r3) => (.cond c x y, r3)

/-- `binary_expression` (standard.rs:22-74, unary.rs:135-200) with the inner expressions given -/
def binBody (C : PCfg) (rec : Rec) (ctx : Ctx) (d p : Nat) (ts : List Token) : Node × List Token :=
  match unaryExpr C rec d ts with
  | (l, r) =>
    match binLoop C rec ctx d p (r.length + 1) l r with
    | (x, r1) => if p = 0 then conditional rec d x r1 else (x, r1)

/-- `binary_expression`. Between a call and the calls it makes a token is consumed, so as many rounds
as there are tokens, and one more, are enough (`binExpr_enough`). -/
def binExpr (C : PCfg) : Nat → Rec
  | 0 => fun _ _ _ ts => (.error, ts)
  | n + 1 => fun ctx d p ts => binBody C (binExpr C n) ctx d p ts

/-- `has_range_operator` (parser.rs:57-59) -/
def hasRange (ts : List Token) : Bool := ts.any fun t => t.kind == .op .range

/-- the result of parsing: the tree, or nothing when tokens are left or there is an error in it
(core/expression/src/parser/result.rs:17-27) -/
def result : Node × List Token → Option Node
  | (n, []) => if hasError n then none else some n
  | (_, _ :: _) => none

/-- `Parser<Standard>::parse` (standard.rs:12-20) and `ParserResult::error` -/
def parse (L : PLib) (ts : List Token) : Option Node :=
  result (binExpr ⟨L, false, hasRange ts⟩ (ts.length + 1) .global 0 0 ts)

end Parse
end Zen
