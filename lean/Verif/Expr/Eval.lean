import Verif.Expr.Ops
/-
The meaning of expressions, independent of byte code: a recursive evaluator over syntax trees.
This is the specification the compiler and the virtual machine are measured against.

`fr` is the list of enclosing closures, innermost first: the alias given with `as` (if any) and
the element currently visited. `root` is the scope the evaluation started with, `env` the
current scope; assignments extend `env` and stay visible afterwards.
-/
namespace Zen

abbrev Frames := List (Option String × Val)

/-- the innermost closure element whose alias is `name` -/
def aliasOf : Frames → String → Option Val
  | [], _ => none
  | (some a, v) :: r, name => if a = name then some v else aliasOf r name
  | (none, _) :: r, name => aliasOf r name

/-- A path made only of `$root` or a plain name followed by literal properties and indices is
read leniently: anything missing on the way is null. `none` when the expression is not such a
path. -/
def lenient (root env : Scope) (fr : Frames) : Node → Option Val
  | .root => some root.materialize
  | .ident v => match aliasOf fr v with
    | some _ => none
    | none => some ((env.get v).getD .null)
  | .member n p => match lenient root env fr n with
    | none => none
    | some b => match p with
      | .str k => some (fastProp k b)
      | .num v => match toU32 v with
        | some i => some (fastIdx i b)
        | none => none
      | _ => none
  | _ => none

/-- meaning of the strict binary operators -/
def binMeaning (N : NumOps) : Oper → Option (Val → Val → Except VErr Val)
  | .cmp .eq => some fun a b => .ok (opEqual a b)
  | .cmp .ne => some fun a b => opNot (opEqual a b)
  | .cmp .in_ => some opIn
  | .cmp .notIn => some fun a b => match opIn a b with | .ok v => opNot v | .error e => .error e
  | .cmp .lt => some (opCompare .less)
  | .cmp .le => some (opCompare .lessEq)
  | .cmp .gt => some (opCompare .more)
  | .cmp .ge => some (opCompare .moreEq)
  | .arith .add => some (opAdd N)
  | .arith .sub => some (opSub N)
  | .arith .mul => some (opMul N)
  | .arith .div => some (opDiv N)
  | .arith .mod => some (opMod N)
  | .arith .pow => some (opPow N)
  | _ => none

abbrev Res := Except VErr (Val × Scope)

/-- Marks programs the compiler rejects; never returned for a program that compiles. -/
def rejected {α : Type} : Except VErr α := .error (.opcode "" "does not compile")

/-- conversion of template parts and object keys -/
def strOf (B : Builtins) (v : Val) : Except VErr Val :=
  match B.fn "string" [v] with
  | .ok r => .ok r
  | .error e => .error (callErr "CallFunction" "string" e)

/-! Loops over the elements `xs` of an array or interval; `f x env` is the body. -/

/-- every element satisfies the body; stops at the first that does not -/
def loopAll (f : Val → Scope → Res) : List Val → Scope → Except VErr (Bool × Scope)
  | [], env => .ok (true, env)
  | x :: xs, env => match f x env with
    | .error e => .error e
    | .ok (.bool true, env) => loopAll f xs env
    | .ok (.bool false, env) => .ok (false, env)
    | .ok (_, _) => .error (.opcode "JumpIfFalse" "Unsupported type")

/-- some element satisfies the body; stops at the first that does -/
def loopSome (f : Val → Scope → Res) : List Val → Scope → Except VErr (Bool × Scope)
  | [], env => .ok (false, env)
  | x :: xs, env => match f x env with
    | .error e => .error e
    | .ok (.bool true, env) => .ok (true, env)
    | .ok (.bool false, env) => loopSome f xs env
    | .ok (_, _) => .error (.opcode "JumpIfTrue" "Unsupported type")

/-- no element satisfies the body; stops at the first that does -/
def loopNone (f : Val → Scope → Res) : List Val → Scope → Except VErr (Bool × Scope)
  | [], env => .ok (true, env)
  | x :: xs, env => match f x env with
    | .error e => .error e
    | .ok (.bool true, env) => .ok (false, env)
    | .ok (.bool false, env) => loopNone f xs env
    | .ok (_, _) => .error (.opcode "Not" "Unsupported type")

/-- the elements satisfying the body, in order -/
def loopFilter (f : Val → Scope → Res) : List Val → Scope → Except VErr (List Val × Scope)
  | [], env => .ok ([], env)
  | x :: xs, env => match f x env with
    | .error e => .error e
    | .ok (.bool true, env) => match loopFilter f xs env with
      | .error e => .error e
      | .ok (r, env) => .ok (x :: r, env)
    | .ok (.bool false, env) => loopFilter f xs env
    | .ok (_, _) => .error (.opcode "JumpIfFalse" "Unsupported type")

/-- the values of the body, in order -/
def loopMap (f : Val → Scope → Res) : List Val → Scope → Except VErr (List Val × Scope)
  | [], env => .ok ([], env)
  | x :: xs, env => match f x env with
    | .error e => .error e
    | .ok (v, env) => match loopMap f xs env with
      | .error e => .error e
      | .ok (r, env) => .ok (v :: r, env)

/-- the value of a closure function over `xs` -/
def loopMeaning (k : Clo) (f : Val → Scope → Res) (xs : List Val) (env : Scope) : Res :=
  match k with
  | .all => (loopAll f xs env).map fun r => (.bool r.1, r.2)
  | .some => (loopSome f xs env).map fun r => (.bool r.1, r.2)
  | .none => (loopNone f xs env).map fun r => (.bool r.1, r.2)
  | .one => (loopFilter f xs env).map fun r => (.bool (decide (r.1.length = 1)), r.2)
  | .count => (loopFilter f xs env).map fun r => (.num r.1.length, r.2)
  | .filter => (loopFilter f xs env).map fun r => (.arr r.1, r.2)
  | .map => (loopMap f xs env).map fun r => (.arr r.1, r.2)
  | .flatMap => (loopMap f xs env).map fun r => (.arr (flattenV r.1), r.2)

/-- an object literal from its entries in source order: on duplicate keys the first one written
wins -/
def objLiteral (kvs : List (String × Val)) : List (String × Val) :=
  kvs.foldr (fun kv m => aSet m kv.1 kv.2) []

mutual
def eval (B : Builtins) (root : Scope) (fr : Frames) (env : Scope) : Node → Res
  | .null => .ok (.null, env)
  | .bool b => .ok (.bool b, env)
  | .num n => .ok (.num n, env)
  | .str s => .ok (.str s, env)
  | .pointer => match fr with
    | (_, v) :: _ => .ok (v, env)
    | [] => .error (.opcode "Pointer" "Scope depth out of bounds")
  | .root => .ok (env.materialize, env)
  | .arr xs => match evalList B root fr env xs with
    | .error e => .error e
    | .ok (vs, env) => .ok (.arr vs, env)
  | .obj kvs => match evalObj B root fr env kvs with
    | .error e => .error e
    | .ok (kvs, env) => .ok (.obj (objLiteral kvs), env)
  | .assigns list out => match evalAsg B root fr env (.obj []) list with
    | .error e => .error e
    | .ok (a, env) => evalOpt B root fr env a out
  | .ident v => match aliasOf fr v with
    | some x => .ok (x, env)
    | none => match opFetchEnv env v with
      | .error e => .error e
      | .ok x => .ok (x, env)
  | .paren n => eval B root fr env n
  | .member n p => match lenient root env fr (.member n p) with
    | some v => .ok (v, env)
    | none => match eval B root fr env n with
      | .error e => .error e
      | .ok (a, env) => match eval B root fr env p with
        | .error e => .error e
        | .ok (b, env) => match opFetch a b with
          | .error e => .error e
          | .ok v => .ok (v, env)
  | .tmpl parts => match evalTmpl B root fr env parts with
    | .error e => .error e
    | .ok (vs, env) => match opJoin B.checks (.arr vs) (.str "") with
      | .error e => .error e
      | .ok v => .ok (v, env)
  | .slice n from_ to => match eval B root fr env n with
    | .error e => .error e
    | .ok (c, env) =>
      match evalTo B root fr env c to with
      | .error e => .error e
      | .ok (t, env) =>
        match evalOpt B root fr env (.num 0) from_ with
        | .error e => .error e
        | .ok (f, env) => match opSlice c t f with
          | .error e => .error e
          | .ok v => .ok (v, env)
  | .interval l r lb rb => match eval B root fr env l with
    | .error e => .error e
    | .ok (a, env) => match eval B root fr env r with
      | .error e => .error e
      | .ok (b, env) => match opInterval lb rb a b with
        | .error e => .error e
        | .ok v => .ok (v, env)
  | .cond c t f => match eval B root fr env c with
    | .error e => .error e
    | .ok (.bool true, env) => eval B root fr env t
    | .ok (.bool false, env) => eval B root fr env f
    | .ok (_, _) => .error (.opcode "JumpIfFalse" "Unsupported type")
  | .unary op n => match eval B root fr env n with
    | .error e => .error e
    | .ok (v, env) => match op with
      | .arith .add => .ok (v, env)
      | .arith .sub => match opNegate v with
        | .error e => .error e
        | .ok r => .ok (r, env)
      | .logic .not => match opNot v with
        | .error e => .error e
        | .ok r => .ok (r, env)
      | _ => rejected
  | .binary op l r => match op with
    | .logic .or => match eval B root fr env l with
      | .error e => .error e
      | .ok (.bool true, env) => .ok (.bool true, env)
      | .ok (.bool false, env) => eval B root fr env r
      | .ok (_, _) => .error (.opcode "JumpIfTrue" "Unsupported type")
    | .logic .and => match eval B root fr env l with
      | .error e => .error e
      | .ok (.bool false, env) => .ok (.bool false, env)
      | .ok (.bool true, env) => eval B root fr env r
      | .ok (_, _) => .error (.opcode "JumpIfFalse" "Unsupported type")
    | .logic .coalesce => match eval B root fr env l with
      | .error e => .error e
      | .ok (.null, env) => eval B root fr env r
      | .ok (v, env) => .ok (v, env)
    | op => match binMeaning B.num op with
      | none => rejected
      | some f => match eval B root fr env l with
        | .error e => .error e
        | .ok (a, env) => match eval B root fr env r with
          | .error e => .error e
          | .ok (b, env) => match f a b with
            | .error e => .error e
            | .ok v => .ok (v, env)
  | .call f args => match evalList B root fr env args with
    | .error e => .error e
    | .ok (vs, env) => match B.fn f vs with
      | .error e => .error (callErr "CallFunction" f e)
      | .ok v => .ok (v, env)
  | .method m this args => match eval B root fr env this with
    | .error e => .error e
    | .ok (t, env) => match evalList B root fr env args with
      | .error e => .error e
      | .ok (vs, env) => match B.method m (t :: vs) with
        | .error e => .error (callErr "CallMethod" m e)
        | .ok v => .ok (v, env)
  | .closure k over alias body => match eval B root fr env over with
    | .error e => .error e
    | .ok (v, env) => match opBegin B.checks v with
      | .error e => .error e
      | .ok xs => loopMeaning k (fun x env => eval B root ((alias, x) :: fr) env body) xs env
  | .error => rejected
/-- an optional part with the value it has when absent -/
def evalOpt (B : Builtins) (root : Scope) (fr : Frames) (env : Scope) (dflt : Val) :
    Option Node → Res
  | none => .ok (dflt, env)
  | some n => eval B root fr env n
/-- the upper end of a slice of `c`: by default the last position -/
def evalTo (B : Builtins) (root : Scope) (fr : Frames) (env : Scope) (c : Val) :
    Option Node → Res
  | none => match opLen c with
    | .error e => .error e
    | .ok l => match opSub B.num l (.num 1) with
      | .error e => .error e
      | .ok v => .ok (v, env)
  | some n => eval B root fr env n
/-- left to right -/
def evalList (B : Builtins) (root : Scope) (fr : Frames) (env : Scope) :
    List Node → Except VErr (List Val × Scope)
  | [] => .ok ([], env)
  | n :: ns => match eval B root fr env n with
    | .error e => .error e
    | .ok (v, env) => match evalList B root fr env ns with
      | .error e => .error e
      | .ok (vs, env) => .ok (v :: vs, env)
/-- template parts as strings -/
def evalTmpl (B : Builtins) (root : Scope) (fr : Frames) (env : Scope) :
    List Node → Except VErr (List Val × Scope)
  | [] => .ok ([], env)
  | n :: ns => match eval B root fr env n with
    | .error e => .error e
    | .ok (v, env) => match strOf B v with
      | .error e => .error e
      | .ok s => match evalTmpl B root fr env ns with
        | .error e => .error e
        | .ok (vs, env) => .ok (s :: vs, env)
/-- entries of an object literal; a key is converted to a string -/
def evalObj (B : Builtins) (root : Scope) (fr : Frames) (env : Scope) :
    List (Node × Node) → Except VErr (List (String × Val) × Scope)
  | [] => .ok ([], env)
  | (k, v) :: ns => match eval B root fr env k with
    | .error e => .error e
    | .ok (kv, env) => match strOf B kv with
      | .error e => .error e
      | .ok ks => match eval B root fr env v with
        | .error e => .error e
        | .ok (x, env) => match evalObj B root fr env ns with
          | .error e => .error e
          | .ok (r, env) => match ks with
            | .str s => .ok ((s, x) :: r, env)
            | _ => .error (.opcode "Object" "Unexpected key value")
/-- assignments, extending the scope and the object under construction -/
def evalAsg (B : Builtins) (root : Scope) (fr : Frames) (env : Scope) (acc : Val) :
    List (Node × Node) → Res
  | [] => .ok (acc, env)
  | (k, v) :: ns => match eval B root fr env k with
    | .error e => .error e
    | .ok (kv, env) => match eval B root fr env v with
      | .error e => .error e
      | .ok (x, env) => match opAssignStep kv x env (some acc) with
        | .error e => .error e
        | .ok (env, acc) => evalAsg B root fr env acc ns
end

/-- The value of an expression in a scope. -/
def evaluate (B : Builtins) (scope : Scope) (n : Node) : Except VErr Val :=
  (eval B scope [] scope n).map Prod.fst

end Zen
