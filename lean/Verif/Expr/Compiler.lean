import Verif.Expr.Vm
/-
The compiler from syntax trees to instructions (core/expression/src/compiler/compiler.rs).
The byte code buffer is threaded explicitly; every `usize` returned by `emit` or `compile_node`
is the length of the buffer at that point.
Simplification: offsets are unbounded (`as u32` is not modelled).
-/
namespace Zen

/-- `CompilerError` (compiler/error.rs) -/
inductive CErr where
  | unknownUnary | unknownBinary | unknownFunction | invalidCall | invalidMethodCall | errorNode
deriving DecidableEq, Repr

/-- `emit` (compiler.rs:70-73) -/
def emit (buf : List Op) (op : Op) : List Op := buf ++ [op]

/-- `replace` (compiler.rs:108-110) -/
def patch (buf : List Op) (at_ : Nat) (op : Op) : List Op := buf.set (at_ - 1) op

/-- `lookup_alias` (compiler.rs:53-63); the innermost alias is the head of the list -/
def lookupAlias : List (Option String) → String → Option Nat
  | [], _ => none
  | some a :: r, name => if a = name then some 0 else (lookupAlias r name).map (· + 1)
  | none :: r, name => (lookupAlias r name).map (· + 1)

/-- `compile_member_fast` (compiler.rs:133-162) -/
def memberFast (al : List (Option String)) : Node → Option (List Target)
  | .root => some [.root]
  | .ident v => match lookupAlias al v with
    | none => some [.begin_, .str v]
    | some _ => none
  | .member n p => match memberFast al n with
    | none => none
    | some path => match p with
      | .str v => some (path ++ [.str v])
      | .num v => match toU32 v with
        | some i => some (path ++ [.num i])
        | none => none
      | _ => none
  | _ => none

/-- `emit_cond` (compiler.rs:93-106) -/
def emitCond (body : List Op → List Op) (buf : List Op) : List Op :=
  let buf := emit buf (.jump .ifFalse 0)
  let noop := buf.length
  let buf := emit buf .pop
  let buf := body buf
  let buf := emit buf (.jump .fwd 0)
  let jmp := buf.length
  let buf := patch buf noop (.jump .ifFalse (jmp - noop))
  let buf := emit buf .pop
  let e := buf.length
  patch buf jmp (.jump .fwd (e - jmp))

/-- `emit_loop` (compiler.rs:75-91) -/
def emitLoop (body : List Op → Except CErr (List Op)) (buf : List Op) : Except CErr (List Op) :=
  let begin_ := buf.length
  let buf := emit buf (.jump .ifEnd 0)
  let end_ := buf.length
  match body buf with
  | .error e => .error e
  | .ok buf =>
    let buf := emit buf .incIt
    let buf := emit buf (.jump .back (buf.length + 1 - begin_))
    let e := buf.length
    .ok (patch buf end_ (.jump .ifEnd (e - end_)))

/-- the loops with an early exit (`All`, `None`, `Some`; compiler.rs:452-503): the body is
followed by a conditional exit whose target is only known after the loop -/
def emitBreakLoop (body : List Op → Except CErr (List Op)) (k : Jmp) (dflt : Bool)
    (buf : List Op) : Except CErr (List Op) :=
  let begin_ := buf.length
  let buf := emit buf (.jump .ifEnd 0)
  let end_ := buf.length
  match body buf with
  | .error e => .error e
  | .ok buf =>
    let buf := emit buf (.jump k 0)
    let loopBreak := buf.length
    let buf := emit buf .pop
    let buf := emit buf .incIt
    let buf := emit buf (.jump .back (buf.length + 1 - begin_))
    let e := buf.length
    let buf := patch buf end_ (.jump .ifEnd (e - end_))
    let buf := emit buf (.pushBool dflt)
    let e := buf.length
    let buf := patch buf loopBreak (.jump k (e - loopBreak))
    .ok (emit buf .end_)

/-- instructions of the operators that compile both sides and then operate
(compiler.rs:320-420) -/
def binOps : Oper → Option (List Op)
  | .cmp .eq => some [.equal]
  | .cmp .ne => some [.equal, .not]
  | .cmp .in_ => some [.in_]
  | .cmp .notIn => some [.in_, .not]
  | .cmp .lt => some [.compare .less]
  | .cmp .le => some [.compare .lessEq]
  | .cmp .gt => some [.compare .more]
  | .cmp .ge => some [.compare .moreEq]
  | .arith .add => some [.add]
  | .arith .sub => some [.sub]
  | .arith .mul => some [.mul]
  | .arith .div => some [.div]
  | .arith .mod => some [.mod]
  | .arith .pow => some [.pow]
  | _ => none

/-- the conditional jump of a short-circuit operator (compiler.rs:333-359) -/
def scJump : Oper → Option Jmp
  | .logic .or => some .ifTrue
  | .logic .and => some .ifFalse
  | .logic .coalesce => some .ifNotNull
  | _ => none

def arityOk (n : Nat) : Option (Nat × Nat) → Bool
  | some (lo, hi) => decide (lo ≤ n) && decide (n ≤ hi)
  | none => false

mutual
/-- `compile_node` (compiler.rs:165-605) -/
def compileNode (B : Builtins) (al : List (Option String)) : Node → List Op → Except CErr (List Op)
  | .null, buf => .ok (emit buf .pushNull)
  | .bool b, buf => .ok (emit buf (.pushBool b))
  | .num n, buf => .ok (emit buf (.pushNum n))
  | .str s, buf => .ok (emit buf (.pushStr s))
  | .pointer, buf => .ok (emit buf (.pointer 0))
  | .root, buf => .ok (emit buf .fetchRootEnv)
  | .arr xs, buf => match compileList B al xs buf with
    | .error e => .error e
    | .ok buf => .ok (emit (emit buf (.pushNum xs.length)) .array)
  | .obj kvs, buf => match compileObj B al kvs buf with
    | .error e => .error e
    | .ok buf => .ok (emit (emit buf (.pushNum kvs.length)) .object)
  | .assigns list out, buf => match compileAsg B al list (emit buf .asgBegin) with
    | .error e => .error e
    | .ok buf => match compileOpt B al [] out buf with
      | .error e => .error e
      | .ok buf => .ok (emit buf (.asgEnd out.isSome))
  | .ident v, buf => .ok (emit buf (match lookupAlias al v with
    | none => .fetchEnv v
    | some d => .pointer d))
  | .paren n, buf => compileNode B al n buf
  | .member n p, buf => match memberFast al (.member n p) with
    | some path => .ok (emit buf (.fetchFast path))
    | none => match compileNode B al n buf with
      | .error e => .error e
      | .ok buf => match compileNode B al p buf with
        | .error e => .error e
        | .ok buf => .ok (emit buf .fetch)
  | .tmpl parts, buf => match compileTmpl B al parts buf with
    | .error e => .error e
    | .ok buf =>
      .ok (emit (emit (emit (emit buf (.pushNum parts.length)) .array) (.pushStr "")) .join)
  | .slice n from_ to, buf => match compileNode B al n buf with
    | .error e => .error e
    | .ok buf =>
      match compileOpt B al [.len, .pushNum 1, .sub] to buf with
      | .error e => .error e
      | .ok buf =>
        match compileOpt B al [.pushNum 0] from_ buf with
        | .error e => .error e
        | .ok buf => .ok (emit buf .slice)
  | .interval l r lb rb, buf => match compileNode B al l buf with
    | .error e => .error e
    | .ok buf => match compileNode B al r buf with
      | .error e => .error e
      | .ok buf => .ok (emit buf (.interval lb rb))
  | .cond c t f, buf => match compileNode B al c buf with
    | .error e => .error e
    | .ok buf =>
      let buf := emit buf (.jump .ifFalse 0)
      let otherwise := buf.length
      let buf := emit buf .pop
      match compileNode B al t buf with
      | .error e => .error e
      | .ok buf =>
        let buf := emit buf (.jump .fwd 0)
        let end_ := buf.length
        let buf := patch buf otherwise (.jump .ifFalse (end_ - otherwise))
        let buf := emit buf .pop
        match compileNode B al f buf with
        | .error e => .error e
        | .ok buf =>
          let b := buf.length
          .ok (patch buf end_ (.jump .fwd (b - end_)))
  | .unary op n, buf => match compileNode B al n buf with
    | .error e => .error e
    | .ok buf => match op with
      | .arith .add => .ok buf
      | .arith .sub => .ok (emit buf .negate)
      | .logic .not => .ok (emit buf .not)
      | _ => .error .unknownUnary
  | .binary op l r, buf =>
    match scJump op with
    | some j => match compileNode B al l buf with
      | .error e => .error e
      | .ok buf =>
        let buf := emit buf (.jump j 0)
        let end_ := buf.length
        let buf := emit buf .pop
        match compileNode B al r buf with
        | .error e => .error e
        | .ok buf =>
          let r := buf.length
          .ok (patch buf end_ (.jump j (r - end_)))
    | none => match binOps op with
      | none => .error .unknownBinary
      | some ops => match compileNode B al l buf with
        | .error e => .error e
        | .ok buf => match compileNode B al r buf with
          | .error e => .error e
          | .ok buf => .ok (buf ++ ops)
  | .call f args, buf =>
    match B.fnArity f with
    | none => .error .unknownFunction
    | some _ =>
      if arityOk args.length (B.fnArity f) then
        match compileList B al args buf with
        | .error e => .error e
        | .ok buf => .ok (emit buf (.callFn f args.length))
      else .error .invalidCall
  | .method m this args, buf =>
    match B.mArity m with
    | none => .error .unknownFunction
    | some _ => match compileNode B al this buf with
      | .error e => .error e
      | .ok buf =>
        if arityOk (args.length + 1) (B.mArity m) then
          match compileList B al args buf with
          | .error e => .error e
          | .ok buf => .ok (emit buf (.callMethod m args.length))
        else .error .invalidMethodCall
  | .closure k over alias body, buf => match compileNode B al over buf with
    | .error e => .error e
    | .ok buf =>
      let buf := emit buf .begin_
      let body := compileNode B (alias :: al) body
      match k with
      | .all => emitBreakLoop body .ifFalse true buf
      | .none => emitBreakLoop (fun b => match body b with
          | .error e => .error e
          | .ok b => .ok (emit b .not)) .ifFalse true buf
      | .some => emitBreakLoop body .ifTrue false buf
      | .one => match emitLoop (fun b => match body b with
          | .error e => .error e
          | .ok b => .ok (emitCond (fun b => emit b .incCount) b)) buf with
        | .error e => .error e
        | .ok buf => .ok (emit (emit (emit (emit buf .getCount) (.pushNum 1)) .equal) .end_)
      | .filter => match emitLoop (fun b => match body b with
          | .error e => .error e
          | .ok b => .ok (emitCond (fun b => emit (emit b .incCount) (.pointer 0)) b)) buf with
        | .error e => .error e
        | .ok buf => .ok (emit (emit (emit buf .getCount) .end_) .array)
      | .map => match emitLoop body buf with
        | .error e => .error e
        | .ok buf => .ok (emit (emit (emit buf .getLen) .end_) .array)
      | .flatMap => match emitLoop body buf with
        | .error e => .error e
        | .ok buf => .ok (emit (emit (emit (emit buf .getLen) .end_) .array) .flatten)
      | .count => match emitLoop (fun b => match body b with
          | .error e => .error e
          | .ok b => .ok (emitCond (fun b => emit b .incCount) b)) buf with
        | .error e => .error e
        | .ok buf => .ok (emit (emit buf .getCount) .end_)
  | .error, _ => .error .errorNode
/-- an optional part; `dflt` are the instructions emitted when it is absent -/
def compileOpt (B : Builtins) (al : List (Option String)) (dflt : List Op) :
    Option Node → List Op → Except CErr (List Op)
  | none, buf => .ok (buf ++ dflt)
  | some n, buf => compileNode B al n buf
/-- array elements and call arguments (compiler.rs:173-178, 442-444) -/
def compileList (B : Builtins) (al : List (Option String)) :
    List Node → List Op → Except CErr (List Op)
  | [], buf => .ok buf
  | n :: ns, buf => match compileNode B al n buf with
    | .error e => .error e
    | .ok buf => compileList B al ns buf
/-- template string parts, each converted with the `string` function (compiler.rs:235-242) -/
def compileTmpl (B : Builtins) (al : List (Option String)) :
    List Node → List Op → Except CErr (List Op)
  | [], buf => .ok buf
  | n :: ns, buf => match compileNode B al n buf with
    | .error e => .error e
    | .ok buf => compileTmpl B al ns (emit buf (.callFn "string" 1))
/-- object entries (compiler.rs:180-188) -/
def compileObj (B : Builtins) (al : List (Option String)) :
    List (Node × Node) → List Op → Except CErr (List Op)
  | [], buf => .ok buf
  | (k, v) :: ns, buf => match compileNode B al k buf with
    | .error e => .error e
    | .ok buf => match compileNode B al v (emit buf (.callFn "string" 1)) with
      | .error e => .error e
      | .ok buf => compileObj B al ns buf
/-- assignments (compiler.rs:195-201) -/
def compileAsg (B : Builtins) (al : List (Option String)) :
    List (Node × Node) → List Op → Except CErr (List Op)
  | [], buf => .ok buf
  | (k, v) :: ns, buf => match compileNode B al k buf with
    | .error e => .error e
    | .ok buf => match compileNode B al v buf with
      | .error e => .error e
      | .ok buf => compileAsg B al ns (emit buf .asgStep)
end

/-- `Compiler::compile` (compiler.rs:25-30) -/
def compile (B : Builtins) (n : Node) : Except CErr (List Op) := compileNode B [] n []

end Zen
