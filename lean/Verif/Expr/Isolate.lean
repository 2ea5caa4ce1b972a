import Verif.Expr.Spec
/-
The reusable evaluator `Isolate` (core/expression/src/isolate.rs) with its virtual machine
(core/expression/src/vm/vm.rs:26-47) and compiler (core/expression/src/compiler/compiler.rs:14-40),
whose internal buffers survive from one call to the next.
-/
namespace Zen

/-- `ExpressionKind` (expression.rs:14-18) -/
inductive Kind where | standard | unary
deriving DecidableEq

/-- `IsolateError` (isolate.rs:198-220); `front` is a lexer or parser error -/
inductive IErr where
  | front (msg : String)
  | compiler (e : CErr)
  | vm (e : VErr)
  | valueCast

/-- Lexer and parser, as a function from source text to a syntax tree. Both are stateless apart
from the lexer's capacity hint and the arena, which is reset before each use
(isolate.rs:118-135). -/
abbrev FrontEnd := Kind → String → Except IErr Node

/-- `VM`: the two vectors that live across runs (vm.rs:26-30) -/
structure Vm where
  stack : List Val := []
  loops : List Loop := []

/-- What a failed call leaves behind in the buffers. The Rust code leaves whatever was there when
the error was raised; the model allows anything. -/
structure Junk where
  vm : VmState → Vm
  buffer : Node → List Op

/-- `VMInner::run` (vm.rs:80-1021) with the vectors it leaves behind -/
def runLeft (B : Builtins) (J : Junk) (root : Scope) (code : List Op) :
    Nat → VmState → Option (Except VErr Val × Vm)
  | 0, _ => none
  | n + 1, s => match code[s.ip]? with
    | none => match s.pop with
      | .ok (v, s') => some (.ok v, ⟨s'.stack, s'.loops⟩)
      | .error e => some (.error e, ⟨s.stack, s.loops⟩)
    | some op => match exec B root op { s with ip := s.ip + 1 } with
      | .error e => some (.error e, J.vm s)
      | .ok s' => runLeft B J root code n s'

/-- `VM::run` (vm.rs:40-47): clears both vectors, then runs -/
def Vm.run (B : Builtins) (J : Junk) (vm : Vm) (code : List Op) (scope : Scope) (fuel : Nat) :
    Option (Except VErr Val × Vm) :=
  let vm : Vm := { vm with stack := [] }
  let vm : Vm := { vm with loops := [] }
  runLeft B J scope code fuel { ip := 0, stack := vm.stack, loops := vm.loops, env := scope, asg := [] }

/-- `Compiler` (compiler.rs:14-18): the bytecode vector lives across calls -/
structure Comp where
  bytecode : List Op := []

/-- `Compiler::compile` (compiler.rs:25-32): clears the vector, then compiles into it -/
def Comp.compile (B : Builtins) (J : Junk) (c : Comp) (n : Node) : Except CErr Unit × Comp :=
  let c : Comp := { c with bytecode := [] }
  match compileNode B [] n c.bytecode with
  | .ok code => (.ok (), ⟨code⟩)
  | .error e => (.error e, ⟨J.buffer n⟩)

/-- `OpcodeCache` (expression.rs:20-24) -/
structure OpCache where
  standard : List (String × List Op) := []
  unary : List (String × List Op) := []

def OpCache.get (c : OpCache) : Kind → String → Option (List Op)
  | .standard, s => c.standard.lookup s
  | .unary, s => c.unary.lookup s

/-- `Isolate` (isolate.rs:24-34) without lexer and arena -/
structure Iso where
  compiler : Comp := {}
  vm : Vm := {}
  scope : Scope := { base := .null }
  refs : List (String × Val) := []
  cache : Option OpCache := none

namespace Iso
variable (F : FrontEnd) (B : Builtins) (J : Junk)

/-- `set_environment` (isolate.rs:63-66), `Scope::set_base` (scope.rs:32-35) -/
def setEnvironment (i : Iso) (v : Val) : Iso := { i with scope := { base := v }, refs := [] }

/-- `set_cache` (isolate.rs:68-70) -/
def setCache (i : Iso) (c : OpCache) : Iso := { i with cache := some c }

/-- `set_local` (isolate.rs:76-78) -/
def setLocal (i : Iso) (k : String) (v : Val) : Iso := { i with scope := i.scope.setLocal k v }

/-- `insert_dollar` (isolate.rs:80-92), on data: that the object changed in place may be shared
with the input or with a cached reference is not visible here (see Verif/Heap). -/
def insertDollar (i : Iso) (path : String) (v : Val) : Iso :=
  let d : Val := match i.scope.local_ "$" with
    | some (.obj m) => .obj m
    | _ => .obj []
  i.setLocal "$" (d.dotInsert path v).1

/-- `run_internal` (isolate.rs:118-135) -/
def runInternal (i : Iso) (src : String) (k : Kind) : Except IErr Unit × Iso :=
  match F k src with
  | .error e => (.error e, i)
  | .ok n => match i.compiler.compile B J n with
    | (.ok (), c) => (.ok (), { i with compiler := c })
    | (.error e, c) => (.error (.compiler e), { i with compiler := c })

/-- `run_compiled` (isolate.rs:160-164) -/
def runCompiled (fuel : Nat) (i : Iso) (code : List Op) : Option (Except IErr Val × Iso) :=
  match i.vm.run B J code i.scope fuel with
  | none => none
  | some (.ok v, vm) => some (.ok v, { i with vm := vm })
  | some (.error e, vm) => some (.error (.vm e), { i with vm := vm })

/-- the code cached for a source text, if any (isolate.rs:145-151, 174-180) -/
def cached (i : Iso) (k : Kind) (src : String) : Option (List Op) :=
  match i.cache with
  | none => none
  | some c => c.get k src

/-- `run_standard` (isolate.rs:144-159) and, up to the conversion of the result, `run_unary`
(isolate.rs:173-188) -/
def runKind (k : Kind) (fuel : Nat) (i : Iso) (src : String) : Option (Except IErr Val × Iso) :=
  match i.cached k src with
  | some code => i.runCompiled B J fuel code
  | none => match i.runInternal F B J src k with
    | (.error e, i) => some (.error e, i)
    | (.ok (), i) => i.runCompiled B J fuel i.compiler.bytecode

/-- `as_bool` and the cast error (isolate.rs:187, 193) -/
def asBool : Except IErr Val → Except IErr Bool
  | .ok (.bool b) => .ok b
  | .ok _ => .error .valueCast
  | .error e => .error e

/-- `set_reference` (isolate.rs:94-106) -/
def setReference (fuel : Nat) (i : Iso) (src : String) : Option (Except IErr Unit × Iso) :=
  match i.refs.lookup src with
  | some v => some (.ok (), i.setLocal "$" v)
  | none => match i.runKind F B J .standard fuel src with
    | none => none
    | some (.error e, i) => some (.error e, i)
    | some (.ok v, i) => some (.ok (), { i with refs := (src, v) :: i.refs }.setLocal "$" v)
end Iso

/-- the calls of the public interface -/
inductive IsoOp where
  | setEnvironment (v : Val) | setLocal (k : String) (v : Val) | insertDollar (path : String) (v : Val)
  | setReference (src : String) | setReferenceValue (v : Val)
  | runStandard (src : String) | runUnary (src : String) | compile (k : Kind) (src : String)

/-- what a call returns -/
inductive IsoOut where
  | unit (r : Except IErr Unit) | val (r : Except IErr Val) | bool (r : Except IErr Bool)
  | code (r : Except IErr (List Op))

/-- one call; `none` means that the fuel ran out -/
def Iso.apply (F : FrontEnd) (B : Builtins) (J : Junk) (fuel : Nat) (i : Iso) :
    IsoOp → Option (IsoOut × Iso)
  | .setEnvironment v => some (.unit (.ok ()), i.setEnvironment v)
  | .setLocal k v => some (.unit (.ok ()), i.setLocal k v)
  | .insertDollar p v => some (.unit (.ok ()), i.insertDollar p v)
  | .setReferenceValue v => some (.unit (.ok ()), i.setLocal "$" v)
  | .setReference src => (i.setReference F B J fuel src).map fun r => (.unit r.1, r.2)
  | .runStandard src => (i.runKind F B J .standard fuel src).map fun r => (.val r.1, r.2)
  | .runUnary src => (i.runKind F B J .unary fuel src).map fun r => (.bool (Iso.asBool r.1), r.2)
  | .compile k src => match i.runInternal F B J src k with
    | (.ok (), i) => some (.code (.ok i.compiler.bytecode), i)
    | (.error e, i) => some (.code (.error e), i)

/-- a sequence of calls and the results they return -/
def Iso.applyAll (F : FrontEnd) (B : Builtins) (J : Junk) (fuel : Nat) :
    Iso → List IsoOp → Option (List IsoOut × Iso)
  | i, [] => some ([], i)
  | i, o :: os => match i.apply F B J fuel o with
    | none => none
    | some (r, i) => match Iso.applyAll F B J fuel i os with
      | none => none
      | some (rs, i) => some (r :: rs, i)

end Zen
