import Verif.Expr.Ops
/-
The instruction set and the virtual machine (core/expression/src/compiler/opcode.rs,
core/expression/src/vm/vm.rs).
-/
namespace Zen

/-- `FetchFastTarget` (opcode.rs) -/
inductive Target where
  | root | begin_ | str (k : String) | num (i : Nat)
deriving DecidableEq

/-- `Jump` (opcode.rs) -/
inductive Jmp where | fwd | back | ifTrue | ifFalse | ifNotNull | ifEnd
deriving DecidableEq

/-- `Opcode` (opcode.rs) -/
inductive Op where
  | pushNull | pushBool (b : Bool) | pushStr (s : String) | pushNum (n : Rat)
  | pop | flatten | join | fetch | fetchRootEnv | fetchEnv (k : String)
  | fetchFast (path : List Target)
  | negate | not | equal | jump (k : Jmp) (j : Nat) | in_ | compare (c : Cmp)
  | add | sub | mul | div | mod | pow | slice | array | object
  | asgBegin | asgStep | asgEnd (withReturn : Bool)
  | len | incIt | incCount | getCount | getLen | pointer (d : Nat) | begin_ | end_
  | callFn (f : String) (n : Nat) | callMethod (m : String) (n : Nat)
  | interval (lb rb : Brk)

/-- `LoopScope` (vm.rs:18-24); the iterated value is always an array by the time it is stored -/
structure Loop where
  arr : List Val
  len : Nat
  iter : Nat
  count : Nat

/-- Machine state: `VMInner` (vm.rs:49-54) together with the `env` and `assigned_objects`
variables of `run` (vm.rs:81-82). Stacks are lists with the top first. -/
structure VmState where
  ip : Nat
  stack : List Val
  loops : List Loop
  env : Scope
  asg : List Val

namespace VmState
def push (s : VmState) (v : Val) : VmState := { s with stack := v :: s.stack }

/-- `pop` (vm.rs:74-78) -/
def pop (s : VmState) : Except VErr (Val × VmState) :=
  match s.stack with
  | v :: r => .ok (v, { s with stack := r })
  | [] => .error .stackOutOfBounds

def pushR (s : VmState) (r : Except VErr Val) : Except VErr VmState :=
  match r with
  | .ok v => .ok (s.push v)
  | .error e => .error e

/-- pop one operand, push the result -/
def un (s : VmState) (f : Val → Except VErr Val) : Except VErr VmState :=
  match s.pop with
  | .error e => .error e
  | .ok (a, s) => s.pushR (f a)

/-- pop the right then the left operand, push the result -/
def bin (s : VmState) (f : Val → Val → Except VErr Val) : Except VErr VmState :=
  match s.pop with
  | .error e => .error e
  | .ok (b, s) => match s.pop with
    | .error e => .error e
    | .ok (a, s) => s.pushR (f a b)

/-- pop `n` values; the first popped ends up last (`arr.reverse()`, vm.rs:745-749) -/
def popN (s : VmState) : Nat → List Val → Except VErr (List Val × VmState)
  | 0, acc => .ok (acc, s)
  | n + 1, acc => match s.pop with
    | .error e => .error e
    | .ok (v, s) => popN s n (v :: acc)

/-- pop `n` key/value pairs into a map (vm.rs:767-778) -/
def popPairs (s : VmState) : Nat → List (String × Val) → Except VErr (List (String × Val) × VmState)
  | 0, m => .ok (m, s)
  | n + 1, m => match s.pop with
    | .error e => .error e
    | .ok (v, s) => match s.pop with
      | .error e => .error e
      | .ok (.str k, s) => popPairs s n (aSet m k v)
      | .ok (_, _) => .error (.opcode "Object" "Unexpected key value")
end VmState

/-- one step of the `FetchFast` fold (vm.rs:156-179) -/
def fastStep (root env : Scope) (v : Val) : Target → Val
  | .root => root.materialize
  | .begin_ => env.materialize
  | .str k => fastProp k v
  | .num i => fastIdx i v

/-- `FetchFast` (vm.rs:142-182) -/
def fetchFast (root env : Scope) : List Target → Val
  | .root :: rest => rest.foldl (fastStep root env) root.materialize
  | .begin_ :: .str k :: rest => rest.foldl (fastStep root env) ((env.get k).getD .null)
  | .begin_ :: rest => rest.foldl (fastStep root env) env.materialize
  | _ :: rest => rest.foldl (fastStep root env) .null
  | [] => .null

/-- the last element of the Rust vector of scopes is the head here -/
def loopTop (s : VmState) (op : String) (msg : String := "Empty scope") : Except VErr Loop :=
  match s.loops with
  | l :: _ => .ok l
  | [] => .error (.opcode op msg)

def setLoopTop (s : VmState) (l : Loop) : VmState := { s with loops := l :: s.loops.tail }

/-- `round().to_usize()` on an element count (vm.rs:740-743, 762-765). The counts compiled code
puts there are lengths of vectors, so neither the rounding nor the 64-bit limit is modelled. -/
def toCount (n : Rat) : Option Nat := if n < 0 then none else some (ratTrunc n).toNat

/-- One instruction; `s.ip` has already been advanced (vm.rs:96-1017). -/
def exec (B : Builtins) (root : Scope) (op : Op) (s : VmState) : Except VErr VmState :=
  match op with
  | .pushNull => .ok (s.push .null)
  | .pushBool b => .ok (s.push (.bool b))
  | .pushNum n => .ok (s.push (.num n))
  | .pushStr t => .ok (s.push (.str t))
  | .pop => match s.pop with | .error e => .error e | .ok (_, s) => .ok s
  | .fetch => s.bin opFetch
  | .fetchFast path => .ok (s.push (fetchFast root s.env path))
  | .fetchEnv f => s.pushR (opFetchEnv s.env f)
  | .fetchRootEnv => .ok (s.push s.env.materialize)
  | .negate => s.un opNegate
  | .not => s.un opNot
  | .equal => s.bin fun a b => .ok (opEqual a b)
  | .jump .fwd j => .ok { s with ip := s.ip + j }
  | .jump .back j => if j ≤ s.ip then .ok { s with ip := s.ip - j } else .error (.panic .code)
  | .jump .ifTrue j => match s.stack with
    | .bool true :: _ => .ok { s with ip := s.ip + j }
    | .bool false :: _ => .ok s
    | _ :: _ => .error (.opcode "JumpIfTrue" "Unsupported type")
    | [] => .error (.opcode "JumpIfTrue" "Undefined object key")
  | .jump .ifFalse j => match s.stack with
    | .bool false :: _ => .ok { s with ip := s.ip + j }
    | .bool true :: _ => .ok s
    | _ :: _ => .error (.opcode "JumpIfFalse" "Unsupported type")
    | [] => .error (.opcode "JumpIfFalse" "Empty array")
  | .jump .ifNotNull j => match s.stack with
    | .null :: _ => .ok s
    | _ :: _ => .ok { s with ip := s.ip + j }
    | [] => .error (.opcode "JumpIfNull" "Empty array")
  | .jump .ifEnd j => match s.loops with
    | l :: _ => if l.iter ≥ l.len then .ok { s with ip := s.ip + j } else .ok s
    | [] => .error (.opcode "JumpIfEnd" "Empty stack")
  | .in_ => s.bin opIn
  | .compare c => s.bin (opCompare c)
  | .add => s.bin (opAdd B.num)
  | .sub => s.bin (opSub B.num)
  | .mul => s.bin (opMul B.num)
  | .div => s.bin (opDiv B.num)
  | .mod => s.bin (opMod B.num)
  | .pow => s.bin (opPow B.num)
  | .interval lb rb => s.bin (opInterval lb rb)
  | .join => s.bin (opJoin B.checks)
  | .slice => match s.pop with
    | .error e => .error e
    | .ok (f, s) => match s.pop with
      | .error e => .error e
      | .ok (t, s) => match s.pop with
        | .error e => .error e
        | .ok (c, s) => s.pushR (opSlice c t f)
  | .array => match s.pop with
    | .error e => .error e
    | .ok (.num n, s) => match toCount n with
      | none => .error (.opcode "Array" "Failed to extract argument")
      | some k => match s.popN k [] with
        | .error e => .error e
        | .ok (vs, s) => .ok (s.push (.arr vs))
    | .ok (_, _) => .error (.opcode "Array" "Unsupported type")
  | .object => match s.pop with
    | .error e => .error e
    | .ok (.num n, s) => match toCount n with
      | none => .error (.opcode "Array" "Failed to extract argument")
      | some k => match s.popPairs k [] with
        | .error e => .error e
        | .ok (m, s) => .ok (s.push (.obj m))
    | .ok (_, _) => .error (.opcode "Array" "Unsupported type")
  | .asgBegin => .ok { s with asg := .obj [] :: s.asg }
  | .asgStep => match s.pop with
    | .error e => .error e
    | .ok (v, s) => match s.pop with
      | .error e => .error e
      | .ok (k, s) => match opAssignStep k v s.env s.asg.head? with
        | .error e => .error e
        | .ok (env, a) => .ok { s with env := env, asg := a :: s.asg.tail }
  | .asgEnd withReturn => match s.asg with
    | [] => .error (.opcode "AssignedObjectEnd" "Assigned object scope must be set")
    | a :: rest =>
      if withReturn then
        match s.pop with
        | .error e => .error e
        | .ok (v, s) => .ok ({ s with asg := rest }.push v)
      else .ok ({ s with asg := rest }.push a)
  | .len => match s.stack with
    | v :: _ => s.pushR (opLen v)
    | [] => .error (.opcode "Len" "Empty stack")
  | .flatten => s.un opFlatten
  | .incIt => match s.loops with
    | l :: r => .ok { s with loops := { l with iter := l.iter + 1 } :: r }
    | [] => .error (.opcode "IncrementIt" "Empty scope")
  | .incCount => match s.loops with
    | l :: r => .ok { s with loops := { l with count := l.count + 1 } :: r }
    | [] => .error (.opcode "IncrementCount" "Empty scope")
  | .getCount => match s.loops with
    | l :: _ => .ok (s.push (.num l.count))
    | [] => .error (.opcode "GetCount" "Empty scope")
  | .getLen => match s.loops with
    | l :: _ => .ok (s.push (.num l.len))
    | [] => .error (.opcode "GetLen" "Empty scope")
  | .pointer d => match s.loops[d]? with
    | none => .error (.opcode "Pointer" "Scope depth out of bounds")
    | some l => match l.arr[l.iter]? with
      | none => .error (.opcode "Pointer" "Scope array out of bounds")
      | some v => .ok (s.push v)
  | .begin_ => match s.pop with
    | .error e => .error e
    | .ok (v, s) => match opBegin B.checks v with
      | .error e => .error e
      | .ok xs => .ok { s with loops := { arr := xs, len := xs.length, iter := 0, count := 0 } :: s.loops }
  | .end_ => .ok { s with loops := s.loops.tail }
  | .callFn f n =>
    -- `stack[len.saturating_sub(n)..]` in push order
    match B.fn f (s.stack.take n).reverse with
    | .error e => .error (callErr "CallFunction" f e)
    | .ok v => .ok ({ s with stack := s.stack.drop n }.push v)
  | .callMethod m n =>
    -- `len.saturating_sub(n) - 1` underflows when there is no receiver (vm.rs:1006)
    if n < s.stack.length then
      match B.method m (s.stack.take (n + 1)).reverse with
      | .error e => .error (callErr "CallMethod" m e)
      | .ok v => .ok ({ s with stack := s.stack.drop (n + 1) }.push v)
    else .error (.panic .code)

/-- The main loop (vm.rs:87-1020); `none` means the fuel ran out. -/
def runFrom (B : Builtins) (root : Scope) (code : List Op) : Nat → VmState → Option (Except VErr Val)
  | 0, _ => none
  | n + 1, s => match code[s.ip]? with
    | none => some (match s.pop with | .ok (v, _) => .ok v | .error e => .error e)
    | some op => match exec B root op { s with ip := s.ip + 1 } with
      | .error e => some (.error e)
      | .ok s' => runFrom B root code n s'

/-- `VMInner::run` on cleared stacks (vm.rs:40-47, 80-86) -/
def initState (scope : Scope) : VmState :=
  { ip := 0, stack := [], loops := [], env := scope, asg := [] }

def runCode (B : Builtins) (code : List Op) (scope : Scope) (fuel : Nat) : Option (Except VErr Val) :=
  runFrom B scope code fuel (initState scope)

end Zen
