import Verif.Core.Dot
import Verif.Expr.Ast
/-
Operations on values performed by single virtual machine instructions
(core/expression/src/vm/vm.rs) and the evaluation scope (core/expression/src/scope.rs).
-/
namespace Zen

/-- What made a run crash instead of returning an error: an interval bound that overflows when the
interval becomes an array (interval.rs:42, 48), an empty list of strings to join (vm.rs:668), byte code
that jumps to before its start or calls a method without a receiver (vm.rs:1006), or a built-in function
or method. -/
inductive Crash where
  | interval
  | join
  | code
  | builtin (name : String)
deriving DecidableEq, Repr

/-- Failures of a run. `opcode` is `VMError::OpcodeErr { opcode, message }`,
`stackOutOfBounds` is `VMError::StackOutOfBounds`; `panic` stands for a crash of the process. -/
inductive VErr where
  | opcode (op msg : String)
  | stackOutOfBounds
  | panic (c : Crash)
deriving DecidableEq, Repr

/-- how a built-in function can fail: with an error, or by crashing -/
inductive BErr where
  | err (msg : String)
  | panic
deriving DecidableEq, Repr

/-- the failure of the machine when a built-in fails (vm.rs:990-995, 1007-1012) -/
def callErr (op name : String) : BErr → VErr
  | .err m => .opcode op m
  | .panic => .panic (.builtin name)

/-- Decimal arithmetic (`rust_decimal`), left abstract: each operation may fail, as
`checked_add`, `checked_sub`, `checked_mul`, `checked_div`, `checked_rem` and `checked_powd` with
its floating point fallback (vm.rs:472-580) do. -/
structure NumOps where
  add : Rat → Rat → Option Rat
  sub : Rat → Rat → Option Rat
  mul : Rat → Rat → Option Rat
  div : Rat → Rat → Option Rat
  rem : Rat → Rat → Option Rat
  pow : Rat → Rat → Option Rat

/-- Built-in functions and methods, left abstract: their arities (required and maximal number
of arguments; methods count the receiver) and their results. `rand`, `date()` (the current
time) are therefore outside the model. -/
structure Builtins where
  /-- whether the build checks integer overflow (debug builds do; release builds wrap around) -/
  checks : Bool
  num : NumOps
  fnArity : String → Option (Nat × Nat)
  fn : String → List Val → Except BErr Val
  mArity : String → Option (Nat × Nat)
  method : String → List Val → Except BErr Val

/-- `Decimal::trunc` -/
def ratTrunc (n : Rat) : Int := if 0 ≤ n then n.floor else n.ceil

/-- `Decimal::to_usize`: fraction dropped, negative or too large numbers rejected (the sign of a
negative zero is not represented). -/
def toUsize (n : Rat) : Option Nat :=
  if n < 0 then none
  else if (ratTrunc n).toNat < 2 ^ 64 then some (ratTrunc n).toNat else none

/-- `Decimal::to_u32` -/
def toU32 (n : Rat) : Option Nat :=
  if n < 0 then none
  else if (ratTrunc n).toNat < 2 ^ 32 then some (ratTrunc n).toNat else none

/-- `Decimal::to_i64` -/
def toI64 (n : Rat) : Option Int :=
  if -(2 ^ 63) ≤ ratTrunc n ∧ ratTrunc n < 2 ^ 63 then some (ratTrunc n) else none

/-- drop characters until exactly `n` bytes are consumed; `none` off a character boundary -/
def dropBytes : List Char → Nat → Option (List Char)
  | cs, 0 => some cs
  | [], _ + 1 => none
  | c :: cs, n + 1 => if c.utf8Size ≤ n + 1 then dropBytes cs (n + 1 - c.utf8Size) else none

/-- take characters until exactly `n` bytes are collected; `none` off a character boundary -/
def takeBytes : List Char → Nat → Option (List Char)
  | _, 0 => some []
  | [], _ + 1 => none
  | c :: cs, n + 1 =>
    if c.utf8Size ≤ n + 1 then (takeBytes cs (n + 1 - c.utf8Size)).map (c :: ·) else none

/-- `str::get(i..j)`: byte positions, `None` when out of range, reversed or inside a character -/
def byteSlice (s : String) (i j : Nat) : Option String :=
  if i ≤ j then
    match dropBytes s.toList i with
    | none => none
    | some r => (takeBytes r (j - i)).map String.ofList
  else none

/-- byte length of a string, `str::len` -/
def byteLen (s : String) : Nat := (s.toList.map Char.utf8Size).sum

/-! ### Scope -/

/-- `Scope` (scope.rs:5-9) -/
structure Scope where
  base : Val
  locals : List (String × Val) := []

namespace Scope
/-- `set_local` (scope.rs:46-55) -/
def setLocal (s : Scope) (k : String) (v : Val) : Scope := { s with locals := aSet s.locals k v }
/-- `local`, `local_str` (scope.rs:57-69) -/
def local_ (s : Scope) (k : String) : Option Val := aGet s.locals k
/-- `get`, `get_str` (scope.rs:71-91) -/
def get (s : Scope) (k : String) : Option Val :=
  match s.local_ k with
  | some v => some v
  | none => match s.base with | .obj m => aGet m k | _ => none
/-- `materialize` (scope.rs:93-108) -/
def materialize (s : Scope) : Val :=
  if s.locals.isEmpty then s.base
  else match s.base with
    | .obj m => .obj (s.locals.foldl (fun m kv => aSet m kv.1 kv.2) m)
    | b => b
end Scope

/-! ### Instructions on values -/

/-- `Fetch` (vm.rs:106-141) -/
def opFetch : Val → Val → Except VErr Val
  | .obj m, .str k => .ok ((aGet m k).getD .null)
  | .arr xs, .num n => match toUsize n with
    | none => .error (.opcode "Fetch" "Failed to convert to usize")
    | some i => .ok (xs[i]?.getD .null)
  | .str s, .num n => match toUsize n with
    | none => .error (.opcode "Fetch" "Failed to convert to usize")
    | some i => .ok (match byteSlice s i (i + 1) with | some t => .str t | none => .null)
  | _, _ => .ok .null

/-- one `String` step of `FetchFast` (vm.rs:159-165) -/
def fastProp (k : String) : Val → Val
  | .obj m => (aGet m k).getD .null
  | _ => .null

/-- one `Number` step of `FetchFast` (vm.rs:166-178) -/
def fastIdx (i : Nat) : Val → Val
  | .arr xs => xs[i]?.getD .null
  | .str s => match byteSlice s i (i + 1) with | some t => .str t | none => .null
  | _ => .null

/-- `FetchEnv` (vm.rs:183-201) -/
def opFetchEnv (env : Scope) (f : String) : Except VErr Val :=
  match env.local_ f with
  | some v => .ok v
  | none => match env.base with
    | .obj m => .ok ((aGet m f).getD .null)
    | .null => .ok .null
    | _ => .error (.opcode "FetchEnv" "Unsupported type")

/-- `Negate` (vm.rs:205-218) -/
def opNegate : Val → Except VErr Val
  | .num n => .ok (.num (-n))
  | _ => .error (.opcode "Negate" "Unsupported type")

/-- `Not` (vm.rs:219-230) -/
def opNot : Val → Except VErr Val
  | .bool b => .ok (.bool !b)
  | _ => .error (.opcode "Not" "Unsupported type")

/-- `Equal` (vm.rs:231-257) -/
def opEqual : Val → Val → Val
  | .num a, .num b => .bool (decide (a = b))
  | .bool a, .bool b => .bool (a == b)
  | .str a, .str b => .bool (a == b)
  | .null, .null => .bool true
  | .dyn (.date a), .dyn (.date b) => .bool (decide (a = b))
  | _, _ => .bool false

/-- The order `derive(Ord)` gives to `Option<DateTime>`: an invalid date is below every valid
one (vm/date/mod.rs, `VmDate`). -/
def dateLt : Option Int → Option Int → Bool
  | none, some _ => true
  | some a, some b => decide (a < b)
  | _, none => false

/-- Derived order of `VmIntervalData` (interval.rs:104-108): numbers below dates. -/
def IData.lt : IData → IData → Bool
  | .num a, .num b => decide (a < b)
  | .num _, .date _ => true
  | .date _, .num _ => false
  | .date a, .date b => dateLt a b

def IData.le (a b : IData) : Bool := a.lt b || decide (a = b)

/-- `VmInterval::includes` (interval.rs:60-91). `none` for a curly bracket, which is an error. -/
def includes (lb rb : Brk) (l r v : IData) : Option Bool :=
  let first : Option (Bool × Bool) := match lb with
    | .lparen => some (false, l.lt v)
    | .lsq => some (false, l.le v)
    | .rparen => some (true, v.lt l)
    | .rsq => some (true, v.le l)
    | _ => none
  let second : Option Bool := match rb with
    | .rparen => some (v.lt r)
    | .rsq => some (v.le r)
    | .lparen => some (r.lt v)
    | .lsq => some (r.le v)
    | _ => none
  match first, second with
  | some (isOpen, f), some s => some ((isOpen && (f || s)) || (!isOpen && f && s))
  | _, _ => none

/-- `i64` addition of a small number: out of range it panics, or wraps around -/
def i64Wrap (checks : Bool) (i : Int) : Except VErr (Option Int) :=
  if -(2 ^ 63) ≤ i ∧ i < 2 ^ 63 then .ok (some i)
  else if checks then .error (.panic .interval)
  else .ok (some ((i + 2 ^ 63) % 2 ^ 64 - 2 ^ 63))

/-- the first number of the range (interval.rs:41-45) -/
def rangeStart (checks : Bool) (lb : Brk) (l : Rat) : Except VErr (Option Int) :=
  match lb with
  | .lparen => match toI64 l with
    | some i => i64Wrap checks (i + 1)
    | none => .ok none
  | .lsq => .ok (toI64 l)
  | _ => .ok none

/-- the last number of the range (interval.rs:47-51) -/
def rangeEnd (checks : Bool) (rb : Brk) (r : Rat) : Except VErr (Option Int) :=
  match rb with
  | .rparen => match toI64 r with
    | some i => i64Wrap checks (i - 1)
    | none => .ok none
  | .rsq => .ok (toI64 r)
  | _ => .ok none

/-- `VmInterval::to_array` (interval.rs:35-58). The outer error is the overflow of `+ 1` / `- 1`;
running out of memory on a long list is not modelled. -/
def intervalToArray (checks : Bool) (lb rb : Brk) (l r : IData) : Except VErr (Option (List Val)) :=
  match l, r with
  | .num l, .num r =>
    match rangeStart checks lb l with
    | .error e => .error e
    | .ok none => .ok none
    | .ok (some a) =>
      match rangeEnd checks rb r with
      | .error e => .error e
      | .ok none => .ok none
      | .ok (some b) =>
        .ok (some ((List.range (b - a + 1).toNat).map fun (i : Nat) => .num ((a + (i : Int) : Int) : Rat)))
  | _, _ => .ok none

def inErr : Except VErr Val := .error (.opcode "In" "Unsupported type")

def opIncludes (lb rb : Brk) (l r v : IData) : Except VErr Val :=
  match includes lb rb l r v with
  | some b => .ok (.bool b)
  | none => .error (.opcode "In" "Unsupported bracket")

/-- membership of a value in an array, comparing only elements of the same simple type
(the closures in vm.rs:331-418) -/
def simpleEq : Val → Val → Bool
  | .num a, .num b => decide (a = b)
  | .str a, .str b => a == b
  | .bool a, .bool b => a == b
  | .null, .null => true
  | .dyn (.date a), .dyn (.date b) => decide (a = b)
  | _, _ => false

/-- `In` (vm.rs:324-429) -/
def opIn : Val → Val → Except VErr Val
  | .num a, .arr xs => .ok (.bool (xs.any (simpleEq (.num a))))
  | .num a, .dyn (.interval lb rb l r) => opIncludes lb rb l r (.num a)
  | .num _, .dyn (.date _) => inErr
  | .dyn (.date d), .dyn (.interval lb rb l r) => opIncludes lb rb l r (.date d)
  | .dyn (.date d), .arr xs => .ok (.bool (xs.any (simpleEq (.dyn (.date d)))))
  | .str a, .arr xs => .ok (.bool (xs.any (simpleEq (.str a))))
  | .str a, .obj m => .ok (.bool (aGet m a).isSome)
  | .bool a, .arr xs => .ok (.bool (xs.any (simpleEq (.bool a))))
  | .null, .arr xs => .ok (.bool (xs.any (simpleEq .null)))
  | _, _ => inErr

/-- `Compare` (core/expression/src/compiler/opcode.rs) -/
inductive Cmp where | more | less | moreEq | lessEq
deriving DecidableEq, Repr

/-- `Compare` (vm.rs:430-465) -/
def opCompare (c : Cmp) : Val → Val → Except VErr Val
  | .num a, .num b => .ok (.bool (match c with
    | .more => decide (b < a) | .moreEq => decide (b ≤ a)
    | .less => decide (a < b) | .lessEq => decide (a ≤ b)))
  | .dyn (.date a), .dyn (.date b) => .ok (.bool (match c with
    | .more => dateLt b a | .moreEq => !dateLt a b
    | .less => dateLt a b | .lessEq => !dateLt b a))
  | _, _ => .error (.opcode "Compare" "Unsupported type")

/-- `Add` (vm.rs:466-493) -/
def opAdd (N : NumOps) : Val → Val → Except VErr Val
  | .num a, .num b => match N.add a b with
    | some r => .ok (.num r) | none => .error (.opcode "Add" "Number overflow")
  | .str a, .str b => .ok (.str (a ++ b))
  | _, _ => .error (.opcode "Add" "Unsupported type")

/-- `Subtract` (vm.rs:494-513) -/
def opSub (N : NumOps) : Val → Val → Except VErr Val
  | .num a, .num b => match N.sub a b with
    | some r => .ok (.num r) | none => .error (.opcode "Subtract" "Number overflow")
  | _, _ => .error (.opcode "Subtract" "Unsupported type")

/-- `Multiply` (vm.rs:514-533) -/
def opMul (N : NumOps) : Val → Val → Except VErr Val
  | .num a, .num b => match N.mul a b with
    | some r => .ok (.num r) | none => .error (.opcode "Multiply" "Number overflow")
  | _, _ => .error (.opcode "Multiply" "Unsupported type")

/-- `Divide` (vm.rs:534-551): a failed division (by zero) is null -/
def opDiv (N : NumOps) : Val → Val → Except VErr Val
  | .num a, .num b => .ok (match N.div a b with | some r => .num r | none => .null)
  | _, _ => .error (.opcode "Divide" "Unsupported type")

/-- `Modulo` (vm.rs:552-571) -/
def opMod (N : NumOps) : Val → Val → Except VErr Val
  | .num a, .num b => .ok (match N.rem a b with | some r => .num r | none => .null)
  | _, _ => .error (.opcode "Modulo" "Unsupported type")

/-- `Exponent` (vm.rs:572-595) -/
def opPow (N : NumOps) : Val → Val → Except VErr Val
  | .num a, .num b => match N.pow a b with
    | some r => .ok (.num r)
    | none => .error (.opcode "Exponent" "Failed to calculate exponent")
  | _, _ => .error (.opcode "Exponent" "Unsupported type")

/-- `Interval` (vm.rs:596-641) -/
def opInterval (lb rb : Brk) : Val → Val → Except VErr Val
  | .num a, .num b => .ok (.dyn (.interval lb rb (.num a) (.num b)))
  | .dyn (.date a), .dyn (.date b) => .ok (.dyn (.interval lb rb (.date a) (.date b)))
  | _, _ => .error (.opcode "Interval" "Unsupported type")

/-- the strings of an array, `none` when some element is not a string -/
def allStrs : List Val → Option (List String)
  | [] => some []
  | .str s :: r => (allStrs r).map (s :: ·)
  | _ :: _ => none

/-- `Join` (vm.rs:642-680). The capacity computation `separator.len() * (parts.len() - 1)`
underflows for no parts: a panic with overflow checks. Without, the wrapped product is 0 for the
only separator the compiler emits, the empty string; for any other it exceeds every capacity, a
panic as well. -/
def opJoin (checks : Bool) : Val → Val → Except VErr Val
  | .arr xs, .str sep => match allStrs xs with
    | some [] => if checks || decide (sep ≠ "") then .error (.panic .join) else .ok (.str "")
    | some ss => .ok (.str (sep.intercalate ss))
    | none => .error (.opcode "Join" "Unexpected type in array")
  | _, _ => .error (.opcode "Join" "Unsupported type")

/-- `Slice` (vm.rs:681-730); `slice::get(from..=to)` -/
def opSlice (cur to from_ : Val) : Except VErr Val :=
  match from_, to with
  | .num f, .num t => match toUsize f with
    | none => .error (.opcode "Slice" "Failed to get range from")
    | some i => match toUsize t with
      | none => .error (.opcode "Slice" "Failed to get range to")
      | some j => match cur with
        | .arr xs =>
          if i ≤ j + 1 ∧ j + 1 ≤ xs.length then .ok (.arr ((xs.drop i).take (j + 1 - i)))
          else .error (.opcode "Slice" "Index out of range")
        | .str s => match byteSlice s i (j + 1) with
          | some r => .ok (.str r)
          | none => .error (.opcode "Slice" "Index out of range")
        | _ => .error (.opcode "Slice" "Unsupported type")
  | _, _ => .error (.opcode "Slice" "Unsupported type")

/-- `Len` (vm.rs:842-857, functions/internal.rs:792-806) -/
def opLen : Val → Except VErr Val
  | .str s => .ok (.num (byteLen s))
  | .arr xs => .ok (.num xs.length)
  | _ => .error (.opcode "Len" "Cannot determine len")

/-- one level of flattening (vm.rs:869-876, functions/internal.rs:459-473) -/
def flattenV : List Val → List Val
  | [] => []
  | .arr ys :: r => ys ++ flattenV r
  | x :: r => x :: flattenV r

/-- `Flatten` (vm.rs:858-879) -/
def opFlatten : Val → Except VErr Val
  | .arr xs => .ok (.arr (flattenV xs))
  | _ => .error (.opcode "Flatten" "Unsupported type")

/-- `Begin` (vm.rs:947-978): the elements iterated over -/
def opBegin (checks : Bool) : Val → Except VErr (List Val)
  | .arr xs => .ok xs
  | .dyn (.interval lb rb l r) => match intervalToArray checks lb rb l r with
    | .error e => .error e
    | .ok (some xs) => .ok xs
    | .ok none => .error (.opcode "Begin" "Unsupported type")
  | _ => .error (.opcode "Begin" "Unsupported type")

/-- `AssignedObjectStep` (vm.rs:785-826) on the scope and the object under construction.
Values are data here: that `dot_insert` on the object under construction can reach an object
shared with the scope is the subject of Verif/Heap. -/
def opAssignStep (key value : Val) (env : Scope) (assigned : Option Val) :
    Except VErr (Scope × Val) :=
  match key with
  | .str k => match assigned with
    | none => .error (.opcode "AssignedObjectStep" "Assigned object scope must be set")
    | some a => match env.base with
      | .obj _ =>
        if '.' ∈ k.toList then
          match env.materialize.dotInsertDetached k value with
          | none => .error (.opcode "AssignedObjectStep" "Failed to mutate existing env")
          | some e => .ok ({ base := e }, (a.dotInsert k value).1)
        else .ok (env.setLocal k value, (a.dotInsert k value).1)
      | _ => .error (.opcode "AssignedObjectStep" "Failed to mutate existing env")
  | _ => .error (.opcode "AssignedObjectStep" "Unexpected key value")

end Zen
