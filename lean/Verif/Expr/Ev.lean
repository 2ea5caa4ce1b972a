import Verif.Expr.Isolate
/-
The evaluator used by node handlers, one level above `Isolate`: the buffers of the virtual machine
and of the compiler and the cache of compiled sources are gone (C09, C10, C14 show that they have
no influence on results), the scope and the cache of reference values, which do have one, are kept.
`Verif/Props/C14.lean` proves that `Iso` computes what `Ev` computes.
-/
namespace Zen

/-- the result of an expression computed from scratch in a scope -/
def freshRun (F : FrontEnd) (B : Builtins) (scope : Scope) (k : Kind) (src : String) :
    Except IErr Val :=
  match F k src with
  | .error e => .error e
  | .ok n => match compile B n with
    | .error e => .error (.compiler e)
    | .ok _ => match evaluate B scope n with
      | .error e => .error (.vm e)
      | .ok v => .ok v

/-- what remains of an `Isolate` (isolate.rs:24-34): its scope and its reference values -/
structure Ev where
  scope : Scope
  refs : List (String × Val) := []

namespace Ev
variable (F : FrontEnd) (B : Builtins)

/-- `run_standard` (isolate.rs:144-159) -/
def run (e : Ev) (src : String) : Except IErr Val := freshRun F B e.scope .standard src

/-- `run_unary` (isolate.rs:173-188) -/
def runUnary (e : Ev) (src : String) : Except IErr Bool :=
  Iso.asBool (freshRun F B e.scope .unary src)

/-- `set_reference_value` (isolate.rs:108-112) and `set_local` (76-78) -/
def setLocal (e : Ev) (k : String) (v : Val) : Ev := { e with scope := e.scope.setLocal k v }

/-- `set_reference` (isolate.rs:94-106) -/
def setReference (e : Ev) (src : String) : Except IErr Unit × Ev :=
  match e.refs.lookup src with
  | some v => (.ok (), e.setLocal "$" v)
  | none => match e.run F B src with
    | .error er => (.error er, e)
    | .ok v => (.ok (), { e with refs := (src, v) :: e.refs }.setLocal "$" v)

/-- `get_reference` (isolate.rs:114-116) -/
def getReference (e : Ev) (src : String) : Option Val := e.refs.lookup src

/-- the calls of the public interface on this level -/
def apply (e : Ev) : IsoOp → IsoOut × Ev
  | .setEnvironment v => (.unit (.ok ()), { scope := { base := v } })
  | .setLocal k v => (.unit (.ok ()), e.setLocal k v)
  | .insertDollar p v =>
    let d : Val := match e.scope.local_ "$" with | some (.obj m) => .obj m | _ => .obj []
    (.unit (.ok ()), e.setLocal "$" (d.dotInsert p v).1)
  | .setReferenceValue v => (.unit (.ok ()), e.setLocal "$" v)
  | .setReference src => let r := e.setReference F B src; (.unit r.1, r.2)
  | .runStandard src => (.val (e.run F B src), e)
  | .runUnary src => (.bool (e.runUnary F B src), e)
  | .compile k src => (.code (match F k src with
      | .error er => .error er
      | .ok n => match compile B n with
        | .error er => .error (.compiler er)
        | .ok code => .ok code), e)

def applyAll (e : Ev) : List IsoOp → List IsoOut × Ev
  | [] => ([], e)
  | o :: os =>
    let r := e.apply F B o
    let rs := applyAll r.2 os
    (r.1 :: rs.1, rs.2)

end Ev
end Zen
