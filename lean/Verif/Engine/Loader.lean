import Verif.Core.MapLemmas
/-
The loaders (core/engine/src/loader). Content is opaque; `src` tells the document it was made from,
which preparing (compilation, schema resolution) does not change.
-/
namespace Zen

/-! ## In-memory loader -/

/-- `MemoryLoader` (loader/memory.rs:10-12): a hash map from key to content. The lock is held during
each operation, so the operations are atomic. -/
structure MemLoader (C : Type) where
  entries : List (String × C) := []

inductive MemOp (C : Type) where
  | add (key : String) (content : C)
  | remove (key : String)
  | load (key : String)

inductive MemOut (C : Type) where
  | unit
  | removed (b : Bool)
  | loaded (c : C)
  | notFound (key : String)

/-- `add`, `remove`, `load` and `load_sync` (loader/memory.rs:15-38, 42-50, 57-62) -/
def MemLoader.step {C : Type} (m : MemLoader C) : MemOp C → MemLoader C × MemOut C
  | .add k c => (⟨aSet m.entries k c⟩, .unit)
  | .remove k => (⟨aErase m.entries k⟩, .removed (aGet m.entries k).isSome)
  | .load k => (m, match aGet m.entries k with
    | some c => .loaded c
    | none => .notFound k)

def MemLoader.run {C : Type} : MemLoader C → List (MemOp C) → MemLoader C × List (MemOut C)
  | m, [] => (m, [])
  | m, op :: ops =>
    let r := m.step op
    let rs := MemLoader.run r.1 ops
    (rs.1, r.2 :: rs.2)

/-- `keys` (loader/memory.rs:52-55) -/
def MemLoader.keys {C : Type} (m : MemLoader C) : List String := aKeys m.entries

/-! ## Caching loader -/

/-- State of a call to `load` or `load_sync` of `CachedLoader` (loader/cached.rs:51-100). Between two
states other calls can take steps: the lock of the cache is held only while it is read or written. -/
inductive Call (C E : Type) where
  /-- called, the cache not yet read -/
  | called (key : String)
  /-- the cache had nothing, the inner loader is being asked -/
  | asking (key : String)
  /-- there is content, `cached` if it is from the cache; it is being prepared -/
  | preparing (key : String) (cached : Bool) (c : C)
  /-- prepared; `write` tells whether the cache is to be written -/
  | prepared (key : String) (write : Bool) (c : C)
  | done (key : String) (r : Except E C)

structure CState (C E : Type) where
  cache : List (String × C) := []
  calls : List (Call C E) := []
  /-- what the inner loader has returned so far, oldest first (not part of the program) -/
  answers : List (String × Except E C) := []

/-- One step of the caching loader with any number of calls in progress. `prep c c'` says that
`prepared` or `compiled` may turn `c` into `c'` (loader/cached.rs:24-49; the outcome depends on the
inner loader, which is asked for imported policies).
* `call`: a new call begins;
* `hit`, `miss`: the cache is read (cached.rs:57-61, 86-90);
* `fail`, `answer`: the inner loader returns (cached.rs:65, 92);
* `prep`: preparing; a content that is already cached is written again only when preparing made a
  new one (cached.rs:68-76; `Arc::ptr_eq` is the flag); `load_sync` returns a hit as it is;
* `write`, `return`: the rest. -/
inductive CStep {C E : Type} (prep : C → C → Prop) : CState C E → CState C E → Prop
  | call (s : CState C E) (k : String) : CStep prep s { s with calls := s.calls ++ [.called k] }
  | hit (s : CState C E) (i : Nat) (k : String) (c : C) : s.calls[i]? = some (.called k) → aGet s.cache k = some c →
      CStep prep s { s with calls := s.calls.set i (.preparing k true c) }
  | miss (s : CState C E) (i : Nat) (k : String) : s.calls[i]? = some (.called k) → aGet s.cache k = none →
      CStep prep s { s with calls := s.calls.set i (.asking k) }
  | fail (s : CState C E) (i : Nat) (k : String) (e : E) : s.calls[i]? = some (.asking k) →
      CStep prep s { s with calls := s.calls.set i (.done k (.error e)), answers := s.answers ++ [(k, .error e)] }
  | answer (s : CState C E) (i : Nat) (k : String) (c : C) : s.calls[i]? = some (.asking k) →
      CStep prep s { s with calls := s.calls.set i (.preparing k false c), answers := s.answers ++ [(k, .ok c)] }
  | prepSame (s : CState C E) (i : Nat) (k : String) (cached : Bool) (c : C) :
      s.calls[i]? = some (.preparing k cached c) →
      CStep prep s { s with calls := s.calls.set i (.prepared k (!cached) c) }
  | prepNew (s : CState C E) (i : Nat) (k : String) (cached : Bool) (c c' : C) :
      s.calls[i]? = some (.preparing k cached c) → prep c c' →
      CStep prep s { s with calls := s.calls.set i (.prepared k true c') }
  | write (s : CState C E) (i : Nat) (k : String) (c : C) : s.calls[i]? = some (.prepared k true c) →
      CStep prep s { s with calls := s.calls.set i (.done k (.ok c)), cache := aSet s.cache k c }
  | ret (s : CState C E) (i : Nat) (k : String) (c : C) : s.calls[i]? = some (.prepared k false c) →
      CStep prep s { s with calls := s.calls.set i (.done k (.ok c)) }

/-- reachable from the empty cache (loader/cached.rs:15-22) -/
inductive CReach {C E : Type} (prep : C → C → Prop) : CState C E → Prop
  | start : CReach prep {}
  | step (s s' : CState C E) : CReach prep s → CStep prep s s' → CReach prep s'

/-- The same, one call at a time: `ask` is the answer of the inner loader should it be asked, `prep`
what preparing makes of a content (`none`: nothing to do). The second component of the result tells
whether the inner loader was asked. -/
def cachedLoad {C E : Type} (cache : List (String × C)) (k : String) (ask : Except E C) (prep : C → Option C) :
    List (String × C) × Except E C × Bool :=
  match aGet cache k with
  | some c => match prep c with
    | none => (cache, .ok c, false)
    | some c' => (aSet cache k c', .ok c', false)
  | none => match ask with
    | .error e => (cache, .error e, true)
    | .ok c =>
      let c' := (prep c).getD c
      (aSet cache k c', .ok c', true)

structure Req (C E : Type) where
  key : String
  ask : Except E C
  prep : C → Option C

def cachedRun {C E : Type} : List (String × C) → List (Req C E) → List (String × C) × List (Except E C × Bool)
  | cache, [] => (cache, [])
  | cache, q :: qs =>
    let r := cachedLoad cache q.key q.ask q.prep
    let rs := cachedRun r.1 qs
    (rs.1, r.2 :: rs.2)

end Zen
