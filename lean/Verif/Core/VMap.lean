/-
Model of `VariableMap` (core/types/src/variable/map.rs), the object representation:
an insertion-ordered small vector that turns into a hash table when it outgrows 32 entries.
-/
namespace Zen

/-- Association-list search: `entries.iter().find(|(k,_)| k == key).map(|(_, v)| v)`
(core/types/src/variable/map.rs:52-72). -/
def aGet {V : Type u} : List (String × V) → String → Option V
  | [], _ => none
  | (k, v) :: r, key => if k = key then some v else aGet r key

/-- In-place replacement of the first slot with the key (map.rs:115-117, `mem::replace`). -/
def aReplace {V : Type u} : List (String × V) → String → V → List (String × V)
  | [], _, _ => []
  | (k, v) :: r, key, x => if k = key then (k, x) :: r else (k, v) :: aReplace r key x

/-- `position(..)` followed by `entries.remove(index)` (map.rs:102-110, 132-140). -/
def aErase {V : Type u} : List (String × V) → String → List (String × V)
  | [], _ => []
  | (k, v) :: r, key => if k = key then r else (k, v) :: aErase r key

/-- Replace when present, append otherwise. -/
def aSet {V : Type u} (l : List (String × V)) (key : String) (x : V) : List (String × V) :=
  match aGet l key with
  | some _ => aReplace l key x
  | none => l ++ [(key, x)]

/-- map.rs:7-9 -/
def SPILL_AT : Nat := 32

/-- `VariableMap(Repr)` (map.rs:13-20). The std `HashMap` of the `Large` case is represented by the list
of its entries in *some* order; the order in which iteration yields them is the parameter
`ord` of `VMap.iter`. -/
inductive VMap (V : Type u) where
  | small (entries : List (String × V))
  | large (table : List (String × V))

/-- `std::collections::HashMap::insert`: library behaviour (trusted), returns the old value. -/
def hInsert {V : Type u} (t : List (String × V)) (k : String) (v : V) :
    List (String × V) × Option V :=
  (aSet t k v, aGet t k)

namespace VMap
variable {V : Type u}

/-- map.rs:23-25 -/
def empty : VMap V := .small []

/-- map.rs:27-32 -/
def withCapacity (c : Nat) : VMap V := if c > SPILL_AT then .large [] else .small []

/-- map.rs:34-39 -/
def len : VMap V → Nat
  | .small e => e.length
  | .large t => t.length

/-- map.rs:45-50 -/
def clear : VMap V → VMap V
  | .small _ => .small []
  | .large _ => .large []

/-- `get` / `get_str` (map.rs:52-72) -/
def get : VMap V → String → Option V
  | .small e, k => aGet e k
  | .large t, k => aGet t k

/-- map.rs:94-100 -/
def containsKey (m : VMap V) (k : String) : Bool := (m.get k).isSome

/-- `spill` (map.rs:142-151): drains the small entries into a fresh hash map, one insert each. -/
def spill : VMap V → VMap V
  | .small e => .large (e.foldl (fun t (kv : String × V) => (hInsert t kv.1 kv.2).1) [])
  | .large t => .large t

/-- `insert` (map.rs:112-130); second component is the returned old value. -/
def insert (m : VMap V) (k : String) (v : V) : VMap V × Option V :=
  match m with
  | .small e =>
    match aGet e k with
    | some old => (.small (aReplace e k v), some old)
    | none =>
      if e.length ≥ SPILL_AT then
        match (VMap.small e).spill with
        | .large t => let r := hInsert t k v; (.large r.1, r.2)
        | .small e' => (.small e', none)        -- `unreachable!` (map.rs:122)
      else (.small (e ++ [(k, v)]), none)
  | .large t => let r := hInsert t k v; (.large r.1, r.2)

/-- `remove` / `remove_str` (map.rs:102-110, 132-140) -/
def remove (m : VMap V) (k : String) : VMap V × Option V :=
  match m with
  | .small e => (.small (aErase e k), aGet e k)
  | .large t => (.large (aErase t k), aGet t k)

/-- A write through the `&mut` returned by `get_mut` (map.rs:74-82). -/
def writeSlot (m : VMap V) (k : String) (v : V) : VMap V :=
  match m with
  | .small e => .small (aReplace e k v)
  | .large t => .large (aReplace t k v)

/-- First part of `entry` (map.rs:153-158): spill a full small map when the key is new. -/
def entryPrep (m : VMap V) (k : String) : VMap V :=
  match m with
  | .small e => if e.length ≥ SPILL_AT ∧ (aGet e k).isNone then (VMap.small e).spill else .small e
  | .large t => .large t

/-- `entry(key)` followed by `or_insert(default)` then writing `f` of the slot through the
returned `&mut` (map.rs:153-164, 208-249). -/
def entryUpdate (m : VMap V) (k : String) (dflt : V) (f : V → V) : VMap V :=
  match (m.entryPrep k).get k with
  | some old => (m.entryPrep k).writeSlot k (f old)                     -- occupied: `into_mut`
  | none => ((m.entryPrep k).insert k dflt).1.writeSlot k (f dflt)      -- vacant: `insert`, `get_mut`

/-- `iter` (map.rs:166-171); `ord` is the unspecified iteration order of the hash table. -/
def iter (ord : List (String × V) → List (String × V)) : VMap V → List (String × V)
  | .small e => e
  | .large t => ord t

/-- `Extend::extend` (map.rs:344-350) -/
def extend (m : VMap V) (xs : List (String × V)) : VMap V :=
  xs.foldl (fun m (kv : String × V) => (m.insert kv.1 kv.2).1) m

/-- `FromIterator::from_iter` (map.rs:333-342); `hint` is the iterator's lower size hint. -/
def fromIter (hint : Nat) (xs : List (String × V)) : VMap V := (withCapacity hint).extend xs

/-- `PartialEq::eq` (map.rs:352-359); `eqv` compares values. -/
def beqWith (ord : List (String × V) → List (String × V)) (eqv : V → V → Bool)
    (m n : VMap V) : Bool :=
  m.len == n.len &&
    (m.iter ord).all (fun kv => match n.get kv.1 with | some o => eqv o kv.2 | none => false)

end VMap

/-- A client-visible operation on an object and its visible answer. -/
inductive MOp (V : Type u) where
  | insert (k : String) (v : V)
  | remove (k : String)
  | entry (k : String) (dflt : V) (f : V → V)
  | extend (xs : List (String × V))
  | clear

/-- What an operation returns to its caller. -/
inductive MOut (V : Type u) where
  | old (o : Option V)
  | unit

/-- One operation on the concrete object. -/
def VMap.step {V : Type u} (m : VMap V) : MOp V → VMap V × MOut V
  | .insert k v => let r := m.insert k v; (r.1, .old r.2)
  | .remove k => let r := m.remove k; (r.1, .old r.2)
  | .entry k d f => (m.entryUpdate k d f, .unit)
  | .extend xs => (m.extend xs, .unit)
  | .clear => (m.clear, .unit)

/-- Run an operation sequence, collecting the answers. -/
def VMap.run {V : Type u} (m : VMap V) : List (MOp V) → VMap V × List (MOut V)
  | [] => (m, [])
  | op :: r => let s := m.step op; let q := VMap.run s.1 r; (q.1, s.2 :: q.2)

end Zen
