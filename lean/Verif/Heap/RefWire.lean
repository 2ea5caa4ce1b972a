import Verif.Heap.Model
import Verif.Core.MapLemmas
/-
The reference-compressed wire format (core/types/src/variable/ref_ser.rs, ref_deser.rs).

* `RcValue` objects are hash maps: here the list of entries in the order of insertion; the order in which the reader
  meets them is the parameter `ord`.
* The serializer identifies arrays and objects by the address of their cell and strings by the address of an interned
  copy, i.e. by content. How the numeric addresses compare (which decides ids among equal counts) is the parameter
  `rank`.
* The serializer recurses through the heap; `none` is running out of fuel (a cyclic value).
* Dates and intervals are written as what `to_value` gives (parameter `dyn`).
-/
namespace Zen

/-- `RcValue` (core/types/src/rcvalue/mod.rs:11-19) -/
inductive RcVal where
  | null
  | bool (b : Bool)
  | num (n : Rat)
  | str (s : String)
  | arr (xs : List RcVal)
  | obj (m : List (String × RcVal))

namespace RefWire

/-- what an address identifies: a cell, or an interned string -/
inductive Addr where
  | cell (a : Nat)
  | text (s : String)
deriving DecidableEq, Repr

/-! ### strings -/

/-- `escape_at_string` (ref_ser.rs:30-35) -/
def escape (s : String) : String := if s.toList.head? = some '@' then String.ofList ('@' :: s.toList) else s

/-- `unescape_at_string` (ref_deser.rs:140-145) -/
def unescape (s : String) : String :=
  match s.toList with
  | '@' :: '@' :: r => String.ofList ('@' :: r)
  | _ => s

/-- the decimal digits of a number -/
def digits (n : Nat) : List Char :=
  if n < 10 then [Char.ofNat (48 + n)] else digits (n / 10) ++ [Char.ofNat (48 + n % 10)]
decreasing_by omega

/-- `format!("@{id}")` (ref_ser.rs:109) -/
def refText (id : Nat) : String := String.ofList ('@' :: digits id)

/-- a digit's value -/
def digitVal (c : Char) : Option Nat := if 48 ≤ c.toNat ∧ c.toNat ≤ 57 then some (c.toNat - 48) else none

/-- digits from the left, `none` on overflow of 64 bits or another character -/
def parseDigits : Nat → List Char → Option Nat
  | acc, [] => some acc
  | acc, c :: r => match digitVal c with
    | none => none
    | some d => if acc * 10 + d < 2 ^ 64 then parseDigits (acc * 10 + d) r else none

/-- `str::parse::<usize>`: an optional plus sign and at least one digit -/
def parseUsize : List Char → Option Nat
  | [] => none
  | ['+'] => none
  | '+' :: r => parseDigits 0 r
  | s => parseDigits 0 s

/-- `parse_ref_id` (ref_deser.rs:147-149) -/
def parseRef (s : String) : Option Nat :=
  match s.toList with
  | '@' :: r => parseUsize r
  | _ => none

/-! ### Writing -/

/-- `*entry(addr).or_insert(0) += 1` -/
def bump : List (Addr × Nat) → Addr → List (Addr × Nat)
  | [], a => [(a, 1)]
  | (b, n) :: r, a => if b = a then (b, n + 1) :: r else (b, n) :: bump r a

/-- length of a string in bytes -/
def byteLen (s : String) : Nat := (s.toList.map Char.utf8Size).sum

mutual
/-- `count_refs` (ref_ser.rs:61-93); `min_str_len` is 5 -/
def count : Nat → Heap → List (Addr × Nat) → HVal → Option (List (Addr × Nat))
  | 0, _, _, _ => none
  | n + 1, h, c, v => match v with
    | .str s => some (if byteLen s < 5 then c else bump c (.text s))
    | .arr a => match h[a]? with
      | some (.arr xs) => countL n h (bump c (.cell a)) xs
      | _ => none
    | .obj a => match h.objAt a with
      | some m => countE n h (bump c (.cell a)) m
      | none => none
    | _ => some c
def countL : Nat → Heap → List (Addr × Nat) → List HVal → Option (List (Addr × Nat))
  | _, _, c, [] => some c
  | n, h, c, x :: xs => match count n h c x with
    | none => none
    | some c => countL n h c xs
def countE : Nat → Heap → List (Addr × Nat) → List (String × HVal) → Option (List (Addr × Nat))
  | _, _, c, [] => some c
  | n, h, c, (k, x) :: m => match count n h (bump c (.text k)) x with
    | none => none
    | some c => countE n h c m
end

/-- the order of `sorted_refs`: higher count first, then higher address -/
def before (rank : Addr → Nat) (a b : Addr × Nat) : Bool :=
  decide (b.2 < a.2) || (decide (a.2 = b.2) && decide (rank b.1 ≤ rank a.1))

/-- `assign_ref_ids` (ref_ser.rs:95-115), the addresses in the order of their ids; `min_ref_count` is 2 -/
def assign (rank : Addr → Nat) (c : List (Addr × Nat)) : List Addr :=
  ((c.filter fun e => decide (2 ≤ e.2)).mergeSort (before rank)).map Prod.fst

/-- the id of an address: `self.refs.get(&addr)` -/
def idOf (refs : List Addr) (a : Addr) : Option Nat := refs.findIdx? (· == a)

/-- `if self.ref_data[*id] == RcValue::Null { self.ref_data[*id] = data }` -/
def fill (data : List RcVal) (id : Nat) (w : RcVal) : List RcVal :=
  match data[id]? with
  | some .null => data.set id w
  | _ => data

/-- what is written for something with an address: the reference if there is one -/
def put (refs : List Addr) (a : Addr) (w : RcVal) (data : List RcVal) : RcVal × List RcVal :=
  match idOf refs a with
  | none => (w, data)
  | some id => (.str (refText id), fill data id w)

/-- the key written for a key (ref_ser.rs:163-173) -/
def putKey (refs : List Addr) (k : String) (data : List RcVal) : String × List RcVal :=
  match idOf refs (.text k) with
  | none => (escape k, data)
  | some id => (refText id, fill data id (.str (escape k)))

mutual
/-- `serialize_with_refs` (ref_ser.rs:117-196) -/
def write (dyn : Dyn → RcVal) (refs : List Addr) : Nat → Heap → HVal → List RcVal → Option (RcVal × List RcVal)
  | 0, _, _, _ => none
  | n + 1, h, v, data => match v with
    | .null => some (.null, data)
    | .bool b => some (.bool b, data)
    | .num x => some (.num x, data)
    | .dyn d => some (dyn d, data)
    | .str s => some (put refs (.text s) (.str (escape s)) data)
    | .arr a => match h[a]? with
      | some (.arr xs) => match writeL dyn refs n h xs data with
        | none => none
        | some (ws, data) => some (put refs (.cell a) (.arr ws) data)
      | _ => none
    | .obj a => match h.objAt a with
      | some m => match writeE dyn refs n h m [] data with
        | none => none
        | some (ws, data) => some (put refs (.cell a) (.obj ws) data)
      | none => none
def writeL (dyn : Dyn → RcVal) (refs : List Addr) : Nat → Heap → List HVal → List RcVal →
    Option (List RcVal × List RcVal)
  | _, _, [], data => some ([], data)
  | n, h, x :: xs, data => match write dyn refs n h x data with
    | none => none
    | some (w, data) => match writeL dyn refs n h xs data with
      | none => none
      | some (ws, data) => some (w :: ws, data)
def writeE (dyn : Dyn → RcVal) (refs : List Addr) : Nat → Heap → List (String × HVal) → List (String × RcVal) →
    List RcVal → Option (List (String × RcVal) × List RcVal)
  | _, _, [], acc, data => some (acc, data)
  | n, h, (k, x) :: m, acc, data =>
    match write dyn refs n h x (putKey refs k data).2 with
    | none => none
    | some (w, data') => writeE dyn refs n h m (aSet acc (putKey refs k data).1 w) data'
end

/-- `serialize` (ref_ser.rs:46-59) -/
def serialize (dyn : Dyn → RcVal) (rank : Addr → Nat) (n : Nat) (h : Heap) (v : HVal) : Option RcVal :=
  match count n h [] v with
  | none => none
  | some c => match write dyn (assign rank c) n h v ((assign rank c).map fun _ => .null) with
    | none => none
    | some (w, data) => some (.obj (if data.isEmpty then [("$root", w)] else [("$refs", .arr data), ("$root", w)]))

/-! ### Reading -/

/-- `RefDeserializeError` (ref_deser.rs:130-138) -/
inductive Err where
  | invalidFormat (msg : String)
  | invalidReference (id : Nat)
  | unresolvedReference (id : Nat)
deriving DecidableEq, Repr

/-- `deserialize_key` (ref_deser.rs:73-90) -/
def readKey (refs : List (Option HVal)) (k : String) : Except Err String :=
  match parseRef k with
  | some id => match refs[id]? with
    | none => .error (.invalidReference id)
    | some (some (.str s)) => .ok s
    | some (some _) => .error (.invalidFormat "Reference used as key must be a string")
    | some none => .error (.unresolvedReference id)
  | none => .ok (unescape k)

mutual
/-- `deserialize_value` (ref_deser.rs:92-127); the entries of an object have been brought into the reader's order
(`reorder`) -/
def readV (refs : List (Option HVal)) : RcVal → Heap → Except Err (Heap × HVal)
  | .null, h => .ok (h, .null)
  | .bool b, h => .ok (h, .bool b)
  | .num n, h => .ok (h, .num n)
  | .str s, h => match parseRef s with
    | some id => match refs[id]? with
      | none => .error (.invalidReference id)
      | some (some v) => .ok (h, v)
      | some none => .error (.unresolvedReference id)
    | none => .ok (h, .str (unescape s))
  | .arr ws, h => match readL refs ws h with
    | .error e => .error e
    | .ok (h, xs) => .ok (h.newArr xs)
  | .obj ws, h => match readE refs ws [] h with
    | .error e => .error e
    | .ok (h, m) => .ok (h.newObj m)
/-- the items of an array (ref_deser.rs:111-114, 42-45) -/
def readL (refs : List (Option HVal)) : List RcVal → Heap → Except Err (Heap × List HVal)
  | [], h => .ok (h, [])
  | w :: ws, h => match readV refs w h with
    | .error e => .error e
    | .ok (h, x) => match readL refs ws h with
      | .error e => .error e
      | .ok (h, xs) => .ok (h, x :: xs)
/-- the entries of an object (ref_deser.rs:118-123, 51-56) -/
def readE (refs : List (Option HVal)) : List (String × RcVal) → List (String × HVal) → Heap →
    Except Err (Heap × List (String × HVal))
  | [], m, h => .ok (h, m)
  | (k, w) :: ws, m, h => match readKey refs k with
    | .error e => .error e
    | .ok k => match readV refs w h with
      | .error e => .error e
      | .ok (h, x) => readE refs ws (aSet m k x) h
end

/-- the first pass (ref_deser.rs:26-38): `done` are the references resolved so far, `todo` those to come -/
def alloc : List (Option HVal) → List RcVal → Heap → Except Err (Heap × List (Option HVal))
  | done, [], h => .ok (h, done)
  | done, w :: todo, h => match w with
    | .arr _ => alloc (done ++ [some (h.newArr []).2]) todo (h.newArr []).1
    | .obj _ => alloc (done ++ [some (h.newObj []).2]) todo (h.newObj []).1
    | w => match readV (done ++ (w :: todo).map fun _ => none) w h with
      | .error e => .error e
      | .ok (h, v) => alloc (done ++ [some v]) todo h

/-- one step of the second pass (ref_deser.rs:41-60) -/
def fillRef (refs : List (Option HVal)) (target : Option HVal) (w : RcVal) (h : Heap) : Except Err Heap :=
  match w, target with
  | .arr ws, some (.arr a) => match readL refs ws h with
    | .error e => .error e
    | .ok (h, xs) => .ok (h.set a (.arr xs))
  | .obj ws, some (.obj a) => match readE refs ws [] h with
    | .error e => .error e
    | .ok (h, m) => .ok (h.set a (.obj m))
  | _, _ => .ok h

/-- the second pass -/
def fillRefs (refs : List (Option HVal)) : List (Option HVal) → List RcVal → Heap → Except Err Heap
  | t :: ts, w :: ws, h => match fillRef refs t w h with
    | .error e => .error e
    | .ok h => fillRefs refs ts ws h
  | _, _, h => .ok h

mutual
/-- bring the entries of all objects into the order in which the reader's hash maps iterate -/
def reorder (ord : List (String × RcVal) → List (String × RcVal)) : RcVal → RcVal
  | .arr ws => .arr (reorderL ord ws)
  | .obj ws => .obj (ord (reorderE ord ws))
  | w => w
def reorderL (ord : List (String × RcVal) → List (String × RcVal)) : List RcVal → List RcVal
  | [] => []
  | w :: ws => reorder ord w :: reorderL ord ws
def reorderE (ord : List (String × RcVal) → List (String × RcVal)) : List (String × RcVal) → List (String × RcVal)
  | [] => []
  | (k, w) :: ws => (k, reorder ord w) :: reorderE ord ws
end

/-- the part of `deserialize` after `$refs` (ref_deser.rs:66-70) -/
def readRoot (refs : List (Option HVal)) (m : List (String × RcVal)) (h : Heap) : Except Err (Heap × HVal) :=
  match aGet m "$root" with
  | none => .error (.invalidFormat "Missing $root")
  | some w => readV refs w h

/-- `deserialize` (ref_deser.rs:16-71) -/
def deserialize (ord : List (String × RcVal) → List (String × RcVal)) (w : RcVal) (h : Heap) : Except Err (Heap × HVal) :=
  match reorder ord w with
  | .obj m => match aGet m "$refs" with
    | some (.arr ws) => match alloc [] ws h with
      | .error e => .error e
      | .ok (h, refs) => match fillRefs refs refs ws h with
        | .error e => .error e
        | .ok h => readRoot refs m h
    | _ => readRoot [] m h
  | _ => .error (.invalidFormat "Expected root object")

end RefWire
end Zen
