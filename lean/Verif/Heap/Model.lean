import Verif.Core.Val
import Verif.Core.Dot
/-
Values with sharing. `Variable::Array` and `Variable::Object` hold an `Rc<RefCell<..>>`
(core/types/src/variable/mod.rs:37-45, rccell.rs); here they hold the address of a cell in a heap, so
that two holders of one address see each other's writes.

Simplifications: cells are never freed (reference counts are not represented); an object is the list
of its entries in iteration order (C01); a dynamic value is its content.
-/
namespace Zen

/-- `Variable` (variable/mod.rs:37-45) as it is stored -/
inductive HVal where
  | null
  | bool (b : Bool)
  | num (n : Rat)
  | str (s : String)
  | arr (addr : Nat)
  | obj (addr : Nat)
  | dyn (d : Dyn)
deriving DecidableEq

/-- content of an `RcCell` -/
inductive Cell where
  | arr (xs : List HVal)
  | obj (m : List (String × HVal))
deriving DecidableEq

/-- cells by address; a new cell goes to the end -/
abbrev Heap := List Cell

namespace Heap

/-- the map behind an object pointer, `borrow()` -/
def objAt (h : Heap) (a : Nat) : Option (List (String × HVal)) :=
  match h[a]? with
  | some (.obj m) => some m
  | _ => none

/-- `from_object`, `from_array` (mod.rs:80-82, 92-94): a new cell -/
def newObj (h : Heap) (m : List (String × HVal)) : Heap × HVal := (h ++ [.obj m], .obj h.length)
def newArr (h : Heap) (xs : List HVal) : Heap × HVal := (h ++ [.arr xs], .arr h.length)

/-- thread the heap through the elements (`iter().map(..).collect()`) -/
def mapL (f : Heap → HVal → Heap × HVal) : Heap → List HVal → Heap × List HVal
  | h, [] => (h, [])
  | h, x :: xs =>
    let r := f h x
    let rs := mapL f r.1 xs
    (rs.1, r.2 :: rs.2)
def mapE (f : Heap → HVal → Heap × HVal) : Heap → List (String × HVal) → Heap × List (String × HVal)
  | h, [] => (h, [])
  | h, (k, x) :: m =>
    let r := f h x
    let rs := mapE f r.1 m
    (rs.1, (k, r.2) :: rs.2)

/-- `depth_clone` (mod.rs:329-349) -/
def depthClone : Nat → Heap → HVal → Heap × HVal
  | 0, h, v => (h, v)
  | n + 1, h, v => match v with
    | .arr a => match h[a]? with
      | some (.arr xs) => let r := mapL (depthClone n) h xs; r.1.newArr r.2
      | _ => (h, v)
    | .obj a => match h.objAt a with
      | some m => let r := mapE (depthClone n) h m; r.1.newObj r.2
      | none => (h, v)
    | v => (h, v)

/-- elements one by one, with failure -/
def mapL? (f : Heap → HVal → Option (Heap × HVal)) : Heap → List HVal → Option (Heap × List HVal)
  | h, [] => some (h, [])
  | h, x :: xs => match f h x with
    | none => none
    | some r => match mapL? f r.1 xs with
      | none => none
      | some rs => some (rs.1, r.2 :: rs.2)
def mapE? (f : Heap → HVal → Option (Heap × HVal)) :
    Heap → List (String × HVal) → Option (Heap × List (String × HVal))
  | h, [] => some (h, [])
  | h, (k, x) :: m => match f h x with
    | none => none
    | some r => match mapE? f r.1 m with
      | none => none
      | some rs => some (rs.1, (k, r.2) :: rs.2)

/-- `deep_clone` (mod.rs:311-327); `none` when the fuel ran out (the code recurses without end on a
cyclic value) -/
def deepClone : Nat → Heap → HVal → Option (Heap × HVal)
  | 0, _, _ => none
  | n + 1, h, v => match v with
    | .arr a => match h[a]? with
      | some (.arr xs) => match mapL? (deepClone n) h xs with
        | none => none
        | some r => some (r.1.newArr r.2)
      | _ => none
    | .obj a => match h.objAt a with
      | some m => match mapE? (deepClone n) h m with
        | none => none
        | some r => some (r.1.newObj r.2)
      | none => none
    | v => some (h, v)

/-- `dot` (mod.rs:190-199) -/
def dot (h : Heap) : HVal → List String → Option HVal
  | v, [] => some v
  | .obj a, k :: ks => match h.objAt a with
    | some m => match aGet m k with
      | some x => dot h x ks
      | none => none
    | none => none
  | _, _ :: _ => none

/-- the `try_fold` of `dot_insert` and `dot_remove` (mod.rs:234-243, 255-264): down the path, with
empty objects for what is missing -/
def walk : Heap → HVal → List String → Heap × Option HVal
  | h, v, [] => (h, some v)
  | h, .obj a, k :: ks => match h.objAt a with
    | some m => match aGet m k with
      | some x => walk h x ks
      | none =>
        let r := h.newObj []
        walk (r.1.set a (.obj (aSet m k r.2))) r.2 ks
    | none => (h, none)
  | h, _, _ :: _ => (h, none)

/-- `dot_insert` (mod.rs:252-271) on the segments of the key -/
def dotInsert (h : Heap) (v : HVal) (path : List String) (x : HVal) : Heap × Option HVal :=
  match path.getLast? with
  | none => (h, none)
  | some k => match walk h v path.dropLast with
    | (h, some (.obj a)) => match h.objAt a with
      | some m => (h.set a (.obj (aSet m k x)), aGet m k)
      | none => (h, none)
    | (h, _) => (h, none)

/-- `dot_remove` (mod.rs:231-250) -/
def dotRemove (h : Heap) (v : HVal) (path : List String) : Heap × Option HVal :=
  match path.getLast? with
  | none => (h, none)
  | some k => match walk h v path.dropLast with
    | (h, some (.obj a)) => match h.objAt a with
      | some m => (h.set a (.obj (aErase m k)), aGet m k)
      | none => (h, none)
    | (h, _) => (h, none)

/-- the new object that an entry, occupied or vacant, is replaced by (mod.rs:211-224) -/
def detachEntry (h : Heap) : Option HVal → Heap × HVal
  | some (.obj a) => depthClone 1 h (.obj a)
  | _ => h.newObj []

/-- the `try_fold` of `dot_head_detach` (mod.rs:205-226) -/
def walkDetach : Heap → HVal → List String → Heap × Option HVal
  | h, v, [] => (h, some v)
  | h, .obj a, k :: ks => match h.objAt a with
    | some m =>
      let r := detachEntry h (aGet m k)
      walkDetach (r.1.set a (.obj (aSet m k r.2))) r.2 ks
    | none => (h, none)
  | h, _, _ :: _ => (h, none)

/-- `dot_insert_detached` (mod.rs:201-229, 273-284) -/
def dotInsertDetached (h : Heap) (v : HVal) (path : List String) (x : HVal) : Heap × Option HVal :=
  match path.getLast? with
  | none => (h, none)
  | some k =>
    let c := depthClone 1 h v
    match walkDetach c.1 c.2 path.dropLast with
    | (h, some (.obj a)) => match h.objAt a with
      | some m => (h.set a (.obj (aSet m k x)), some c.2)
      | none => (h, none)
    | (h, _) => (h, none)

/-- the elements one by one -/
def readL (f : HVal → Option Val) : List HVal → Option (List Val)
  | [] => some []
  | x :: xs => match f x with
    | none => none
    | some v => match readL f xs with
      | none => none
      | some vs => some (v :: vs)
def readE (f : HVal → Option Val) : List (String × HVal) → Option (List (String × Val))
  | [] => some []
  | (k, x) :: m => match f x with
    | none => none
    | some v => match readE f m with
      | none => none
      | some vs => some ((k, v) :: vs)

/-- The data a value stands for, as `to_value` would read it (mod.rs:186-188); `none` when the fuel
ran out or an address is not in the heap. -/
def read : Nat → Heap → HVal → Option Val
  | 0, _, _ => none
  | n + 1, h, v => match v with
    | .null => some .null
    | .bool b => some (.bool b)
    | .num q => some (.num q)
    | .str s => some (.str s)
    | .dyn d => some (.dyn d)
    | .arr a => match h[a]? with
      | some (.arr xs) => (readL (read n h) xs).map .arr
      | _ => none
    | .obj a => match h.objAt a with
      | some m => (readE (read n h) m).map .obj
      | none => none

/-- `==` on variables (mod.rs:496-509) compares the data of both. (The comparison stops at the first
difference, here both are read to the end; the result is the same when both can be read.) -/
def same (n : Nat) (h : Heap) (v w : HVal) : Option Bool :=
  match read n h v, read n h w with
  | some x, some y => some (x.beq y)
  | _, _ => none

/-- the loop over the patch of a cloning merge (mod.rs:403-427); `f` merges one value. Cloning the map
before the first entry or before the loop is the same, `borrow().clone()` is a shallow copy. -/
def cloneLoop (f : Heap → HVal → HVal → Option (Heap × HVal × Bool)) :
    Heap → List (String × HVal) → List (String × HVal) → Bool → Option (Heap × List (String × HVal) × Bool)
  | h, m, [], ch => some (h, m, ch)
  | h, m, (k, v) :: p, ch =>
    if v = .null then cloneLoop f h (aErase m k) p (ch || (aGet m k).isSome)
    else match f h ((aGet m k).getD .null) v with
      | none => none
      | some (h, x, c) => cloneLoop f h (aSet m k x) p (ch || c)

/-- `merge_variables` with `MergeStrategy::CloneOnWrite` and `top_level = false` (mod.rs:378-447) -/
def mergeC : Nat → Heap → HVal → HVal → Option (Heap × HVal × Bool)
  | 0, _, _, _ => none
  | n + 1, h, doc, patch => match doc, patch with
    | .obj d, .obj p =>
      if d = p then some (h, doc, false)                                -- mod.rs:381-383
      else match h.objAt d, h.objAt p with
        | some dm, some pm => match cloneLoop (mergeC n) h dm pm false with
          | none => none
          | some (h, m, true) => let r := h.newObj m; some (r.1, r.2, true)
          | some (h, _, false) => some (h, doc, false)
        | _, _ => none
    | doc, patch => match same n h doc patch with
      | none => none
      | some true => some (h, doc, false)
      | some false => some (h, patch, true)

/-- `merge_clone` (mod.rs:292-297, 369-376) -/
def mergeClone (n : Nat) (h : Heap) (doc patch : HVal) : Option (Heap × HVal) :=
  match patch with
  | .arr p => some (h, .arr p)
  | .obj p => (mergeC n h doc (.obj p)).map fun r => (r.1, r.2.1)
  | _ => some (h, doc)

/-- What running may end in besides a result: a second borrow of a cell that is borrowed
(`RefCell`, "already borrowed") -/
inductive Panic where
  | borrow
deriving DecidableEq

/-- the loop over the patch of a merge in place (mod.rs:388-396) -/
def placeLoop (f : Heap → HVal → HVal → Option (Except Panic (Heap × HVal))) :
    Heap → List (String × HVal) → List (String × HVal) → Option (Except Panic (Heap × List (String × HVal)))
  | h, m, [] => some (.ok (h, m))
  | h, m, (k, v) :: p =>
    if v = .null then placeLoop f h (aErase m k) p
    else match f h ((aGet m k).getD .null) v with
      | none => none
      | some (.error e) => some (.error e)
      | some (.ok (h, x)) => placeLoop f h (aSet m k x) p

/-- `merge_variables` with `MergeStrategy::InPlace` and `top_level = false` (mod.rs:378-397,
438-447). `wr` are the cells borrowed for writing, `rd` those borrowed for reading. A cell borrowed
for writing is out of reach for others, so its map is written back at the end. Borrows made by `==`
in the last branch are not checked here. -/
def mergeI : Nat → List Nat → List Nat → Heap → HVal → HVal → Option (Except Panic (Heap × HVal))
  | 0, _, _, _, _, _ => none
  | n + 1, wr, rd, h, doc, patch => match doc, patch with
    | .obj d, .obj p =>
      if d = p then some (.ok (h, doc))
      else if p ∈ wr then some (.error .borrow)                         -- patch_ref.borrow()
      else if d ∈ wr ∨ d ∈ rd then some (.error .borrow)                -- doc_ref.borrow_mut()
      else match h.objAt d, h.objAt p with
        | some dm, some pm => match placeLoop (mergeI n (d :: wr) (p :: rd)) h dm pm with
          | none => none
          | some (.error e) => some (.error e)
          | some (.ok (h, m)) => some (.ok (h.set d (.obj m), doc))
        | _, _ => none
    | doc, patch => match same n h doc patch with
      | none => none
      | some true => some (.ok (h, doc))
      | some false => some (.ok (h, patch))

/-- `merge` (mod.rs:286-290, 369-376) -/
def merge (n : Nat) (h : Heap) (doc patch : HVal) : Option (Except Panic (Heap × HVal)) :=
  match patch with
  | .arr p => some (.ok (h, .arr p))
  | .obj p => mergeI n [] [] h doc (.obj p)
  | _ => some (.ok (h, doc))

/-- the loop of the cleaner over the children (cleaner.rs:34-36, 50-52) -/
def cleanLoop (f : List Nat → Heap → HVal → Option (List Nat × Heap)) :
    List Nat → Heap → List HVal → Option (List Nat × Heap)
  | vis, h, [] => some (vis, h)
  | vis, h, x :: xs => match f vis h x with
    | none => none
    | some (vis, h) => cleanLoop f vis h xs

/-- `VariableCleaner::clean` (core/engine/src/decision_graph/cleaner.rs:18-53); `vis` is the set of
visited cells -/
def clean : Nat → List Nat → Heap → HVal → Option (List Nat × Heap)
  | 0, _, _, _ => none
  | n + 1, vis, h, v => match v with
    | .arr a => if a ∈ vis then some (vis, h) else match h[a]? with
      | some (.arr xs) => cleanLoop (clean n) (a :: vis) h xs
      | _ => some (a :: vis, h)
    | .obj a => if a ∈ vis then some (vis, h) else match h.objAt a with
      | some m =>
        let m := aErase m "$nodes"
        cleanLoop (clean n) (a :: vis) (h.set a (.obj m)) (m.map Prod.snd)
      | none => some (a :: vis, h)
    | _ => some (vis, h)

end Heap
end Zen
