import Verif.Core.Val
/-
Dotted-path access on data (core/types/src/variable/mod.rs:190-284).
-/
namespace Zen

/-- `str::split('.')` on characters. -/
def splitDotC : List Char → List (List Char)
  | [] => [[]]
  | c :: r =>
    if c = '.' then [] :: splitDotC r
    else match splitDotC r with
      | [] => [[c]]
      | p :: ps => (c :: p) :: ps

/-- `key.split('.')` -/
def splitDot (key : String) : List String := (splitDotC key.toList).map String.ofList

namespace Val

/-- `dot` (mod.rs:190-199), folding over the path segments. -/
def dotP : Val → List String → Option Val
  | v, [] => some v
  | .obj m, k :: ks => match aGet m k with | some x => dotP x ks | none => none
  | _, _ :: _ => none

/-- `dot` on a key string. -/
def dot (v : Val) (key : String) : Option Val := dotP v (splitDot key)

/-- `dot_insert` (mod.rs:252-271). The `&self` mutation becomes the first component; `none` in the
second is also what the code returns when there was no previous value. The third component
tells whether the final `insert` was reached (internal, not returned by the code). -/
def dotInsertP : Val → List String → Val → Val × Option Val × Bool
  | .obj m, [k], v => (.obj (aSet m k v), aGet m k, true)
  | .obj m, k :: k' :: ks, v =>
    -- occupied: descend; vacant: insert an empty object first (mod.rs:258-261)
    let child := (aGet m k).getD (.obj [])
    let r := dotInsertP child (k' :: ks) v
    (.obj (aSet m k r.1), r.2)
  | d, _, _ => (d, none, false)

def dotInsert (d : Val) (key : String) (v : Val) : Val × Option Val :=
  let r := dotInsertP d (splitDot key) v; (r.1, r.2.1)

/-- The object the detached walk descends into (mod.rs:210-224). -/
def detachChild : Option Val → Val
  | some (.obj c) => .obj c
  | some _ => .obj []
  | none => .obj []

/-- `dot_insert_detached` (mod.rs:201-229, 273-284): non-object intermediates are replaced by
empty objects; `none` when the root is not an object. -/
def dotInsertDetachedP : Val → List String → Val → Option Val
  | .obj m, [k], v => some (.obj (aSet m k v))
  | .obj m, k :: k' :: ks, v =>
    match dotInsertDetachedP (detachChild (aGet m k)) (k' :: ks) v with
    | some x => some (.obj (aSet m k x))
    | none => none
  | _, _, _ => none

def dotInsertDetached (d : Val) (key : String) (v : Val) : Option Val :=
  dotInsertDetachedP d (splitDot key) v

/-- `dot_remove` (mod.rs:231-250): note that missing intermediates are created as empty objects. -/
def dotRemoveP : Val → List String → Val × Option Val
  | .obj m, [k] => (.obj (aErase m k), aGet m k)
  | .obj m, k :: k' :: ks =>
    let child := (aGet m k).getD (.obj [])
    let r := dotRemoveP child (k' :: ks)
    (.obj (aSet m k r.1), r.2)
  | d, _ => (d, none)

end Val
end Zen
