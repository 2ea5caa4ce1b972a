import Verif.Core.Val
/-
Dictionaries in JSON schemas (core/engine/src/decision_graph/schema_dict.rs). A schema is a value;
its objects are maps with unique keys.
-/
namespace Zen

/-- the dictionaries that can be referred to, with their values -/
abbrev Dicts := String → Option (List String)

/-- keys of a reference that are not copied (schema_dict.rs:82-84) -/
def refKey (k : String) : Bool := k == "$dictionary" || k == "type" || k == "enum"

/-- the object that replaces a reference (schema_dict.rs:80-100) -/
def inlined (m : List (String × Val)) (values : List String) : Val :=
  .obj (aSet (aSet (m.filter fun e => !refKey e.1) "type" (.str "string")) "enum" (.arr (values.map .str)))

mutual
/-- `rewrite` (schema_dict.rs:63-116), without the hash -/
def rewriteSchema (D : Dicts) : Val → Except String Val
  | .obj m => match aGet m "$dictionary" with
    | some (.str name) => match D name with
      | some values => .ok (inlined m values)
      | none => .error ("unknown dictionary '" ++ name ++ "' in schema")
    | some _ => .error "$dictionary must be a string dictionary name"
    | none => match rewriteE D m with
      | .ok n => .ok (.obj n)
      | .error e => .error e
  | .arr xs => match rewriteL D xs with
    | .ok ys => .ok (.arr ys)
    | .error e => .error e
  | v => .ok v
def rewriteL (D : Dicts) : List Val → Except String (List Val)
  | [] => .ok []
  | x :: xs => match rewriteSchema D x with
    | .error e => .error e
    | .ok y => match rewriteL D xs with
      | .error e => .error e
      | .ok ys => .ok (y :: ys)
def rewriteE (D : Dicts) : List (String × Val) → Except String (List (String × Val))
  | [] => .ok []
  | (k, x) :: m => match rewriteSchema D x with
    | .error e => .error e
    | .ok y => match rewriteE D m with
      | .error e => .error e
      | .ok n => .ok ((k, y) :: n)
end

mutual
/-- `schema_references_dictionary` (schema_dict.rs:10-18) -/
def refersDict : Val → Bool
  | .obj m => (aGet m "$dictionary").isSome || refersDictE m
  | .arr xs => refersDictL xs
  | _ => false
def refersDictL : List Val → Bool
  | [] => false
  | x :: xs => refersDict x || refersDictL xs
def refersDictE : List (String × Val) → Bool
  | [] => false
  | (_, x) :: m => refersDict x || refersDictE m
end

/-- what matters of a policy document here -/
structure DictDoc where
  imports : List String
  dicts : List (String × List String)

/-- the dictionaries of one document, those already known first (schema_dict.rs:40-49) -/
def addDicts (out : List (String × List String)) : List (String × List String) → List (String × List String)
  | [] => out
  | (n, vs) :: ds => addDicts (match aGet out n with
    | some _ => out
    | none => out ++ [(n, vs)]) ds

/-- `load_import_dictionaries` (schema_dict.rs:20-52). The stack's top is the head of the list. The
loader returns `none` for content that is not a policy. `none` when the fuel ran out. -/
def loadDicts (load : String → Except String (Option DictDoc)) :
    Nat → List String → List String → List (String × List String) →
    Option (Except String (List String × List (String × List String)))
  | 0, _, _, _ => none
  | _ + 1, [], visited, out => some (.ok (visited, out))
  | fuel + 1, key :: queue, visited, out =>
    if key ∈ visited then loadDicts load fuel queue visited out
    else match load key with
      | .error e => some (.error ("failed to load imported policy '" ++ key ++ "': " ++ e))
      | .ok none => loadDicts load fuel queue (key :: visited) out
      | .ok (some d) => loadDicts load fuel (d.imports.reverse ++ queue) (key :: visited) (addDicts out d.dicts)

end Zen
