import Verif.Types.TsType
import Verif.Engine.SchemaDict
/-
The types that graphs read from JSON schemas, and the reports about schemas
(core/engine/src/workspace/graph/schema.rs).  A schema is a value.
-/
namespace Zen.Sch
open Zen VT Zen.Ts

set_option linter.unusedVariables false

/-- `Value::as_str` -/
def asStr : Val → Option String
  | .str s => some s
  | _ => none

/-- `Value::as_array` -/
def asArr : Val → Option (List Val)
  | .arr xs => some xs
  | _ => none

/-- `Value::as_object` -/
def asObj : Val → Option (List (String × Val))
  | .obj m => some m
  | _ => none

/-- the cases of `anyOf`, or of `oneOf` where there is no `anyOf` (schema.rs:29-33, 112-116) -/
def casesOf (m : List (String × Val)) : Option (List Val) :=
  (match aGet m "anyOf" with
    | some v => some v
    | none => aGet m "oneOf").bind asArr

/-- `required` (schema.rs:87-91, 217-221) -/
def requiredOf (m : List (String × Val)) : List String :=
  (((aGet m "required").bind asArr).map fun l => l.filterMap asStr).getD []

/-- the strings of `enum` when there are strings only (schema.rs:41-50) -/
def enumOf (m : List (String × Val)) : Option (List String) :=
  match (aGet m "enum").bind asArr with
  | some vs =>
    let strings := vs.filterMap asStr
    if strings.length = vs.length && !strings.isEmpty then some strings else none
  | none => none

def propsOf (m : List (String × Val)) : Option (List (String × Val)) := (aGet m "properties").bind asObj

/-- `typed` (schema.rs:189-211); the types of the object and of the items are given -/
def typed (o i : VT) (m : List (String × Val)) (kind : String) : VT :=
  match kind with
  | "object" => o
  | "array" => .arr i
  | "string" => match (aGet m "format").bind asStr with
    | some "date" | some "date-time" => .date
    | _ => .string
  | "number" | "integer" => .number
  | "boolean" => .bool
  | "null" => .null
  | _ => .any

theorem size_get {m : List (String × Val)} {k : String} {v : Val} (h : aGet m k = some v) : sizeOf v < sizeOf m := by
  have := List.sizeOf_lt_of_mem (aGet_mem h)
  simp at this
  omega

theorem size_cases {m : List (String × Val)} {cs : List Val} (h : casesOf m = some cs) : sizeOf cs < sizeOf m := by
  unfold casesOf at h
  have hx : ∀ k, (aGet m k).bind asArr = some cs → sizeOf cs < sizeOf m := by
    intro k hk
    cases hg : aGet m k with
    | none => rw [hg] at hk; cases hk
    | some v =>
      rw [hg] at hk
      have := size_get hg
      cases v <;> simp only [Option.bind_some, asArr] at hk <;> cases hk
      simp at this
      omega
  split at h
  · rename_i v hv; exact hx "anyOf" (by rw [hv]; exact h)
  · exact hx "oneOf" h

theorem size_props {m ps : List (String × Val)} (h : propsOf m = some ps) : sizeOf ps < sizeOf m := by
  unfold propsOf at h
  cases hg : aGet m "properties" with
  | none => rw [hg] at h; cases h
  | some v =>
    rw [hg] at h
    have := size_get hg
    cases v <;> simp only [Option.bind_some, asObj] at h <;> cases h
    simp at this
    omega

mutual
/-- `variable_type_with` (schema.rs:14-62); `D` gives the types of dictionaries, `same` is as for
`merge` -/
def typeWith (same : VT → VT → Bool) (D : String → Option VT) : Val → VT
  | .obj m => match (aGet m "$dictionary").bind asStr with
    | some name => (D name).getD .any
    | none => match h : casesOf m with
      | some cs => mergeAll same (typeCases same D cs)
      | none => match enumOf m with
        | some vs => .enum none vs
        | none => match aGet m "type" with
          | some (.str kind) => typed (objectType same D m) (itemType same D m) m kind
          | some (.arr kinds) =>
            mergeAll same ((kinds.filterMap asStr).map (typed (objectType same D m) (itemType same D m) m))
          | _ => .any
  | _ => .any
termination_by s => (sizeOf s, 0)
decreasing_by
  all_goals first
    | (have := size_cases h; simp only [Val.obj.sizeOf_spec]; exact Prod.Lex.left _ _ (by omega))
    | (simp only [Val.obj.sizeOf_spec]; exact Prod.Lex.left _ _ (by omega))
/-- the types of the cases (schema.rs:34-36) -/
def typeCases (same : VT → VT → Bool) (D : String → Option VT) : List Val → List VT
  | [] => []
  | c :: cs => typeWith same D c :: typeCases same D cs
termination_by cs => (sizeOf cs, 0)
decreasing_by
  all_goals (simp only [List.cons.sizeOf_spec]; exact Prod.Lex.left _ _ (by omega))
/-- the type of the items (schema.rs:196-201) -/
def itemType (same : VT → VT → Bool) (D : String → Option VT) (m : List (String × Val)) : VT :=
  match h : aGet m "items" with
  | some items => typeWith same D items
  | none => .any
termination_by (sizeOf m, 1)
decreasing_by (have := size_get h; exact Prod.Lex.left _ _ (by omega))
/-- `object_type` (schema.rs:213-232) -/
def objectType (same : VT → VT → Bool) (D : String → Option VT) (m : List (String × Val)) : VT :=
  match h : propsOf m with
  | some ps => .obj (fieldTypes same D (requiredOf m) [] ps)
  | none => .any
termination_by (sizeOf m, 1)
decreasing_by (have := size_props h; exact Prod.Lex.left _ _ (by omega))
/-- the loop over the properties (schema.rs:224-230) -/
def fieldTypes (same : VT → VT → Bool) (D : String → Option VT) (req : List String) (fields : List (String × VT)) :
    List (String × Val) → List (String × VT)
  | [] => fields
  | (k, s) :: ps =>
    fieldTypes same D req (aSet fields k (if k ∈ req then typeWith same D s else wrapOptional (typeWith same D s))) ps
termination_by ps => (sizeOf ps, 0)
decreasing_by
  all_goals (simp only [List.cons.sizeOf_spec, Prod.mk.sizeOf_spec]; exact Prod.Lex.left _ _ (by omega))
end

/-! ## Reports about schemas -/

mutual
/-- `admits_null` (schema.rs:105-130) -/
def admitsNull : Val → Bool
  | .obj m =>
    if (aGet m "$dictionary").isSome then false
    else match h : casesOf m with
      | some cs => admitsAny cs
      | none => match (aGet m "enum").bind asArr with
        | some vs => vs.any Val.isNull
        | none => match aGet m "type" with
          | some (.str kind) => kind == "null"
          | some (.arr kinds) => (kinds.filterMap asStr).any (· == "null")
          | _ => true
  | _ => true
termination_by s => sizeOf s
decreasing_by (have := size_cases h; simp only [Val.obj.sizeOf_spec]; omega)
def admitsAny : List Val → Bool
  | [] => false
  | c :: cs => admitsNull c || admitsAny cs
termination_by cs => sizeOf cs
end

/-- the path of the items (schema.rs:77-81, 151-155) -/
def itemPath (path : String) : String := if path = "" then "[]" else path ++ "[]"

/-- the path of a property (schema.rs:93-97, 160-164) -/
def propPath (path name : String) : String := if path = "" then name else path ++ "." ++ name

mutual
/-- `collect_divergences` (schema.rs:72-103): what is added to `out` -/
def divergences : Val → String → List String
  | .obj m, path =>
    (match h : aGet m "items" with
      | some items => divergences items (itemPath path)
      | none => []) ++
    (match h : propsOf m with
      | some ps => divergeProps (requiredOf m) path ps
      | none => [])
  | _, _ => []
termination_by s => sizeOf s
decreasing_by
  · have := size_get h; simp only [Val.obj.sizeOf_spec]; omega
  · have := size_props h; simp only [Val.obj.sizeOf_spec]; omega
def divergeProps (req : List String) (path : String) : List (String × Val) → List String
  | [] => []
  | (k, s) :: ps =>
    (if k ∉ req ∧ admitsNull s = false then [propPath path k] else []) ++ divergences s (propPath path k) ++
      divergeProps req path ps
termination_by ps => sizeOf ps
end

/-- an `enum` of strings only, at least two (schema.rs:143-147) -/
def inlineEnum (m : List (String × Val)) : Bool :=
  match (aGet m "enum").bind asArr with
  | some vs => decide ((vs.filter fun v => (asStr v).isSome).length = vs.length) && decide (2 ≤ vs.length)
  | none => false

mutual
/-- `collect_inline_enums` (schema.rs:138-168): what is added to `out` -/
def inlineEnums : Val → String → List String
  | .obj m, path =>
    (if (aGet m "$dictionary").isNone && path != "" && inlineEnum m then [path] else []) ++
    (match h : aGet m "items" with
      | some items => inlineEnums items (itemPath path)
      | none => []) ++
    (match h : propsOf m with
      | some ps => inlineProps path ps
      | none => [])
  | _, _ => []
termination_by s => sizeOf s
decreasing_by
  · have := size_get h; simp only [Val.obj.sizeOf_spec]; omega
  · have := size_props h; simp only [Val.obj.sizeOf_spec]; omega
def inlineProps (path : String) : List (String × Val) → List String
  | [] => []
  | (k, s) :: ps => inlineEnums s (propPath path k) ++ inlineProps path ps
termination_by ps => sizeOf ps
end

mutual
/-- `dictionary_names` (schema.rs:170-187): what is added to `out` -/
def dictionaryNames : Val → List String
  | .obj m => ((aGet m "$dictionary").bind asStr).toList ++ namesE m
  | .arr xs => namesL xs
  | _ => []
def namesL : List Val → List String
  | [] => []
  | x :: xs => dictionaryNames x ++ namesL xs
def namesE : List (String × Val) → List String
  | [] => []
  | (_, x) :: m => dictionaryNames x ++ namesE m
end

end Zen.Sch
