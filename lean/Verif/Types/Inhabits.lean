import Verif.Types.VLemmas
/-
What it means for a value to have a type (not in the code, which only compares types), and the inference of a
type from a JSON value.
-/
namespace Zen
namespace VT

mutual
/-- `v` has type `t`. Objects may have further fields; a missing field reads as null. -/
def Inh : VT → Val → Prop
  | .any, _ => True
  | .null, v => v = .null
  | .bool, v => ∃ b, v = .bool b
  | .string, v => ∃ s, v = .str s
  | .number, v => ∃ n, v = .num n
  | .date, v => (∃ s, v = .str s) ∨ (∃ n, v = .num n) ∨ ∃ d, v = .dyn (.date d)
  | .interval, v => ∃ lb rb l r, v = .dyn (.interval lb rb l r)
  | .arr t, v => ∃ xs, v = .arr xs ∧ ∀ x ∈ xs, Inh t x
  | .obj o, v => ∃ fs, v = .obj fs ∧ InhFields fs o
  | .const c, v => v = .str c
  | .enum _ vs, v => ∃ s ∈ vs, v = .str s
  | .nullable t, v => v = .null ∨ Inh t v
def InhFields (fs : List (String × Val)) : List (String × VT) → Prop
  | [] => True
  | (k, t) :: r => Inh t ((aGet fs k).getD .null) ∧ InhFields fs r
end

theorem inhFields_iff (fs : List (String × Val)) (o : List (String × VT)) :
    InhFields fs o ↔ ∀ k t, (k, t) ∈ o → Inh t ((aGet fs k).getD .null) := by
  induction o with
  | nil => simp [InhFields]
  | cons kv r ih =>
    obtain ⟨k, t⟩ := kv
    rw [InhFields, ih]
    constructor
    · rintro ⟨h, h'⟩ k' t' hm
      rcases List.mem_cons.1 hm with e | hm
      · cases e; exact h
      · exact h' k' t' hm
    · exact fun h => ⟨h k t List.mem_cons_self, fun k' t' hm => h k' t' (List.mem_cons_of_mem _ hm)⟩

mutual
/-- `From<Cow<Value>>` (core/types/src/variable_type/conv.rs:8-35), with no sharing between the inferred parts.
Dynamic values do not occur in JSON. -/
def infer : Val → VT
  | .null => .null
  | .bool _ => .bool
  | .num _ => .number
  | .str _ => .string
  | .arr [] => .arr .any
  | .arr (x :: xs) => .arr (inferRest (infer x) xs)
  | .obj o => .obj (inferFields o)
  | .dyn _ => .any
/-- the fold over the remaining elements (conv.rs:49-64) -/
def inferRest (acc : VT) : List Val → VT
  | [] => acc
  | x :: xs => inferRest (merge (fun _ _ => false) acc (infer x)) xs
/-- the fields (conv.rs:27-31) -/
def inferFields : List (String × Val) → List (String × VT)
  | [] => []
  | (k, v) :: r => (k, infer v) :: inferFields r
end

end VT
end Zen
