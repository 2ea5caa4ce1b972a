import Verif.Core.VMap
/-
Specification of an object: a partial function from keys to values, and nothing else.
-/
namespace Zen

/-- The abstract object. -/
abbrev SpecMap (V : Type u) := String → Option V

namespace SpecMap
variable {V : Type u}
def set (s : SpecMap V) (k : String) (v : Option V) : SpecMap V := fun k' => if k' = k then v else s k'

/-- Meaning of each operation on the abstract object. -/
def step (s : SpecMap V) : MOp V → SpecMap V × MOut V
  | .insert k v => (s.set k (some v), .old (s k))
  | .remove k => (s.set k none, .old (s k))
  | .entry k d f => (s.set k (some (f ((s k).getD d))), .unit)
  | .extend xs => (xs.foldl (fun s kv => s.set kv.1 (some kv.2)) s, .unit)
  | .clear => (fun _ => none, .unit)

def run (s : SpecMap V) : List (MOp V) → SpecMap V × List (MOut V)
  | [] => (s, [])
  | op :: r => let q := s.step op; let t := run q.1 r; (t.1, q.2 :: t.2)
end SpecMap
end Zen
