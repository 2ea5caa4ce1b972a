import Verif.Core.MapLemmas
/-
C01  Objects behave as finite maps at every size.
Specification: `SpecMap` (Verif/Core/MapSpec.lean): a partial function with the obvious operations.
-/
namespace Zen

/-- Whatever capacity hint the object was created with and whatever operations were applied,
the answers given along the way and the final content are those of the abstract map. -/
theorem C01_object_is_finite_map {V : Type u} (cap : Nat) (ops : List (MOp V)) :
    ((VMap.withCapacity cap).run ops).2 = (SpecMap.run (fun _ => none) ops).2 ∧
    ∀ k, ((VMap.withCapacity cap).run ops).1.get k = (SpecMap.run (fun _ => none) ops).1 k := by
  obtain ⟨_, g, o⟩ := VMap.run_refines (VMap.wf_withCapacity (V := V) cap) ops
  rw [VMap.get_withCapacity] at g o
  exact ⟨o, fun k => congrFun g k⟩

/-- Iterating the object (in whatever order the hash table chooses) lists each key of the abstract
map exactly once with its value, and `len` is the number of keys. -/
theorem C01_iteration_and_length {V : Type u} (cap : Nat) (ops : List (MOp V))
    (ord : List (String × V) → List (String × V)) (hord : ∀ l, (ord l).Perm l) :
    let m := ((VMap.withCapacity cap).run ops).1
    ((m.iter ord).map Prod.fst).Nodup ∧
    (∀ k v, (k, v) ∈ m.iter ord ↔ (SpecMap.run (fun _ => none) ops).1 k = some v) ∧
    m.len = (m.iter ord).length := by
  intro m
  obtain ⟨w, g, _⟩ := VMap.run_refines (VMap.wf_withCapacity (V := V) cap) ops
  rw [VMap.get_withCapacity] at g
  have hp : (m.iter ord).Perm m.entries := by
    cases hm : m with
    | small e => exact List.Perm.refl _
    | large t => exact hord t
  refine ⟨?_, fun k v => ?_, ?_⟩
  · exact ((hp.map Prod.fst).nodup_iff).2 w
  · rw [hp.mem_iff, mem_iff_aGet w, ← VMap.get_eq, g]
  · rw [VMap.len_eq, hp.length_eq]

/-- The same refinement from any object reached earlier, so it composes over histories. -/
theorem C01_continues {V : Type u} (cap : Nat) (ops₁ ops₂ : List (MOp V)) :
    let m := ((VMap.withCapacity cap).run ops₁).1
    (m.run ops₂).2 = (SpecMap.run m.get ops₂).2 ∧ (m.run ops₂).1.get = (SpecMap.run m.get ops₂).1 := by
  intro m
  have w := (VMap.run_refines (VMap.wf_withCapacity (V := V) cap) ops₁).1
  obtain ⟨_, g, o⟩ := VMap.run_refines w ops₂
  exact ⟨o, g⟩

/-- Crossing the threshold really happens in the model: 33 distinct inserts end in a hash table. -/
example : (match ((VMap.withCapacity 0).run
    ((List.range 33).map fun i => MOp.insert (toString i) i)).1 with
    | .large t => t.length | .small _ => 0) = 33 := by decide +kernel

end Zen
