import Verif.Props.C29
import Verif.Engine.Engine
/-
C50: input and output nodes. `E.schema s v` is the validator (library).
-/
namespace Zen

/-- Without schema the input is returned. -/
theorem C50_no_schema (E : Env) (sub : String → Val → Option Val → Except String Val) (id name : String) (v : Val) (nodes : Option Val) :
    handleNode E sub ⟨id, name, .input none⟩ v nodes = .ok v ∧ handleNode E sub ⟨id, name, .output none⟩ v nodes = .ok v :=
  ⟨rfl, rfl⟩

/-- With a schema: the unchanged input when the validator accepts it, the error of the validator when not;
nothing else. -/
theorem C50_schema (E : Env) (sub : String → Val → Option Val → Except String Val) (id name : String) (s : String) (v : Val) (nodes : Option Val) :
    (E.schema s v = .ok () → handleNode E sub ⟨id, name, .input (some s)⟩ v nodes = .ok v ∧
      handleNode E sub ⟨id, name, .output (some s)⟩ v nodes = .ok v) ∧
    (∀ m, E.schema s v = .error m → handleNode E sub ⟨id, name, .input (some s)⟩ v nodes = .error m ∧
      handleNode E sub ⟨id, name, .output (some s)⟩ v nodes = .error m) := by
  refine ⟨fun h => ?_, fun m h => ?_⟩ <;> simp [handleNode, checked, h]

/-- What an output node returns has passed its schema. -/
theorem C50_output_valid (E : Env) (sub : String → Val → Option Val → Except String Val) (id name : String) (s : String) (v w : Val)
    (nodes : Option Val) (h : handleNode E sub ⟨id, name, .output (some s)⟩ v nodes = .ok w) : w = v ∧ E.schema s w = .ok () := by
  cases hs : E.schema s v with
  | error m => rw [((C50_schema E sub id name s v nodes).2 m hs).2] at h; cases h
  | ok u => rw [((C50_schema E sub id name s v nodes).1 hs).2] at h; injection h with h; subst h; exact ⟨rfl, hs⟩

/-- In an evaluation that succeeds, the context has passed the schema of the input node, whenever that node
was handled, and it is what the node returned. -/
theorem C50_context_valid (E : Env) (sub : String → Val → Option Val → Except String Val) {nodes : List GNode} {docs : List EdgeDoc} {g : Graph}
    {maxDepth iteration fuel : Nat} {ctx : Val} {parent : Option Val} {r : Walked} (hb : buildGraph nodes docs = .ok g)
    (he : evalGraph (E.cfg sub) maxDepth iteration ctx parent fuel g = some (.ok r)) {h : Handled} (hh : h ∈ r.log) {x : GNode} {s : String}
    (hx : g.node? h.node = some x) (hk : x.kind = .input (some s)) : E.schema s ctx = .ok () ∧ h.output = ctx := by
  obtain ⟨pre, post, hl⟩ := List.append_of_mem hh
  obtain ⟨y, hy, h1, _⟩ := C29_data_flow hb he hl
  rw [hx] at hy; injection hy with hy; subst hy
  obtain ⟨_, h2⟩ := h1 (by rw [hk]; rfl)
  have h3 : handleNode E sub x ctx (nodesAfter (E.cfg sub) g parent pre) = .ok h.output := h2
  simp only [handleNode, hk, checked] at h3
  cases hs : E.schema s ctx with
  | error m => rw [hs] at h3; cases h3
  | ok u => rw [hs] at h3; injection h3 with h3; exact ⟨rfl, h3.symm⟩

/-! ## Instance -/

/-- a validator that accepts objects -/
def objEnv : Env where
  F := fun _ _ => .error .valueCast
  B := demoB
  schema := fun _ v => match v with | .obj _ => .ok () | _ => .error "not an object"
  loader := fun _ => .error ""
  foreign := fun _ v _ => .ok v
  nodesInContext := true
  ord := id
  compiled := true
  trace := false

example : handleNode objEnv (fun _ _ _ => .error "") ⟨"i", "i", .input (some "s")⟩ (.num 1) none = .error "not an object" ∧
    handleNode objEnv (fun _ _ _ => .error "") ⟨"i", "i", .input (some "s")⟩ (.obj []) none = .ok (.obj []) := ⟨rfl, rfl⟩

example : seen (evalGraph (objEnv.cfg fun _ _ _ => .error "") 5 0 (.obj []) none 20
    ⟨[(0, ⟨"i", "i", .input (some "s")⟩), (1, ⟨"o", "o", .output none⟩)], [⟨0, 0, 1, none⟩]⟩) = some ([0, 1], [], true) := by
  decide +kernel

example : (evalGraph (objEnv.cfg fun _ _ _ => .error "") 5 0 (.num 1) none 20
    ⟨[(0, ⟨"i", "i", .input (some "s")⟩), (1, ⟨"o", "o", .output none⟩)], [⟨0, 0, 1, none⟩]⟩).map
      (fun r => match r with | .error e => some e | .ok _ => none) = some (some (.node "i" "not an object")) := by
  decide +kernel

end Zen
