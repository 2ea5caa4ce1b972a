import Verif.Engine.GraphEval
import Verif.Engine.TableDemo
/- A concrete graph used in the instances beside the theorems of C29, C30, C31:
   in → sw, sw –s1→ x → join, sw –s2→ y → join, in → join -/
namespace Zen

def demoNodes (hit : HitPolicy) : List GNode :=
  [⟨"in", "in", .input none⟩, ⟨"sw", "sw", .switch hit [⟨"s1", "a"⟩, ⟨"s2", "b"⟩, ⟨"s3", "b"⟩]⟩,
   ⟨"x", "x", .foreign "x"⟩, ⟨"y", "y", .foreign "y"⟩, ⟨"join", "join", .foreign "join"⟩]

def demoEdges : List EdgeDoc :=
  [⟨"in", "sw", none⟩, ⟨"sw", "x", some "s1"⟩, ⟨"sw", "y", some "s2"⟩, ⟨"x", "join", none⟩,
   ⟨"y", "join", none⟩, ⟨"in", "join", none⟩]

def demoGraph (hit : HitPolicy) : Graph where
  nodes := (demoNodes hit).zipIdx.map fun p => (p.2, p.1)
  edges := [⟨0, 0, 1, none⟩, ⟨1, 1, 2, some "s1"⟩, ⟨2, 1, 3, some "s2"⟩, ⟨3, 2, 4, none⟩, ⟨4, 3, 4, none⟩,
    ⟨5, 0, 4, none⟩]

theorem demoGraph_built (hit : HitPolicy) : buildGraph (demoNodes hit) demoEdges = .ok (demoGraph hit) := by
  rfl

/-- handlers: the input node returns its input, the others an object with their name -/
def demoCfg (B : Builtins) : GCfg where
  F := tableFront
  B := B
  handle := fun node input _ => match node.kind with
    | .input _ => .ok input
    | _ => .ok (.obj [(node.name, .bool true)])
  nodesInContext := false
  ord := id

/-- what an evaluation handled, in order, the decisions of its switches, and whether it ended at an
output node -/
def seen (x : Option (Except GErr Walked)) : Option (List Nat × List (Nat × List String) × Bool) :=
  match x with
  | some (.ok r) => some (r.log.map Handled.node, r.walker.strace.map (fun t => (t.node, t.valid)), r.atOutput)
  | _ => none

theorem seen_some {x : Option (Except GErr Walked)} {l tr b} (h : seen x = some (l, tr, b)) :
    ∃ r, x = some (.ok r) ∧ r.log.map Handled.node = l ∧
      r.walker.strace.map (fun t => (t.node, t.valid)) = tr ∧ r.atOutput = b := by
  unfold seen at h
  split at h
  · rename_i r
    injection h with h
    injection h with h1 h; injection h with h2 h3
    exact ⟨r, rfl, h1, h2, h3⟩
  · cases h

def demoCtx (a b : Bool) : Val := .obj [("a", .bool a), ("b", .bool b)]

def demoRun (hit : HitPolicy) (a b : Bool) : Option (Except GErr Walked) :=
  evalGraph (demoCfg demoB) 5 0 (demoCtx a b) none 40 (demoGraph hit)

end Zen
