import Verif.Engine.Graph
/-
The vocabulary in which the properties of graph evaluation are stated: which edges the switches
decided against, what can be reached along the others, what a node is fed.
-/
namespace Zen

/-- a switch decided against the edge: it was traced, and its chosen statements do not include the
handle the edge hangs on -/
def against (tr : List SwitchTrace) (e : GEdge) : Bool :=
  tr.any fun t => t.node = e.src && decide (e.handle ∉ t.valid.map some)

/-- the node can be reached from one satisfying `start` along edges of the document that no switch
decided against -/
inductive Follows (g : Graph) (tr : List SwitchTrace) (start : Nat → Prop) : Nat → Prop
  | start {n : Nat} : start n → Follows g tr start n
  | edge {e : GEdge} : e ∈ g.edges → against tr e = false → Follows g tr start e.src →
      Follows g tr start e.tgt

/-- a node of the document that no edge enters -/
def IsSource (g : Graph) (n : Nat) : Prop := n ∈ g.nodes.map Prod.fst ∧ ∀ e ∈ g.edges, e.tgt ≠ n

/-- a node of the document that is an input node -/
def IsInput (g : Graph) (n : Nat) : Prop := ∃ x ∈ g.nodes, x.1 = n ∧ x.2.kind.isInput = true

/-- the output a node has in a list of handled nodes -/
def outputIn (log : List Handled) (n : Nat) : Option Val :=
  (log.find? (·.node = n)).map Handled.output

/-- what the edges into a node bring: the outputs of the nodes handled before, over the edges no
switch decided against, the latest edge of the document first -/
def fedBy (g : Graph) (tr : List SwitchTrace) (before : List Handled) (n : Nat) : List Val :=
  ((g.edges.reverse.filter fun e => e.tgt = n && !against tr e).filterMap fun e => outputIn before e.src)

/-- number of switch nodes -/
def switchCount (g : Graph) : Nat := (g.nodes.filter (·.2.kind.isSwitch)).length

/-- a path along edges, of at least one edge -/
inductive Path (es : List GEdge) : Nat → Nat → Prop
  | one {e : GEdge} : e ∈ es → Path es e.src e.tgt
  | snoc {a : Nat} {e : GEdge} : Path es a e.src → e ∈ es → Path es a e.tgt

/-- a path that returns to its start -/
def HasCycle (g : Graph) : Prop := ∃ n, Path g.edges n n

end Zen

namespace Zen
/-- a decided switch that leads nowhere: whatever edge it kept leads to a decided switch that leads
nowhere -/
inductive DeadEnd (g : Graph) (tr : List SwitchTrace) : Nat → Prop
  | mk {n : Nat} : n ∈ tr.map SwitchTrace.node →
      (∀ e ∈ g.edges, e.src = n → against tr e = false → DeadEnd g tr e.tgt) → DeadEnd g tr n

/-- a statement of a switch is satisfied: it has no condition, or its condition, run from scratch
with the input of the switch as environment and `$nodes` set if it is offered, yields `true` -/
def Satisfied (C : GCfg) (t : SwitchTrace) (s : Stmt) : Prop :=
  s.condition = "" ∨
  freshRun C.F C.B ⟨t.input, (match t.nodes with | some v => [("$nodes", v)] | none => [])⟩ .standard s.condition
    = .ok (.bool true)
end Zen
