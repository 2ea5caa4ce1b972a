import Verif.Workspace.Model
/-
A small language for examples of histories. A policy is a list of imports and a number; the signature of a policy
is the list of the numbers of its component. A graph is a list of steps, each asking for a decision or for the type
of a function; its analysis is the list of what was answered, and its signature is that after a zero.
-/
namespace Zen.Ws.Toy
open Zen Zen.Ws

inductive Step where
  | decision (key : String)
  | function (source : Nat)

def sigOf : Res (List Nat) → List Nat
  | .found l => l
  | .recursive => [99]
  | .missing => [98]

def fnOf : Option Nat → List Nat
  | some n => [n]
  | none => [97]

def progOf : List Step → List Nat → Prog (List Nat) Nat PUnit Nat (List Nat)
  | [], acc => .ret acc
  | .decision key :: l, acc => .sig key fun r => progOf l (acc ++ sigOf r)
  | .function s :: l, acc => .fn s ⟨⟩ fun o => progOf l (acc ++ fnOf o)

def lang : Lang where
  PolDoc := List String × Nat
  GraphDoc := List String × List Step
  Parsed := List String × Nat
  Scope := PUnit
  Shallow := Nat
  Unit := List Nat
  Enriched := List Nat
  Dict := Nat
  Sig := List Nat
  Ana := List Nat
  Diag := List Nat
  Source := Nat
  Ty := PUnit
  Key := Nat
  Stamp := Option Nat
  Fn := Nat
  decKey := inferInstance
  decStamp := inferInstance
  parse := fun _ p => p
  imports := fun p => p.1
  dicts := fun p => [("d", p.2)]
  scope := fun _ => ⟨⟩
  shallow := fun _ _ p => p.2
  unit := fun _ _ l => l.map Prod.snd
  enrich := fun u _ _ => u
  polSig := fun u _ _ => u
  polDiag := fun _ _ _ _ u _ _ => u
  gimports := fun g => g.1
  prog := fun _ g ds _ => progOf g.2 (ds.map Prod.snd)
  anaSig := fun a => 0 :: a
  anaDiag := fun a => a
  noDiag := []
  fkey := fun s _ => s
  stamp := fun o => o

/-- a policy document; its address is its number -/
def pol (addr : Nat) (imports : List String) (n : Nat) : Ptr (Content lang) := ⟨addr, .policy ⟨addr, (imports, n)⟩⟩

/-- a graph document -/
def gr (addr : Nat) (l : List Step) : Ptr (Content lang) := ⟨addr, .graph ([], l)⟩

/-- a graph document with imports -/
def grI (addr : Nat) (imports : List String) (l : List Step) : Ptr (Content lang) := ⟨addr, .graph (imports, l)⟩

/-- what is said about a graph -/
def ask (ops : List (Op lang)) (path : String) : Option (List Nat) := match (answer (run {} ops) (.graph path)).1 with
  | .graph a => a
  | _ => none

end Zen.Ws.Toy
