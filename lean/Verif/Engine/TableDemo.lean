import Verif.Engine.TableHandlers
import Verif.Props.C09
/- Concrete tables used in the instances beside the theorems. -/
namespace Zen

/-- a front end for the demonstration tables: the unary source `k` is `$ == "k"`, the standard
source `k` is the identifier `k` -/
def tableFront : FrontEnd := fun k s => match k with
  | .unary => .ok (.binary (.cmp .eq) (.ident "$") (.str s))
  | .standard => .ok (.ident s)

/-- nine rows, two input columns `x`, `y`, two output columns -/
def demoTable (hit : HitPolicy) (out2 : String) : Table where
  rules := [[("c1", "a"), ("c2", "p"), ("o1", "u"), ("o2", "v")],
    [("c1", "b"), ("o1", "v"), ("o2", "u")],
    [("c1", "b"), ("c2", "p"), ("o1", "v")],
    [("c1", "b"), ("c2", "q"), ("o1", "w"), ("o2", "w")],
    [("c2", "q"), ("o1", "u"), ("o2", "w")],
    [("c1", "c"), ("c2", "q"), ("o1", "u")],
    [("c1", "c"), ("c2", "r"), ("o1", "u")],
    [("c1", "d"), ("c2", "r"), ("o1", "u")],
    [("c1", "d"), ("o1", "u")]]
  inputs := [⟨"c1", some "x"⟩, ⟨"c2", some "y"⟩]
  outputs := [⟨"o1", "res.a"⟩, ⟨"o2", out2⟩]
  hit := hit

def demoInput : Scope where
  base := .obj [("x", .str "b"), ("y", .str "q"), ("u", .num 1), ("v", .num 2), ("w", .num 3)]

theorem demoTable_tidy (hit : HitPolicy) (out2 : String) : Tidy tableFront (demoTable hit out2) := by
  have key : ∀ s, s ≠ "$" → NoDollar tableFront s := by
    intro s hs n hn
    cases hn
    exact ⟨trivial, by simpa [Avoids] using hs⟩
  refine ⟨?_, ?_, ?_⟩
  · intro inp hi f hf
    simp only [demoTable, List.mem_cons, List.not_mem_nil, or_false] at hi
    rcases hi with rfl | rfl <;> cases hf <;> exact key _ (by decide)
  · intro rule _ inp hi hf
    simp only [demoTable, List.mem_cons, List.not_mem_nil, or_false] at hi
    rcases hi with rfl | rfl <;> cases hf
  · intro rule hr o ho cell hc
    refine key _ fun he => ?_
    subst he
    have h1 : o.id = "o1" ∨ o.id = "o2" := by
      simp only [demoTable, List.mem_cons, List.not_mem_nil, or_false] at ho
      rcases ho with rfl | rfl
      · exact .inl rfl
      · exact .inr rfl
    have : ∀ rule ∈ (demoTable hit out2).rules, cellOf rule "o1" ≠ some "$" ∧ cellOf rule "o2" ≠ some "$" := by
      simp only [demoTable]
      decide
    rcases h1 with h1 | h1 <;> rw [h1] at hc
    · exact (this rule hr).1 hc
    · exact (this rule hr).2 hc

/-- the index is on and covers both columns -/
example : ∃ c1 c2, TableIx.build tableFront (demoTable .first "o").inputs (demoTable .first "o").rules =
    some [some c1, some c2] := ⟨_, _, rfl⟩

end Zen
