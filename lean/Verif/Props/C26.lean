import Verif.Engine.TableDemo
/-
C26: first-hit tables. `Verif/Engine/TableSpec.lean` says when a row fires; `Tidy` says that `$` is
used only inside the unary tests of cells.
-/
namespace Zen
section
variable (F : FrontEnd) (B : Builtins)

/-- A first-hit table returns the output of the first row that fires, and null if no row fires. -/
theorem C26_first_hit {t : Table} (ht : Tidy F t) (hit : t.hit = .first)
    (hc : ∀ o ∈ t.outputs, o.writePath.2 = false) (compiled trace : Bool) (scope : Scope) :
    (∃ (i : Nat) (rule : Rule), t.rules[i]? = some rule ∧
      Fires F B scope t rule (runTable F B t compiled trace scope).output ∧
      ∀ j, j < i → ∀ r, t.rules[j]? = some r → ¬ ∃ w, Fires F B scope t r w) ∨
    ((runTable F B t compiled trace scope).output = .null ∧
      ∀ r ∈ t.rules, ¬ ∃ w, Fires F B scope t r w) := by
  have hne : (t.outputs.any fun o => o.writePath.2) = false := by
    rw [List.any_eq_false]; intro o ho; simp [hc o ho]
  have := handleFirstHit_spec (B := B) ht
    (ix := if compiled then TableIx.build F t.inputs t.rules else none)
    (ixOf_or compiled) trace (EvOk.start (s := scope))
  unfold runTable handleTable
  rw [hit, hne]
  exact this.1

/-- The trace, when there is one, names that row. -/
theorem C26_trace_row {t : Table} (ht : Tidy F t) (hit : t.hit = .first)
    (hc : ∀ o ∈ t.outputs, o.writePath.2 = false) (compiled : Bool) (scope : Scope) :
    match (runTable F B t compiled true scope).trace with
    | some (.firstHit i) => ∃ rule, t.rules[i]? = some rule ∧
        Fires F B scope t rule (runTable F B t compiled true scope).output ∧
        ∀ j, j < i → ∀ r, t.rules[j]? = some r → ¬ ∃ w, Fires F B scope t r w
    | some (.collect _) => False
    | none => ∀ r ∈ t.rules, ¬ ∃ w, Fires F B scope t r w := by
  have hne : (t.outputs.any fun o => o.writePath.2) = false := by
    rw [List.any_eq_false]; intro o ho; simp [hc o ho]
  obtain ⟨h1, h2⟩ := handleFirstHit_spec (B := B) ht
    (ix := if compiled then TableIx.build F t.inputs t.rules else none)
    (ixOf_or compiled) true (EvOk.start (s := scope))
  have h3 : (runTable F B t compiled true scope) = handleFirstHit F B t
      (if compiled then TableIx.build F t.inputs t.rules else none) true { scope := scope } := by
    unfold runTable handleTable
    rw [hit, hne]; rfl
  rw [h3]
  cases htr : (handleFirstHit F B t (if compiled then TableIx.build F t.inputs t.rules else none)
    true { scope := scope }).trace with
  | some r =>
    obtain ⟨i, rule, rfl, h4⟩ := h2 r htr
    exact ⟨rule, h4⟩
  | none =>
    dsimp only
    have := firstRow_spec (B := B) ht (pruneOk_none (s := scope) t) t.rules 0 { scope := scope } (by simp) EvOk.start
    unfold handleFirstHit at htr
    simp only [Bool.not_true, Bool.false_eq_true, if_false] at htr
    cases hf : firstRow F B t (fun _ => false) (fun _ _ => false) 0 t.rules { scope := scope } with
    | none => exact this.2 hf
    | some r => rw [hf] at htr; cases htr

/-- A row with one output per path: reading the path of an output column gives the value of its
cell (`res.a` and `res.b` do not disturb each other, see C04). -/
theorem C26_two_outputs {t : Table} {rule : Rule} {scope : Scope} {v x y : Val} {o₁ o₂ : TOutput}
    (ho : t.outputs = [o₁, o₂]) (hp₁ : o₁.writePath.1 ≠ "") (hp₂ : o₂.writePath.1 ≠ "")
    (h₁ : cellVal F B scope rule o₁ = some x) (h₂ : cellVal F B scope rule o₂ = some y)
    (h : Fires F B scope t rule v) :
    v = (((Val.obj []).dotInsert o₁.writePath.1 x).1.dotInsert o₂.writePath.1 y).1 := by
  rw [h.2.2, ho]
  simp [writeAll, hp₁, hp₂, h₁, h₂]

end
/-- row 1 (the second) is the first hit for `x = "b"`, `y = "q"` -/
example : (runTable tableFront demoB (demoTable .first "res.b") true false demoInput).output =
    .obj [("res", .obj [("a", .num 2), ("b", .num 1)])] := rfl
example : (runTable tableFront demoB (demoTable .first "res.b") true true demoInput).trace =
    some (.firstHit 1) := rfl
example : ∀ o ∈ (demoTable .first "res.b").outputs, o.writePath.2 = false := by decide

end Zen
