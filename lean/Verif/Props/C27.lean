import Verif.Engine.TableDemo
/-
C27: collect tables, and first-hit tables with collect columns (`path[]`).
-/
namespace Zen
section
variable (F : FrontEnd) (B : Builtins)

/-- A collect table returns an array with the outputs of exactly the rows that fire, in row order. -/
theorem C27_collect {t : Table} (ht : Tidy F t) (hit : t.hit = .collect) (compiled trace : Bool)
    (scope : Scope) :
    ∃ vs, (runTable F B t compiled trace scope).output = .arr vs ∧ Collected F B scope t t.rules vs := by
  obtain ⟨vs, h1, h2, _⟩ := handleCollect_spec (B := B) ht
    (ix := if compiled then TableIx.build F t.inputs t.rules else none)
    (ixOf_or compiled) trace (EvOk.start (s := scope))
  unfold runTable handleTable
  rw [hit]
  exact ⟨vs, h1, h2⟩

/-- The trace lists exactly the rows that fire, in order. -/
theorem C27_trace_rows {t : Table} (ht : Tidy F t) (hit : t.hit = .collect) (compiled : Bool)
    (scope : Scope) :
    ∃ rows, (runTable F B t compiled true scope).trace = some (.collect rows) ∧
      rows.Pairwise (· < ·) ∧
      ∀ i, i ∈ rows ↔ ∃ rule v, t.rules[i]? = some rule ∧ Fires F B scope t rule v := by
  obtain ⟨vs, h1, h2, h3⟩ := handleCollect_spec (B := B) ht
    (ix := if compiled then TableIx.build F t.inputs t.rules else none)
    (ixOf_or compiled) true (EvOk.start (s := scope))
  unfold runTable handleTable
  rw [hit]
  exact h3 rfl

/-- `Collected` by position: the k-th output is that of the k-th firing row, nothing else appears. -/
theorem C27_collected_members {t : Table} {scope : Scope} {rules : List Rule} {vs : List Val}
    (h : Collected F B scope t rules vs) (v : Val) :
    v ∈ vs ↔ ∃ rule ∈ rules, Fires F B scope t rule v := by
  induction h with
  | nil => simp
  | hit hf _ ih =>
    rw [List.mem_cons, ih]
    constructor
    · rintro (rfl | ⟨r, h1, h2⟩)
      · exact ⟨_, List.mem_cons_self .., hf⟩
      · exact ⟨r, List.mem_cons_of_mem _ h1, h2⟩
    · rintro ⟨r, h1, h2⟩
      rcases List.mem_cons.1 h1 with rfl | h1
      · exact .inl (h2.unique hf)
      · exact .inr ⟨r, h1, h2⟩
  | miss hn _ ih =>
    rw [ih]
    constructor
    · rintro ⟨r, h1, h2⟩; exact ⟨r, List.mem_cons_of_mem _ h1, h2⟩
    · rintro ⟨r, h1, h2⟩
      rcases List.mem_cons.1 h1 with rfl | h1
      · exact absurd ⟨v, h2⟩ hn
      · exact ⟨r, h1, h2⟩

/-- A first-hit table with collect columns: scalar columns come from the first row that fires,
each collect column holds the values of that row and of the later matching rows; null when no row
fires. -/
theorem C27_first_hit_collect {t : Table} (ht : Tidy F t) (hit : t.hit = .first)
    (hc : ∃ o ∈ t.outputs, o.writePath.2 = true) (compiled trace : Bool) (scope : Scope) :
    ∃ fired, FiredRows F B scope t t.rules fired ∧
      (runTable F B t compiled trace scope).output = match fired with
        | [] => .null
        | r :: _ => writeCollected F B scope fired (collectCols t)
            (writeAll F B scope r (scalarCols t) (.obj [])) := by
  have hany : (t.outputs.any fun o => o.writePath.2) = true := by
    rw [List.any_eq_true]; exact hc
  have := handleFirstHitCollect_spec (B := B) ht
    (ix := if compiled then TableIx.build F t.inputs t.rules else none)
    (ixOf_or compiled) trace (EvOk.start (s := scope))
  unfold runTable handleTable
  rw [hit, hany]
  exact this

end
/-- rows 1, 3 and 4 match `x = "b"`, `y = "q"` -/
example : (runTable tableFront demoB (demoTable .collect "res.b") true false demoInput).output =
    .arr [.obj [("res", .obj [("a", .num 2), ("b", .num 1)])],
      .obj [("res", .obj [("a", .num 3), ("b", .num 3)])],
      .obj [("res", .obj [("a", .num 1), ("b", .num 3)])]] := rfl
example : (runTable tableFront demoB (demoTable .collect "res.b") true true demoInput).trace =
    some (.collect [1, 3, 4]) := rfl
/-- the second column collects -/
example : (runTable tableFront demoB (demoTable .first "all[]") true false demoInput).output =
    .obj [("res", .obj [("a", .num 2)]), ("all", .arr [.num 1, .num 3, .num 3])] := rfl
example : ∃ o ∈ (demoTable .first "all[]").outputs, o.writePath.2 = true := by decide

end Zen
