import Verif.Engine.TableDemo
/-
C28: the row index never changes results. `compiled` says whether the graph was compiled (then
tables with enough rows get an index), `trace` whether tracing is on (then the index is not used).

As stated, for all tables, the property is false: `C28_dollar_leak`. It is proved for all tables in
which `$` occurs only inside unary tests (`Tidy`), the place where `$` is documented to stand for the
value of the column.
-/
namespace Zen
section
variable (F : FrontEnd) (B : Builtins)

/-- The result is the same with and without index, with and without trace. Missing: tables that
mention `$` outside unary tests. -/
theorem C28_index_invisible_partial {t : Table} (ht : Tidy F t) (compiled trace compiled' trace' : Bool)
    (scope : Scope) :
    (runTable F B t compiled trace scope).output = (runTable F B t compiled' trace' scope).output := by
  have key : ∀ compiled trace, TableSpec F B scope t (runTable F B t compiled trace scope).output :=
    fun compiled trace => handleTable_spec (B := B) ht
      (ix := if compiled then TableIx.build F t.inputs t.rules else none)
      (ixOf_or compiled) trace EvOk.start
  exact (key compiled trace).unique (key compiled' trace')

/-- The result is the meaning of the table, whatever the settings. -/
theorem C28_meaning_partial {t : Table} (ht : Tidy F t) (compiled trace : Bool) (scope : Scope) :
    TableSpec F B scope t (runTable F B t compiled trace scope).output :=
  handleTable_spec (B := B) ht
    (ix := if compiled then TableIx.build F t.inputs t.rules else none)
    (ixOf_or compiled) trace EvOk.start

theorem collected_none (t : Table) {scope : Scope} {extra : List Rule}
    (hn : ∀ r ∈ extra, ¬ RowHolds F B scope t r) : Collected F B scope t extra [] := by
  induction extra with
  | nil => exact .nil
  | cons r es ih =>
    exact .miss (fun ⟨w, hw⟩ => hn r (List.mem_cons_self ..) hw.1)
      (ih fun q hq => hn q (List.mem_cons_of_mem _ hq))

theorem later_none (t : Table) {scope : Scope} {extra : List Rule}
    (hn : ∀ r ∈ extra, ¬ RowHolds F B scope t r) : LaterRows F B scope t extra [] := by
  induction extra with
  | nil => exact .nil
  | cons r es ih =>
    exact .miss (fun hw => hn r (List.mem_cons_self ..) hw.1)
      (ih fun q hq => hn q (List.mem_cons_of_mem _ hq))

theorem fired_none (t : Table) {scope : Scope} {extra : List Rule}
    (hn : ∀ r ∈ extra, ¬ RowHolds F B scope t r) : FiredRows F B scope t extra [] := by
  induction extra with
  | nil => exact .nil
  | cons r es ih =>
    exact .miss (fun hw => hn r (List.mem_cons_self ..) hw.1)
      (ih fun q hq => hn q (List.mem_cons_of_mem _ hq))

variable {F B} in
theorem collected_append {t : Table} {x : List Rule} {scope : Scope} (extra : List Rule)
    (hn : ∀ r ∈ extra, ¬ RowHolds F B scope t r) {rs : List Rule} {vs : List Val}
    (h : Collected F B scope t rs vs) : Collected F B scope { t with rules := x } (rs ++ extra) vs := by
  induction h with
  | nil => exact collected_none F B { t with rules := x } hn
  | hit h1 _ ih => exact .hit h1 ih
  | miss h1 _ ih => exact .miss h1 ih

variable {F B} in
theorem later_append {t : Table} {x : List Rule} {scope : Scope} (extra : List Rule)
    (hn : ∀ r ∈ extra, ¬ RowHolds F B scope t r) {rs fs : List Rule}
    (h : LaterRows F B scope t rs fs) : LaterRows F B scope { t with rules := x } (rs ++ extra) fs := by
  induction h with
  | nil => exact later_none F B { t with rules := x } hn
  | hit h1 h2 _ ih => exact .hit h1 h2 ih
  | miss h1 _ ih => exact .miss h1 ih

variable {F B} in
theorem fired_append {t : Table} {x : List Rule} {scope : Scope} (extra : List Rule)
    (hn : ∀ r ∈ extra, ¬ RowHolds F B scope t r) {rs fs : List Rule}
    (h : FiredRows F B scope t rs fs) : FiredRows F B scope { t with rules := x } (rs ++ extra) fs := by
  induction h with
  | nil => exact fired_none F B { t with rules := x } hn
  | first h1 h2 h3 => exact .first h1 h2 (later_append extra hn h3)
  | miss h1 _ ih => exact .miss h1 ih

/-- Adding rows that never fire at the end (so that the index switches on) changes nothing. -/
theorem C28_adding_rows_partial {t : Table} (extra : List Rule)
    (ht : Tidy F { t with rules := t.rules ++ extra }) (compiled trace : Bool) (scope : Scope)
    (hn : ∀ r ∈ extra, ¬ RowHolds F B scope t r) :
    (runTable F B { t with rules := t.rules ++ extra } compiled trace scope).output =
      (runTable F B t compiled trace scope).output := by
  have ht' : Tidy F t := ⟨ht.fields,
    fun r hr => ht.conds r (List.mem_append_left _ hr), fun r hr => ht.outs r (List.mem_append_left _ hr)⟩
  have h1 := C28_meaning_partial F B ht compiled trace scope
  have h2 := C28_meaning_partial F B ht' compiled trace scope
  refine h1.unique ?_
  generalize (runTable F B t compiled trace scope).output = v at h2
  obtain ⟨rules, inputs, outputs, hit⟩ := t
  unfold TableSpec at h2 ⊢
  cases hit with
  | collect =>
    obtain ⟨vs, h3, h4⟩ := h2
    exact ⟨vs, h3, collected_append extra hn h4⟩
  | first =>
    dsimp only at h2 ⊢
    by_cases hc : (collectCols ⟨rules, inputs, outputs, .first⟩).isEmpty = true
    · rw [if_pos hc] at h2
      have hc' : (collectCols ⟨rules ++ extra, inputs, outputs, .first⟩).isEmpty = true := hc
      rw [if_pos hc']
      rcases h2 with ⟨i, r, h3, h4, h5⟩ | ⟨h3, h4⟩
      · have hlt : ∀ {j : Nat} {q : Rule}, rules[j]? = some q → j < rules.length := by
          intro j q h
          rcases Nat.lt_or_ge j rules.length with hl | hl
          · exact hl
          · rw [List.getElem?_eq_none hl] at h; cases h
        refine .inl ⟨i, r, ?_, h4, fun j hj q hq => h5 j hj q ?_⟩
        · dsimp only; rw [List.getElem?_append_left (hlt h3)]; exact h3
        · dsimp only at hq
          rw [List.getElem?_append_left (by have := hlt h3; omega)] at hq; exact hq
      · refine .inr ⟨h3, fun r hr => ?_⟩
        dsimp only at hr
        rcases List.mem_append.1 hr with hr | hr
        · exact h4 r hr
        · exact fun ⟨w, hw⟩ => hn r hr hw.1
    · rw [if_neg hc] at h2
      have hc' : ¬ (collectCols ⟨rules ++ extra, inputs, outputs, .first⟩).isEmpty = true := hc
      rw [if_neg hc']
      obtain ⟨fired, h3, h4⟩ := h2
      exact ⟨fired, fired_append extra hn h3, h4⟩

end

/-! ### The full property is false -/

/-- The demonstration table with `$` as an output: row 1 tests the column `x` only. -/
def leakTable : Table where
  rules := [[("c1", "a"), ("c2", "p"), ("o1", "u")],
    [("c1", "b"), ("o1", "$")],
    [("c1", "b"), ("c2", "p"), ("o1", "v")],
    [("c1", "b"), ("c2", "q"), ("o1", "w")],
    [("c2", "q"), ("o1", "u")],
    [("c1", "c"), ("c2", "q"), ("o1", "u")],
    [("c1", "c"), ("c2", "r"), ("o1", "u")],
    [("c1", "d"), ("c2", "r"), ("o1", "u")]]
  inputs := [⟨"c1", some "x"⟩, ⟨"c2", some "y"⟩]
  outputs := [⟨"o1", "res"⟩]
  hit := .first

/-- Turning tracing on changes the result: `$` in an output cell is whatever column was looked at
last, and the index looks at columns the row itself does not test. -/
theorem C28_dollar_leak :
    (runTable tableFront demoB leakTable true true demoInput).output = .obj [("res", .str "b")] ∧
    (runTable tableFront demoB leakTable true false demoInput).output = .obj [("res", .str "q")] ∧
    (Val.str "b" ≠ .str "q") :=
  ⟨rfl, rfl, by simp⟩

/-- Removing a row that does not fire changes the result as well (seven rows, no index). -/
theorem C28_dollar_leak_rows :
    (runTable tableFront demoB { leakTable with rules := leakTable.rules.take 7 } true false demoInput).output =
      .obj [("res", .str "b")] := rfl

/-! ### Instances -/
example : Tidy tableFront (demoTable .collect "all[]") := demoTable_tidy _ _

end Zen
