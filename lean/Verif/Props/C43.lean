import Verif.Policy.CommitLemmas
import Verif.Props.C14
import Verif.Engine.TableDemo
import Mathlib.Data.Nat.Find
/-
C43: match blocks and decision tables of a policy. What is written is given by the arms (rows) alone, and
asking for trace details (`extras` in the first phase, `trace` in the second) does not change it.
-/
namespace Zen.Policy
open Zen Val

section spec
variable (F : FrontEnd) (B : Builtins)

/-! ### Specification -/

/-- the condition of the arm holds: it is empty or evaluates to `true` -/
def ArmTrue (s : Scope) (a : Arm) : Prop :=
  a.cond = "" ∨ freshRun F B s .standard a.cond = .ok (.bool true)

/-- the condition evaluates to something else -/
def ArmFalse (s : Scope) (a : Arm) : Prop :=
  a.cond ≠ "" ∧ ∃ v, freshRun F B s .standard a.cond = .ok v ∧ v ≠ .bool true

/-- the condition cannot be evaluated -/
def ArmFails (s : Scope) (a : Arm) (e : IErr) : Prop :=
  a.cond ≠ "" ∧ freshRun F B s .standard a.cond = .error e

/-- what an arm gives: the value of its expression, null for an empty one -/
def ArmGives (s : Scope) (a : Arm) (r : Except XErr Val) : Prop :=
  (a.value = "" ∧ r = .ok .null) ∨
  (a.value ≠ "" ∧ ((∃ v, freshRun F B s .standard a.value = .ok v ∧ r = .ok v) ∨
    ∃ e, freshRun F B s .standard a.value = .error e ∧ r = .error (a.value, e)))

/-- the value of a scalar column: that of its first non-empty cell in a matching row, null if there is none.
Rows are matched in `s`, cells evaluated in `s2`. -/
def ScalarIs (s s2 : Scope) (t : PTable) (c : OCol) (v : Val) : Prop :=
  (∃ i rule cell, RowAt F B s t i rule ∧ cellOf rule c.id = some cell ∧ freshRun F B s2 .standard cell = .ok v ∧
    ∀ j rule', j < i → RowAt F B s t j rule' → cellOf rule' c.id = none) ∨
  (v = .null ∧ ∀ i rule, RowAt F B s t i rule → cellOf rule c.id = none)

/-- the values of a collecting column: those of all its non-empty cells in matching rows, in order -/
inductive Gathers (s s2 : Scope) (t : PTable) (c : OCol) : List Rule → List Val → Prop
  | nil : Gathers s s2 t c [] []
  | other {rule rest vs} : ¬ RowHolds F B s t.asTable rule → Gathers s s2 t c rest vs →
      Gathers s s2 t c (rule :: rest) vs
  | empty {rule rest vs} : cellOf rule c.id = none → Gathers s s2 t c rest vs → Gathers s s2 t c (rule :: rest) vs
  | take {rule rest vs cell v} : RowHolds F B s t.asTable rule → cellOf rule c.id = some cell →
      freshRun F B s2 .standard cell = .ok v → Gathers s s2 t c rest vs → Gathers s s2 t c (rule :: rest) (v :: vs)

/-- the value a column is to have -/
def ColIs (s s2 : Scope) (t : PTable) (c : OCol) (v : Val) : Prop :=
  if c.collect then ∃ vs, Gathers F B s s2 t c t.rules vs ∧ v = .arr vs else ScalarIs F B s s2 t c v

/-- the output columns can be written without getting into each other's way -/
structure OutputsOk (t : PTable) (cx : Cx) : Prop where
  ids : (t.outputs.map OCol.id).Nodup
  fields : t.active.Pairwise fun a b => Independent (splitDot a.field) (splitDot b.field)
  walk : ∀ c ∈ t.active, Walkable cx.store (splitDot c.field)

end spec
variable {F : FrontEnd} {B : Builtins}

/-! ### Match blocks -/

theorem armTest_true {s : Scope} {a : Arm} (h : ArmTrue F B s a) (l : Bool) : armTest F B s l a = .ok true := by
  unfold armTest
  rcases h with h | h
  · simp [h]
  · by_cases he : a.cond.isEmpty
    · simp [he]
    · simp [he, h, truthy]

theorem armTest_false {s : Scope} {a : Arm} (h : ArmFalse F B s a) (l : Bool) : armTest F B s l a = .ok false := by
  obtain ⟨h, v, hv, hne⟩ := h
  have he : a.cond.isEmpty = false := by simpa using h
  unfold armTest
  simp only [he, hv, Bool.false_eq_true, if_false]
  cases v with
  | bool b => cases b with
    | true => exact absurd rfl hne
    | false => rfl
  | _ => rfl

theorem armTest_lenient {s : Scope} (a : Arm) : ∃ b, armTest F B s true a = .ok b := by
  unfold armTest
  split
  · exact ⟨_, rfl⟩
  · split
    · exact ⟨_, rfl⟩
    · exact ⟨_, rfl⟩

theorem select_found {s : Scope} (extras : Bool) (as : List Arm) : ∀ (sel : MSel) (id : String), sel.matched = some id →
    ∃ sel', selectArms F B s extras as sel = .ok sel' ∧ sel'.matched = some id := by
  induction as with
  | nil => intro sel id h; exact ⟨sel, rfl, h⟩
  | cons a as ih =>
    intro sel id h
    simp only [selectArms, h, Option.isSome_some, Bool.true_and, Bool.and_true]
    cases extras with
    | false => exact ⟨sel, by simp, h⟩
    | true =>
      obtain ⟨b, hb⟩ := armTest_lenient (F := F) (B := B) (s := s) a
      simp only [Bool.not_true, Bool.false_eq_true, if_false, hb]
      exact ih _ id (by simp)

theorem select_skip {s : Scope} (extras : Bool) (pre as : List Arm) : ∀ (sel : MSel), sel.matched = none →
    (∀ a ∈ pre, ArmFalse F B s a) →
    selectArms F B s extras (pre ++ as) sel =
      selectArms F B s extras as { matched := none, arms := sel.arms ++ pre.map fun a => (a.id, false) } := by
  induction pre with
  | nil => intro sel h _; cases sel; simp only at h; subst h; simp
  | cons a pre ih =>
    intro sel h hf
    have ha := armTest_false (hf a (List.mem_cons_self ..)) (extras && false)
    simp only [List.cons_append, selectArms, h, Option.isSome_none, Bool.false_and, Bool.false_eq_true, if_false, ha]
    rw [ih _ (by simp) (fun x hx => hf x (List.mem_cons_of_mem _ hx))]
    simp

/-- The first arm whose condition holds is chosen, and its value is what the block writes to its path, in
whatever context the second phase is run in and whatever trace flags are used. -/
theorem C43_match_first {s : Scope} (m : MatchB) (extras trace : Bool) (pre post : List Arm) (a : Arm)
    (harms : m.arms = pre ++ a :: post) (hids : (m.arms.map Arm.id).Nodup)
    (hpre : ∀ x ∈ pre, ArmFalse F B s x) (ha : ArmTrue F B s a) :
    ∃ sel, m.select F B extras s = .ok sel ∧ sel.matched = some a.id ∧
      ∀ cx r, ArmGives F B cx.scope a r →
        (m.commit F B trace sel cx).map Prod.fst = r.map fun v => if m.key = "" then cx else cx.write m.key v := by
  have hsel : ∃ sel, m.select F B extras s = .ok sel ∧ sel.matched = some a.id := by
    unfold MatchB.select
    rw [harms, select_skip extras pre (a :: post) _ rfl hpre]
    simp only [selectArms, Option.isSome_none, Bool.false_and, Bool.false_eq_true, if_false, Bool.and_false,
      armTest_true ha]
    exact select_found extras post _ a.id (by simp)
  obtain ⟨sel, h1, h2⟩ := hsel
  refine ⟨sel, h1, h2, fun cx r hr => ?_⟩
  have hfind : (m.arms.find? fun x => x.id = a.id) = some a := by
    rw [harms, List.find?_append]
    have : (pre.find? fun x => x.id = a.id) = none := by
      rw [List.find?_eq_none]
      intro x hx
      rw [harms, List.map_append, List.map_cons, List.nodup_append] at hids
      simpa using hids.2.2 x.id (List.mem_map_of_mem hx) a.id (List.mem_cons_self ..)
    rw [this]
    simp
  unfold MatchB.commit
  rw [h2]
  simp only [Option.bind_some, hfind]
  have hval : armValue F B cx (some a) = r := by
    unfold armValue
    rcases hr with ⟨h, rfl⟩ | ⟨h, hr⟩
    · simp [h]
    · have he : a.value.isEmpty = false := by simpa using h
      rcases hr with ⟨v, hv, rfl⟩ | ⟨e, hv, rfl⟩
      · simp [he, hv]
      · simp [he, hv]
  rw [hval]
  cases r with
  | error e => rfl
  | ok v =>
    simp only [Except.map, String.isEmpty_iff]

/-- When no condition holds the block writes null. -/
theorem C43_match_none {s : Scope} (m : MatchB) (extras trace : Bool) (h : ∀ a ∈ m.arms, ArmFalse F B s a) :
    ∃ sel, m.select F B extras s = .ok sel ∧ sel.matched = none ∧
      ∀ cx, (m.commit F B trace sel cx).map Prod.fst = .ok (if m.key = "" then cx else cx.write m.key .null) := by
  refine ⟨{ matched := none, arms := m.arms.map fun a => (a.id, false) }, ?_, rfl, fun cx => ?_⟩
  · unfold MatchB.select
    have := select_skip (F := F) (B := B) (s := s) extras m.arms [] { matched := none, arms := [] } rfl h
    rw [List.append_nil] at this
    rw [this]
    rfl
  · simp [MatchB.commit, armValue, Except.map]

/-- A condition that fails before any holds is the error of the block. -/
theorem C43_match_error {s : Scope} (m : MatchB) (extras : Bool) (pre post : List Arm) (a : Arm) (e : IErr)
    (harms : m.arms = pre ++ a :: post) (hpre : ∀ x ∈ pre, ArmFalse F B s x) (ha : ArmFails F B s a e) :
    m.select F B extras s = .error (a.cond, e) := by
  obtain ⟨h, hv⟩ := ha
  have he : a.cond.isEmpty = false := by simpa using h
  unfold MatchB.select
  rw [harms, select_skip extras pre (a :: post) _ rfl hpre]
  simp [selectArms, armTest, he, hv]

/-- Trace flags do not change what a match block does: same error, or same arm and same context. -/
theorem C43_match_trace {s : Scope} (m : MatchB) (extras extras' trace trace' : Bool) :
    (∀ e, m.select F B extras s = .error e ↔ m.select F B extras' s = .error e) ∧
    ∀ sel sel', m.select F B extras s = .ok sel → m.select F B extras' s = .ok sel' →
      sel.matched = sel'.matched ∧
      ∀ cx, (m.commit F B trace sel cx).map Prod.fst = (m.commit F B trace' sel' cx).map Prod.fst := by
  have key : ∀ (as : List Arm) (sel sel' : MSel), sel.matched = sel'.matched →
      (selectArms F B s false as sel).map MSel.matched = (selectArms F B s true as sel').map MSel.matched := by
    intro as
    induction as with
    | nil => intro sel sel' h; simp [selectArms, Except.map, h]
    | cons a as ih =>
      intro sel sel' h
      cases hm : sel.matched with
      | some id =>
        obtain ⟨x, hx, hx'⟩ := select_found (F := F) (B := B) (s := s) true (a :: as) sel' id (by rw [← h, hm])
        obtain ⟨y, hy, hy'⟩ := select_found (F := F) (B := B) (s := s) false (a :: as) sel id hm
        rw [hx, hy]; simp [Except.map, hx', hy']
      | none =>
        have hm' : sel'.matched = none := by rw [← h, hm]
        simp only [selectArms, hm, hm', Option.isSome_none, Bool.false_and, Bool.false_eq_true, if_false,
          Bool.and_false]
        cases armTest F B s false a with
        | error e => rfl
        | ok b => exact ih _ _ rfl
  have hall : (m.select F B extras s).map MSel.matched = (m.select F B extras' s).map MSel.matched := by
    unfold MatchB.select
    cases extras <;> cases extras'
    · rfl
    · exact key _ _ _ rfl
    · exact (key _ _ _ rfl).symm
    · rfl
  constructor
  · intro e
    constructor
    · intro h
      rw [h] at hall
      cases hx : m.select F B extras' s with
      | error e' => rw [hx] at hall; simp only [Except.map, Except.error.injEq] at hall; rw [hall]
      | ok _ => rw [hx] at hall; cases hall
    · intro h
      rw [h] at hall
      cases hx : m.select F B extras s with
      | error e' => rw [hx] at hall; simp only [Except.map, Except.error.injEq] at hall; rw [hall]
      | ok _ => rw [hx] at hall; cases hall
  · intro sel sel' h h'
    rw [h, h'] at hall
    simp only [Except.map, Except.ok.injEq] at hall
    refine ⟨hall, fun cx => ?_⟩
    unfold MatchB.commit
    rw [hall]
    cases armValue F B cx (sel'.matched.bind fun id => m.arms.find? fun a => a.id = id) <;> rfl

/-! ### Tables: the first phase -/

variable {s : Scope} {t : PTable}


/-- the index used: the one built from the table, or none -/
abbrev ixOf (F : FrontEnd) (t : PTable) (indexed : Bool) : Option TableIx :=
  if indexed then TableIx.build F t.inputs t.rules else none

theorem ixOf_or (indexed : Bool) : ixOf F t indexed = none ∨ ixOf F t indexed = TableIx.build F t.inputs t.rules := by
  cases indexed
  · exact .inl rfl
  · exact .inr rfl

/-- Whatever the flags, and with or without the index, the rows and cells chosen are the specified ones. -/
theorem C43_table_select (ht : Tidy F t.asTable) (extras indexed : Bool) (sel : TSel)
    (h : t.select F B extras (ixOf F t indexed) s = .ok sel) : SelSpec F B s t sel := by
  unfold PTable.select at h
  cases extras with
  | true => exact selectRows_spec ht (pprune_none _) t.rules 0 _ _ rfl .start .start sel (by simpa using h)
  | false =>
    simp only [Bool.false_eq_true, if_false] at h
    obtain ⟨g1, g2⟩ := pprune_cand ht (ixOf_or indexed) (TOk.start (F := F) (B := B) (s := s) (t := t))
    rcases hc : candRows F B t (ixOf F t indexed) { ev := { scope := s } } with ⟨r, st⟩
    rw [hc] at g1 g2 h
    cases r with
    | error e => cases h
    | ok cand => exact selectRows_spec ht (g2 cand rfl) t.rules 0 _ _ rfl .start g1 sel h

/-- Without the index, asking for details makes no difference: same error, or same rows and cells. -/
theorem C43_table_extras (ht : Tidy F t.asTable) :
    (∀ e, t.select F B true none s = .error e ↔ t.select F B false none s = .error e) ∧
    ∀ a b, t.select F B true none s = .ok a → t.select F B false none s = .ok b →
      a.matched = b.matched ∧ a.used = b.used := by
  have h := selectRows_extras (F := F) (B := B) (s := s) ht (ix := none) (ix' := none) t.rules 0 (.start t) (.start t)
    { ev := { scope := s } } { ev := { scope := s } } rfl ⟨rfl, rfl, rfl, rfl⟩ .start .start
  have e1 : t.select F B true none s = selectRows F B t true none none 0 t.rules (.start t) { ev := { scope := s } } := rfl
  have e2 : t.select F B false none s = selectRows F B t false none none 0 t.rules (.start t) { ev := { scope := s } } := rfl
  rw [e1, e2]
  revert h
  generalize selectRows F B t false none none 0 t.rules (.start t) { ev := { scope := s } } = x
  generalize selectRows F B t true none none 0 t.rules (.start t) { ev := { scope := s } } = y
  intro h
  cases x with
  | error e =>
    cases y with
    | error e' =>
      have h : e = e' := h
      subst h
      exact ⟨fun _ => Iff.rfl, fun _ _ hh => by cases hh⟩
    | ok b => exact h.elim
  | ok a =>
    cases y with
    | error e' => exact h.elim
    | ok b =>
      refine ⟨fun e => ⟨fun hh => (by cases hh), fun hh => (by cases hh)⟩, fun a' b' ha hb => ?_⟩
      cases ha; cases hb
      exact ⟨h.1.symm, h.2.1.symm⟩

/-- With the index: when the columns it looks at evaluate, a selection found without it (or with details) is
found with it as well. -/
theorem C43_table_index (ht : Tidy F t.asTable) (sel : TSel) (h : t.select F B true none s = .ok sel)
    (hcand : ∃ c st, candRows F B t (TableIx.build F t.inputs t.rules) { ev := { scope := s } } = (.ok c, st)) :
    ∃ sel', t.select F B false (TableIx.build F t.inputs t.rules) s = .ok sel' ∧
      sel'.matched = sel.matched ∧ sel'.used = sel.used := by
  obtain ⟨cand, st, hc⟩ := hcand
  obtain ⟨x1, x2⟩ := C43_table_extras (B := B) (s := s) ht
  cases hp : t.select F B false none s with
  | error e => rw [(x1 e).2 hp] at h; cases h
  | ok a =>
    obtain ⟨y1, y2⟩ := x2 sel a h hp
    obtain ⟨g1, g2⟩ := pprune_cand ht (.inr rfl) (TOk.start (F := F) (B := B) (s := s) (t := t))
    rw [hc] at g1 g2
    have hp' : selectRows F B t false none none 0 t.rules (.start t) { ev := { scope := s } } = .ok a := hp
    obtain ⟨b, hb, hs⟩ := selectRows_prune ht (g2 cand rfl) t.rules 0 (.start t) (.start t)
      { ev := { scope := s } } st rfl ⟨rfl, rfl, rfl, rfl⟩ .start g1 a hp'
    refine ⟨b, ?_, by rw [y1, hs.1], by rw [y2, hs.2.1]⟩
    simp [PTable.select, hc, hb]

/-! ### Tables: the second phase -/

theorem ScalarIs.unique {s2 : Scope} {c : OCol} {v w : Val} (hv : ScalarIs F B s s2 t c v) (hw : ScalarIs F B s s2 t c w) :
    v = w := by
  rcases hv with ⟨i, rule, cell, h1, h2, h3, h4⟩ | ⟨rfl, h⟩ <;>
    rcases hw with ⟨i', rule', cell', h1', h2', h3', h4'⟩ | ⟨rfl, h'⟩
  · rcases Nat.lt_trichotomy i i' with hh | hh | hh
    · rw [h4' i rule hh h1] at h2; cases h2
    · subst hh
      have := h1.1.symm.trans h1'.1
      cases this
      rw [h2] at h2'; cases h2'
      rw [h3] at h3'; cases h3'; rfl
    · rw [h4 i' rule' hh h1'] at h2'; cases h2'
  · rw [h' i rule h1] at h2; cases h2
  · rw [h i' rule' h1'] at h2'; cases h2'
  · rfl

theorem Gathers.unique {s2 : Scope} {c : OCol} {rules : List Rule} {vs ws : List Val}
    (hv : Gathers F B s s2 t c rules vs) (hw : Gathers F B s s2 t c rules ws) : vs = ws := by
  induction hv generalizing ws with
  | nil => cases hw; rfl
  | other h _ ih =>
    cases hw with
    | other _ hw => exact ih hw
    | empty _ hw => exact ih hw
    | take h' => exact absurd h' h
  | empty h _ ih =>
    cases hw with
    | other _ hw => exact ih hw
    | empty _ hw => exact ih hw
    | take _ h' => rw [h] at h'; cases h'
  | take h1 h2 h3 _ ih =>
    cases hw with
    | other h => exact absurd h1 h
    | empty h => rw [h] at h2; cases h2
    | take _ h2' h3' hw =>
      rw [h2] at h2'; cases h2'
      rw [h3] at h3'; cases h3'
      rw [ih hw]

theorem ColIs.unique {s2 : Scope} {c : OCol} {v w : Val} (hv : ColIs F B s s2 t c v) (hw : ColIs F B s s2 t c w) : v = w := by
  unfold ColIs at hv hw
  split at hv
  · rename_i hc
    rw [if_pos hc] at hw
    obtain ⟨vs, h, rfl⟩ := hv
    obtain ⟨ws, h', rfl⟩ := hw
    rw [h.unique h']
  · rename_i hc
    rw [if_neg hc] at hw
    exact hv.unique hw

theorem pw_any {α : Type} {R : α → α → Prop} (hsym : ∀ x y, R x y → R y x) {l : List α} (h : l.Pairwise R) {a b : α}
    (ha : a ∈ l) (hb : b ∈ l) : a = b ∨ R a b := by
  induction h with
  | nil => cases ha
  | cons hx _ ih =>
    rcases List.mem_cons.1 ha with rfl | ha' <;> rcases List.mem_cons.1 hb with rfl | hb'
    · exact .inl rfl
    · exact .inr (hx b hb')
    · exact .inr (hsym _ _ (hx a ha'))
    · exact ih ha' hb'

theorem col_of_id (h : (t.outputs.map OCol.id).Nodup) {a b : OCol} (ha : a ∈ t.outputs) (hb : b ∈ t.outputs)
    (he : a.id = b.id) : a = b := by
  rw [List.Nodup, List.pairwise_map] at h
  rcases pw_any (fun _ _ h => Ne.symm h) h ha hb with hh | hh
  · exact hh
  · exact absurd he hh

theorem active_out {c : OCol} (h : c ∈ t.active) : c ∈ t.outputs := (List.mem_filter.1 h).1

theorem active_iff {c : OCol} : c ∈ t.active ↔ c ∈ t.outputs ∧ c.field ≠ "" := by
  simp [PTable.active, List.mem_filter]

theorem used_active {sel : TSel} (hsel : SelSpec F B s t sel) (hids : (t.outputs.map OCol.id).Nodup) {row : Nat}
    {c : OCol} (hc : c ∈ t.outputs) (h : (row, c.id) ∈ sel.used) : c ∈ t.active ∧ Uses F B s t row c := by
  obtain ⟨c', hc', he, hu⟩ := (hsel.used row c.id).1 h
  have := col_of_id hids (active_out hc') hc he
  subst this
  exact ⟨hc', hu⟩

theorem col_of_field {cx : Cx} (h : OutputsOk t cx) {a b : OCol} (ha : a ∈ t.active) (hb : b ∈ t.active) :
    a = b ∨ Independent (splitDot a.field) (splitDot b.field) :=
  pw_any (fun _ _ h => ⟨h.2, h.1⟩) h.fields ha hb

theorem col_of_path {cx : Cx} (h : OutputsOk t cx) {a b : OCol} (ha : a ∈ t.active) (hb : b ∈ t.active)
    (he : a.field = b.field) : a = b := by
  rcases col_of_field h ha hb with hh | hh
  · exact hh
  · rw [he] at hh; exact absurd List.prefix_rfl hh.1

theorem mem_rowVals {s2 : Scope} {used : List (Nat × String)} {col : Bool} {row : Nat} {rule : Rule} {cs : List OCol}
    {w : String × Val} : w ∈ rowVals F B s2 used col row rule cs ↔
      ∃ c ∈ cs, (row, c.id) ∈ used ∧ c.collect = col ∧ c.field = w.1 ∧ outVal F B s2 rule c = some w.2 := by
  unfold rowVals
  rw [List.mem_filterMap]
  constructor
  · rintro ⟨c, hc, h⟩
    split at h
    · rename_i hh
      cases ho : outVal F B s2 rule c with
      | none => rw [ho] at h; cases h
      | some v => rw [ho] at h; cases h; exact ⟨c, hc, hh.1, hh.2, rfl, ho⟩
    · cases h
  · rintro ⟨c, hc, h1, h2, h3, h4⟩
    exact ⟨c, hc, by simp [h1, h2, h4, h3]⟩

theorem mem_allVals {s2 : Scope} {used : List (Nat × String)} {col : Bool} {rows : List Nat} {w : String × Val} :
    w ∈ allVals F B s2 t used col rows ↔ ∃ row ∈ rows, ∃ rule, t.rules[row]? = some rule ∧
      ∃ c ∈ t.outputs, (row, c.id) ∈ used ∧ c.collect = col ∧ c.field = w.1 ∧ outVal F B s2 rule c = some w.2 := by
  unfold allVals
  rw [List.mem_flatMap]
  constructor
  · rintro ⟨row, hr, h⟩
    cases hrule : t.rules[row]? with
    | none => rw [hrule] at h; cases h
    | some rule => rw [hrule] at h; exact ⟨row, hr, rule, hrule, mem_rowVals.1 h⟩
  · rintro ⟨row, hr, rule, hrule, h⟩
    exact ⟨row, hr, by rw [hrule]; exact mem_rowVals.2 h⟩

theorem outVal_some {s2 : Scope} {rule : Rule} {c : OCol} {v : Val} (h : outVal F B s2 rule c = some v) :
    ∃ cell, cellOf rule c.id = some cell ∧ freshRun F B s2 .standard cell = .ok v := by
  unfold outVal at h
  cases hc : cellOf rule c.id with
  | none => rw [hc] at h; cases h
  | some cell =>
    rw [hc] at h
    dsimp only at h
    cases hv : freshRun F B s2 .standard cell with
    | error e => rw [hv] at h; cases h
    | ok x => rw [hv] at h; cases h; exact ⟨cell, rfl, hv⟩

/-- what is written for scalar columns is their value -/
theorem scalar_sound {s2 : Scope} {sel : TSel} (hsel : SelSpec F B s t sel) (hids : (t.outputs.map OCol.id).Nodup)
    {w : String × Val} (hw : w ∈ allVals F B s2 t sel.used false sel.matched) :
    ∃ c ∈ t.active, c.collect = false ∧ c.field = w.1 ∧ ScalarIs F B s s2 t c w.2 := by
  obtain ⟨row, -, rule, hrule, c, hc, hu, hco, hf, ho⟩ := mem_allVals.1 hw
  obtain ⟨ha, rule', hat, -, hs⟩ := used_active hsel hids hc hu
  obtain ⟨cell, hcell, hv⟩ := outVal_some ho
  have : rule' = rule := by have := hat.1.symm.trans hrule; cases this; rfl
  subst this
  refine ⟨c, ha, hco, hf, .inl ⟨row, rule', cell, hat, hcell, hv, fun j rule'' hj hat' => ?_⟩⟩
  rcases hs with hs | hs
  · rw [hco] at hs; cases hs
  · cases h : cellOf rule'' c.id with
    | none => rfl
    | some _ => exact absurd ⟨j, rule'', hj, hat', by rw [h]; simp⟩ hs

/-- a scalar column with a non-empty cell in a matching row is written -/
theorem scalar_complete {s2 : Scope} {sel : TSel} (hsel : SelSpec F B s t sel)
    (hev : ∀ row ∈ sel.matched, ∀ rule, t.rules[row]? = some rule → RowEvaluates F B s2 sel.used row rule t.outputs)
    {c : OCol} (hc : c ∈ t.active) (hco : c.collect = false) :
    (∃ v, (c.field, v) ∈ allVals F B s2 t sel.used false sel.matched) ∨
    ∀ i rule, RowAt F B s t i rule → cellOf rule c.id = none := by
  by_cases h : ∃ i rule, RowAt F B s t i rule ∧ cellOf rule c.id ≠ none
  · left
    classical
    obtain ⟨rule, hat, hcell⟩ := Nat.find_spec h
    have hmin : ∀ j, j < Nat.find h → ¬ ∃ rule, RowAt F B s t j rule ∧ cellOf rule c.id ≠ none :=
      fun j hj => Nat.find_min h hj
    generalize Nat.find h = i at hat hcell hmin
    have hns : ¬ Served F B s t i c.id := by
      rintro ⟨j, rule', hj, hat', hc'⟩
      exact hmin j hj ⟨rule', hat', hc'⟩
    have hu : (i, c.id) ∈ sel.used := (hsel.used i c.id).2 ⟨c, hc, rfl, rule, hat, hcell, .inr hns⟩
    have hm : i ∈ sel.matched := (hsel.matched i).2 ⟨⟨rule, hat⟩, fun hd => hns (hd.2.2 c hc)⟩
    cases hcc : cellOf rule c.id with
    | none => exact absurd hcc hcell
    | some cell =>
      obtain ⟨v, hv⟩ := hev i hm rule hat.1 c (active_out hc) hu cell hcc
      exact ⟨v, mem_allVals.2 ⟨i, hm, rule, hat.1, c, active_out hc, hu, hco, rfl, by simp [outVal, hcc, hv]⟩⟩
  · right
    intro i rule hat
    cases hcc : cellOf rule c.id with
    | none => rfl
    | some cell => exact absurd ⟨i, rule, hat, by rw [hcc]; simp⟩ h

/-- what a row adds to a collecting column -/
theorem row_adds {cx : Cx} {s2 : Scope} {sel : TSel} (hsel : SelSpec F B s t sel) (hout : OutputsOk t cx) {c : OCol}
    (hc : c ∈ t.active) (hco : c.collect = true) {row : Nat} {rule : Rule} :
    ((rowVals F B s2 sel.used true row rule t.outputs).filter fun w => w.1 = c.field).map Prod.snd =
      if (row, c.id) ∈ sel.used then (outVal F B s2 rule c).toList else [] := by
  have gen : ∀ cs : List OCol, cs ⊆ t.outputs → (cs.map OCol.id).Nodup →
      ((rowVals F B s2 sel.used true row rule cs).filter fun w => w.1 = c.field).map Prod.snd =
        if c ∈ cs ∧ (row, c.id) ∈ sel.used then (outVal F B s2 rule c).toList else [] := by
    intro cs
    induction cs with
    | nil => intro _ _; simp [rowVals]
    | cons c' cs ih =>
      intro hsub hnd
      rw [List.map_cons, List.nodup_cons] at hnd
      have ih' := ih (fun x hx => hsub (List.mem_cons_of_mem _ hx)) hnd.2
      have hcons : rowVals F B s2 sel.used true row rule (c' :: cs) =
          (if (row, c'.id) ∈ sel.used ∧ c'.collect = true then
            ((outVal F B s2 rule c').map fun v => (c'.field, v)) else none).toList ++
          rowVals F B s2 sel.used true row rule cs := by
        unfold rowVals
        rw [List.filterMap_cons]
        split
        · rename_i h; rw [h]; rfl
        · rename_i h; rw [h]; rfl
      rw [hcons, List.filter_append, List.map_append, ih']
      by_cases he : c' = c
      · subst he
        have hnot : c' ∉ cs := fun h => hnd.1 (List.mem_map_of_mem h)
        simp only [hnot, false_and, if_false, List.append_nil, List.mem_cons_self, true_and, hco, and_true]
        split
        · cases outVal F B s2 rule c' <;> simp
        · rfl
      · have hmem : (c ∈ c' :: cs) ↔ c ∈ cs := by simp [Ne.symm he]
        have hzero : ((if (row, c'.id) ∈ sel.used ∧ c'.collect = true then
            ((outVal F B s2 rule c').map fun v => (c'.field, v)) else none).toList.filter
              fun w => w.1 = c.field) = [] := by
          split
          · rename_i hu
            have hne : c'.field ≠ c.field := fun hf =>
              he (col_of_path hout (used_active hsel hout.ids (hsub (List.mem_cons_self ..)) hu.1).1 hc hf)
            cases outVal F B s2 rule c' <;> simp [hne]
          · rfl
        rw [hzero]
        simp [hmem]
  rw [gen t.outputs (fun _ h => h) hout.ids]
  simp [active_out hc]

/-- the rows matched from some row on give what the column is to collect from there -/
theorem collect_rows {cx : Cx} {s2 : Scope} {sel : TSel} (hsel : SelSpec F B s t sel) (hout : OutputsOk t cx)
    (hev : ∀ row ∈ sel.matched, ∀ rule, t.rules[row]? = some rule → RowEvaluates F B s2 sel.used row rule t.outputs)
    {c : OCol} (hc : c ∈ t.active) (hco : c.collect = true) (rest : List Rule) : ∀ (k : Nat) (rows : List Nat),
    t.rules.drop k = rest → rows.Pairwise (· < ·) → (∀ i, i ∈ rows ↔ i ∈ sel.matched ∧ k ≤ i) →
    Gathers F B s s2 t c rest
      (((allVals F B s2 t sel.used true rows).filter fun w => w.1 = c.field).map Prod.snd) := by
  have hdone : ∀ i, ¬ Done F B s t i := fun i h => by
    have := h.1 c hc; rw [hco] at this; cases this
  induction rest with
  | nil =>
    intro k rows hd hs hr
    have : rows = [] := by
      cases rows with
      | nil => rfl
      | cons i rows =>
        obtain ⟨hm, hk⟩ := (hr i).1 (List.mem_cons_self ..)
        exact absurd ((hsel.matched i).1 hm).1 (no_row_after hd hk)
    subst this
    exact .nil
  | cons rule rest ih =>
    intro k rows hd hs hr
    obtain ⟨hk, hd'⟩ := at_drop hd
    by_cases hh : RowHolds F B s t.asTable rule
    · have hat : RowAt F B s t k rule := ⟨hk, hh⟩
      have hkm : k ∈ sel.matched := (hsel.matched k).2 ⟨⟨rule, hat⟩, hdone k⟩
      have hkr : k ∈ rows := (hr k).2 ⟨hkm, Nat.le_refl _⟩
      obtain ⟨rows', rfl⟩ : ∃ rows', rows = k :: rows' := by
        cases rows with
        | nil => cases hkr
        | cons i rows' =>
          rcases List.mem_cons.1 hkr with rfl | h
          · exact ⟨rows', rfl⟩
          · have h1 := (List.pairwise_cons.1 hs).1 k h
            have h2 := ((hr i).1 (List.mem_cons_self ..)).2
            omega
      obtain ⟨hs1, hs2⟩ := List.pairwise_cons.1 hs
      have hih := ih (k + 1) rows' hd' hs2 (fun i => by
        constructor
        · intro hi
          exact ⟨((hr i).1 (List.mem_cons_of_mem _ hi)).1, hs1 i hi⟩
        · rintro ⟨h1, h2⟩
          rcases List.mem_cons.1 ((hr i).2 ⟨h1, by omega⟩) with rfl | h
          · omega
          · exact h)
      have hsplit : allVals F B s2 t sel.used true (k :: rows') =
          rowVals F B s2 sel.used true k rule t.outputs ++ allVals F B s2 t sel.used true rows' := by
        simp [allVals, hk]
      rw [hsplit, List.filter_append, List.map_append, row_adds hsel hout hc hco]
      cases hcell : cellOf rule c.id with
      | none =>
        have : outVal F B s2 rule c = none := by simp [outVal, hcell]
        rw [this]
        simp only [Option.toList_none, ite_self, List.nil_append]
        exact .empty hcell hih
      | some cell =>
        have hu : (k, c.id) ∈ sel.used := (hsel.used k c.id).2 ⟨c, hc, rfl, rule, hat, by rw [hcell]; simp, .inl hco⟩
        obtain ⟨v, hv⟩ := hev k hkm rule hk c (active_out hc) hu cell hcell
        have : outVal F B s2 rule c = some v := by simp [outVal, hcell, hv]
        rw [this, if_pos hu]
        exact .take hh hcell hv hih
    · refine .other hh (ih (k + 1) rows hd' hs fun i => ?_)
      rw [hr]
      constructor
      · rintro ⟨h1, h2⟩
        refine ⟨h1, ?_⟩
        rcases Nat.lt_or_ge k i with h | h
        · exact h
        · obtain ⟨⟨rule', hat'⟩, -⟩ := (hsel.matched i).1 h1
          have : i = k := by omega
          subst this
          have := hat'.1.symm.trans hk
          cases this
          exact absurd hat'.2 hh
      · rintro ⟨h1, h2⟩
        exact ⟨h1, by omega⟩

/-- What the second phase of a table does, given a selection as specified. It succeeds exactly when the
chosen cells evaluate. Then every column has the value it is to have, and whatever lies elsewhere in the store
is untouched. The trace flag and the order in which collected columns are written do not matter. -/
theorem C43_table_commit {sel : TSel} {cx : Cx} (hsel : SelSpec F B s t sel) (hout : OutputsOk t cx)
    (hfree : OwnFree F B t cx) (order : List (String × List Val) → List (String × List Val))
    (horder : ∀ l, (order l).Perm l) (trace : Bool) :
    ((∃ r, t.commit F B order trace sel cx = .ok r) ↔
      ∀ i rule c cell, c ∈ t.active → Uses F B s t i c → t.rules[i]? = some rule → cellOf rule c.id = some cell →
        ∃ v, freshRun F B cx.scope .standard cell = .ok v) ∧
    ∀ cx' evals, t.commit F B order trace sel cx = .ok (cx', evals) →
      (∀ c ∈ t.active, ∃ v, ColIs F B s cx.scope t c v ∧ cx'.store.dot c.field = some v) ∧
      ∀ q, (∀ c ∈ t.active, Independent (splitDot c.field) (splitDot q)) → cx'.store.dot q = cx.store.dot q := by
  have hused : ∀ row, ∀ c ∈ t.outputs, (row, c.id) ∈ sel.used → c ∈ t.active :=
    fun row c hc h => (used_active hsel hout.ids hc h).1
  obtain ⟨k1, k2⟩ := commitRows_spec (trace := trace) hfree hused sel.matched
    { cx := cx, coll := opened t.outputs [] } ⟨[], (fun w hw => nomatch hw), rfl⟩
  have hcommit : t.commit F B order trace sel cx =
      match commitRows F B t trace sel.used sel.matched { cx := cx, coll := opened t.outputs [] } with
      | .error e => .error e
      | .ok st => .ok ((order st.coll).foldl (fun cx kv => cx.write kv.1 (.arr kv.2))
          (nullCols t.outputs st.written st.cx), st.evals) := rfl
  have hmatched : ∀ i c, c ∈ t.active → Uses F B s t i c → i ∈ sel.matched := by
    rintro i c hc ⟨rule, hat, hne, hs⟩
    refine (hsel.matched i).2 ⟨⟨rule, hat⟩, fun hd => ?_⟩
    rcases hs with hs | hs
    · rw [hd.1 c hc] at hs; cases hs
    · exact hs (hd.2.2 c hc)
  constructor
  · rw [hcommit]
    constructor
    · rintro ⟨r, hr⟩ i rule c cell hc hu hrule hcell
      cases hrows : commitRows F B t trace sel.used sel.matched { cx := cx, coll := opened t.outputs [] } with
      | error e => rw [hrows] at hr; cases hr
      | ok st =>
        exact (k1 st hrows).1 i (hmatched i c hc hu) rule hrule c (active_out hc)
          ((hsel.used i c.id).2 ⟨c, hc, rfl, hu⟩) cell hcell
    · intro h
      obtain ⟨st, hst⟩ := k2 (fun row _ rule hrule c hc hu cell hcell => by
        obtain ⟨ha, hus⟩ := used_active hsel hout.ids hc hu
        exact h row rule c cell ha hus hrule hcell)
      exact ⟨_, by rw [hst]⟩
  · intro cx' evals h
    rw [hcommit] at h
    cases hrows : commitRows F B t trace sel.used sel.matched { cx := cx, coll := opened t.outputs [] } with
    | error e => rw [hrows] at h; cases h
    | ok st =>
      rw [hrows] at h
      simp only [Except.ok.injEq, Prod.mk.injEq] at h
      obtain ⟨hev, hcx, hcoll, hwr⟩ := k1 st hrows
      dsimp only at hcx hcoll hwr
      obtain ⟨ns, n1, n2, n3⟩ := nullCols_spec t.outputs st.written st.cx
      obtain ⟨o1, o2, o3⟩ := opened_spec t.outputs [] (by simp [aKeys]) (fun f => .inl rfl)
      -- all writes in one list
      have hcx' : cx' = writes (allVals F B cx.scope t sel.used false sel.matched ++ (ns ++
          (order st.coll).map fun kv => (kv.1, Val.arr kv.2))) cx := by
        rw [writes_append, ← hcx, writes_append, ← n1, ← h.1]
        simp [writes, List.foldl_map]
      -- the collected columns
      have hgather : ∀ c ∈ t.active, c.collect = true → Gathers F B s cx.scope t c t.rules
          (((allVals F B cx.scope t sel.used true sel.matched).filter fun w => w.1 = c.field).map Prod.snd) :=
        fun c hc hco => collect_rows hsel hout hev hc hco t.rules 0 sel.matched rfl hsel.sorted (fun i => by simp)
      have hget : ∀ c ∈ t.active, c.collect = true → aGet st.coll c.field = some
          (((allVals F B cx.scope t sel.used true sel.matched).filter fun w => w.1 = c.field).map Prod.snd) := by
        intro c hc hco
        have hk : c.field ∈ aKeys (opened t.outputs []) := (o3 c.field).2 (.inr ⟨c, active_out hc, hco, (active_iff.1 hc).2, rfl⟩)
        have h0 : aGet (opened t.outputs []) c.field = some [] := by
          rcases o2 c.field with hh | hh
          · exact absurd hk ((aGet_eq_none_iff _ _).1 hh)
          · exact hh
        rw [hcoll, pushes_get _ _ _ [] h0]
        simp
      obtain ⟨p1, p2⟩ := pushes_keys (allVals F B cx.scope t sel.used true sel.matched) (opened t.outputs []) o1
      rw [← hcoll] at p1 p2
      have hkeys : ∀ f, f ∈ aKeys st.coll → ∃ c ∈ t.active, c.collect = true ∧ c.field = f := by
        intro f hf
        rcases p2 f hf with hh | ⟨w, hw, rfl⟩
        · rcases (o3 f).1 hh with hh | ⟨c, hc, hco, hne, rfl⟩
          · cases hh
          · exact ⟨c, active_iff.2 ⟨hc, hne⟩, hco, rfl⟩
        · obtain ⟨row, -, rule, -, c, hc, hu, hco, hf', -⟩ := mem_allVals.1 hw
          exact ⟨c, hused row c hc hu, hco, hf'⟩
      -- every write is the value of a column
      have hsound : ∀ w ∈ allVals F B cx.scope t sel.used false sel.matched ++ (ns ++
          (order st.coll).map fun kv => (kv.1, Val.arr kv.2)),
          ∃ c ∈ t.active, c.field = w.1 ∧ ColIs F B s cx.scope t c w.2 := by
        intro w hw
        rcases List.mem_append.1 hw with hw | hw
        · obtain ⟨c, hc, hco, hf, hs⟩ := scalar_sound hsel hout.ids hw
          exact ⟨c, hc, hf, by unfold ColIs; simpa [hco] using hs⟩
        · rcases List.mem_append.1 hw with hw | hw
          · obtain ⟨m1, m2, c, hc, hco, hne, hf⟩ := n2 w hw
            have ha := active_iff.2 ⟨hc, hne⟩
            refine ⟨c, ha, hf, ?_⟩
            unfold ColIs
            simp only [hco, Bool.false_eq_true, if_false]
            rcases scalar_complete hsel hev ha hco with ⟨v, hv⟩ | hn
            · exfalso
              apply m2
              rw [hwr w.1]
              exact .inr ⟨_, hv, hf⟩
            · exact .inr ⟨m1, hn⟩
          · obtain ⟨kv, hkv, rfl⟩ := List.mem_map.1 hw
            have hkv' := (horder st.coll).mem_iff.1 hkv
            obtain ⟨c, hc, hco, hf⟩ := hkeys kv.1 (List.mem_map_of_mem hkv')
            refine ⟨c, hc, hf, ?_⟩
            unfold ColIs
            simp only [hco, if_true]
            refine ⟨_, hgather c hc hco, ?_⟩
            have h1 := aGet_of_mem p1 hkv'
            rw [← hf, hget c hc hco] at h1
            simp only [Option.some.injEq] at h1
            rw [h1]
      -- every column is written
      have hcomplete : ∀ c ∈ t.active, ∃ v, (c.field, v) ∈ allVals F B cx.scope t sel.used false sel.matched ++ (ns ++
          (order st.coll).map fun kv => (kv.1, Val.arr kv.2)) := by
        intro c hc
        cases hco : c.collect with
        | true =>
          have h1 := aGet_mem (hget c hc hco)
          exact ⟨_, List.mem_append_right _ (List.mem_append_right _
            (List.mem_map.2 ⟨_, (horder st.coll).mem_iff.2 h1, rfl⟩))⟩
        | false =>
          by_cases hin : c.field ∈ st.written
          · rcases (hwr c.field).1 hin with hh | ⟨w, hw, hf⟩
            · cases hh
            · exact ⟨w.2, List.mem_append_left _ (by rw [← hf]; exact hw)⟩
          · exact ⟨.null, List.mem_append_right _ (List.mem_append_left _
              (n3 c (active_out hc) hco (active_iff.1 hc).2 hin))⟩
      obtain ⟨r1, r2⟩ := writes_read _ cx
        (by
          intro w hw
          obtain ⟨c, hc, hf, -⟩ := hsound w hw
          rw [← hf]; exact hout.walk c hc)
        (by
          intro w hw w' hw'
          obtain ⟨c, hc, hf, -⟩ := hsound w hw
          obtain ⟨c', hc', hf', -⟩ := hsound w' hw'
          rw [← hf, ← hf']
          rcases col_of_field hout hc hc' with hh | hh
          · exact .inl (by rw [hh])
          · exact .inr hh)
        (by
          intro w hw w' hw' he
          obtain ⟨c, hc, hf, hv⟩ := hsound w hw
          obtain ⟨c', hc', hf', hv'⟩ := hsound w' hw'
          have := col_of_path hout hc hc' (by rw [hf, hf', he])
          subst this
          exact hv.unique hv')
      rw [← hcx'] at r1 r2
      constructor
      · intro c hc
        obtain ⟨v, hv⟩ := hcomplete c hc
        obtain ⟨c', hc', hf', hcol⟩ := hsound _ hv
        have := col_of_path hout hc hc' hf'.symm
        subst this
        exact ⟨v, hcol, r1 _ hv⟩
      · intro q hq
        refine r2 q fun w hw => ?_
        obtain ⟨c, hc, hf, -⟩ := hsound w hw
        rw [← hf]; exact hq c hc

/-- (Missing from the full property: tables that mention `$` outside unary cells, overlapping output columns,
cells reading what the block itself writes, see `C43_sees_own_write`.) Both phases together: whatever the flags, when the block is carried out its columns have the values given
by the rows, and nothing else changes. -/
theorem C43_table_partial (ht : Tidy F t.asTable) {cx : Cx} (hout : OutputsOk t cx) (hfree : OwnFree F B t cx)
    (order : List (String × List Val) → List (String × List Val)) (horder : ∀ l, (order l).Perm l)
    (extras indexed trace : Bool) {sel : TSel} {cx' : Cx} {evals : List (List (String × Val))}
    (hsel : t.select F B extras (ixOf F t indexed) s = .ok sel)
    (hcom : t.commit F B order trace sel cx = .ok (cx', evals)) :
    (∀ c ∈ t.active, ∃ v, ColIs F B s cx.scope t c v ∧ cx'.store.dot c.field = some v) ∧
    ∀ q, (∀ c ∈ t.active, Independent (splitDot c.field) (splitDot q)) → cx'.store.dot q = cx.store.dot q :=
  (C43_table_commit (C43_table_select ht extras indexed sel hsel) hout hfree order horder trace).2 cx' evals hcom

theorem commitCols_same {used used' : List (Nat × String)} (hu : ∀ x, x ∈ used ↔ x ∈ used') {trace trace' : Bool}
    {row : Nat} {rule : Rule} (cs : List OCol) : ∀ st st' : CSt, st.cx = st'.cx → st.coll = st'.coll →
    st.written = st'.written →
    match commitCols F B trace used row rule cs st, commitCols F B trace' used' row rule cs st' with
    | .ok a, .ok b => a.cx = b.cx ∧ a.coll = b.coll ∧ a.written = b.written
    | .error e, .error e' => e = e'
    | _, _ => False := by
  induction cs with
  | nil => intro st st' h1 h2 h3; exact ⟨h1, h2, h3⟩
  | cons c cs ih =>
    intro st st' h1 h2 h3
    simp only [commitCols]
    by_cases hc : (row, c.id) ∈ used
    · simp only [hc, (hu _).1 hc, if_true]
      cases cellOf rule c.id with
      | none => exact ih st st' h1 h2 h3
      | some cell =>
        dsimp only
        rw [h1]
        cases freshRun F B st'.cx.scope .standard cell with
        | error e => rfl
        | ok v =>
          dsimp only
          cases c.collect with
          | true => exact ih _ _ rfl (by simp [h2]) h3
          | false => exact ih _ _ rfl h2 (by simp [h3])
    · have hc' : (row, c.id) ∉ used' := fun h => hc ((hu _).2 h)
      simp only [hc, hc', if_false]
      exact ih st st' h1 h2 h3

theorem commitRows_same {used used' : List (Nat × String)} (hu : ∀ x, x ∈ used ↔ x ∈ used') {trace trace' : Bool}
    (rows : List Nat) : ∀ st st' : CSt, st.cx = st'.cx → st.coll = st'.coll → st.written = st'.written →
    match commitRows F B t trace used rows st, commitRows F B t trace' used' rows st' with
    | .ok a, .ok b => a.cx = b.cx ∧ a.coll = b.coll ∧ a.written = b.written
    | .error e, .error e' => e = e'
    | _, _ => False := by
  induction rows with
  | nil => intro st st' h1 h2 h3; exact ⟨h1, h2, h3⟩
  | cons row rows ih =>
    intro st st' h1 h2 h3
    simp only [commitRows]
    cases t.rules[row]? with
    | none => exact ih st st' h1 h2 h3
    | some rule =>
      dsimp only
      have := commitCols_same (F := F) (B := B) hu (trace := trace) (trace' := trace') (row := row) (rule := rule)
        t.outputs { st with row := [] } { st' with row := [] } h1 h2 h3
      revert this
      cases commitCols F B trace used row rule t.outputs { st with row := [] } with
      | error e =>
        cases commitCols F B trace' used' row rule t.outputs { st' with row := [] } with
        | error e' => exact fun h => h
        | ok b => exact fun h => h.elim
      | ok a =>
        cases commitCols F B trace' used' row rule t.outputs { st' with row := [] } with
        | error e' => exact fun h => h.elim
        | ok b => exact fun h => ih _ _ h.1 h.2.1 h.2.2

theorem sorted_ext {l m : List Nat} (hl : l.Pairwise (· < ·)) (hm : m.Pairwise (· < ·)) (h : ∀ i, i ∈ l ↔ i ∈ m) :
    l = m := by
  induction hl generalizing m with
  | nil =>
    cases m with
    | nil => rfl
    | cons i m => exact absurd ((h i).2 (List.mem_cons_self ..)) (by simp)
  | @cons a l ha hl ih =>
    cases hm with
    | nil => exact absurd ((h a).1 (List.mem_cons_self ..)) (by simp)
    | @cons b m hb hm =>
      have hab : a = b := by
        rcases List.mem_cons.1 ((h a).1 (List.mem_cons_self ..)) with hh | hh
        · exact hh
        · rcases List.mem_cons.1 ((h b).2 (List.mem_cons_self ..)) with hh' | hh'
          · exact hh'.symm
          · have := hb a hh; have := ha b hh'; omega
      subst hab
      congr 1
      refine ih hm fun i => ?_
      constructor
      · intro hi
        rcases List.mem_cons.1 ((h i).1 (List.mem_cons_of_mem _ hi)) with rfl | hh
        · exact absurd (ha i hi) (by omega)
        · exact hh
      · intro hi
        rcases List.mem_cons.1 ((h i).2 (List.mem_cons_of_mem _ hi)) with rfl | hh
        · exact absurd (hb i hi) (by omega)
        · exact hh

/-- (Missing from the full property: that one run fails and the other does not, which happens, see
`C43_details_fail` and `C43_index_fails`.) Trace flags and the index do not change what a table writes: two selections made in the same environment
lead to the same error or to the same context. Nothing is assumed about the output columns. -/
theorem C43_table_trace_partial (ht : Tidy F t.asTable) (extras extras' indexed indexed' trace trace' : Bool) {sel sel' : TSel}
    (h : t.select F B extras (ixOf F t indexed) s = .ok sel)
    (h' : t.select F B extras' (ixOf F t indexed') s = .ok sel')
    (order : List (String × List Val) → List (String × List Val)) (cx : Cx) :
    (t.commit F B order trace sel cx).map Prod.fst = (t.commit F B order trace' sel' cx).map Prod.fst := by
  have s1 := C43_table_select ht extras indexed sel h
  have s2 := C43_table_select ht extras' indexed' sel' h'
  have hm : sel.matched = sel'.matched :=
    sorted_ext s1.sorted s2.sorted fun i => (s1.matched i).trans (s2.matched i).symm
  have hu : ∀ x, x ∈ sel.used ↔ x ∈ sel'.used := fun x => (s1.used x.1 x.2).trans (s2.used x.1 x.2).symm
  unfold PTable.commit
  dsimp only
  rw [hm]
  have := commitRows_same (F := F) (B := B) (t := t) hu (trace := trace) (trace' := trace') sel'.matched
    { cx := cx, coll := opened t.outputs [] } { cx := cx, coll := opened t.outputs [] } rfl rfl rfl
  revert this
  unfold opened
  generalize commitRows F B t trace sel.used sel'.matched _ = x
  generalize commitRows F B t trace' sel'.used sel'.matched _ = y
  intro this
  cases x with
  | error e =>
    cases y with
    | error e' => have : e = e' := this; rw [this]
    | ok b => exact this.elim
  | ok a =>
    cases y with
    | error e' => exact this.elim
    | ok b =>
      obtain ⟨h1, h2, h3⟩ := this
      simp only [Except.map, h1, h2, h3]

/-! ### When cells do not depend on the block's own writes -/

theorem baseSame_trans {L : List String} {a b c : Val} (h : BaseSame L a b) (h' : BaseSame L b c) : BaseSame L a c := by
  rcases h with rfl | ⟨m, m', rfl, rfl, h⟩
  · exact h'
  · rcases h' with rfl | ⟨n, n', h1, rfl, h'⟩
    · exact .inr ⟨m, m', rfl, rfl, h⟩
    · cases h1
      exact .inr ⟨m, n', rfl, rfl, fun k hk => (h k hk).trans (h' k hk)⟩

theorem splitDotC_head (cs : List Char) : (splitDotC cs).head? = some (cs.takeWhile (· ≠ '.')) := by
  induction cs with
  | nil => rfl
  | cons c cs ih =>
    unfold splitDotC
    by_cases h : c = '.'
    · simp [h]
    · rw [if_neg h]
      cases hs : splitDotC cs with
      | nil => rw [hs] at ih; cases ih
      | cons p ps =>
        rw [hs] at ih
        simp only [List.head?_cons, Option.some.injEq] at ih
        simp [h, ih]

theorem splitDot_topSeg (p : String) : ∃ ks, splitDot p = topSeg p :: ks := by
  have := splitDotC_head p.toList
  unfold splitDot topSeg
  cases hs : splitDotC p.toList with
  | nil => rw [hs] at this; cases this
  | cons x xs =>
    rw [hs] at this
    simp only [List.head?_cons, Option.some.injEq] at this
    exact ⟨_, by rw [List.map_cons, this]⟩

theorem dotInsert_same {L : List String} (d : Val) (p : String) (v : Val) (hp : topSeg p ∈ L) :
    BaseSame L (d.dotInsert p v).1 d := by
  obtain ⟨ks, hk⟩ := splitDot_topSeg p
  unfold dotInsert
  rw [hk]
  cases d with
  | obj m =>
    right
    cases ks with
    | nil =>
      refine ⟨_, m, rfl, rfl, fun k hkL => ?_⟩
      have : k ≠ topSeg p := fun e => hkL (e ▸ hp)
      simp [aGet_aSet, this]
    | cons k' ks =>
      refine ⟨_, m, rfl, rfl, fun k hkL => ?_⟩
      have : k ≠ topSeg p := fun e => hkL (e ▸ hp)
      simp [aGet_aSet, this]
  | _ => exact .inl (by cases ks <;> rfl)

theorem mirror_same {L : List String} (d e : Val) (p : String) (hp : topSeg p ∈ L) : BaseSame L (mirror d p e) e := by
  unfold mirror
  split
  · split
    · refine .inr ⟨_, _, rfl, rfl, fun k hkL => ?_⟩
      have : k ≠ topSeg p := fun e => hkL (e ▸ hp)
      simp [aGet_aSet, this]
    · exact .inl rfl
  · exact .inl rfl

theorem write_same {L : List String} (cx : Cx) (p : String) (v : Val) (hp : topSeg p ∈ L) :
    BaseSame L (cx.write p v).scope.base cx.scope.base := by
  cases h : cx.env with
  | none => simpa [Cx.scope, Cx.write, h] using dotInsert_same cx.store p v hp
  | some e => simpa [Cx.scope, Cx.write, h] using mirror_same (cx.store.dotInsert p v).1 e p hp

theorem writes_same {L : List String} (ws : List (String × Val)) : ∀ cx : Cx, (∀ w ∈ ws, topSeg w.1 ∈ L) →
    BaseSame L (writes ws cx).scope.base cx.scope.base := by
  induction ws with
  | nil => intro cx _; exact .inl rfl
  | cons w ws ih =>
    intro cx h
    exact baseSame_trans (ih (cx.write w.1 w.2) (fun x hx => h x (List.mem_cons_of_mem _ hx)))
      (write_same cx w.1 w.2 (h w (List.mem_cons_self ..)))

/-- It is enough that no output cell mentions a name the block writes under (or assigns, or asks for the whole
environment). -/
theorem C43_own_free (cx : Cx) (h : ∀ c ∈ t.active, ∀ rule ∈ t.rules, ∀ cell, cellOf rule c.id = some cell →
    ∀ n, F .standard cell = .ok n → NoAssign n ∧ Avoids (t.active.map fun c => topSeg c.field) n) :
    OwnFree F B t cx := by
  intro ws hws c hc rule hr cell hcell
  have hb : BaseSame (t.active.map fun c => topSeg c.field) (writes ws cx).scope.base cx.scope.base :=
    writes_same ws cx fun w hw => by
      obtain ⟨c', hc', he⟩ := hws w hw
      exact List.mem_map.2 ⟨c', hc', by rw [he]⟩
  have hs : SameOutside (t.active.map fun c => topSeg c.field) (writes ws cx).scope cx.scope := ⟨hb, fun _ _ => rfl⟩
  exact freshRun_congr hs (h c hc rule hr cell hcell)

/-! ### Where the claim needs its conditions -/

/-- Arms are found again by id: with two arms of the same id the second one's condition can hold and the
first one's value be written. -/
theorem C43_duplicate_ids :
    ∃ m : MatchB, ∃ sel, m.select tableFront demoB false demoInput = .ok sel ∧
      (∃ a, m.arms[1]? = some a ∧ ArmTrue tableFront demoB demoInput a ∧ a.value = "v") ∧
      (∃ a, m.arms[0]? = some a ∧ ArmFalse tableFront demoB demoInput a ∧ a.value = "u") ∧
      (m.commit tableFront demoB false sel { store := demoInput.base }).map (fun r => r.1.store.dot "out") =
        .ok (some (.num 1)) ∧
      freshRun tableFront demoB demoInput .standard "v" = .ok (.num 2) :=
  ⟨{ key := "out", arms := [⟨"same", "x", "u"⟩, ⟨"same", "", "v"⟩] },
   { matched := some "same", arms := [("same", false), ("same", true)] }, rfl,
   ⟨_, rfl, .inl rfl, rfl⟩, ⟨_, rfl, ⟨by decide, .str "b", rfl, by simp⟩, rfl⟩, rfl, rfl⟩

/-- expressions as in `tableFront`, with one that does not parse -/
def brokenFront : FrontEnd := fun k s => if s = "bad" then .error (.front "unexpected") else tableFront k s

/-- the first row has a broken condition and a cell that does not hold -/
def brokenRow : PTable where
  rules := [[("c2", "bad"), ("c1", "a"), ("o1", "u")],
    [("c1", "b"), ("o1", "v")], [("c1", "a"), ("o1", "u")], [("c1", "a"), ("o1", "u")], [("c1", "a"), ("o1", "u")],
    [("c1", "a"), ("o1", "u")], [("c1", "a"), ("o1", "u")], [("c1", "a"), ("o1", "u")]]
  inputs := [⟨"c2", none⟩, ⟨"c1", some "x"⟩]
  outputs := [⟨"o1", "res", false⟩]

/-- the second row has a column that cannot be evaluated; the first row settles the table without it -/
def brokenColumn : PTable where
  rules := [[("c1", "b"), ("o1", "u")],
    [("c2", "a"), ("o1", "v")], [("c1", "a"), ("o1", "u")], [("c1", "a"), ("o1", "u")], [("c1", "a"), ("o1", "u")],
    [("c1", "a"), ("o1", "u")], [("c1", "a"), ("o1", "u")], [("c1", "a"), ("o1", "u")]]
  inputs := [⟨"c1", some "x"⟩, ⟨"c2", some "bad"⟩]
  outputs := [⟨"o1", "res", false⟩]

theorem broken_tidy (t : PTable) (h1 : ∀ inp ∈ t.inputs, inp.field ≠ some "$")
    (h2 : ∀ rule ∈ t.rules, ∀ inp ∈ t.inputs, fieldOf inp = none → cellOf rule inp.id ≠ some "$") :
    Tidy brokenFront t.asTable := by
  have key : ∀ s, s ≠ "$" → NoDollar brokenFront s := by
    intro s hs n hn
    unfold brokenFront at hn
    split at hn
    · cases hn
    · cases hn
      exact ⟨trivial, by simpa [Avoids] using hs⟩
  refine ⟨fun inp hi f hf => ?_, fun rule hr inp hi hf cell hc => ?_, fun _ _ o ho => ?_⟩
  · obtain ⟨inp', hi', rfl⟩ := List.mem_map.1 hi
    refine key f fun e => h1 inp' hi' ?_
    subst e
    revert hf
    unfold normIn fieldOf
    dsimp only
    cases inp'.field with
    | none => exact fun h => nomatch h
    | some g =>
      dsimp only
      split
      · exact fun h => nomatch h
      · exact fun h => h
  · obtain ⟨inp', hi', rfl⟩ := List.mem_map.1 hi
    exact key cell fun e => h2 rule hr inp' hi' hf (e ▸ hc)
  · cases ho

/-- Asking for details can turn a result into an error: with the index the broken row is never looked at. -/
theorem C43_details_fail :
    Tidy brokenFront brokenRow.asTable ∧
    brokenRow.select brokenFront demoB true (ixOf brokenFront brokenRow true) demoInput =
      .error ("bad", .front "unexpected") ∧
    ∃ sel, brokenRow.select brokenFront demoB false (ixOf brokenFront brokenRow true) demoInput = .ok sel ∧
      sel.matched = [1] :=
  ⟨broken_tidy _ (by decide) (by decide +kernel), rfl, _, rfl, rfl⟩

/-- ... and an error into a result: the index evaluates every column it covers before any row. -/
theorem C43_index_fails :
    Tidy brokenFront brokenColumn.asTable ∧
    brokenColumn.select brokenFront demoB false (ixOf brokenFront brokenColumn true) demoInput =
      .error ("bad", .front "unexpected") ∧
    ∃ sel, brokenColumn.select brokenFront demoB true (ixOf brokenFront brokenColumn true) demoInput = .ok sel ∧
      sel.matched = [0] :=
  ⟨broken_tidy _ (by decide) (by decide +kernel), rfl, _, rfl, rfl⟩

/-! ### Instances -/

/-- nine rows, a scalar column, a scalar column without values and a collecting one -/
def demoPTable : PTable where
  rules := (demoTable .first "").rules
  inputs := (demoTable .first "").inputs
  outputs := [⟨"o1", "res.a", false⟩, ⟨"o2", "res.all", true⟩, ⟨"o3", "other", false⟩]

def demoCx : Cx := { store := demoInput.base, env := some demoInput.base }

theorem demoPTable_tidy : Tidy tableFront demoPTable.asTable :=
  ⟨(demoTable_tidy .first "").fields, (demoTable_tidy .first "").conds, fun _ _ _ ho => nomatch ho⟩

/-- Output cells are evaluated after the writes of earlier columns: here the second column reads the path the
first one writes and gets the new value, so `OwnFree` cannot be dropped. -/
theorem C43_sees_own_write :
    ∃ t : PTable, ∃ sel cx', t.select tableFront demoB false none demoInput = .ok sel ∧
      t.outputs = [⟨"o1", "x", false⟩, ⟨"o2", "res", false⟩] ∧ t.rules = [[("o1", "u"), ("o2", "x")]] ∧
      t.commit tableFront demoB id false sel { store := demoInput.base } = .ok (cx', []) ∧
      cx'.store.dot "res" = some (.num 1) ∧
      freshRun tableFront demoB demoInput .standard "x" = .ok (.str "b") :=
  ⟨{ rules := [[("o1", "u"), ("o2", "x")]], inputs := [], outputs := [⟨"o1", "x", false⟩, ⟨"o2", "res", false⟩] },
   _, _, rfl, rfl, rfl, rfl, rfl, rfl⟩

/-- a match block with a false arm, a true one and one that would fail -/
example : ∃ m : MatchB, ∃ a, m.arms = [⟨"1", "x", "u"⟩] ++ a :: [⟨"3", "bad", "w"⟩] ∧ (m.arms.map Arm.id).Nodup ∧
    (∀ x ∈ [(⟨"1", "x", "u"⟩ : Arm)], ArmFalse brokenFront demoB demoInput x) ∧ ArmTrue brokenFront demoB demoInput a ∧
    ArmFails brokenFront demoB demoInput ⟨"3", "bad", "w"⟩ (.front "unexpected") ∧
    ArmGives brokenFront demoB demoInput a (.ok (.num 2)) :=
  ⟨{ key := "out", arms := [⟨"1", "x", "u"⟩, ⟨"2", "", "v"⟩, ⟨"3", "bad", "w"⟩] }, ⟨"2", "", "v"⟩, rfl, by decide,
    fun x hx => by
      rw [List.mem_singleton] at hx; subst hx
      exact ⟨by decide, .str "b", rfl, by simp⟩,
    .inl rfl, ⟨by decide, rfl⟩, .inr ⟨by decide, .inl ⟨_, rfl, rfl⟩⟩⟩

theorem walkable_missing {m : List (String × Val)} {k : String} {ks : List String} (h : aGet m k = none) :
    Walkable (.obj m) (k :: ks) := by
  intro q hq hne x hx
  cases q with
  | nil => cases hx; rfl
  | cons k' q =>
    rw [List.cons_prefix_cons] at hq
    obtain ⟨rfl, -⟩ := hq
    simp [dotP, h] at hx

theorem demoPTable_out : OutputsOk demoPTable demoCx where
  ids := by decide
  fields := by
    have h : demoPTable.active.map (fun c => splitDot c.field) = [["res", "a"], ["res", "all"], ["other"]] := by
      decide +kernel
    have : (demoPTable.active.map (fun c => splitDot c.field)).Pairwise Independent := by
      rw [h]; unfold Independent; decide
    rwa [List.pairwise_map] at this
  walk := by
    have h : demoPTable.active.map (fun c => splitDot c.field) = [["res", "a"], ["res", "all"], ["other"]] := by
      decide +kernel
    intro c hc
    have hm : splitDot c.field ∈ demoPTable.active.map (fun c => splitDot c.field) :=
      List.mem_map_of_mem (f := fun c => splitDot c.field) hc
    rw [h] at hm
    simp only [List.mem_cons, List.not_mem_nil, or_false] at hm
    rcases hm with hm | hm | hm <;> rw [hm] <;> exact walkable_missing rfl

theorem demoPTable_free : OwnFree tableFront demoB demoPTable demoCx := by
  refine C43_own_free _ fun c hc rule hr cell hcell n hn => ?_
  cases hn
  refine ⟨trivial, ?_⟩
  have hL : (demoPTable.active.map fun c => topSeg c.field) = ["res", "res", "other"] := by decide +kernel
  rw [hL]
  have hall : ∀ c ∈ demoPTable.outputs, ∀ rule ∈ demoPTable.rules,
      cellOf rule c.id ≠ some "res" ∧ cellOf rule c.id ≠ some "other" := by decide +kernel
  obtain ⟨h1, h2⟩ := hall c (List.mem_filter.1 hc).1 rule hr
  rw [hcell] at h1 h2
  simpa [Avoids] using ⟨fun e => h1 (by rw [e]), fun e => h2 (by rw [e])⟩

example : ∃ sel cx', demoPTable.select tableFront demoB false (ixOf tableFront demoPTable true) demoInput = .ok sel ∧
    sel.matched = [1, 3, 4] ∧
    demoPTable.commit tableFront demoB id true sel demoCx = .ok (cx', [
      [("res.a", .num 2), ("res.all", .num 1)], [("res.all", .num 3)], [("res.all", .num 3)]]) ∧
    cx'.store.dot "res.a" = some (.num 2) ∧
    cx'.store.dot "res.all" = some (.arr [.num 1, .num 3, .num 3]) ∧
    cx'.store.dot "other" = some .null :=
  ⟨_, _, rfl, rfl, rfl, rfl, rfl, rfl⟩

end Zen.Policy
