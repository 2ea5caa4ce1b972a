import Verif.Policy.Lint
import Verif.Props.C43
/-
Helper lemmas for the table hints: two tables, one of which has some rows of the other.
-/
namespace Zen.Policy
open Zen
variable {F : FrontEnd} {B : Builtins} {s : Scope} {t t' : PTable}

/-- `t'` has the rows `f 0, f 1, …` of `t`; every matching row of `t` left out comes after a matching row that
has a cell in every output column in which the row has one; nothing is collected -/
structure RowsWithin (F : FrontEnd) (B : Builtins) (s : Scope) (t t' : PTable) (f : Nat → Nat) : Prop where
  outs : t'.outputs = t.outputs
  mono : ∀ i j : Nat, f i < f j ↔ i < j
  rules : ∀ i : Nat, t'.rules[i]? = t.rules[f i]?
  holds : ∀ (i : Nat) rule, t'.rules[i]? = some rule → (RowHolds F B s t'.asTable rule ↔ RowHolds F B s t.asTable rule)
  extra : ∀ j rule, RowAt F B s t j rule → (∀ i, f i ≠ j) → ∃ j' rule', j' < j ∧ RowAt F B s t j' rule' ∧
    ∀ c ∈ t.active, cellOf rule c.id ≠ none → cellOf rule' c.id ≠ none
  scalar : (∃ i, ∀ j, f j ≠ i) → ∀ c ∈ t.active, c.collect = false

namespace RowsWithin
variable {f : Nat → Nat} (h : RowsWithin F B s t t' f)
include h

theorem active : t'.active = t.active := by unfold PTable.active; rw [h.outs]

theorem rowAt (i : Nat) (rule : Rule) : RowAt F B s t' i rule ↔ RowAt F B s t (f i) rule := by
  unfold RowAt
  rw [← h.rules i]
  exact and_congr_right fun hr => h.holds i rule hr

/-- a matching row is a row of `t'` or comes after one that serves as much -/
theorem kept (j : Nat) : ∀ rule, RowAt F B s t j rule → ∃ i rule', f i ≤ j ∧ RowAt F B s t' i rule' ∧
    ∀ c ∈ t.active, cellOf rule c.id ≠ none → cellOf rule' c.id ≠ none := by
  induction j using Nat.strongRecOn with
  | _ j ih =>
    intro rule hr
    by_cases hi : ∃ i, f i = j
    · obtain ⟨i, rfl⟩ := hi
      exact ⟨i, rule, le_refl _, (h.rowAt i rule).2 hr, fun _ _ hc => hc⟩
    · obtain ⟨j', rule', hj, hr', hc⟩ := h.extra j rule hr fun i e => hi ⟨i, e⟩
      obtain ⟨i, rule'', h1, h2, h3⟩ := ih j' hj rule' hr'
      exact ⟨i, rule'', by omega, h2, fun c hm hn => h3 c hm (hc c hm hn)⟩

theorem served (i : Nat) {c : OCol} (hc : c ∈ t.active) : Served F B s t' i c.id ↔ Served F B s t (f i) c.id := by
  constructor
  · rintro ⟨j, rule, hj, hr, hcell⟩
    exact ⟨f j, rule, (h.mono j i).2 hj, (h.rowAt j rule).1 hr, hcell⟩
  · rintro ⟨j, rule, hj, hr, hcell⟩
    obtain ⟨i', rule', h1, h2, h3⟩ := h.kept j rule hr
    exact ⟨i', rule', (h.mono i' i).1 (by omega), h2, h3 c hc hcell⟩

theorem done (i : Nat) : Done F B s t' i ↔ Done F B s t (f i) := by
  unfold Done
  rw [h.active]
  refine and_congr_right fun _ => and_congr ?_ ?_
  · constructor
    · rintro ⟨j, rule, hj, hr⟩
      exact ⟨f j, rule, (h.mono j i).2 hj, (h.rowAt j rule).1 hr⟩
    · rintro ⟨j, rule, hj, hr⟩
      obtain ⟨i', rule', h1, h2, -⟩ := h.kept j rule hr
      exact ⟨i', rule', (h.mono i' i).1 (by omega), h2⟩
  · exact forall_congr' fun c => forall_congr' fun hc => h.served i hc

theorem uses (i : Nat) {c : OCol} (hc : c ∈ t.active) : Uses F B s t' i c ↔ Uses F B s t (f i) c := by
  unfold Uses
  rw [h.served i hc]
  exact exists_congr fun rule => and_congr_left fun _ => h.rowAt i rule

theorem not_uses {j : Nat} (hj : ∀ i, f i ≠ j) {c : OCol} (hc : c ∈ t.active) : ¬ Uses F B s t j c := by
  rintro ⟨rule, hr, hcell, hh | hh⟩
  · rw [h.scalar ⟨j, hj⟩ c hc] at hh; cases hh
  · obtain ⟨j', rule', h1, h2, h3⟩ := h.extra j rule hr hj
    exact hh ⟨j', rule', h1, h2, h3 c hc hcell⟩

end RowsWithin

/-- what matters of a state while rows are written -/
def SameC : Except XErr CSt → Except XErr CSt → Prop
  | .ok a, .ok b => a.cx = b.cx ∧ a.coll = b.coll ∧ a.written = b.written
  | .error e, .error e' => e = e'
  | _, _ => False

theorem commitCols_shift {used used' : List (Nat × String)} {row row' : Nat}
    (hu : ∀ id, (row, id) ∈ used ↔ (row', id) ∈ used') {trace trace' : Bool}
    {rule : Rule} (cs : List OCol) : ∀ st st' : CSt, st.cx = st'.cx → st.coll = st'.coll →
    st.written = st'.written →
    SameC (commitCols F B trace used row rule cs st) (commitCols F B trace' used' row' rule cs st') := by
  induction cs with
  | nil => intro st st' h1 h2 h3; exact ⟨h1, h2, h3⟩
  | cons c cs ih =>
    intro st st' h1 h2 h3
    simp only [commitCols]
    by_cases hc : (row, c.id) ∈ used
    · simp only [hc, (hu _).1 hc, if_true]
      cases cellOf rule c.id with
      | none => exact ih st st' h1 h2 h3
      | some cell =>
        dsimp only
        rw [h1]
        cases freshRun F B st'.cx.scope .standard cell with
        | error e => exact rfl
        | ok v =>
          dsimp only
          cases c.collect with
          | true => exact ih _ _ rfl (by simp [h2]) h3
          | false => exact ih _ _ rfl h2 (by simp [h3])
    · have hc' : (row', c.id) ∉ used' := fun h => hc ((hu _).2 h)
      simp only [hc, hc', if_false]
      exact ih st st' h1 h2 h3

theorem commitCols_unused {used : List (Nat × String)} {row : Nat} {trace : Bool} {rule : Rule} (cs : List OCol)
    (hu : ∀ c ∈ cs, (row, c.id) ∉ used) (st : CSt) : commitCols F B trace used row rule cs st = .ok st := by
  induction cs with
  | nil => rfl
  | cons c cs ih =>
    simp only [commitCols, hu c (List.mem_cons_self ..), if_false]
    exact ih fun c hc => hu c (List.mem_cons_of_mem _ hc)

/-- writing the rows of one table and of the other: rows in `rows` that are not of the form `f i` write
nothing, the others write the same -/
theorem commitRows_within {f : Nat → Nat} {used used' : List (Nat × String)} {trace trace' : Bool}
    (ho : t'.outputs = t.outputs) (hr : ∀ i, t'.rules[i]? = t.rules[f i]?)
    (hu : ∀ i id, (f i, id) ∈ used ↔ (i, id) ∈ used')
    {p : Nat → Bool} (hp : ∀ j, p j = false → ∀ c ∈ t.outputs, (j, c.id) ∉ used)
    (rows : List Nat) : ∀ (rows' : List Nat) (st st' : CSt), rows.filter p = rows'.map f →
    st.cx = st'.cx → st.coll = st'.coll → st.written = st'.written →
    SameC (commitRows F B t trace used rows st) (commitRows F B t' trace' used' rows' st') := by
  induction rows with
  | nil =>
    intro rows' st st' hm h1 h2 h3
    cases rows' with
    | nil => exact ⟨h1, h2, h3⟩
    | cons => cases hm
  | cons row rows ih =>
    intro rows' st st' hm h1 h2 h3
    cases hrow : p row with
    | false =>
      rw [List.filter_cons_of_neg (by simp [hrow])] at hm
      simp only [commitRows]
      cases t.rules[row]? with
      | none => exact ih rows' st st' hm h1 h2 h3
      | some rule =>
        dsimp only
        rw [commitCols_unused t.outputs (hp row hrow)]
        exact ih rows' _ st' hm h1 h2 h3
    | true =>
      rw [List.filter_cons_of_pos hrow] at hm
      cases rows' with
      | nil => cases hm
      | cons row' rows' =>
        rw [List.map_cons, List.cons.injEq] at hm
        obtain ⟨rfl, hm⟩ := hm
        simp only [commitRows]
        rw [hr row', ho]
        cases t.rules[f row']? with
        | none => exact ih rows' st st' hm h1 h2 h3
        | some rule =>
          dsimp only
          have := commitCols_shift (F := F) (B := B) (hu row') (trace := trace) (trace' := trace') (rule := rule)
            t.outputs { st with row := [] } { st' with row := [] } h1 h2 h3
          revert this
          cases commitCols F B trace used (f row') rule t.outputs { st with row := [] } with
          | error e =>
            cases commitCols F B trace' used' row' rule t.outputs { st' with row := [] } with
            | error e' => exact fun h => h
            | ok b => exact fun h => h.elim
          | ok a =>
            cases commitCols F B trace' used' row' rule t.outputs { st' with row := [] } with
            | error e' => exact fun h => h.elim
            | ok b => exact fun h => ih rows' _ _ hm h.1 h.2.1 h.2.2

theorem sorted_map {f : Nat → Nat} (hf : ∀ i j, f i < f j ↔ i < j) {l : List Nat} (hl : l.Pairwise (· < ·)) :
    (l.map f).Pairwise (· < ·) := by
  rw [List.pairwise_map]
  exact hl.imp fun h => (hf _ _).2 h

/-- what is written by a table and by one with some of its rows -/
theorem RowsWithin.commit {f : Nat → Nat} (h : RowsWithin F B s t t' f) {sel sel' : TSel} (h1 : SelSpec F B s t sel)
    (h2 : SelSpec F B s t' sel') (order : List (String × List Val) → List (String × List Val))
    (trace trace' : Bool) (cx : Cx) :
    (t.commit F B order trace sel cx).map Prod.fst = (t'.commit F B order trace' sel' cx).map Prod.fst := by
  classical
  have hm : sel.matched.filter (fun j => decide (∃ i, f i = j)) = sel'.matched.map f := by
    refine sorted_ext (h1.sorted.filter _) (sorted_map h.mono h2.sorted) fun j => ?_
    simp only [List.mem_filter, decide_eq_true_eq, List.mem_map, h1.matched, h2.matched]
    constructor
    · rintro ⟨⟨⟨rule, hr⟩, hd⟩, i, rfl⟩
      exact ⟨i, ⟨⟨rule, (h.rowAt i rule).2 hr⟩, fun hh => hd ((h.done i).1 hh)⟩, rfl⟩
    · rintro ⟨i, ⟨⟨rule, hr⟩, hd⟩, rfl⟩
      exact ⟨⟨⟨rule, (h.rowAt i rule).1 hr⟩, fun hh => hd ((h.done i).2 hh)⟩, i, rfl⟩
  have hu : ∀ i id, (f i, id) ∈ sel.used ↔ (i, id) ∈ sel'.used := by
    intro i id
    rw [h1.used, h2.used, h.active]
    exact exists_congr fun c => and_congr_right fun hc => and_congr_right fun _ => (h.uses i hc).symm
  have hp : ∀ j, (decide (∃ i, f i = j)) = false → ∀ c ∈ t.outputs, (j, c.id) ∉ sel.used := by
    intro j hj c hc hin
    obtain ⟨c', hc', -, hu'⟩ := (h1.used j c.id).1 hin
    exact h.not_uses (fun i e => by simp [e] at hj; exact hj i e) hc' hu'
  have key := commitRows_within (F := F) (B := B) h.outs h.rules hu hp (trace := trace) (trace' := trace')
    sel.matched sel'.matched { cx := cx, coll := opened t.outputs [] } { cx := cx, coll := opened t.outputs [] }
    hm rfl rfl rfl
  unfold PTable.commit
  dsimp only
  rw [h.outs]
  revert key
  unfold opened
  generalize commitRows F B t trace sel.used sel.matched _ = x
  generalize commitRows F B t' trace' sel'.used sel'.matched _ = y
  intro key
  cases x with
  | error e =>
    cases y with
    | error e' => have : e = e' := key; rw [this]
    | ok b => exact key.elim
  | ok a =>
    cases y with
    | error e' => exact key.elim
    | ok b =>
      obtain ⟨h1, h2, h3⟩ := key
      simp only [Except.map, h1, h2, h3]

/-- Without the index, rows are chosen exactly when every row that is looked at can be evaluated. -/
theorem select_ok_iff (ht : Tidy F t.asTable) (extras : Bool) :
    (∃ sel, t.select F B extras none s = .ok sel) ↔
      ∀ i rule, t.rules[i]? = some rule → ¬ Done F B s t i → ∃ b, rowRes F B s rule t.inputs = .ok b := by
  have key : ∀ (rest : List Rule) (row : Nat) (sel : TSel) (st : TSt), t.rules.drop row = rest →
      SelInv F B s t row sel → TOk F B s t st →
      ((∃ sel', selectRows F B t false none none row rest sel st = .ok sel') ↔
        ∀ i rule, row ≤ i → t.rules[i]? = some rule → ¬ Done F B s t i →
          ∃ b, rowRes F B s rule t.inputs = .ok b) := by
    intro rest
    induction rest with
    | nil =>
      intro row sel st hd _ _
      refine ⟨fun _ i rule hi hr _ => ?_, fun _ => ⟨_, rfl⟩⟩
      have : t.rules.length ≤ row := List.drop_eq_nil_iff.1 hd
      rw [List.getElem?_eq_none (by omega)] at hr
      cases hr
    | cons rule rest ih =>
      intro row sel st hd h hst
      obtain ⟨hrow, hd'⟩ := at_drop hd
      simp only [selectRows, Bool.not_false, Bool.and_true]
      cases hsat : sel.satisfied t with
      | true =>
        have hdone := h.satisfied.1 hsat
        simp only [if_true]
        exact ⟨fun _ i _ hi _ hn => absurd (hdone.mono hi) hn, fun _ => ⟨_, rfl⟩⟩
      | false =>
        simp only [Bool.false_eq_true, if_false]
        have hnd : ¬ Done F B s t row := fun hh => by rw [h.satisfied.2 hh] at hsat; cases hsat
        obtain ⟨g1, g2⟩ := rowPlain_spec (F := F) (B := B) (s := s) (t := t) ht (List.mem_of_getElem? hrow)
          (decided := decidedBy none none row) t.inputs 0 st hst rfl (fun k inp _ hdec => by simp [decidedBy] at hdec)
        have hev : evalRow F B t false none none false row rule st =
            match rowPlain F B (decidedBy none none row) rule 0 t.inputs st with
            | (.ok b, st) => (.ok (b, []), st)
            | (.error e, st) => (.error e, st) := rfl
        rw [hev]
        rcases hrp : rowPlain F B (decidedBy none none row) rule 0 t.inputs st with ⟨r, st'⟩
        rw [hrp] at g1 g2
        dsimp only at g1 g2
        subst g1
        cases hrr : rowRes F B s rule t.inputs with
        | error e =>
          dsimp only
          constructor
          · rintro ⟨_, hh⟩; cases hh
          · intro hh
            obtain ⟨b, hb⟩ := hh row rule (le_refl _) hrow hnd
            rw [hrr] at hb; cases hb
        | ok b =>
          dsimp only
          have split : ∀ P : Prop, (P ↔ ∀ i rule, row + 1 ≤ i → t.rules[i]? = some rule → ¬ Done F B s t i →
              ∃ b, rowRes F B s rule t.inputs = .ok b) →
              (P ↔ ∀ i rule, row ≤ i → t.rules[i]? = some rule → ¬ Done F B s t i →
                ∃ b, rowRes F B s rule t.inputs = .ok b) := by
            intro P hP
            rw [hP]
            constructor
            · intro hh i rule' hi hr hn
              rcases Nat.eq_or_lt_of_le hi with rfl | hlt
              · rw [hrow] at hr; cases hr; exact ⟨b, hrr⟩
              · exact hh i rule' hlt hr hn
            · intro hh i rule' hi; exact hh i rule' (by omega)
          have hsame : Same sel { sel with bits := sel.bits ++ [[]] } := ⟨rfl, rfl, rfl, rfl⟩
          cases b with
          | false =>
            simp only [Bool.not_false, Bool.true_or, if_true]
            refine split _ (ih (row + 1) _ st' hd' (SelInv.congr (h.skip (.inl ?_)) hsame) g2)
            rintro ⟨r2, hr2, hr3⟩
            rw [hrow] at hr2; cases hr2
            rw [(rowRes_holds t).2 hr3] at hrr
            cases hrr
          | true =>
            simp only [Bool.not_true, Bool.false_or, Bool.false_eq_true, if_false]
            exact split _ (ih (row + 1) _ st' hd'
              (SelInv.congr (h.hit ⟨hrow, (rowRes_holds t).1 hrr⟩ hnd) (hsame.hit t row rule)) g2)
  have h0 : (∃ sel, t.select F B false none s = .ok sel) ↔
      ∀ i rule, t.rules[i]? = some rule → ¬ Done F B s t i → ∃ b, rowRes F B s rule t.inputs = .ok b := by
    have := key t.rules 0 (.start t) { ev := { scope := s } } rfl .start .start
    simp only [Nat.zero_le, true_imp_iff] at this
    exact this
  cases extras with
  | false => exact h0
  | true =>
    rw [← h0]
    obtain ⟨x1, -⟩ := C43_table_extras (B := B) (s := s) ht
    constructor
    · rintro ⟨sel, hs⟩
      cases hf : t.select F B false none s with
      | ok a => exact ⟨a, rfl⟩
      | error e => rw [(x1 e).2 hf] at hs; cases hs
    · rintro ⟨sel, hs⟩
      cases hf : t.select F B true none s with
      | ok a => exact ⟨a, rfl⟩
      | error e => rw [(x1 e).1 hf] at hs; cases hs

end Zen.Policy
