import Verif.Policy.Blocks
import Verif.Engine.TableLemmas
import Mathlib.Data.List.Forall2
/-
Helper lemmas for policy tables: the evaluation of rows and the row index.
-/
namespace Zen.Policy
open Zen
variable {F : FrontEnd} {B : Builtins} {s : Scope} {t : PTable}

/-- an input column with an empty expression is one without -/
def normIn (inp : TInput) : TInput := { inp with field := fieldOf inp }

/-- the table as far as its rows and input columns go -/
def PTable.asTable (t : PTable) : Table :=
  { rules := t.rules, inputs := t.inputs.map normIn, outputs := [], hit := .first }

theorem fieldOf_norm (inp : TInput) : fieldOf (normIn inp) = fieldOf inp := by
  unfold normIn fieldOf
  cases inp.field with
  | none => rfl
  | some f => dsimp only; split <;> simp_all

theorem build_norm (inp : TInput) (rules : List Rule) (n : Nat) :
    ColIx.build F (normIn inp) rules n = ColIx.build F inp rules n := by
  unfold ColIx.build normIn fieldOf
  cases inp.field with
  | none => rfl
  | some f =>
    dsimp only
    cases h : f.isEmpty with
    | true => simp
    | false => simp [h]

theorem buildIx_norm (t : PTable) :
    TableIx.build F t.asTable.inputs t.asTable.rules = TableIx.build F t.inputs t.rules := by
  unfold TableIx.build PTable.asTable
  simp [List.map_map, Function.comp_def, build_norm]

section
variable (F : FrontEnd) (B : Builtins)

/-- the result of a cell on its own -/
def cellRes (s : Scope) (inp : TInput) (rule : Rule) : Except XErr Bool :=
  match cellOf rule inp.id with
  | none => .ok true
  | some cell => match fieldOf inp with
    | some f => match freshRun F B s .standard f with
      | .error e => .error (f, e)
      | .ok v => match Iso.asBool (freshRun F B (s.setLocal "$" v) .unary cell) with
        | .ok b => .ok b
        | .error e => .error (cell, e)
    | none => match freshRun F B s .standard cell with
      | .ok v => .ok (truthy v)
      | .error e => .error (cell, e)

/-- the result of a row on its own: cells from left to right up to the first that fails or does not hold -/
def rowRes (s : Scope) (rule : Rule) : List TInput → Except XErr Bool
  | [] => .ok true
  | inp :: rest => match cellRes F B s inp rule with
    | .error e => .error e
    | .ok false => .ok false
    | .ok true => rowRes s rule rest

/-- the isolate differs from the environment of the block in `$` only, and cached column values are right -/
structure TOk (s : Scope) (t : PTable) (st : TSt) : Prop where
  ev : EvOk F B s st.ev
  refs : ∀ i v, st.refs i = some v → ∃ inp f, t.inputs[i]? = some inp ∧ fieldOf inp = some f ∧
    freshRun F B s .standard f = .ok v

end

theorem TOk.start : TOk F B s t { ev := { scope := s } } := ⟨EvOk.start, fun _ _ h => by cases h⟩

theorem EvOk.dollar {e : Ev} (h : EvOk F B s e) (v : Val) : EvOk F B s (e.setLocal "$" v) :=
  ⟨.inr ⟨v, h.setDollar v⟩, h.refs⟩

theorem tidy_field (ht : Tidy F t.asTable) {i : Nat} {inp : TInput} (hi : t.inputs[i]? = some inp)
    {f : String} (hf : fieldOf inp = some f) : NoDollar F f :=
  ht.fields (normIn inp) (List.mem_map_of_mem (List.mem_of_getElem? hi)) f hf

theorem tidy_cond (ht : Tidy F t.asTable) {i : Nat} {inp : TInput} (hi : t.inputs[i]? = some inp)
    (hf : fieldOf inp = none) {rule : Rule} (hr : rule ∈ t.rules) {cell : String}
    (hc : cellOf rule inp.id = some cell) : NoDollar F cell :=
  ht.conds rule hr (normIn inp) (List.mem_map_of_mem (List.mem_of_getElem? hi)) hf cell hc

theorem colValue_spec (ht : Tidy F t.asTable) {st : TSt} (h : TOk F B s t st) {i : Nat} {inp : TInput}
    (hi : t.inputs[i]? = some inp) {f : String} (hf : fieldOf inp = some f) :
    (colValue F B i f st).1 = (match freshRun F B s .standard f with
      | .ok v => .ok v
      | .error e => .error (f, e)) ∧ TOk F B s t (colValue F B i f st).2 ∧
    (colValue F B i f st).2.ev = st.ev := by
  unfold colValue
  cases hr : st.refs i with
  | some v =>
    obtain ⟨inp', f', hi', hf', hv⟩ := h.refs i v hr
    rw [hi] at hi'; cases hi'
    rw [hf] at hf'; cases hf'
    rw [hv]
    exact ⟨rfl, h, rfl⟩
  | none =>
    dsimp only
    rw [h.ev.run (tidy_field ht hi hf)]
    cases hv : freshRun F B s .standard f with
    | error e => exact ⟨rfl, h, rfl⟩
    | ok v =>
      refine ⟨rfl, ⟨h.ev, fun j w hw => ?_⟩, rfl⟩
      dsimp only at hw
      split at hw
      · rename_i hji; subst hji; cases hw; exact ⟨inp, f, hi, hf, hv⟩
      · exact h.refs j w hw

theorem evalCell_spec (ht : Tidy F t.asTable) {st : TSt} (h : TOk F B s t st) {i : Nat} {inp : TInput}
    (hi : t.inputs[i]? = some inp) {rule : Rule} (hr : rule ∈ t.rules) :
    (evalCell F B i inp rule st).1 = cellRes F B s inp rule ∧ TOk F B s t (evalCell F B i inp rule st).2 := by
  unfold evalCell cellRes
  cases hc : cellOf rule inp.id with
  | none => exact ⟨rfl, h⟩
  | some cell =>
    dsimp only
    cases hf : fieldOf inp with
    | some f =>
      dsimp only
      obtain ⟨g1, g2, g3⟩ := colValue_spec ht h hi hf
      rcases hcv : colValue F B i f st with ⟨r, st'⟩
      rw [hcv] at g1 g2 g3
      cases hv : freshRun F B s .standard f with
      | error e => rw [hv] at g1; subst g1; exact ⟨rfl, g2⟩
      | ok v =>
        rw [hv] at g1
        have g1 : r = .ok v := g1
        subst g1
        dsimp only
        have hun : (st'.ev.setLocal "$" v).runUnary F B cell =
            Iso.asBool (freshRun F B (s.setLocal "$" v) .unary cell) := by
          unfold Ev.runUnary Ev.setLocal
          dsimp only
          rw [g2.ev.setDollar v]
        have hok : TOk F B s t { st' with ev := st'.ev.setLocal "$" v } := ⟨EvOk.dollar g2.ev v, g2.refs⟩
        rw [hun]
        cases Iso.asBool (freshRun F B (s.setLocal "$" v) .unary cell) with
        | ok b => exact ⟨rfl, hok⟩
        | error e => exact ⟨rfl, hok⟩
    | none =>
      dsimp only
      rw [h.ev.run (tidy_cond ht hi hf hr hc)]
      cases freshRun F B s .standard cell with
      | ok v => exact ⟨rfl, h⟩
      | error e => exact ⟨rfl, h⟩

theorem rowPlain_spec (ht : Tidy F t.asTable) {rule : Rule} (hr : rule ∈ t.rules) {decided : Nat → Bool}
    (inps : List TInput) : ∀ (i : Nat) (st : TSt), TOk F B s t st → t.inputs.drop i = inps →
    (∀ k inp, t.inputs[k]? = some inp → decided k = true → cellRes F B s inp rule = .ok true) →
    (rowPlain F B decided rule i inps st).1 = rowRes F B s rule inps ∧
      TOk F B s t (rowPlain F B decided rule i inps st).2 := by
  induction inps with
  | nil => intro i st h _ _; exact ⟨rfl, h⟩
  | cons inp rest ih =>
    intro i st h hd hdec
    have hi : t.inputs[i]? = some inp := by
      have : (t.inputs.drop i)[0]? = some inp := by rw [hd]; rfl
      rwa [List.getElem?_drop, Nat.add_zero] at this
    have hd' : t.inputs.drop (i + 1) = rest := by
      have : (t.inputs.drop i).drop 1 = rest := by rw [hd]; rfl
      rwa [List.drop_drop] at this
    simp only [rowPlain, rowRes]
    split
    · rename_i hdi
      rw [hdec i inp hi hdi]
      exact ih (i + 1) st h hd' hdec
    · obtain ⟨g1, g2⟩ := evalCell_spec (rule := rule) ht h hi hr
      rcases he : evalCell F B i inp rule st with ⟨r, st'⟩
      rw [he] at g1 g2
      dsimp only at g1 g2
      subst g1
      cases hc : cellRes F B s inp rule with
      | error e => exact ⟨rfl, g2⟩
      | ok b =>
        cases b with
        | false => exact ⟨rfl, g2⟩
        | true => exact ih (i + 1) st' g2 hd' hdec

/-- evaluating every cell of a row finds out the same about the row, errors included -/
theorem rowFull_spec (ht : Tidy F t.asTable) {rule : Rule} (hr : rule ∈ t.rules) {unreached : Bool}
    (inps : List TInput) : ∀ (i : Nat) (failed : Bool) (st : TSt), TOk F B s t st → t.inputs.drop i = inps →
    TOk F B s t (rowFull F B rule unreached i inps failed st).2 ∧
    ((unreached || failed) = true → ∃ bs, (rowFull F B rule unreached i inps failed st).1 = .ok bs) ∧
    ((unreached || failed) = false →
      (∀ e, rowRes F B s rule inps = .error e → (rowFull F B rule unreached i inps failed st).1 = .error e) ∧
      (∀ b, rowRes F B s rule inps = .ok b →
        ∃ bs, (rowFull F B rule unreached i inps failed st).1 = .ok bs ∧ bs.all id = b)) := by
  induction inps with
  | nil =>
    intro i failed st h _
    refine ⟨h, fun _ => ⟨[], rfl⟩, fun _ => ⟨fun e he => by simp [rowRes] at he, fun b hb => ⟨[], rfl, ?_⟩⟩⟩
    simp only [rowRes, Except.ok.injEq] at hb
    simp [hb.symm]
  | cons inp rest ih =>
    intro i failed st h hd
    have hi : t.inputs[i]? = some inp := by
      have : (t.inputs.drop i)[0]? = some inp := by rw [hd]; rfl
      rwa [List.getElem?_drop, Nat.add_zero] at this
    have hd' : t.inputs.drop (i + 1) = rest := by
      have : (t.inputs.drop i).drop 1 = rest := by rw [hd]; rfl
      rwa [List.drop_drop] at this
    simp only [rowFull, rowRes]
    obtain ⟨g1, g2⟩ := evalCell_spec (rule := rule) ht h hi hr
    rcases he : evalCell F B i inp rule st with ⟨r, st'⟩
    rw [he] at g1 g2
    dsimp only at g1 g2
    subst g1
    cases hc : cellRes F B s inp rule with
    | error e =>
      dsimp only
      cases hu : unreached || failed with
      | false =>
        simp only [Bool.false_eq_true, if_false]
        refine ⟨g2, ?_, fun _ => ⟨fun e' he' => ?_, fun b hb => ?_⟩⟩
        · intro hh; cases hh
        · cases he'; rfl
        · cases hb
      | true =>
        simp only [if_true]
        obtain ⟨k1, k2, _⟩ := ih (i + 1) true st' g2 hd'
        obtain ⟨bs, hbs⟩ := k2 (by simp)
        rcases hf : rowFull F B rule unreached (i + 1) rest true st' with ⟨r', st''⟩
        rw [hf] at k1 hbs
        dsimp only at hbs k1
        subst hbs
        refine ⟨k1, fun _ => ⟨_, rfl⟩, ?_⟩
        intro hh; cases hh
    | ok b =>
      dsimp only
      obtain ⟨k1, k2, k3⟩ := ih (i + 1) (failed || !b) st' g2 hd'
      rcases hf : rowFull F B rule unreached (i + 1) rest (failed || !b) st' with ⟨r', st''⟩
      rw [hf] at k1 k2 k3
      dsimp only at k1 k2 k3
      refine ⟨by cases r' <;> exact k1, ?_, ?_⟩
      · intro hu
        obtain ⟨bs, hbs⟩ := k2 (by revert hu; cases unreached <;> cases failed <;> simp)
        subst hbs; exact ⟨_, rfl⟩
      · intro hu
        cases b with
        | true =>
          obtain ⟨m1, m2⟩ := k3 (by revert hu; cases unreached <;> cases failed <;> simp)
          refine ⟨fun e he => ?_, fun b hb => ?_⟩
          · have := m1 e he; subst this; rfl
          · obtain ⟨bs, h1, h2⟩ := m2 b hb; subst h1; exact ⟨_, rfl, by simpa using h2⟩
        | false =>
          obtain ⟨bs, hbs⟩ := k2 (by simp)
          subst hbs
          refine ⟨fun e he => (by cases he), fun b hb => ⟨_, rfl, ?_⟩⟩
          cases hb; simp

theorem truthy_iff (v : Val) : truthy v = true ↔ v = .bool true := by
  cases v <;> simp [truthy]

theorem cellRes_true {inp : TInput} {rule : Rule} :
    cellRes F B s inp rule = .ok true ↔
      ∀ cell, cellOf rule inp.id = some cell → CellHolds F B s (fieldOf inp) cell := by
  unfold cellRes
  cases hc : cellOf rule inp.id with
  | none => simp
  | some cell =>
    dsimp only
    have : (∀ c, some cell = some c → CellHolds F B s (fieldOf inp) c) ↔ CellHolds F B s (fieldOf inp) cell :=
      ⟨fun h => h cell rfl, fun h c hc => by cases hc; exact h⟩
    rw [this]
    cases hf : fieldOf inp with
    | none =>
      simp only [CellHolds]
      cases freshRun F B s .standard cell with
      | error e => simp
      | ok v => simp [truthy_iff]
    | some f =>
      simp only [CellHolds]
      cases freshRun F B s .standard f with
      | error e => simp
      | ok v =>
        dsimp only
        rw [show (∃ r, (Except.ok v : Except IErr Val) = .ok r ∧
          freshRun F B (s.setLocal "$" r) .unary cell = .ok (.bool true)) ↔
          freshRun F B (s.setLocal "$" v) .unary cell = .ok (.bool true) from
          ⟨fun ⟨r, h1, h2⟩ => by cases h1; exact h2, fun h => ⟨v, rfl, h⟩⟩, ← asBool_true]
        cases Iso.asBool (freshRun F B (s.setLocal "$" v) .unary cell) with
        | error e => simp
        | ok b => simp

theorem rowRes_true {rule : Rule} (inps : List TInput) :
    rowRes F B s rule inps = .ok true ↔ ∀ inp ∈ inps, cellRes F B s inp rule = .ok true := by
  induction inps with
  | nil => simp [rowRes]
  | cons inp rest ih =>
    simp only [rowRes, List.mem_cons, forall_eq_or_imp]
    cases hc : cellRes F B s inp rule with
    | error e => simp
    | ok b => cases b <;> simp [ih]

/-- a row holds exactly when its evaluation says so -/
theorem rowRes_holds (t : PTable) {rule : Rule} :
    rowRes F B s rule t.inputs = .ok true ↔ RowHolds F B s t.asTable rule := by
  rw [rowRes_true]
  unfold RowHolds PTable.asTable
  simp only [List.mem_map, forall_exists_index, and_imp, forall_apply_eq_imp_iff₂]
  exact ⟨fun h inp hi => cellRes_true.1 (h inp hi), fun h inp hi => cellRes_true.2 (h inp hi)⟩

/-! ### The index -/

theorem pNarrow_spec {rt : Nat → Option ArmTest} {rows k : Nat} {ix : ColIx} (h : ColOk rt rows k ix)
    (v : Val) (acc : Option Bits) (ha : ∀ a, acc = some a → a.len = rows) :
    (pNarrow ix v acc).len = rows ∧ ∀ i, (pNarrow ix v acc).contains i = true ↔
      (∀ a, acc = some a → a.contains i = true) ∧ (ix.fallback.contains i = true ∨ ix.hits v i = true) := by
  obtain ⟨n1, n2⟩ := narrow_spec h v none (fun _ hh => by cases hh)
  have hcol : pNarrow ix v none = narrow ix v none := rfl
  cases acc with
  | none => rw [hcol]; exact ⟨n1, n2⟩
  | some a =>
    have hal := ha a rfl
    have : pNarrow ix v (some a) = a.intersectWith (narrow ix v none) := rfl
    rw [this]
    refine ⟨hal, fun i => ?_⟩
    rw [Bits.contains_intersectWith (by rw [hal, n1])]
    have := n2 i
    simp only [Bool.and_eq_true, this]
    constructor
    · rintro ⟨h1, -, h2⟩; exact ⟨fun b hb => by cases hb; exact h1, h2⟩
    · rintro ⟨h1, h2⟩; exact ⟨h1 a rfl, (fun b hb => by cases hb), h2⟩

/-- candidates: nothing but rows whose captured cells hold, and every row whose cells hold -/
theorem candLoop_spec (ht : Tidy F t.asTable) (inps : List TInput) :
    ∀ (k : Nat) (acc : Option Bits) (st : TSt), TOk F B s t st → t.inputs.drop k = inps →
    (∀ a, acc = some a → a.len = t.rules.length) →
    TOk F B s t (candLoop F B k (inps.map fun c => ColIx.build F c t.rules t.rules.length) inps acc st).2 ∧
    ∀ c, (candLoop F B k (inps.map fun c => ColIx.build F c t.rules t.rules.length) inps acc st).1 = .ok (some c) →
      ∀ i rule, t.rules[i]? = some rule →
        ((c.contains i = true → (∀ a, acc = some a → a.contains i = true) ∧
          ∀ (inp : TInput) ix, inp ∈ inps → ColIx.build F inp t.rules t.rules.length = some ix →
            ix.captured.contains i = true → cellRes F B s inp rule = .ok true) ∧
        ((∀ a, acc = some a → a.contains i = true) →
          (∀ inp ∈ inps, cellRes F B s inp rule = .ok true) → c.contains i = true)) := by
  induction inps with
  | nil =>
    intro k acc st h _ ha
    refine ⟨h, fun c hc i rule hi => ?_⟩
    simp only [List.map_nil, candLoop, Except.ok.injEq] at hc
    subst hc
    exact ⟨fun h => ⟨fun a ha => by cases ha; exact h, fun _ _ hm => nomatch hm⟩, fun h _ => h c rfl⟩
  | cons inp rest ih =>
    intro k acc st h hd ha
    have hik : t.inputs[k]? = some inp := by
      have : (t.inputs.drop k)[0]? = some inp := by rw [hd]; rfl
      rwa [List.getElem?_drop, Nat.add_zero] at this
    have hd' : t.inputs.drop (k + 1) = rest := by
      have : (t.inputs.drop k).drop 1 = rest := by rw [hd]; rfl
      rwa [List.drop_drop] at this
    simp only [List.map_cons]
    cases hb : ColIx.build F inp t.rules t.rules.length with
    | none =>
      simp only [candLoop]
      obtain ⟨g1, g2⟩ := ih (k + 1) acc st h hd' ha
      refine ⟨g1, fun c hc i rule hi => ?_⟩
      obtain ⟨k1, k2⟩ := g2 c hc i rule hi
      refine ⟨fun hci => ⟨(k1 hci).1, fun inp' ix hm hbx => ?_⟩, fun hacc hall => ?_⟩
      · rcases List.mem_cons.1 hm with e | e
        · subst e; rw [hb] at hbx; cases hbx
        · exact (k1 hci).2 inp' ix e hbx
      · exact k2 hacc (fun inp' hm => hall inp' (List.mem_cons_of_mem _ hm))
    | some ix =>
      obtain ⟨⟨f, hf, hfe⟩, hok⟩ := colOk_build hb
      have hfo : fieldOf inp = some f := by simp [fieldOf, hf, hfe]
      obtain ⟨r1, r2, -⟩ := colValue_spec ht h hik hfo
      simp only [candLoop, hfo]
      rcases hcv : colValue F B k f st with ⟨r, st'⟩
      rw [hcv] at r1 r2
      dsimp only at r1 r2
      cases hr : freshRun F B s .standard f with
      | error er =>
        rw [hr] at r1; dsimp only at r1; subst r1
        exact ⟨r2, fun c hc => by cases hc⟩
      | ok v =>
        rw [hr] at r1; dsimp only at r1; subst r1
        dsimp only
        split
        · exact ⟨r2, fun c hc => by cases hc⟩
        · obtain ⟨n1, n2⟩ := pNarrow_spec hok v acc ha
          obtain ⟨g1, g2⟩ := ih (k + 1) (some (pNarrow ix v acc)) st' r2 hd' (fun a ha => by cases ha; exact n1)
          refine ⟨g1, fun c hc i rule hi => ?_⟩
          obtain ⟨k1, k2⟩ := g2 c hc i rule hi
          have hlt : i < t.rules.length := by
            rcases Nat.lt_or_ge i t.rules.length with hh | hh
            · exact hh
            · rw [List.getElem?_eq_none hh] at hi; cases hi
          have hta : testAt F inp.id t.rules i = rowTest F inp.id rule := by simp [testAt, hi]
          refine ⟨fun hci => ?_, fun hacc hall => ?_⟩
          · obtain ⟨m1, m2⟩ := k1 hci
            have hnar := (n2 i).1 (m1 _ rfl)
            refine ⟨hnar.1, fun inp' ix' hm hbx hcap => ?_⟩
            rcases List.mem_cons.1 hm with e | e
            · subst e
              rw [hb] at hbx; cases hbx
              rw [hok.cap] at hcap
              have hcap := of_decide_eq_true hcap
              have hnfb : ¬ ix.fallback.contains i = true := by
                rw [hok.fb]
                simp only [decide_eq_true_eq, not_and]
                intro _ hn
                rw [hn] at hcap; simp at hcap
              rcases hnar.2 with hh | hh
              · exact absurd hh hnfb
              · obtain ⟨_, tt, htt, hth⟩ := (hok.hits v i).1 hh
                rw [hta] at htt
                refine cellRes_true.2 fun cell hcell => ?_
                rw [hfo]
                exact (rowTest_holds hcell htt hr).1 hth
            · exact m2 inp' ix' e hbx hcap
          · refine k2 (fun a ha' => ?_) (fun inp' hm => hall inp' (List.mem_cons_of_mem _ hm))
            cases ha'
            refine (n2 i).2 ⟨hacc, ?_⟩
            rw [hok.fb, hok.hits]
            cases htt : rowTest F inp.id rule with
            | none => left; simp [hlt, hta, htt]
            | some tt =>
              right
              refine ⟨hlt, tt, by rw [hta, htt], ?_⟩
              cases hcell : cellOf rule inp.id with
              | none => simp [rowTest, hcell] at htt
              | some cell =>
                have := cellRes_true.1 (hall inp (List.mem_cons_self ..)) cell hcell
                rw [hfo] at this
                exact (rowTest_holds hcell htt hr).2 this

/-- pruning: skipped rows do not hold, decided cells of other rows do -/
structure PPrune (F : FrontEnd) (B : Builtins) (s : Scope) (t : PTable) (ix : Option TableIx)
    (cand : Option Bits) : Prop where
  skips : ∀ i rule, t.rules[i]? = some rule → skipped cand i = true → rowRes F B s rule t.inputs ≠ .ok true
  dec : ∀ i rule, t.rules[i]? = some rule → skipped cand i = false → ∀ k inp, t.inputs[k]? = some inp →
    decidedBy cand ix i k = true → cellRes F B s inp rule = .ok true

theorem pprune_none (ix : Option TableIx) : PPrune F B s t ix none :=
  ⟨fun _ _ _ h => (by cases h), fun _ _ _ _ _ _ _ h => (by cases ix <;> cases h)⟩

theorem pprune_cand (ht : Tidy F t.asTable) {ix : Option TableIx}
    (hix : ix = none ∨ ix = TableIx.build F t.inputs t.rules) {st : TSt} (h : TOk F B s t st) :
    TOk F B s t (candRows F B t ix st).2 ∧
    ∀ cand, (candRows F B t ix st).1 = .ok cand → PPrune F B s t ix cand := by
  cases ix with
  | none => exact ⟨h, fun cand hc => by simp only [candRows] at hc; cases hc; exact pprune_none _⟩
  | some ix =>
    have hb : TableIx.build F t.inputs t.rules = some ix := by
      rcases hix with hh | hh
      · cases hh
      · exact hh.symm
    have heq : ix = t.inputs.map fun c => ColIx.build F c t.rules t.rules.length := by
      unfold TableIx.build at hb
      dsimp only at hb
      split at hb
      · cases hb
      · split at hb
        · cases hb; rfl
        · cases hb
    obtain ⟨g1, g2⟩ := candLoop_spec ht t.inputs 0 none st h rfl (fun _ hh => by cases hh)
    rw [← heq] at g1 g2
    simp only [candRows]
    refine ⟨g1, fun cand hc => ?_⟩
    cases cand with
    | none => exact pprune_none _
    | some c =>
      have g2 := g2 c hc
      constructor
      · intro i rule hi hs hrow
        have := (g2 i rule hi).2 (fun a ha => by cases ha) ((rowRes_true _).1 hrow)
        simp [skipped, this] at hs
      · intro i rule hi hs k inp hk hd
        have hci : c.contains i = true := by simpa [skipped] using hs
        have hm := ((g2 i rule hi).1 hci).2
        simp only [decidedBy, TableIx.decides] at hd
        rw [heq, List.getElem?_map, hk] at hd
        simp only [Option.map_some] at hd
        cases hcol : ColIx.build F inp t.rules t.rules.length with
        | none => rw [hcol] at hd; cases hd
        | some col =>
          rw [hcol] at hd
          exact hm inp col (List.mem_of_getElem? hk) hcol hd

/-- what the evaluation of a row says, in every mode -/
theorem evalRow_spec (ht : Tidy F t.asTable) {extras : Bool} {ix : Option TableIx} {cand : Option Bits}
    (hp : PPrune F B s t ix cand) {unreached : Bool} {row : Nat} {rule : Rule}
    (hr : t.rules[row]? = some rule) {st : TSt} (h : TOk F B s t st) (hu : extras = false → unreached = false) :
    TOk F B s t (evalRow F B t extras ix cand unreached row rule st).2 ∧
    (unreached = true → ∃ b bs, (evalRow F B t extras ix cand unreached row rule st).1 = .ok (b, bs)) ∧
    (unreached = false → ∀ b bs, (evalRow F B t extras ix cand unreached row rule st).1 = .ok (b, bs) →
      (b = true ↔ RowHolds F B s t.asTable rule)) ∧
    (unreached = false → (extras = true ∨ cand = none) →
      ∀ e, rowRes F B s rule t.inputs = .error e →
        (evalRow F B t extras ix cand unreached row rule st).1 = .error e) ∧
    (unreached = false → ∀ b, rowRes F B s rule t.inputs = .ok b →
      ∃ bs, (evalRow F B t extras ix cand unreached row rule st).1 = .ok (b, bs)) := by
  have hmem := List.mem_of_getElem? hr
  rw [← rowRes_holds]
  unfold evalRow
  cases extras with
  | true =>
    simp only [if_true]
    obtain ⟨g1, g2, g3⟩ := rowFull_spec (unreached := unreached) ht hmem t.inputs 0 false st h rfl
    rcases hf : rowFull F B rule unreached 0 t.inputs false st with ⟨r, st'⟩
    rw [hf] at g1 g2 g3
    dsimp only at g1 g2 g3
    refine ⟨by cases r <;> exact g1, ?_, ?_, ?_, ?_⟩
    · intro hu
      obtain ⟨bs, hbs⟩ := g2 (by simp [hu])
      subst hbs; exact ⟨_, _, rfl⟩
    · intro hu b bs hb
      obtain ⟨m1, m2⟩ := g3 (by simp [hu])
      cases hrr : rowRes F B s rule t.inputs with
      | error e => have := m1 e hrr; subst this; cases hb
      | ok b' =>
        obtain ⟨bs', h1, h2⟩ := m2 b' hrr
        subst h1
        dsimp only at hb
        cases hb
        rw [h2]; simp
    · intro hu _ e he
      have := (g3 (by simp [hu])).1 e he
      subst this; rfl
    · intro hu b hb
      obtain ⟨bs, h1, h2⟩ := (g3 (by simp [hu])).2 b hb
      subst h1; exact ⟨bs, by dsimp only; rw [h2]⟩
  | false =>
    simp only [Bool.false_eq_true, if_false]
    have hu := hu rfl
    subst hu
    cases hs : skipped cand row with
    | true =>
      simp only [if_true]
      refine ⟨h, (fun hh => by cases hh), ?_, ?_, ?_⟩
      · intro _ b bs hb
        cases hb
        have := hp.skips row rule hr hs
        simp [this]
      · rintro _ (hh | hh) e he
        · cases hh
        · subst hh; cases hs
      · intro _ b hb
        cases b with
        | true => exact absurd hb (hp.skips row rule hr hs)
        | false => exact ⟨[], rfl⟩
    | false =>
      simp only [Bool.false_eq_true, if_false]
      obtain ⟨g1, g2⟩ := rowPlain_spec (decided := decidedBy cand ix row) ht hmem t.inputs 0 st h rfl
        (fun k inp hk hd => hp.dec row rule hr hs k inp hk hd)
      rcases hf : rowPlain F B (decidedBy cand ix row) rule 0 t.inputs st with ⟨r, st'⟩
      rw [hf] at g1 g2
      dsimp only at g1 g2
      subst g1
      refine ⟨?_, (fun hh => by cases hh), ?_, ?_, ?_⟩
      · cases rowRes F B s rule t.inputs <;> exact g2
      · intro _ b bs hb
        cases hrr : rowRes F B s rule t.inputs with
        | error e => rw [hrr] at hb; cases hb
        | ok b' => rw [hrr] at hb; cases hb; simp
      · intro _ _ e he; rw [he]
      · intro _ b hb; exact ⟨[], by rw [hb]⟩

end Zen.Policy
