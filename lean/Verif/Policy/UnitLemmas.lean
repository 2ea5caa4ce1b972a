import Verif.Policy.Unit
import Verif.Props.C43
import Verif.Props.C55
/-
Blocks in two environments that agree where the block looks: the same choice, the same writes.
-/
namespace Zen.Policy
open Zen Zen.Val

def RelRes {α : Type} (R : α → α → Prop) : Except XErr α → Except XErr α → Prop
  | .ok a, .ok b => R a b
  | .error e, .error e' => e = e'
  | _, _ => False

theorem mem_aKeys_aSet {V : Type} {l : List (String × V)} {k k' : String} {x : V} (h : k' ∈ aKeys (aSet l k x)) : k' ∈ aKeys l ∨ k' = k := by
  by_cases hk : k' = k
  · exact .inr hk
  · left
    have : aGet (aSet l k x) k' ≠ none := fun hn => ((aGet_eq_none_iff _ _).1 hn) h
    rw [aGet_aSet, if_neg hk] at this
    by_contra hc
    exact this ((aGet_eq_none_iff _ _).2 hc)

/-! ### The write phase -/
section
variable {F : FrontEnd} {B : Builtins} {R : Cx → Cx → Prop} {W : String → Prop}

/-- the write phase of a table, with the rest of what it keeps equal -/
def CRel (R : Cx → Cx → Prop) (W : String → Prop) (st st' : CSt) : Prop :=
  R st.cx st'.cx ∧ st.coll = st'.coll ∧ st.written = st'.written ∧ st.row = st'.row ∧ st.evals = st'.evals ∧ ∀ e ∈ st.coll, W e.1

theorem collPush_keys {coll : List (String × List Val)} {f : String} {v : Val} (h : ∀ e ∈ coll, W e.1) (hf : W f) :
    ∀ e ∈ collPush coll f v, W e.1 := by
  intro e he
  have : e.1 ∈ aKeys (collPush coll f v) := List.mem_map.2 ⟨e, he, rfl⟩
  unfold collPush at this
  replace this := mem_aKeys_aSet this
  rcases this with h1 | h1
  · obtain ⟨e', he', heq⟩ := List.mem_map.1 h1
    exact heq ▸ h e' he'
  · rw [h1]; exact hf

theorem commitCols_rel (hw : ∀ w v cx cx', W w → R cx cx' → R (cx.write w v) (cx'.write w v)) {trace : Bool} {used : List (Nat × String)}
    {row : Nat} {rule : Rule} : ∀ (cs : List OCol), (∀ c ∈ cs, (row, c.id) ∈ used → W c.field) →
      (∀ c ∈ cs, (row, c.id) ∈ used → ∀ cell, cellOf rule c.id = some cell → ∀ cx cx', R cx cx' →
        freshRun F B cx.scope .standard cell = freshRun F B cx'.scope .standard cell) →
      ∀ st st', CRel R W st st' → RelRes (CRel R W) (commitCols F B trace used row rule cs st) (commitCols F B trace used row rule cs st')
  | [], _, _, st, st', h => h
  | c :: cs, hW, hr, st, st', h => by
    have ih := commitCols_rel hw (trace := trace) (used := used) (row := row) (rule := rule) cs (fun c hc => hW c (by simp [hc])) fun c hc => hr c (by simp [hc])
    unfold commitCols
    by_cases hu : (row, c.id) ∈ used
    · rw [if_pos hu, if_pos hu]
      cases hc : cellOf rule c.id with
      | none => exact ih st st' h
      | some cell =>
        dsimp only
        rw [hr c (by simp) hu cell hc st.cx st'.cx h.1]
        cases freshRun F B st'.cx.scope .standard cell with
        | error e => rfl
        | ok v =>
          dsimp only
          obtain ⟨h1, h2, h3, h4, h5, h6⟩ := h
          have hWc := hW c (by simp) hu
          by_cases hco : c.collect = true
          · rw [if_pos hco, if_pos hco]
            refine ih _ _ ⟨h1, by simp only [h2], h3, by simp only [h4], h5, collPush_keys h6 hWc⟩
          · rw [if_neg hco, if_neg hco]
            refine ih _ _ ⟨hw _ v _ _ hWc h1, h2, by simp only [h3], by simp only [h4], h5, h6⟩
    · rw [if_neg hu, if_neg hu]
      exact ih st st' h

theorem commitRows_rel (hw : ∀ w v cx cx', W w → R cx cx' → R (cx.write w v) (cx'.write w v)) {t : PTable} {trace : Bool} {used : List (Nat × String)}
    (hW : ∀ row, ∀ c ∈ t.outputs, (row, c.id) ∈ used → W c.field)
    (hr : ∀ row rule, t.rules[row]? = some rule → ∀ c ∈ t.outputs, (row, c.id) ∈ used → ∀ cell, cellOf rule c.id = some cell → ∀ cx cx', R cx cx' →
        freshRun F B cx.scope .standard cell = freshRun F B cx'.scope .standard cell) :
    ∀ (rows : List Nat) st st', CRel R W st st' → RelRes (CRel R W) (commitRows F B t trace used rows st) (commitRows F B t trace used rows st')
  | [], st, st', h => h
  | row :: rows, st, st', h => by
    have ih := commitRows_rel hw (t := t) (trace := trace) (used := used) hW hr rows
    unfold commitRows
    cases hrow : t.rules[row]? with
    | none => exact ih st st' h
    | some rule =>
      dsimp only
      have h0 : CRel R W { st with row := [] } { st' with row := [] } := ⟨h.1, h.2.1, h.2.2.1, rfl, h.2.2.2.2⟩
      have := commitCols_rel (trace := trace) hw t.outputs (hW row) (hr row rule hrow) _ _ h0
      cases h1 : commitCols F B trace used row rule t.outputs { st with row := [] } with
      | error e =>
        cases h2 : commitCols F B trace used row rule t.outputs { st' with row := [] } with
        | error e' => rw [h1, h2] at this; exact this
        | ok b => rw [h1, h2] at this; exact this.elim
      | ok a =>
        cases h2 : commitCols F B trace used row rule t.outputs { st' with row := [] } with
        | error e' => rw [h1, h2] at this; exact this.elim
        | ok b =>
          rw [h1, h2] at this
          obtain ⟨g1, g2, g3, g4, g5, g6⟩ := this
          exact ih _ _ ⟨g1, g2, g3, g4, by simp only [g4, g5], g6⟩

theorem nullCols_rel (hw : ∀ w v cx cx', W w → R cx cx' → R (cx.write w v) (cx'.write w v)) : ∀ (cs : List OCol) (written : List String) (cx cx' : Cx),
    (∀ c ∈ cs, c.field.isEmpty = false → W c.field) → R cx cx' → R (nullCols cs written cx) (nullCols cs written cx')
  | [], _, _, _, _, h => h
  | c :: cs, written, cx, cx', hW, h => by
    unfold nullCols
    split
    · rename_i hc
      refine nullCols_rel hw cs _ _ _ (fun c hc => hW c (by simp [hc])) (hw _ _ _ _ (hW c (by simp) ?_) h)
      simp at hc
      simpa using hc.1.2
    · exact nullCols_rel hw cs _ _ _ (fun c hc => hW c (by simp [hc])) h

theorem writeAll_rel (hw : ∀ w v cx cx', W w → R cx cx' → R (cx.write w v) (cx'.write w v)) : ∀ (l : List (String × List Val)) (cx cx' : Cx),
    (∀ e ∈ l, W e.1) → R cx cx' → R (l.foldl (fun cx kv => cx.write kv.1 (.arr kv.2)) cx) (l.foldl (fun cx kv => cx.write kv.1 (.arr kv.2)) cx')
  | [], _, _, _, h => h
  | e :: l, cx, cx', hW, h => writeAll_rel hw l _ _ (fun x hx => hW x (by simp [hx])) (hw _ _ _ _ (hW e (by simp)) h)

theorem collOpen_keys {coll : List (String × List Val)} {f : String} (h : ∀ e ∈ coll, W e.1) (hf : W f) :
    ∀ e ∈ collOpen coll f, W e.1 := by
  unfold collOpen
  cases hg : aGet coll f with
  | some _ => exact h
  | none =>
    intro e he
    have : e.1 ∈ aKeys (aSet coll f []) := List.mem_map.2 ⟨e, he, rfl⟩
    replace this := mem_aKeys_aSet this
    rcases this with h1 | h1
    · obtain ⟨e', he', heq⟩ := List.mem_map.1 h1
      exact heq ▸ h e' he'
    · rw [h1]; exact hf

theorem collStart_keys : ∀ (cs : List OCol) (coll : List (String × List Val)), (∀ c ∈ cs, c.field.isEmpty = false → W c.field) → (∀ e ∈ coll, W e.1) →
    ∀ e ∈ cs.foldl (fun coll c => if c.collect && !c.field.isEmpty then collOpen coll c.field else coll) coll, W e.1
  | [], _, _, h => h
  | c :: cs, coll, hW, h => by
    refine collStart_keys cs _ (fun c hc => hW c (by simp [hc])) ?_
    dsimp only
    split
    · rename_i hc
      simp at hc
      exact collOpen_keys h (hW c (by simp) (by simpa using hc.2))
    · exact h

theorem table_rel {t : PTable} {order : List (String × List Val) → List (String × List Val)} (ho : ∀ l, ∀ e ∈ order l, e ∈ l) {trace : Bool} {sel : TSel}
    (hw : ∀ w v cx cx', W w → R cx cx' → R (cx.write w v) (cx'.write w v))
    (hW : ∀ row, ∀ c ∈ t.outputs, (row, c.id) ∈ sel.used → W c.field) (hA : ∀ c ∈ t.outputs, c.field.isEmpty = false → W c.field)
    (hr : ∀ row rule, t.rules[row]? = some rule → ∀ c ∈ t.outputs, (row, c.id) ∈ sel.used → ∀ cell, cellOf rule c.id = some cell → ∀ cx cx', R cx cx' →
        freshRun F B cx.scope .standard cell = freshRun F B cx'.scope .standard cell) {cx cx' : Cx} (h : R cx cx') :
    RelRes R ((PTable.commit F B t order trace sel cx).map Prod.fst) ((PTable.commit F B t order trace sel cx').map Prod.fst) := by
  have hc := collStart_keys t.outputs [] hA (fun e he => absurd he (by simp))
  have := commitRows_rel (trace := trace) hw hW hr sel.matched { cx := cx, coll := t.outputs.foldl (fun coll c => if c.collect && !c.field.isEmpty then collOpen coll c.field else coll) [] }
    { cx := cx', coll := t.outputs.foldl (fun coll c => if c.collect && !c.field.isEmpty then collOpen coll c.field else coll) [] } ⟨h, rfl, rfl, rfl, rfl, hc⟩
  unfold PTable.commit
  dsimp only
  revert this
  cases commitRows F B t trace sel.used sel.matched { cx := cx, coll := t.outputs.foldl (fun coll c => if c.collect && !c.field.isEmpty then collOpen coll c.field else coll) [] } with
  | error e =>
    cases commitRows F B t trace sel.used sel.matched { cx := cx', coll := t.outputs.foldl (fun coll c => if c.collect && !c.field.isEmpty then collOpen coll c.field else coll) [] } with
    | error e' => exact fun h => h
    | ok b => exact fun h => h.elim
  | ok a =>
    cases commitRows F B t trace sel.used sel.matched { cx := cx', coll := t.outputs.foldl (fun coll c => if c.collect && !c.field.isEmpty then collOpen coll c.field else coll) [] } with
    | error e' => exact fun h => h.elim
    | ok b =>
      rintro ⟨g1, g2, g3, g4, g5, g6⟩
      show R _ _
      dsimp only
      rw [← g2, ← g3]
      exact writeAll_rel hw _ _ _ (fun e he => g6 e (ho _ e he)) (nullCols_rel hw _ _ _ _ hA g1)

theorem match_rel {m : MatchB} {trace : Bool} {sel : MSel} (hw : ∀ w v cx cx', W w → R cx cx' → R (cx.write w v) (cx'.write w v))
    (hA : m.key.isEmpty = false → W m.key)
    (hr : ∀ a, (sel.matched.bind fun id => m.arms.find? fun a => a.id = id) = some a → a.value.isEmpty = false → ∀ cx cx', R cx cx' →
        freshRun F B cx.scope .standard a.value = freshRun F B cx'.scope .standard a.value) {cx cx' : Cx} (h : R cx cx') :
    RelRes R ((MatchB.commit F B m trace sel cx).map Prod.fst) ((MatchB.commit F B m trace sel cx').map Prod.fst) := by
  have hv : armValue F B cx (sel.matched.bind fun id => m.arms.find? fun a => a.id = id) = armValue F B cx' (sel.matched.bind fun id => m.arms.find? fun a => a.id = id) := by
    cases ha : sel.matched.bind fun id => m.arms.find? fun a => a.id = id with
    | none => rfl
    | some a =>
      unfold armValue
      dsimp only
      by_cases he : a.value.isEmpty = true
      · rw [if_pos he, if_pos he]
      · rw [if_neg he, if_neg he, hr a ha (by simpa using he) cx cx' h]
  unfold MatchB.commit
  rw [hv]
  cases armValue F B cx' (sel.matched.bind fun id => m.arms.find? fun a => a.id = id) with
  | error e => rfl
  | ok v =>
    show R _ _
    dsimp only
    cases he : m.key.isEmpty with
    | true => simpa using h
    | false => simpa using hw _ v _ _ (hA he) h

theorem expr_rel {key value : String} (hw : ∀ w v cx cx', W w → R cx cx' → R (cx.write w v) (cx'.write w v))
    (hA : (key.isEmpty || value.isEmpty) = false → W key)
    (hr : (key.isEmpty || value.isEmpty) = false → ∀ cx cx', R cx cx' → freshRun F B cx.scope .standard value = freshRun F B cx'.scope .standard value) {cx cx' : Cx} (h : R cx cx') :
    RelRes R (exprCommit F B key value cx) (exprCommit F B key value cx') := by
  unfold exprCommit
  cases he : (key.isEmpty || value.isEmpty) with
  | true => exact h
  | false =>
    simp only [Bool.false_eq_true, if_false]
    rw [hr he cx cx' h]
    cases freshRun F B cx'.scope .standard value with
    | error e => rfl
    | ok v => exact hw _ v _ _ (hA he) h

theorem condLoop_same {s s' : Scope} : ∀ (cs : List Cond) (a : ASt), (∀ c ∈ cs, freshRun F B s .standard c.expression = freshRun F B s' .standard c.expression) →
    condLoop F B s cs a = condLoop F B s' cs a
  | [], _, _ => rfl
  | c :: cs, a, h => by
    unfold condLoop
    rw [h c (by simp)]
    cases freshRun F B s' .standard c.expression with
    | error e => rfl
    | ok v => exact condLoop_same cs _ fun c hc => h c (by simp [hc])

theorem assert_rel {a : AssertB} (hw : ∀ w v cx cx', W w → R cx cx' → R (cx.write w v) (cx'.write w v))
    (hA : a.output.isEmpty = false → W a.output)
    (hr : ∀ c ∈ a.conds, ∀ cx cx', R cx cx' → freshRun F B cx.scope .standard c.expression = freshRun F B cx'.scope .standard c.expression) {cx cx' : Cx} (h : R cx cx') :
    RelRes R (AssertB.commit F B a cx) (AssertB.commit F B a cx') := by
  have hv : evalConds F B cx.scope a.conds = evalConds F B cx'.scope a.conds := by
    unfold evalConds
    rw [condLoop_same a.conds {} fun c hc => hr c hc cx cx' h]
  unfold AssertB.commit
  rw [hv]
  cases evalConds F B cx'.scope a.conds with
  | error e => rfl
  | ok b =>
    show R _ _
    cases he : a.output.isEmpty with
    | true => simpa using h
    | false => simpa using hw _ _ _ _ (hA he) h

end

/-! ### The test phase -/
section
variable {F : FrontEnd} {B : Builtins}

theorem selectArms_same {s s' : Scope} {extras : Bool} : ∀ (as : List Arm) (sel : MSel),
    (∀ a ∈ as, a.cond.isEmpty = false → freshRun F B s .standard a.cond = freshRun F B s' .standard a.cond) →
    selectArms F B s extras as sel = selectArms F B s' extras as sel
  | [], _, _ => rfl
  | a :: as, sel, h => by
    have ha : ∀ l, armTest F B s l a = armTest F B s' l a := by
      intro l
      unfold armTest
      by_cases he : a.cond.isEmpty = true
      · rw [if_pos he, if_pos he]
      · rw [if_neg he, if_neg he, h a (by simp) (by simpa using he)]
    unfold selectArms
    rw [ha]
    split
    · rfl
    · split
      · rfl
      · exact selectArms_same as _ fun a hm => h a (by simp [hm])

/-- the same state over another environment -/
def TSt.rebase (b : Val) (st : TSt) : TSt := { st with ev := { st.ev with scope := { st.ev.scope with base := b } } }

/-- no local but the tested value -/
def Loc (ls : List (String × Val)) : Prop := ls = [] ∨ ∃ v, ls = [("$", v)]

def At (b : Val) (st : TSt) : Prop := st.ev.scope.base = b ∧ Loc st.ev.scope.locals

/-- what is computed over one environment is computed over the other -/
def Reb {ρ : Type} (b b' : Val) (g : TSt → ρ × TSt) : Prop :=
  ∀ st, At b st → g (st.rebase b') = ((g st).1, (g st).2.rebase b') ∧ At b (g st).2

variable {b b' : Val}

theorem At.run {st : TSt} (h : At b st) {k : Kind} {src : String} (hr : ∀ ls, Loc ls → freshRun F B ⟨b, ls⟩ k src = freshRun F B ⟨b', ls⟩ k src) :
    freshRun F B (st.rebase b').ev.scope k src = freshRun F B st.ev.scope k src := by
  have := hr st.ev.scope.locals h.2
  show freshRun F B ⟨b', st.ev.scope.locals⟩ k src = _
  rw [← this, ← h.1]

theorem At.dollar {st : TSt} (h : At b st) (v : Val) : At b { st with ev := st.ev.setLocal "$" v } := by
  refine ⟨h.1, .inr ⟨v, ?_⟩⟩
  show aSet st.ev.scope.locals "$" v = _
  rcases h.2 with e | ⟨x, e⟩ <;> rw [e] <;> simp [aSet, aGet, aReplace]

theorem colValue_reb {i : Nat} {f : String} (hr : ∀ ls, Loc ls → freshRun F B ⟨b, ls⟩ .standard f = freshRun F B ⟨b', ls⟩ .standard f) :
    Reb b b' (colValue F B i f) := by
  intro st h
  unfold colValue
  have e : (st.rebase b').refs i = st.refs i := rfl
  rw [e]
  cases st.refs i with
  | some v => exact ⟨rfl, h⟩
  | none =>
    dsimp only
    unfold Ev.run
    rw [h.run hr]
    cases freshRun F B st.ev.scope .standard f with
    | error e => exact ⟨rfl, h⟩
    | ok v => exact ⟨rfl, h⟩

theorem evalCell_reb {i : Nat} {inp : TInput} {rule : Rule} (hf : ∀ f, fieldOf inp = some f → ∀ ls, Loc ls → freshRun F B ⟨b, ls⟩ .standard f = freshRun F B ⟨b', ls⟩ .standard f)
    (hc : ∀ cell, cellOf rule inp.id = some cell → ∀ ls, Loc ls → freshRun F B ⟨b, ls⟩ (cellKind inp) cell = freshRun F B ⟨b', ls⟩ (cellKind inp) cell) :
    Reb b b' (evalCell F B i inp rule) := by
  intro st h
  unfold evalCell
  cases hcell : cellOf rule inp.id with
  | none => exact ⟨rfl, h⟩
  | some cell =>
    dsimp only
    cases hfield : fieldOf inp with
    | some f =>
      dsimp only
      obtain ⟨e1, a1⟩ := colValue_reb (i := i) (hf f hfield) st h
      rw [e1]
      cases hcv : colValue F B i f st with
      | mk r st1 =>
        rw [hcv] at a1
        cases r with
        | error e => exact ⟨rfl, a1⟩
        | ok v =>
          dsimp only
          have hd : At b { st1 with ev := st1.ev.setLocal "$" v } := At.dollar a1 v
          have hk : cellKind inp = .unary := by unfold cellKind; rw [hfield]
          have : freshRun F B ((st1.rebase b').ev.setLocal "$" v).scope .unary cell = freshRun F B (st1.ev.setLocal "$" v).scope .unary cell :=
            hd.run (F := F) (B := B) (b' := b') (hk ▸ hc cell hcell)
          unfold Ev.runUnary
          rw [this]
          cases Iso.asBool (freshRun F B (st1.ev.setLocal "$" v).scope .unary cell) with
          | error e => exact ⟨rfl, hd⟩
          | ok v => exact ⟨rfl, hd⟩
    | none =>
      dsimp only
      have hk : cellKind inp = .standard := by unfold cellKind; rw [hfield]
      unfold Ev.run
      rw [h.run (hk ▸ hc cell hcell)]
      cases freshRun F B st.ev.scope .standard cell with
      | error e => exact ⟨rfl, h⟩
      | ok v => exact ⟨rfl, h⟩

/-- every expression of the inputs gives the same over both environments -/
def TestsSame (F : FrontEnd) (B : Builtins) (b b' : Val) (t : PTable) : Prop :=
  ∀ s ∈ (Body.table t).sources, ∀ ls, Loc ls → freshRun F B ⟨b, ls⟩ s.1 s.2 = freshRun F B ⟨b', ls⟩ s.1 s.2

variable {t : PTable}

theorem TestsSame.field (h : TestsSame F B b b' t) {inp : TInput} (hi : inp ∈ t.inputs) {f : String} (hf : fieldOf inp = some f) :
    ∀ ls, Loc ls → freshRun F B ⟨b, ls⟩ .standard f = freshRun F B ⟨b', ls⟩ .standard f :=
  h (.standard, f) (List.mem_append_left _ (List.mem_filterMap.2 ⟨inp, hi, by rw [hf]; rfl⟩))

theorem TestsSame.cell (h : TestsSame F B b b' t) {inp : TInput} (hi : inp ∈ t.inputs) {rule : Rule} (hr : rule ∈ t.rules) {cell : String}
    (hc : cellOf rule inp.id = some cell) : ∀ ls, Loc ls → freshRun F B ⟨b, ls⟩ (cellKind inp) cell = freshRun F B ⟨b', ls⟩ (cellKind inp) cell :=
  h (cellKind inp, cell) (List.mem_append_right _ (List.mem_flatMap.2 ⟨rule, hr, List.mem_filterMap.2 ⟨inp, hi, by rw [hc]; rfl⟩⟩))

theorem TestsSame.evalCell (h : TestsSame F B b b' t) {inp : TInput} (hi : inp ∈ t.inputs) {rule : Rule} (hr : rule ∈ t.rules) (i : Nat) :
    Reb b b' (evalCell F B i inp rule) :=
  evalCell_reb (fun _ hf => h.field hi hf) fun _ hc => h.cell hi hr hc

theorem rowPlain_reb (h : TestsSame F B b b' t) {decided : Nat → Bool} {rule : Rule} (hr : rule ∈ t.rules) : ∀ (inps : List TInput) (i : Nat),
    (∀ x ∈ inps, x ∈ t.inputs) → Reb b b' (rowPlain F B decided rule i inps)
  | [], _, _ => fun st ha => ⟨rfl, ha⟩
  | inp :: rest, i, hi => by
    have ih := fun j => rowPlain_reb h (decided := decided) hr rest j fun x hx => hi x (by simp [hx])
    intro st ha
    unfold rowPlain
    by_cases hd : decided i = true
    · rw [if_pos hd, if_pos hd]; exact ih (i + 1) st ha
    · rw [if_neg hd, if_neg hd]
      obtain ⟨e1, a1⟩ := h.evalCell (hi inp (by simp)) hr i st ha
      rw [e1]
      cases hc : evalCell F B i inp rule st with
      | mk r st1 =>
        rw [hc] at a1
        cases r with
        | error e => exact ⟨rfl, a1⟩
        | ok v => cases v with
          | false => exact ⟨rfl, a1⟩
          | true => exact ih (i + 1) st1 a1

theorem rowFull_reb (h : TestsSame F B b b' t) {unreached : Bool} {rule : Rule} (hr : rule ∈ t.rules) : ∀ (inps : List TInput) (i : Nat) (failed : Bool),
    (∀ x ∈ inps, x ∈ t.inputs) → Reb b b' (rowFull F B rule unreached i inps failed)
  | [], _, _, _ => fun st ha => ⟨rfl, ha⟩
  | inp :: rest, i, failed, hi => by
    have ih := fun j fl => rowFull_reb h (unreached := unreached) hr rest j fl fun x hx => hi x (by simp [hx])
    intro st ha
    unfold rowFull
    obtain ⟨e1, a1⟩ := h.evalCell (hi inp (by simp)) hr i st ha
    rw [e1]
    cases hc : evalCell F B i inp rule st with
    | mk r st1 =>
      rw [hc] at a1
      cases r with
      | error e =>
        dsimp only
        by_cases hu : (unreached || failed) = true
        · rw [if_pos hu, if_pos hu]
          obtain ⟨e2, a2⟩ := ih (i + 1) true st1 a1
          rw [e2]
          cases hc2 : rowFull F B rule unreached (i + 1) rest true st1 with
          | mk r2 st2 =>
            rw [hc2] at a2
            cases r2 with
            | error e => exact ⟨rfl, a2⟩
            | ok v => exact ⟨rfl, a2⟩
        · rw [if_neg hu, if_neg hu]; exact ⟨rfl, a1⟩
      | ok v =>
        dsimp only
        obtain ⟨e2, a2⟩ := ih (i + 1) (failed || !v) st1 a1
        rw [e2]
        cases hc2 : rowFull F B rule unreached (i + 1) rest (failed || !v) st1 with
        | mk r2 st2 =>
          rw [hc2] at a2
          cases r2 with
          | error e => exact ⟨rfl, a2⟩
          | ok v => exact ⟨rfl, a2⟩

theorem candLoop_reb (h : TestsSame F B b b' t) : ∀ (cols : List (Option ColIx)) (inps : List TInput) (i : Nat) (acc : Option Bits),
    (∀ x ∈ inps, x ∈ t.inputs) → Reb b b' (candLoop F B i cols inps acc)
  | [], _, _, _, _ => fun st ha => by unfold candLoop; exact ⟨rfl, ha⟩
  | none :: _, [], _, _, _ => fun st ha => by unfold candLoop; exact ⟨rfl, ha⟩
  | some _ :: _, [], _, _, _ => fun st ha => by unfold candLoop; exact ⟨rfl, ha⟩
  | none :: cols, inp :: rest, i, acc, hi => by
    intro st ha
    unfold candLoop
    exact candLoop_reb h cols rest (i + 1) acc (fun x hx => hi x (by simp [hx])) st ha
  | some column :: cols, inp :: rest, i, acc, hi => by
    have ih := fun acc => candLoop_reb h cols rest (i + 1) acc (fun x hx => hi x (by simp [hx]))
    intro st ha
    unfold candLoop
    cases hf : fieldOf inp with
    | none => exact ih acc st ha
    | some f =>
      dsimp only
      obtain ⟨e1, a1⟩ := colValue_reb (i := i) (h.field (hi inp (by simp)) hf) st ha
      rw [e1]
      cases hc : colValue F B i f st with
      | mk r st1 =>
        rw [hc] at a1
        cases r with
        | error e => exact ⟨rfl, a1⟩
        | ok v =>
          dsimp only
          by_cases hd : v.isDyn = true
          · rw [if_pos hd, if_pos hd]; exact ⟨rfl, a1⟩
          · rw [if_neg hd, if_neg hd]; exact ih _ st1 a1

theorem candRows_reb (h : TestsSame F B b b' t) (ix : Option TableIx) : Reb b b' (candRows F B t ix) := by
  intro st ha
  unfold candRows
  cases ix with
  | none => exact ⟨rfl, ha⟩
  | some ix => exact candLoop_reb h ix t.inputs 0 none (fun _ hx => hx) st ha

theorem evalRow_reb (h : TestsSame F B b b' t) {extras : Bool} {ix : Option TableIx} {cand : Option Bits} {unreached : Bool} {row : Nat} {rule : Rule}
    (hr : rule ∈ t.rules) : Reb b b' (evalRow F B t extras ix cand unreached row rule) := by
  intro st ha
  unfold evalRow
  by_cases he : extras = true
  · rw [if_pos he, if_pos he]
    obtain ⟨e1, a1⟩ := rowFull_reb h (unreached := unreached) hr t.inputs 0 false (fun _ hx => hx) st ha
    rw [e1]
    cases hc : rowFull F B rule unreached 0 t.inputs false st with
    | mk r st1 =>
      rw [hc] at a1
      cases r with
      | error e => exact ⟨rfl, a1⟩
      | ok v => exact ⟨rfl, a1⟩
  · rw [if_neg he, if_neg he]
    by_cases hs : skipped cand row = true
    · rw [if_pos hs, if_pos hs]; exact ⟨rfl, ha⟩
    · rw [if_neg hs, if_neg hs]
      obtain ⟨e1, a1⟩ := rowPlain_reb h (decided := decidedBy cand ix row) hr t.inputs 0 (fun _ hx => hx) st ha
      rw [e1]
      cases hc : rowPlain F B (decidedBy cand ix row) rule 0 t.inputs st with
      | mk r st1 =>
        rw [hc] at a1
        cases r with
        | error e => exact ⟨rfl, a1⟩
        | ok v => exact ⟨rfl, a1⟩

theorem selectRows_reb (h : TestsSame F B b b' t) {extras : Bool} {ix : Option TableIx} {cand : Option Bits} : ∀ (rules : List Rule) (row : Nat) (sel : TSel) (st : TSt),
    (∀ x ∈ rules, x ∈ t.rules) → At b st → selectRows F B t extras ix cand row rules sel (st.rebase b') = selectRows F B t extras ix cand row rules sel st
  | [], _, _, _, _, _ => rfl
  | rule :: rest, row, sel, st, hi, ha => by
    have ih := fun row sel st => selectRows_reb h (extras := extras) (ix := ix) (cand := cand) rest row sel st fun x hx => hi x (by simp [hx])
    unfold selectRows
    obtain ⟨e1, a1⟩ := evalRow_reb h (extras := extras) (ix := ix) (cand := cand) (unreached := sel.satisfied t) (row := row) (hi rule (by simp)) st ha
    rw [e1]
    cases hc : evalRow F B t extras ix cand (sel.satisfied t) row rule st with
    | mk r st1 =>
      rw [hc] at a1
      split
      · rfl
      · cases r with
        | error e => rfl
        | ok v =>
          dsimp only
          split
          · exact ih _ _ _ a1
          · exact ih _ _ _ a1

theorem select_same (h : TestsSame F B b b' t) (extras : Bool) (ix : Option TableIx) :
    PTable.select F B t extras ix ⟨b, []⟩ = PTable.select F B t extras ix ⟨b', []⟩ := by
  have a0 : At b { ev := { scope := ⟨b, []⟩ } } := ⟨rfl, .inl rfl⟩
  have e0 : ({ ev := { scope := ⟨b', []⟩ } } : TSt) = ({ ev := { scope := ⟨b, []⟩ } } : TSt).rebase b' := rfl
  unfold PTable.select
  by_cases he : extras = true
  · rw [if_pos he, if_pos he, e0, selectRows_reb h t.rules _ _ _ (fun _ hx => hx) a0]
  · rw [if_neg he, if_neg he, e0]
    obtain ⟨e1, a1⟩ := candRows_reb h ix _ a0
    rw [e1]
    cases hc : candRows F B t ix { ev := { scope := ⟨b, []⟩ } } with
    | mk r st1 =>
      rw [hc] at a1
      cases r with
      | error e => rfl
      | ok c => exact (selectRows_reb h t.rules _ _ _ (fun _ hx => hx) a1).symm

/-! what a table chooses are cells of columns that write something -/

def UsedOk (t : PTable) (sel : TSel) : Prop := ∀ u ∈ sel.used, ∃ c ∈ t.active, c.id = u.2

theorem takeCells_used (rule : Rule) (row : Nat) : ∀ (cs : List OCol) (tks : List Bool), ∀ u ∈ (takeCells rule row cs tks).2.1, ∃ c ∈ cs, c.id = u.2
  | [], tks => by intro u hu; unfold takeCells at hu; cases hu
  | c :: cs, [] => by intro u hu; unfold takeCells at hu; cases hu
  | c :: cs, tk :: tks => by
    intro u hu
    have ih := takeCells_used rule row cs tks
    unfold takeCells at hu
    dsimp only at hu
    split at hu
    · obtain ⟨c', hc, e⟩ := ih u hu; exact ⟨c', by simp [hc], e⟩
    · split at hu
      · rcases List.mem_cons.1 hu with rfl | hu
        · exact ⟨c, by simp, rfl⟩
        · obtain ⟨c', hc, e⟩ := ih u hu; exact ⟨c', by simp [hc], e⟩
      · split at hu
        · obtain ⟨c', hc, e⟩ := ih u hu; exact ⟨c', by simp [hc], e⟩
        · rcases List.mem_cons.1 hu with rfl | hu
          · exact ⟨c, by simp, rfl⟩
          · obtain ⟨c', hc, e⟩ := ih u hu; exact ⟨c', by simp [hc], e⟩

theorem hit_used {sel : TSel} (h : UsedOk t sel) (row : Nat) (rule : Rule) : UsedOk t (sel.hit t row rule) := by
  intro u hu
  rcases List.mem_append.1 hu with hu | hu
  · exact h u hu
  · exact takeCells_used rule row t.active sel.taken u hu

theorem selectRows_used {extras : Bool} {ix : Option TableIx} {cand : Option Bits} : ∀ (rules : List Rule) (row : Nat) (sel : TSel) (st : TSt) (sel' : TSel),
    UsedOk t sel → selectRows F B t extras ix cand row rules sel st = .ok sel' → UsedOk t sel'
  | [], _, _, _, _, h, hs => by injection hs with hs; subst hs; exact h
  | rule :: rest, row, sel, st, sel', h, hs => by
    unfold selectRows at hs
    split at hs
    · injection hs with hs; subst hs; exact h
    · split at hs
      · cases hs
      · dsimp only at hs
        split at hs
        · exact selectRows_used rest _ _ _ _ (by exact h) hs
        · exact selectRows_used rest _ _ _ _ (hit_used (by exact h) row rule) hs

theorem select_used {extras : Bool} {ix : Option TableIx} {s : Scope} {sel : TSel} (h : PTable.select F B t extras ix s = .ok sel) : UsedOk t sel := by
  have h0 : UsedOk t (.start t) := fun u hu => absurd hu (by simp [TSel.start])
  unfold PTable.select at h
  split at h
  · exact selectRows_used _ _ _ _ _ h0 h
  · split at h
    · cases h
    · exact selectRows_used _ _ _ _ _ h0 h

end
end Zen.Policy
