import Verif.Engine.TableLemmas
/-
Helper lemmas: the loops over the rows.
-/
namespace Zen
section
variable {F : FrontEnd} {B : Builtins} {s : Scope} {t : Table} {skip : Nat → Bool}
  {decided : Nat → Nat → Bool}

theorem drop_head {rules : List Rule} {row : Nat} {rule : Rule} {rest : List Rule}
    (h : rules.drop row = rule :: rest) : rules[row]? = some rule ∧ rules.drop (row + 1) = rest := by
  constructor
  · have : (rules.drop row)[0]? = some rule := by rw [h]; rfl
    rwa [List.getElem?_drop, Nat.add_zero] at this
  · have : (rules.drop row).drop 1 = rest := by rw [h]; rfl
    rwa [List.drop_drop] at this

theorem firstRow_spec (ht : Tidy F t) (hp : PruneOk F B s t skip decided) (rest : List Rule) :
    ∀ (row : Nat) (e : Ev), t.rules.drop row = rest → EvOk F B s e →
    (∀ r, firstRow F B t skip decided row rest e = some r → ∃ rule, row ≤ r.1 ∧
      t.rules[r.1]? = some rule ∧ Fires F B s t rule r.2 ∧
      ∀ j, row ≤ j → j < r.1 → ∀ q, t.rules[j]? = some q → ¬ ∃ w, Fires F B s t q w) ∧
    (firstRow F B t skip decided row rest e = none → ∀ r ∈ rest, ¬ ∃ w, Fires F B s t r w) := by
  induction rest with
  | nil => intro row e _ _; exact ⟨(fun r hr => by cases hr), (fun _ r hr => by cases hr)⟩
  | cons rule rest ih =>
    intro row e hd h
    obtain ⟨hi, hd'⟩ := drop_head hd
    have lift : ∀ e, EvOk F B s e → (¬ ∃ w, Fires F B s t rule w) →
        (∀ r, firstRow F B t skip decided (row + 1) rest e = some r → ∃ rule, row ≤ r.1 ∧
          t.rules[r.1]? = some rule ∧ Fires F B s t rule r.2 ∧
          ∀ j, row ≤ j → j < r.1 → ∀ q, t.rules[j]? = some q → ¬ ∃ w, Fires F B s t q w) ∧
        (firstRow F B t skip decided (row + 1) rest e = none →
          ∀ r ∈ rule :: rest, ¬ ∃ w, Fires F B s t r w) := by
      intro e he hno
      obtain ⟨i1, i2⟩ := ih (row + 1) e hd' he
      refine ⟨fun r hr => ?_, fun hn r hr => ?_⟩
      · obtain ⟨q, h1, h2, h3, h4⟩ := i1 r hr
        refine ⟨q, by omega, h2, h3, fun j hj hjr p hpj => ?_⟩
        by_cases e' : j = row
        · subst e'; rw [hi] at hpj; cases hpj; exact hno
        · exact h4 j (by omega) hjr p hpj
      · rcases List.mem_cons.1 hr with e' | e'
        · subst e'; exact hno
        · exact i2 hn r e'
    simp only [firstRow]
    split
    · rename_i hs
      exact lift e h (fun ⟨w, hw⟩ => hp.skips row rule hi hs hw.1)
    · rename_i hs
      obtain ⟨g1, g2, g3⟩ := evaluateRow_spec ht hp hi (by simpa using hs) h
      rcases hr : evaluateRow F B t (decided row) rule e with ⟨o, e'⟩
      rw [hr] at g1 g2 g3
      cases o with
      | none => exact lift e' g1 (g3 rfl)
      | some v =>
        refine ⟨fun r hr => ?_, fun hn => by cases hn⟩
        cases hr
        exact ⟨rule, Nat.le_refl _, hi, g2 v rfl, fun j h1 h2 => by dsimp only at h2; omega⟩

theorem collectRows_spec (ht : Tidy F t) (hp : PruneOk F B s t skip decided) (rest : List Rule) :
    ∀ (row : Nat) (e : Ev), t.rules.drop row = rest → EvOk F B s e →
    Collected F B s t rest ((collectRows F B t skip decided row rest e).map Prod.snd) := by
  induction rest with
  | nil => intro row e _ _; exact .nil
  | cons rule rest ih =>
    intro row e hd h
    obtain ⟨hi, hd'⟩ := drop_head hd
    simp only [collectRows]
    split
    · rename_i hs
      exact .miss (fun ⟨w, hw⟩ => hp.skips row rule hi hs hw.1) (ih _ _ hd' h)
    · rename_i hs
      obtain ⟨g1, g2, g3⟩ := evaluateRow_spec ht hp hi (by simpa using hs) h
      rcases hr : evaluateRow F B t (decided row) rule e with ⟨o, e'⟩
      rw [hr] at g1 g2 g3
      cases o with
      | none => exact .miss (g3 rfl) (ih _ _ hd' g1)
      | some v => exact .hit (g2 v rfl) (ih _ _ hd' g1)

/-! ### First hit with collect columns -/

/-- columns of `rowCells` that are evaluated -/
def evaluated (scalars : Bool) (o : TOutput) : Bool := o.writePath.2 || scalars

/-- the collect values of a row by column number -/
def colVals (F : FrontEnd) (B : Builtins) (s : Scope) (rule : Rule) : Nat → List TOutput → List (Nat × Val)
  | _, [] => []
  | col, o :: rest =>
    if o.writePath.1 = "" ∨ o.writePath.2 = false then colVals F B s rule (col + 1) rest
    else match cellVal F B s rule o with
      | some v => (col, v) :: colVals F B s rule (col + 1) rest
      | none => colVals F B s rule (col + 1) rest

theorem EvOk.rowCells {e : Ev} (h : EvOk F B s e) {rule : Rule} (scalars : Bool) (outs : List TOutput) :
    ∀ (col : Nat) (sc : Val) (cs : List (Nat × Val)),
    (∀ o ∈ outs, ∀ cell, cellOf rule o.id = some cell → NoDollar F cell) →
    (OutputsEvaluate F B s rule (outs.filter (evaluated scalars)) →
      rowCells F B e rule scalars col outs sc cs =
        some (if scalars then writeAll F B s rule (outs.filter fun o => !o.writePath.2) sc else sc,
          cs ++ colVals F B s rule col outs)) ∧
    (¬ OutputsEvaluate F B s rule (outs.filter (evaluated scalars)) →
      rowCells F B e rule scalars col outs sc cs = none) := by
  induction outs with
  | nil =>
    intro col sc cs _
    refine ⟨fun _ => by cases scalars <;> simp [Zen.rowCells, colVals, writeAll], fun hn => absurd ?_ hn⟩
    intro o ho; cases ho
  | cons o rest ih =>
    intro col sc cs hnd
    have ih' := fun sc cs => ih (col + 1) sc cs (fun o ho => hnd o (List.mem_cons_of_mem _ ho))
    by_cases hev : evaluated scalars o = true
    · have hfil : (o :: rest).filter (evaluated scalars) = o :: rest.filter (evaluated scalars) := by
        simp [hev]
      rw [hfil]
      have hcons : OutputsEvaluate F B s rule (o :: rest.filter (evaluated scalars)) ↔
          ((o.writePath.1 ≠ "" → ∀ cell, cellOf rule o.id = some cell →
            ∃ v, freshRun F B s .standard cell = .ok v) ∧
          OutputsEvaluate F B s rule (rest.filter (evaluated scalars))) := by
        simp only [OutputsEvaluate, List.mem_cons, forall_eq_or_imp]
      have hskip : (!o.writePath.2 && !scalars) = false := by
        unfold evaluated at hev
        generalize o.writePath.2 = b at hev
        revert hev; cases b <;> cases scalars <;> simp
      by_cases hpath : o.writePath.1 = ""
      · have hcons' : OutputsEvaluate F B s rule (o :: rest.filter (evaluated scalars)) ↔
            OutputsEvaluate F B s rule (rest.filter (evaluated scalars)) := by rw [hcons]; simp [hpath]
        rw [hcons']
        have e1 : Zen.rowCells F B e rule scalars col (o :: rest) sc cs =
            Zen.rowCells F B e rule scalars (col + 1) rest sc cs := by simp [Zen.rowCells, hpath]
        have e2 : colVals F B s rule col (o :: rest) = colVals F B s rule (col + 1) rest := by
          simp [colVals, hpath]
        have e3 : ∀ sc, writeAll F B s rule ((o :: rest).filter fun o => !o.writePath.2) sc =
            writeAll F B s rule (rest.filter fun o => !o.writePath.2) sc := by
          intro sc
          by_cases hc : o.writePath.2 = true <;> simp [writeAll, hc, hpath]
        rw [e1, e2, e3]
        exact ih' sc cs
      · have hne : o.writePath.1.isEmpty = false := by simpa using hpath
        cases hcell : cellOf rule o.id with
        | none =>
          have hcons' : OutputsEvaluate F B s rule (o :: rest.filter (evaluated scalars)) ↔
              OutputsEvaluate F B s rule (rest.filter (evaluated scalars)) := by rw [hcons]; simp [hcell]
          rw [hcons']
          have e1 : Zen.rowCells F B e rule scalars col (o :: rest) sc cs =
              Zen.rowCells F B e rule scalars (col + 1) rest sc cs := by
            simp only [Zen.rowCells, hne, hskip, hcell]; rfl
          have hcv : cellVal F B s rule o = none := by simp [cellVal, hcell]
          have e2 : colVals F B s rule col (o :: rest) = colVals F B s rule (col + 1) rest := by
            simp [colVals, hcv]
          have e3 : ∀ sc, writeAll F B s rule ((o :: rest).filter fun o => !o.writePath.2) sc =
              writeAll F B s rule (rest.filter fun o => !o.writePath.2) sc := by
            intro sc
            by_cases hc : o.writePath.2 = true <;> simp [writeAll, hc, hcv]
          rw [e1, e2, e3]
          exact ih' sc cs
        | some cell =>
          have hrun := h.run (hnd o (List.mem_cons_self ..) cell hcell)
          cases hv : freshRun F B s .standard cell with
          | error er =>
            have e1 : Zen.rowCells F B e rule scalars col (o :: rest) sc cs = none := by
              simp only [Zen.rowCells, hne, hskip, hcell, hrun, hv]; rfl
            refine ⟨fun hh => ?_, fun _ => e1⟩
            obtain ⟨v, hv'⟩ := (hcons.1 hh).1 hpath cell hcell
            rw [hv] at hv'; cases hv'
          | ok v =>
            have hcons' : OutputsEvaluate F B s rule (o :: rest.filter (evaluated scalars)) ↔
                OutputsEvaluate F B s rule (rest.filter (evaluated scalars)) := by
              rw [hcons]; simp [hcell, hv]
            rw [hcons']
            have hcv : cellVal F B s rule o = some v := by simp [cellVal, hcell, hv]
            by_cases hc : o.writePath.2 = true
            · have e1 : Zen.rowCells F B e rule scalars col (o :: rest) sc cs =
                  Zen.rowCells F B e rule scalars (col + 1) rest sc (cs ++ [(col, v)]) := by
                simp only [Zen.rowCells, hne, hcell, hrun, hv, hc]; rfl
              have e2 : colVals F B s rule col (o :: rest) = (col, v) :: colVals F B s rule (col + 1) rest := by
                simp [colVals, hcv, hc, hpath]
              have e3 : ∀ sc, writeAll F B s rule ((o :: rest).filter fun o => !o.writePath.2) sc =
                  writeAll F B s rule (rest.filter fun o => !o.writePath.2) sc := by
                intro sc; simp [hc]
              rw [e1, e2, e3]
              have := ih' sc (cs ++ [(col, v)])
              simpa [List.append_assoc] using this
            · have hsc : scalars = true := by
                simp only [evaluated] at hev
                cases scalars <;> simp_all
              subst hsc
              have hc' : o.writePath.2 = false := by simpa using hc
              have e1 : Zen.rowCells F B e rule true col (o :: rest) sc cs =
                  Zen.rowCells F B e rule true (col + 1) rest (sc.dotInsert o.writePath.1 v).1 cs := by
                simp only [Zen.rowCells, hne, hcell, hrun, hv, hc']; rfl
              have e2 : colVals F B s rule col (o :: rest) = colVals F B s rule (col + 1) rest := by
                simp [colVals, hc']
              have e3 : ∀ sc, writeAll F B s rule ((o :: rest).filter fun o => !o.writePath.2) sc =
                  writeAll F B s rule (rest.filter fun o => !o.writePath.2) (sc.dotInsert o.writePath.1 v).1 := by
                intro sc; simp [writeAll, hc', hcv, hpath]
              rw [e1, e2, e3]
              exact ih' _ cs
    · have hfil : (o :: rest).filter (evaluated scalars) = rest.filter (evaluated scalars) := by
        simp [hev]
      rw [hfil]
      have hc : o.writePath.2 = false ∧ scalars = false := by
        unfold evaluated at hev
        generalize o.writePath.2 = b at hev
        revert hev; cases b <;> cases scalars <;> simp
      have e1 : Zen.rowCells F B e rule scalars col (o :: rest) sc cs =
          Zen.rowCells F B e rule scalars (col + 1) rest sc cs := by
        simp [Zen.rowCells, hc.1, hc.2]
      have e2 : colVals F B s rule col (o :: rest) = colVals F B s rule (col + 1) rest := by
        simp [colVals, hc.1]
      rw [e1, e2]
      have := ih' sc cs
      simpa [hc.2] using this

theorem filter_evaluated_true (outs : List TOutput) : outs.filter (evaluated true) = outs := by
  have : evaluated true = fun _ => true := by funext o; simp [evaluated]
  rw [this]; simp
theorem filter_evaluated_false (outs : List TOutput) :
    outs.filter (evaluated false) = outs.filter fun o => o.writePath.2 := by
  congr 1; funext o; simp [evaluated]

/-- what a row adds to a column -/
def colPart (F : FrontEnd) (B : Builtins) (s : Scope) (o : TOutput) (rule : Rule) : List Val :=
  if o.writePath.1 = "" ∨ o.writePath.2 = false then []
  else (cellVal F B s rule o).toList

theorem pushCol_length (c : List (List Val)) (cv : Nat × Val) : (pushCol c cv).length = c.length := by
  unfold pushCol
  split <;> simp

theorem pushCol_get (c : List (List Val)) (cv : Nat × Val) (k : Nat) :
    (pushCol c cv)[k]? = c[k]?.map fun vs => if k = cv.1 then vs ++ [cv.2] else vs := by
  unfold pushCol
  cases hg : c[cv.1]? with
  | none =>
    dsimp only
    by_cases e : k = cv.1
    · subst e; rw [hg]; rfl
    · cases c[k]? <;> simp [e]
  | some vs =>
    dsimp only
    rw [List.getElem?_set]
    by_cases e : k = cv.1
    · subst e
      have : cv.1 < c.length := by
        rcases Nat.lt_or_ge cv.1 c.length with hh | hh
        · exact hh
        · rw [List.getElem?_eq_none hh] at hg; cases hg
      rw [if_pos rfl, if_pos this, hg]; simp
    · rw [if_neg (Ne.symm e)]
      cases c[k]? <;> simp [e]

/-- the values pushed to column `k` -/
def pushed (cvs : List (Nat × Val)) (k : Nat) : List Val := (cvs.filter fun cv => cv.1 = k).map Prod.snd

theorem foldl_pushCol_get (cvs : List (Nat × Val)) : ∀ (c : List (List Val)) (k : Nat),
    (cvs.foldl pushCol c)[k]? = c[k]?.map fun vs => vs ++ pushed cvs k := by
  induction cvs with
  | nil => intro c k; cases h : c[k]? <;> simp [pushed, h]
  | cons cv cvs ih =>
    intro c k
    rw [List.foldl_cons, ih, pushCol_get]
    cases c[k]? with
    | none => rfl
    | some vs =>
      by_cases e : k = cv.1
      · subst e; simp [pushed]
      · simp [pushed, e, Ne.symm e]

theorem pushed_colVals (rule : Rule) (outs : List TOutput) : ∀ (col k : Nat),
    pushed (colVals F B s rule col outs) (col + k) = match outs[k]? with
      | some o => colPart F B s o rule
      | none => [] := by
  have low : ∀ (outs : List TOutput) (col j : Nat), j < col → pushed (colVals F B s rule col outs) j = [] := by
    intro outs
    induction outs with
    | nil => intro col j _; rfl
    | cons o rest ih =>
      intro col j hj
      simp only [colVals]
      split
      · exact ih _ _ (by omega)
      · split
        · have := ih (col + 1) j (by omega)
          simp only [pushed, List.filter_cons] at this ⊢
          have hne : ¬ col = j := by omega
          simpa [hne] using this
        · exact ih _ _ (by omega)
  induction outs with
  | nil => intro col k; simp [colVals, pushed]
  | cons o rest ih =>
    intro col k
    have ih' := fun k => ih (col + 1) k
    cases k with
    | zero =>
      simp only [colVals, List.getElem?_cons_zero, colPart, Nat.add_zero]
      split
      · exact low _ _ _ (by omega)
      · cases cellVal F B s rule o with
        | none => exact low _ _ _ (by omega)
        | some v =>
          have := low rest (col + 1) col (by omega)
          simp only [pushed] at this
          simp only [pushed, List.filter_cons]
          simpa using this
    | succ k =>
      simp only [colVals, List.getElem?_cons_succ]
      have hk := ih' k
      rw [show col + 1 + k = col + (k + 1) by omega] at hk
      split
      · exact hk
      · split
        · rw [← hk]
          simp [pushed]
        · exact hk

/-- invariant of the loop -/
structure FcOk (F : FrontEnd) (B : Builtins) (s : Scope) (t : Table) (fired : List Rule) (st : FcState) : Prop where
  scalars : st.scalars = match fired with
    | [] => none
    | r :: _ => some (writeAll F B s r (scalarCols t) (.obj []))
  rows : st.rows = [] ↔ fired = []
  cols : ∀ k : Nat, st.collected[k]? = t.outputs[k]?.map fun o => fired.flatMap (colPart F B s o)

theorem fcOk_step {fired : List Rule} {st : FcState} (h : FcOk F B s t fired st) (row : Nat) (rule : Rule) :
    FcOk F B s t (fired ++ [rule])
      { scalars := (match st.scalars with
          | none => some (if st.scalars.isNone then writeAll F B s rule (scalarCols t) (.obj []) else .obj [])
          | some s => some s)
        collected := (colVals F B s rule 0 t.outputs).foldl pushCol st.collected
        rows := st.rows ++ [row] } where
  scalars := by
    have := h.scalars
    cases fired with
    | nil => dsimp only at this; simp [this]
    | cons r rs => dsimp only at this; simp [this]
  rows := by simp
  cols k := by
    rw [foldl_pushCol_get, h.cols]
    have := pushed_colVals (F := F) (B := B) (s := s) rule t.outputs 0 k
    rw [Nat.zero_add] at this
    rw [this]
    cases t.outputs[k]? with
    | none => rfl
    | some o => simp

theorem rowMatches_row (ht : Tidy F t) (hp : PruneOk F B s t skip decided) {i : Nat} {rule : Rule}
    (hi : t.rules[i]? = some rule) (hs : skip i = false) {e : Ev} (h : EvOk F B s e) :
    ((rowMatches F B (decided i) rule 0 t.inputs e).1 = true ↔ RowHolds F B s t rule) ∧
    EvOk F B s (rowMatches F B (decided i) rule 0 t.inputs e).2 :=
  EvOk.rowMatches (decided := decided i) t.inputs 0 e h ht.fields
    (fun inp hinp => ht.conds rule (List.mem_of_getElem? hi) inp hinp)
    (fun k inp hk hd => hp.dec i rule hi hs k inp hk (by rw [Nat.zero_add] at hd; exact hd))

theorem firstCollectRows_spec (ht : Tidy F t) (hp : PruneOk F B s t skip decided) (rest : List Rule) :
    ∀ (row : Nat) (e : Ev) (fired : List Rule) (st : FcState), t.rules.drop row = rest → EvOk F B s e →
    FcOk F B s t fired st →
    ∃ more, (if fired = [] then FiredRows F B s t rest more else LaterRows F B s t rest more) ∧
      FcOk F B s t (fired ++ more) (firstCollectRows F B t skip decided row rest e st) := by
  induction rest with
  | nil =>
    intro row e fired st _ _ hst
    refine ⟨[], ?_, by simpa [firstCollectRows] using hst⟩
    split <;> constructor
  | cons rule rest ih =>
    intro row e fired st hd h hst
    obtain ⟨hi, hd'⟩ := drop_head hd
    have hmem := List.mem_of_getElem? hi
    have miss : ∀ e, EvOk F B s e →
        (¬ (RowHolds F B s t rule ∧ OutputsEvaluate F B s rule
          (if fired = [] then t.outputs else collectCols t))) →
        ∃ more, (if fired = [] then FiredRows F B s t (rule :: rest) more
          else LaterRows F B s t (rule :: rest) more) ∧
          FcOk F B s t (fired ++ more) (firstCollectRows F B t skip decided (row + 1) rest e st) := by
      intro e he hno
      obtain ⟨more, hm, hok⟩ := ih (row + 1) e fired st hd' he hst
      refine ⟨more, ?_, hok⟩
      by_cases hf : fired = []
      · rw [if_pos hf] at hm hno ⊢; exact .miss hno hm
      · rw [if_neg hf] at hm hno ⊢; exact .miss hno hm
    simp only [firstCollectRows]
    by_cases hs : skip row = true
    · rw [if_pos hs]
      exact miss e h (fun hh => hp.skips row rule hi hs hh.1)
    · rw [if_neg hs]
      obtain ⟨g1, g2⟩ := rowMatches_row ht hp hi (by simpa using hs) h
      rcases hr : rowMatches F B (decided row) rule 0 t.inputs e with ⟨b, e'⟩
      rw [hr] at g1 g2
      dsimp only at g1 g2
      cases b with
      | false => exact miss e' g2 (fun hh => by have := g1.2 hh.1; cases this)
      | true =>
        have hrow := g1.1 rfl
        obtain ⟨o1, o2⟩ := g2.rowCells (rule := rule) st.scalars.isNone t.outputs 0 (.obj []) []
          (ht.outs rule hmem)
        have hsn : st.scalars.isNone = decide (fired = []) := by
          rw [hst.scalars]; cases fired <;> simp
        have hcols : t.outputs.filter (evaluated st.scalars.isNone) =
            if fired = [] then t.outputs else collectCols t := by
          by_cases hf : fired = []
          · rw [hsn, if_pos hf]; simp [hf, filter_evaluated_true]
          · rw [hsn, if_neg hf]; simp [hf, filter_evaluated_false, collectCols]
        rw [hcols] at o1 o2
        by_cases hev : OutputsEvaluate F B s rule (if fired = [] then t.outputs else collectCols t)
        · dsimp only
          rw [o1 hev]
          dsimp only
          rw [List.nil_append]
          have hst' := fcOk_step hst row rule
          have hne : fired ++ [rule] ≠ [] := by simp
          obtain ⟨more, hm, hok⟩ := ih (row + 1) e' (fired ++ [rule]) _ hd' g2 hst'
          rw [if_neg hne] at hm
          refine ⟨rule :: more, ?_, ?_⟩
          · by_cases hf : fired = []
            · rw [if_pos hf] at hev ⊢; exact .first hrow hev hm
            · rw [if_neg hf] at hev ⊢; exact .hit hrow hev hm
          · rw [List.append_assoc] at hok
            exact hok
        · dsimp only
          rw [o2 hev]
          exact miss e' g2 (fun hh => hev hh.2)

theorem flatMap_colPart (o : TOutput) (h : o.writePath.1 ≠ "") (h2 : o.writePath.2 = true)
    (fired : List Rule) :
    fired.flatMap (colPart F B s o) = fired.filterMap fun r => cellVal F B s r o := by
  induction fired with
  | nil => rfl
  | cons r rs ih =>
    rw [List.flatMap_cons, ih]
    simp only [colPart, h, h2, false_or, Bool.true_eq_false, if_false, List.filterMap_cons]
    cases cellVal F B s r o <;> simp

theorem insertCollected_spec (fired : List Rule) (outs : List TOutput) : ∀ (cols : List (List Val)) (acc : Val),
    (∀ k : Nat, cols[k]? = outs[k]?.map fun o => fired.flatMap (colPart F B s o)) →
    insertCollected outs cols acc =
      writeCollected F B s fired (outs.filter fun o => o.writePath.2) acc := by
  induction outs with
  | nil => intro cols acc _; rfl
  | cons o outs ih =>
    intro cols acc hk
    cases cols with
    | nil => have := hk 0; simp at this
    | cons vs vss =>
      have hk' : ∀ k : Nat, vss[k]? = outs[k]?.map fun o => fired.flatMap (colPart F B s o) :=
        fun k => hk (k + 1)
      have h0 : vs = fired.flatMap (colPart F B s o) := by have := hk 0; simpa using this
      simp only [insertCollected]
      by_cases hc : o.writePath.2 = true
      · by_cases hp : o.writePath.1 = ""
        · have : (o :: outs).filter (fun o => o.writePath.2) = o :: outs.filter fun o => o.writePath.2 := by
            simp [hc]
          rw [this]
          have hcond : (!o.writePath.2 || o.writePath.1.isEmpty) = true := by simp [hp]
          rw [if_pos hcond, ih _ _ hk']
          simp [writeCollected, hp]
        · have : (o :: outs).filter (fun o => o.writePath.2) = o :: outs.filter fun o => o.writePath.2 := by
            simp [hc]
          rw [this]
          have hcond : ¬ (!o.writePath.2 || o.writePath.1.isEmpty) = true := by simp [hp, hc]
          rw [if_neg hcond, ih _ _ hk', h0, flatMap_colPart o hp hc]
          simp [writeCollected, hp]
      · have : (o :: outs).filter (fun o => o.writePath.2) = outs.filter fun o => o.writePath.2 := by
          simp [hc]
        rw [this]
        have hcond : (!o.writePath.2 || o.writePath.1.isEmpty) = true := by simp [hc]
        rw [if_pos hcond, ih _ _ hk']

end
end Zen

namespace Zen
section
variable {F : FrontEnd} {B : Builtins} {s : Scope} {t : Table} {skip : Nat → Bool}
  {decided : Nat → Nat → Bool}

theorem collectRows_ge (rest : List Rule) : ∀ (row : Nat) (e : Ev), ∀ r ∈ collectRows F B t skip decided row rest e,
    row ≤ r.1 := by
  induction rest with
  | nil => intro row e r hr; cases hr
  | cons rule rest ih =>
    intro row e r hr
    simp only [collectRows] at hr
    split at hr
    · have := ih _ _ r hr; omega
    · rcases hw : evaluateRow F B t (decided row) rule e with ⟨o, e'⟩
      rw [hw] at hr
      cases o with
      | none => have := ih _ _ r hr; omega
      | some v =>
        rcases List.mem_cons.1 hr with h | h
        · subst h; exact Nat.le_refl _
        · have := ih _ _ r h; omega

theorem collectRows_sorted (rest : List Rule) : ∀ (row : Nat) (e : Ev),
    ((collectRows F B t skip decided row rest e).map Prod.fst).Pairwise (· < ·) := by
  induction rest with
  | nil => intro row e; simp [collectRows]
  | cons rule rest ih =>
    intro row e
    simp only [collectRows]
    split
    · exact ih _ _
    · rcases hw : evaluateRow F B t (decided row) rule e with ⟨o, e'⟩
      cases o with
      | none => exact ih _ _
      | some v =>
        rw [List.map_cons, List.pairwise_cons]
        refine ⟨fun a ha => ?_, ih _ _⟩
        obtain ⟨r, hr, rfl⟩ := List.mem_map.1 ha
        have := collectRows_ge (F := F) (B := B) rest _ _ r hr
        dsimp only; omega

theorem collectRows_mem (ht : Tidy F t) (hp : PruneOk F B s t skip decided) (rest : List Rule) :
    ∀ (row : Nat) (e : Ev), t.rules.drop row = rest → EvOk F B s e → ∀ (i : Nat) (v : Val),
    (i, v) ∈ collectRows F B t skip decided row rest e ↔
      row ≤ i ∧ ∃ rule, t.rules[i]? = some rule ∧ Fires F B s t rule v := by
  induction rest with
  | nil =>
    intro row e hd _ i v
    refine ⟨fun h => (by cases h), fun ⟨h1, rule, h2, _⟩ => ?_⟩
    have : (t.rules.drop row)[i - row]? = some rule := by
      rw [List.getElem?_drop, show row + (i - row) = i by omega]; exact h2
    rw [hd] at this; cases this
  | cons rule rest ih =>
    intro row e hd h i v
    obtain ⟨hi, hd'⟩ := drop_head hd
    have later : ∀ e, EvOk F B s e → (¬ Fires F B s t rule v) →
        ((i, v) ∈ collectRows F B t skip decided (row + 1) rest e ↔
        row ≤ i ∧ ∃ rule, t.rules[i]? = some rule ∧ Fires F B s t rule v) := by
      intro e he hno
      rw [ih (row + 1) e hd' he i v]
      refine ⟨fun ⟨h1, h2⟩ => ⟨by omega, h2⟩, fun ⟨h1, q, h2, h3⟩ => ?_⟩
      refine ⟨?_, q, h2, h3⟩
      rcases Nat.lt_or_ge row i with hlt | hge
      · exact hlt
      · have : i = row := by omega
        subst this
        rw [hi] at h2; cases h2; exact absurd h3 hno
    simp only [collectRows]
    split
    · rename_i hs
      exact later e h (fun hw => hp.skips row rule hi hs hw.1)
    · rename_i hs
      obtain ⟨g1, g2, g3⟩ := evaluateRow_spec ht hp hi (by simpa using hs) h
      rcases hr : evaluateRow F B t (decided row) rule e with ⟨o, e'⟩
      rw [hr] at g1 g2 g3
      cases o with
      | none => exact later e' g1 (fun hw => g3 rfl ⟨v, hw⟩)
      | some w =>
        dsimp only
        have hw := g2 w rfl
        by_cases hvw : Fires F B s t rule v
        · have e1 : v = w := by rw [hw.2.2, hvw.2.2]
          subst e1
          rw [List.mem_cons, ih (row + 1) e' hd' g1 i v]
          constructor
          · rintro (h' | ⟨h1, h2⟩)
            · cases h'; exact ⟨Nat.le_refl _, rule, hi, hw⟩
            · exact ⟨by omega, h2⟩
          · rintro ⟨h1, h2⟩
            rcases Nat.lt_or_ge row i with hlt | hge
            · exact .inr ⟨hlt, h2⟩
            · left; rw [show i = row by omega]
        · have : (i, v) ∈ (row, w) :: collectRows F B t skip decided (row + 1) rest e' ↔
              (i, v) ∈ collectRows F B t skip decided (row + 1) rest e' := by
            rw [List.mem_cons]
            refine ⟨fun h' => h'.resolve_left fun h'' => ?_, .inr⟩
            cases h''; exact hvw hw
          rw [this]
          exact later e' g1 hvw

/-- the three handlers -/
theorem handleFirstHit_spec (ht : Tidy F t) {ix : Option TableIx}
    (hix : ix = none ∨ ix = TableIx.build F t.inputs t.rules) (trace : Bool) {e : Ev} (h : EvOk F B s e) :
    FirstHitSpec F B s t (handleFirstHit F B t ix trace e).output ∧
    ∀ r, (handleFirstHit F B t ix trace e).trace = some r → ∃ i rule, r = .firstHit i ∧
      t.rules[i]? = some rule ∧ Fires F B s t rule (handleFirstHit F B t ix trace e).output ∧
      ∀ j, j < i → ∀ r, t.rules[j]? = some r → ¬ ∃ w, Fires F B s t r w := by
  have key : ∀ (skip : Nat → Bool) (decided : Nat → Nat → Bool), PruneOk F B s t skip decided →
      ∀ e, EvOk F B s e →
      (∀ r, firstRow F B t skip decided 0 t.rules e = some r → ∃ rule, t.rules[r.1]? = some rule ∧
        Fires F B s t rule r.2 ∧ ∀ j, j < r.1 → ∀ q, t.rules[j]? = some q → ¬ ∃ w, Fires F B s t q w) ∧
      (firstRow F B t skip decided 0 t.rules e = none → ∀ r ∈ t.rules, ¬ ∃ w, Fires F B s t r w) := by
    intro skip decided hp e he
    obtain ⟨h1, h2⟩ := firstRow_spec ht hp t.rules 0 e (by simp) he
    refine ⟨fun r hr => ?_, h2⟩
    obtain ⟨q, _, h4, h5, h6⟩ := h1 r hr
    exact ⟨q, h4, h5, fun j => h6 j (Nat.zero_le _)⟩
  unfold handleFirstHit
  split
  · obtain ⟨g2, g1⟩ := pruneOk_candidates ht hix h
    rcases hc : candidates F B t ix e with ⟨cand, e'⟩
    rw [hc] at g1 g2
    obtain ⟨k1, k2⟩ := key _ _ g1 e' g2
    dsimp only at k1 k2 ⊢
    cases hf : firstRow F B t (skipped cand) (decidedBy cand ix) 0 t.rules e' with
    | none => exact ⟨.inr ⟨rfl, k2 hf⟩, fun r hr => (by cases hr)⟩
    | some r =>
      obtain ⟨q, h4, h5, h6⟩ := k1 r hf
      exact ⟨.inl ⟨r.1, q, h4, h5, h6⟩, fun r hr => (by cases hr)⟩
  · obtain ⟨k1, k2⟩ := key _ _ (pruneOk_none t) e h
    cases hf : firstRow F B t (fun _ => false) (fun _ _ => false) 0 t.rules e with
    | none => exact ⟨.inr ⟨rfl, k2 hf⟩, fun r hr => (by cases hr)⟩
    | some r =>
      obtain ⟨q, h4, h5, h6⟩ := k1 r hf
      refine ⟨.inl ⟨r.1, q, h4, h5, h6⟩, fun x hx => ?_⟩
      cases hx
      exact ⟨r.1, q, rfl, h4, h5, h6⟩

theorem ix_or {ix : Option TableIx} {ix0 : Option TableIx} (hix : ix = none ∨ ix = ix0) (trace : Bool) :
    (if trace then none else ix) = none ∨ (if trace then none else ix) = ix0 := by
  cases trace
  · exact hix
  · exact .inl rfl

theorem ixOf_or (compiled : Bool) {ix0 : Option TableIx} :
    (if compiled then ix0 else none) = none ∨ (if compiled then ix0 else none) = ix0 := by
  cases compiled
  · exact .inl rfl
  · exact .inr rfl

theorem handleCollect_spec (ht : Tidy F t) {ix : Option TableIx}
    (hix : ix = none ∨ ix = TableIx.build F t.inputs t.rules) (trace : Bool) {e : Ev} (h : EvOk F B s e) :
    ∃ vs, (handleCollect F B t ix trace e).output = .arr vs ∧ Collected F B s t t.rules vs ∧
    (trace = true → ∃ rows, (handleCollect F B t ix trace e).trace = some (.collect rows) ∧
      rows.Pairwise (· < ·) ∧
      ∀ i, i ∈ rows ↔ ∃ rule v, t.rules[i]? = some rule ∧ Fires F B s t rule v) := by
  unfold handleCollect
  obtain ⟨g2, g1⟩ := pruneOk_candidates ht (ix_or hix trace) h
  dsimp only
  generalize (if trace = true then none else ix) = ix' at g1 g2 ⊢
  rcases hc : candidates F B t ix' e with ⟨cand, e'⟩
  rw [hc] at g1 g2
  dsimp only
  refine ⟨_, rfl, collectRows_spec ht g1 t.rules 0 e' (by simp) g2, fun htr => ?_⟩
  subst htr
  refine ⟨_, rfl, collectRows_sorted _ _ _, fun i => ?_⟩
  have hm := fun v => collectRows_mem ht g1 t.rules 0 e' (by simp) g2 i v
  constructor
  · intro hi
    obtain ⟨⟨j, v⟩, hr, rfl⟩ := List.mem_map.1 hi
    obtain ⟨_, rule, h1, h2⟩ := (hm v).1 hr
    exact ⟨rule, v, h1, h2⟩
  · rintro ⟨rule, v, h1, h2⟩
    exact List.mem_map.2 ⟨(i, v), (hm v).2 ⟨Nat.zero_le _, rule, h1, h2⟩, rfl⟩

theorem handleFirstHitCollect_spec (ht : Tidy F t) {ix : Option TableIx}
    (hix : ix = none ∨ ix = TableIx.build F t.inputs t.rules) (trace : Bool) {e : Ev} (h : EvOk F B s e) :
    FirstCollectSpec F B s t (handleFirstHitCollect F B t ix trace e).output := by
  unfold handleFirstHitCollect
  obtain ⟨g2, g1⟩ := pruneOk_candidates ht (ix_or hix trace) h
  dsimp only
  generalize (if trace = true then none else ix) = ix' at g1 g2 ⊢
  rcases hc : candidates F B t ix' e with ⟨cand, e'⟩
  rw [hc] at g1 g2
  dsimp only
  have h0 : FcOk F B s t [] { collected := t.outputs.map fun _ => [] } := by
    refine ⟨rfl, by simp, fun k => ?_⟩
    rw [List.getElem?_map]
    cases t.outputs[k]? <;> rfl
  obtain ⟨fired, hf, hok⟩ := firstCollectRows_spec ht g1 t.rules 0 e' [] _ (by simp) g2 h0
  rw [if_pos rfl] at hf
  rw [List.nil_append] at hok
  revert hok
  generalize firstCollectRows F B t (skipped cand) (decidedBy cand ix') 0 t.rules e'
    { collected := t.outputs.map fun _ => [] } = st
  intro hok
  by_cases hr : fired = []
  · rw [hok.rows.2 hr]
    subst hr
    exact ⟨[], hf, rfl⟩
  · have : st.rows.isEmpty = false := by
      cases hh : st.rows with
      | nil => exact absurd (hok.rows.1 hh) hr
      | cons a l => rfl
    simp only [this, Bool.false_eq_true, if_false]
    refine ⟨fired, hf, ?_⟩
    rw [insertCollected_spec fired t.outputs st.collected _ hok.cols]
    have hsc := hok.scalars
    cases fired with
    | nil => exact absurd rfl hr
    | cons r rs => dsimp only at hsc; rw [hsc]; rfl

/-! uniqueness of the meaning -/

theorem Fires.unique {rule : Rule} {v w : Val} (h1 : Fires F B s t rule v) (h2 : Fires F B s t rule w) : v = w := by
  rw [h1.2.2, h2.2.2]

theorem FirstHitSpec.unique {v w : Val} (h1 : FirstHitSpec F B s t v) (h2 : FirstHitSpec F B s t w) : v = w := by
  rcases h1 with ⟨i, r, h3, h4, h5⟩ | ⟨h3, h4⟩ <;> rcases h2 with ⟨j, q, h6, h7, h8⟩ | ⟨h6, h7⟩
  · rcases Nat.lt_trichotomy i j with h | h | h
    · exact absurd ⟨v, h4⟩ (h8 i h r h3)
    · subst h; rw [h3] at h6; cases h6; exact h4.unique h7
    · exact absurd ⟨w, h7⟩ (h5 j h q h6)
  · exact absurd ⟨v, h4⟩ (h7 r (List.mem_of_getElem? h3))
  · exact absurd ⟨w, h7⟩ (h4 q (List.mem_of_getElem? h6))
  · rw [h3, h6]

theorem Collected.unique {rs : List Rule} {vs ws : List Val} (h1 : Collected F B s t rs vs) :
    Collected F B s t rs ws → vs = ws := by
  induction h1 generalizing ws with
  | nil => intro h; cases h; rfl
  | hit hf _ ih => intro h; cases h with
    | hit hf' h' => rw [hf.unique hf', ih h']
    | miss hn _ => exact absurd ⟨_, hf⟩ hn
  | miss hn _ ih => intro h; cases h with
    | hit hf' _ => exact absurd ⟨_, hf'⟩ hn
    | miss _ h' => exact ih h'

theorem LaterRows.unique {rs fs gs : List Rule} (h1 : LaterRows F B s t rs fs) :
    LaterRows F B s t rs gs → fs = gs := by
  induction h1 generalizing gs with
  | nil => intro h; cases h; rfl
  | hit h1 h2 _ ih => intro h; cases h with
    | hit _ _ h' => rw [ih h']
    | miss hn _ => exact absurd ⟨h1, h2⟩ hn
  | miss hn _ ih => intro h; cases h with
    | hit h1 h2 _ => exact absurd ⟨h1, h2⟩ hn
    | miss _ h' => exact ih h'

theorem FiredRows.unique {rs fs gs : List Rule} (h1 : FiredRows F B s t rs fs) :
    FiredRows F B s t rs gs → fs = gs := by
  induction h1 generalizing gs with
  | nil => intro h; cases h; rfl
  | first h1 h2 h3 => intro h; cases h with
    | first _ _ h' => rw [h3.unique h']
    | miss hn _ => exact absurd ⟨h1, h2⟩ hn
  | miss hn _ ih => intro h; cases h with
    | first h1 h2 _ => exact absurd ⟨h1, h2⟩ hn
    | miss _ h' => exact ih h'

theorem FirstCollectSpec.unique {v w : Val} (h1 : FirstCollectSpec F B s t v)
    (h2 : FirstCollectSpec F B s t w) : v = w := by
  obtain ⟨f, h3, h4⟩ := h1
  obtain ⟨g, h5, h6⟩ := h2
  have := h3.unique h5
  subst this
  rw [h4, h6]

theorem TableSpec.unique {v w : Val} (h1 : TableSpec F B s t v) (h2 : TableSpec F B s t w) : v = w := by
  unfold TableSpec at h1 h2
  cases hh : t.hit with
  | collect =>
    rw [hh] at h1 h2
    obtain ⟨vs, rfl, h3⟩ := h1
    obtain ⟨ws, rfl, h4⟩ := h2
    rw [h3.unique h4]
  | first =>
    rw [hh] at h1 h2
    dsimp only at h1 h2
    by_cases hc : (collectCols t).isEmpty = true
    · rw [if_pos hc] at h1 h2; exact h1.unique h2
    · rw [if_neg hc] at h1 h2; exact h1.unique h2

theorem any_collect : (t.outputs.any fun o => o.writePath.2) = !(collectCols t).isEmpty := by
  unfold collectCols
  induction t.outputs with
  | nil => rfl
  | cons o os ih =>
    rw [List.any_cons, ih, List.filter_cons]
    cases o.writePath.2 <;> simp

theorem handleTable_spec (ht : Tidy F t) {ix : Option TableIx}
    (hix : ix = none ∨ ix = TableIx.build F t.inputs t.rules) (trace : Bool) {e : Ev} (h : EvOk F B s e) :
    TableSpec F B s t (handleTable F B t ix trace e).output := by
  unfold TableSpec handleTable
  cases hh : t.hit with
  | collect =>
    obtain ⟨vs, h1, h2, _⟩ := handleCollect_spec ht hix trace h
    exact ⟨vs, h1, h2⟩
  | first =>
    dsimp only
    rw [any_collect]
    cases hc : (collectCols t).isEmpty
    · simp only [Bool.not_false, if_true, Bool.false_eq_true, if_false]
      exact handleFirstHitCollect_spec ht hix trace h
    · simp only [Bool.not_true, if_true, Bool.false_eq_true, if_false]
      exact (handleFirstHit_spec ht hix trace h).1

end
end Zen
