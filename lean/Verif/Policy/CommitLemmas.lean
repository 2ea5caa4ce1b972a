import Verif.Policy.SelectLemmas
import Verif.Props.C04
import Mathlib.Data.List.Perm.Basic
/-
Helper lemmas: what the write phase of a policy table leaves in the store.
-/
namespace Zen.Policy
open Zen Val

theorem dotP_split (a : List String) : ∀ (x : Val) (b : List String), dotP x (a ++ b) = (dotP x a).bind fun y => dotP y b := by
  induction a with
  | nil => intro x b; simp [dotP]
  | cons k ks ih =>
    intro x b
    cases x with
    | obj m =>
      simp only [List.cons_append, dotP]
      cases aGet m k with
      | none => rfl
      | some y => exact ih y b
    | _ => rfl

/-- positions above a written path hold objects -/
theorem above_written {d : Val} {p : List String} {v : Val} (hp : p ≠ []) (hw : Walkable d p) {q : List String}
    (hq : q <+: p) (hne : q ≠ p) {x : Val} (hx : dotP (dotInsertP d p v).1 q = some x) : x.isObj = true := by
  obtain ⟨s, rfl⟩ := hq
  have := (C04_insert_read d (q ++ s) v hp hw).1
  rw [dotP_split, hx] at this
  simp only [Option.bind_some] at this
  cases s with
  | nil => simp at hne
  | cons k ks => cases x <;> first | rfl | (simp [dotP] at this)

/-- a write leaves other paths open to be written -/
theorem walkable_write {d : Val} {p q : List String} {v : Val} (hp : p ≠ []) (hw : Walkable d p)
    (hq : Walkable d q) (h : p = q ∨ Independent p q) : Walkable (dotInsertP d p v).1 q := by
  intro r hr hne x hx
  rcases h with rfl | hi
  · exact above_written hp hw hr hne hx
  · by_cases h1 : p <+: r
    · exact absurd (h1.trans hr) hi.1
    · by_cases h2 : r <+: p
      · exact above_written hp hw h2 (fun e => h1 (e ▸ List.prefix_rfl)) hx
      · rw [(C04_insert_read d p v hp hw).2.2.2 r ⟨h1, h2⟩] at hx
        exact hq r hr hne x hx

/-- a list of writes -/
def writes (ws : List (String × Val)) (cx : Cx) : Cx := ws.foldl (fun cx kv => cx.write kv.1 kv.2) cx

theorem writes_append (a b : List (String × Val)) (cx : Cx) : writes (a ++ b) cx = writes b (writes a cx) := by
  simp [writes, List.foldl_append]

/-- after writes to paths that do not interfere: the values written are there, the rest is as before -/
theorem writes_read (ws : List (String × Val)) : ∀ (cx : Cx),
    (∀ w ∈ ws, Walkable cx.store (splitDot w.1)) →
    (∀ w ∈ ws, ∀ w' ∈ ws, w.1 = w'.1 ∨ Independent (splitDot w.1) (splitDot w'.1)) →
    (∀ w ∈ ws, ∀ w' ∈ ws, w.1 = w'.1 → w.2 = w'.2) →
    (∀ w ∈ ws, (writes ws cx).store.dot w.1 = some w.2) ∧
    ∀ q, (∀ w ∈ ws, Independent (splitDot w.1) (splitDot q)) → (writes ws cx).store.dot q = cx.store.dot q := by
  induction ws with
  | nil => intro cx _ _ _; exact ⟨fun w hw => (nomatch hw), fun q _ => rfl⟩
  | cons w0 ws ih =>
    intro cx hwalk hind hfun
    have h0 := hwalk w0 (List.mem_cons_self ..)
    have hstep : writes (w0 :: ws) cx = writes ws (cx.write w0.1 w0.2) := rfl
    have hstore : (cx.write w0.1 w0.2).store = (dotInsertP cx.store (splitDot w0.1) w0.2).1 := rfl
    obtain ⟨g1, g2⟩ := ih (cx.write w0.1 w0.2)
      (by
        intro w hw
        rw [hstore]
        refine walkable_write (splitDot_ne_nil _) h0 (hwalk w (List.mem_cons_of_mem _ hw)) ?_
        rcases hind w0 (List.mem_cons_self ..) w (List.mem_cons_of_mem _ hw) with h | h
        · exact .inl (by rw [h])
        · exact .inr h)
      (fun w hw w' hw' => hind w (List.mem_cons_of_mem _ hw) w' (List.mem_cons_of_mem _ hw'))
      (fun w hw w' hw' => hfun w (List.mem_cons_of_mem _ hw) w' (List.mem_cons_of_mem _ hw'))
    rw [hstep]
    obtain ⟨k1, -, k3⟩ := C04_key_string cx.store w0.1 w0.2 h0
    constructor
    · intro w hw
      rcases List.mem_cons.1 hw with rfl | hw
      · by_cases hm : ∃ w' ∈ ws, w'.1 = w.1
        · obtain ⟨w', hw', he⟩ := hm
          have h2 := g1 w' hw'
          have h3 := hfun w (List.mem_cons_self ..) w' (List.mem_cons_of_mem _ hw') he.symm
          rw [he, ← h3] at h2
          exact h2
        · rw [g2 w.1 (fun w' hw' => ?_)]
          · exact k1
          · rcases hind w' (List.mem_cons_of_mem _ hw') w (List.mem_cons_self ..) with h | h
            · exact absurd ⟨w', hw', h⟩ hm
            · exact h
      · exact g1 w hw
    · intro q hq
      rw [g2 q (fun w hw => hq w (List.mem_cons_of_mem _ hw))]
      exact k3 q (hq w0 (List.mem_cons_self ..))

section
variable (F : FrontEnd) (B : Builtins)

/-- the value of an output cell -/
def outVal (s : Scope) (rule : Rule) (c : OCol) : Option Val :=
  match cellOf rule c.id with
  | none => none
  | some cell => match freshRun F B s .standard cell with
    | .ok v => some v
    | .error _ => none

/-- the cells of the block do not depend on what the block itself writes -/
def OwnFree (t : PTable) (cx : Cx) : Prop :=
  ∀ ws : List (String × Val), (∀ w ∈ ws, ∃ c ∈ t.active, c.field = w.1) →
    ∀ c ∈ t.active, ∀ rule ∈ t.rules, ∀ cell, cellOf rule c.id = some cell →
      freshRun F B (writes ws cx).scope .standard cell = freshRun F B cx.scope .standard cell

/-- the used cells of a row that go to columns of one kind, with the path of the column -/
def rowVals (s : Scope) (used : List (Nat × String)) (collect : Bool) (row : Nat) (rule : Rule) (cs : List OCol) :
    List (String × Val) :=
  cs.filterMap fun c => if (row, c.id) ∈ used ∧ c.collect = collect then (outVal F B s rule c).map fun v => (c.field, v) else none

/-- the same for a list of rows -/
def allVals (s : Scope) (t : PTable) (used : List (Nat × String)) (collect : Bool) (rows : List Nat) :
    List (String × Val) :=
  rows.flatMap fun row => match t.rules[row]? with
    | some rule => rowVals F B s used collect row rule t.outputs
    | none => []

/-- the used cells of a row evaluate -/
def RowEvaluates (s : Scope) (used : List (Nat × String)) (row : Nat) (rule : Rule) (cs : List OCol) : Prop :=
  ∀ c ∈ cs, (row, c.id) ∈ used → ∀ cell, cellOf rule c.id = some cell → ∃ v, freshRun F B s .standard cell = .ok v

end
variable {F : FrontEnd} {B : Builtins} {s : Scope} {t : PTable}

/-- pushing a list of values -/
def pushes (ws : List (String × Val)) (coll : List (String × List Val)) : List (String × List Val) :=
  ws.foldl (fun m kv => collPush m kv.1 kv.2) coll

/-- what the columns of one row do -/
theorem commitCols_spec {trace : Bool} {used : List (Nat × String)} {row : Nat} {rule : Rule} {cx0 : Cx}
    (hfree : OwnFree F B t cx0) (hrule : rule ∈ t.rules)
    (hused : ∀ c ∈ t.outputs, (row, c.id) ∈ used → c ∈ t.active)
    (cs : List OCol) : ∀ (st : CSt), cs ⊆ t.outputs →
    (∃ ws, (∀ w ∈ ws, ∃ c ∈ t.active, c.field = w.1) ∧ st.cx = writes ws cx0) →
    (∀ st', commitCols F B trace used row rule cs st = .ok st' →
      RowEvaluates F B cx0.scope used row rule cs ∧
      st'.cx = writes (rowVals F B cx0.scope used false row rule cs) st.cx ∧
      st'.coll = pushes (rowVals F B cx0.scope used true row rule cs) st.coll ∧
      ∀ f, f ∈ st'.written ↔ f ∈ st.written ∨ ∃ w ∈ rowVals F B cx0.scope used false row rule cs, w.1 = f) ∧
    (RowEvaluates F B cx0.scope used row rule cs → ∃ st', commitCols F B trace used row rule cs st = .ok st') := by
  induction cs with
  | nil =>
    intro st _ _
    refine ⟨fun st' h => ?_, fun _ => ⟨st, rfl⟩⟩
    simp only [commitCols, Except.ok.injEq] at h
    subst h
    exact ⟨fun c hc => (nomatch hc), rfl, rfl, fun f => by simp [rowVals]⟩
  | cons c cs ih =>
    intro st hsub hreach
    have hsub' : cs ⊆ t.outputs := fun x hx => hsub (List.mem_cons_of_mem _ hx)
    have hc := hsub (List.mem_cons_self ..)
    have skip : ((row, c.id) ∉ used ∨ cellOf rule c.id = none) →
        (∀ col, rowVals F B cx0.scope used col row rule (c :: cs) = rowVals F B cx0.scope used col row rule cs) ∧
        (RowEvaluates F B cx0.scope used row rule (c :: cs) ↔ RowEvaluates F B cx0.scope used row rule cs) := by
      intro h
      constructor
      · intro col
        unfold rowVals
        rw [List.filterMap_cons]
        rcases h with h | h
        · simp [h]
        · simp only [outVal, h, Option.map_none, ite_self]
      · unfold RowEvaluates
        simp only [List.mem_cons, forall_eq_or_imp, and_iff_right_iff_imp]
        rintro - h2 cell hcell
        rcases h with h | h
        · exact absurd h2 h
        · rw [h] at hcell; cases hcell
    simp only [commitCols]
    by_cases hu : (row, c.id) ∈ used
    · simp only [hu, if_true]
      cases hcell : cellOf rule c.id with
      | none =>
        dsimp only
        obtain ⟨e1, e2⟩ := skip (.inr hcell)
        rw [e1, e1, e2]
        exact ih st hsub' hreach
      | some cell =>
        dsimp only
        obtain ⟨ws, hws, hcx⟩ := hreach
        have hrun : freshRun F B st.cx.scope .standard cell = freshRun F B cx0.scope .standard cell := by
          rw [hcx]; exact hfree ws hws c (hused c hc hu) rule hrule cell hcell
        rw [hrun]
        cases hv : freshRun F B cx0.scope .standard cell with
        | error e =>
          refine ⟨fun st' h => (by cases h), fun h => ?_⟩
          obtain ⟨v, hv'⟩ := h c (List.mem_cons_self ..) hu cell hcell
          rw [hv] at hv'; cases hv'
        | ok v =>
          dsimp only
          have hout : outVal F B cx0.scope rule c = some v := by simp [outVal, hcell, hv]
          have hev : RowEvaluates F B cx0.scope used row rule (c :: cs) ↔ RowEvaluates F B cx0.scope used row rule cs := by
            unfold RowEvaluates
            simp only [List.mem_cons, forall_eq_or_imp, and_iff_right_iff_imp]
            rintro - - cell' hcell'
            rw [hcell] at hcell'; cases hcell'; exact ⟨v, hv⟩
          have hvals : ∀ col, rowVals F B cx0.scope used col row rule (c :: cs) =
              if c.collect = col then (c.field, v) :: rowVals F B cx0.scope used col row rule cs
              else rowVals F B cx0.scope used col row rule cs := by
            intro col
            unfold rowVals
            rw [List.filterMap_cons]
            by_cases hcol : c.collect = col
            · simp [hu, hcol, hout]
            · simp [hcol]
          rw [hev]
          cases hco : c.collect with
          | true =>
            simp only [if_true]
            obtain ⟨k1, k2⟩ := ih { st with row := if trace then aSet st.row c.field v else st.row,
                                            coll := collPush st.coll c.field v } hsub' ⟨ws, hws, hcx⟩
            refine ⟨fun st' h => ?_, k2⟩
            obtain ⟨m0, m1, m2, m3⟩ := k1 st' h
            refine ⟨m0, ?_, ?_, ?_⟩
            · rw [m1, hvals false]; simp [hco]
            · rw [m2, hvals true]; simp [hco, pushes]
            · rw [hvals false]; simpa [hco] using m3
          | false =>
            simp only [Bool.false_eq_true, if_false]
            obtain ⟨k1, k2⟩ := ih { st with row := if trace then aSet st.row c.field v else st.row,
                                            cx := st.cx.write c.field v, written := c.field :: st.written } hsub'
              ⟨ws ++ [(c.field, v)], (by
                intro w hw
                rcases List.mem_append.1 hw with hw | hw
                · exact hws w hw
                · rw [List.mem_singleton] at hw; subst hw; exact ⟨c, hused c hc hu, rfl⟩), by
                rw [writes_append, ← hcx]; rfl⟩
            refine ⟨fun st' h => ?_, k2⟩
            obtain ⟨m0, m1, m2, m3⟩ := k1 st' h
            refine ⟨m0, ?_, ?_, ?_⟩
            · rw [m1, hvals false]; simp [hco, writes]
            · rw [m2, hvals true]; simp [hco]
            · intro f
              rw [m3 f, hvals false]
              simp only [hco, if_true, List.mem_cons, exists_eq_or_imp]
              constructor
              · rintro ((h | h) | h)
                · exact .inr (.inl h.symm)
                · exact .inl h
                · exact .inr (.inr h)
              · rintro (h | h | h)
                · exact .inl (.inr h)
                · exact .inl (.inl h.symm)
                · exact .inr h
    · simp only [hu, if_false]
      obtain ⟨e1, e2⟩ := skip (.inl hu)
      rw [e1, e1, e2]
      exact ih st hsub' hreach

theorem rowVals_active {used : List (Nat × String)} {collect : Bool} {row : Nat} {rule : Rule} 
    (hused : ∀ c ∈ t.outputs, (row, c.id) ∈ used → c ∈ t.active) (w : String × Val)
    (hw : w ∈ rowVals F B s used collect row rule t.outputs) : ∃ c ∈ t.active, c.field = w.1 := by
  unfold rowVals at hw
  rw [List.mem_filterMap] at hw
  obtain ⟨c, hc, h⟩ := hw
  split at h
  · rename_i hh
    refine ⟨c, hused c hc hh.1, ?_⟩
    cases ho : outVal F B s rule c with
    | none => rw [ho] at h; cases h
    | some v => rw [ho] at h; cases h; rfl
  · cases h

theorem commitRows_spec {trace : Bool} {used : List (Nat × String)} {cx0 : Cx} (hfree : OwnFree F B t cx0)
    (hused : ∀ row, ∀ c ∈ t.outputs, (row, c.id) ∈ used → c ∈ t.active) (rows : List Nat) : ∀ (st : CSt),
    (∃ ws, (∀ w ∈ ws, ∃ c ∈ t.active, c.field = w.1) ∧ st.cx = writes ws cx0) →
    (∀ st', commitRows F B t trace used rows st = .ok st' →
      (∀ row ∈ rows, ∀ rule, t.rules[row]? = some rule → RowEvaluates F B cx0.scope used row rule t.outputs) ∧
      st'.cx = writes (allVals F B cx0.scope t used false rows) st.cx ∧
      st'.coll = pushes (allVals F B cx0.scope t used true rows) st.coll ∧
      ∀ f, f ∈ st'.written ↔ f ∈ st.written ∨ ∃ w ∈ allVals F B cx0.scope t used false rows, w.1 = f) ∧
    ((∀ row ∈ rows, ∀ rule, t.rules[row]? = some rule → RowEvaluates F B cx0.scope used row rule t.outputs) →
      ∃ st', commitRows F B t trace used rows st = .ok st') := by
  induction rows with
  | nil =>
    intro st _
    refine ⟨fun st' h => ?_, fun _ => ⟨st, rfl⟩⟩
    simp only [commitRows, Except.ok.injEq] at h
    subst h
    exact ⟨fun row hr => (nomatch hr), rfl, rfl, fun f => by simp [allVals]⟩
  | cons row rows ih =>
    intro st hreach
    simp only [commitRows]
    cases hr : t.rules[row]? with
    | none =>
      dsimp only
      have hall : ∀ col, allVals F B cx0.scope t used col (row :: rows) = allVals F B cx0.scope t used col rows := by
        intro col; simp [allVals, hr]
      rw [hall, hall]
      obtain ⟨k1, k2⟩ := ih st hreach
      refine ⟨fun st' h => ?_, fun h => k2 fun r hrr => h r (List.mem_cons_of_mem _ hrr)⟩
      obtain ⟨m0, m⟩ := k1 st' h
      refine ⟨fun r hrr rule hrule => ?_, m⟩
      rcases List.mem_cons.1 hrr with rfl | hrr
      · rw [hr] at hrule; cases hrule
      · exact m0 r hrr rule hrule
    | some rule =>
      dsimp only
      have hall : ∀ col, allVals F B cx0.scope t used col (row :: rows) =
          rowVals F B cx0.scope used col row rule t.outputs ++ allVals F B cx0.scope t used col rows := by
        intro col; simp [allVals, hr]
      rw [hall, hall]
      have hmem := List.mem_of_getElem? hr
      obtain ⟨c1, c2⟩ := commitCols_spec (trace := trace) hfree hmem (hused row) t.outputs { st with row := [] }
        (fun _ h => h) hreach
      cases hc : commitCols F B trace used row rule t.outputs { st with row := [] } with
      | error e =>
        refine ⟨fun st' h => (by cases h), fun h => ?_⟩
        obtain ⟨st', h'⟩ := c2 (h row (List.mem_cons_self ..) rule hr)
        rw [hc] at h'; cases h'
      | ok st1 =>
        obtain ⟨d0, d1, d2, d3⟩ := c1 st1 hc
        dsimp only at d1 d2 d3 ⊢
        obtain ⟨ws, hws, hcx⟩ := hreach
        obtain ⟨k1, k2⟩ := ih { st1 with evals := if trace then st1.evals ++ [st1.row] else st1.evals }
          ⟨ws ++ rowVals F B cx0.scope used false row rule t.outputs, (by
            intro w hw
            rcases List.mem_append.1 hw with hw | hw
            · exact hws w hw
            · exact rowVals_active (hused row) w hw), by
            rw [writes_append, ← hcx, ← d1]⟩
        refine ⟨fun st' h => ?_, fun h => k2 fun r hrr => h r (List.mem_cons_of_mem _ hrr)⟩
        obtain ⟨m0, m1, m2, m3⟩ := k1 st' h
        dsimp only at m1 m2 m3
        refine ⟨?_, ?_, ?_, ?_⟩
        · intro r hrr rule' hrule
          rcases List.mem_cons.1 hrr with rfl | hrr
          · rw [hr] at hrule; cases hrule; exact d0
          · exact m0 r hrr rule' hrule
        · rw [m1, d1, writes_append]
        · rw [m2, d2]; simp [pushes, List.foldl_append]
        · intro f
          rw [m3 f, d3 f]
          simp only [List.mem_append, or_and_right, exists_or, or_assoc]

/-- the null writes -/
theorem nullCols_spec (cs : List OCol) : ∀ (written : List String) (cx : Cx),
    ∃ ns : List (String × Val), nullCols cs written cx = writes ns cx ∧
      (∀ w ∈ ns, w.2 = .null ∧ w.1 ∉ written ∧ ∃ c ∈ cs, c.collect = false ∧ c.field ≠ "" ∧ c.field = w.1) ∧
      ∀ c ∈ cs, c.collect = false → c.field ≠ "" → c.field ∉ written → (c.field, Val.null) ∈ ns := by
  induction cs with
  | nil => intro written cx; exact ⟨[], rfl, fun w h => (nomatch h), fun c h => nomatch h⟩
  | cons c cs ih =>
    intro written cx
    simp only [nullCols]
    split
    · rename_i h
      simp only [Bool.and_eq_true, Bool.not_eq_true', String.isEmpty_eq_false_iff, List.contains_eq_mem,
        decide_eq_false_iff_not] at h
      obtain ⟨ns, h1, h2, h3⟩ := ih (c.field :: written) (cx.write c.field .null)
      refine ⟨(c.field, .null) :: ns, h1, ?_, ?_⟩
      · intro w hw
        rcases List.mem_cons.1 hw with rfl | hw
        · exact ⟨rfl, h.2, c, List.mem_cons_self .., h.1.1, h.1.2, rfl⟩
        · obtain ⟨g1, g2, c', hc', g⟩ := h2 w hw
          exact ⟨g1, fun hh => g2 (List.mem_cons_of_mem _ hh), c', List.mem_cons_of_mem _ hc', g⟩
      · intro c' hc' g1 g2 g3
        rcases List.mem_cons.1 hc' with rfl | hc'
        · exact List.mem_cons_self ..
        · by_cases he : c'.field = c.field
          · rw [he]; exact List.mem_cons_self ..
          · exact List.mem_cons_of_mem _ (h3 c' hc' g1 g2 (by simp [he, g3]))
    · rename_i h
      obtain ⟨ns, h1, h2, h3⟩ := ih written cx
      refine ⟨ns, h1, ?_, ?_⟩
      · intro w hw
        obtain ⟨g1, g2, c', hc', g⟩ := h2 w hw
        exact ⟨g1, g2, c', List.mem_cons_of_mem _ hc', g⟩
      · intro c' hc' g1 g2 g3
        rcases List.mem_cons.1 hc' with rfl | hc'
        · exfalso; apply h
          simp [g1, g2, g3]
        · exact h3 c' hc' g1 g2 g3

/-- the collected values of one path -/
theorem pushes_get (ws : List (String × Val)) : ∀ (coll : List (String × List Val)) (f : String) (vs : List Val),
    aGet coll f = some vs → aGet (pushes ws coll) f = some (vs ++ (ws.filter fun w => w.1 = f).map Prod.snd) := by
  induction ws with
  | nil => intro coll f vs h; simpa [pushes] using h
  | cons w ws ih =>
    intro coll f vs h
    have : pushes (w :: ws) coll = pushes ws (collPush coll w.1 w.2) := rfl
    rw [this]
    by_cases he : w.1 = f
    · rw [ih _ f (vs ++ [w.2]) (by simp [collPush, he, aGet_aSet, h])]
      simp [he]
    · rw [ih _ f vs (by simp [collPush, aGet_aSet, Ne.symm he, h])]
      simp [he]

theorem pushes_keys (ws : List (String × Val)) : ∀ (coll : List (String × List Val)),
    (aKeys coll).Nodup → (aKeys (pushes ws coll)).Nodup ∧
      ∀ f, f ∈ aKeys (pushes ws coll) → f ∈ aKeys coll ∨ ∃ w ∈ ws, w.1 = f := by
  induction ws with
  | nil => intro coll h; exact ⟨h, fun f hf => .inl hf⟩
  | cons w ws ih =>
    intro coll h
    have : pushes (w :: ws) coll = pushes ws (collPush coll w.1 w.2) := rfl
    rw [this]
    obtain ⟨g1, g2⟩ := ih (collPush coll w.1 w.2) (aKeys_aSet_nodup _ _ h)
    refine ⟨g1, fun f hf => ?_⟩
    rcases g2 f hf with hh | ⟨w', hw', hh⟩
    · unfold collPush at hh
      rw [aKeys_aSet] at hh
      split at hh
      · exact .inl hh
      · rcases List.mem_append.1 hh with hh | hh
        · exact .inl hh
        · rw [List.mem_singleton] at hh; exact .inr ⟨w, List.mem_cons_self .., hh.symm⟩
    · exact .inr ⟨w', List.mem_cons_of_mem _ hw', hh⟩

/-- the entries opened before the rows are looked at -/
def opened (cs : List OCol) (coll : List (String × List Val)) : List (String × List Val) :=
  cs.foldl (fun coll c => if c.collect && !c.field.isEmpty then collOpen coll c.field else coll) coll

theorem opened_spec (cs : List OCol) : ∀ (coll : List (String × List Val)), (aKeys coll).Nodup →
    (∀ f, aGet coll f = none ∨ aGet coll f = some []) →
    (aKeys (opened cs coll)).Nodup ∧
    (∀ f, aGet (opened cs coll) f = none ∨ aGet (opened cs coll) f = some []) ∧
    (∀ f, f ∈ aKeys (opened cs coll) ↔ f ∈ aKeys coll ∨ ∃ c ∈ cs, c.collect = true ∧ c.field ≠ "" ∧ c.field = f) := by
  induction cs with
  | nil => intro coll h1 h2; exact ⟨h1, h2, fun f => by simp [opened]⟩
  | cons c cs ih =>
    intro coll h1 h2
    have : opened (c :: cs) coll =
        opened cs (if c.collect && !c.field.isEmpty then collOpen coll c.field else coll) := rfl
    rw [this]
    split
    · rename_i h
      simp only [Bool.and_eq_true, Bool.not_eq_true', String.isEmpty_eq_false_iff] at h
      have hk : (aKeys (collOpen coll c.field)).Nodup ∧
          (∀ f, aGet (collOpen coll c.field) f = none ∨ aGet (collOpen coll c.field) f = some []) ∧
          ∀ f, f ∈ aKeys (collOpen coll c.field) ↔ f ∈ aKeys coll ∨ c.field = f := by
        unfold collOpen
        cases hg : aGet coll c.field with
        | some vs =>
          refine ⟨h1, h2, fun f => ⟨.inl, ?_⟩⟩
          rintro (hf | rfl)
          · exact hf
          · exact (aGet_isSome_iff _ _).1 (by rw [hg]; rfl)
        | none =>
          refine ⟨aKeys_aSet_nodup _ _ h1, fun f => ?_, fun f => ?_⟩
          · rw [aGet_aSet]; split
            · exact .inr rfl
            · exact h2 f
          · rw [aKeys_aSet, if_neg ((aGet_eq_none_iff _ _).1 hg)]
            simp [eq_comm]
      obtain ⟨g1, g2, g3⟩ := ih (collOpen coll c.field) hk.1 hk.2.1
      refine ⟨g1, g2, fun f => ?_⟩
      rw [g3, hk.2.2]
      simp only [List.mem_cons, exists_eq_or_imp, h, true_and, ne_eq, not_false_eq_true, or_assoc]
    · rename_i h
      obtain ⟨g1, g2, g3⟩ := ih coll h1 h2
      refine ⟨g1, g2, fun f => ?_⟩
      rw [g3]
      simp only [List.mem_cons, exists_eq_or_imp]
      constructor
      · rintro (hf | hf)
        · exact .inl hf
        · exact .inr (.inr hf)
      · rintro (hf | ⟨h5, h6, -⟩ | hf)
        · exact .inl hf
        · exfalso; apply h; simp [h5, h6]
        · exact .inr hf

end Zen.Policy
