import Verif.Engine.TableSpec
import Verif.Props.C14
import Verif.Props.C25
/-
Helper lemmas for the decision table theorems.
-/
namespace Zen

section evaluator
variable {F : FrontEnd} {B : Builtins} {s : Scope}

/-- the evaluator differs from the starting scope only in `$`, and its references are right -/
structure EvOk (F : FrontEnd) (B : Builtins) (s : Scope) (e : Ev) : Prop where
  scope : e.scope = s ∨ ∃ x, e.scope = s.setLocal "$" x
  refs : ∀ src v, e.refs.lookup src = some v → freshRun F B s .standard src = .ok v

theorem aSet_aSet {V : Type u} (l : List (String × V)) (k : String) (x y : V) :
    aSet (aSet l k x) k y = aSet l k y := by
  have key : ∀ (l : List (String × V)), aReplace (aReplace l k x) k y = aReplace l k y := by
    intro l
    induction l with
    | nil => rfl
    | cons a r ih =>
      obtain ⟨k', v⟩ := a
      by_cases h : k' = k <;> simp [aReplace, h, ih]
  cases hg : aGet l k with
  | some v =>
    have h1 : aSet l k x = aReplace l k x := by simp [aSet, hg]
    have h2 : aSet l k y = aReplace l k y := by simp [aSet, hg]
    rw [h1, h2]
    have : aGet (aReplace l k x) k = some x := by rw [aGet_aReplace]; simp [hg]
    simp [aSet, this, key]
  | none =>
    have h1 : aSet l k x = l ++ [(k, x)] := by simp [aSet, hg]
    have h2 : aSet l k y = l ++ [(k, y)] := by simp [aSet, hg]
    rw [h1, h2]
    have : aGet (l ++ [(k, x)]) k = some x := by rw [aGet_append, hg]; simp [aGet]
    simp only [aSet, this]
    clear h1 h2 this
    induction l with
    | nil => simp [aReplace]
    | cons a r ih =>
      obtain ⟨k', v⟩ := a
      simp only [aGet] at hg
      split at hg
      · cases hg
      · rename_i hne
        simp [aReplace, hne, ih hg]

theorem setLocal_setLocal (s : Scope) (k : String) (x y : Val) :
    (s.setLocal k x).setLocal k y = s.setLocal k y := by
  simp [Scope.setLocal, aSet_aSet]

theorem EvOk.setDollar {e : Ev} (h : EvOk F B s e) (v : Val) : e.scope.setLocal "$" v = s.setLocal "$" v := by
  rcases h.scope with h | ⟨x, h⟩
  · rw [h]
  · rw [h, setLocal_setLocal]

theorem EvOk.run {e : Ev} (h : EvOk F B s e) {src : String} (hs : NoDollar F src) :
    e.run F B src = freshRun F B s .standard src := by
  unfold Ev.run
  rcases h.scope with h | ⟨x, h⟩
  · rw [h]
  · rw [h]
    exact (freshRun_congr (L := ["$"]) (sameOutside_setLocal s "$" x (by simp)) hs).symm

theorem EvOk.start : EvOk F B s { scope := s } := ⟨.inl rfl, fun _ _ h => by cases h⟩

/-- taking a reference -/
theorem EvOk.setReference {e : Ev} (h : EvOk F B s e) {f : String} (hs : NoDollar F f) :
    (∀ er, freshRun F B s .standard f = .error er → e.setReference F B f = (.error er, e)) ∧
    (∀ v, freshRun F B s .standard f = .ok v → ∃ e', e.setReference F B f = (.ok (), e') ∧
      EvOk F B s e' ∧ e'.scope = s.setLocal "$" v ∧ e'.getReference f = some v) := by
  unfold Ev.setReference
  cases hl : e.refs.lookup f with
  | some w =>
    have hw := h.refs f w hl
    constructor
    · intro er her; rw [hw] at her; cases her
    · intro v hv
      rw [hw] at hv; cases hv
      refine ⟨_, rfl, ⟨.inr ⟨w, h.setDollar w⟩, h.refs⟩, h.setDollar w, ?_⟩
      exact hl
  | none =>
    dsimp only
    rw [h.run hs]
    constructor
    · intro er her; rw [her]
    · intro v hv
      rw [hv]
      refine ⟨_, rfl, ⟨.inr ⟨v, h.setDollar v⟩, ?_⟩, h.setDollar v, ?_⟩
      · intro src w hw
        by_cases e2 : src = f
        · subst e2
          simp only [Ev.setLocal, List.lookup_cons, beq_self_eq_true] at hw
          cases hw; exact hv
        · have : (src == f) = false := by simp [e2]
          simp only [Ev.setLocal, List.lookup_cons, this] at hw
          exact h.refs src w hw
      · simp [Ev.getReference, Ev.setLocal]

theorem asBool_true {r : Except IErr Val} : Iso.asBool r = .ok true ↔ r = .ok (.bool true) := by
  cases r with
  | error e => simp [Iso.asBool]
  | ok v => cases v <;> simp [Iso.asBool]

theorem EvOk.cellPasses {e : Ev} (h : EvOk F B s e) {field : Option String} {cell : String}
    (hf : ∀ f, field = some f → NoDollar F f) (hc : field = none → NoDollar F cell) :
    ((cellPasses F B e field cell).1 = true ↔ CellHolds F B s field cell) ∧
      EvOk F B s (cellPasses F B e field cell).2 := by
  cases field with
  | none =>
    simp only [Zen.cellPasses, CellHolds, h.run (hc rfl)]
    refine ⟨?_, h⟩
    cases freshRun F B s .standard cell with
    | error er => simp
    | ok v => cases v <;> simp
  | some f =>
    obtain ⟨h1, h2⟩ := h.setReference (hf f rfl)
    simp only [Zen.cellPasses, CellHolds]
    cases hr : freshRun F B s .standard f with
    | error er => rw [h1 er hr]; simp [h]
    | ok v =>
      obtain ⟨e', he, hok, hsc, _⟩ := h2 v hr
      rw [he]
      refine ⟨?_, hok⟩
      simp only [Ev.runUnary, hsc]
      constructor
      · intro hb
        refine ⟨v, rfl, asBool_true.1 ?_⟩
        revert hb
        cases Iso.asBool (freshRun F B (s.setLocal "$" v) .unary cell) with
        | error _ => simp
        | ok b => simp
      · rintro ⟨r, hr', hb⟩
        cases hr'
        rw [hb]; rfl

theorem EvOk.rowMatches {rule : Rule} {decided : Nat → Bool} (inputs : List TInput) :
    ∀ (col : Nat) (e : Ev), EvOk F B s e →
    (∀ inp ∈ inputs, ∀ f, inp.field = some f → NoDollar F f) →
    (∀ inp ∈ inputs, inp.field = none → ∀ cell, cellOf rule inp.id = some cell → NoDollar F cell) →
    (∀ k inp, inputs[k]? = some inp → decided (col + k) = true →
      ∀ cell, cellOf rule inp.id = some cell → CellHolds F B s inp.field cell) →
    ((rowMatches F B decided rule col inputs e).1 = true ↔
      ∀ inp ∈ inputs, ∀ cell, cellOf rule inp.id = some cell → CellHolds F B s inp.field cell) ∧
    EvOk F B s (rowMatches F B decided rule col inputs e).2 := by
  induction inputs with
  | nil => intro col e h _ _ _; simp [Zen.rowMatches, h]
  | cons inp rest ih =>
    intro col e h hf hc hd
    have ih' := fun e h => ih (col + 1) e h (fun i hi => hf i (List.mem_cons_of_mem _ hi))
      (fun i hi => hc i (List.mem_cons_of_mem _ hi))
      (fun k i hk hdk => hd (k + 1) i hk (by rw [← hdk]; congr 1; omega))
    simp only [Zen.rowMatches]
    split
    · rename_i hdec
      have := ih' e h
      refine ⟨?_, this.2⟩
      rw [this.1]
      simp only [List.mem_cons, forall_eq_or_imp]
      exact ⟨fun hr => ⟨hd 0 inp rfl hdec, hr⟩, fun hr => hr.2⟩
    · cases hcell : cellOf rule inp.id with
      | none =>
        dsimp only
        have := ih' e h
        refine ⟨?_, this.2⟩
        rw [this.1]
        simp [hcell]
      | some cell =>
        dsimp only
        obtain ⟨g1, g2⟩ := h.cellPasses (field := inp.field) (cell := cell)
          (hf inp (List.mem_cons_self ..)) (fun hn => hc inp (List.mem_cons_self ..) hn cell hcell)
        rcases hp : Zen.cellPasses F B e inp.field cell with ⟨b, e'⟩
        rw [hp] at g1 g2
        cases b with
        | true =>
          have := ih' e' g2
          refine ⟨?_, this.2⟩
          rw [this.1]
          simp only [List.mem_cons, forall_eq_or_imp]
          refine ⟨fun hr => ⟨fun c hcc => ?_, hr⟩, fun hr => hr.2⟩
          rw [hcell] at hcc; cases hcc; exact g1.1 rfl
        | false =>
          refine ⟨?_, g2⟩
          simp only [List.mem_cons, forall_eq_or_imp]
          constructor
          · intro hh; cases hh
          · intro hr; exact g1.2 (hr.1 cell hcell)

theorem EvOk.rowOutputs {e : Ev} (h : EvOk F B s e) {rule : Rule} (outs : List TOutput) :
    ∀ (acc : Val), (∀ o ∈ outs, ∀ cell, cellOf rule o.id = some cell → NoDollar F cell) →
    (OutputsEvaluate F B s rule outs → rowOutputs F B e rule outs acc = some (writeAll F B s rule outs acc)) ∧
    (¬ OutputsEvaluate F B s rule outs → rowOutputs F B e rule outs acc = none) := by
  induction outs with
  | nil =>
    intro acc _
    refine ⟨fun _ => rfl, fun hn => absurd ?_ hn⟩
    intro o ho; cases ho
  | cons o rest ih =>
    intro acc hnd
    have ih' := fun acc => ih acc (fun o ho => hnd o (List.mem_cons_of_mem _ ho))
    have hcons : OutputsEvaluate F B s rule (o :: rest) ↔
        ((o.writePath.1 ≠ "" → ∀ cell, cellOf rule o.id = some cell →
          ∃ v, freshRun F B s .standard cell = .ok v) ∧ OutputsEvaluate F B s rule rest) := by
      simp [OutputsEvaluate]
    by_cases hp : o.writePath.1 = ""
    · have hcons : OutputsEvaluate F B s rule (o :: rest) ↔ OutputsEvaluate F B s rule rest := by
        rw [hcons]; simp [hp]
      rw [hcons]
      have e1 : Zen.rowOutputs F B e rule (o :: rest) acc = Zen.rowOutputs F B e rule rest acc := by
        simp [Zen.rowOutputs, hp]
      have e2 : writeAll F B s rule (o :: rest) acc = writeAll F B s rule rest acc := by
        simp [writeAll, hp]
      rw [e1, e2]
      exact ih' acc
    · have hne : o.writePath.1.isEmpty = false := by simpa using hp
      cases hcell : cellOf rule o.id with
      | none =>
        have hcons : OutputsEvaluate F B s rule (o :: rest) ↔ OutputsEvaluate F B s rule rest := by
          rw [hcons]; simp [hcell]
        rw [hcons]
        have e1 : Zen.rowOutputs F B e rule (o :: rest) acc = Zen.rowOutputs F B e rule rest acc := by
          simp [Zen.rowOutputs, hne, hcell]
        have e2 : writeAll F B s rule (o :: rest) acc = writeAll F B s rule rest acc := by
          simp [writeAll, hp, cellVal, hcell]
        rw [e1, e2]
        exact ih' acc
      | some cell =>
        have hrun := h.run (hnd o (List.mem_cons_self ..) cell hcell)
        cases hv : freshRun F B s .standard cell with
        | error er =>
          have e1 : Zen.rowOutputs F B e rule (o :: rest) acc = none := by
            simp [Zen.rowOutputs, hne, hcell, hrun, hv]
          refine ⟨fun hh => ?_, fun _ => e1⟩
          obtain ⟨v, hv'⟩ := (hcons.1 hh).1 hp cell hcell
          rw [hv] at hv'; cases hv'
        | ok v =>
          have hcons : OutputsEvaluate F B s rule (o :: rest) ↔ OutputsEvaluate F B s rule rest := by
            rw [hcons]; simp [hcell, hv]
          rw [hcons]
          have e1 : Zen.rowOutputs F B e rule (o :: rest) acc =
              Zen.rowOutputs F B e rule rest (acc.dotInsert o.writePath.1 v).1 := by
            simp [Zen.rowOutputs, hne, hcell, hrun, hv]
          have e2 : writeAll F B s rule (o :: rest) acc =
              writeAll F B s rule rest (acc.dotInsert o.writePath.1 v).1 := by
            simp [writeAll, hp, cellVal, hcell, hv]
          rw [e1, e2]
          exact ih' _
end evaluator

/-! ### The index -/

/-- whether a row is listed under a key -/
def listed {K : Type} [DecidableEq K] (m : List (K × Bits)) (k : K) (row : Nat) : Bool :=
  match hGet m k with
  | some b => b.contains row
  | none => false

/-- all sets of the map have room for the rows -/
def MapWf {K : Type} (rows : Nat) (m : List (K × Bits)) : Prop := ∀ kb ∈ m, kb.2.Wf ∧ kb.2.len = rows

section
variable {K : Type} [DecidableEq K] {rows row : Nat}

theorem mapWf_entryInsert (m : List (K × Bits)) (k : K) (h : MapWf rows m) :
    MapWf rows (entryInsert rows row m k) := by
  induction m with
  | nil =>
    intro kb hkb
    simp only [entryInsert, List.mem_singleton] at hkb
    subst hkb
    exact ⟨Bits.wf_insert (Bits.wf_withCapacity _) _, rfl⟩
  | cons a r ih =>
    obtain ⟨k', b⟩ := a
    have ha := h _ (List.mem_cons_self ..)
    have hr : MapWf rows r := fun kb hkb => h kb (List.mem_cons_of_mem _ hkb)
    simp only [entryInsert]
    split
    · intro kb hkb
      rcases List.mem_cons.1 hkb with e | e
      · subst e; exact ⟨Bits.wf_insert ha.1 _, ha.2⟩
      · exact hr kb e
    · intro kb hkb
      rcases List.mem_cons.1 hkb with e | e
      · subst e; exact ha
      · exact ih hr kb e

theorem listed_entryInsert (m : List (K × Bits)) (k : K) (h : MapWf rows m) (hrow : row < rows)
    (k' : K) (i : Nat) :
    listed (entryInsert rows row m k) k' i = (listed m k' i || (decide (k' = k) && decide (i = row))) := by
  induction m with
  | nil =>
    simp only [listed, entryInsert, hGet]
    by_cases e : k = k'
    · subst e
      simp [Bits.contains_insert (Bits.wf_withCapacity rows) (i := row) hrow, Bits.contains_withCapacity]
    · simp [e, Ne.symm e]
  | cons a r ih =>
    obtain ⟨k2, b⟩ := a
    have ha := h _ (List.mem_cons_self ..)
    have hr : MapWf rows r := fun kb hkb => h kb (List.mem_cons_of_mem _ hkb)
    have ih := ih hr
    simp only [listed] at ih ⊢
    simp only [entryInsert]
    by_cases e : k2 = k
    · subst e
      rw [if_pos rfl]
      simp only [hGet]
      by_cases e2 : k2 = k'
      · subst e2
        rw [if_pos rfl, if_pos rfl]
        dsimp only
        rw [Bits.contains_insert ha.1 (by rw [ha.2]; exact hrow)]
        simp
      · simp [e2, Ne.symm e2]
    · simp only [if_neg e, hGet]
      by_cases e2 : k2 = k'
      · subst e2; simp [e]
      · simp only [if_neg e2]; exact ih

theorem mapWf_foldl (ks : List K) : ∀ (m : List (K × Bits)), MapWf rows m →
    MapWf rows (ks.foldl (entryInsert rows row) m) := by
  induction ks with
  | nil => intro m h; exact h
  | cons k ks ih => intro m h; exact ih _ (mapWf_entryInsert m k h)

theorem listed_foldl (ks : List K) (hrow : row < rows) : ∀ (m : List (K × Bits)), MapWf rows m →
    ∀ (k' : K) (i : Nat), listed (ks.foldl (entryInsert rows row) m) k' i =
      (listed m k' i || (decide (k' ∈ ks) && decide (i = row))) := by
  induction ks with
  | nil => intro m _ k' i; simp
  | cons k ks ih =>
    intro m h k' i
    rw [List.foldl_cons, ih _ (mapWf_entryInsert m k h), listed_entryInsert m k h hrow]
    by_cases e : k' = k <;> by_cases e2 : k' ∈ ks <;> cases listed m k' i <;> simp [e, e2]
end

/-- the test a column index captures for a row, if any -/
def rowTest (F : FrontEnd) (id : String) (rule : Rule) : Option ArmTest :=
  match cellOf rule id with
  | none => none
  | some cell => match cellTest F cell with
    | .enum p vs => some (.enum p vs)
    | .bool p vs => some (.bool p vs)
    | .number p c => match c.points with
      | some _ => some (.number p c)
      | none => none
    | _ => none

/-- whether a row is a hit for a value -/
def ColIx.hits (ix : ColIx) (v : Val) (row : Nat) : Bool :=
  match ix.rowsFor v with
  | some b => b.contains row
  | none => false

theorem points_has {c : Cover} {ps : List Rat} (h : c.points = some ps) (q : Rat) :
    c.Has q ↔ q ∈ ps := by
  induction c generalizing ps with
  | nil => cases h; simp [Cover.Has]
  | cons s r ih =>
    simp only [Cover.points] at h
    cases hs : Cover.segPoint s with
    | none => rw [hs] at h; cases h
    | some p =>
      rw [hs] at h
      cases hr : Cover.points r with
      | none => rw [hr] at h; cases h
      | some qs =>
        rw [hr] at h
        cases h
        have hseg : s.Has q ↔ q = p := by
          unfold Cover.segPoint at hs
          obtain ⟨lo, hi⟩ := s
          split at hs
          · split at hs
            · rename_i h1 h2 e
              dsimp only at h1 h2
              subst h1 h2 e
              cases hs
              simp only [Seg.Has, Bnd.Above, Bnd.Below]
              grind
            · cases hs
          · cases hs
        have := ih hr
        simp only [Cover.Has, List.mem_cons, exists_eq_or_imp] at this ⊢
        rw [hseg, this]

/-- what a column index knows after the first `k` rows -/
structure ColOk (rt : Nat → Option ArmTest) (rows k : Nat) (ix : ColIx) : Prop where
  capWf : ix.captured.Wf ∧ ix.captured.len = rows
  fbWf : ix.fallback.Wf ∧ ix.fallback.len = rows
  sWf : MapWf rows ix.strings
  nWf : MapWf rows ix.numbers
  bWf : MapWf rows ix.bools
  cap : ∀ i, ix.captured.contains i = decide (i < k ∧ (rt i).isSome)
  fb : ∀ i, ix.fallback.contains i = decide (i < k ∧ (rt i) = none)
  hits : ∀ v i, ix.hits v i = true ↔ i < k ∧ ∃ t, rt i = some t ∧ t.Holds v

theorem hits_str (ix : ColIx) (s : String) (i : Nat) : ix.hits (.str s) i = listed ix.strings s i := rfl
theorem hits_num (ix : ColIx) (q : Rat) (i : Nat) : ix.hits (.num q) i = listed ix.numbers q i := rfl
theorem hits_bool (ix : ColIx) (b : Bool) (i : Nat) : ix.hits (.bool b) i = listed ix.bools b i := rfl

theorem insert_spec {b : Bits} {rows k : Nat} (h : b.Wf ∧ b.len = rows) (hk : k < rows) (i : Nat) :
    (b.insert k).contains i = (b.contains i || decide (i = k)) :=
  Bits.contains_insert h.1 (by rw [h.2]; exact hk) i

theorem colOk_fallback {rt : Nat → Option ArmTest} {rows k : Nat} {ix : ColIx} (h : ColOk rt rows k ix)
    (hk : k < rows) (hrt : rt k = none) :
    ColOk rt rows (k + 1) { ix with fallback := ix.fallback.insert k } where
  capWf := h.capWf
  fbWf := ⟨Bits.wf_insert h.fbWf.1 _, h.fbWf.2⟩
  sWf := h.sWf
  nWf := h.nWf
  bWf := h.bWf
  cap i := by
    rw [h.cap]
    by_cases e : i = k
    · subst e; simp [hrt]
    · rw [decide_eq_decide]; constructor <;> (rintro ⟨h1, h2⟩; exact ⟨by omega, h2⟩)
  fb i := by
    rw [insert_spec h.fbWf hk, h.fb]
    by_cases e : i = k
    · subst e; simp [hrt]
    · simp only [e, decide_false, Bool.or_false]
      rw [decide_eq_decide]; constructor <;> (rintro ⟨h1, h2⟩; exact ⟨by omega, h2⟩)
  hits v i := by
    have : ColIx.hits { ix with fallback := ix.fallback.insert k } v i = ix.hits v i := by
      cases v <;> rfl
    rw [this, h.hits]
    by_cases e : i = k
    · subst e; simp [hrt]
    · constructor <;> (rintro ⟨h1, h2⟩; exact ⟨by omega, h2⟩)

theorem colOk_capture {rt : Nat → Option ArmTest} {rows k : Nat} {ix ix' : ColIx} {t : ArmTest}
    (h : ColOk rt rows k ix) (hk : k < rows) (hrt : rt k = some t)
    (hc : ix'.captured = ix.captured.insert k) (hf : ix'.fallback = ix.fallback)
    (hs : MapWf rows ix'.strings) (hn : MapWf rows ix'.numbers) (hb : MapWf rows ix'.bools)
    (hh : ∀ v i, ix'.hits v i = true ↔ ix.hits v i = true ∨ (i = k ∧ t.Holds v)) :
    ColOk rt rows (k + 1) ix' where
  capWf := by rw [hc]; exact ⟨Bits.wf_insert h.capWf.1 _, h.capWf.2⟩
  fbWf := by rw [hf]; exact h.fbWf
  sWf := hs
  nWf := hn
  bWf := hb
  cap i := by
    rw [hc, insert_spec h.capWf hk, h.cap]
    by_cases e : i = k
    · subst e; simp [hrt]
    · simp only [e, decide_false, Bool.or_false]
      rw [decide_eq_decide]; constructor <;> (rintro ⟨h1, h2⟩; exact ⟨by omega, h2⟩)
  fb i := by
    rw [hf, h.fb]
    by_cases e : i = k
    · subst e; simp [hrt]
    · rw [decide_eq_decide]; constructor <;> (rintro ⟨h1, h2⟩; exact ⟨by omega, h2⟩)
  hits v i := by
    rw [hh, h.hits]
    by_cases e : i = k
    · subst e; simp [hrt]
    · simp only [e, false_and, or_false]
      constructor <;> (rintro ⟨h1, h2⟩; exact ⟨by omega, h2⟩)

theorem colOk_addRow {F : FrontEnd} {id : String} {rt : Nat → Option ArmTest} {rows k : Nat}
    {ix : ColIx} {rule : Rule} (h : ColOk rt rows k ix) (hk : k < rows)
    (hrt : rt k = rowTest F id rule) : ColOk rt rows (k + 1) (ix.addRow F id rows k rule) := by
  unfold ColIx.addRow
  unfold rowTest at hrt
  cases hcell : cellOf rule id with
  | none => rw [hcell] at hrt; exact colOk_fallback h hk hrt
  | some cell =>
    rw [hcell] at hrt
    dsimp only at hrt ⊢
    cases ht : cellTest F cell with
    | dflt => rw [ht] at hrt; exact colOk_fallback h hk hrt
    | unrecognized => rw [ht] at hrt; exact colOk_fallback h hk hrt
    | enum p vs =>
      rw [ht] at hrt
      refine colOk_capture h hk hrt rfl rfl (mapWf_foldl _ _ h.sWf) h.nWf h.bWf ?_
      intro v i
      cases v with
      | str s =>
        rw [hits_str, listed_foldl _ hk _ h.sWf, hits_str]
        simp only [Bool.or_eq_true, Bool.and_eq_true, decide_eq_true_eq, ArmTest.Holds]
        grind
      | _ => simp [ColIx.hits, ColIx.rowsFor, ArmTest.Holds]
    | bool p vs =>
      rw [ht] at hrt
      refine colOk_capture h hk hrt rfl rfl h.sWf h.nWf (mapWf_foldl _ _ h.bWf) ?_
      intro v i
      cases v with
      | bool s =>
        rw [hits_bool, listed_foldl _ hk _ h.bWf, hits_bool]
        simp only [Bool.or_eq_true, Bool.and_eq_true, decide_eq_true_eq, ArmTest.Holds]
        grind
      | _ => simp [ColIx.hits, ColIx.rowsFor, ArmTest.Holds]
    | number p c =>
      rw [ht] at hrt
      dsimp only at hrt ⊢
      cases hp : c.points with
      | none => rw [hp] at hrt; exact colOk_fallback h hk hrt
      | some ps =>
        rw [hp] at hrt
        refine colOk_capture h hk hrt rfl rfl h.sWf (mapWf_foldl _ _ h.nWf) h.bWf ?_
        intro v i
        cases v with
        | num q =>
          rw [hits_num, listed_foldl _ hk _ h.nWf, hits_num]
          simp only [Bool.or_eq_true, Bool.and_eq_true, decide_eq_true_eq, ArmTest.Holds]
          have := points_has hp q
          grind
        | _ => simp [ColIx.hits, ColIx.rowsFor, ArmTest.Holds]

theorem colOk_addRows {F : FrontEnd} {id : String} {rt : Nat → Option ArmTest} {rows : Nat}
    (rules : List Rule) : ∀ (k : Nat) (ix : ColIx), ColOk rt rows k ix → k + rules.length ≤ rows →
    (∀ j rule, rules[j]? = some rule → rt (k + j) = rowTest F id rule) →
    ColOk rt rows (k + rules.length) (ColIx.addRows F id rows k rules ix) := by
  induction rules with
  | nil => intro k ix h _ _; exact h
  | cons r rs ih =>
    intro k ix h hle hrt
    simp only [List.length_cons] at hle ⊢
    have := ih (k + 1) _ (colOk_addRow h (by omega) (hrt 0 r rfl)) (by omega)
      (fun j rule hj => by rw [show k + 1 + j = k + (j + 1) by omega]; exact hrt (j + 1) rule hj)
    rw [show k + 1 + rs.length = k + (rs.length + 1) by omega] at this
    exact this

theorem colOk_start (rt : Nat → Option ArmTest) (rows : Nat) :
    ColOk rt rows 0 { captured := Bits.withCapacity rows, fallback := Bits.withCapacity rows } where
  capWf := ⟨Bits.wf_withCapacity _, rfl⟩
  fbWf := ⟨Bits.wf_withCapacity _, rfl⟩
  sWf := fun _ h => nomatch h
  nWf := fun _ h => nomatch h
  bWf := fun _ h => nomatch h
  cap i := by simp [Bits.contains_withCapacity]
  fb i := by simp [Bits.contains_withCapacity]
  hits v i := by cases v <;> simp [ColIx.hits, ColIx.rowsFor, hGet]

/-- the test captured for row `i` of a column -/
def testAt (F : FrontEnd) (id : String) (rules : List Rule) (i : Nat) : Option ArmTest :=
  match rules[i]? with
  | some rule => rowTest F id rule
  | none => none

theorem colOk_build {F : FrontEnd} {col : TInput} {rules : List Rule} {ix : ColIx}
    (h : ColIx.build F col rules rules.length = some ix) :
    (∃ f, col.field = some f ∧ f.isEmpty = false) ∧
      ColOk (testAt F col.id rules) rules.length rules.length ix := by
  unfold ColIx.build at h
  cases hf : col.field with
  | none => rw [hf] at h; cases h
  | some f =>
    rw [hf] at h
    dsimp only at h
    split at h
    · cases h
    · rename_i he
      split at h
      · cases h
        refine ⟨⟨f, rfl, by simpa using he⟩, ?_⟩
        have := colOk_addRows (F := F) (id := col.id) (rt := testAt F col.id rules)
          (rows := rules.length) rules 0 _ (colOk_start _ _) (by omega)
          (fun j rule hj => by simp [testAt, hj])
        rw [Nat.zero_add] at this
        exact this
      · cases h

/-- a captured test decides its cell -/
theorem rowTest_holds {F : FrontEnd} {B : Builtins} {s : Scope} {id : String} {rule : Rule}
    {t : ArmTest} {cell f : String} {r : Val} (hcell : cellOf rule id = some cell)
    (ht : rowTest F id rule = some t) (hr : freshRun F B s .standard f = .ok r) :
    t.Holds r ↔ CellHolds F B s (some f) cell := by
  unfold rowTest at ht
  rw [hcell] at ht
  dsimp only at ht
  have hct : cellTest F cell = t ∧ t ≠ .dflt ∧ t ≠ .unrecognized := by
    revert ht
    cases cellTest F cell with
    | number p c => dsimp only; cases c.points <;> (intro ht; cases ht; try simp)
    | _ => intro ht; cases ht; try simp
  obtain ⟨hct, hd, hu⟩ := hct
  unfold cellTest at hct
  split at hct
  · exact absurd hct.symm hd
  · cases hF : F .unary cell with
    | error er => rw [hF] at hct; exact absurd hct.symm hu
    | ok n =>
      rw [hF] at hct
      dsimp only at hct
      have hn : ArmTest.fromNode n = t ∧ t.path = ["$"] := by
        revert hct
        cases ArmTest.fromNode n with
        | enum p vs => dsimp only; split <;> (intro hct; subst hct; simp_all [ArmTest.path])
        | bool p vs => dsimp only; split <;> (intro hct; subst hct; simp_all [ArmTest.path])
        | number p vs => dsimp only; split <;> (intro hct; subst hct; simp_all [ArmTest.path])
        | dflt => intro hct; exact absurd hct.symm hd
        | unrecognized => intro hct; exact absurd hct.symm hu
      obtain ⟨hn, hpath⟩ := hn
      obtain ⟨hcomp, hiff⟩ := C25_recognised_true_iff B (s.setLocal "$" r) n (by rw [hn]; exact hu)
      rw [hn, hpath] at hiff
      have hv : valueAt (s.setLocal "$" r) ["$"] = r := by
        simp [valueAt, Scope.get, Scope.local_, Scope.setLocal, aGet_aSet]
      rw [hv] at hiff
      rw [← hiff]
      obtain ⟨code, hcode⟩ := hcomp
      have hfresh := freshRun_ok (F := F) (B := B) (scope := s.setLocal "$" r) hF hcode
      have hy : Yields B (s.setLocal "$" r) n (.ok (.bool true)) ↔
          freshRun F B (s.setLocal "$" r) .unary cell = .ok (.bool true) := by
        rw [hfresh, yields_iff]
        cases evaluate B (s.setLocal "$" r) n with
        | error e => simp [report]
        | ok v =>
          have : Compiles B n := ⟨code, hcode⟩
          simp only [report, this, true_and, Except.ok.injEq]
          exact ⟨Eq.symm, Eq.symm⟩
      rw [hy]
      constructor
      · intro h; exact ⟨r, hr, h⟩
      · rintro ⟨r', hr', h⟩; rw [hr] at hr'; cases hr'; exact h

/-- the narrowing of the candidate set by one column -/
theorem narrow_spec {rt : Nat → Option ArmTest} {rows k : Nat} {ix : ColIx} (h : ColOk rt rows k ix)
    (v : Val) (acc : Option Bits) (ha : ∀ a, acc = some a → a.len = rows) :
    (narrow ix v acc).len = rows ∧ ∀ i, (narrow ix v acc).contains i = true ↔
      (∀ a, acc = some a → a.contains i = true) ∧ (ix.fallback.contains i = true ∨ ix.hits v i = true) := by
  have hlen : ∀ b, ix.rowsFor v = some b → b.len = rows := by
    intro b hb
    have key : ∀ {K : Type} [DecidableEq K] (m : List (K × Bits)) (q : K), MapWf rows m →
        hGet m q = some b → b.len = rows := by
      intro K _ m q hm hg
      induction m with
      | nil => cases hg
      | cons a r ih =>
        obtain ⟨k', b'⟩ := a
        simp only [hGet] at hg
        split at hg
        · cases hg; exact (hm _ (List.mem_cons_self ..)).2
        · exact ih (fun kb hkb => hm kb (List.mem_cons_of_mem _ hkb)) hg
    cases v with
    | str s => exact key _ _ h.sWf hb
    | num q => exact key _ _ h.nWf hb
    | bool b => exact key _ _ h.bWf hb
    | _ => cases hb
  cases acc with
  | none =>
    simp only [narrow]
    cases hr : ix.rowsFor v with
    | none => exact ⟨h.fbWf.2, fun i => by simp [ColIx.hits, hr]⟩
    | some hit =>
      have hl := hlen hit hr
      refine ⟨by simp [Bits.unionWith, h.fbWf.2, hl], fun i => ?_⟩
      dsimp only
      rw [Bits.contains_unionWith (by rw [h.fbWf.2, hl])]
      simp [ColIx.hits, hr]
  | some a =>
    have hal := ha a rfl
    simp only [narrow]
    refine ⟨hal, fun i => ?_⟩
    cases hr : ix.rowsFor v with
    | none =>
      simp only [hitWords]
      rw [Bits.contains_mask_nil (by rw [hal, h.fbWf.2])]
      simp [ColIx.hits, hr]
    | some hit =>
      simp only [hitWords]
      rw [Bits.contains_mask (by rw [hal, h.fbWf.2]) hit (by rw [hlen hit hr, h.fbWf.2])]
      simp [ColIx.hits, hr]

section
variable {F : FrontEnd} {B : Builtins} {s : Scope}

/-- the candidate set: nothing but rows whose captured cells hold, and every row whose cells hold -/
theorem candidateRows_spec {rules : List Rule} (inputs : List TInput) :
    ∀ (acc : Option Bits) (e : Ev), EvOk F B s e → (∀ a, acc = some a → a.len = rules.length) →
    (∀ inp ∈ inputs, ∀ f, inp.field = some f → NoDollar F f) →
    EvOk F B s (candidateRows F B (inputs.map fun col => ColIx.build F col rules rules.length) inputs acc e).2 ∧
    ∀ c, (candidateRows F B (inputs.map fun col => ColIx.build F col rules rules.length) inputs acc e).1 = some c →
      ∀ i rule, rules[i]? = some rule →
        ((c.contains i = true → (∀ a, acc = some a → a.contains i = true) ∧
          ∀ (inp : TInput) ix, inp ∈ inputs → ColIx.build F inp rules rules.length = some ix →
            ix.captured.contains i = true → ∀ cell, cellOf rule inp.id = some cell →
            CellHolds F B s inp.field cell) ∧
        ((∀ a, acc = some a → a.contains i = true) →
          (∀ inp ∈ inputs, ∀ cell, cellOf rule inp.id = some cell → CellHolds F B s inp.field cell) →
          c.contains i = true)) := by
  induction inputs with
  | nil =>
    intro acc e h ha _
    refine ⟨h, fun c hc i rule hi => ?_⟩
    simp only [List.map_nil, candidateRows] at hc
    subst hc
    exact ⟨fun h => ⟨fun a ha => by cases ha; exact h, fun _ _ hm => nomatch hm⟩, fun h _ => h c rfl⟩
  | cons inp rest ih =>
    intro acc e h ha hnd
    have hnd' := fun i hi => hnd i (List.mem_cons_of_mem _ hi)
    simp only [List.map_cons]
    cases hb : ColIx.build F inp rules rules.length with
    | none =>
      simp only [candidateRows]
      obtain ⟨g1, g2⟩ := ih acc e h ha hnd'
      refine ⟨g1, fun c hc i rule hi => ?_⟩
      obtain ⟨k1, k2⟩ := g2 c hc i rule hi
      refine ⟨fun hci => ⟨(k1 hci).1, fun inp' ix hm hbx => ?_⟩, fun hacc hall => ?_⟩
      · rcases List.mem_cons.1 hm with e | e
        · subst e; rw [hb] at hbx; cases hbx
        · exact (k1 hci).2 inp' ix e hbx
      · exact k2 hacc (fun inp' hm => hall inp' (List.mem_cons_of_mem _ hm))
    | some ix =>
      obtain ⟨⟨f, hf, hfe⟩, hok⟩ := colOk_build hb
      obtain ⟨r1, r2⟩ := h.setReference (hnd inp (List.mem_cons_self ..) f hf)
      simp only [candidateRows, hf, hfe]
      cases hr : freshRun F B s .standard f with
      | error er => rw [r1 er hr]; exact ⟨h, fun c hc => by cases hc⟩
      | ok v =>
        obtain ⟨e', he, hok', hsc, hget⟩ := r2 v hr
        rw [he]
        simp only [hget]
        split
        · rename_i hcontra; cases hcontra
        · split
          · exact ⟨hok', fun c hc => by cases hc⟩
          · obtain ⟨n1, n2⟩ := narrow_spec hok v acc ha
            obtain ⟨g1, g2⟩ := ih (some (narrow ix v acc)) e' hok' (fun a ha => by cases ha; exact n1) hnd'
            refine ⟨g1, fun c hc i rule hi => ?_⟩
            obtain ⟨k1, k2⟩ := g2 c hc i rule hi
            have hlt : i < rules.length := by
              rcases Nat.lt_or_ge i rules.length with hh | hh
              · exact hh
              · rw [List.getElem?_eq_none hh] at hi; cases hi
            have hta : testAt F inp.id rules i = rowTest F inp.id rule := by simp [testAt, hi]
            refine ⟨fun hci => ?_, fun hacc hall => ?_⟩
            · obtain ⟨m1, m2⟩ := k1 hci
              have hnar := (n2 i).1 (m1 _ rfl)
              refine ⟨hnar.1, fun inp' ix' hm hbx hcap cell hcell => ?_⟩
              rcases List.mem_cons.1 hm with e | e
              · subst e
                rw [hb] at hbx; cases hbx
                rw [hok.cap] at hcap
                have hcap := of_decide_eq_true hcap
                have hnfb : ¬ ix.fallback.contains i = true := by
                  rw [hok.fb]
                  simp only [decide_eq_true_eq, not_and]
                  intro _ hn
                  rw [hn] at hcap; simp at hcap
                rcases hnar.2 with hh | hh
                · exact absurd hh hnfb
                · obtain ⟨_, t, ht, hth⟩ := (hok.hits v i).1 hh
                  rw [hta] at ht
                  rw [hf]
                  exact (rowTest_holds hcell ht hr).1 hth
              · exact m2 inp' ix' e hbx hcap cell hcell
            · refine k2 (fun a ha' => ?_) (fun inp' hm => hall inp' (List.mem_cons_of_mem _ hm))
              cases ha'
              refine (n2 i).2 ⟨hacc, ?_⟩
              rw [hok.fb, hok.hits]
              cases ht : rowTest F inp.id rule with
              | none => left; simp [hlt, hta, ht]
              | some t =>
                right
                refine ⟨hlt, t, by rw [hta, ht], ?_⟩
                cases hcell : cellOf rule inp.id with
                | none => simp [rowTest, hcell] at ht
                | some cell =>
                  have := hall inp (List.mem_cons_self ..) cell hcell
                  rw [hf] at this
                  exact (rowTest_holds hcell ht hr).2 this

/-- what the pruning may do: skipped rows do not hold, and decided cells of other rows hold -/
structure PruneOk (F : FrontEnd) (B : Builtins) (s : Scope) (t : Table) (skip : Nat → Bool)
    (decided : Nat → Nat → Bool) : Prop where
  skips : ∀ i rule, t.rules[i]? = some rule → skip i = true → ¬ RowHolds F B s t rule
  dec : ∀ i rule, t.rules[i]? = some rule → skip i = false → ∀ k inp, t.inputs[k]? = some inp →
    decided i k = true → ∀ cell, cellOf rule inp.id = some cell → CellHolds F B s inp.field cell

theorem pruneOk_none (t : Table) : PruneOk F B s t (fun _ => false) (fun _ _ => false) :=
  ⟨fun _ _ _ h => (by cases h), fun _ _ _ _ _ _ _ h => (by cases h)⟩

theorem build_eq {t : Table} {ix : TableIx} (h : TableIx.build F t.inputs t.rules = some ix) :
    ix = t.inputs.map fun col => ColIx.build F col t.rules t.rules.length := by
  unfold TableIx.build at h
  dsimp only at h
  split at h
  · cases h
  · split at h
    · cases h; rfl
    · cases h

/-- pruning through the index of the table is sound -/
theorem pruneOk_candidates {t : Table} (ht : Tidy F t) {ix : Option TableIx}
    (hix : ix = none ∨ ix = TableIx.build F t.inputs t.rules) {e : Ev} (h : EvOk F B s e) :
    EvOk F B s (candidates F B t ix e).2 ∧
    PruneOk F B s t (skipped (candidates F B t ix e).1) (decidedBy (candidates F B t ix e).1 ix) := by
  have hnone : ∀ j : Option TableIx, PruneOk F B s t (skipped none) (decidedBy none j) := fun j =>
    ⟨fun _ _ _ h => (by cases h), fun _ _ _ _ _ _ _ h => (by cases j <;> cases h)⟩
  cases ix with
  | none => exact ⟨h, hnone none⟩
  | some ix =>
    have hb : TableIx.build F t.inputs t.rules = some ix := by
      rcases hix with hh | hh
      · cases hh
      · exact hh.symm
    have heq := build_eq hb
    obtain ⟨g1, g2⟩ := candidateRows_spec (B := B) (s := s) (rules := t.rules) t.inputs none e h
      (fun a ha => by cases ha) ht.fields
    rw [← heq] at g1 g2
    simp only [candidates]
    refine ⟨g1, ?_⟩
    cases hc : (candidateRows F B ix t.inputs none e).1 with
    | none => exact hnone _
    | some c =>
      have g2 := g2 c hc
      constructor
      · intro i rule hi hs hrow
        have := (g2 i rule hi).2 (fun a ha => by cases ha) hrow
        simp [skipped, this] at hs
      · intro i rule hi hs k inp hk hd cell hcell
        have hci : c.contains i = true := by simpa [skipped] using hs
        have hm := ((g2 i rule hi).1 hci).2
        simp only [decidedBy, TableIx.decides] at hd
        rw [heq, List.getElem?_map, hk] at hd
        simp only [Option.map_some] at hd
        cases hcol : ColIx.build F inp t.rules t.rules.length with
        | none => rw [hcol] at hd; cases hd
        | some col =>
          rw [hcol] at hd
          exact hm inp col (List.mem_of_getElem? hk) hcol hd cell hcell

/-- evaluating one row that is not skipped -/
theorem evaluateRow_spec {t : Table} (ht : Tidy F t) {skip : Nat → Bool} {decided : Nat → Nat → Bool}
    (hp : PruneOk F B s t skip decided) {i : Nat} {rule : Rule} (hi : t.rules[i]? = some rule)
    (hs : skip i = false) {e : Ev} (h : EvOk F B s e) :
    EvOk F B s (evaluateRow F B t (decided i) rule e).2 ∧
    (∀ v, (evaluateRow F B t (decided i) rule e).1 = some v → Fires F B s t rule v) ∧
    ((evaluateRow F B t (decided i) rule e).1 = none → ¬ ∃ v, Fires F B s t rule v) := by
  have hmem := List.mem_of_getElem? hi
  obtain ⟨g1, g2⟩ := EvOk.rowMatches (decided := decided i) t.inputs 0 e h ht.fields
    (fun inp hinp => ht.conds rule hmem inp hinp)
    (fun k inp hk hd => hp.dec i rule hi hs k inp hk (by rw [Nat.zero_add] at hd; exact hd))
  unfold evaluateRow
  rcases hm : rowMatches F B (decided i) rule 0 t.inputs e with ⟨b, e'⟩
  rw [hm] at g1 g2
  dsimp only at g1 g2
  cases b with
  | false =>
    refine ⟨g2, (fun v hv => by cases hv), fun _ ⟨v, hv⟩ => ?_⟩
    have := g1.2 hv.1
    cases this
  | true =>
    obtain ⟨o1, o2⟩ := g2.rowOutputs (rule := rule) t.outputs (.obj []) (ht.outs rule hmem)
    refine ⟨g2, fun v hv => ?_, fun hn ⟨v, hv⟩ => ?_⟩
    · dsimp only at hv
      by_cases hev : OutputsEvaluate F B s rule t.outputs
      · rw [o1 hev] at hv; cases hv
        exact ⟨g1.1 rfl, hev, rfl⟩
      · rw [o2 hev] at hv; cases hv
    · dsimp only at hn
      rw [o1 hv.2.1] at hn; cases hn
end

end Zen
