import Verif.Policy.LintLemmas
/-
C63: the table hints of the policy linter. What a hint says about rows and columns is compared with what the
table does.
-/
namespace Zen.Policy
open Zen Val

/-! ### Specification -/

/-- Spaces around a cell do not matter: cells of spaces only do not occur, and the front end reads the text of a
cell as it reads the trimmed text. (Cells without spaces around them meet this whatever the front end does.) -/
def Plain (F : FrontEnd) (t : PTable) : Prop :=
  ∀ rule ∈ t.rules, ∀ id c, aGet rule id = some c → (trimmed c = "" → c = "") ∧ ∀ k, F k (trimmed c) = F k c

/-- the table without a row -/
def PTable.dropRow (t : PTable) (k : Nat) : PTable := { t with rules := t.rules.eraseIdx k }

/-- the table without an input column -/
def PTable.dropInput (t : PTable) (i : Nat) : PTable := { t with inputs := t.inputs.eraseIdx i }

/-- `t'` can take the place of `t`: in every environment in which `t` chooses its rows (without the index, which
only exists for some tables) so does `t'`, and whenever both do, with or without the index and whatever the
trace flags, they lead to the same error or to the same context. -/
structure Replaces (F : FrontEnd) (B : Builtins) (t t' : PTable) : Prop where
  runs : ∀ s extras sel, t.select F B extras none s = .ok sel → ∃ sel', t'.select F B extras none s = .ok sel'
  writes : ∀ s extras extras' indexed indexed' sel sel', t.select F B extras (ixOf F t indexed) s = .ok sel →
    t'.select F B extras' (ixOf F t' indexed') s = .ok sel' →
    ∀ (order : List (String × List Val) → List (String × List Val)) (trace trace' : Bool) (cx : Cx),
      (t.commit F B order trace sel cx).map Prod.fst = (t'.commit F B order trace' sel' cx).map Prod.fst

variable {F : FrontEnd} {B : Builtins} {s : Scope} {t t' : PTable}

/-! ### Cells and their trimmed text -/

theorem textOf_eq {rule : Rule} {id cell : String} (h : cellOf rule id = some cell) : textOf rule id = trimmed cell := by
  unfold cellOf at h
  unfold textOf
  cases hg : aGet rule id with
  | none => rw [hg] at h; cases h
  | some c =>
    rw [hg] at h
    dsimp only at h ⊢
    split at h
    · cases h
    · cases h; rfl

theorem aGet_of_cellOf {rule : Rule} {id cell : String} (h : cellOf rule id = some cell) :
    aGet rule id = some cell ∧ cell ≠ "" := by
  unfold cellOf at h
  cases hg : aGet rule id with
  | none => rw [hg] at h; cases h
  | some c =>
    rw [hg] at h
    dsimp only at h
    split at h
    · cases h
    · rename_i hc
      cases h
      exact ⟨rfl, by simpa using hc⟩

theorem trimmed_empty : trimmed "" = "" := rfl

theorem cellOf_none (hp : Plain F t) {rule : Rule} (hr : rule ∈ t.rules) {id : String} :
    cellOf rule id = none ↔ textOf rule id = "" := by
  unfold cellOf textOf
  cases hg : aGet rule id with
  | none => simp
  | some c =>
    dsimp only
    constructor
    · intro h
      split at h
      · rename_i hc
        have : c = "" := by simpa using hc
        rw [this]; rfl
      · cases h
    · intro h
      have := (hp rule hr id c hg).1 h
      subst this
      rfl

/-- cells with the same trimmed text are the same to the evaluator -/
theorem front_eq (hp : Plain F t) {rule rule' : Rule} (hr : rule ∈ t.rules) (hr' : rule' ∈ t.rules) {id id' c c' : String}
    (h : cellOf rule id = some c) (h' : cellOf rule' id' = some c') (he : textOf rule id = textOf rule' id') (k : Kind) :
    F k c = F k c' := by
  rw [textOf_eq h, textOf_eq h'] at he
  rw [← (hp rule hr id c (aGet_of_cellOf h).1).2 k, ← (hp rule' hr' id' c' (aGet_of_cellOf h').1).2 k, he]

theorem freshRun_front {c c' : String} {k : Kind} (h : F k c = F k c') (s : Scope) :
    freshRun F B s k c = freshRun F B s k c' := by
  unfold freshRun; rw [h]

theorem cellHolds_front {c c' : String} (h : ∀ k, F k c = F k c') (field : Option String) :
    CellHolds F B s field c ↔ CellHolds F B s field c' := by
  unfold CellHolds
  cases field with
  | none => dsimp only; rw [freshRun_front (h _)]
  | some f =>
    dsimp only
    exact exists_congr fun r => and_congr_right fun _ => by rw [freshRun_front (h _)]

/-! ### Rows -/

theorem shadows_iff {t : PTable} {e l : Rule} : shadows (t.rowView e) (t.rowView l) = true ↔
    ∀ inp ∈ t.inputs, textOf e inp.id = "" ∨ textOf e inp.id = textOf l inp.id := by
  unfold shadows PTable.rowView
  rw [List.zip_map', List.all_map, List.all_eq_true]
  simp [String.isEmpty_iff]

theorem view_some {rows : List RowView} (h : t.view = some rows) :
    rows = t.rules.map t.rowView ∧ t.outputs ≠ [] ∧ (∀ c ∈ t.outputs, c.collect = false) ∧ t.inputs ≠ [] := by
  unfold PTable.view at h
  split at h
  · cases h
  · rename_i h1
    split at h
    · cases h
    · rename_i h2
      cases h
      simp only [Bool.or_eq_true, not_or, List.isEmpty_iff, List.any_eq_true, not_exists, not_and,
        Bool.not_eq_true] at h1 h2
      exact ⟨rfl, h1.1, h1.2, h2⟩

theorem rowView_beq {e l : Rule} :
    ((t.rowView e).inputs == (t.rowView l).inputs && (t.rowView e).outputs == (t.rowView l).outputs) = true ↔
      t.rowView e = t.rowView l := by
  rw [Bool.and_eq_true, beq_iff_eq, beq_iff_eq]
  constructor
  · intro h; cases ha : t.rowView e; cases hb : t.rowView l; rw [ha, hb] at h; simp_all
  · intro h; rw [h]; exact ⟨rfl, rfl⟩

/-- what a hint about a row amounts to -/
theorem rowHint_spec {h : RowHint} (hh : h ∈ t.rowHints) :
    (∀ c ∈ t.outputs, c.collect = false) ∧ h.earlier < h.later ∧
    ∃ e l, t.rules[h.earlier]? = some e ∧ t.rules[h.later]? = some l ∧
      shadows (t.rowView e) (t.rowView l) = true ∧ (h.duplicate = true ↔ t.rowView e = t.rowView l) := by
  unfold PTable.rowHints at hh
  cases hv : t.view with
  | none => rw [hv] at hh; cases hh
  | some rows =>
    obtain ⟨rfl, -, hs, -⟩ := view_some hv
    rw [hv] at hh
    simp only [List.mem_filterMap, List.length_map, List.mem_range'_1] at hh
    obtain ⟨k, -, hk⟩ := hh
    unfold rowHint at hk
    rw [List.getElem?_map] at hk
    cases hl : t.rules[k]? with
    | none => rw [hl] at hk; cases hk
    | some l =>
      rw [hl] at hk
      dsimp only [Option.map_some] at hk
      split at hk
      · cases hk
      · rename_i i hf
        have h1 := List.mem_range.1 (List.mem_of_find?_eq_some hf)
        have h2 := List.find?_some hf
        rw [List.getElem?_map] at hk h2
        cases he : t.rules[i]? with
        | none => rw [he] at hk; cases hk
        | some e =>
          rw [he] at hk h2
          dsimp only [Option.map_some] at hk h2
          cases hk
          exact ⟨hs, h1, e, l, he, hl, h2, rowView_beq⟩

/-- a row with fewer conditions, the others being the same, holds when the other does -/
theorem holds_shadow (hp : Plain F t) {e l : Rule} (hme : e ∈ t.rules) (hml : l ∈ t.rules)
    (hs : ∀ inp ∈ t.inputs, textOf e inp.id = "" ∨ textOf e inp.id = textOf l inp.id)
    (hrow : RowHolds F B s t.asTable l) : RowHolds F B s t.asTable e := by
  intro inp hi cell hc
  simp only [PTable.asTable, List.mem_map] at hi
  obtain ⟨inp, hi, rfl⟩ := hi
  have hc : cellOf e inp.id = some cell := hc
  rcases hs inp hi with h0 | h0
  · rw [(cellOf_none hp hme).2 h0] at hc; cases hc
  · cases hcl : cellOf l inp.id with
    | none =>
      rw [(cellOf_none hp hml).1 hcl] at h0
      rw [(cellOf_none hp hme).2 h0] at hc; cases hc
    | some cell' =>
      have hx := hrow (normIn inp) (by simp only [PTable.asTable, List.mem_map]; exact ⟨inp, hi, rfl⟩) cell' hcl
      exact (cellHolds_front (fun k => front_eq hp hme hml hc hcl h0 k) _).2 hx

/-- "row `m` already matches every case it matches" is right: whenever the flagged row holds, so does the
earlier one. -/
theorem C63_matched (hp : Plain F t) {h : RowHint} (hh : h ∈ t.rowHints) :
    ∃ e l, t.rules[h.earlier]? = some e ∧ t.rules[h.later]? = some l ∧
      ∀ s, RowHolds F B s t.asTable l → RowHolds F B s t.asTable e := by
  obtain ⟨-, -, e, l, he, hl, hs, -⟩ := rowHint_spec hh
  exact ⟨e, l, he, hl, fun s hrow =>
    holds_shadow hp (List.mem_of_getElem? he) (List.mem_of_getElem? hl) (shadows_iff.1 hs) hrow⟩

theorem tidy_dropRow (ht : Tidy F t.asTable) (k : Nat) : Tidy F (t.dropRow k).asTable :=
  ⟨ht.fields, fun rule hr => ht.conds rule (List.mem_of_mem_eraseIdx hr), fun _ _ _ ho => nomatch ho⟩

/-- the rows left after one is removed -/
def skipIdx (k i : Nat) : Nat := if i < k then i else i + 1

theorem skipIdx_mono (k i j : Nat) : skipIdx k i < skipIdx k j ↔ i < j := by
  unfold skipIdx; split <;> split <;> omega

theorem skipIdx_eq {k j : Nat} (h : j ≠ k) : skipIdx k (if j < k then j else j - 1) = j := by
  unfold skipIdx
  by_cases h1 : j < k
  · rw [if_pos h1, if_pos h1]
  · rw [if_neg h1, if_neg (by omega)]; omega

theorem skipIdx_ne (k i : Nat) : skipIdx k i ≠ k := by unfold skipIdx; split <;> omega

/-- one table within the other, in every environment: it can take its place -/
theorem RowsWithin.replaces (ht : Tidy F t.asTable) (ht' : Tidy F t'.asTable) {f : Nat → Nat}
    (h : ∀ s, RowsWithin F B s t t' f)
    (hr : ∀ s rule b, rule ∈ t.rules → rowRes F B s rule t.inputs = .ok b → ∃ b', rowRes F B s rule t'.inputs = .ok b') :
    Replaces F B t t' := by
  constructor
  · intro s extras sel hsel
    rw [select_ok_iff ht']
    have := (select_ok_iff ht extras).1 ⟨sel, hsel⟩
    intro i rule hi hd
    rw [(h s).rules i] at hi
    obtain ⟨b, hb⟩ := this _ rule hi fun hh => hd (((h s).done i).2 hh)
    exact hr s rule b (List.mem_of_getElem? hi) hb
  · intro s extras extras' indexed indexed' sel sel' h1 h2 order trace trace' cx
    exact (h s).commit (C43_table_select ht extras indexed sel h1) (C43_table_select ht' extras' indexed' sel' h2)
      order trace trace' cx

/-- A row said to be unreachable can be removed, provided the earlier row has a cell in every output column in
which it has one itself (see `C63_unreachable` for what happens otherwise). -/
theorem C63_row (ht : Tidy F t.asTable) (hp : Plain F t) {h : RowHint} (hh : h ∈ t.rowHints)
    (hout : ∀ e l, t.rules[h.earlier]? = some e → t.rules[h.later]? = some l → ∀ c ∈ t.active,
      cellOf l c.id ≠ none → cellOf e c.id ≠ none) :
    Replaces F B t (t.dropRow h.later) := by
  obtain ⟨hcol, hlt, e0, l0, he0, hl0, -, -⟩ := rowHint_spec hh
  obtain ⟨e, l, he, hl, himp⟩ := C63_matched (B := B) hp hh
  refine RowsWithin.replaces (f := skipIdx h.later) ht (tidy_dropRow ht _) (fun s => ?_) fun s rule b _ hb => ⟨b, hb⟩
  refine ⟨rfl, skipIdx_mono _, fun i => ?_, fun _ _ _ => Iff.rfl, ?_, fun _ c hc => ?_⟩
  · simp only [PTable.dropRow, List.getElem?_eraseIdx, skipIdx]
    split <;> rfl
  · intro j rule hrow hj
    have hjk : j = h.later := by
      by_contra hne
      exact hj _ (skipIdx_eq hne)
    subst hjk
    have : rule = l := by have := hrow.1.symm.trans hl; cases this; rfl
    subst this
    exact ⟨h.earlier, e, hlt, ⟨he, himp s hrow.2⟩, hout e rule he hl⟩
  · exact hcol c (List.mem_of_mem_filter hc)

/-- A row said to duplicate another can be removed. -/
theorem C63_duplicate (ht : Tidy F t.asTable) (hp : Plain F t) {h : RowHint} (hh : h ∈ t.rowHints)
    (hd : h.duplicate = true) : Replaces F B t (t.dropRow h.later) := by
  refine C63_row ht hp hh fun e l he hl c hc hcell hn => hcell ?_
  obtain ⟨-, -, e0, l0, he0, hl0, -, hdup⟩ := rowHint_spec hh
  rw [he] at he0; cases he0
  rw [hl] at hl0; cases hl0
  have hv := hdup.1 hd
  have hmem : c ∈ t.outputs := List.mem_of_mem_filter hc
  have htx : textOf e c.id = textOf l c.id := by
    have : (t.rowView e).outputs = (t.rowView l).outputs := by rw [hv]
    exact (List.map_inj_left.1 this) c hmem
  rw [cellOf_none hp (List.mem_of_getElem? hl), ← htx]
  exact (cellOf_none hp (List.mem_of_getElem? he)).1 hn

/-! ### Columns without conditions -/

theorem tidy_dropInput (ht : Tidy F t.asTable) (i : Nat) : Tidy F (t.dropInput i).asTable := by
  have hm : ∀ inp ∈ (t.dropInput i).asTable.inputs, inp ∈ t.asTable.inputs := by
    intro inp hi
    simp only [PTable.asTable, PTable.dropInput, List.mem_map] at hi ⊢
    obtain ⟨a, ha, he⟩ := hi
    exact ⟨a, List.mem_of_mem_eraseIdx ha, he⟩
  exact ⟨fun inp hi => ht.fields inp (hm inp hi), fun rule hr inp hi => ht.conds rule hr inp (hm inp hi),
    fun _ _ _ ho => nomatch ho⟩

theorem rowRes_erase {rule : Rule} (inps : List TInput) : ∀ i : Nat,
    (∀ inp, inps[i]? = some inp → cellOf rule inp.id = none) →
    rowRes F B s rule (inps.eraseIdx i) = rowRes F B s rule inps := by
  induction inps with
  | nil => intro i _; rfl
  | cons inp rest ih =>
    intro i h
    cases i with
    | zero =>
      have h0 : cellOf rule inp.id = none := h inp rfl
      have : cellRes F B s inp rule = .ok true := by unfold cellRes; rw [h0]
      simp [rowRes, this]
    | succ i =>
      have := ih i fun inp hi => h inp hi
      simp only [List.eraseIdx_cons_succ, rowRes, this]

/-- A column said to have no conditions can be removed. -/
theorem C63_no_conditions (ht : Tidy F t.asTable) (hp : Plain F t) {col : Nat}
    (hh : (col, ColHint.noConditions) ∈ t.colHints) : Replaces F B t (t.dropInput col) := by
  have hempty : ∀ rule ∈ t.rules, ∀ inp, t.inputs[col]? = some inp → cellOf rule inp.id = none := by
    intro rule hr inp hi
    unfold PTable.colHints at hh
    cases hv : t.view with
    | none => rw [hv] at hh; cases hh
    | some rows =>
      obtain ⟨rfl, -, -, -⟩ := view_some hv
      rw [hv] at hh
      dsimp only at hh
      split at hh
      · cases hh
      · simp only [List.mem_filterMap] at hh
        obtain ⟨col', -, hc⟩ := hh
        split at hc
        · rename_i hall
          cases hc
          rw [List.all_eq_true] at hall
          have := hall (t.rowView rule) (List.mem_map_of_mem hr)
          rw [cellOf_none hp hr]
          simpa [RowView.cell, PTable.rowView, hi, String.isEmpty_iff] using this
        · split at hc <;> cases hc
  refine RowsWithin.replaces (f := id) ht (tidy_dropInput ht _) (fun s => ?_) fun s rule b hr hb =>
    ⟨b, (rowRes_erase t.inputs col (hempty rule hr)).trans hb⟩
  refine ⟨rfl, fun _ _ => Iff.rfl, fun _ => rfl, fun i rule hi => ?_, fun j _ _ hj => absurd rfl (hj j),
    fun ⟨i, hi⟩ => absurd rfl (hi i)⟩
  have hr : rule ∈ t.rules := List.mem_of_getElem? (l := t.rules) hi
  rw [← rowRes_holds, ← rowRes_holds]
  exact Iff.of_eq (congrArg (· = _) (rowRes_erase t.inputs col (hempty rule hr)))

/-! ### Columns said not to change the outcome -/

/-- rows with the same key once -/
def dedupKey (key : Rule → List String) : List (List String) → List Rule → List Rule
  | _, [] => []
  | seen, r :: rs => if key r ∈ seen then dedupKey key seen rs else r :: dedupKey key (key r :: seen) rs

/-- "remove it and dedupe the rows": the table without the column, and with one row for all those that do not
differ elsewhere -/
def PTable.merge (t : PTable) (col : Nat) : PTable :=
  { t with inputs := t.inputs.eraseIdx col, rules := dedupKey (fun r => (t.rowView r).key col) [] t.rules }

/-- Rows with different outputs are told apart by the other columns: they do not both hold there. -/
def RowsApart (F : FrontEnd) (B : Builtins) (s : Scope) (t : PTable) (col : Nat) : Prop :=
  ∀ r ∈ t.rules, ∀ r' ∈ t.rules, RowHolds F B s (t.dropInput col).asTable r →
    RowHolds F B s (t.dropInput col).asTable r' → (t.rowView r).outputs = (t.rowView r').outputs

theorem dedup_sub {key : Rule → List String} (rs : List Rule) : ∀ seen r, r ∈ dedupKey key seen rs → r ∈ rs := by
  induction rs with
  | nil => intro _ _ h; cases h
  | cons a rs ih =>
    intro seen r h
    unfold dedupKey at h
    split at h
    · exact List.mem_cons_of_mem _ (ih seen r h)
    · rcases List.mem_cons.1 h with rfl | h
      · exact List.mem_cons_self ..
      · exact List.mem_cons_of_mem _ (ih _ r h)

theorem dedup_key {key : Rule → List String} (rs : List Rule) : ∀ seen r, r ∈ rs →
    key r ∈ seen ∨ ∃ r' ∈ dedupKey key seen rs, key r' = key r := by
  induction rs with
  | nil => intro _ _ h; cases h
  | cons a rs ih =>
    intro seen r h
    unfold dedupKey
    rcases List.mem_cons.1 h with rfl | h
    · by_cases hk : key r ∈ seen
      · exact .inl hk
      · rw [if_neg hk]; exact .inr ⟨r, List.mem_cons_self .., rfl⟩
    · by_cases hk : key a ∈ seen
      · rw [if_pos hk]; exact ih seen r h
      · rw [if_neg hk]
        rcases ih (key a :: seen) r h with h1 | ⟨r', h1, h2⟩
        · rcases List.mem_cons.1 h1 with h1 | h1
          · exact .inr ⟨a, List.mem_cons_self .., h1.symm⟩
          · exact .inl h1
        · exact .inr ⟨r', List.mem_cons_of_mem _ h1, h2⟩

/-- what is known of the groups while they are built -/
structure GroupsOk (rows : List RowView) (col : Nat) (seen : RowView → Nat → Prop)
    (gs : List (List String × List Nat)) : Prop where
  has : ∀ r i, seen r i → ∃ ms, (r.key col, ms) ∈ gs ∧ i ∈ ms
  ofKey : ∀ K ms, (K, ms) ∈ gs → ∀ i ∈ ms, ∃ r, rows[i]? = some r ∧ r.key col = K

theorem addTo_mem (K : List String) (i : Nat) (gs : List (List String × List Nat)) :
    (∃ ms, (K, ms) ∈ addTo K i gs ∧ i ∈ ms) ∧
    (∀ K' ms', (K', ms') ∈ gs → ∃ ms, (K', ms) ∈ addTo K i gs ∧ ∀ j ∈ ms', j ∈ ms) ∧
    (∀ K' ms', (K', ms') ∈ addTo K i gs → ∀ j ∈ ms', (j = i ∧ K' = K) ∨ ∃ ms, (K', ms) ∈ gs ∧ j ∈ ms) := by
  induction gs with
  | nil =>
    refine ⟨⟨[i], by simp [addTo], by simp⟩, (fun _ _ h => nomatch h), fun K' ms' h j hj => ?_⟩
    simp only [addTo, List.mem_singleton, Prod.mk.injEq] at h
    obtain ⟨rfl, rfl⟩ := h
    exact .inl ⟨by simpa using hj, rfl⟩
  | cons g gs ih =>
    obtain ⟨K0, ms0⟩ := g
    obtain ⟨i1, i2, i3⟩ := ih
    unfold addTo
    by_cases hk : K0 = K
    · subst hk
      rw [if_pos rfl]
      refine ⟨⟨_, List.mem_cons_self .., by simp⟩, ?_, ?_⟩
      · intro K' ms' h
        rcases List.mem_cons.1 h with h | h
        · cases h; exact ⟨_, List.mem_cons_self .., fun j hj => List.mem_append_left _ hj⟩
        · exact ⟨ms', List.mem_cons_of_mem _ h, fun j hj => hj⟩
      · intro K' ms' h j hj
        rcases List.mem_cons.1 h with h | h
        · cases h
          rcases List.mem_append.1 hj with hj | hj
          · exact .inr ⟨ms0, List.mem_cons_self .., hj⟩
          · exact .inl ⟨by simpa using hj, rfl⟩
        · exact .inr ⟨ms', List.mem_cons_of_mem _ h, hj⟩
    · rw [if_neg hk]
      refine ⟨?_, ?_, ?_⟩
      · obtain ⟨ms, h1, h2⟩ := i1
        exact ⟨ms, List.mem_cons_of_mem _ h1, h2⟩
      · intro K' ms' h
        rcases List.mem_cons.1 h with h | h
        · cases h; exact ⟨_, List.mem_cons_self .., fun j hj => hj⟩
        · obtain ⟨ms, h1, h2⟩ := i2 K' ms' h
          exact ⟨ms, List.mem_cons_of_mem _ h1, h2⟩
      · intro K' ms' h j hj
        rcases List.mem_cons.1 h with h | h
        · cases h; exact .inr ⟨_, List.mem_cons_self .., hj⟩
        · rcases i3 K' ms' h j hj with h' | ⟨ms, h1, h2⟩
          · exact .inl h'
          · exact .inr ⟨ms, List.mem_cons_of_mem _ h1, h2⟩

theorem groups_ok (rows : List RowView) (col : Nat) :
    GroupsOk rows col (fun r i => rows[i]? = some r) (groups rows col) := by
  have key : ∀ (ps : List (RowView × Nat)) (gs : List (List String × List Nat)) (seen : RowView → Nat → Prop),
      (∀ p ∈ ps, rows[p.2]? = some p.1) → GroupsOk rows col seen gs →
      GroupsOk rows col (fun r i => seen r i ∨ (r, i) ∈ ps) (ps.foldl (fun gs p => addTo (p.1.key col) p.2 gs) gs) := by
    intro ps
    induction ps with
    | nil => intro gs seen _ h; exact ⟨fun r i hs => h.has r i (by simpa using hs), h.ofKey⟩
    | cons p ps ih =>
      intro gs seen hps h
      obtain ⟨a1, a2, a3⟩ := addTo_mem (p.1.key col) p.2 gs
      have := ih (addTo (p.1.key col) p.2 gs) (fun r i => seen r i ∨ (r, i) = p)
        (fun q hq => hps q (List.mem_cons_of_mem _ hq)) ⟨?_, ?_⟩
      · refine ⟨fun r i hs => this.has r i ?_, this.ofKey⟩
        rcases hs with hs | hs
        · exact .inl (.inl hs)
        · rcases List.mem_cons.1 hs with hs | hs
          · exact .inl (.inr hs)
          · exact .inr hs
      · rintro r i (hs | hs)
        · obtain ⟨ms, h1, h2⟩ := h.has r i hs
          obtain ⟨ms', h3, h4⟩ := a2 _ _ h1
          exact ⟨ms', h3, h4 i h2⟩
        · subst hs; exact a1
      · intro K ms hm i hi
        rcases a3 K ms hm i hi with ⟨rfl, rfl⟩ | ⟨ms', h1, h2⟩
        · exact ⟨p.1, hps p (List.mem_cons_self ..), rfl⟩
        · exact h.ofKey K ms' h1 i h2
  have := key rows.zipIdx [] (fun _ _ => False)
    (fun p hp => by simpa using (List.mem_zipIdx_iff_getElem? (x := p)).1 hp) ⟨fun _ _ h => h.elim, fun _ _ h => nomatch h⟩
  refine ⟨fun r i hr => this.has r i (.inr ?_), this.ofKey⟩
  rw [List.mem_zipIdx_iff_getElem?]
  exact hr

theorem fallThrough_row {col : Nat} {K : List String} {ms : List Nat} {outs : List String}
    (ps : List (RowView × Nat)) (h : fallThrough col K ms outs ps = true) :
    ∃ p ∈ ps, p.1.cell col = "" ∧ ((p.1.key col).zip K).all (fun q => q.1.isEmpty || q.1 == q.2) = true := by
  induction ps with
  | nil => cases h
  | cons p ps ih =>
    obtain ⟨row, idx⟩ := p
    unfold fallThrough at h
    split at h
    · rename_i hsub
      split at h
      · rename_i he
        exact ⟨_, List.mem_cons_self .., by simpa [String.isEmpty_iff] using he, hsub⟩
      · split at h
        · obtain ⟨p, hp, h'⟩ := ih h
          exact ⟨p, List.mem_cons_of_mem _ hp, h'⟩
        · cases h
    · obtain ⟨p, hp, h'⟩ := ih h
      exact ⟨p, List.mem_cons_of_mem _ hp, h'⟩

theorem groupLoop_ok {rows : List RowView} {col : Nat} (gs : List (List String × List Nat)) : ∀ merges : Bool,
    groupLoop rows col gs merges = true → ∀ K ms, (K, ms) ∈ gs → rowsAt rows ms ≠ [] →
    (∃ w ∈ rowsAt rows ms, w.cell col = "") ∨
      ∃ p ∈ rows.zipIdx, p.1.cell col = "" ∧ ((p.1.key col).zip K).all (fun q => q.1.isEmpty || q.1 == q.2) = true := by
  induction gs with
  | nil => intro _ _ _ _ h; cases h
  | cons g gs ih =>
    obtain ⟨K0, ms0⟩ := g
    intro merges h K ms hm hne
    unfold groupLoop at h
    dsimp only at h
    have tail : ∀ b, groupLoop rows col gs b = true → (K, ms) ∈ gs → _ := fun b hb hin => ih b hb K ms hin hne
    split at h
    · rename_i hnil
      rcases List.mem_cons.1 hm with e | hm
      · cases e; exact absurd hnil hne
      · exact tail _ h hm
    · rename_i m rest hms
      split at h
      · cases h
      · split at h
        · split at h
          · rename_i he
            rcases List.mem_cons.1 hm with e | hm
            · cases e
              exact .inl ⟨m, by rw [hms]; exact List.mem_cons_self .., by simpa [String.isEmpty_iff] using he⟩
            · exact tail _ h hm
          · cases h
        · split at h
          · cases h
          · rename_i hw
            rcases List.mem_cons.1 hm with e | hm
            · cases e
              rw [Bool.and_eq_true, not_and_or] at hw
              rcases hw with hw | hw
              · simp only [Bool.not_eq_true', Bool.not_eq_false, ← hms, List.any_eq_true, String.isEmpty_iff] at hw
                exact .inl hw
              · simp only [Bool.not_eq_true', Bool.not_eq_false] at hw
                exact .inr (fallThrough_row _ hw)
            · exact tail _ h hm

/-- for every row of a flagged table there is one without a condition in the column, and with cells elsewhere
that are empty or the same -/
theorem neverAffects_row {rows : List RowView} {col : Nat} (h : neverAffects rows col = true) (r : RowView)
    (hr : r ∈ rows) : ∃ w ∈ rows, w.cell col = "" ∧
      ((w.key col).zip (r.key col)).all (fun q => q.1.isEmpty || q.1 == q.2) = true := by
  obtain ⟨i, hi⟩ := List.mem_iff_getElem?.1 hr
  have hg := groups_ok rows col
  obtain ⟨ms, hms, him⟩ := hg.has r i hi
  have hne : rowsAt rows ms ≠ [] := by
    have : r ∈ rowsAt rows ms := List.mem_filterMap.2 ⟨i, him, hi⟩
    intro h0; rw [h0] at this; cases this
  rcases groupLoop_ok _ _ h _ ms hms hne with ⟨w, hw, hc⟩ | ⟨p, hp, hc, hz⟩
  · obtain ⟨j, hj, hw'⟩ := List.mem_filterMap.1 hw
    obtain ⟨w', h1, h2⟩ := hg.ofKey _ ms hms j hj
    rw [hw'] at h1; cases h1
    refine ⟨w, List.mem_of_getElem? hw', hc, ?_⟩
    rw [h2, List.all_eq_true]
    intro q hq
    have : q.1 = q.2 := by
      rw [List.zip_eq_zipWith] at hq
      simp only [List.zipWith_self, List.mem_map] at hq
      obtain ⟨a, -, rfl⟩ := hq; rfl
    simp [this]
  · exact ⟨p.1, List.mem_of_getElem? ((List.mem_zipIdx_iff_getElem?).1 hp), hc, hz⟩

theorem eraseIdx_map' {α β : Type} (f : α → β) (l : List α) : ∀ i, (l.map f).eraseIdx i = (l.eraseIdx i).map f := by
  induction l with
  | nil => intro i; rfl
  | cons a l ih => intro i; cases i <;> simp [ih]

theorem key_map (r : Rule) (col : Nat) :
    (t.rowView r).key col = (t.inputs.eraseIdx col).map fun c => textOf r c.id := eraseIdx_map' ..

theorem scalarIs_text (hp : Plain F t) {c : OCol} {txt : String} {s2 : Scope} {v : Val}
    (hsome : ∃ i r, RowAt F B s t i r) (hall : ∀ i r, RowAt F B s t i r → textOf r c.id = txt) :
    ScalarIs F B s s2 t c v ↔ if txt = "" then v = .null else freshRun F B s2 .standard txt = .ok v := by
  have hmem : ∀ {i r}, RowAt F B s t i r → r ∈ t.rules := fun h => List.mem_of_getElem? h.1
  have hrun : ∀ {i r cell}, RowAt F B s t i r → cellOf r c.id = some cell →
      freshRun F B s2 .standard cell = freshRun F B s2 .standard txt := by
    intro i r cell h hc
    have h1 := (hp r (hmem h) c.id cell (aGet_of_cellOf hc).1).2 .standard
    rw [← textOf_eq hc, hall i r h] at h1
    exact freshRun_front h1.symm s2
  unfold ScalarIs
  by_cases ht : txt = ""
  · rw [if_pos ht]
    have hn : ∀ i r, RowAt F B s t i r → cellOf r c.id = none := fun i r h =>
      (cellOf_none hp (hmem h)).2 ((hall i r h).trans ht)
    constructor
    · rintro (⟨i, r, cell, h1, h2, -⟩ | ⟨h, -⟩)
      · rw [hn i r h1] at h2; cases h2
      · exact h
    · intro h; exact .inr ⟨h, hn⟩
  · rw [if_neg ht]
    have hn : ∀ i r, RowAt F B s t i r → ∃ cell, cellOf r c.id = some cell := fun i r h => by
      cases hc : cellOf r c.id with
      | some cell => exact ⟨cell, rfl⟩
      | none => exact absurd ((hall i r h).symm.trans ((cellOf_none hp (hmem h)).1 hc)) ht
    constructor
    · rintro (⟨i, r, cell, h1, h2, h3, -⟩ | ⟨-, h⟩)
      · rw [← hrun h1 h2]; exact h3
      · obtain ⟨i, r, h1⟩ := hsome
        obtain ⟨cell, hc⟩ := hn i r h1
        rw [h i r h1] at hc; cases hc
    · intro h
      classical
      have hex : ∃ i, ∃ r, RowAt F B s t i r := hsome
      obtain ⟨r, h1⟩ := Nat.find_spec hex
      obtain ⟨cell, hc⟩ := hn _ r h1
      exact .inl ⟨_, r, cell, h1, hc, (hrun h1 hc).trans h, fun j r' hj hr' => absurd ⟨r', hr'⟩ (Nat.find_min hex hj)⟩

theorem scalarIs_none {c : OCol} {s2 : Scope} {v : Val} (hno : ¬ ∃ i r, RowAt F B s t i r) :
    ScalarIs F B s s2 t c v ↔ v = .null := by
  unfold ScalarIs
  constructor
  · rintro (⟨i, r, _, h1, -⟩ | ⟨h, -⟩)
    · exact absurd ⟨i, r, h1⟩ hno
    · exact h
  · intro h; exact .inr ⟨h, fun i r h1 => absurd ⟨i, r, h1⟩ hno⟩

theorem rowAt_iff : (∃ i r, RowAt F B s t i r) ↔ ∃ r ∈ t.rules, RowHolds F B s t.asTable r := by
  constructor
  · rintro ⟨i, r, h1, h2⟩; exact ⟨r, List.mem_of_getElem? h1, h2⟩
  · rintro ⟨r, h1, h2⟩
    obtain ⟨i, hi⟩ := List.mem_iff_getElem?.1 h1
    exact ⟨i, r, hi, h2⟩

/-- A column said not to change the outcome can be removed and the rows be merged, provided rows with different
outputs are told apart by the other columns (see `C63_never_changes` for what happens otherwise): every output
column has the same value before and after. -/
theorem C63_merge (hp : Plain F t) {col : Nat} (hh : (col, ColHint.neverChanges) ∈ t.colHints)
    (hap : RowsApart F B s t col) {c : OCol} (hc : c ∈ t.active) (s2 : Scope) (v : Val) :
    ColIs F B s s2 t c v ↔ ColIs F B s s2 (t.merge col) c v := by
  have hfl : neverAffects (t.rules.map t.rowView) col = true ∧ ∀ c ∈ t.outputs, c.collect = false := by
    unfold PTable.colHints at hh
    cases hv : t.view with
    | none => rw [hv] at hh; cases hh
    | some rows =>
      obtain ⟨rfl, -, hs, -⟩ := view_some hv
      rw [hv] at hh
      dsimp only at hh
      split at hh
      · cases hh
      · simp only [List.mem_filterMap] at hh
        obtain ⟨col', -, hc⟩ := hh
        split at hc
        · cases hc
        · split at hc
          · rename_i hn; cases hc; exact ⟨hn, hs⟩
          · cases hc
  obtain ⟨hfl, hscal⟩ := hfl
  have hco : c.collect = false := hscal c (List.mem_of_mem_filter hc)
  have hmemc : c ∈ t.outputs := List.mem_of_mem_filter hc
  have hpd : Plain F (t.dropInput col) := hp
  have hpm : Plain F (t.merge col) := fun r hr => hp r (dedup_sub _ _ _ hr)
  -- holding in `t` implies holding elsewhere
  have hdown : ∀ r, RowHolds F B s t.asTable r → RowHolds F B s (t.dropInput col).asTable r := by
    intro r h inp hi
    refine h inp ?_
    simp only [PTable.asTable, PTable.dropInput, List.mem_map] at hi ⊢
    obtain ⟨a, ha, he⟩ := hi
    exact ⟨a, List.mem_of_mem_eraseIdx ha, he⟩
  have hsub : ∀ w ∈ t.rules, ∀ r ∈ t.rules,
      (((t.rowView w).key col).zip ((t.rowView r).key col)).all (fun q => q.1.isEmpty || q.1 == q.2) = true →
      RowHolds F B s (t.dropInput col).asTable r → RowHolds F B s (t.dropInput col).asTable w := by
    intro w hw r hr hz
    refine holds_shadow hpd hw hr ?_
    rw [key_map, key_map, List.zip_map', List.all_map, List.all_eq_true] at hz
    intro inp hi
    simpa [String.isEmpty_iff] using hz inp hi
  -- wherever a row holds but for the column, a row of `t` holds
  have hup : ∀ r ∈ t.rules, RowHolds F B s (t.dropInput col).asTable r → ∃ w ∈ t.rules, RowHolds F B s t.asTable w := by
    intro r hr h
    obtain ⟨w0, hw0, hcell, hz⟩ := neverAffects_row hfl (t.rowView r) (List.mem_map_of_mem hr)
    obtain ⟨w, hw, rfl⟩ := List.mem_map.1 hw0
    refine ⟨w, hw, ?_⟩
    have h1 := hsub w hw r hr hz h
    rw [← rowRes_holds] at h1 ⊢
    rw [← h1]
    refine (rowRes_erase t.inputs col fun inp hi => ?_).symm
    rw [cellOf_none hp hw]
    simpa [RowView.cell, PTable.rowView, hi] using hcell
  have hsame : (∃ i r, RowAt F B s t i r) ↔ ∃ i r, RowAt F B s (t.merge col) i r := by
    rw [rowAt_iff, rowAt_iff]
    constructor
    · rintro ⟨r, hr, h⟩
      rcases dedup_key (key := fun r => (t.rowView r).key col) t.rules [] r hr with h0 | ⟨r', h1, h2⟩
      · cases h0
      · refine ⟨r', h1, ?_⟩
        refine hsub r' (dedup_sub _ _ _ h1) r hr ?_ (hdown r h)
        rw [show (t.rowView r').key col = (t.rowView r).key col from h2, key_map, List.zip_map', List.all_map,
          List.all_eq_true]
        intro inp _; simp
    · rintro ⟨r, hr, h⟩
      exact hup r (dedup_sub _ _ _ hr) h
  have hout : ∀ r ∈ t.rules, ∀ r' ∈ t.rules, RowHolds F B s (t.dropInput col).asTable r →
      RowHolds F B s (t.dropInput col).asTable r' → textOf r c.id = textOf r' c.id := by
    intro r hr r' hr' h h'
    exact (List.map_inj_left.1 (hap r hr r' hr' h h')) c hmemc
  unfold ColIs
  simp only [hco, Bool.false_eq_true, if_false]
  by_cases hs : ∃ i r, RowAt F B s t i r
  · have hs' := hs
    obtain ⟨i0, r0, h0, h0'⟩ := hs'
    rw [scalarIs_text (txt := textOf r0 c.id) hp hs fun i r h =>
        hout r (List.mem_of_getElem? h.1) r0 (List.mem_of_getElem? h0) (hdown r h.2) (hdown r0 h0'),
      scalarIs_text (txt := textOf r0 c.id) hpm (hsame.1 hs) fun i r h =>
        hout r (dedup_sub _ _ _ (List.mem_of_getElem? h.1)) r0 (List.mem_of_getElem? h0) h.2 (hdown r0 h0')]
  · rw [scalarIs_none hs, scalarIs_none fun h => hs (hsame.2 h)]

/-! ### Where the hints are wrong -/

/-- what a table leaves in its output column, started from the scope -/
def outcome (t : PTable) (s : Scope) (field : String) : Option Val :=
  match t.select tableFront demoB false none s with
  | .error _ => none
  | .ok sel => match t.commit tableFront demoB id false sel { store := s.base } with
    | .error _ => none
    | .ok r => r.1.store.dot field

/-- the first row matches everything but fills one column only -/
def gapTable : PTable where
  inputs := [⟨"c1", some "x"⟩, ⟨"c2", some "y"⟩]
  outputs := [⟨"o1", "first", false⟩, ⟨"o2", "second", false⟩]
  rules := [[("o1", "u")], [("c1", "b"), ("o1", "w"), ("o2", "v")]]

/-- "Row 2 is unreachable" is said of a row that is reached: output columns the first row leaves empty get
their value from the second, and removing it changes the result. -/
theorem C63_unreachable : gapTable.rowHints = [⟨1, 0, false⟩] ∧
    outcome gapTable demoInput "second" = some (.num 2) ∧
    outcome (gapTable.dropRow 1) demoInput "second" = some .null := ⟨by decide +kernel, rfl, rfl⟩

/-- `x` is "b" and `y` as given -/
def withY (y : Val) : Scope where
  base := .obj [("x", .str "b"), ("y", y), ("u", .num 1), ("v", .num 2)]

/-- rows `b, p`, then a catch-all, then `b` alone -/
def orderTable : PTable where
  inputs := [⟨"c1", some "x"⟩, ⟨"c2", some "y"⟩]
  outputs := [⟨"o1", "res", false⟩]
  rules := [[("c1", "b"), ("c2", "p"), ("o1", "u")], [("o1", "v")], [("c1", "b"), ("o1", "u")]]

/-- "Input column `y` never changes the outcome" is said of a column that does: with a row that has no condition
in the column, the order of the rows is not looked at. -/
theorem C63_never_changes : orderTable.colHints = [(1, .neverChanges)] ∧
    outcome orderTable (withY (.str "p")) "res" = some (.num 1) ∧
    outcome orderTable (withY (.str "q")) "res" = some (.num 2) := ⟨by decide +kernel, rfl, rfl⟩

/-- `x` is "b", `z` is "d" and `y` as given -/
def withZ (y : Val) : Scope where
  base := .obj [("x", .str "b"), ("y", y), ("z", .str "d"), ("u", .num 1), ("v", .num 2)]

/-- rows `b, p, -` and `b, q, -`, then `-, -, d`, then a catch-all -/
def overlapTable : PTable where
  inputs := [⟨"c1", some "x"⟩, ⟨"c2", some "y"⟩, ⟨"c3", some "z"⟩]
  outputs := [⟨"o1", "res", false⟩]
  rules := [[("c1", "b"), ("c2", "p"), ("o1", "u")], [("c1", "b"), ("c2", "q"), ("o1", "u")],
    [("c3", "d"), ("o1", "v")], [("o1", "u")]]

/-- ... nor are rows taken into account that overlap without one subsuming the other. -/
theorem C63_overlap : overlapTable.colHints = [(1, .neverChanges)] ∧ overlapTable.rowHints = [] ∧
    outcome overlapTable (withZ (.str "p")) "res" = some (.num 1) ∧
    outcome overlapTable (withZ (.str "r")) "res" = some (.num 2) :=
  ⟨by decide +kernel, by decide +kernel, rfl, rfl⟩

/-! ### Instances -/

theorem plain_of_trimmed (h : ∀ rule ∈ t.rules, ∀ p ∈ rule, trimmed p.2 = p.2) : Plain F t := by
  intro rule hr id c hc
  have : ∃ p ∈ rule, p.2 = c := by
    clear hr
    induction rule with
    | nil => cases hc
    | cons p ps ih =>
      obtain ⟨k, d⟩ := p
      unfold aGet at hc
      split at hc
      · cases hc; exact ⟨_, List.mem_cons_self .., rfl⟩
      · obtain ⟨p, hp, h⟩ := ih hc; exact ⟨p, List.mem_cons_of_mem _ hp, h⟩
  obtain ⟨p, hp, rfl⟩ := this
  rw [h rule hr p hp]
  exact ⟨fun e => e, fun _ => rfl⟩

/-- a table of the demonstration front end whose column expressions are not `$` -/
theorem demo_tidy (h : ∀ inp ∈ t.inputs, ∃ f, fieldOf inp = some f ∧ f ≠ "$") : Tidy tableFront t.asTable := by
  refine ⟨?_, ?_, fun _ _ _ ho => nomatch ho⟩
  · intro inp hi f hf n hn
    simp only [PTable.asTable, List.mem_map] at hi
    obtain ⟨a, ha, rfl⟩ := hi
    obtain ⟨g, hg, hne⟩ := h a ha
    have : fieldOf a = some f := hf
    rw [hg] at this; cases this
    cases hn
    exact ⟨trivial, by simpa [Avoids] using hne⟩
  · intro rule _ inp hi hf
    simp only [PTable.asTable, List.mem_map] at hi
    obtain ⟨a, ha, rfl⟩ := hi
    obtain ⟨g, hg, -⟩ := h a ha
    have : fieldOf a = none := hf
    rw [hg] at this; cases this

/-- rows 2 and 3 are flagged, the second as a duplicate, as is the second column -/
def flaggedTable : PTable where
  inputs := [⟨"c1", some "x"⟩, ⟨"c2", some "y"⟩]
  outputs := [⟨"o1", "res", false⟩]
  rules := [[("c1", "b"), ("o1", "u")], [("c1", "b"), ("o1", "u")], [("c1", "b"), ("o1", "v")], [("o1", "v")]]

example : flaggedTable.rowHints = [⟨1, 0, true⟩, ⟨2, 0, false⟩] ∧ flaggedTable.colHints = [(1, .noConditions)] ∧
    Tidy tableFront flaggedTable.asTable ∧ Plain tableFront flaggedTable ∧
    (∀ e l, flaggedTable.rules[0]? = some e → flaggedTable.rules[2]? = some l → ∀ c ∈ flaggedTable.active,
      cellOf l c.id ≠ none → cellOf e c.id ≠ none) ∧
    outcome flaggedTable demoInput "res" = some (.num 1) ∧
    outcome (flaggedTable.dropRow 2) demoInput "res" = some (.num 1) := by
  refine ⟨by decide +kernel, by decide +kernel, demo_tidy ?_, plain_of_trimmed (by decide +kernel), ?_, rfl, rfl⟩
  · intro inp hi
    simp only [flaggedTable, List.mem_cons, List.not_mem_nil, or_false] at hi
    rcases hi with rfl | rfl
    · exact ⟨"x", rfl, by decide⟩
    · exact ⟨"y", rfl, by decide⟩
  · intro e l he hl c hc _
    cases he
    simp only [PTable.active, flaggedTable] at hc
    have : c = ⟨"o1", "res", false⟩ := by simpa using List.mem_of_mem_filter hc
    subst this
    decide

/-- `b, p` and `b` give the same, `c` something else -/
def mergeTable : PTable where
  inputs := [⟨"c1", some "x"⟩, ⟨"c2", some "y"⟩]
  outputs := [⟨"o1", "res", false⟩]
  rules := [[("c1", "b"), ("c2", "p"), ("o1", "u")], [("c1", "c"), ("o1", "v")], [("c1", "b"), ("o1", "u")]]

theorem mergeTable_b (y : Val) : RowHolds tableFront demoB (withY y) (mergeTable.dropInput 1).asTable
    [("c1", "c"), ("o1", "v")] → False := by
  intro h
  obtain ⟨r, h1, h2⟩ := h ⟨"c1", some "x"⟩ (by simp [PTable.asTable, PTable.dropInput, mergeTable, normIn, fieldOf]) "c" rfl
  have hr : r = .str "b" := by
    have : freshRun tableFront demoB (withY y) .standard "x" = .ok (.str "b") := rfl
    rw [this] at h1; cases h1; rfl
  subst hr
  have : freshRun tableFront demoB ((withY y).setLocal "$" (.str "b")) .unary "c" = .ok (.bool false) := rfl
  rw [this] at h2; cases h2

example (y : Val) : (1, ColHint.neverChanges) ∈ mergeTable.colHints ∧ Plain tableFront mergeTable ∧
    RowsApart tableFront demoB (withY y) mergeTable 1 ∧ (mergeTable.merge 1).rules.length = 2 ∧
    outcome (mergeTable.merge 1) (withY y) "res" = some (.num 1) := by
  refine ⟨by decide +kernel, plain_of_trimmed (by decide +kernel), ?_, by decide +kernel, rfl⟩
  intro r hr r' hr' h h'
  simp only [mergeTable, List.mem_cons, List.not_mem_nil, or_false] at hr hr'
  rcases hr with rfl | rfl | rfl
  · rcases hr' with rfl | rfl | rfl
    · rfl
    · exact (mergeTable_b y h').elim
    · rfl
  · exact (mergeTable_b y h).elim
  · rcases hr' with rfl | rfl | rfl
    · rfl
    · exact (mergeTable_b y h').elim
    · rfl

end Zen.Policy
