import Verif.Props.C68
import Verif.Policy.DepTreeProof
/-
C72  The tree of what a property is derived from has everything the property is derived from and nothing else.
-/
namespace Zen.Policy
open Zen Zen.Val
variable {C : Cfg} {P : List PBlock}

/-! ## Specification -/

/-- a column of a table counts for a property: it writes it, or no column does and it writes a part of it -/
def ColumnFor (t : PTable) (p : String) (c : OCol) : Prop :=
  c ∈ t.outputs ∧ c.field ≠ "" ∧ (c.field = p ∨ ((∀ c' ∈ t.outputs, c'.field ≠ "" → c'.field ≠ p) ∧ SegPrefix p c.field))

/-- the expressions of a block that what it writes at a property is computed from. In a table these are the conditions and the cells of the columns
that count for the property; in other blocks all. -/
inductive Feeds : Body → String → Kind → String → Prop
  | expression {key value p} : Feeds (.expression key value) p .standard value
  | assertion {a p c} : c ∈ a.conds → Feeds (.assertion a) p .standard c.expression
  | cond {m p a} : a ∈ m.arms → Feeds (.match_ m) p .standard a.cond
  | value {m p a} : a ∈ m.arms → Feeds (.match_ m) p .standard a.value
  | head {t p i f} : i ∈ t.inputs → i.field = some f → f ≠ "" → Feeds (.table t) p .standard f
  | test {t p i f rule cell} : i ∈ t.inputs → i.field = some f → f ≠ "" → rule ∈ t.rules → cellOf rule i.id = some cell → Feeds (.table t) p .unary cell
  | plain {t p i rule cell} : i ∈ t.inputs → (∀ f, i.field = some f → f = "") → rule ∈ t.rules → cellOf rule i.id = some cell → Feeds (.table t) p .standard cell
  | cell {t p c rule cell} : ColumnFor t p c → rule ∈ t.rules → cellOf rule c.id = some cell → Feeds (.table t) p .standard cell

/-- the ids of the columns of a table are different -/
def Ids : Body → Prop
  | .table t => (t.inputs.map TInput.id ++ (t.outputs.filter fun c => !c.field.isEmpty).map OCol.id).Nodup
  | _ => True

/-- a block that writes the property or a part of it reads the other one, in an expression that feeds the property; if several do, it is the first -/
def DerivedFrom (C : Cfg) (P : List PBlock) (p q : String) : Prop :=
  ∃ b ∈ P, aGet (graphOf C P).writers p = some b.ref ∧ ∃ k src, Feeds b.body p k src ∧ ∃ path ∈ C.noted k src, dots path = q

/-- blocks write one path each and read nothing they write; what is written in the object that something is read of is that or a part of it, and one
block at most writes it -/
structure Tidy (C : Cfg) (P : List PBlock) : Prop where
  one : ∀ b ∈ P, ∀ w ∈ b.body.writes, ∀ w' ∈ b.body.writes, w = w'
  other : ∀ b ∈ P, ∀ r ∈ (b.io C).reads, ∀ w ∈ b.body.writes, ¬ SegPrefix r w
  whole : ∀ b ∈ P, ∀ r ∈ (b.io C).reads, ∀ c ∈ P, ∀ w ∈ c.body.writes, (splitDot r).head? = (splitDot w).head? → C.model r = false ∧ SegPrefix r w
  single : ∀ b ∈ P, ∀ r ∈ (b.io C).reads, ∀ c ∈ P, ∀ c' ∈ P, ∀ w ∈ c.body.writes, ∀ w' ∈ c'.body.writes, SegPrefix r w → SegPrefix r w' → c.ref = c'.ref

/-! ## Proofs -/

theorem recorded_noted (k : Kind) (src : String) : (C.recorded k src).map Prod.fst = C.noted k src := by
  unfold Cfg.recorded Cfg.noted
  split
  · rfl
  · cases C.F k src with
    | ok n => simp [Reads.reported, Function.comp_def]
    | error e => simp [Function.comp_def]

theorem mem_allowed {b : Body} {p id : String} : id ∈ b.allowed p ↔
    (∃ w ∈ b.contributing, w.1 = p ∧ id ∈ w.2) ∨ ((∀ w ∈ b.contributing, w.1 ≠ p) ∧ ∃ w ∈ b.contributing, SegPrefix p w.1 ∧ id ∈ w.2) := by
  unfold Body.allowed
  by_cases h : ∃ w ∈ b.contributing, w.1 = p
  · rw [if_pos (by simpa using h), List.mem_flatMap]
    constructor
    · rintro ⟨w, hw, hi⟩
      obtain ⟨hw, e⟩ := List.mem_filter.1 hw
      exact .inl ⟨w, hw, by simpa using e, hi⟩
    · rintro (⟨w, hw, e, hi⟩ | ⟨hn, _⟩)
      · exact ⟨w, List.mem_filter.2 ⟨hw, by simpa using e⟩, hi⟩
      · obtain ⟨w, hw, e⟩ := h
        exact absurd e (hn w hw)
  · rw [if_neg (by simpa using h), List.mem_flatMap]
    have hn : ∀ w ∈ b.contributing, w.1 ≠ p := fun w hw e => h ⟨w, hw, e⟩
    constructor
    · rintro ⟨w, hw, hi⟩
      obtain ⟨hw, e⟩ := List.mem_filter.1 hw
      exact .inr ⟨hn, w, hw, (C37_extends _ _).1 e, hi⟩
    · rintro (⟨w, hw, e, hi⟩ | ⟨_, w, hw, hs, hi⟩)
      · exact absurd e (hn w hw)
      · exact ⟨w, List.mem_filter.2 ⟨hw, (C37_extends _ _).2 hs⟩, hi⟩

theorem contributing_writes (b : Body) : b.contributing.map Prod.fst = b.writes := by
  cases b with
  | expression key value => simp only [Body.contributing, Body.writes]; split <;> rfl
  | assertion a => simp only [Body.contributing, Body.writes]; split <;> rfl
  | match_ m => simp only [Body.contributing, Body.writes]; split <;> rfl
  | table t => simp [Body.contributing, Body.writes]

theorem mem_active {t : PTable} {c : OCol} : c ∈ t.active ↔ c ∈ t.outputs ∧ c.field ≠ "" := by
  unfold PTable.active
  rw [List.mem_filter]
  simp

/-- the paths read for a property -/
theorem mem_direct_sites {b : Body} {p q : String} (hw : ∃ w ∈ b.writes, SegPrefix p w) : (∃ u, (q, u) ∈ b.direct C p) ↔
    ∃ s ∈ b.sites, s.id ∈ b.allowed p ∧ ∃ path ∈ C.noted s.kind s.src, dots path = q := by
  have hne : b.contributing.isEmpty = false := by
    obtain ⟨w, hw, _⟩ := hw
    rw [← contributing_writes] at hw
    cases h : b.contributing with
    | nil => rw [h] at hw; cases hw
    | cons => rfl
  have step : (∃ u, (q, u) ∈ b.direct C p) ↔ ∃ r ∈ b.record C, r.1 ∈ b.allowed p ∧ r.2.1 = q := by
    unfold Body.direct
    simp only [hne, Bool.false_or, List.mem_map, Prod.mk.injEq, mem_dedup, List.mem_filter, List.contains_iff_mem]
    constructor
    · rintro ⟨u, path, ⟨r, ⟨hr, ha⟩, e⟩, e', _⟩
      exact ⟨r, hr, ha, e.trans e'⟩
    · rintro ⟨r, hr, ha, e⟩
      exact ⟨_, q, ⟨r, ⟨hr, ha⟩, e⟩, rfl, rfl⟩
  rw [step]
  unfold Body.record
  constructor
  · rintro ⟨r, hr, ha, e⟩
    obtain ⟨s, hs, hr⟩ := List.mem_flatMap.1 hr
    obtain ⟨x, hx, rfl⟩ := List.mem_map.1 hr
    exact ⟨s, hs, ha, x.1, recorded_noted (C := C) s.kind s.src ▸ List.mem_map_of_mem (f := Prod.fst) hx, e⟩
  · rintro ⟨s, hs, ha, path, hp, e⟩
    rw [← recorded_noted] at hp
    obtain ⟨x, hx, rfl⟩ := List.mem_map.1 hp
    exact ⟨(s.id, dots x.1, x.2), List.mem_flatMap.2 ⟨s, hs, List.mem_map.2 ⟨x, hx, rfl⟩⟩, ha, e⟩

theorem fieldOf_some {i : TInput} {f : String} : fieldOf i = some f ↔ i.field = some f ∧ f ≠ "" := by
  unfold fieldOf
  cases i.field with
  | none => simp
  | some g =>
    simp only
    split
    · rename_i h
      rw [String.isEmpty_iff] at h
      subst h
      constructor
      · intro h; cases h
      · rintro ⟨h, h'⟩; injection h with h; exact absurd h.symm h'
    · rename_i h
      rw [String.isEmpty_iff] at h
      constructor
      · intro e; injection e with e; subst e; exact ⟨rfl, h⟩
      · rintro ⟨e, _⟩; exact e

theorem fieldOf_none {i : TInput} : fieldOf i = none ↔ ∀ f, i.field = some f → f = "" := by
  constructor
  · intro h f hf
    by_cases e : f = ""
    · exact e
    · rw [fieldOf_some.2 ⟨hf, e⟩] at h; cases h
  · intro h
    cases hf : fieldOf i with
    | none => rfl
    | some f => exact absurd (h f (fieldOf_some.1 hf).1) (fieldOf_some.1 hf).2

theorem columnFor_iff {t : PTable} {p : String} {c : OCol} (hI : Ids (.table t)) (hc : c ∈ t.active) : c.id ∈ (Body.table t).allowed p ↔ ColumnFor t p c := by
  have hnd : (t.inputs.map TInput.id ++ t.active.map OCol.id).Nodup := hI
  have hin : ∀ i ∈ t.inputs, c.id ≠ i.id := fun i hi e =>
    (List.nodup_append.1 hnd).2.2 i.id (List.mem_map_of_mem (f := TInput.id) hi) c.id (List.mem_map_of_mem (f := OCol.id) hc) e.symm
  have same : ∀ c' ∈ t.active, c.id = c'.id → c = c' := fun c' hc' e => List.inj_on_of_nodup_map (List.nodup_append.1 hnd).2.1 hc hc' e
  have hmem : ∀ c' ∈ t.active, c.id ∈ t.inputs.map TInput.id ++ [c'.id] → c = c' := by
    intro c' hc' h
    rcases List.mem_append.1 h with h | h
    · obtain ⟨i, hi, e⟩ := List.mem_map.1 h
      exact absurd e.symm (hin i hi)
    · exact same c' hc' (List.mem_singleton.1 h)
  have hself : c.id ∈ t.inputs.map TInput.id ++ [c.id] := by simp
  rw [mem_allowed]
  simp only [Body.contributing, List.mem_map]
  have ha := mem_active.1 hc
  constructor
  · rintro (⟨w, ⟨c', hc', rfl⟩, e, hi⟩ | ⟨hn, w, ⟨c', hc', rfl⟩, hs, hi⟩)
    · obtain rfl := hmem c' hc' hi
      exact ⟨ha.1, ha.2, .inl e⟩
    · obtain rfl := hmem c' hc' hi
      exact ⟨ha.1, ha.2, .inr ⟨fun c' h1 h2 => hn _ ⟨c', mem_active.2 ⟨h1, h2⟩, rfl⟩, hs⟩⟩
  · rintro ⟨_, _, e | ⟨hn, hs⟩⟩
    · exact .inl ⟨_, ⟨c, hc, rfl⟩, e, hself⟩
    · refine .inr ⟨?_, _, ⟨c, hc, rfl⟩, hs, hself⟩
      rintro w ⟨c', hc', rfl⟩
      exact hn c' (mem_active.1 hc').1 (mem_active.1 hc').2

theorem allowed_all {b : Body} {p : String} (hw : ∃ w ∈ b.writes, SegPrefix p w) {id : String} (hid : ∀ w ∈ b.contributing, id ∈ w.2) : id ∈ b.allowed p := by
  obtain ⟨w, hw, hs⟩ := hw
  rw [← contributing_writes] at hw
  obtain ⟨e, he, rfl⟩ := List.mem_map.1 hw
  rw [mem_allowed]
  by_cases h : ∃ w ∈ b.contributing, w.1 = p
  · obtain ⟨x, hx, e⟩ := h
    exact .inl ⟨x, hx, e, hid x hx⟩
  · exact .inr ⟨fun w hw e => h ⟨w, hw, e⟩, e, he, hs, hid e he⟩

/-- the paths read for a property are those read in what feeds it -/
theorem mem_direct {b : Body} (hI : Ids b) {p q : String} (hw : ∃ w ∈ b.writes, SegPrefix p w) : (∃ u, (q, u) ∈ b.direct C p) ↔
    ∃ k src, Feeds b p k src ∧ ∃ path ∈ C.noted k src, dots path = q := by
  rw [mem_direct_sites hw]
  constructor
  · rintro ⟨s, hs, ha, hr⟩
    refine ⟨s.kind, s.src, ?_, hr⟩
    cases b with
    | expression key value =>
      obtain rfl := List.mem_singleton.1 hs
      exact .expression
    | assertion a =>
      obtain ⟨c, hc, rfl⟩ := List.mem_map.1 hs
      exact .assertion hc
    | match_ m =>
      obtain ⟨a, harm, hs⟩ := List.mem_flatMap.1 hs
      simp only [List.mem_cons, List.not_mem_nil, or_false] at hs
      rcases hs with rfl | rfl
      · exact .cond harm
      · exact .value harm
    | table t =>
      simp only [Body.sites, List.mem_append, List.mem_filterMap, List.mem_flatMap, Option.map_eq_some_iff] at hs
      rcases hs with (⟨i, hi, f, hf, rfl⟩ | ⟨rule, hrule, i, hi, cell, hc, rfl⟩) | ⟨c, hc, rule, hrule, cell, hcell, rfl⟩
      · exact .head hi (fieldOf_some.1 hf).1 (fieldOf_some.1 hf).2
      · simp only [cellKind]
        cases hf : fieldOf i with
        | none => exact .plain hi (fieldOf_none.1 hf) hrule hc
        | some f => exact .test hi (fieldOf_some.1 hf).1 (fieldOf_some.1 hf).2 hrule hc
      · exact .cell ((columnFor_iff hI hc).1 ha) hrule hcell
  · rintro ⟨k, src, hF, hr⟩
    have inputs : ∀ {t : PTable}, b = .table t → ∀ i ∈ t.inputs, i.id ∈ b.allowed p := by
      rintro t rfl i hi
      refine allowed_all hw fun w hw' => ?_
      obtain ⟨c, _, rfl⟩ := List.mem_map.1 hw'
      exact List.mem_append_left _ (List.mem_map_of_mem (f := TInput.id) hi)
    cases hF with
    | @expression key value =>
      refine ⟨⟨"", .standard, src⟩, List.mem_singleton.2 rfl, allowed_all hw fun w hw' => ?_, hr⟩
      simp only [Body.contributing] at hw'
      split at hw'
      · cases hw'
      · obtain rfl := List.mem_singleton.1 hw'; simp
    | @assertion a _ c hc =>
      refine ⟨⟨"", .standard, c.expression⟩, List.mem_map.2 ⟨c, hc, rfl⟩, allowed_all hw fun w hw' => ?_, hr⟩
      simp only [Body.contributing] at hw'
      split at hw'
      · cases hw'
      · obtain rfl := List.mem_singleton.1 hw'
        exact List.mem_map.2 ⟨c, hc, rfl⟩
    | @cond m _ a ha =>
      refine ⟨⟨a.id, .standard, a.cond⟩, List.mem_flatMap.2 ⟨a, ha, by simp⟩, allowed_all hw fun w hw' => ?_, hr⟩
      simp only [Body.contributing] at hw'
      split at hw'
      · cases hw'
      · obtain rfl := List.mem_singleton.1 hw'
        exact List.mem_map_of_mem (f := Arm.id) ha
    | @value m _ a ha =>
      refine ⟨⟨a.id, .standard, a.value⟩, List.mem_flatMap.2 ⟨a, ha, by simp⟩, allowed_all hw fun w hw' => ?_, hr⟩
      simp only [Body.contributing] at hw'
      split at hw'
      · cases hw'
      · obtain rfl := List.mem_singleton.1 hw'
        exact List.mem_map_of_mem (f := Arm.id) ha
    | @head t _ i f hi hf hn =>
      refine ⟨⟨i.id, .standard, src⟩, ?_, inputs rfl i hi, hr⟩
      simp only [Body.sites, List.mem_append, List.mem_filterMap, Option.map_eq_some_iff]
      exact .inl (.inl ⟨i, hi, src, fieldOf_some.2 ⟨hf, hn⟩, rfl⟩)
    | @test t _ i f rule cell hi hf hn hr' hc =>
      refine ⟨⟨i.id, .unary, src⟩, ?_, inputs rfl i hi, hr⟩
      simp only [Body.sites, List.mem_append, List.mem_filterMap, List.mem_flatMap, Option.map_eq_some_iff]
      exact .inl (.inr ⟨rule, hr', i, hi, src, hc, by simp [cellKind, fieldOf_some.2 ⟨hf, hn⟩]⟩)
    | @plain t _ i rule cell hi hf hr' hc =>
      refine ⟨⟨i.id, .standard, src⟩, ?_, inputs rfl i hi, hr⟩
      simp only [Body.sites, List.mem_append, List.mem_filterMap, List.mem_flatMap, Option.map_eq_some_iff]
      exact .inl (.inr ⟨rule, hr', i, hi, src, hc, by simp [cellKind, fieldOf_none.2 hf]⟩)
    | @cell t _ c rule cell hC hr' hc =>
      have hact : c ∈ t.active := mem_active.2 ⟨hC.1, hC.2.1⟩
      refine ⟨⟨c.id, .standard, src⟩, ?_, (columnFor_iff hI hact).2 hC, hr⟩
      simp only [Body.sites, List.mem_append, List.mem_filterMap, List.mem_flatMap, Option.map_eq_some_iff]
      exact .inr ⟨c, hact, rule, hr', src, hc, rfl⟩

theorem owner_block (hu : (P.map PBlock.ref).Nodup) {p : String} {r : BlockRef} (h : aGet (graphOf C P).writers p = some r) :
    ∃ b ∈ P, b.ref = r ∧ blockAt P r = some b ∧ C.model p = false ∧ ∃ w ∈ b.body.writes, C.model w = false ∧ SegPrefix p w := by
  rw [writers_eq] at h
  obtain ⟨x, hx, e, w, hw, hm, hp, hs⟩ := (C37_table C.model (rulesOf P)).2.2 p r (aGet_mem h)
  obtain ⟨b, hb, rfl⟩ := List.mem_map.1 hx
  exact ⟨b, hb, e.symm, e ▸ blockAt_mem hu hb, hp, w, hw, hm, hs⟩

theorem from_iff (hu : (P.map PBlock.ref).Nodup) (hI : ∀ b ∈ P, Ids b.body) {p q : String} : (depEnv C P).From p q ↔ DerivedFrom C P p q := by
  have name : ∀ x, (depEnv C P).name x = x := by
    intro x
    unfold DepEnv.name
    split <;> rfl
  constructor
  · rintro ⟨r, hr, x, hx, e⟩
    rw [name] at e
    obtain ⟨b, hb, rfl, hat, _, w, hw, _, hs⟩ := owner_block hu hr
    simp only [depEnv, hat] at hx
    exact ⟨b, hb, hr, (mem_direct (hI b hb) ⟨w, hw, hs⟩).1 ⟨x.2, e ▸ hx⟩⟩
  · rintro ⟨b, hb, hr, hF⟩
    obtain ⟨b', hb', e, hat, _, w, hw, _, hs⟩ := owner_block hu hr
    have := blockAt_mem hu hb
    rw [hat] at this
    injection this with this
    subst this
    obtain ⟨u, hx⟩ := (mem_direct (hI b' hb) ⟨w, hw, hs⟩).2 hF
    exact ⟨b'.ref, hr, (q, u), by simpa only [depEnv, hat] using hx, name q⟩

theorem feeds_reads {b : PBlock} {p q : String} {k : Kind} {src : String} (h : Feeds b.body p k src) {path : List String} (hp : path ∈ C.noted k src)
    (e : dots path = q) : q ∈ (b.io C).reads := by
  refine List.mem_map.2 ⟨path, List.mem_flatMap.2 ⟨(k, src), ?_, hp⟩, e⟩
  have hne : src ≠ "" := by
    rintro rfl
    simp [Cfg.noted] at hp
  rw [List.mem_append]
  generalize b.body = body at h
  cases h with
  | expression => exact .inl (List.mem_singleton.2 rfl)
  | assertion hc => exact .inl (List.mem_map.2 ⟨_, hc, rfl⟩)
  | cond ha => exact .inl (List.mem_map.2 ⟨_, List.mem_filter.2 ⟨ha, by simpa using hne⟩, rfl⟩)
  | value ha => exact .inr (List.mem_map.2 ⟨_, List.mem_filter.2 ⟨ha, by simpa using hne⟩, rfl⟩)
  | @head t _ i _ hi hf hn =>
    refine .inl (List.mem_append_left _ (List.mem_filterMap.2 ⟨i, hi, ?_⟩))
    rw [fieldOf_some.2 ⟨hf, hn⟩]
    rfl
  | @test t _ i f rule _ hi hf hn hr hc =>
    refine .inl (List.mem_append_right _ (List.mem_flatMap.2 ⟨rule, hr, List.mem_filterMap.2 ⟨i, hi, ?_⟩⟩))
    simp [hc, cellKind, fieldOf_some.2 ⟨hf, hn⟩]
  | @plain t _ i rule _ hi hf hr hc =>
    refine .inl (List.mem_append_right _ (List.mem_flatMap.2 ⟨rule, hr, List.mem_filterMap.2 ⟨i, hi, ?_⟩⟩))
    simp [hc, cellKind, fieldOf_none.2 hf]
  | @cell t _ c rule _ hC hr hc =>
    refine .inr (List.mem_flatMap.2 ⟨rule, hr, List.mem_filterMap.2 ⟨c, mem_active.2 ⟨hC.1, hC.2.1⟩, ?_⟩⟩)
    simp [hc]

/-- a block that writes one path has nothing that does not feed it -/
theorem reads_feed {b : PBlock} {p q : String} (one : ∀ w ∈ b.body.writes, ∀ w' ∈ b.body.writes, w = w') (hp : ∃ w ∈ b.body.writes, SegPrefix p w)
    (hq : q ∈ (b.io C).reads) : ∃ k src, Feeds b.body p k src ∧ ∃ path ∈ C.noted k src, dots path = q := by
  obtain ⟨path, h, e⟩ := List.mem_map.1 hq
  obtain ⟨⟨k, src⟩, hs, hp'⟩ := List.mem_flatMap.1 h
  refine ⟨k, src, ?_, path, hp', e⟩
  revert hs hp one
  generalize b.body = body
  intro one hp hs
  rw [List.mem_append] at hs
  cases body with
  | expression key value =>
    rcases hs with hs | hs
    · cases List.mem_singleton.1 hs
      exact .expression
    · cases hs
  | assertion a =>
    rcases hs with hs | hs
    · obtain ⟨c, hc, e⟩ := List.mem_map.1 hs
      cases e
      exact .assertion hc
    · cases hs
  | match_ m =>
    rcases hs with hs | hs <;> obtain ⟨a, ha, e⟩ := List.mem_map.1 hs <;> cases e
    · exact .cond (List.mem_filter.1 ha).1
    · exact .value (List.mem_filter.1 ha).1
  | table t =>
    simp only [Body.sources, Body.later, List.mem_append, List.mem_filterMap, List.mem_flatMap, Option.map_eq_some_iff, Prod.mk.injEq] at hs
    rcases hs with (⟨i, hi, f, hf, rfl, rfl⟩ | ⟨rule, hrule, i, hi, cell, hc, rfl, rfl⟩) | ⟨rule, hrule, c, hc, cell, hcell, rfl, rfl⟩
    · exact .head hi (fieldOf_some.1 hf).1 (fieldOf_some.1 hf).2
    · simp only [cellKind]
      cases hf : fieldOf i with
      | none => exact .plain hi (fieldOf_none.1 hf) hrule hc
      | some f => exact .test hi (fieldOf_some.1 hf).1 (fieldOf_some.1 hf).2 hrule hc
    · have hcw : c.field ∈ (Body.table t).writes := List.mem_map_of_mem (f := OCol.field) hc
      refine .cell ⟨(mem_active.1 hc).1, (mem_active.1 hc).2, ?_⟩ hrule hcell
      obtain ⟨w, hw, hs⟩ := hp
      have e := one w hw _ hcw
      subst e
      by_cases e : c.field = p
      · exact .inl e
      · refine .inr ⟨fun c' h1 h2 e' => e ?_, hs⟩
        have := one _ hcw c'.field (List.mem_map_of_mem (f := OCol.field) (mem_active.2 ⟨h1, h2⟩))
        exact this.trans e'

/-! ## Theorems -/

/-- what a node may be marked with: for the property asked for nothing is lost; for another that one of those that read it says so -/
def Said (C : Cfg) (P : List PBlock) (t p : String) (u : Bool) : Prop :=
  (p = t ∧ u = false) ∨ ∃ x, ∃ b ∈ P, aGet (graphOf C P).writers x = some b.ref ∧ (p, u) ∈ b.body.direct C x

/-- The search ends with the tree: what is written is followed by what it is derived from, unless it is above itself; what is not written has nothing
below it. It makes no difference what has been remembered, but for whether an unwritten name is marked as unresolved. -/
theorem C72_tree (t : String) : ∃ T, dependencies C P t = some T ∧ DepEnv.Unfolds (depEnv C P) (Said C P t) [] t T := by
  have name : ∀ x, (depEnv C P).name x = x := by
    intro x
    unfold DepEnv.name
    split <;> rfl
  obtain ⟨T, tn, c', h, hu, _, _⟩ := DepEnv.build_spec (E := depEnv C P) (mark := Said C P t) (aKeys (graphOf C P).writers) (fun p hp => isSome_keys.1 hp)
    (by
      intro p r x hr hx
      rw [name]
      simp only [depEnv] at hx
      cases hat : blockAt P r with
      | none => rw [hat] at hx; cases hx
      | some b =>
        rw [hat] at hx
        obtain ⟨hb, e⟩ := blockAt_some hat
        exact .inr ⟨p, b, hb, e ▸ hr, hx⟩)
    ((graphOf C P).writers.length + 2) [] [] t false
    (by
      have : DepEnv.room (aKeys (graphOf C P).writers) [] ≤ (aKeys (graphOf C P).writers).length := by
        unfold DepEnv.room
        exact List.length_filter_le _ _
      have h2 : (aKeys (graphOf C P).writers).length = (graphOf C P).writers.length := by simp [aKeys]
      omega)
    (by intro p T h; cases h) (by simp) (by rw [name]; exact .inl ⟨rfl, rfl⟩)
  rw [name] at hu
  exact ⟨T, by unfold dependencies; rw [h]; rfl, hu⟩

/-- The tree has the property, what it is derived from, what that is derived from and so on, and nothing else. -/
theorem C72_names (hu : (P.map PBlock.ref).Nodup) (hI : ∀ b ∈ P, Ids b.body) (t : String) : ∃ T, dependencies C P t = some T ∧
    ∀ q, q ∈ T.names ↔ Relation.ReflTransGen (DerivedFrom C P) t q := by
  obtain ⟨T, h, hT⟩ := C72_tree (C := C) (P := P) t
  refine ⟨T, h, fun q => ?_⟩
  have e : (depEnv C P).From = DerivedFrom C P := by
    funext p q
    exact propext (from_iff hu hI)
  rw [hT.mem_names, e]

theorem derived_up (hu : (P.map PBlock.ref).Nodup) (ho : ∀ b ∈ P, ∀ r ∈ (b.io C).reads, ∀ w ∈ b.body.writes, ¬ SegPrefix r w) {p q : String}
    (h : DerivedFrom C P p q) : Upstream (graphOf C P) q p := by
  obtain ⟨b, hb, hr, k, src, hF, path, hp, e⟩ := h
  obtain ⟨b', hb', e', hat, hm, w, hw, hmw, hs⟩ := owner_block hu hr
  have := blockAt_mem hu hb
  rw [hat] at this
  injection this with this
  subst this
  have hq := feeds_reads hF hp e
  exact .head (read_edge hb' hw hmw hq (ho b' hb' q hq w hw)) (up_key hb' hw hmw hm hs)

/-- Everything in the tree of a computed property is found by the search of the graph from it, if no block reads what it writes. -/
theorem C72_within (hu : (P.map PBlock.ref).Nodup) (hI : ∀ b ∈ P, Ids b.body)
    (ho : ∀ b ∈ P, ∀ r ∈ (b.io C).reads, ∀ w ∈ b.body.writes, ¬ SegPrefix r w) (t : String) (ht : Written C P t) :
    ∃ T, dependencies C P t = some T ∧ ∀ q ∈ T.names, q ∈ (graphOf C P).reachable [t] := by
  obtain ⟨T, h, hT⟩ := C72_names (C := C) hu hI t
  refine ⟨T, h, fun q hq => (mem_reachable _ _ _).2 ⟨t, by simp, (C68_graph t t).1.2 (.inr ht), ?_⟩⟩
  have := (hT q).1 hq
  clear hq
  induction this with
  | refl => exact .refl
  | tail _ hd ih => exact (derived_up hu ho hd).trans ih

theorem written_owner (hu : (P.map PBlock.ref).Nodup) {x : String} (h : Written C P x) : ∃ b ∈ P, aGet (graphOf C P).writers x = some b.ref ∧
    ∃ w ∈ b.body.writes, C.model w = false ∧ SegPrefix x w := by
  obtain ⟨hm, b, hb, w, hw, hmw, hs⟩ := h
  have hk : x ∈ aKeys (computeWriters C.model (rulesOf P)) := ((C37_table C.model (rulesOf P)).2.1 x).2 ⟨⟨b.ref, b.body.writes⟩, List.mem_map.2 ⟨b, hb, rfl⟩, w, hw, hmw, hm, hs⟩
  rw [← isSome_keys, ← writers_eq] at hk
  obtain ⟨r, hr⟩ := Option.isSome_iff_exists.1 hk
  obtain ⟨b, hb, rfl, _, _, h⟩ := owner_block hu hr
  exact ⟨b, hb, hr, h⟩

theorem head_of_prefix {l l' : List String} (h : l <+: l') (h0 : l ≠ []) : l.head? = l'.head? := by
  obtain ⟨r, rfl⟩ := h
  cases l with
  | nil => exact absurd rfl h0
  | cons => rfl

/-- If blocks write one path each, and what is read has all that is written in the same object, what the tree of a property that is
written ends with is exactly what the graph lists as its inputs. -/
theorem C72_inputs (hS : Sound C P) (hI : ∀ b ∈ P, Ids b.body) (hT : Tidy C P) (t : String) (ht : ∃ b ∈ P, t ∈ b.body.writes) :
    ∃ T, dependencies C P t = some T ∧ ∀ q, (q ∈ T.names ∧ ¬ Written C P q) ↔ q ∈ (graphOf C P).inputs [t] := by
  obtain ⟨b0, hb0, ht0⟩ := ht
  have hw0 : Written C P t := ⟨(hS.own b0 hb0 t ht0).1, b0, hb0, t, ht0, (hS.own b0 hb0 t ht0).1, List.prefix_rfl⟩
  obtain ⟨T, h, hin⟩ := C72_within hS.unique hI hT.other t hw0
  obtain ⟨T', h', hn⟩ := C72_names (C := C) hS.unique hI t
  have : T' = T := by rw [h'] at h; exact Option.some.inj h
  subst this
  refine ⟨T', h', fun q => ?_⟩
  have keys : ∀ x, x ∈ aKeys (computeWriters C.model (rulesOf P)) ↔ Written C P x := by
    intro x
    rw [(C37_table C.model (rulesOf P)).2.1 x]
    constructor
    · rintro ⟨r, hr, w, hw, hm, hx, hs⟩
      obtain ⟨b, hb, rfl⟩ := List.mem_map.1 hr
      exact ⟨hx, b, hb, w, hw, hm, hs⟩
    · rintro ⟨hx, b, hb, w, hw, hm, hs⟩
      exact ⟨_, List.mem_map.2 ⟨b, hb, rfl⟩, w, hw, hm, hx, hs⟩
  rw [mem_inputs, keys]
  refine and_congr_left fun hnw => ⟨hin q, fun hq => ?_⟩
  have inj : ∀ b ∈ P, ∀ c ∈ P, b.ref = c.ref → b = c := by
    intro b hb c hc e
    have h1 := blockAt_mem hS.unique hb
    rw [e, blockAt_mem hS.unique hc] at h1
    exact (Option.some.inj h1).symm
  -- blocks whose paths are one within the other are the same
  have same : ∀ b ∈ P, ∀ c ∈ P, ∀ w ∈ b.body.writes, ∀ w' ∈ c.body.writes, SegPrefix w w' → b = c := fun b hb c hc w hw w' hw' hs => inj b hb c hc
    (hS.apart ⟨b.ref, b.body.writes⟩ (List.mem_map.2 ⟨b, hb, rfl⟩) ⟨c.ref, c.body.writes⟩ (List.mem_map.2 ⟨c, hc, rfl⟩) w hw w' hw' hs)
  -- one block at most writes parts of a name of the tree
  have sole : ∀ p ∈ T'.names, ∀ b ∈ P, ∀ c ∈ P, ∀ w ∈ b.body.writes, ∀ w' ∈ c.body.writes, SegPrefix p w → SegPrefix p w' → b = c := by
    intro p hp b hb c hc w hw w' hw' h1 h2
    rcases Relation.ReflTransGen.cases_tail ((hn p).1 hp) with e | ⟨x, _, d, hd, _, k, src, hF, path, hpa, e⟩
    · subst e
      exact (same b0 hb0 b hb p ht0 w hw h1).symm.trans (same b0 hb0 c hc p ht0 w' hw' h2)
    · exact inj b hb c hc (hT.single d hd p (feeds_reads hF hpa e) b hb c hc w hw w' hw' h1 h2)
  -- what a block reads is in the tree with what it writes
  have reads : ∀ p ∈ T'.names, ∀ b ∈ P, ∀ w ∈ b.body.writes, SegPrefix p w → C.model p = false → ∀ r ∈ (b.io C).reads, r ∈ T'.names := by
    intro p hp b hb w hw hs hm r hr
    obtain ⟨c, hc, ho, w', hw', _, hs'⟩ := written_owner hS.unique ⟨hm, b, hb, w, hw, (hS.own b hb w hw).1, hs⟩
    obtain rfl := sole p hp b hb c hc w hw w' hw' hs hs'
    exact (hn r).2 (.tail ((hn p).1 hp) ⟨b, hb, ho, reads_feed (hT.one b hb) ⟨w, hw, hs⟩ hr⟩)
  obtain ⟨g, hg, _, hup⟩ := (mem_reachable _ _ _).1 hq
  obtain rfl := List.mem_singleton.1 hg
  have main : ∀ x, Upstream (graphOf C P) x g → x ∈ T'.names ∨ (∃ p ∈ T'.names, C.model p = false ∧ ∃ b ∈ P, x ∈ b.body.writes ∧ SegPrefix p x) ∨
      (Written C P x ∧ ∃ r ∈ T'.names, SegPrefix x r ∧ ∀ b ∈ P, ∀ w ∈ b.body.writes, SegPrefix x w → C.model r = false ∧ SegPrefix r w) := by
    intro x hx
    induction hx using Relation.ReflTransGen.head_induction_on with
    | refl => exact .inl ((hn _).2 .refl)
    | @head x y he _ ih =>
      obtain ⟨b, hb, ⟨hx, hmx, hmy, hs, hne⟩ | ⟨hy, hmy, hns, r, hr, hxr⟩⟩ := (C68_graph x y).2.1 he
      · rcases ih with ih | ⟨p, hp, hmp, c, hc, hyc, hsp⟩ | ⟨_, r, hr, _, hall⟩
        · exact .inr (.inl ⟨y, ih, hmy, b, hb, hx, hs⟩)
        · exact .inr (.inl ⟨p, hp, hmp, b, hb, hx, hsp.trans hs⟩)
        · exact .inr (.inl ⟨r, hr, (hall b hb x hx hs).1, b, hb, hx, (hall b hb x hx hs).2⟩)
      · have hrn : r ∈ T'.names := by
          rcases ih with ih | ⟨p, hp, hmp, c, hc, hyc, hsp⟩ | ⟨_, r', hr', _, hall⟩
          · exact reads y ih b hb y hy List.prefix_rfl hmy r hr
          · exact reads p hp b hb y hy hsp hmp r hr
          · obtain ⟨h1, h2⟩ := hall b hb y hy List.prefix_rfl
            exact reads r' hr' b hb y hy h2 h1 r hr
        rcases hxr with rfl | ⟨h1, h2⟩
        · exact .inl hrn
        · refine .inr (.inr ⟨h2, r, hrn, h1, fun c hc w hw hs => hT.whole b hb r hr c hc w hw ?_⟩)
          rw [← head_of_prefix h1 (splitDot_ne_nil _), head_of_prefix hs (splitDot_ne_nil _)]
  rcases main q hup with hq | ⟨p, _, _, b, hb, hqb, _⟩ | ⟨h, _⟩
  · exact hq
  · exact absurd ⟨(hS.own b hb q hqb).1, b, hb, q, hqb, (hS.own b hb q hqb).1, List.prefix_rfl⟩ hnw
  · exact absurd h hnw

/-- In such a policy what the tree ends with decides what the property is: two inputs that agree there give the same. -/
theorem C72_enough (hS : Sound C P) (hD : Dotless C P) (hI : ∀ b ∈ P, Ids b.body) (hT : Tidy C P) (t : String) (ht : ∃ b ∈ P, t ∈ b.body.writes)
    (m m' : List (String × Val)) (hm : (aKeys m).Nodup) (hm' : (aKeys m').Nodup) (T : DNode) (h : dependencies C P t = some T)
    (hin : ∀ x ∈ T.names, ¬ Written C P x → SameIn m m' x)
    (hout : ∀ x, Computed C P x → look (.obj m) (splitDot x) = .missing ∧ look (.obj m') (splitDot x) = .missing) :
    (∃ v v', runPolicy C P [t] (.obj m) = some (.ok v) ∧ runPolicy C P [t] (.obj m') = some (.ok v') ∧ (Goal C P t → v.dot t = v'.dot t)) ∨
    ∃ e e', runPolicy C P [t] (.obj m) = some (.error e) ∧ runPolicy C P [t] (.obj m') = some (.error e') := by
  obtain ⟨T', h', hq⟩ := C72_inputs hS hI hT t ht
  have : T' = T := by rw [h'] at h; exact Option.some.inj h
  subst this
  obtain ⟨b0, hb0, ht0⟩ := ht
  rcases C68_inputs hS hD [t] (by
      intro g hg
      obtain rfl := List.mem_singleton.1 hg
      exact ⟨(hS.own b0 hb0 _ ht0).1, b0, hb0, _, ht0, List.prefix_rfl⟩) m m' hm hm'
    (fun x hx => hin x ((hq x).2 hx).1 ((hq x).2 hx).2) hout with ⟨v, v', h1, h2, h3⟩ | h
  · exact .inl ⟨v, v', h1, h2, h3 t (by simp)⟩
  · exact .inr h

/-! ## Instances -/

/-- a policy in which `k` is `b` or `a`, and both come from `x` -/
def treePolicy : List PBlock := [gBlk "A" "a" "x", gBlk "R" "r.m" "a",
  ⟨⟨"p", "K"⟩, .match_ { key := "k", arms := [⟨"1", "y", "r.m"⟩, ⟨"2", "", "a"⟩] }⟩]

theorem tree_sound : Sound graphCfg treePolicy where
  unique := by decide +kernel
  order l := List.Perm.refl l
  columns := by
    intro b hb t ht
    simp only [treePolicy, List.mem_cons, List.not_mem_nil, or_false] at hb
    rcases hb with rfl | rfl | rfl <;> cases ht
  apart := by unfold Apart; decide +kernel
  own := by decide +kernel
  readable := by
    have : ∀ b ∈ treePolicy, ∀ s ∈ b.body.sources ++ b.body.later, (match graphCfg.F s.1 s.2 with
      | .ok n => Reads.tame n && decide (Reads.nesting n < 32) &&
          (Reads.planned (isUnary s.1) n).all fun q => decide (q ∈ graphCfg.reads s.1 s.2) && decide (q.head? ≠ some "$root")
      | .error _ => true) = true := by decide +kernel
    exact fun b hb s hs => readable_of_check (this b hb s hs)
  single := by decide +kernel
  free := by decide +kernel
  acyclic := acyclic_of_rank (rank := fun r => if r.block = "A" then 0 else if r.block = "R" then 1 else 2) (by unfold Ranked; decide +kernel)

theorem tree_ids : ∀ b ∈ treePolicy, Ids b.body := by
  intro b hb
  simp only [treePolicy, List.mem_cons, List.not_mem_nil, or_false] at hb
  rcases hb with rfl | rfl | rfl <;> exact trivial

example : dependencies graphCfg treePolicy "k" = some (.mk "k" (some ⟨"p", "K"⟩) false
    [.mk "a" (some ⟨"p", "A"⟩) false [.mk "x" none false []],
     .mk "r.m" (some ⟨"p", "R"⟩) false [.mk "a" (some ⟨"p", "A"⟩) false [.mk "x" none false []]],
     .mk "y" none false []]) := rfl

theorem tree_tidy : Tidy graphCfg treePolicy where
  one := by decide +kernel
  other := by unfold SegPrefix; decide +kernel
  whole := by unfold SegPrefix; decide +kernel
  single := by unfold SegPrefix; decide +kernel

/-- whatever else the input has, `k` is decided by `x` and `y` -/
example (m m' : List (String × Val)) (hm : (aKeys m).Nodup) (hm' : (aKeys m').Nodup) (hx : SameIn m m' "x") (hy : SameIn m m' "y")
    (hout : ∀ x, Computed graphCfg treePolicy x → look (.obj m) (splitDot x) = .missing ∧ look (.obj m') (splitDot x) = .missing) :
    (∃ v v', runPolicy graphCfg treePolicy ["k"] (.obj m) = some (.ok v) ∧ runPolicy graphCfg treePolicy ["k"] (.obj m') = some (.ok v') ∧
      (Goal graphCfg treePolicy "k" → v.dot "k" = v'.dot "k")) ∨
    ∃ e e', runPolicy graphCfg treePolicy ["k"] (.obj m) = some (.error e) ∧ runPolicy graphCfg treePolicy ["k"] (.obj m') = some (.error e') := by
  refine C72_enough tree_sound (by unfold Dotless; decide +kernel) tree_ids tree_tidy "k" (by decide +kernel) m m' hm hm' _ rfl ?_ hout
  intro x hx' hw
  have : ∀ x ∈ ["k", "a", "x", "r.m", "a", "x", "y"], x = "x" ∨ x = "y" ∨ ∃ b ∈ treePolicy, x ∈ b.body.writes := by decide +kernel
  rcases this x hx' with rfl | rfl | ⟨b, hb, h⟩
  · exact hx
  · exact hy
  · exact absurd ⟨(tree_sound.own b hb x h).1, b, hb, x, h, (tree_sound.own b hb x h).1, List.prefix_rfl⟩ hw

/-- a table: the cells of the other columns do not count -/
example : (dependencies unitCfg unitPolicy "d.v").map DNode.names = some ["d.v", "a", "x", "x"] ∧
    (dependencies unitCfg unitPolicy "d").map DNode.names = some ["d", "a", "x", "x", "y"] := ⟨rfl, rfl⟩

/-- a property that depends on itself is cut off where it comes again -/
example : dependencies graphCfg [gBlk "A" "a" "r.m", gBlk "R" "r.m" "a"] "a" = some (.mk "a" (some ⟨"p", "A"⟩) false
    [.mk "r.m" (some ⟨"p", "R"⟩) false [.mk "a" (some ⟨"p", "A"⟩) false []]]) := rfl

/-! ## Findings -/

/-- NEGATIVE: a field of what is computed is shown as an input, and what the computed value comes from is not in the tree. Two inputs that agree on
everything the tree ends with give different results. -/
theorem C72_field_of_computed : (dependencies graphCfg [gBlk "A" "r" "x", gBlk "B" "k" "r.m"] "k").map DNode.names = some ["k", "r.m"] ∧
    ∃ v v', runPolicy graphCfg [gBlk "A" "r" "x", gBlk "B" "k" "r.m"] ["k"] (.obj [("x", .obj [("m", .num 1)])]) = some (.ok v) ∧
      runPolicy graphCfg [gBlk "A" "r" "x", gBlk "B" "k" "r.m"] ["k"] (.obj [("x", .obj [("m", .num 2)])]) = some (.ok v') ∧
      v.dot "k" = some (.num 1) ∧ v'.dot "k" = some (.num 2) := ⟨rfl, _, _, rfl, rfl, rfl, rfl⟩

/-- NEGATIVE: of an object that several blocks write parts of the tree follows one block only. -/
theorem C72_one_writer : (dependencies graphCfg [gBlk "A" "r.m" "x", gBlk "B" "r.n" "y", gBlk "K" "k" "r"] "k").map DNode.names = some ["k", "r", "x"] ∧
    (graphOf graphCfg [gBlk "A" "r.m" "x", gBlk "B" "r.n" "y", gBlk "K" "k" "r"]).inputs ["k"] = ["x", "y"] ∧
    ∃ v, request graphCfg [gBlk "A" "r.m" "x", gBlk "B" "r.n" "y", gBlk "K" "k" "r"] [] ["k"] (.obj [("x", .num 1), ("y", .num 2)]) = some (.ok v) ∧
      v.dot "k.n" = some (.num 2) := ⟨rfl, by decide +kernel, _, rfl, rfl⟩

/-- NEGATIVE: what the cells of another column of a table read is not in the tree of the first, but a request for the first is refused without it. -/
theorem C72_other_column : (dependencies unitCfg unitPolicy "d.v").map DNode.names = some ["d.v", "a", "x", "x"] ∧
    request unitCfg unitPolicy [] ["d.v"] (.obj [("x", .num 1)]) = some (.error (.missingInputs ["y"])) := ⟨rfl, rfl⟩

/-- the first read of the path in the expressions with the id, in the order in which they are analysed, and whether it could not be resolved -/
def FirstRead (C : Cfg) (b : Body) (id q : String) (u : Bool) : Prop :=
  ∃ pre post, b.sites.flatMap (fun s => (C.recorded s.kind s.src).map fun r => (s.id, dots r.1, r.2)) = pre ++ (id, q, u) :: post ∧
    ∀ r ∈ pre, ¬ (r.1 = id ∧ r.2.1 = q)

/-- What is recorded for an expression: the reads of its syntax tree, each with whether it could not be resolved; the paths made out of a
text that is not an expression count as resolved. -/
theorem C72_recorded (k : Kind) (src : String) (path : List String) (u : Bool) : (path, u) ∈ C.recorded k src ↔ src ≠ "" ∧
    ((∃ n, C.F k src = .ok n ∧ ∃ r ∈ Reads.propReads (isUnary k) n, r.path = path ∧ r.unresolved = u) ∨
     (∃ e, C.F k src = .error e) ∧ path ∈ C.lost k src ∧ path ≠ [] ∧ u = false) := by
  unfold Cfg.recorded
  by_cases h : src = ""
  · simp [h]
  · rw [if_neg (by simpa using h)]
    cases C.F k src with
    | ok n => simp [h]
    | error e => simp [h, and_assoc]

/-- A path that a block reads for a property is marked as unresolved exactly if the first read of it is in each expression that counts for
the property and reads it. -/
theorem C72_marked {b : Body} {p q : String} {u : Bool} (hw : ∃ w ∈ b.writes, SegPrefix p w) (h : (q, u) ∈ b.direct C p) :
    u = true ↔ ∀ id v, ((∃ w ∈ b.contributing, w.1 = p ∧ id ∈ w.2) ∨
        ((∀ w ∈ b.contributing, w.1 ≠ p) ∧ ∃ w ∈ b.contributing, SegPrefix p w.1 ∧ id ∈ w.2)) → FirstRead C b id q v → v = true := by
  have hne : b.contributing.isEmpty = false := by
    obtain ⟨w, hw, _⟩ := hw
    rw [← contributing_writes] at hw
    cases h : b.contributing with
    | nil => rw [h] at hw; cases hw
    | cons => rfl
  have hfirst : ∀ id v, FirstRead C b id q v → (id, q, v) ∈ b.record C ∧ firstFlag (b.record C) id q = v := by
    rintro id v ⟨pre, post, e, hpre⟩
    have e : b.record C = pre ++ (id, q, v) :: post := e
    refine ⟨by rw [e]; simp, ?_⟩
    unfold firstFlag
    rw [e, List.find?_append, List.find?_eq_none.2 (by intro r hr; simpa using hpre r hr)]
    simp
  have hex : ∀ r ∈ b.record C, r.2.1 = q → ∃ v, FirstRead C b r.1 q v := by
    intro r hr e
    have : ∃ x, (b.record C).find? (fun x => x.1 = r.1 && x.2.1 = q) = some x := by
      cases hf : (b.record C).find? (fun x => x.1 = r.1 && x.2.1 = q) with
      | some x => exact ⟨x, rfl⟩
      | none => exact absurd (by simp [e]) (List.find?_eq_none.1 hf r hr)
    obtain ⟨⟨i, q', v⟩, hx⟩ := this
    obtain ⟨hx, pre, post, e1, hpre⟩ := List.find?_eq_some_iff_append.1 hx
    have hx : i = r.1 ∧ q' = q := by simpa using hx
    obtain ⟨rfl, rfl⟩ := hx
    refine ⟨v, pre, post, e1, fun y hy => ?_⟩
    have := hpre y hy
    rintro ⟨a, c⟩
    simp [a, c] at this
  unfold Body.direct at h
  simp only [hne, Bool.false_or] at h
  obtain ⟨path, _, e⟩ := List.mem_map.1 h
  injection e with e1 e2
  subst e1
  rw [← e2, List.all_eq_true]
  constructor
  · intro hall id v hid hf
    obtain ⟨h1, h2⟩ := hfirst id v hf
    rw [← h2]
    exact hall (id, path, v) (List.mem_filter.2 ⟨List.mem_filter.2 ⟨h1, by simpa using mem_allowed.2 hid⟩, by simp⟩)
  · intro hall r hr
    obtain ⟨hr, e⟩ := List.mem_filter.1 hr
    obtain ⟨hr, ha⟩ := List.mem_filter.1 hr
    obtain ⟨v, hv⟩ := hex r hr (by simpa using e)
    rw [(hfirst _ _ hv).2]
    exact hall _ _ (mem_allowed.1 (by simpa using ha)) hv

def flagFront : FrontEnd := fun _ src =>
  if src = "z" then .ok (.ident "z") else if src = "a" then .ok (.ident "a") else if src = "b" then .ok (.ident "b")
  else if src = "[a, b]" then .ok (.arr [.ident "a", .ident "b"])
  else if src = "map([1] as z, z)" then .ok (.closure .map (.arr [.num 1]) (some "z") (.ident "z"))
  else .error (.front "unexpected")

def flagCfg : Cfg := { unitCfg with F := flagFront, model := matchesModel ["z"] }

def flagPolicy : List PBlock := [gBlk "A" "a" "map([1] as z, z)", gBlk "B" "b" "z", gBlk "K" "k" "[a, b]"]

/-- the name of an item is no property, the input is -/
example : ((gBlk "A" "a" "map([1] as z, z)").body.direct flagCfg "a" = [("z", true)]) ∧
    ((gBlk "B" "b" "z").body.direct flagCfg "b" = [("z", false)]) := ⟨rfl, rfl⟩

/-- NEGATIVE: a name is marked as unresolved for all who read it when it is so for the first: `b` reads the input `z`, and its own tree says so; in
the tree of `k` the `z` below `b` is marked, because there is a name `z` in `a` that stands for an item of a list. -/
theorem C72_mark : dependencies flagCfg flagPolicy "b" = some (.mk "b" (some ⟨"p", "B"⟩) false [.mk "z" none false []]) ∧
    dependencies flagCfg flagPolicy "k" = some (.mk "k" (some ⟨"p", "K"⟩) false
      [.mk "a" (some ⟨"p", "A"⟩) false [.mk "z" none true []], .mk "b" (some ⟨"p", "B"⟩) false [.mk "z" none true []]]) := ⟨rfl, rfl⟩

end Zen.Policy
