import Verif.Policy.Document
import Verif.Core.MapLemmas
/-
C82: a policy document that was read and written is read as the same document; blocks of other kinds are written as they were read,
while blocks of known kinds lose the fields that are not known.
-/
namespace Zen.PolicyDoc
open Zen

/-- the kinds of blocks that are known -/
def known : List String := ["assertion", "decisionTable", "expression", "match", "dataModel", "dictionary"]

def InDoc.Sound (c : InDoc) : Prop := ∀ s, c.field = some s → blank s = false
def OutDoc.Sound (c : OutDoc) : Prop := ∀ s, c.type = some s → blank s = false

/-- what documents that were read are like: depths are `u32`, texts that may be missing are not blank, and the blocks that are left as they are
have another kind -/
def BlockDoc.Sound : BlockDoc → Prop
  | .assertion _ d => ∀ c ∈ d.conditions, c.depth < 4294967296
  | .decisionTable _ d => (∀ c ∈ d.inputs, c.Sound) ∧ ∀ c ∈ d.outputs, c.Sound
  | .ignored v => ∃ o name, v = .obj o ∧ aGet o "type" = some (.str name) ∧ name ∉ known
  | _ => True

def Document.Sound (d : Document) : Prop := ∀ b ∈ d.blocks, b.Sound

theorem rAll_map {α : Type} {r : J → Option α} {w : α → J} {l : List α} (h : ∀ a ∈ l, r (w a) = some a) :
    rAll r (l.map w) = some l := by
  induction l with
  | nil => rfl
  | cons a l ih =>
    simp [rAll, h a (by simp), ih fun b hb => h b (by simp [hb])]

theorem rList_map {α : Type} {r : J → Option α} {w : α → J} {l : List α} (h : ∀ a ∈ l, r (w a) = some a) :
    rList r (.arr (l.map w)) = some l := rAll_map h

theorem rAll_mem {α : Type} {r : J → Option α} {xs : List J} {l : List α} (h : rAll r xs = some l) :
    ∀ a ∈ l, ∃ x ∈ xs, r x = some a := by
  induction xs generalizing l with
  | nil =>
    simp only [rAll, Option.some.injEq] at h
    subst h
    simp
  | cons x xs ih =>
    simp only [rAll, Option.bind_eq_bind, Option.bind_eq_some_iff, Option.some.injEq] at h
    obtain ⟨a, h1, as, h2, rfl⟩ := h
    intro b hb
    rcases List.mem_cons.1 hb with rfl | hb
    · exact ⟨x, by simp, h1⟩
    · obtain ⟨y, hy, h3⟩ := ih h2 b hb
      exact ⟨y, by simp [hy], h3⟩

theorem rList_mem {α : Type} {r : J → Option α} {j : J} {l : List α} (h : rList r j = some l) : ∀ a ∈ l, ∃ x, r x = some a := by
  cases j with
  | arr xs =>
    intro a ha
    obtain ⟨x, -, hx⟩ := rAll_mem (show rAll r xs = some l from h) a ha
    exact ⟨x, hx⟩
  | _ => simp [rList] at h

theorem rObj_some {α : Type} {r : Fields → Option α} {j : J} {a : α} (h : rObj r j = some a) : ∃ o, j = .obj o ∧ r o = some a := by
  cases j with
  | obj o => exact ⟨o, rfl, h⟩
  | _ => simp [rObj] at h

theorem opt_list_mem {α : Type} {r : J → Option α} {o : Fields} {k : String} {l : List α} (h : opt (rList r) [] o k = some l) :
    ∀ a ∈ l, ∃ x, r x = some a := by
  unfold opt at h
  split at h
  · simp only [Option.some.injEq] at h
    subst h
    simp
  · exact rList_mem h

/-! ### Writing and reading -/

theorem u32_rt {n : Nat} (h : n < 4294967296) : rU32 (.num n) = some n := by
  simp only [rU32, Int.toNat_natCast]
  rw [if_pos ⟨Int.natCast_nonneg n, h⟩]

theorem aGet_aErase_other {V : Type} (l : List (String × V)) {k n : String} (hk : k ≠ n) : aGet (aErase l n) k = aGet l k := by
  induction l with
  | nil => rfl
  | cons e r ih =>
    obtain ⟨a, b⟩ := e
    simp only [aErase]
    split
    · rename_i h
      subst h
      simp [aGet, Ne.symm hk]
    · simp [aGet, ih]

theorem condition_rt {c : ConditionDoc} (h : c.depth < 4294967296) : rObj rCondition (wCondition c) = some c := by
  obtain ⟨i, e, a, d⟩ := c
  cases a <;> simp [rObj, wCondition, rCondition, req, opt, aGet, rStr, rOp, u32_rt h]

theorem assertion_rt {d : AssertionDoc} (h : ∀ c ∈ d.conditions, c.depth < 4294967296) : rObj rAssertion (wAssertion d) = some d := by
  have := rList_map (r := rObj rCondition) (w := wCondition) (l := d.conditions) fun c hc => condition_rt (h c hc)
  simp [rObj, wAssertion, rAssertion, req, aGet, rStr, this]

theorem expression_rt (d : ExpressionDoc) : rObj rExpression (wExpression d) = some d := by
  simp [rObj, wExpression, rExpression, opt, aGet, rStr]

theorem arm_rt (a : ArmDoc) : rObj rArm (wArm a) = some a := by
  simp [rObj, wArm, rArm, opt, req, aGet, rStr]

theorem match_rt (d : MatchDoc) : rObj rMatch (wMatch d) = some d := by
  have := rList_map (r := rObj rArm) (w := wArm) (l := d.arms) fun c _ => arm_rt c
  simp [rObj, wMatch, rMatch, opt, aGet, rStr, this]

theorem in_rt {c : InDoc} (h : c.Sound) : rObj rIn (wIn c) = some c := by
  obtain ⟨i, n, f⟩ := c
  cases f with
  | none => simp [rObj, wIn, rIn, opt, req, aGet, rStr, wMaybe, rMaybe]
  | some s => simp [rObj, wIn, rIn, opt, req, aGet, rStr, wMaybe, rMaybe, h s rfl]

theorem out_rt {c : OutDoc} (h : c.Sound) : rObj rOut (wOut c) = some c := by
  obtain ⟨i, n, f, t⟩ := c
  cases t with
  | none => simp [rObj, wOut, rOut, opt, req, aGet, rStr]
  | some s => simp [rObj, wOut, rOut, opt, req, aGet, rStr, rMaybe, h s rfl]

theorem cells_rt (cs : List (String × String)) : rObj rCells (wCells cs) = some cs := by
  simp only [rObj, wCells]
  induction cs with
  | nil => rfl
  | cons c cs ih => simp [rCells, rStr, ih]

theorem table_rt {d : TableDoc} (h1 : ∀ c ∈ d.inputs, c.Sound) (h2 : ∀ c ∈ d.outputs, c.Sound) : decodeWire (wTable d) = some d := by
  have e1 := rList_map (r := rObj rIn) (w := wIn) (l := d.inputs) fun c hc => in_rt (h1 c hc)
  have e2 := rList_map (r := rObj rOut) (w := wOut) (l := d.outputs) fun c hc => out_rt (h2 c hc)
  have e3 := rList_map (r := rObj rCells) (w := wCells) (l := d.rules) fun c _ => cells_rt c
  obtain ⟨c, i, o, r⟩ := d
  cases c <;> simp [decodeWire, wTable, aGet, rTable, opt, rHit, e1, e2, e3]

theorem property_rt (p : PropertyDoc) : rObj rProperty (wProperty p) = some p := by
  obtain ⟨i, n, t, a, o⟩ := p
  cases t with
  | string vs =>
    cases vs with
    | none => simp [rObj, wProperty, rProperty, rType, wType, opt, req, aGet, rStr, rBool]
    | some vs =>
      have : rList rStr (.arr (vs.map .str)) = some vs := rList_map (w := .str) fun c _ => rfl
      simp [rObj, wProperty, rProperty, rType, wType, opt, req, aGet, rStr, rBool, rTexts, this]
  | _ => simp [rObj, wProperty, rProperty, rType, wType, opt, req, aGet, rStr, rBool]

theorem model_rt (d : DataModelDoc) : rObj rModel (wModel d) = some d := by
  have := rList_map (r := rObj rProperty) (w := wProperty) (l := d.properties) fun c _ => property_rt c
  obtain ⟨n, g, p⟩ := d
  cases g <;> simp [rObj, wModel, rModel, opt, req, aGet, rStr, rScope, this]

theorem entry_rt (e : EntryDoc) : rObj rEntry (wEntry e) = some e := by
  simp [rObj, wEntry, rEntry, opt, req, aGet, rStr]

theorem dictionary_rt (d : DictionaryDoc) : rObj rDictionary (wDictionary d) = some d := by
  have := rList_map (r := rObj rEntry) (w := wEntry) (l := d.entries) fun c _ => entry_rt c
  simp [rObj, wDictionary, rDictionary, opt, req, aGet, rStr, this]

theorem decodeData_none (name : String) : decodeData name = none ↔ name ∉ known := by
  unfold decodeData known
  split <;> simp_all

theorem tagged_rt {kind id : String} {d : J} {f : String → J → Option BlockDoc} (hf : decodeData kind = some f) (hd : d ≠ .null) :
    rBlock (tagged kind id d) = f id d := by
  have hr : rData [("data", d)] = some d := by
    cases d <;> first | rfl | exact absurd rfl hd
  simp [rBlock, tagged, aGet, hf, rEnvelope, req, rStr, rObj, hr]

theorem block_rt {b : BlockDoc} (h : b.Sound) : rBlock (wBlock b) = some b := by
  cases b with
  | assertion id d =>
    rw [wBlock, tagged_rt rfl (by simp [wAssertion])]
    simp [assertion_rt h]
  | decisionTable id d =>
    rw [wBlock, tagged_rt rfl (by simp [wTable])]
    simp [table_rt h.1 h.2]
  | expression id d =>
    rw [wBlock, tagged_rt rfl (by simp [wExpression])]
    simp [expression_rt]
  | match_ id d =>
    rw [wBlock, tagged_rt rfl (by simp [wMatch])]
    simp [match_rt]
  | dataModel id d =>
    rw [wBlock, tagged_rt rfl (by simp [wModel])]
    simp [model_rt]
  | dictionary id d =>
    rw [wBlock, tagged_rt rfl (by simp [wDictionary])]
    simp [dictionary_rt]
  | ignored v =>
    obtain ⟨o, name, rfl, h1, h2⟩ := h
    simp [wBlock, rBlock, h1, (decodeData_none name).2 h2]

/-- **A document that is written is read as it was.** -/
theorem C82_written {d : Document} (h : d.Sound) : rDocument (wDocument d) = some d := by
  have e1 : rList rStr (.arr (d.imports.map .str)) = some d.imports := rList_map (w := .str) fun c _ => rfl
  have e2 := rList_map (r := rBlock) (w := wBlock) (l := d.blocks) fun b hb => block_rt (h b hb)
  simp [rDocument, rObj, wDocument, opt, req, aGet, e1, e2]

/-! ### What is read -/

theorem opt_some {α : Type} {r : J → Option α} {d : α} {o : Fields} {k : String} {a : α} (h : opt r d o k = some a) :
    a = d ∨ ∃ v, r v = some a := by
  unfold opt at h
  split at h
  · exact .inl (by simpa using h.symm)
  · exact .inr ⟨_, h⟩

theorem maybe_sound {o : Fields} {k : String} {f : Option String} (h : opt rMaybe none o k = some f) : ∀ s, f = some s → blank s = false := by
  intro s hs
  subst hs
  rcases opt_some h with h | ⟨v, h⟩
  · simp at h
  · cases v with
    | str t =>
      simp only [rMaybe, Option.some.injEq] at h
      split at h
      · simp at h
      · rename_i hb
        simp only [Option.some.injEq] at h
        subst h
        simpa using hb
    | null => simp [rMaybe] at h
    | _ => simp [rMaybe] at h

theorem rTable_sound {o : Fields} {d : TableDoc} (h : rTable o = some d) : (∀ c ∈ d.inputs, c.Sound) ∧ ∀ c ∈ d.outputs, c.Sound := by
  simp only [rTable, Option.bind_eq_bind, Option.bind_eq_some_iff, Option.some.injEq] at h
  obtain ⟨hit, -, i, h1, u, h2, r, -, rfl⟩ := h
  constructor
  · intro c hc
    obtain ⟨x, hx⟩ := opt_list_mem h1 c hc
    obtain ⟨o, -, ho⟩ := rObj_some hx
    simp only [rIn, Option.bind_eq_bind, Option.bind_eq_some_iff, Option.some.injEq] at ho
    obtain ⟨_, -, _, -, f, hf, rfl⟩ := ho
    exact maybe_sound hf
  · intro c hc
    obtain ⟨x, hx⟩ := opt_list_mem h2 c hc
    obtain ⟨o, -, ho⟩ := rObj_some hx
    simp only [rOut, Option.bind_eq_bind, Option.bind_eq_some_iff, Option.some.injEq] at ho
    obtain ⟨_, -, _, -, _, -, f, hf, rfl⟩ := ho
    exact maybe_sound hf

theorem decodeWire_sound {j : J} {d : TableDoc} (h : decodeWire j = some d) : (∀ c ∈ d.inputs, c.Sound) ∧ ∀ c ∈ d.outputs, c.Sound := by
  unfold decodeWire at h
  split at h
  · dsimp only at h
    split at h
    · simp at h
    · split at h
      · exact rTable_sound h
      · split at h
        · simp only [Option.bind_eq_bind, Option.bind_eq_some_iff] at h
          obtain ⟨p, -, h⟩ := h
          exact rTable_sound h
        · exact rTable_sound h
  · simp at h

theorem u32_bound {v : J} {n : Nat} (h : rU32 v = some n) : n < 4294967296 := by
  cases v with
  | num m =>
    simp only [rU32] at h
    split at h
    · rename_i hb
      simp only [Option.some.injEq] at h
      subst h
      exact hb.2
    · simp at h
  | _ => simp [rU32] at h

theorem assertion_sound {j : J} {d : AssertionDoc} (h : rObj rAssertion j = some d) : ∀ c ∈ d.conditions, c.depth < 4294967296 := by
  obtain ⟨o, -, h⟩ := rObj_some h
  simp only [rAssertion, Option.bind_eq_bind, Option.bind_eq_some_iff, Option.some.injEq] at h
  obtain ⟨_, -, cs, h1, rfl⟩ := h
  simp only [req, Option.bind_eq_some_iff] at h1
  obtain ⟨v, -, h1⟩ := h1
  intro c hc
  obtain ⟨x, hx⟩ := rList_mem h1 c hc
  obtain ⟨o, -, ho⟩ := rObj_some hx
  simp only [rCondition, Option.bind_eq_bind, Option.bind_eq_some_iff, Option.some.injEq] at ho
  obtain ⟨_, -, _, -, _, -, n, hn, rfl⟩ := ho
  rcases opt_some hn with rfl | ⟨v, hv⟩
  · simp
  · exact u32_bound hv

theorem block_sound {j : J} {b : BlockDoc} (h : rBlock j = some b) : b.Sound := by
  unfold rBlock at h
  split at h
  · rename_i o
    split at h
    · rename_i name hn
      split at h
      · rename_i f hf
        simp only [Option.bind_eq_some_iff] at h
        obtain ⟨⟨id, d⟩, -, h⟩ := h
        unfold decodeData at hf
        split at hf <;> simp only [Option.some.injEq, reduceCtorEq] at hf <;> subst hf <;>
          simp only [Option.map_eq_some_iff] at h <;> obtain ⟨x, hx, rfl⟩ := h
        · exact assertion_sound hx
        · exact decodeWire_sound hx
        · trivial
        · trivial
        · trivial
        · trivial
      · rename_i hf
        simp only [Option.some.injEq] at h
        subst h
        exact ⟨o, name, rfl, hn, (decodeData_none name).1 hf⟩
    · simp at h
  · simp at h

/-- **Reading what was written from what was read changes nothing.** -/
theorem C82_read {j : J} {d : Document} (h : rDocument j = some d) : rDocument (wDocument d) = some d := by
  refine C82_written ?_
  obtain ⟨o, -, h⟩ := rObj_some h
  simp only [Option.bind_eq_bind, Option.bind_eq_some_iff, Option.some.injEq] at h
  obtain ⟨_, -, bs, h1, rfl⟩ := h
  simp only [req, Option.bind_eq_some_iff] at h1
  obtain ⟨v, -, h1⟩ := h1
  intro b hb
  obtain ⟨x, hx⟩ := rList_mem h1 b hb
  exact block_sound hx

/-- **Blocks of other kinds are kept as they are**: an object with a `type` that is not known is read, and written again it is the same
object. -/
theorem C82_other {o : Fields} {name : String} (h : aGet o "type" = some (.str name)) (hn : name ∉ known) :
    (rBlock (.obj o)).map wBlock = some (.obj o) := by
  simp [rBlock, h, (decodeData_none name).2 hn, wBlock]

/-- **A block has to tell its kind.** -/
theorem C82_kind {j : J} {b : BlockDoc} (h : rBlock j = some b) : ∃ o name, j = .obj o ∧ aGet o "type" = some (.str name) := by
  unfold rBlock at h
  split at h
  · split at h
    · exact ⟨_, _, rfl, by assumption⟩
    · simp at h
  · simp at h

/-- **A block of a known kind loses what is not known (as it should not)**: it is read from its `type`, its `id` and its `props` alone, and
of these from `data` alone. -/
theorem C82_known {o o' : Fields} {p p' : Fields} {name : String} (h1 : aGet o "type" = some (.str name)) (hn : name ∈ known)
    (h2 : aGet o' "type" = aGet o "type") (h3 : aGet o' "id" = aGet o "id") (hp : aGet o "props" = some (.obj p))
    (hp' : aGet o' "props" = some (.obj p')) (h4 : aGet p' "data" = aGet p "data") : rBlock (.obj o') = rBlock (.obj o) := by
  have hd : decodeData name ≠ none := fun h => (decodeData_none name).1 h hn
  obtain ⟨f, hf⟩ := Option.ne_none_iff_exists'.1 hd
  simp [rBlock, h1, h2, hf, rEnvelope, req, h3, hp, hp', rObj, rData, h4]

/-- **What is not written has its default**: a condition is not nested, a table takes the first hit, a data model is an entity, a property is
neither a list nor optional, a text has no enumeration (also for `null`), all other texts and lists are empty. -/
theorem C82_defaults (o : Fields) :
    (∀ d, rCondition o = some d → aGet o "depth" = none → d.depth = 0) ∧
    (∀ d, rExpression o = some d → (aGet o "key" = none → d.key = "") ∧ (aGet o "value" = none → d.value = "")) ∧
    (∀ d, rArm o = some d → (aGet o "condition" = none → d.condition = "") ∧ (aGet o "value" = none → d.value = "")) ∧
    (∀ d, rMatch o = some d → (aGet o "key" = none → d.key = "") ∧ (aGet o "arms" = none → d.arms = [])) ∧
    (∀ d, rIn o = some d → (aGet o "name" = none → d.name = "") ∧ (aGet o "field" = none ∨ aGet o "field" = some .null → d.field = none)) ∧
    (∀ d, rOut o = some d → (aGet o "name" = none → d.name = "") ∧ (aGet o "type" = none ∨ aGet o "type" = some .null → d.type = none)) ∧
    (∀ d, rTable o = some d → (aGet o "hitPolicy" = none → d.collect = false) ∧ (aGet o "inputs" = none → d.inputs = []) ∧
      (aGet o "outputs" = none → d.outputs = []) ∧ (aGet o "rules" = none → d.rules = [])) ∧
    (∀ d, rProperty o = some d → (aGet o "array" = none → d.array = false) ∧ (aGet o "optional" = none → d.optional = false)) ∧
    (aGet o "type" = some (.str "string") → aGet o "enum" = none ∨ aGet o "enum" = some .null → rType o = some (.string none)) ∧
    (∀ d, rModel o = some d → (aGet o "scope" = none → d.global = false) ∧ (aGet o "properties" = none → d.properties = [])) ∧
    (∀ d, rEntry o = some d → (aGet o "id" = none → d.id = "") ∧ (aGet o "label" = none → d.label = "")) ∧
    (∀ d, rDictionary o = some d → aGet o "entries" = none → d.entries = []) ∧
    (∀ d, rDocument (.obj o) = some d → aGet o "imports" = none → d.imports = []) := by
  refine ⟨?_, ?_, ?_, ?_, ?_, ?_, ?_, ?_, ?_, ?_, ?_, ?_, ?_⟩
  case refine_9 =>
    intro h1 h2
    rcases h2 with h2 | h2 <;> simp [rType, h1, opt, h2, rTexts]
  all_goals
    intro d h
    simp only [rCondition, rExpression, rArm, rMatch, rIn, rOut, rTable, rProperty, rModel, rEntry, rDictionary, rDocument, rObj,
      Option.bind_eq_bind, Option.bind_eq_some_iff, Option.some.injEq] at h
  · obtain ⟨_, -, _, -, _, -, a, ha, rfl⟩ := h
    intro h; simpa [opt, h, eq_comm] using ha
  · obtain ⟨a, ha, b, hb, rfl⟩ := h
    exact ⟨fun h => by simpa [opt, h, eq_comm] using ha, fun h => by simpa [opt, h, eq_comm] using hb⟩
  · obtain ⟨_, -, a, ha, b, hb, rfl⟩ := h
    exact ⟨fun h => by simpa [opt, h, eq_comm] using ha, fun h => by simpa [opt, h, eq_comm] using hb⟩
  · obtain ⟨a, ha, b, hb, rfl⟩ := h
    exact ⟨fun h => by simpa [opt, h, eq_comm] using ha, fun h => by simpa [opt, h, eq_comm] using hb⟩
  · obtain ⟨_, -, a, ha, b, hb, rfl⟩ := h
    exact ⟨fun h => by simpa [opt, h, eq_comm] using ha, fun h => by rcases h with h | h <;> simpa [opt, h, rMaybe, eq_comm] using hb⟩
  · obtain ⟨_, -, a, ha, _, -, b, hb, rfl⟩ := h
    exact ⟨fun h => by simpa [opt, h, eq_comm] using ha, fun h => by rcases h with h | h <;> simpa [opt, h, rMaybe, eq_comm] using hb⟩
  · obtain ⟨a, ha, b, hb, c, hc, e, he, rfl⟩ := h
    exact ⟨fun h => by simpa [opt, h, eq_comm] using ha, fun h => by simpa [opt, h, eq_comm] using hb,
      fun h => by simpa [opt, h, eq_comm] using hc, fun h => by simpa [opt, h, eq_comm] using he⟩
  · obtain ⟨_, -, _, -, a, ha, b, hb, _, -, rfl⟩ := h
    exact ⟨fun h => by simpa [opt, h, eq_comm] using ha, fun h => by simpa [opt, h, eq_comm] using hb⟩
  · obtain ⟨_, -, a, ha, b, hb, rfl⟩ := h
    exact ⟨fun h => by simpa [opt, h, eq_comm] using ha, fun h => by simpa [opt, h, eq_comm] using hb⟩
  · obtain ⟨a, ha, _, -, b, hb, rfl⟩ := h
    exact ⟨fun h => by simpa [opt, h, eq_comm] using ha, fun h => by simpa [opt, h, eq_comm] using hb⟩
  · obtain ⟨_, -, a, ha, rfl⟩ := h
    intro h; simpa [opt, h, eq_comm] using ha
  · obtain ⟨a, ha, _, -, rfl⟩ := h
    intro h; simpa [opt, h, eq_comm] using ha

/-- a data model with its name and one property only -/
example : rModel [("name", .str "m"), ("properties", .arr [.obj [("id", .str "1"), ("name", .str "a"), ("type", .str "string"), ("enum", .null)]])] =
    some ⟨"m", false, [⟨"1", "a", .string none, false, false⟩]⟩ := by decide

/-! ### Columns -/

/-- the columns of a kind, without it -/
def ofKind (kind : String) (cs : List Fields) : List J :=
  (cs.filter fun o : List (String × Json Int) => match aGet o "kind" with
    | some (.str k) => k == kind
    | _ => false).map fun o => .obj (aErase o "kind")

/-- **Columns are split by their kind**, in order; it fails exactly when one has another kind or none. -/
theorem C82_split (cs : List Fields) :
    ((∀ o ∈ cs, aGet o "kind" = some (.str "input") ∨ aGet o "kind" = some (.str "output")) →
      splitColumns (cs.map .obj) = some (ofKind "input" cs, ofKind "output" cs)) ∧
    ((splitColumns (cs.map .obj)).isSome = true →
      ∀ o ∈ cs, aGet o "kind" = some (.str "input") ∨ aGet o "kind" = some (.str "output")) := by
  induction cs with
  | nil => simp [splitColumns, ofKind]
  | cons o cs ih =>
    constructor
    · intro h
      have ih1 := ih.1 fun x hx => h x (by simp [hx])
      rcases h o (by simp) with hk | hk
      · simp [splitColumns, hk, ih1, ofKind]
      · simp [splitColumns, hk, ih1, ofKind]
    · intro h x hx
      simp only [List.map_cons, splitColumns] at h
      split at h
      · rename_i hk
        rcases List.mem_cons.1 hx with rfl | hx
        · exact .inl hk
        · exact ih.2 (by simpa using h) x hx
      · rename_i hk
        rcases List.mem_cons.1 hx with rfl | hx
        · exact .inr hk
        · exact ih.2 (by simpa using h) x hx
      · simp at h

/-- **A table is written in one of two forms.** With columns and inputs or outputs it is refused; with a list of columns it is read as if
they had been split. -/
theorem C82_forms (o : Fields) :
    ((aGet o "columns").isSome = true → (aGet o "inputs").isSome = true ∨ (aGet o "outputs").isSome = true → decodeWire (.obj o) = none) ∧
    (∀ cs, aGet o "columns" = some (.arr (cs.map .obj)) → aGet o "inputs" = none → aGet o "outputs" = none →
      (∀ c ∈ cs, aGet c "kind" = some (.str "input") ∨ aGet c "kind" = some (.str "output")) →
      decodeWire (.obj o) = do
        let hit ← opt rHit false o "hitPolicy"
        let inputs ← rList (rObj rIn) (.arr (ofKind "input" cs))
        let outputs ← rList (rObj rOut) (.arr (ofKind "output" cs))
        let rules ← opt (rList (rObj rCells)) [] o "rules"
        some ⟨hit, inputs, outputs, rules⟩) := by
  constructor
  · intro h1 h2
    rcases h2 with h2 | h2 <;> simp [decodeWire, h1, h2]
  · intro cs hc hi ho hk
    have he : ∀ k, k ≠ "columns" → aGet (aErase o "columns") k = aGet o k := fun k hk => aGet_aErase_other o hk
    simp only [decodeWire, hi, ho, hc, (C82_split cs).1 hk, Option.isSome_none, Bool.false_or, Bool.false_and, Bool.false_eq_true, if_false,
      Option.bind_eq_bind, Option.bind_some]
    have g1 : aGet (aSet (aSet (aErase o "columns") "inputs" (.arr (ofKind "input" cs))) "outputs" (.arr (ofKind "output" cs))) "inputs" =
        some (.arr (ofKind "input" cs)) := by
      rw [aGet_aSet, if_neg (by decide), aGet_aSet, if_pos rfl]
    have g2 : aGet (aSet (aSet (aErase o "columns") "inputs" (.arr (ofKind "input" cs))) "outputs" (.arr (ofKind "output" cs))) "outputs" =
        some (.arr (ofKind "output" cs)) := by
      rw [aGet_aSet, if_pos rfl]
    have g3 : ∀ k, k ≠ "columns" → k ≠ "inputs" → k ≠ "outputs" →
        aGet (aSet (aSet (aErase o "columns") "inputs" (.arr (ofKind "input" cs))) "outputs" (.arr (ofKind "output" cs))) k = aGet o k := by
      intro k h1 h2 h3
      rw [aGet_aSet, if_neg h3, aGet_aSet, if_neg h2, he k h1]
    simp only [rTable, opt, g1, g2, g3 "hitPolicy" (by decide) (by decide) (by decide), g3 "rules" (by decide) (by decide) (by decide),
      Option.bind_eq_bind]

/-- **Columns that are not a list are dropped (as they should not be)**: the table is read without any, like one that has none. -/
theorem C82_columns_lost {o : Fields} {v : J} (hc : aGet o "columns" = some v) (hv : ∀ cs, v ≠ .arr cs) (hi : aGet o "inputs" = none)
    (ho : aGet o "outputs" = none) {d : TableDoc} (h : decodeWire (.obj o) = some d) : d.inputs = [] ∧ d.outputs = [] := by
  have he : ∀ k, k ≠ "columns" → aGet (aErase o "columns") k = aGet o k := fun k hk => aGet_aErase_other o hk
  have : decodeWire (.obj o) = rTable (aErase o "columns") := by
    cases v with
    | arr cs => exact absurd rfl (hv cs)
    | _ => simp [decodeWire, hc, hi, ho]
  rw [this] at h
  simp only [rTable, opt, he "inputs" (by decide), he "outputs" (by decide), hi, ho, Option.bind_eq_bind, Option.bind_eq_some_iff,
    Option.some.injEq] at h
  obtain ⟨_, -, i, rfl, u, rfl, _, -, rfl⟩ := h
  exact ⟨rfl, rfl⟩

/-! ### Cases -/

/-- a document with an import, an expression with a note, a table with columns and a block of another kind -/
def sample : J := .obj [("imports", .arr [.str "base"]), ("blocks", .arr [
  .obj [("type", .str "expression"), ("id", .str "e"), ("note", .str "mine"), ("props", .obj [("data", .obj [("key", .str "a.b")])])],
  .obj [("type", .str "decisionTable"), ("id", .str "t"), ("props", .obj [("data", .obj [
    ("columns", .arr [.obj [("kind", .str "output"), ("id", .str "o"), ("field", .str "x"), ("type", .str " ")],
      .obj [("kind", .str "input"), ("id", .str "i"), ("field", .str "y")]]),
    ("rules", .arr [.obj [("i", .str "> 1"), ("o", .str "2")]])])])],
  .obj [("type", .str "layout"), ("zoom", .num 3)]])]

/-- `sample` as it is read -/
def sampleDoc : Document := ⟨["base"], [
  .expression "e" ⟨"a.b", ""⟩,
  .decisionTable "t" ⟨false, [⟨"i", "", some "y"⟩], [⟨"o", "", "x", none⟩], [[("i", "> 1"), ("o", "2")]]⟩,
  .ignored (.obj [("type", .str "layout"), ("zoom", .num 3)])]⟩

theorem sample_read : rDocument sample = some sampleDoc := by
  have hb : blank " " = true := by decide
  have hy : blank "y" = false := by decide
  simp [rDocument, rObj, sample, sampleDoc, opt, req, aGet, rList, rAll, rStr, rBlock, decodeData, rEnvelope, rData, rExpression, decodeWire,
    splitColumns, aErase, aSet, rTable, rIn, rOut, rCells, rMaybe, hb, hy]

example : rDocument (wDocument sampleDoc) = some sampleDoc := C82_read sample_read

/-- the note of the expression is not written -/
example : wBlock (.expression "e" ⟨"a.b", ""⟩) =
    .obj [("type", .str "expression"), ("id", .str "e"), ("props", .obj [("data", .obj [("key", .str "a.b"), ("value", .str "")])])] := rfl

/-- a table with its columns in an object -/
example : decodeWire (.obj [("columns", .obj [("c", .str "x")])]) = some ⟨false, [], [], []⟩ := by
  simp [decodeWire, aGet, aErase, rTable, opt]

example : decodeWire (.obj [("columns", .arr []), ("inputs", .arr [])]) = none := (C82_forms _).1 (by simp [aGet]) (by simp [aGet])

/-- data that is `null` is refused, data that is empty is read with what is missing -/
example : rBlock (tagged "expression" "e" .null) = none ∧ (rBlock (tagged "expression" "e" (.obj []))).isSome = true := by
  simp [rBlock, tagged, aGet, decodeData, rEnvelope, req, rStr, rObj, rData, rExpression, opt]

end Zen.PolicyDoc
