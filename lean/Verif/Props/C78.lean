import Verif.Policy.SkeletonLemmas
import Verif.Policy.Place
import Verif.Types.Inhabits
/-
C78: the skeleton of an input. It has the default of the type at the path of each input, and it passes the validation that every input
of the policy has to pass.
-/
namespace Zen.Policy
open Zen Zen.Val

variable {ms : List DModel} {D : List (String × List String)}

/-! ## What the data models declare -/

/-- the property is declared for the entity -/
def Declares (ms : List DModel) (entity : String) (p : PProp) : Prop := ∃ m ∈ ms, m.global = false ∧ m.name = entity ∧ p ∈ m.props

/-- the property is declared as a global -/
def DeclaresGlobal (ms : List DModel) (p : PProp) : Prop := ∃ m ∈ ms, m.global = true ∧ p ∈ m.props

/-- there is an entity of the name -/
def IsEntity (ms : List DModel) (entity : String) : Prop := ∃ m ∈ ms, m.global = false ∧ m.name = entity

/-- a property of the kind is declared anywhere -/
def Somewhere (ms : List DModel) (k : PKind) : Prop := ∃ m ∈ ms, ∃ p ∈ m.props, p.kind = k

/-- an entity that no property leads to -/
def IsRoot (ms : List DModel) (entity : String) : Prop :=
  IsEntity ms entity ∧ ¬ Somewhere ms (.relationship entity) ∧ ¬ Somewhere ms (.reference entity)

/-- Names are in order: they have no dots; a property that is declared twice is declared the same way; no global has the name of an
entity. -/
structure Neat (ms : List DModel) : Prop where
  entityName : ∀ m ∈ ms, m.global = false → '.' ∉ m.name.toList
  propName : ∀ m ∈ ms, ∀ p ∈ m.props, '.' ∉ p.name.toList
  same : ∀ {e : String} {p q : PProp}, Declares ms e p → Declares ms e q → p.name = q.name → p = q
  sameGlobal : ∀ {p q : PProp}, DeclaresGlobal ms p → DeclaresGlobal ms q → p.name = q.name → p = q
  free : ∀ {p : PProp}, DeclaresGlobal ms p → ¬ IsEntity ms p.name

/-- The data models are in order: also, there are at most 30 entities, and what is referred to is an entity with an id that is a
text. -/
structure Orderly (ms : List DModel) : Prop extends Neat ms where
  few : (entitiesOf ms).length ≤ 30
  ids : ∀ {t : String}, Somewhere ms (.reference t) → ∃ q, Declares ms t q ∧ q.name = "id" ∧ q.array = false ∧
    (q.kind = .string ∨ q.kind = .date ∨ ∃ u, q.kind = .reference u)

/-! ## The maps hold what is declared -/

theorem mem_addProps {l b : List PProp} : (∀ p ∈ l.foldl addProp b, p ∈ b ∨ p ∈ l) ∧
    (∀ p, p ∈ b → p ∈ l.foldl addProp b) ∧ (∀ p ∈ l, ∃ q ∈ l.foldl addProp b, q.name = p.name) ∧
    ((b.map PProp.name).Nodup → ((l.foldl addProp b).map PProp.name).Nodup) := by
  induction l generalizing b with
  | nil => exact ⟨fun p h => .inl h, fun p h => h, fun p h => (nomatch h), fun h => h⟩
  | cons x l ih =>
    obtain ⟨h1, h2, h3, h4⟩ := ih (b := addProp b x)
    have ha : ∀ p ∈ addProp b x, p ∈ b ∨ p = x := by
      intro p hp
      unfold addProp at hp
      split at hp
      · exact .inl hp
      · rcases List.mem_append.1 hp with hp | hp
        · exact .inl hp
        · exact .inr (List.mem_singleton.1 hp)
    have hb : ∀ p ∈ b, p ∈ addProp b x := by
      intro p hp
      unfold addProp
      split
      · exact hp
      · exact List.mem_append_left _ hp
    have hc : ∃ q ∈ addProp b x, q.name = x.name := by
      unfold addProp
      split
      · rename_i h
        obtain ⟨q, hq, e⟩ := List.any_eq_true.1 h
        exact ⟨q, hq, by simpa using e⟩
      · exact ⟨x, by simp, rfl⟩
    refine ⟨fun p hp => ?_, fun p hp => h2 p (hb p hp), fun p hp => ?_, fun hn => h4 ?_⟩
    · rcases h1 p hp with h | h
      · rcases ha p h with h | h
        · exact .inl h
        · exact .inr (by rw [h]; exact List.mem_cons_self ..)
      · exact .inr (List.mem_cons_of_mem _ h)
    · rcases List.mem_cons.1 hp with rfl | hp
      · obtain ⟨q, hq, e⟩ := hc
        exact ⟨q, h2 q hq, e⟩
      · exact h3 p hp
    · unfold addProp
      split
      · exact hn
      · rename_i h
        rw [List.map_append, List.map_singleton]
        refine List.nodup_append.2 ⟨hn, by simp, ?_⟩
        rintro a ha b hb rfl
        obtain ⟨q, hq, e⟩ := List.mem_map.1 ha
        rw [List.mem_singleton] at hb
        exact h (List.any_eq_true.2 ⟨q, hq, by simpa [e] using hb⟩)

/-- what the merged models are -/
structure EntitiesAre (ms : List DModel) (E : List (String × List PProp)) : Prop where
  keys : (aKeys E).Nodup
  some_iff : ∀ e, (aGet E e).isSome ↔ IsEntity ms e
  declared : ∀ {e props}, aGet E e = some props → ∀ p ∈ props, Declares ms e p
  all : ∀ {e props}, aGet E e = some props → ∀ p, Declares ms e p → ∃ q ∈ props, q.name = p.name
  nodup : ∀ {e props}, aGet E e = some props → (props.map PProp.name).Nodup

theorem entitiesOf_are (ms : List DModel) : EntitiesAre ms (entitiesOf ms) := by
  unfold entitiesOf
  have step : ∀ (l done : List DModel) (acc : List (String × List PProp)), (∀ m ∈ l, m.global = false) → EntitiesAre done acc →
      EntitiesAre (done ++ l) (l.foldl (fun acc m => aSet acc m.name (m.props.foldl addProp ((aGet acc m.name).getD []))) acc) := by
    intro l
    induction l with
    | nil => intro done acc _ h; rw [List.append_nil]; exact h
    | cons m l ih =>
      intro done acc hg h
      have hm : m.global = false := hg m (List.mem_cons_self ..)
      have : EntitiesAre (done ++ [m]) (aSet acc m.name (m.props.foldl addProp ((aGet acc m.name).getD []))) := by
        obtain ⟨h1, h2, h3, h4⟩ := mem_addProps (l := m.props) (b := (aGet acc m.name).getD [])
        refine ⟨aKeys_aSet_nodup _ _ h.keys, fun e => ?_, fun {e props} he p hp => ?_, fun {e props} he p hp => ?_, fun {e props} he => ?_⟩
        · rw [aGet_aSet]
          by_cases he : e = m.name
          · subst he
            simp only [if_true, Option.isSome_some, true_iff]
            exact ⟨m, by simp, hm, rfl⟩
          · rw [if_neg he, h.some_iff e]
            constructor
            · rintro ⟨x, hx, a, b⟩; exact ⟨x, by simp [hx], a, b⟩
            · rintro ⟨x, hx, a, b⟩
              rcases List.mem_append.1 hx with hx | hx
              · exact ⟨x, hx, a, b⟩
              · rw [List.mem_singleton.1 hx] at b; exact absurd b.symm he
        · rw [aGet_aSet] at he
          by_cases hem : e = m.name
          · subst hem
            rw [if_pos rfl] at he
            injection he with he
            subst he
            rcases h1 p hp with hp | hp
            · cases hac : aGet acc m.name with
              | none => rw [hac] at hp; cases hp
              | some pr =>
                rw [hac] at hp
                obtain ⟨x, hx, a, b, c⟩ := h.declared hac p hp
                exact ⟨x, by simp [hx], a, b, c⟩
            · exact ⟨m, by simp, hm, rfl, hp⟩
          · rw [if_neg hem] at he
            obtain ⟨x, hx, a, b, c⟩ := h.declared he p hp
            exact ⟨x, by simp [hx], a, b, c⟩
        · obtain ⟨x, hx, a, b, c⟩ := hp
          rw [aGet_aSet] at he
          by_cases hem : e = m.name
          · subst hem
            rw [if_pos rfl] at he
            injection he with he
            subst he
            rcases List.mem_append.1 hx with hx | hx
            · have hs : (aGet acc m.name).isSome := (h.some_iff _).2 ⟨x, hx, a, b⟩
              cases hac : aGet acc m.name with
              | none => rw [hac] at hs; cases hs
              | some pr =>
                obtain ⟨q, hq, e⟩ := h.all hac p ⟨x, hx, a, b, c⟩
                rw [hac] at h2
                exact ⟨q, h2 q hq, e⟩
            · rw [List.mem_singleton.1 hx] at c
              exact h3 p c
          · rw [if_neg hem] at he
            rcases List.mem_append.1 hx with hx | hx
            · exact h.all he p ⟨x, hx, a, b, c⟩
            · rw [List.mem_singleton.1 hx] at b; exact absurd b.symm hem
        · rw [aGet_aSet] at he
          by_cases hem : e = m.name
          · subst hem
            rw [if_pos rfl] at he
            injection he with he
            subst he
            apply h4
            cases hac : aGet acc m.name with
            | none => simp
            | some pr => exact h.nodup hac
          · rw [if_neg hem] at he
            exact h.nodup he
      have := ih (done ++ [m]) _ (fun x hx => hg x (List.mem_cons_of_mem _ hx)) this
      rw [List.append_assoc] at this
      exact this
  have h0 : EntitiesAre [] [] := by
    refine ⟨List.nodup_nil, fun e => ?_, fun {e props} he => ?_, fun {e props} he => ?_, fun {e props} he => ?_⟩
    · simp [IsEntity]
    all_goals cases he
  have := step (ms.filter fun m => !m.global) [] [] (fun m hm => by simpa using (List.mem_filter.1 hm).2) h0
  rw [List.nil_append] at this
  have hd : ∀ {e p}, Declares (ms.filter fun m => !m.global) e p ↔ Declares ms e p := by
    intro e p
    constructor
    · rintro ⟨x, hx, a, b⟩; exact ⟨x, (List.mem_filter.1 hx).1, a, b⟩
    · rintro ⟨x, hx, a, b⟩; exact ⟨x, List.mem_filter.2 ⟨hx, by simpa using a⟩, a, b⟩
  refine ⟨this.keys, fun e => (this.some_iff e).trans ?_, fun he p hp => hd.1 (this.declared he p hp), fun he p hp => this.all he p (hd.2 hp), this.nodup⟩
  constructor
  · rintro ⟨x, hx, a, b⟩; exact ⟨x, (List.mem_filter.1 hx).1, a, b⟩
  · rintro ⟨x, hx, a, b⟩; exact ⟨x, List.mem_filter.2 ⟨hx, by simpa using a⟩, a, b⟩

theorem globalsOf_get (hs : ∀ {p q : PProp}, DeclaresGlobal ms p → DeclaresGlobal ms q → p.name = q.name → p = q) {p : PProp}
    (h : DeclaresGlobal ms p) : aGet (globalsOf ms) p.name = some p := by
  unfold globalsOf
  have hmem : ∀ q, q ∈ (ms.filter fun m => m.global).flatMap DModel.props ↔ DeclaresGlobal ms q := by
    intro q
    rw [List.mem_flatMap]
    constructor
    · rintro ⟨m, hm, hq⟩; exact ⟨m, (List.mem_filter.1 hm).1, (List.mem_filter.1 hm).2, hq⟩
    · rintro ⟨m, hm, a, hq⟩; exact ⟨m, List.mem_filter.2 ⟨hm, a⟩, hq⟩
  have step : ∀ (l : List PProp) (acc : List (String × PProp)), (∀ q ∈ l, q.name = p.name → q = p) →
      (aGet acc p.name = some p ∨ (aGet acc p.name = none ∧ p ∈ l)) →
      aGet (l.foldl (fun acc p => if (aGet acc p.name).isSome then acc else aSet acc p.name p) acc) p.name = some p := by
    intro l
    induction l with
    | nil =>
      intro acc _ h
      rcases h with h | ⟨_, h⟩
      · exact h
      · cases h
    | cons q l ih =>
      intro acc hq h
      refine ih _ (fun q hm => hq q (List.mem_cons_of_mem _ hm)) ?_
      by_cases e : q.name = p.name
      · have := hq q (List.mem_cons_self ..) e
        subst this
        refine .inl ?_
        rcases h with h | ⟨h, _⟩
        · simp [h]
        · simp [h, aGet_aSet]
      · have hk : aGet (if (aGet acc q.name).isSome then acc else aSet acc q.name q) p.name = aGet acc p.name := by
          split
          · rfl
          · rw [aGet_aSet, if_neg (fun h => e h.symm)]
        rw [hk]
        rcases h with h | ⟨h, hm⟩
        · exact .inl h
        · rcases List.mem_cons.1 hm with hm | hm
          · exact absurd (by rw [hm]) e
          · exact .inr ⟨h, hm⟩
  refine step _ [] (fun q hq e => hs ((hmem q).1 hq) h e) (.inr ⟨rfl, (hmem p).2 h⟩)

/-! ## Roots -/

theorem mem_targets {f : PKind → Option String} {l : List DModel} {t : String} :
    t ∈ targetsOf f l ↔ ∃ m ∈ l, ∃ p ∈ m.props, f p.kind = some t := by
  unfold targetsOf
  simp [List.mem_flatMap, List.mem_filterMap]

theorem ref_iff {k : PKind} {t : String} : k.refTarget = some t ↔ k = .reference t := by
  cases k <;> simp [PKind.refTarget]
theorem rel_iff {k : PKind} {t : String} : k.relTarget = some t ↔ k = .relationship t := by
  cases k <;> simp [PKind.relTarget]

/-- Roots are the entities that no property leads to. -/
theorem C78_roots (ms : List DModel) (e : String) : e ∈ (classifyRoots ms).1 ↔ IsRoot ms e := by
  unfold classifyRoots IsRoot IsEntity Somewhere
  simp only [List.mem_filter, List.mem_map, Bool.not_eq_true', List.contains_eq_mem, decide_eq_false_iff_not, List.mem_append,
    mem_targets, ref_iff, rel_iff, Bool.and_eq_true, not_or]
  constructor
  · rintro ⟨⟨m, ⟨hm, hg⟩, rfl⟩, ⟨h1, h2⟩, h3⟩
    refine ⟨⟨m, hm, hg, rfl⟩, ?_, ?_⟩
    · rintro ⟨x, hx, p, hp, hk⟩
      cases hxg : x.global with
      | false => exact h1 ⟨x, ⟨hx, hxg⟩, p, hp, hk⟩
      | true => exact h3 ⟨⟨x, ⟨hx, hxg⟩, p, hp, hk⟩, h1, h2⟩
    · rintro ⟨x, hx, p, hp, hk⟩
      exact h2 ⟨x, hx, p, hp, hk⟩
  · rintro ⟨⟨m, hm, hg, rfl⟩, h1, h2⟩
    refine ⟨⟨m, ⟨hm, hg⟩, rfl⟩, ⟨?_, ?_⟩, ?_⟩
    · rintro ⟨x, ⟨hx, _⟩, p, hp, hk⟩; exact h1 ⟨x, hx, p, hp, hk⟩
    · rintro ⟨x, hx, p, hp, hk⟩; exact h2 ⟨x, hx, p, hp, hk⟩
    · rintro ⟨⟨x, ⟨hx, _⟩, p, hp, hk⟩, _⟩; exact h1 ⟨x, hx, p, hp, hk⟩

theorem C78_ref_targets (ms : List DModel) (t : String) : t ∈ (classifyRoots ms).2 ↔ Somewhere ms (.reference t) := by
  unfold classifyRoots Somewhere
  simp only [mem_targets, ref_iff]

/-- The validator sees the same kinds of properties, as long as properties declared twice are declared the same way. -/
theorem somewhere_visible (hs : ∀ {e : String} {p q : PProp}, Declares ms e p → Declares ms e q → p.name = q.name → p = q) (k : PKind) :
    Somewhere (visibleModels ms) k ↔ Somewhere ms k := by
  have hE := entitiesOf_are ms
  unfold visibleModels Somewhere
  constructor
  · rintro ⟨m, hm, p, hp, hk⟩
    rcases List.mem_append.1 hm with hm | hm
    · obtain ⟨⟨e, props⟩, he, rfl⟩ := List.mem_map.1 hm
      obtain ⟨x, hx, _, _, hp⟩ := hE.declared (aGet_of_mem hE.keys he) p hp
      exact ⟨x, hx, p, hp, hk⟩
    · exact ⟨m, (List.mem_filter.1 hm).1, p, hp, hk⟩
  · rintro ⟨m, hm, p, hp, hk⟩
    cases hg : m.global with
    | true => exact ⟨m, List.mem_append_right _ (List.mem_filter.2 ⟨hm, hg⟩), p, hp, hk⟩
    | false =>
      have hsm : (aGet (entitiesOf ms) m.name).isSome := (hE.some_iff _).2 ⟨m, hm, hg, rfl⟩
      cases hx : aGet (entitiesOf ms) m.name with
      | none => rw [hx] at hsm; cases hsm
      | some props =>
        obtain ⟨q, hq, e⟩ := hE.all hx p ⟨m, hm, hg, rfl, hp⟩
        have := hs (hE.declared hx q hq) ⟨m, hm, hg, rfl, hp⟩ e
        subst this
        exact ⟨⟨m.name, false, props⟩, List.mem_append_left _ (List.mem_map.2 ⟨(m.name, props), aGet_mem hx, rfl⟩), q, hq, hk⟩

theorem entity_visible (e : String) : IsEntity (visibleModels ms) e ↔ IsEntity ms e := by
  have hE := entitiesOf_are ms
  unfold visibleModels
  constructor
  · rintro ⟨m, hm, hg, rfl⟩
    rcases List.mem_append.1 hm with hm | hm
    · obtain ⟨⟨e, props⟩, he, rfl⟩ := List.mem_map.1 hm
      exact (hE.some_iff e).1 (by rw [aGet_of_mem hE.keys he]; rfl)
    · rw [(by simpa using (List.mem_filter.1 hm).2 : m.global = true)] at hg; cases hg
  · intro h
    have hsm := (hE.some_iff e).2 h
    cases hx : aGet (entitiesOf ms) e with
    | none => rw [hx] at hsm; cases hsm
    | some props => exact ⟨⟨e, false, props⟩, List.mem_append_left _ (List.mem_map.2 ⟨(e, props), aGet_mem hx, rfl⟩), rfl, rfl⟩

theorem visible_declared {x : Option String × PProp} (h : x ∈ visibleProps ms) :
    match x.1 with | some e => Declares ms e x.2 | none => DeclaresGlobal ms x.2 := by
  have : ∀ (l acc : List (Option String × PProp)), x ∈ l.foldl addVisible acc → x ∈ acc ∨ x ∈ l := by
    intro l
    induction l with
    | nil => intro acc h; exact .inl h
    | cons y l ih =>
      intro acc h
      rcases ih _ h with h | h
      · unfold addVisible at h
        split at h
        · exact .inl h
        · rcases List.mem_append.1 h with h | h
          · exact .inl h
          · exact .inr (by rw [List.mem_singleton.1 h]; exact List.mem_cons_self ..)
      · exact .inr (List.mem_cons_of_mem _ h)
  rcases this _ _ h with h | h
  · cases h
  · obtain ⟨m, hm, h⟩ := List.mem_flatMap.1 h
    obtain ⟨p, hp, rfl⟩ := List.mem_map.1 h
    cases hg : m.global with
    | true => exact ⟨m, hm, hg, hp⟩
    | false => exact ⟨m, hm, hg, rfl, hp⟩

theorem mem_onceEach {l : List String} {s : String} : s ∈ onceEach l ↔ s ∈ l := by
  induction l with
  | nil => simp [onceEach]
  | cons x l ih =>
    rw [onceEach]
    split
    · rename_i h
      rw [ih]
      have h : x ∈ l := by simpa using h
      constructor
      · exact List.mem_cons_of_mem _
      · intro hs
        exact (List.mem_cons.1 hs).elim (fun e => e ▸ h) id
    · rw [List.mem_cons, List.mem_cons, ih]

/-- Where the inputs come from: the properties of roots, globals, and the pools of what is referred to. -/
theorem input_from {keep : String → Bool} {i : String × VT} (h : i ∈ inputsOf ms D keep) :
    (∃ e p, IsRoot ms e ∧ Declares ms e p ∧ i = (e ++ "." ++ p.name, wireProp (entitiesOf ms) D (wireTop (entitiesOf ms) D) p)) ∨
    (∃ p, DeclaresGlobal ms p ∧ i = (p.name, wireProp (entitiesOf ms) D (wireTop (entitiesOf ms) D) p)) ∨
    (∃ t, Somewhere ms (.reference t) ∧ IsEntity ms t ∧ i = (t, .arr (wireTop (entitiesOf ms) D t))) := by
  unfold inputsOf at h
  rw [List.mem_mergeSort] at h
  obtain ⟨h, _⟩ := List.mem_filter.1 h
  rcases List.mem_append.1 h with h | h
  · obtain ⟨⟨s, p⟩, hx, rfl⟩ := List.mem_map.1 h
    obtain ⟨hx, hr⟩ := List.mem_filter.1 hx
    have hd := visible_declared hx
    cases s with
    | none => exact .inr (.inl ⟨p, hd, rfl⟩)
    | some e => exact .inl ⟨e, p, (C78_roots ms e).1 (by simpa using hr), hd, rfl⟩
  · obtain ⟨t, ht, rfl⟩ := List.mem_map.1 h
    obtain ⟨ht, he⟩ := List.mem_filter.1 ht
    exact .inr (.inr ⟨t, (C78_ref_targets ms t).1 (mem_onceEach.1 ht), ((entitiesOf_are ms).some_iff t).1 he, rfl⟩)

theorem pool_input {t : String} (h : Somewhere ms (.reference t)) (he : IsEntity ms t) {keep : String → Bool} (hk : keep t = true) :
    (t, VT.arr (wireTop (entitiesOf ms) D t)) ∈ inputsOf ms D keep := by
  unfold inputsOf
  rw [List.mem_mergeSort]
  refine List.mem_filter.2 ⟨List.mem_append_right _ (List.mem_map.2 ⟨t, List.mem_filter.2 ⟨?_, ?_⟩, rfl⟩), hk⟩
  · exact mem_onceEach.2 ((C78_ref_targets ms t).2 h)
  · exact ((entitiesOf_are ms).some_iff t).2 he

/-! ## The shape of the skeleton -/

/-- the entries of the skeleton, if the paths are names outside of `R` and names with a name in `R` before -/
def Shaped (R : String → Prop) (L : List (String × VT)) (m : List (String × Val)) : Prop :=
  ∀ k v, (k, v) ∈ m →
    (R k ∧ ∃ c, v = .obj c ∧ ∀ p w, (p, w) ∈ c → ∃ i ∈ L, splitDot i.1 = [k, p] ∧ w = defaultFor i.2) ∨
    (¬ R k ∧ ∃ i ∈ L, splitDot i.1 = [k] ∧ v = defaultFor i.2)

theorem shaped_fold {R : String → Prop} {L : List (String × VT)}
    (hL : ∀ i ∈ L, (∃ k, splitDot i.1 = [k] ∧ ¬ R k) ∨ ∃ e p, splitDot i.1 = [e, p] ∧ R e) :
    ∀ (l : List (String × VT)) (m : List (String × Val)), (∀ i ∈ l, i ∈ L) → Shaped R L m →
      Shaped R L (l.foldl (fun m i => skelInsert m (splitDot i.1) (defaultFor i.2)) m) ∧
      ∀ k, ((aGet m k).isSome ∨ ∃ i ∈ l, splitDot i.1 = [k]) →
        (aGet (l.foldl (fun m i => skelInsert m (splitDot i.1) (defaultFor i.2)) m) k).isSome
  | [], m, _, h => ⟨h, fun k hk => hk.elim id fun ⟨_, h, _⟩ => nomatch h⟩
  | i :: l, m, hl, h => by
    have hi := hl i (List.mem_cons_self ..)
    have step : Shaped R L (skelInsert m (splitDot i.1) (defaultFor i.2)) ∧ ∀ k, ((aGet m k).isSome ∨ splitDot i.1 = [k]) →
        (aGet (skelInsert m (splitDot i.1) (defaultFor i.2)) k).isSome := by
      rcases hL i hi with ⟨k, e, hk⟩ | ⟨r, p, e, hr⟩
      · rw [e, skelInsert]
        refine ⟨fun k' v hm => ?_, fun k' hk' => ?_⟩
        · rcases entry_aSet hm with hm | hm
          · injection hm with h1 h2
            subst h1; subst h2
            exact .inr ⟨hk, i, hi, e, rfl⟩
          · exact h k' v hm
        · rw [aGet_aSet]
          split
          · rfl
          · rename_i hne
            rcases hk' with hk' | hk'
            · exact hk'
            · injection hk' with hk'; exact absurd hk'.symm hne
      · rw [e, skelInsert]
        refine ⟨fun k' v hm => ?_, fun k' hk' => ?_⟩
        · rcases entry_aSet hm with hm | hm
          · injection hm with h1 h2
            subst h1; subst h2
            refine .inl ⟨hr, _, rfl, fun p' w hp => ?_⟩
            rw [skelInsert] at hp
            rcases entry_aSet hp with hp | hp
            · injection hp with h1 h2
              subst h1; subst h2
              exact ⟨i, hi, e, rfl⟩
            · cases hg : aGet m k' with
              | none => rw [hg] at hp; cases hp
              | some x =>
                rcases h k' x (aGet_mem hg) with ⟨_, c, rfl, hc⟩ | ⟨hn, _⟩
                · rw [hg] at hp; exact hc p' w hp
                · exact absurd hr hn
          · exact h k' v hm
        · rw [aGet_aSet]
          split
          · rfl
          · rcases hk' with hk' | hk'
            · exact hk'
            · injection hk' with _ hk'; cases hk'
    obtain ⟨h1, h2⟩ := shaped_fold hL l _ (fun i h => hl i (List.mem_cons_of_mem _ h)) step.1
    refine ⟨h1, fun k hk => h2 k ?_⟩
    rcases hk with hk | ⟨j, hj, e⟩
    · exact .inl (step.2 k (.inl hk))
    · rcases List.mem_cons.1 hj with rfl | hj
      · exact .inl (step.2 k (.inr e))
      · exact .inr ⟨j, hj, e⟩

theorem split_name {s : String} (h : '.' ∉ s.toList) : splitDot s = [s] := by
  unfold splitDot
  rw [splitDotC_whole _ h]
  simp

theorem split_two {e p : String} (he : '.' ∉ e.toList) (hp : '.' ∉ p.toList) : splitDot (e ++ "." ++ p) = [e, p] := by
  have : e ++ "." ++ p = dots [e, p] := by
    apply String.toList_inj.1
    simp [dots, List.intercalate]
  rw [this, splitDot_dots (by simp)]
  simp [split_name he, split_name hp]

theorem aGet_defaultFields (o : List (String × VT)) (k : String) : aGet (defaultFields o) k = (aGet o k).map defaultFor := by
  induction o with
  | nil => rfl
  | cons e o ih =>
    obtain ⟨k', t⟩ := e
    rw [defaultFields, aGet_cons, aGet_cons]
    split
    · rfl
    · exact ih

theorem declares_entity {e : String} {p : PProp} (h : Declares ms e p) : IsEntity ms e := by
  obtain ⟨m, hm, a, b, _⟩ := h
  exact ⟨m, hm, a, b⟩

theorem Neat.dotless (h : Neat ms) {e : String} (he : IsEntity ms e) : '.' ∉ e.toList := by
  obtain ⟨m, hm, a, rfl⟩ := he
  exact h.entityName m hm a

theorem Neat.dotlessP (h : Neat ms) {e : String} {p : PProp} (hd : Declares ms e p) : '.' ∉ p.name.toList := by
  obtain ⟨m, hm, _, _, hp⟩ := hd
  exact h.propName m hm p hp

theorem Neat.dotlessG (h : Neat ms) {p : PProp} (hd : DeclaresGlobal ms p) : '.' ∉ p.name.toList := by
  obtain ⟨m, hm, _, hp⟩ := hd
  exact h.propName m hm p hp

theorem Neat.roots (h : Neat ms) (e : String) : e ∈ (schemaOf ms D).roots ↔ IsRoot ms e := by
  rw [show (schemaOf ms D).roots = (classifyRoots (visibleModels ms)).1 from rfl, C78_roots]
  unfold IsRoot
  rw [entity_visible, somewhere_visible h.same, somewhere_visible h.same]

theorem Neat.refs (h : Neat ms) (t : String) : t ∈ (schemaOf ms D).refTargets ↔ Somewhere ms (.reference t) := by
  rw [show (schemaOf ms D).refTargets = (classifyRoots (visibleModels ms)).2 from rfl, C78_ref_targets, somewhere_visible h.same]

theorem Neat.paths (h : Neat ms) {keep : String → Bool} (i : String × VT) (hi : i ∈ inputsOf ms D keep) :
    (∃ k, splitDot i.1 = [k] ∧ ¬ IsRoot ms k) ∨ ∃ e p, splitDot i.1 = [e, p] ∧ IsRoot ms e := by
  rcases input_from hi with ⟨e, p, hr, hd, rfl⟩ | ⟨p, hd, rfl⟩ | ⟨t, ht, he, rfl⟩
  · exact .inr ⟨e, p.name, split_two (h.dotless hr.1) (h.dotlessP hd), hr⟩
  · exact .inl ⟨p.name, split_name (h.dotlessG hd), fun hr => h.free hd hr.1⟩
  · exact .inl ⟨t, split_name (h.dotless he), fun hr => hr.2.2 ht⟩

/-- The skeleton of the inputs passes the validation of inputs. -/
theorem C78_valid (h : Orderly ms) (D : List (String × List String)) : validateInput (schemaOf ms D) (skeleton ms D fun _ => true) = [] := by
  have hE := entitiesOf_are ms
  have hname : ∀ {e : String}, IsEntity ms e → '.' ∉ e.toList := h.dotless
  have hprop : ∀ {e : String} {p : PProp}, Declares ms e p → '.' ∉ p.name.toList := h.dotlessP
  have hglob : ∀ {p : PProp}, DeclaresGlobal ms p → '.' ∉ p.name.toList := h.dotlessG
  have hroots : ∀ e, e ∈ (schemaOf ms D).roots ↔ IsRoot ms e := h.roots
  have hrefs : ∀ t, t ∈ (schemaOf ms D).refTargets ↔ Somewhere ms (.reference t) := h.refs
  have hrefE : ∀ {t}, Somewhere ms (.reference t) → IsEntity ms t := by
    intro t ht
    obtain ⟨q, hq, _⟩ := h.ids ht
    exact declares_entity hq
  -- the shape
  obtain ⟨hshape, hkeys⟩ := shaped_fold h.paths (inputsOf ms D fun _ => true) [] (fun i hi => hi) (fun k v hm => nomatch hm)
  rw [skeleton, skeletonOf]
  generalize hm : (inputsOf ms D fun _ => true).foldl (fun m i => skelInsert m (splitDot i.1) (defaultFor i.2)) [] = m at hshape hkeys ⊢
  -- the pools
  have hpool : ∀ t, Somewhere ms (.reference t) → aGet m t = some (.arr [defaultFor (wireTop (entitiesOf ms) D t)]) := by
    intro t ht
    have hs := hkeys t (.inr ⟨_, pool_input ht (hrefE ht) rfl, split_name (hname (hrefE ht))⟩)
    cases hg : aGet m t with
    | none => rw [hg] at hs; cases hs
    | some v =>
      rcases hshape t v (aGet_mem hg) with ⟨hr, _⟩ | ⟨_, i, hi, e, rfl⟩
      · exact absurd ht hr.2.2
      · rcases input_from hi with ⟨e', p, hr, hd, rfl⟩ | ⟨p, hd, rfl⟩ | ⟨u, hu, he, rfl⟩
        · rw [split_two (hname hr.1) (hprop hd)] at e
          cases e
        · rw [split_name (hglob hd)] at e
          injection e with e
          exact absurd (hrefE ht) (e ▸ h.free hd)
        · rw [split_name (hname he)] at e
          injection e with e
          subst e
          rw [defaultFor]
  have hcontains : ∀ t, Somewhere ms (.reference t) → poolContains (poolsOf (.obj m) (schemaOf ms D).refTargets) t "" = true := by
    intro t ht
    rw [poolContains_iff]
    refine ⟨(hrefs t).2 ht, [defaultFor (wireTop (entitiesOf ms) D t)], ?_, _, List.mem_singleton.2 rfl, ?_⟩
    · rw [Val.dot, split_name (hname (hrefE ht)), Val.dotP, hpool t ht]
      rfl
    · obtain ⟨q, hq, hn, ha, hk⟩ := h.ids ht
      cases hx : aGet (entitiesOf ms) t with
      | none =>
        have := (hE.some_iff t).2 (hrefE ht)
        rw [hx] at this; cases this
      | some props =>
        obtain ⟨q', hq', e⟩ := hE.all hx q hq
        have := h.same (hE.declared hx q' hq') hq e
        subst this
        rw [wireTop, wireObj, if_neg (by simp), hx]
        dsimp only
        rw [defaultFor, Val.dot, split_name (by decide), Val.dotP, aGet_defaultFields,
          aGet_ofEntries (v := wireProp (entitiesOf ms) D (wireObj (entitiesOf ms) D (entitiesOf ms).length [t]) q')
            (List.mem_map.2 ⟨q', hq', by rw [hn]⟩)
            (by
              rintro e he hen
              obtain ⟨p, hp, rfl⟩ := List.mem_map.1 he
              rw [h.same (hE.declared hx p hp) hq (hen.trans hn.symm)])]
        unfold wireProp
        rw [ha]
        rcases hk with hk | hk | ⟨u, hk⟩ <;> rw [hk] <;> rfl
  -- the entries
  have hentRef : ∀ t props, aGet (schemaOf ms D).entities t = some props → ∀ p ∈ props, ∀ u, p.kind = .reference u →
      poolContains (poolsOf (.obj m) (schemaOf ms D).refTargets) u "" = true := by
    intro t props hx p hp u hk
    obtain ⟨x, hx, _, _, hp⟩ := hE.declared hx p hp
    exact hcontains u ⟨x, hx, p, hp, hk⟩
  have hrem : ∀ V, remaining (schemaOf ms D).entities V ≤ 30 := fun V => Nat.le_trans (List.length_filter_le ..) h.few
  have hremE : ∀ V, remaining (schemaOf ms D).entities V < (entitiesOf ms).length + 1 := fun V =>
    Nat.lt_succ_of_le (List.length_filter_le ..)
  have hobj : ∀ n, 30 < n → ∀ t, Fine (fun v path => validateEntity (schemaOf ms D) (poolsOf (.obj m) (schemaOf ms D).refTargets) n v t path)
      (defaultFor (wireTop (entitiesOf ms) D t)) := fun n hn t =>
    fine_obj (S := schemaOf ms D) (fun t props hx => hE.nodup hx) hentRef _ n [] t (Nat.lt_of_le_of_lt (hrem _) hn) (hremE _)
  unfold validateInput
  dsimp only
  rw [List.flatMap_eq_nil_iff]
  rintro ⟨k, v⟩ hkv
  dsimp only
  unfold validateTop
  split
  · rfl
  rename_i hnull
  rcases hshape k v hkv with ⟨hr, c, rfl, hc⟩ | ⟨hnr, i, hi, e, rfl⟩
  · -- a root
    rw [if_neg (by simpa using fun hm => hr.2.2 ((hrefs k).1 hm)), if_pos (by simpa using (hroots k).2 hr)]
    cases hx : aGet (entitiesOf ms) k with
    | none =>
      have := (hE.some_iff k).2 hr.1
      rw [hx] at this; cases this
    | some props =>
      show validateEntity (schemaOf ms D) _ (31 + 1) (.obj c) k k = []
      rw [validateEntity, show aGet (schemaOf ms D).entities k = some props from hx]
      dsimp only
      have hall : ∀ e ∈ c, validateEntry (validateProp (schemaOf ms D) (poolsOf (.obj m) (schemaOf ms D).refTargets)
          (validateEntity (schemaOf ms D) (poolsOf (.obj m) (schemaOf ms D).refTargets) 31)) props k e.1 e.2 = [] := by
        rintro ⟨pn, w⟩ he
        obtain ⟨i, hi, e, rfl⟩ := hc pn w he
        rcases input_from hi with ⟨e', p, hr', hd, rfl⟩ | ⟨p, hd, rfl⟩ | ⟨u, hu, he', rfl⟩
        · rw [split_two (hname hr'.1) (hprop hd)] at e
          injection e with e1 e2
          injection e2 with e2
          subst e1
          unfold validateEntry
          split
          · rfl
          · rename_i hn
            cases hf : props.find? (fun q => q.name == pn) with
            | none => rfl
            | some q =>
              have hqn : q.name = pn := by simpa using List.find?_some hf
              have hqd := hE.declared hx q (List.mem_of_find?_eq_some hf)
              have : q = p := h.same hqd hd (hqn.trans e2.symm)
              subst this
              have := fine_prop (S := schemaOf ms D) (p := q) (fun t hk => by
                obtain ⟨x, hx, _, _, hp⟩ := hqd
                exact hcontains t ⟨x, hx, q, hp, hk⟩) (hobj 31 (by omega))
              rcases this with this | this
              · exact absurd this hn
              · exact this _
        · rw [split_name (hglob hd)] at e
          injection e with _ e; cases e
        · rw [split_name (hname he')] at e
          injection e with _ e; cases e
      clear hc hkv hnull
      induction c with
      | nil => rfl
      | cons e c ih =>
        obtain ⟨pn, w⟩ := e
        rw [validateEntries, hall (pn, w) (List.mem_cons_self ..), ih fun e he => hall e (List.mem_cons_of_mem _ he)]
        rfl
  · rcases input_from hi with ⟨e', p, hr, hd, rfl⟩ | ⟨p, hd, rfl⟩ | ⟨t, ht, he, rfl⟩
    · rw [split_two (hname hr.1) (hprop hd)] at e
      cases e
    · -- a global
      rw [split_name (hglob hd)] at e
      injection e with e
      subst e
      rw [if_neg (by simpa using fun hm => h.free hd (hrefE ((hrefs _).1 hm))), if_neg (by simpa using fun hm => hnr ((hroots _).1 hm))]
      rw [show aGet (schemaOf ms D).globals p.name = some p from globalsOf_get h.sameGlobal hd]
      dsimp only
      have := fine_prop (S := schemaOf ms D) (p := p) (fun t hk => by
        obtain ⟨x, hx, _, hp⟩ := hd
        exact hcontains t ⟨x, hx, p, hp, hk⟩) (hobj maxDepth (by decide))
      rcases this with this | this
      · exact absurd this hnull
      · exact this _
    · -- a pool
      rw [split_name (hname he)] at e
      injection e with e
      subst e
      rw [if_pos (by simpa using (hrefs _).2 ht), defaultFor]
      unfold validateArrayOfEntity
      simp only [validateItems, List.append_nil]
      split
      · rfl
      · rename_i hn
        rcases hobj maxDepth (by decide) t with this | this
        · exact absurd this hn
        · exact this _

/-! ## What is in it -/

theorem visible_all {x : Option String × PProp} (h : match x.1 with | some e => Declares ms e x.2 | none => DeclaresGlobal ms x.2) :
    ∃ y ∈ visibleProps ms, y.1 = x.1 ∧ y.2.name = x.2.name := by
  have : ∀ (l acc : List (Option String × PProp)), (∃ y ∈ acc, y.1 = x.1 ∧ y.2.name = x.2.name) ∨ x ∈ l →
      ∃ y ∈ l.foldl addVisible acc, y.1 = x.1 ∧ y.2.name = x.2.name := by
    intro l
    induction l with
    | nil =>
      intro acc h
      rcases h with h | h
      · exact h
      · cases h
    | cons z l ih =>
      intro acc h
      refine ih _ ?_
      rcases h with ⟨y, hy, e⟩ | h
      · refine .inl ⟨y, ?_, e⟩
        unfold addVisible
        split
        · exact hy
        · exact List.mem_append_left _ hy
      · rcases List.mem_cons.1 h with rfl | h
        · refine .inl ?_
          unfold addVisible
          split
          · rename_i ha
            obtain ⟨y, hy, e⟩ := List.any_eq_true.1 ha
            simp only [Bool.and_eq_true, beq_iff_eq] at e
            exact ⟨y, hy, e⟩
          · exact ⟨x, List.mem_append_right _ (List.mem_singleton.2 rfl), rfl, rfl⟩
        · exact .inr h
  refine this _ _ (.inr ?_)
  obtain ⟨s, p⟩ := x
  cases s with
  | none =>
    obtain ⟨m, hm, hg, hp⟩ := h
    exact List.mem_flatMap.2 ⟨m, hm, List.mem_map.2 ⟨p, hp, by simp [hg]⟩⟩
  | some e =>
    obtain ⟨m, hm, hg, rfl, hp⟩ := h
    exact List.mem_flatMap.2 ⟨m, hm, List.mem_map.2 ⟨p, hp, by simp [hg]⟩⟩

/-- The inputs of a policy, exactly: each property of an entity that no property leads to, each global, and for each entity that is
referred to, the list of such entities. -/
theorem C78_inputs (h : Neat ms) (D : List (String × List String)) (keep : String → Bool) (i : String × VT) :
    i ∈ inputsOf ms D keep ↔ keep i.1 = true ∧
      ((∃ e p, IsRoot ms e ∧ Declares ms e p ∧ i = (e ++ "." ++ p.name, wireProp (entitiesOf ms) D (wireTop (entitiesOf ms) D) p)) ∨
      (∃ p, DeclaresGlobal ms p ∧ i = (p.name, wireProp (entitiesOf ms) D (wireTop (entitiesOf ms) D) p)) ∨
      (∃ t, Somewhere ms (.reference t) ∧ IsEntity ms t ∧ i = (t, .arr (wireTop (entitiesOf ms) D t)))) := by
  constructor
  · intro hi
    refine ⟨?_, ?_⟩
    · unfold inputsOf at hi
      rw [List.mem_mergeSort] at hi
      exact (List.mem_filter.1 hi).2
    · exact input_from hi
  · rintro ⟨hk, ⟨e, p, hr, hd, rfl⟩ | ⟨p, hd, rfl⟩ | ⟨t, ht, he, rfl⟩⟩
    · obtain ⟨⟨s, q⟩, hy, e1, e2⟩ := visible_all (x := (some e, p)) hd
      dsimp only at e1 e2
      subst e1
      have := h.same (visible_declared hy) hd e2
      dsimp only at this
      subst this
      unfold inputsOf
      rw [List.mem_mergeSort]
      refine List.mem_filter.2 ⟨List.mem_append_left _ (List.mem_map.2 ⟨(some e, q), List.mem_filter.2 ⟨hy, ?_⟩, rfl⟩), hk⟩
      simpa using (C78_roots ms e).2 hr
    · obtain ⟨⟨s, q⟩, hy, e1, e2⟩ := visible_all (x := (none, p)) hd
      dsimp only at e1 e2
      subst e1
      have := h.sameGlobal (visible_declared hy) hd e2
      dsimp only at this
      subst this
      unfold inputsOf
      rw [List.mem_mergeSort]
      exact List.mem_filter.2 ⟨List.mem_append_left _ (List.mem_map.2 ⟨(none, q), List.mem_filter.2 ⟨hy, rfl⟩, rfl⟩), hk⟩
    · exact pool_input ht he hk

theorem skel_detached : ∀ (p : List String) (m : List (String × Val)) (v : Val), p ≠ [] →
    dotInsertDetachedP (.obj m) p v = some (.obj (skelInsert m p v))
  | [], _, _, h => absurd rfl h
  | [k], m, v, _ => by rw [dotInsertDetachedP, skelInsert]
  | k :: k' :: ks, m, v, _ => by
    have : detachChild (aGet m k) = .obj (childOf (aGet m k)) := by
      cases aGet m k with
      | none => rfl
      | some x => cases x <;> rfl
    rw [dotInsertDetachedP, skelInsert, this, skel_detached (k' :: ks) _ v (by simp)]

/-- Any inputs: at the path of an input there is the default of its type, if no other path is a part of it or goes on from it. -/
theorem C78_at (l : List (String × VT)) {i : String × VT} (hi : i ∈ l)
    (h : ∀ j ∈ l, Independent (splitDot j.1) (splitDot i.1) ∨ (splitDot j.1 = splitDot i.1 ∧ defaultFor j.2 = defaultFor i.2)) :
    (skeletonOf l).dot i.1 = some (defaultFor i.2) := by
  have : ∀ (l : List (String × VT)) (m : List (String × Val)),
      (∀ j ∈ l, Independent (splitDot j.1) (splitDot i.1) ∨ (splitDot j.1 = splitDot i.1 ∧ defaultFor j.2 = defaultFor i.2)) →
      (dotP (.obj m) (splitDot i.1) = some (defaultFor i.2) ∨ i ∈ l) →
      dotP (.obj (l.foldl (fun m i => skelInsert m (splitDot i.1) (defaultFor i.2)) m)) (splitDot i.1) = some (defaultFor i.2) := by
    intro l
    induction l with
    | nil =>
      intro m _ h
      rcases h with h | h
      · exact h
      · cases h
    | cons j l ih =>
      intro m hj h
      refine ih _ (fun x hx => hj x (List.mem_cons_of_mem _ hx)) ?_
      have hr := (C04_detached_read (.obj m) (splitDot j.1) (defaultFor j.2) (splitDot_ne_nil j.1)).2 _
        (skel_detached _ m (defaultFor j.2) (splitDot_ne_nil j.1))
      have hsame : splitDot j.1 = splitDot i.1 ∧ defaultFor j.2 = defaultFor i.2 →
          dotP (.obj (skelInsert m (splitDot j.1) (defaultFor j.2))) (splitDot i.1) = some (defaultFor i.2) := by
        rintro ⟨e1, e2⟩
        have := hr.1 []
        rw [List.append_nil, dotP] at this
        rw [← e1, this, e2]
      rcases h with h | h
      · rcases hj j (List.mem_cons_self ..) with hd | hd
        · exact .inl ((hr.2 _ hd).trans h)
        · exact .inl (hsame hd)
      · rcases List.mem_cons.1 h with rfl | h
        · exact .inl (hsame ⟨rfl, rfl⟩)
        · exact .inr h
  exact this l [] h (.inr hi)

/-- The skeleton has the default of its type at the path of every input. -/
theorem C78_present (h : Neat ms) (D : List (String × List String)) (keep : String → Bool) {i : String × VT}
    (hi : i ∈ inputsOf ms D keep) : (skeleton ms D keep).dot i.1 = some (defaultFor i.2) := by
  have hname : ∀ {e : String}, IsEntity ms e → '.' ∉ e.toList := h.dotless
  have hprop : ∀ {e : String} {p : PProp}, Declares ms e p → '.' ∉ p.name.toList := h.dotlessP
  have hglob : ∀ {p : PProp}, DeclaresGlobal ms p → '.' ∉ p.name.toList := h.dotlessG
  have one : ∀ {a b : String}, a ≠ b → Independent [a] [b] := fun hab => ⟨by simpa using hab, by simpa using Ne.symm hab⟩
  have oneTwo : ∀ {a b c : String}, a ≠ b → Independent [a] [b, c] ∧ Independent [b, c] [a] := fun hab =>
    ⟨⟨by simpa using hab, by simp⟩, ⟨by simp, by simpa using hab⟩⟩
  refine C78_at _ hi fun j hj => ?_
  rcases input_from hi with ⟨e, p, hr, hd, rfl⟩ | ⟨p, hd, rfl⟩ | ⟨t, ht, he, rfl⟩ <;>
    rcases input_from hj with ⟨e', q, hr', hd', rfl⟩ | ⟨q, hd', rfl⟩ | ⟨u, hu, he', rfl⟩ <;> dsimp only
  · rw [split_two (hname hr.1) (hprop hd), split_two (hname hr'.1) (hprop hd')]
    by_cases hx : e' = e ∧ q.name = p.name
    · obtain ⟨rfl, hn⟩ := hx
      rw [h.same hd' hd hn]
      exact .inr ⟨rfl, rfl⟩
    · refine .inl ⟨?_, ?_⟩
      · simpa using hx
      · simpa using fun a b => hx ⟨a.symm, b.symm⟩
  · rw [split_two (hname hr.1) (hprop hd), split_name (hglob hd')]
    refine .inl (oneTwo ?_).1
    exact fun x => h.free hd' (x ▸ hr.1)
  · rw [split_two (hname hr.1) (hprop hd), split_name (hname he')]
    refine .inl (oneTwo ?_).1
    exact fun x => hr.2.2 (x ▸ hu)
  · rw [split_two (hname hr'.1) (hprop hd'), split_name (hglob hd)]
    refine .inl (oneTwo ?_).2
    exact fun x => h.free hd (x ▸ hr'.1)
  · rw [split_name (hglob hd), split_name (hglob hd')]
    by_cases hx : q.name = p.name
    · rw [h.sameGlobal hd' hd hx]
      exact .inr ⟨rfl, rfl⟩
    · exact .inl (one hx)
  · rw [split_name (hglob hd), split_name (hname he')]
    exact .inl (one fun x => h.free hd (x ▸ he'))
  · rw [split_two (hname hr'.1) (hprop hd'), split_name (hname he)]
    refine .inl (oneTwo ?_).2
    exact fun x => hr'.2.2 (x ▸ ht)
  · rw [split_name (hglob hd'), split_name (hname he)]
    exact .inl (one fun x => h.free hd' (x ▸ he))
  · rw [split_name (hname he), split_name (hname he')]
    by_cases hx : u = t
    · subst hx
      exact .inr ⟨rfl, rfl⟩
    · exact .inl (one hx)

/-- Nothing else is in the skeleton: an entry is of an entity that no property leads to, and then its entries are of inputs; or it is
of an input. -/
theorem C78_only (h : Neat ms) (D : List (String × List String)) (keep : String → Bool) : ∃ m, skeleton ms D keep = .obj m ∧
    ∀ k v, (k, v) ∈ m →
      (IsRoot ms k ∧ ∃ c, v = .obj c ∧ ∀ p w, (p, w) ∈ c → ∃ T, (k ++ "." ++ p, T) ∈ inputsOf ms D keep ∧ w = defaultFor T) ∨
      (¬ IsRoot ms k ∧ ∃ T, (k, T) ∈ inputsOf ms D keep ∧ v = defaultFor T) := by
  obtain ⟨hshape, _⟩ := shaped_fold h.paths (inputsOf ms D keep) [] (fun i hi => hi) (fun k v hm => nomatch hm)
  refine ⟨_, rfl, fun k v hm => ?_⟩
  have hpath : ∀ i ∈ inputsOf ms D keep, (∀ k, splitDot i.1 = [k] → i.1 = k) ∧ ∀ e p, splitDot i.1 = [e, p] → i.1 = e ++ "." ++ p := by
    intro i hi
    rcases input_from hi with ⟨e, p, hr, hd, rfl⟩ | ⟨p, hd, rfl⟩ | ⟨t, ht, he, rfl⟩
    · rw [split_two (h.dotless hr.1) (h.dotlessP hd)]
      refine ⟨fun k e => (by cases e), fun a b e => ?_⟩
      injection e with e1 e2
      injection e2 with e2
      rw [← e1, ← e2]
    · rw [split_name (h.dotlessG hd)]
      exact ⟨fun k e => by injection e, fun a b e => (by cases e)⟩
    · rw [split_name (h.dotless he)]
      exact ⟨fun k e => by injection e, fun a b e => (by cases e)⟩
  rcases hshape k v hm with ⟨hr, c, e, hc⟩ | ⟨hr, ⟨i1, i2⟩, hi, e, hv⟩
  · refine .inl ⟨hr, c, e, fun p w hp => ?_⟩
    obtain ⟨⟨i1, i2⟩, hi, e, hw⟩ := hc p w hp
    have := (hpath _ hi).2 _ _ e
    dsimp only at this
    subst this
    exact ⟨i2, hi, hw⟩
  · have := (hpath _ hi).1 _ e
    dsimp only at this
    subst this
    exact .inr ⟨hr, i2, hi, hv⟩

/-! ## Types of the defaults -/

/-- there is no default of the type: an interval or an enumeration without values is needed -/
inductive Lacks : VT → Prop
  | interval : Lacks .interval
  | enum {n} : Lacks (.enum n [])
  | arr {t} : Lacks t → Lacks (.arr t)
  | obj {o k t} : (k, t) ∈ o → Lacks t → Lacks (.obj o)

/-- Whether the default of a type has the type. -/
theorem C78_fits {T : VT} (hw : VT.WF T) : VT.Inh T (defaultFor T) ↔ ¬ Lacks T := by
  induction hw with
  | any => exact ⟨fun _ h => (nomatch h), fun _ => trivial⟩
  | null => exact ⟨fun _ h => (nomatch h), fun _ => rfl⟩
  | bool => exact ⟨fun _ h => (nomatch h), fun _ => ⟨false, rfl⟩⟩
  | string => exact ⟨fun _ h => (nomatch h), fun _ => ⟨"", rfl⟩⟩
  | number => exact ⟨fun _ h => (nomatch h), fun _ => ⟨0, rfl⟩⟩
  | date => exact ⟨fun _ h => (nomatch h), fun _ => .inl ⟨"", rfl⟩⟩
  | interval => exact ⟨fun ⟨_, _, _, _, h⟩ => (nomatch h), fun h => absurd Lacks.interval h⟩
  | @arr t _ ih =>
    rw [defaultFor, VT.Inh]
    constructor
    · rintro ⟨xs, e, h⟩ hl
      injection e with e
      subst e
      cases hl with
      | arr hl => exact ih.1 (h _ (List.mem_singleton.2 rfl)) hl
    · intro h
      refine ⟨_, rfl, fun x hx => ?_⟩
      rw [List.mem_singleton.1 hx]
      exact ih.2 fun hl => h (.arr hl)
  | @obj o hn _ ih =>
    rw [defaultFor, VT.Inh]
    have hget : ∀ k t, (k, t) ∈ o → (aGet (defaultFields o) k).getD .null = defaultFor t := by
      intro k t hm
      rw [aGet_defaultFields, aGet_of_mem hn hm]
      rfl
    constructor
    · rintro ⟨fs, e, h⟩ hl
      injection e with e
      subst e
      rw [VT.inhFields_iff] at h
      cases hl with
      | obj hm hl =>
        have := h _ _ hm
        rw [hget _ _ hm] at this
        exact (ih _ _ hm).1 this hl
    · intro h
      refine ⟨_, rfl, (VT.inhFields_iff ..).2 fun k t hm => ?_⟩
      rw [hget _ _ hm]
      exact (ih _ _ hm).2 fun hl => h (.obj hm hl)
  | const => exact ⟨fun _ h => (nomatch h), fun _ => rfl⟩
  | @enum n vs =>
    cases vs with
    | nil => exact ⟨fun ⟨_, h, _⟩ => (nomatch h), fun h => absurd Lacks.enum h⟩
    | cons v vs => exact ⟨fun _ h => (nomatch h), fun _ => ⟨v, List.mem_cons_self .., rfl⟩⟩
  | nullable => exact ⟨fun _ h => (nomatch h), fun _ => .inl rfl⟩

theorem keys_ofEntries {V : Type} (l : List (String × V)) : (aKeys (ofEntries l)).Nodup := by
  have : ∀ (l acc : List (String × V)), (aKeys acc).Nodup → (aKeys (l.foldl (fun acc e => aSet acc e.1 e.2) acc)).Nodup := by
    intro l
    induction l with
    | nil => intro acc h; exact h
    | cons e l ih => intro acc h; exact ih _ (aKeys_aSet_nodup _ _ h)
  exact this l [] (by simp [aKeys])

/-- every enumeration has values -/
def Valued (ms : List DModel) (D : List (String × List String)) : Prop := ¬ Somewhere ms (.enum []) ∧ ∀ d ∈ D, d.2 ≠ []

theorem wireProp_ok {E : List (String × List PProp)} {obj : String → VT} (hD : ∀ d ∈ D, d.2 ≠ []) {p : PProp} (hp : p.kind ≠ .enum [])
    (hobj : ∀ t, VT.WF (obj t) ∧ ¬ Lacks (obj t)) : VT.WF (wireProp E D obj p) ∧ ¬ Lacks (wireProp E D obj p) := by
  have key : ∀ T, VT.WF T ∧ ¬ Lacks T → VT.WF (if p.array then .arr T else T) ∧ ¬ Lacks (if p.array then .arr T else T) := by
    rintro T ⟨h1, h2⟩
    cases p.array with
    | false => exact ⟨h1, h2⟩
    | true => exact ⟨.arr h1, fun | .arr h => h2 h⟩
  unfold wireProp
  refine key _ ?_
  cases hk : p.kind with
  | string => exact ⟨.string, fun h => nomatch h⟩
  | enum vs => exact ⟨.enum, fun h => by cases h; exact hp hk⟩
  | number => exact ⟨.number, fun h => nomatch h⟩
  | boolean => exact ⟨.bool, fun h => nomatch h⟩
  | date => exact ⟨.string, fun h => nomatch h⟩
  | reference t => exact ⟨.string, fun h => nomatch h⟩
  | relationship t =>
    dsimp only
    split
    · rename_i vs _ hd
      exact ⟨.enum, fun h => by cases h; exact hD _ (aGet_mem hd) rfl⟩
    · exact hobj t

theorem wireObj_ok {E : List (String × List PProp)} (hD : ∀ d ∈ D, d.2 ≠ []) (hE : ∀ e props, aGet E e = some props → ∀ p ∈ props, p.kind ≠ .enum []) :
    ∀ (n : Nat) (V : List String) (t : String), VT.WF (wireObj E D n V t) ∧ ¬ Lacks (wireObj E D n V t)
  | 0, _, _ => ⟨.any, fun h => nomatch h⟩
  | n + 1, V, t => by
    rw [wireObj]
    split
    · exact ⟨.any, fun h => nomatch h⟩
    · cases hx : aGet E t with
      | none => exact ⟨.obj (by simp [aKeys]) (fun _ _ h => nomatch h), fun | .obj h _ => nomatch h⟩
      | some props =>
        have hf : ∀ k T, (k, T) ∈ ofEntries (props.map fun p => (p.name, wireProp E D (wireObj E D n (t :: V)) p)) → VT.WF T ∧ ¬ Lacks T := by
          intro k T hm
          obtain ⟨p, hp, e⟩ := List.mem_map.1 (mem_ofEntries hm)
          injection e with _ e
          rw [← e]
          exact wireProp_ok hD (hE _ _ hx p hp) fun u => wireObj_ok hD hE n _ u
        exact ⟨.obj (keys_ofEntries _) fun k T hm => (hf k T hm).1, fun | .obj hm hl => (hf _ _ hm).2 hl⟩

/-- The default that the skeleton has for an input has the type that the input is listed with, if every enumeration has values. -/
theorem C78_inputs_fit (hv : Valued ms D) {keep : String → Bool} {i : String × VT} (hi : i ∈ inputsOf ms D keep) :
    VT.Inh i.2 (defaultFor i.2) := by
  have hobj := wireObj_ok (E := entitiesOf ms) hv.2 (fun e props hx p hp hk => by
    obtain ⟨m, hm, _, _, hp⟩ := (entitiesOf_are ms).declared hx p hp
    exact hv.1 ⟨m, hm, p, hp, hk⟩)
  have ok : VT.WF i.2 ∧ ¬ Lacks i.2 := by
    rcases input_from hi with ⟨e, p, hr, ⟨m, hm, _, _, hp⟩, rfl⟩ | ⟨p, ⟨m, hm, _, hp⟩, rfl⟩ | ⟨t, ht, he, rfl⟩
    · exact wireProp_ok hv.2 (fun hk => hv.1 ⟨m, hm, p, hp, hk⟩) fun u => hobj _ _ u
    · exact wireProp_ok hv.2 (fun hk => hv.1 ⟨m, hm, p, hp, hk⟩) fun u => hobj _ _ u
    · exact ⟨.arr (hobj _ _ t).1, fun | .arr h => (hobj _ _ t).2 h⟩
  exact (C78_fits ok.1).2 ok.2

/-! ## Types of entities -/

theorem wire_fuel {E : List (String × List PProp)} : ∀ (n n' : Nat) (V : List String) (t : String), remaining E V < n → remaining E V < n' →
    wireObj E D n V t = wireObj E D n' V t
  | 0, _, _, _, h, _ => absurd h (Nat.not_lt_zero _)
  | _ + 1, 0, _, _, _, h => absurd h (Nat.not_lt_zero _)
  | n + 1, n' + 1, V, t, h, h' => by
    rw [wireObj, wireObj]
    split
    · rfl
    · rename_i hv
      cases hx : aGet E t with
      | none => rfl
      | some props =>
        have hlt := remaining_lt (aGet_mem hx) (V := V) (by simpa using hv)
        have : wireObj E D n (t :: V) = wireObj E D n' (t :: V) := funext fun u =>
          wire_fuel n n' (t :: V) u (by omega) (by omega)
        rw [this]

/-- the type of an entity, below the entities `V` -/
def wire (E : List (String × List PProp)) (D : List (String × List String)) (V : List String) (t : String) : VT :=
  wireObj E D (remaining E V + 1) V t

/-- The type of an entity is the object of the types of its properties, where an entity inside of itself is anything: there is no bound
on how deep entities are in one another. -/
theorem C78_entity_type (E : List (String × List PProp)) (D : List (String × List String)) :
    (∀ t, wireTop E D t = wire E D [] t) ∧
    ∀ V t, (t ∈ V → wire E D V t = .any) ∧ (t ∉ V → aGet E t = none → wire E D V t = .obj []) ∧
      ∀ props, t ∉ V → aGet E t = some props → wire E D V t = .obj (ofEntries (props.map fun p => (p.name, wireProp E D (wire E D (t :: V)) p))) := by
  refine ⟨fun t => wire_fuel _ _ _ _ (Nat.lt_succ_of_le (List.length_filter_le ..)) (Nat.lt_succ_self _), fun V t => ⟨fun h => ?_, fun h e => ?_,
    fun props h e => ?_⟩⟩
  · rw [wire, wireObj, if_pos (by simpa using h)]
  · rw [wire, wireObj, if_neg (by simpa using h), e]
  · rw [wire, wireObj, if_neg (by simpa using h), e]
    have hlt := remaining_lt (aGet_mem e) h
    have : wireObj E D (remaining E V) (t :: V) = wire E D (t :: V) := funext fun u =>
      wire_fuel _ _ (t :: V) u (by omega) (Nat.lt_succ_self _)
    rw [this]

/-! ## Findings -/

/-- A reference of an entity that no property leads to: the skeleton passes only if it has the pool, with an entity that has an id. -/
theorem ref_needs (h : Neat ms) {keep : String → Bool} {e t : String} {p : PProp} (hr : IsRoot ms e) (hd : Declares ms e p)
    (hk : p.kind = .reference t) (ha : p.array = false) (hkeep : keep (e ++ "." ++ p.name) = true)
    (hval : validateInput (schemaOf ms D) (skeleton ms D keep) = []) :
    ∃ xs, (skeleton ms D keep).dot t = some (.arr xs) ∧ ∃ x ∈ xs, x.dot "id" = some (.str "") := by
  have hE := entitiesOf_are ms
  have hin : (e ++ "." ++ p.name, wireProp (entitiesOf ms) D (wireTop (entitiesOf ms) D) p) ∈ inputsOf ms D keep :=
    (C78_inputs h D keep _).2 ⟨hkeep, .inl ⟨e, p, hr, hd, rfl⟩⟩
  have hat := C78_present h D keep hin
  obtain ⟨m, hm, _⟩ := C78_only h D keep
  rw [hm] at hat hval ⊢
  rw [Val.dot, split_two (h.dotless hr.1) (h.dotlessP hd), Val.dotP] at hat
  have hw : defaultFor (wireProp (entitiesOf ms) D (wireTop (entitiesOf ms) D) p) = .str "" := by
    unfold wireProp
    rw [hk, ha]
    rfl
  dsimp only at hat
  rw [hw] at hat
  cases hx : aGet m e with
  | none => rw [hx] at hat; cases hat
  | some v =>
    rw [hx] at hat
    dsimp only at hat
    cases v with
    | obj c =>
      rw [Val.dotP] at hat
      cases hy : aGet c p.name with
      | none => rw [hy] at hat; cases hat
      | some w =>
        rw [hy] at hat
        have hws : w = .str "" := by simpa [Val.dotP] using hat
        subst hws
        have top : Place.Top (schemaOf ms D) m ⟨0, .ent e, .obj c⟩ :=
          .root (aGet_mem hx) (by simp) (fun hm => hr.2.2 ((h.refs _).1 hm)) ((h.roots _).2 hr)
        cases hz : aGet (entitiesOf ms) e with
        | none =>
          have := (hE.some_iff e).2 hr.1
          rw [hz] at this; cases this
        | some props =>
          obtain ⟨q, hq, hqn⟩ := hE.all hz p hd
          have hqp : q = p := h.same (hE.declared hz q hq) hd hqn
          have hf : props.find? (fun q => q.name == p.name) = some p := by
            cases hf : props.find? (fun q => q.name == p.name) with
            | none => exact absurd (by simp [hqn]) (List.find?_eq_none.1 hf q hq)
            | some r =>
              have hrn : r.name = p.name := by simpa using List.find?_some hf
              rw [h.same (hE.declared hz r (List.mem_of_find?_eq_some hf)) hd hrn]
          have := C39_conforms hval top (.single (.prop hz (aGet_mem hy) (by simp) hf))
          rw [PProp.need, ha, hk] at this
          obtain ⟨s, hs, _, hp⟩ := this
          injection hs with hs
          subst hs
          exact hp
    | _ => cases hat

/-- If an entity that is referred to has no id, the skeleton that is offered for the input is rejected as an input. -/
theorem C78_without_id (h : Neat ms) {e t : String} {p : PProp} (hr : IsRoot ms e) (hd : Declares ms e p) (hk : p.kind = .reference t)
    (ha : p.array = false) (ht : IsEntity ms t) (hid : ∀ q, Declares ms t q → q.name ≠ "id") :
    validateInput (schemaOf ms D) (skeleton ms D fun _ => true) ≠ [] := by
  intro hval
  obtain ⟨xs, hxs, x, hx, hi⟩ := ref_needs h hr hd hk ha rfl hval
  have hs : Somewhere ms (.reference t) := by
    obtain ⟨m, hm, _, _, hp⟩ := hd
    exact ⟨m, hm, p, hp, hk⟩
  have := C78_present h D (fun _ => true) (pool_input (D := D) hs ht rfl)
  rw [hxs, defaultFor] at this
  injection this with this
  injection this with this
  subst this
  rw [List.mem_singleton.1 hx, wireTop, wireObj, if_neg (by simp)] at hi
  cases hz : aGet (entitiesOf ms) t with
  | none =>
    have := ((entitiesOf_are ms).some_iff t).2 ht
    rw [hz] at this; cases this
  | some props =>
    rw [hz] at hi
    dsimp only at hi
    rw [defaultFor, Val.dot, split_name (by decide), Val.dotP, aGet_defaultFields] at hi
    cases hy : aGet (ofEntries (props.map fun p => (p.name, wireProp (entitiesOf ms) D (wireObj (entitiesOf ms) D (entitiesOf ms).length [t]) p))) "id" with
    | none => rw [hy] at hi; cases hi
    | some T =>
      obtain ⟨q, hq, e⟩ := List.mem_map.1 (mem_ofEntries (aGet_mem hy))
      injection e with e _
      exact hid q ((entitiesOf_are ms).declared hz q hq) e

/-- If goals are given and no goal needs the pool that a reference is looked up in, the skeleton for these goals is rejected as an
input. -/
theorem C78_goals (h : Neat ms) {keep : String → Bool} {e t : String} {p : PProp} (hr : IsRoot ms e) (hd : Declares ms e p)
    (hk : p.kind = .reference t) (ha : p.array = false) (hkeep : keep (e ++ "." ++ p.name) = true) (ht : IsEntity ms t)
    (hdrop : keep t = false) : validateInput (schemaOf ms D) (skeleton ms D keep) ≠ [] := by
  intro hval
  obtain ⟨xs, hxs, _⟩ := ref_needs h hr hd hk ha hkeep hval
  obtain ⟨m, hm, ho⟩ := C78_only h D keep
  rw [hm, Val.dot, split_name (h.dotless ht), Val.dotP] at hxs
  cases hg : aGet m t with
  | none => rw [hg] at hxs; cases hxs
  | some v =>
    rcases ho t v (aGet_mem hg) with ⟨hr', _⟩ | ⟨_, T, hT, _⟩
    · refine hr'.2.2 ?_
      obtain ⟨m, hm, _, _, hp⟩ := hd
      exact ⟨m, hm, p, hp, hk⟩
    · have := ((C78_inputs h D keep _).1 hT).1
      rw [hdrop] at this
      cases this

theorem globalsOf_only {k : String} {p : PProp} (h : aGet (globalsOf ms) k = some p) : DeclaresGlobal ms p ∧ p.name = k := by
  have step : ∀ (l : List PProp) (acc : List (String × PProp)), (∀ k p, aGet acc k = some p → DeclaresGlobal ms p ∧ p.name = k) →
      (∀ q ∈ l, DeclaresGlobal ms q) → ∀ k p, aGet (l.foldl (fun acc p => if (aGet acc p.name).isSome then acc else aSet acc p.name p) acc) k = some p →
      DeclaresGlobal ms p ∧ p.name = k := by
    intro l
    induction l with
    | nil => intro acc h _; exact h
    | cons q l ih =>
      intro acc h hl
      refine ih _ (fun k p hp => ?_) fun x hx => hl x (List.mem_cons_of_mem _ hx)
      dsimp only at hp
      split at hp
      · exact h k p hp
      · rw [aGet_aSet] at hp
        split at hp
        · rename_i e
          injection hp with hp
          subst hp
          exact ⟨hl q (List.mem_cons_self ..), e.symm⟩
        · exact h k p hp
  refine step _ [] (fun k p h => by cases h) (fun q hq => ?_) k p h
  obtain ⟨m, hm, hq⟩ := List.mem_flatMap.1 hq
  exact ⟨m, (List.mem_filter.1 hm).1, (List.mem_filter.1 hm).2, hq⟩

/-- An entity that a property leads to, be it one of its own, is not asked for: none of its properties is an input, and whatever an
input has in its place is accepted. -/
theorem C78_led_to (h : Neat ms) {e : String} (hs : Somewhere ms (.relationship e)) (hn : ¬ Somewhere ms (.reference e))
    (hg : ∀ p, DeclaresGlobal ms p → p.name ≠ e) :
    (∀ keep, ∀ i ∈ inputsOf ms D keep, (splitDot i.1).head? ≠ some e) ∧ ∀ v, validateInput (schemaOf ms D) (.obj [(e, v)]) = [] := by
  constructor
  · intro keep i hi hh
    rcases input_from hi with ⟨e', p, hr, hd, rfl⟩ | ⟨p, hd, rfl⟩ | ⟨t, ht, he', rfl⟩
    · rw [split_two (h.dotless hr.1) (h.dotlessP hd)] at hh
      injection hh with hh
      exact hr.2.1 (hh ▸ hs)
    · rw [split_name (h.dotlessG hd)] at hh
      injection hh with hh
      exact hg p hd hh
    · rw [split_name (h.dotless he')] at hh
      injection hh with hh
      exact hn (hh ▸ ht)
  · intro v
    unfold validateInput
    simp only [List.flatMap_cons, List.flatMap_nil, List.append_nil]
    unfold validateTop
    split
    · rfl
    · rw [if_neg (by simpa using fun hm => hn ((h.refs _).1 hm)), if_neg (by simpa using fun hm => ((h.roots _).1 hm).2.1 hs)]
      cases hx : aGet (schemaOf ms D).globals e with
      | none => rfl
      | some p => exact absurd (globalsOf_only hx).2 (hg p (globalsOf_only hx).1)

/-! ## Examples -/

/-- orders with a customer, who is referred to, and with lines; and a global -/
def shop : List DModel :=
  [⟨"Order", false, [⟨"total", .number, false, false⟩, ⟨"customer", .reference "Customer", false, false⟩, ⟨"lines", .relationship "Line", true, false⟩]⟩,
   ⟨"Customer", false, [⟨"id", .string, false, false⟩, ⟨"name", .string, false, true⟩]⟩,
   ⟨"Line", false, [⟨"size", .enum ["small", "large"], false, false⟩]⟩,
   ⟨"", true, [⟨"country", .relationship "Country", false, false⟩]⟩]

theorem shop_orderly : Orderly shop where
  entityName := by simp [shop]
  propName := by simp [shop]
  same := by
    rintro e p q ⟨m, hm, a, rfl, hp⟩ ⟨m', hm', a', e, hq⟩ hn
    simp only [shop, List.mem_cons, List.not_mem_nil, or_false] at hm hm'
    rcases hm with rfl | rfl | rfl | rfl <;> rcases hm' with rfl | rfl | rfl | rfl <;> simp at a a' e <;>
      simp only [List.mem_cons, List.not_mem_nil, or_false] at hp hq
    · rcases hp with rfl | rfl | rfl <;> rcases hq with rfl | rfl | rfl <;> simp at hn ⊢
    · rcases hp with rfl | rfl <;> rcases hq with rfl | rfl <;> simp at hn ⊢
    · rw [hp, hq]
  sameGlobal := by
    rintro p q ⟨m, hm, a, hp⟩ ⟨m', hm', a', hq⟩ hn
    simp only [shop, List.mem_cons, List.not_mem_nil, or_false] at hm hm'
    rcases hm with rfl | rfl | rfl | rfl <;> rcases hm' with rfl | rfl | rfl | rfl <;> simp at a a' hp hq
    rw [hp, hq]
  free := by
    rintro p ⟨m, hm, a, hp⟩ ⟨m', hm', a', e⟩
    simp only [shop, List.mem_cons, List.not_mem_nil, or_false] at hm hm'
    rcases hm with rfl | rfl | rfl | rfl <;> simp at a hp
    subst hp
    rcases hm' with rfl | rfl | rfl | rfl <;> simp at a' e
  few := by decide
  ids := by
    rintro t ⟨m, hm, p, hp, hk⟩
    simp only [shop, List.mem_cons, List.not_mem_nil, or_false] at hm
    rcases hm with rfl | rfl | rfl | rfl <;> simp at hp <;> (try rcases hp with rfl | rfl | rfl) <;> (try simp at hk)
    all_goals
      (subst hk; exact ⟨⟨"id", .string, false, false⟩, ⟨_, by simp [shop]; exact .inr (.inl rfl), rfl, rfl, by simp⟩, rfl, rfl, .inl rfl⟩)

example : validateInput (schemaOf shop [("Country", ["DE", "FR"])]) (skeleton shop [("Country", ["DE", "FR"])] fun _ => true) = [] :=
  C78_valid shop_orderly _

theorem shop_root : IsRoot shop "Order" := by
  refine ⟨⟨_, by simp [shop]; exact .inl rfl, rfl, rfl⟩, ?_, ?_⟩ <;>
  · rintro ⟨m, hm, p, hp, hk⟩
    simp only [shop, List.mem_cons, List.not_mem_nil, or_false] at hm
    rcases hm with rfl | rfl | rfl | rfl <;> simp at hp <;> (try rcases hp with rfl | rfl | rfl) <;>
      simp_all

/-- the reference in it is the text "", which is the id of the one customer in it -/
example : (skeleton shop [] fun _ => true).dot "Order.customer" = some (.str "") ∧
    (skeleton shop [] fun _ => true).dot "Order.lines" = some (.arr [.obj [("size", .str "small")]]) ∧
    (skeleton shop [] fun _ => true).dot "Customer" = some (.arr [.obj [("id", .str ""), ("name", .str "")]]) := by
  refine ⟨?_, ?_, ?_⟩
  · exact C78_present shop_orderly.toNeat [] (fun _ => true) (i := ("Order.customer", .string)) ((C78_inputs shop_orderly.toNeat ..).2
      ⟨rfl, .inl ⟨"Order", ⟨"customer", .reference "Customer", false, false⟩, shop_root, ⟨_, by simp [shop]; exact .inl rfl, rfl, rfl, by simp⟩, rfl⟩⟩)
  · exact C78_present shop_orderly.toNeat [] (fun _ => true) (i := ("Order.lines", .arr (.obj [("size", .enum none ["small", "large"])])))
      ((C78_inputs shop_orderly.toNeat ..).2
      ⟨rfl, .inl ⟨"Order", ⟨"lines", .relationship "Line", true, false⟩, shop_root, ⟨_, by simp [shop]; exact .inl rfl, rfl, rfl, by simp⟩, rfl⟩⟩)
  · exact C78_present shop_orderly.toNeat [] (fun _ => true) (i := ("Customer", .arr (.obj [("id", .string), ("name", .string)])))
      ((C78_inputs shop_orderly.toNeat ..).2
      ⟨rfl, .inr (.inr ⟨"Customer", ⟨_, by simp [shop]; exact .inl rfl, ⟨"customer", .reference "Customer", false, false⟩, by simp, rfl⟩,
        ⟨_, by simp [shop]; exact .inr (.inl rfl), rfl, rfl⟩, rfl⟩)⟩)

/-- without the pool, the skeleton of the same policy is rejected -/
example : validateInput (schemaOf shop []) (skeleton shop [] fun s => s == "Order.customer") ≠ [] :=
  C78_goals shop_orderly.toNeat shop_root (p := ⟨"customer", .reference "Customer", false, false⟩)
    ⟨_, by simp [shop]; exact .inl rfl, rfl, rfl, by simp⟩ rfl rfl (by decide) ⟨_, by simp [shop]; exact .inr (.inl rfl), rfl, rfl⟩ (by decide)

/-- **The inputs come in the order of their paths**; only paths that are to be kept are among them. -/
theorem C78_sorted (ms : List DModel) (D : List (String × List String)) (keep : String → Bool) :
    (inputsOf ms D keep).Pairwise (fun a b => a.1 ≤ b.1) ∧ ∀ i ∈ inputsOf ms D keep, keep i.1 = true := by
  constructor
  · have h := List.pairwise_mergeSort (le := fun a b : String × VT => decide (a.1 ≤ b.1))
      (fun a b c h1 h2 => by simp only [decide_eq_true_eq] at *; exact String.le_trans h1 h2)
      (fun a b => by simpa using String.le_total a.1 b.1)
    have h := fun l => (h l).imp (S := fun a b => a.1 ≤ b.1) (by simp)
    exact h _
  · intro i hi
    rw [inputsOf, List.mem_mergeSort] at hi
    exact (List.mem_filter.1 hi).2

end Zen.Policy
