import Verif.Types.Inhabits
/-
C08: laws of `satisfies` and `merge`.
-/
namespace Zen
open VT

/-- Every type satisfies itself. -/
theorem C08_refl (t : VT) (h : WF t) : sat t t = true := sat_refl h

/-- Every type satisfies `any`, and `any` satisfies every type. -/
theorem C08_any (t : VT) : sat t .any = true ∧ sat .any t = true := ⟨sat_any t, any_sat t⟩

/-- Only `any`, `null` and nullable types accept `null`, and only `any` and nullable types accept a nullable
type. -/
theorem C08_null_only (c : VT) :
    (sat .null c = true → c = .any ∨ c = .null ∨ ∃ t, c = .nullable t) ∧
    (∀ t, sat (.nullable t) c = true → c = .any ∨ ∃ t', c = .nullable t') := by
  cases c <;> simp [sat]

/-- A required field cannot be left out: an object type without the field is accepted only where the field may
be null. -/
theorem C08_missing_field (o o' : List (String × VT)) (k : String) (t : VT) (hk : aGet o k = none)
    (h' : (k, t) ∈ o') (h : sat (.obj o) (.obj o') = true) : t = .any ∨ t = .null ∨ ∃ x, t = .nullable x := by
  simp only [sat] at h
  rcases (satFields_iff o o').1 h k t h' with ⟨x, e, _⟩ | ⟨_, e⟩
  · rw [hk] at e; cases e
  · cases t <;> simp_all [loose]

/-- An object type is accepted exactly when each field asked for is present with an accepted type, or is absent
and may be null. -/
theorem C08_object_iff (o o' : List (String × VT)) : sat (.obj o) (.obj o') = true ↔ ∀ k t, (k, t) ∈ o' →
    (∃ x, aGet o k = some x ∧ sat x t = true) ∨
    (aGet o k = none ∧ (t = .any ∨ t = .null ∨ ∃ x, t = .nullable x)) := by
  simp only [sat]
  rw [satFields_iff]
  constructor
  · intro h k t hk
    rcases h k t hk with h | ⟨h1, h2⟩
    · exact .inl h
    · exact .inr ⟨h1, by cases t <;> simp_all [loose]⟩
  · intro h k t hk
    rcases h k t hk with h | ⟨h1, h2⟩
    · exact .inl h
    · exact .inr ⟨h1, by rcases h2 with rfl | rfl | ⟨x, rfl⟩ <;> rfl⟩

/-- The analysis never treats a nullable value as acceptable for a non-nullable field, at any depth of fields. -/
theorem C08_nullable_field (o o' : List (String × VT)) (k : String) (t c : VT)
    (hk : aGet o k = some (.nullable t)) (h' : (k, c) ∈ o') (h : sat (.obj o) (.obj o') = true) :
    c = .any ∨ ∃ x, c = .nullable x := by
  simp only [sat] at h
  rcases (satFields_iff o o').1 h k c h' with ⟨x, e, hs⟩ | ⟨e, _⟩
  · rw [hk] at e; cases e; exact (C08_null_only c).2 t hs
  · rw [hk] at e; cases e

/-- `null` is accepted exactly by `any`, `null`, and nullable types whose inner type accepts it. -/
theorem C08_null_iff (c : VT) : sat .null c = true ↔ c = .any ∨ c = .null ∨ ∃ t, c = .nullable t ∧ sat .null t = true := by
  cases c <;> simp [sat]

/-- So `null` does not satisfy a nullable boolean (negative result): `satisfies` compares it with the inner
type. -/
theorem C08_null_not_nullable : sat .null (.nullable .bool) = false := by decide

/-! ### Merging -/

theorem core_comm (same : VT → VT → Bool) (hs : ∀ a b, same a b = true → a = b)
    (hc : ∀ a b, same a b = same b a) (x y : VT) (hx : WF x) (hy : WF y)
    (ih : ∀ a b, sizeOf a < sizeOf x → WF a → WF b → Same (merge same a b) (merge same b a)) :
    Same (core same x y) (core same y x) := by
  cases x <;> cases y <;> first | exact Same.refl _ | skip
  case arr.arr a b =>
    show Same (if same a b then _ else _) (if same b a then _ else _)
    rw [hc b a]
    split
    next h => rw [hs a b h]; exact Same.refl _
    next h =>
      have := ih a b (by simp) (by cases hx; assumption) (by cases hy; assumption)
      cases a <;> cases b <;> first | exact Same.refl _ | exact .arr this
  case obj.obj o o' =>
    refine .obj (fun k => ?_) fun k t t' h h' => ?_
    · rw [mgFields_get same o' o hy.nodup, mgFields_get same o o' hx.nodup]
      cases aGet o k <;> cases aGet o' k <;> simp
    · rw [mgFields_get same o' o hy.nodup] at h
      rw [mgFields_get same o o' hx.nodup] at h'
      cases h1 : aGet o k with
      | none =>
        cases h2 : aGet o' k with
        | none => rw [h1, h2] at h; cases h
        | some b => rw [h1, h2] at h h'; cases h; cases h'; exact Same.refl _
      | some a =>
        cases h2 : aGet o' k with
        | none => rw [h1, h2] at h h'; cases h; cases h'; exact Same.refl _
        | some b =>
          rw [h1, h2] at h h'
          cases h; cases h'
          exact ih a b (by have := size_get h1; simp; omega) (hx.get h1) (hy.get h2)
  case const.const c d =>
    show Same (if c = d then _ else _) (if d = c then _ else _)
    by_cases h : c = d
    · subst h; rw [if_pos rfl]; exact Same.refl _
    · rw [if_neg h, if_neg (Ne.symm h)]
      exact .enum fun x => by simp [or_comm]
  case enum.enum =>
    exact .enum fun x => by rw [pushNew_mem, pushNew_mem, or_comm]

/-- Merging is commutative, for all types. `same` stands for the comparison of the addresses of element types. -/
theorem C08_merge_comm (same : VT → VT → Bool) (hs : ∀ a b, same a b = true → a = b)
    (hc : ∀ a b, same a b = same b a) (a b : VT) (ha : WF a) (hb : WF b) :
    Same (merge same a b) (merge same b a) := by
  have size : ∀ t : VT, sizeOf t.unwrap.1 ≤ sizeOf t := by
    intro t
    cases t <;> simp [unwrap]
  rw [merge_eq, merge_eq, Bool.or_comm]
  refine Same.fin (core_comm same hs hc _ _ ha.unwrap hb.unwrap fun a' b' hlt ha' hb' => ?_) _
  have : sizeOf a' < sizeOf a := Nat.lt_of_lt_of_le hlt (size a)
  exact C08_merge_comm same hs hc a' b' ha' hb'
termination_by sizeOf a

theorem wf_fin {t : VT} (h : WF t) (n : Bool) : WF (fin n t) := by
  rw [fin]; split
  · exact .nullable h
  · exact h

/-- The merge of two types is a type. -/
theorem C08_merge_wf (same : VT → VT → Bool) (a b : VT) (ha : WF a) (hb : WF b) : WF (merge same a b) := by
  have size : ∀ t : VT, sizeOf t.unwrap.1 ≤ sizeOf t := by
    intro t
    cases t <;> simp [unwrap]
  rw [merge_eq]
  refine wf_fin ?_ _
  have ha' := ha.unwrap
  have hb' := hb.unwrap
  have hsz := size a
  generalize a.unwrap.1 = x at *
  generalize b.unwrap.1 = y at *
  cases x <;> cases y <;> first
    | exact WF.any | exact WF.null | exact WF.bool | exact WF.string | exact WF.number | exact WF.date
    | exact WF.interval | exact WF.enum | exact WF.nullable ha' | exact WF.nullable hb' | skip
  case arr.arr u v =>
    show WF (if same u v then _ else _)
    split
    · exact ha'
    · have hu : WF u := by cases ha'; assumption
      have hv : WF v := by cases hb'; assumption
      have : sizeOf u < sizeOf a := by simp at hsz; omega
      have := C08_merge_wf same u v hu hv
      cases u <;> cases v <;> first | exact ha' | exact hb' | exact .arr this
  case obj.obj o o' =>
    refine .obj (mgFields_nodup same o' o ha'.nodup) fun k t hm => ?_
    have h := aGet_of_mem (mgFields_nodup same o' o ha'.nodup) hm
    rw [mgFields_get same o' o hb'.nodup] at h
    cases h1 : aGet o k with
    | none => rw [h1] at h; exact hb'.get h
    | some u =>
      cases h2 : aGet o' k with
      | none => rw [h1, h2] at h; cases h; exact ha'.get h1
      | some v =>
        rw [h1, h2] at h
        cases h
        have : sizeOf u < sizeOf a := by have := size_get h1; simp at hsz; omega
        exact C08_merge_wf same u v (ha'.get h1) (hb'.get h2)
  case const.const c d =>
    show WF (if c = d then _ else _)
    split
    · exact .const
    · exact .enum
termination_by sizeOf a

/-- Two types to be merged that, down to the same depth, have `p` at each pair of parts, have fields of type `q`
where only one of them has a field, and do not pair an array of `any` with another array. -/
inductive Alike (p : VT → VT → Prop) (q : VT → Prop) : VT → VT → Prop
  | mk {a b : VT} : p a b →
      (∀ x y, a.unwrap.1 = .arr x → b.unwrap.1 = .arr y → (x = .any ↔ y = .any)) →
      (∀ x y, a.unwrap.1 = .arr x → b.unwrap.1 = .arr y → Alike p q x y) →
      (∀ o o', a.unwrap.1 = .obj o → b.unwrap.1 = .obj o' → ∀ k t,
        (aGet o k = some t → aGet o' k = none → q t) ∧ (aGet o' k = some t → aGet o k = none → q t)) →
      (∀ o o', a.unwrap.1 = .obj o → b.unwrap.1 = .obj o' → ∀ k t t', aGet o k = some t → aGet o' k = some t' →
        Alike p q t t') → Alike p q a b

theorem Alike.symm {p : VT → VT → Prop} {q : VT → Prop} (hp : ∀ a b, p a b → p b a) {a b : VT}
    (h : Alike p q a b) : Alike p q b a := by
  induction h with
  | mk h1 h2 _ h4 _ ih3 ih5 =>
    exact .mk (hp _ _ h1) (fun x y hx hy => (h2 y x hy hx).symm) (fun x y hx hy => ih3 y x hy hx)
      (fun o o' ho ho' k t => (h4 o' o ho' ho k t).symm)
      (fun o o' ho ho' k t t' ht ht' => ih5 o' o ho' ho k t' t ht' ht)

/-- `null` and `nullable null` are merged only with the plain `null` or with `any` -/
def NullsAlike (a b : VT) : Prop :=
  (a.unwrap.1 = .null ∨ b.unwrap.1 = .null) → (a = .null ∧ b = .null) ∨ a = .any ∨ b = .any

theorem NullsAlike.symm (a b : VT) (h : NullsAlike a b) : NullsAlike b a := fun h' => by
  rcases h h'.symm with ⟨h1, h2⟩ | h | h
  · exact .inl ⟨h2, h1⟩
  · exact .inr (.inr h)
  · exact .inr (.inl h)

theorem sat_core (same : VT → VT → Bool) (x y : VT) (hx : WF x) (hy : WF y)
    (hn : x = .null ∨ y = .null → (x = .null ∧ y = .null) ∨ x = .any ∨ y = .any)
    (h2 : ∀ a b, x = .arr a → y = .arr b → (a = .any ↔ b = .any))
    (ih3 : ∀ a b, x = .arr a → y = .arr b → WF a → WF b → sat a (merge same a b) = true)
    (h4 : ∀ o o', x = .obj o → y = .obj o' → ∀ k t,
        (aGet o k = some t → aGet o' k = none → t.loose = true) ∧
        (aGet o' k = some t → aGet o k = none → t.loose = true))
    (ih5 : ∀ o o', x = .obj o → y = .obj o' → ∀ k t t', aGet o k = some t → aGet o' k = some t' →
        WF t → WF t' → sat t (merge same t t') = true) :
    sat x (core same x y) = true := by
  cases x <;> cases y <;> first
    | exact sat_any _
    | (simp only [core, sat]; done)
    | (exfalso; simp at hn; done)
    | skip
  case arr.arr a b =>
    have wa : WF a := by cases hx; assumption
    have wb : WF b := by cases hy; assumption
    by_cases hne : same a b = true
    · have : core same (.arr a) (.arr b) = .arr a := by
        show (if same a b then _ else _) = _
        rw [if_pos hne]
      rw [this]
      exact sat_refl hx
    · by_cases ha : a = .any
      · subst ha
        have hb := (h2 _ _ rfl rfl).1 rfl
        subst hb
        have : core same (.arr .any) (.arr .any) = .arr .any := by
          show (if same .any .any then _ else _) = _
          split <;> rfl
        rw [this]
        exact sat_refl hx
      · have hb : b ≠ .any := fun e => ha ((h2 _ _ rfl rfl).2 e)
        have h := ih3 a b rfl rfl wa wb
        rw [core_arr same ha hb hne]
        simp only [sat, h]
  case obj.obj o o' =>
    simp only [core, sat]
    refine (satFields_iff _ _).2 fun k v hm => ?_
    have h := aGet_of_mem (mgFields_nodup same o' o hx.nodup) hm
    rw [mgFields_get same o' o hy.nodup] at h
    cases e1 : aGet o k with
    | none =>
      rw [e1] at h
      exact .inr ⟨rfl, ((h4 o o' rfl rfl k v).2 h e1)⟩
    | some t =>
      refine .inl ⟨t, rfl, ?_⟩
      cases e2 : aGet o' k with
      | none => rw [e1, e2] at h; cases h; exact sat_refl (hx.get e1)
      | some t' =>
        rw [e1, e2] at h; cases h
        exact ih5 o o' rfl rfl k t t' e1 e2 (hx.get e1) (hy.get e2)
  case const.const c d =>
    show sat _ (if c = d then _ else _) = true
    split
    · simp [sat]
    · simp [sat]
  case const.enum c n vs =>
    simp only [core, sat]
    split
    next h => exact h
    next h => simp
  case enum.const n vs c =>
    simp only [core, sat]
    split <;> simp +contextual
  case enum.enum n vs n' vs' =>
    simp only [core, sat, List.all_eq_true, List.contains_iff_mem]
    exact fun x hx => (pushNew_mem vs' vs x).2 (.inl hx)

theorem core_loose (same : VT → VT → Bool) (x y : VT) (hx : x ≠ .null) (hy : y ≠ .null)
    (h : (core same x y).loose = true) : core same x y = .any := by
  cases x <;> cases y <;> first | rfl | exact absurd rfl hx | exact absurd rfl hy | (exfalso; cases h; done) | skip
  case arr.arr a b =>
    exfalso
    revert h
    show (if same a b then VT.arr a else _).loose = true → False
    split
    · exact fun h => nomatch h
    · cases a <;> cases b <;> exact fun h => nomatch h
  case const.const c d =>
    exfalso
    revert h
    show (if c = d then VT.const c else _).loose = true → False
    split <;> exact fun h => nomatch h

theorem sat_fin_plain (t r : VT) (n : Bool) (ht : ∀ x, t ≠ .nullable x) (h : sat t r = true) :
    sat t (fin n r) = true := by
  rw [fin]; split
  · cases t <;> first | exact absurd rfl (ht _) | (simp only [sat]; first | done | exact h)
  · exact h

theorem sat_merge_left (same : VT → VT → Bool) {a b : VT}
    (h : Alike NullsAlike (fun t => t.loose = true) a b) (ha : WF a) (hb : WF b) :
    sat a (merge same a b) = true := by
  induction h with
  | @mk a b h1 h2 _ h4 _ ih3 ih5 =>
    have hcore : (a.unwrap.1 = .null ∨ b.unwrap.1 = .null →
        (a.unwrap.1 = .null ∧ b.unwrap.1 = .null) ∨ a.unwrap.1 = .any ∨ b.unwrap.1 = .any) := by
      intro h
      rcases h1 h with ⟨rfl, rfl⟩ | rfl | rfl
      · exact .inl ⟨rfl, rfl⟩
      · exact .inr (.inl rfl)
      · exact .inr (.inr rfl)
    have hsat := sat_core same _ _ ha.unwrap hb.unwrap hcore h2 (fun x y hx hy wx wy => ih3 x y hx hy wx wy) h4
      (fun o o' ho ho' k t t' e e' w w' => ih5 o o' ho ho' k t t' e e' w w')
    rw [merge_eq]
    by_cases hn : ∃ x, a = .nullable x
    · obtain ⟨x, rfl⟩ := hn
      show sat (.nullable x) (fin true (core same x b.unwrap.1)) = true
      have hsat : sat x (core same x b.unwrap.1) = true := hsat
      by_cases hl : (core same x b.unwrap.1).loose = true
      · have hany : core same x b.unwrap.1 = .any := by
          by_cases hnull : x = .null ∨ b.unwrap.1 = .null
          · rcases h1 hnull with ⟨e, _⟩ | e | rfl
            · cases e
            · cases e
            · cases x <;> rfl
          · exact core_loose same x _ (fun e => hnull (.inl e)) (fun e => hnull (.inr e)) hl
        rw [hany]
        exact sat_any _
      · have : fin true (core same x b.unwrap.1) = .nullable (core same x b.unwrap.1) := by
          rw [fin]; simp [hl]
        rw [this]
        simpa only [sat] using hsat
    · have hu : a.unwrap.1 = a := by
        cases a <;> first | rfl | exact absurd ⟨_, rfl⟩ hn
      rw [hu] at hsat ⊢
      exact sat_fin_plain a _ _ (fun x e => hn ⟨x, e⟩) hsat

/-- Types that are the same up to order and names accept and are accepted by the same types. -/
theorem C08_same_accept {c c' : VT} (h : Same c c') (hc : WF c) (hc' : WF c') (t : VT) (hs : sat t c = true) :
    sat t c' = true := by
  induction h generalizing t with
  | arr _ ih =>
    cases hc; cases hc'
    cases t <;> simp only [sat] at hs ⊢ <;> first | exact absurd hs (by decide) | skip
    exact ih (by assumption) (by assumption) _ hs
  | nullable _ ih =>
    cases hc; cases hc'
    cases t <;> simp only [sat] at hs ⊢ <;> exact ih (by assumption) (by assumption) _ hs
  | @obj o o' h1 h2 ih =>
    cases t <;> simp only [sat] at hs ⊢ <;> first | exact absurd hs (by decide) | skip
    rename_i o1
    rw [satFields_iff] at hs ⊢
    intro k v hm
    have e := aGet_of_mem hc'.nodup hm
    cases e2 : aGet o k with
    | none => rw [(h1 k).1 e2] at e; cases e
    | some u =>
      rcases hs k u (aGet_mem e2) with ⟨t, et, hst⟩ | ⟨et, hl⟩
      · exact .inl ⟨t, et, ih k u v e2 e (hc.get e2) (hc'.get e) t hst⟩
      · exact .inr ⟨et, by rw [← (h2 k u v e2 e).loose]; exact hl⟩
  | enum h =>
    cases t <;> simp only [sat] at hs ⊢ <;> first | exact absurd hs (by decide) | skip
    · simp only [List.contains_iff_mem] at hs ⊢; exact (h _).1 hs
    · simp only [List.all_eq_true, List.contains_iff_mem] at hs ⊢
      exact fun x hx => (h x).1 (hs x hx)
  | _ => exact hs

/-- Both operands satisfy the merged type. Missing from the full claim, and false: a plain `null` merged with
another type, one-sided fields that are not nullable, and an array of `any` merged with another array
(`C08_null_operand`, `C08_field_operand`, `C08_array_operand`). -/
theorem C08_upper_partial (same : VT → VT → Bool) (hs : ∀ a b, same a b = true → a = b)
    (hc : ∀ a b, same a b = same b a) {a b : VT} (h : Alike NullsAlike (fun t => t.loose = true) a b)
    (ha : WF a) (hb : WF b) : sat a (merge same a b) = true ∧ sat b (merge same a b) = true :=
  ⟨sat_merge_left same h ha hb,
    C08_same_accept (C08_merge_comm same hs hc b a hb ha) (C08_merge_wf same b a hb ha)
      (C08_merge_wf same a b ha hb) b (sat_merge_left same (h.symm NullsAlike.symm) hb ha)⟩

/-- ScalarType types: all but arrays, objects and nullable types. -/
def ScalarType (t : VT) : Prop := (∀ x, t ≠ .arr x) ∧ (∀ o, t ≠ .obj o) ∧ (∀ x, t ≠ .nullable x)

/-- For scalar types other than `null`, plain or nullable, both operands satisfy the merge. -/
theorem C08_upper_scalar (same : VT → VT → Bool) (hs : ∀ a b, same a b = true → a = b)
    (hc : ∀ a b, same a b = same b a) (a b : VT) (ha : ScalarType a.unwrap.1) (hb : ScalarType b.unwrap.1)
    (na : a.unwrap.1 ≠ .null) (nb : b.unwrap.1 ≠ .null) :
    sat a (merge same a b) = true ∧ sat b (merge same a b) = true := by
  have wf : ∀ t : VT, ScalarType t.unwrap.1 → WF t := by
    intro t h
    have : ∀ u : VT, ScalarType u → WF u := by
      intro u h
      cases u
      case arr x => exact absurd rfl (h.1 x)
      case obj o => exact absurd rfl (h.2.1 o)
      case nullable x => exact absurd rfl (h.2.2 x)
      all_goals constructor
    cases t
    case nullable x => exact .nullable (this _ h)
    all_goals exact this _ h
  refine C08_upper_partial same hs hc (.mk ?_ ?_ ?_ ?_ ?_) (wf a ha) (wf b hb)
  · rintro (h | h)
    · exact absurd h na
    · exact absurd h nb
  · exact fun x y hx _ => absurd hx (ha.1 x)
  · exact fun x y hx _ => absurd hx (ha.1 x)
  · exact fun o _ ho _ => absurd ho (ha.2.1 o)
  · exact fun o _ ho _ => absurd ho (ha.2.1 o)

/-- Negative: `null` merged with a boolean gives a nullable boolean, which `null` does not satisfy. -/
theorem C08_null_operand (same : VT → VT → Bool) :
    merge same .null .bool = .nullable .bool ∧ sat .null (merge same .null .bool) = false := by
  constructor
  · rw [merge_eq]; rfl
  · rw [merge_eq]; rfl

/-- Negative: object types with different required fields do not satisfy their merge. -/
theorem C08_field_operand (same : VT → VT → Bool) :
    sat (.obj []) (merge same (.obj []) (.obj [("a", .bool)])) = false := by
  rw [merge_eq]; rfl

/-- Negative: an array of `any` is merged away. The result is accepted only because `any` satisfies everything;
a value of the first type need not have the merged type. -/
theorem C08_array_operand (same : VT → VT → Bool) (h : same .any .bool = false) :
    merge same (.arr .any) (.arr .bool) = .arr .bool ∧
    Inh (.arr .any) (.arr [.str "x"]) ∧ ¬ Inh (.arr .bool) (.arr [.str "x"]) := by
  refine ⟨?_, ?_, ?_⟩
  · rw [merge_eq]
    show fin false (if same .any .bool then _ else _) = _
    rw [h]; rfl
  · simp [Inh]
  · simp [Inh]

/-- Negative: merging is not associative, so the type inferred for an array depends on the order of its
elements. -/
theorem C08_not_assoc :
    let m := merge fun _ _ => false
    m (m (.arr .bool) (.arr .string)) (.arr .number) = .arr .number ∧
    m (.arr .bool) (m (.arr .string) (.arr .number)) = .arr .bool := by
  simp only [merge_eq]; exact ⟨rfl, rfl⟩

/-- Negative: `satisfies` is not transitive. -/
theorem C08_not_trans : sat (.const "a") .string = true ∧ sat .string (.const "b") = true ∧
    sat (.const "a") (.const "b") = false := by
  decide

/-! ### Widening -/

/-- Every type satisfies its widening; widening twice is widening once; and widening keeps nullability. -/
theorem C08_widen (t : VT) (h : WF t) : sat t t.widen = true ∧ t.widen.widen = t.widen ∧
    (t.widen.loose = t.loose) := by
  refine ⟨?_, ?_, by cases t <;> rfl⟩
  · induction h with
    | nullable _ ih => simpa only [widen, sat] using ih
    | obj h1 h2 => exact sat_refl (.obj h1 h2)
    | arr h => exact sat_refl (.arr h)
    | _ => simp only [widen, sat]
  · clear h
    induction t using VT.ind with
    | nullable t ih => rw [widen, widen, ih]
    | _ => rfl

/-! ### What merging means for values -/

theorem inh_nullable_fin {t : VT} {v : Val} (n : Bool) (h : Inh t v) : Inh (fin n t) v := by
  rw [fin]; split
  · simp only [Inh]; exact .inr h
  · exact h

theorem inh_core (same : VT → VT → Bool) (x y : VT) (v : Val) (hx : WF x) (hy : WF y) (hv : Inh x v)
    (h2 : ∀ a b, x = .arr a → y = .arr b → (a = .any ↔ b = .any))
    (ih3 : ∀ a b, x = .arr a → y = .arr b → WF a → WF b → ∀ v, Inh a v → Inh (merge same a b) v)
    (h4 : ∀ o o', x = .obj o → y = .obj o' → ∀ k t, aGet o' k = some t → aGet o k = none → t = .any)
    (ih5 : ∀ o o', x = .obj o → y = .obj o' → ∀ k t t', aGet o k = some t → aGet o' k = some t' →
        WF t → WF t' → ∀ v, Inh t v → Inh (merge same t t') v) :
    Inh (core same x y) v := by
  cases x <;> cases y <;> first
    | exact hv
    | (simp only [core, Inh]; done)
    | (simp only [core, Inh] at hv ⊢; exact .inr hv)
    | (simp only [core, Inh] at hv ⊢; exact .inl hv)
    | skip
  case arr.arr a b =>
    have wa : WF a := by cases hx; assumption
    have wb : WF b := by cases hy; assumption
    by_cases hne : same a b = true
    · have : core same (.arr a) (.arr b) = .arr a := by
        show (if same a b then _ else _) = _
        rw [if_pos hne]
      rw [this]
      exact hv
    · by_cases ha : a = .any
      · subst ha
        have hb := (h2 _ _ rfl rfl).1 rfl
        subst hb
        have : core same (.arr .any) (.arr .any) = .arr .any := by
          show (if same .any .any then _ else _) = _
          split <;> rfl
        rw [this]
        exact hv
      · have hb : b ≠ .any := fun e => ha ((h2 _ _ rfl rfl).2 e)
        rw [core_arr same ha hb hne]
        simp only [Inh] at hv ⊢
        obtain ⟨xs, rfl, h⟩ := hv
        exact ⟨xs, rfl, fun x hx => ih3 a b rfl rfl wa wb x (h x hx)⟩
  case obj.obj o o' =>
    simp only [core, Inh] at hv ⊢
    obtain ⟨fs, rfl, h⟩ := hv
    refine ⟨fs, rfl, (inhFields_iff _ _).2 fun k t hm => ?_⟩
    have hall := (inhFields_iff _ _).1 h
    have h := aGet_of_mem (mgFields_nodup same o' o hx.nodup) hm
    rw [mgFields_get same o' o hy.nodup] at h
    cases e1 : aGet o k with
    | none =>
      rw [e1] at h
      rw [h4 o o' rfl rfl k t h e1]
      simp only [Inh]
    | some u =>
      have hu := hall k u (aGet_mem e1)
      cases e2 : aGet o' k with
      | none => rw [e1, e2] at h; cases h; exact hu
      | some u' =>
        rw [e1, e2] at h; cases h
        exact ih5 o o' rfl rfl k u u' e1 e2 (hx.get e1) (hy.get e2) _ hu
  case const.string => simp only [core, Inh] at hv ⊢; exact ⟨_, hv⟩
  case enum.string => simp only [core, Inh] at hv ⊢; obtain ⟨s, _, h⟩ := hv; exact ⟨s, h⟩
  case const.const c d =>
    show Inh (if c = d then _ else _) v
    split
    · exact hv
    · simp only [Inh] at hv ⊢; exact ⟨c, by simp, hv⟩
  case const.enum c n vs =>
    simp only [core, Inh] at hv ⊢
    refine ⟨c, ?_, hv⟩
    split
    next h => simpa using h
    next h => simp
  case enum.const n vs c =>
    simp only [core, Inh] at hv ⊢
    obtain ⟨s, hs, h⟩ := hv
    refine ⟨s, ?_, h⟩
    split
    · exact hs
    · simp [hs]
  case enum.enum n vs n' vs' =>
    simp only [core, Inh] at hv ⊢
    obtain ⟨s, hs, h⟩ := hv
    exact ⟨s, (pushNew_mem vs' vs s).2 (.inl hs), h⟩

theorem core_null_fin (same : VT → VT → Bool) (n : Bool) (x y : VT) (hn : n = true)
    (hxy : (x = .null ∧ y = .null) ∨ ¬ (core same x y).loose = true ∨ core same x y = .any ∨
      ∃ t, core same x y = .nullable t) : Inh (fin n (core same x y)) .null := by
  subst hn
  rcases hxy with ⟨rfl, rfl⟩ | h | h | ⟨t, h⟩
  · simp [core, fin, loose, Inh]
  · rw [fin]; simp [h, Inh]
  · rw [h]; simp [fin, loose, Inh]
  · rw [h]; simp [fin, loose, Inh]

theorem core_kinds (same : VT → VT → Bool) (x y : VT) : (x = .null ∧ y = .null) ∨
    ¬ (core same x y).loose = true ∨ core same x y = .any ∨ ∃ t, core same x y = .nullable t := by
  by_cases hx : x = .null
  · subst hx
    cases y <;> simp [core]
  · by_cases hy : y = .null
    · subst hy
      cases x <;> simp [core]
    · by_cases h : (core same x y).loose = true
      · exact .inr (.inr (.inl (core_loose same x y hx hy h)))
      · exact .inr (.inl h)

theorem inh_merge_left (same : VT → VT → Bool) {a b : VT} (h : Alike (fun _ _ => True) (fun t => t = .any) a b)
    (ha : WF a) (hb : WF b) (v : Val) (hv : Inh a v) : Inh (merge same a b) v := by
  induction h generalizing v with
  | @mk a b _ h2 _ h4 _ ih3 ih5 =>
    rw [merge_eq]
    have hmain : Inh a.unwrap.1 v → Inh (fin (a.unwrap.2 || b.unwrap.2) (core same a.unwrap.1 b.unwrap.1)) v := by
      intro hv
      exact inh_nullable_fin _ (inh_core same _ _ v ha.unwrap hb.unwrap hv h2
        (fun x y hx hy wx wy v hv => ih3 x y hx hy wx wy v hv)
        (fun o o' ho ho' k t => (h4 o o' ho ho' k t).2)
        (fun o o' ho ho' k t t' e e' w w' v hv => ih5 o o' ho ho' k t t' e e' w w' v hv))
    by_cases hn : ∃ x, a = .nullable x
    · obtain ⟨x, rfl⟩ := hn
      simp only [Inh] at hv
      rcases hv with rfl | hv
      · exact core_null_fin same _ _ _ rfl (core_kinds same _ _)
      · exact hmain hv
    · have hu : a.unwrap.1 = a := by
        cases a <;> first | rfl | exact absurd ⟨_, rfl⟩ hn
      exact hmain (by rw [hu]; exact hv)

/-- Types that are the same up to order and names have the same values. -/
theorem C08_same_values {a b : VT} (h : Same a b) (hb : WF b) (v : Val) (hv : Inh a v) : Inh b v := by
  induction h generalizing v with
  | arr _ ih =>
    cases hb
    simp only [Inh] at hv ⊢
    obtain ⟨xs, rfl, h⟩ := hv
    exact ⟨xs, rfl, fun x hx => ih (by assumption) x (h x hx)⟩
  | nullable _ ih =>
    cases hb
    simp only [Inh] at hv ⊢
    exact hv.imp id (ih (by assumption) v)
  | @obj o o' h1 _ ih =>
    simp only [Inh] at hv ⊢
    obtain ⟨fs, rfl, h⟩ := hv
    refine ⟨fs, rfl, (inhFields_iff _ _).2 fun k t hm => ?_⟩
    have e := aGet_of_mem hb.nodup hm
    cases e1 : aGet o k with
    | none => rw [(h1 k).1 e1] at e; cases e
    | some u => exact ih k u t e1 e (hb.get e) _ ((inhFields_iff _ _).1 h k u (aGet_mem e1))
  | enum h =>
    simp only [Inh] at hv ⊢
    obtain ⟨s, hs, e⟩ := hv
    exact ⟨s, (h s).1 hs, e⟩
  | _ => exact hv

/-- Every value of either operand has the merged type, null included, for types that do not pair an array of
`any` with another array and whose one-sided fields are `any`. -/
theorem C08_merge_values (same : VT → VT → Bool) (hs : ∀ a b, same a b = true → a = b)
    (hc : ∀ a b, same a b = same b a) {a b : VT} (h : Alike (fun _ _ => True) (fun t => t = .any) a b)
    (ha : WF a) (hb : WF b) (v : Val) (hv : Inh a v ∨ Inh b v) : Inh (merge same a b) v := by
  rcases hv with hv | hv
  · exact inh_merge_left same h ha hb v hv
  · exact C08_same_values (C08_merge_comm same hs hc b a hb ha) (C08_merge_wf same a b ha hb) v
      (inh_merge_left same (h.symm fun _ _ _ => trivial) hb ha v hv)

/-! ### Inferred types -/

mutual
/-- JSON values whose objects have distinct keys and whose arrays have only scalar elements -/
def Flat : Val → Prop
  | .arr xs => ∀ x ∈ xs, x.isArr = false ∧ x.isObj = false ∧ (∀ d, x ≠ .dyn d)
  | .obj o => (aKeys o).Nodup ∧ FlatFields o
  | .dyn _ => False
  | _ => True
def FlatFields : List (String × Val) → Prop
  | [] => True
  | (_, v) :: r => Flat v ∧ FlatFields r
end

theorem scalar_alike (p : VT → VT → Prop) (q : VT → Prop) (a b : VT) (hp : p a b)
    (h : ∀ x, a.unwrap.1 ≠ .arr x) (h' : ∀ x, a.unwrap.1 ≠ .obj x) : Alike p q a b :=
  .mk hp (fun x _ e _ => absurd e (h x)) (fun x _ e _ => absurd e (h x))
    (fun x _ e _ => absurd e (h' x)) (fun x _ e _ => absurd e (h' x))

/-- the types that occur while inferring the element type of an array of scalars -/
def Plain (t : VT) : Prop :=
  t = .any ∨ t = .null ∨ t = .bool ∨ t = .number ∨ t = .string ∨ t = .nullable .bool ∨ t = .nullable .number ∨
    t = .nullable .string

theorem Plain.wf {t : VT} (h : Plain t) : WF t := by
  rcases h with rfl | rfl | rfl | rfl | rfl | rfl | rfl | rfl <;> repeat constructor

theorem Plain.merge (same : VT → VT → Bool) {a b : VT} (ha : Plain a) (hb : Plain b) : Plain (merge same a b) := by
  rw [merge_eq]
  rcases ha with rfl | rfl | rfl | rfl | rfl | rfl | rfl | rfl <;>
    rcases hb with rfl | rfl | rfl | rfl | rfl | rfl | rfl | rfl <;> simp [Plain, core, VT.unwrap, fin, loose]

theorem infer_scalar (x : Val) (h : x.isArr = false ∧ x.isObj = false ∧ (∀ d, x ≠ .dyn d)) :
    Plain (infer x) ∧ Inh (infer x) x := by
  cases x <;> simp_all [infer, Plain, Inh, Val.isArr, Val.isObj]

theorem inferRest_inh (xs : List Val) : ∀ (acc : VT), Plain acc →
    (∀ x ∈ xs, x.isArr = false ∧ x.isObj = false ∧ (∀ d, x ≠ .dyn d)) →
    (∀ v, Inh acc v → Inh (inferRest acc xs) v) ∧ ∀ x ∈ xs, Inh (inferRest acc xs) x := by
  induction xs with
  | nil => intro acc _ _; exact ⟨fun v h => by rw [inferRest]; exact h, fun _ h => nomatch h⟩
  | cons x xs ih =>
    intro acc hp hx
    obtain ⟨px, ix⟩ := infer_scalar x (hx x List.mem_cons_self)
    obtain ⟨h1, h2⟩ := ih (VT.merge (fun _ _ => false) acc (infer x)) (Plain.merge _ hp px)
      (fun y hy => hx y (List.mem_cons_of_mem _ hy))
    have hal : Alike (fun _ _ => True) (fun t => t = .any) acc (infer x) := by
      refine scalar_alike _ _ _ _ trivial ?_ ?_ <;> intro y <;>
        rcases hp with rfl | rfl | rfl | rfl | rfl | rfl | rfl | rfl <;> simp [VT.unwrap]
    have hm := fun v hv => C08_merge_values (fun _ _ => false) (fun _ _ h => nomatch h) (fun _ _ => rfl) hal hp.wf px.wf v hv
    rw [inferRest]
    refine ⟨fun v hv => h1 v (hm v (.inl hv)), fun y hy => ?_⟩
    rcases List.mem_cons.1 hy with rfl | hy
    · exact h1 _ (hm _ (.inr ix))
    · exact h2 y hy

theorem inferFields_get (o : List (String × Val)) (k : String) : aGet (inferFields o) k = (aGet o k).map infer := by
  induction o with
  | nil => rfl
  | cons kv r ih =>
    obtain ⟨k', v⟩ := kv
    rw [inferFields, aGet_cons, aGet_cons, ih]
    split <;> rfl

mutual
/-- A JSON value whose arrays have only scalar elements has the type inferred for it. -/
theorem C08_infer (v : Val) (h : Flat v) : Inh (infer v) v := by
  match v, h with
  | .null, _ => simp [infer, Inh]
  | .bool _, _ => simp [infer, Inh]
  | .num _, _ => simp [infer, Inh]
  | .str _, _ => simp [infer, Inh]
  | .arr [], _ => simp [infer, Inh]
  | .arr (x :: xs), h =>
    simp only [Flat] at h
    simp only [infer, Inh]
    obtain ⟨px, ix⟩ := infer_scalar x (h x List.mem_cons_self)
    obtain ⟨h1, h2⟩ := inferRest_inh xs _ px fun y hy => h y (List.mem_cons_of_mem _ hy)
    refine ⟨_, rfl, fun y hy => ?_⟩
    rcases List.mem_cons.1 hy with rfl | hy
    · exact h1 _ ix
    · exact h2 y hy
  | .obj o, h =>
    simp only [Flat] at h
    simp only [infer, Inh]
    exact ⟨o, rfl, infer_fields o o h.2 fun k v hm => aGet_of_mem h.1 hm⟩
theorem infer_fields (o r : List (String × Val)) (h : FlatFields r)
    (hget : ∀ k v, (k, v) ∈ r → aGet o k = some v) : InhFields o (inferFields r) := by
  match r, h with
  | [], _ => simp [inferFields, InhFields]
  | (k, v) :: r, h =>
    simp only [FlatFields] at h
    simp only [inferFields, InhFields]
    refine ⟨?_, infer_fields o r h.2 fun k v hm => hget k v (List.mem_cons_of_mem _ hm)⟩
    rw [hget k v List.mem_cons_self]
    exact C08_infer v h.1
end

/-- The empty array is accepted wherever an array is. -/
theorem C08_infer_empty (t : VT) : sat (infer (.arr [])) (.arr t) = true := by
  show sat (.arr .any) (.arr t) = true
  cases t with
  | nullable t => cases t <;> simp [sat]
  | _ => simp [sat]

/-- Negative: a nested array need not have the type inferred for it. -/
theorem C08_infer_nested :
    let v : Val := .arr [.arr [.str "x", .num 1], .arr [.bool true]]
    infer v = .arr (.arr .bool) ∧ ¬ Inh (infer v) v := by
  have h : infer (.arr [.arr [.str "x", .num 1], .arr [.bool true]]) = .arr (.arr .bool) := by
    simp only [infer, inferRest, merge_eq]; rfl
  refine ⟨h, ?_⟩
  show ¬ Inh (infer _) _
  rw [h]
  simp [Inh]

/-! ### Concrete cases -/

/-- two record types as they come from two branches -/
def c08a : VT := .obj [("id", .string), ("tags", .arr (.const "x")), ("n", .nullable .number)]
def c08b : VT := .obj [("n", .number), ("tags", .arr (.enum none ["y", "x"])), ("id", .const "k"),
  ("note", .nullable .string)]

theorem c08a_wf : WF c08a := by
  refine .obj (by decide) ?_
  simp only [List.mem_cons, Prod.mk.injEq, List.not_mem_nil, or_false]
  rintro k t (⟨-, rfl⟩ | ⟨-, rfl⟩ | ⟨-, rfl⟩) <;> repeat constructor

theorem c08b_wf : WF c08b := by
  refine .obj (by decide) ?_
  simp only [List.mem_cons, Prod.mk.injEq, List.not_mem_nil, or_false]
  rintro k t (⟨-, rfl⟩ | ⟨-, rfl⟩ | ⟨-, rfl⟩ | ⟨-, rfl⟩) <;> repeat constructor

example : merge (fun _ _ => false) c08a c08b = .obj [("id", .string), ("tags", .arr (.enum none ["y", "x"])),
    ("n", .nullable .number), ("note", .nullable .string)] := by
  rw [merge_eq]
  simp only [c08a, c08b, unwrap, core, mgFields, aGet, aSet]
  rfl

theorem c08_alike : Alike NullsAlike (fun t => t.loose = true) c08a c08b := by
  refine .mk (by simp [NullsAlike, c08a, c08b, unwrap]) (by simp [c08a, unwrap]) (by simp [c08a, unwrap]) ?_ ?_
  · intro o o' ho ho' k t
    simp only [c08a, c08b, unwrap, VT.obj.injEq] at ho ho'
    subst ho ho'
    constructor
    · simp only [aGet]; grind
    · simp only [aGet]; grind [loose]
  · intro o o' ho ho' k t t' h h'
    simp only [c08a, c08b, unwrap, VT.obj.injEq] at ho ho'
    subst ho ho'
    have hk : k = "id" ∨ k = "tags" ∨ k = "n" := by simp only [aGet] at h; grind
    rcases hk with rfl | rfl | rfl <;> simp [aGet] at h h' <;> subst h h'
    · exact scalar_alike _ _ _ _ (by simp [NullsAlike, unwrap]) (by simp [unwrap]) (by simp [unwrap])
    · refine .mk (by simp [NullsAlike, unwrap]) (by simp [unwrap]) (fun x y hx hy => ?_) (by simp [unwrap])
        (by simp [unwrap])
      simp only [unwrap, VT.arr.injEq] at hx hy
      subst hx hy
      exact scalar_alike _ _ _ _ (by simp [NullsAlike, unwrap]) (by simp [unwrap]) (by simp [unwrap])
    · exact scalar_alike _ _ _ _ (by simp [NullsAlike, unwrap]) (by simp [unwrap]) (by simp [unwrap])

example : sat c08a (merge (fun _ _ => false) c08a c08b) = true ∧ sat c08b (merge (fun _ _ => false) c08a c08b) = true :=
  C08_upper_partial (fun _ _ => false) (fun _ _ h => nomatch h) (fun _ _ => rfl) c08_alike c08a_wf c08b_wf

/-- null and a boolean: the merged type has both values although `null` does not satisfy it -/
example : Inh (merge (fun _ _ => false) .null .bool) .null ∧ Inh (merge (fun _ _ => false) .null .bool) (.bool true) :=
  have h := fun v hv => C08_merge_values (fun _ _ => false) (fun _ _ h => nomatch h) (fun _ _ => rfl)
    (scalar_alike _ _ .null .bool trivial (by simp [unwrap]) (by simp [unwrap])) .null .bool v hv
  ⟨h _ (.inl (by simp [Inh])), h _ (.inr (by simp [Inh]))⟩

/-- inference over an array of mixed scalars -/
example : Flat (.obj [("a", .arr [.null, .num 1]), ("b", .obj [("c", .str "x")])]) ∧
    infer (.obj [("a", .arr [.null, .num 1]), ("b", .obj [("c", .str "x")])]) =
      .obj [("a", .arr (.nullable .number)), ("b", .obj [("c", .string)])] := by
  constructor
  · simp [Flat, FlatFields, Val.isArr, Val.isObj]
  · simp only [infer, inferFields, inferRest, merge_eq]; rfl

/-- The name of two enumerations together: both names if both have one. -/
theorem C08_enum_names (same : VT → VT → Bool) (n n' : Option String) (vs vs' : List String) :
    ∃ m ws, merge same (.enum n vs) (.enum n' vs') = .enum m ws ∧
      (∀ a b, n = some a → n' = some b → m = some (a ++ " | " ++ b)) ∧ (n = none ∨ n' = none → m = none) := by
  refine ⟨_, _, by simp only [merge_eq, unwrap, core, fin]; rfl, ?_, ?_⟩
  · rintro a b rfl rfl
    rfl
  · rintro (rfl | rfl)
    · rfl
    · cases n <;> rfl

end Zen
