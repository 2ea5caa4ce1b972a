import Verif.Types.SchemaType
import Verif.Props.C79
/-
C87: what a JSON schema accepts has the type that is read from the schema, and the reports about
schemas are exact.
-/
namespace Zen.Sch.C87
open Zen VT Zen.Ts Zen.Sch

/-! ## Specification -/

/-- the values of a `type` of JSON Schema; there is no validator for another name -/
def OfKind (k : String) (v : Val) : Prop :=
  match k with
  | "object" => ∃ fs, v = .obj fs
  | "array" => ∃ xs, v = .arr xs
  | "string" => ∃ s, v = .str s
  | "number" | "integer" => ∃ n, v = .num n
  | "boolean" => ∃ b, v = .bool b
  | "null" => v = .null
  | _ => False

mutual
/-- What a schema accepts (JSON Schema, Draft 7, which the engine sets: nodes/validator_cache.rs:40).
Only the keywords that the types are read from restrict, `oneOf` needs some case only, and beside
`$ref` everything goes: a validator accepts this or less.  `dict` has the values of dictionaries, which
replace a reference (C33, decision_graph/schema_dict.rs:63-116). -/
inductive Accepts (dict : String → List String) : Val → Val → Prop
  | free {s v} : (∀ m, s ≠ .obj m) → Accepts dict s v
  | ref {m v} : (aGet m "$ref").isSome → Accepts dict (.obj m) v
  | dictionary {m n x} : aGet m "$dictionary" = some (.str n) → x ∈ dict n → Accepts dict (.obj m) (.str x)
  | plain {m v} : aGet m "$dictionary" = none →
    (∀ cs, aGet m "anyOf" = some (.arr cs) → AcceptsSome dict cs v) →
    (∀ cs, aGet m "oneOf" = some (.arr cs) → AcceptsSome dict cs v) →
    (∀ vs, aGet m "enum" = some (.arr vs) → v ∈ vs) →
    (∀ k, aGet m "type" = some (.str k) → OfKind k v) →
    (∀ ks, aGet m "type" = some (.arr ks) → ∃ k, .str k ∈ ks ∧ OfKind k v) →
    (∀ ps fs k s x, aGet m "properties" = some (.obj ps) → v = .obj fs → (k, s) ∈ ps → aGet fs k = some x → Accepts dict s x) →
    (∀ req fs k, aGet m "required" = some (.arr req) → v = .obj fs → .str k ∈ req → (aGet fs k).isSome) →
    (∀ it xs x, aGet m "items" = some it → v = .arr xs → x ∈ xs → Accepts dict it x) → Accepts dict (.obj m) v
inductive AcceptsSome (dict : String → List String) : List Val → Val → Prop
  | mk {c cs v} : c ∈ cs → Accepts dict c v → AcceptsSome dict cs v
end

theorem AcceptsSome.out {dict : String → List String} {cs : List Val} {v : Val} : AcceptsSome dict cs v → ∃ c, c ∈ cs ∧ Accepts dict c v
  | .mk h h' => ⟨_, h, h'⟩

/-- the schemas within a schema -/
inductive Sub : Val → Val → Prop
  | refl {s} : Sub s s
  | case {m cs c x} : casesOf m = some cs → c ∈ cs → Sub c x → Sub (.obj m) x
  | prop {m ps k s x} : propsOf m = some ps → (k, s) ∈ ps → Sub s x → Sub (.obj m) x
  | item {m s x} : aGet m "items" = some s → Sub s x → Sub (.obj m) x

def NoRef (s : Val) : Prop := ∀ m, Sub s (.obj m) → aGet m "$ref" = none

/-- the types of cases, and those of a list of types, can be merged (C08) -/
def Fair (same : VT → VT → Bool) (D : String → Option VT) (s : Val) : Prop := ∀ m, Sub s (.obj m) →
  (∀ cs, casesOf m = some cs → MergeOk same (typeCases same D cs)) ∧
  ∀ ks, aGet m "type" = some (.arr ks) →
    MergeOk same ((ks.filterMap asStr).map (typed (objectType same D m) (itemType same D m) m))

/-! ## Reading -/

theorem bind_str {o : Option Val} {s : String} : o.bind asStr = some s ↔ o = some (.str s) := by
  cases o with
  | none => simp
  | some v => cases v <;> simp [asStr]

theorem bind_arr {o : Option Val} {xs : List Val} : o.bind asArr = some xs ↔ o = some (.arr xs) := by
  cases o with
  | none => simp
  | some v => cases v <;> simp [asArr]

theorem bind_obj {o : Option Val} {m : List (String × Val)} : o.bind asObj = some m ↔ o = some (.obj m) := by
  cases o with
  | none => simp
  | some v => cases v <;> simp [asObj]

theorem asStr_some {v : Val} {s : String} : asStr v = some s ↔ v = .str s := by cases v <;> simp [asStr]

theorem casesOf_some {m : List (String × Val)} {cs : List Val} (h : casesOf m = some cs) :
    aGet m "anyOf" = some (.arr cs) ∨ aGet m "oneOf" = some (.arr cs) := by
  unfold casesOf at h
  rw [bind_arr] at h
  split at h
  · rename_i v hv; rw [h] at hv; exact .inl hv
  · exact .inr h

theorem filterMap_all : ∀ {vs : List Val}, (vs.filterMap asStr).length = vs.length → ∀ v ∈ vs, ∃ s, s ∈ vs.filterMap asStr ∧ v = .str s
  | [], _, _, h => (nomatch h)
  | x :: vs, hl, v, h => by
    have hle := List.length_filterMap_le asStr vs
    cases hx : asStr x with
    | none =>
      rw [List.filterMap_cons, hx] at hl
      simp only [List.length_cons] at hl
      omega
    | some s =>
      rw [List.filterMap_cons, hx] at hl ⊢
      simp only [List.length_cons, Nat.add_right_cancel_iff] at hl
      rcases List.mem_cons.1 h with rfl | h
      · exact ⟨s, by simp, asStr_some.1 hx⟩
      · obtain ⟨t, ht, e⟩ := filterMap_all hl v h
        exact ⟨t, List.mem_cons_of_mem _ ht, e⟩

theorem enumOf_some {m : List (String × Val)} {ss : List String} (h : enumOf m = some ss) :
    ∃ vs, aGet m "enum" = some (.arr vs) ∧ ∀ v ∈ vs, ∃ s ∈ ss, v = .str s := by
  unfold enumOf at h
  split at h
  · rename_i vs hv
    dsimp only at h
    split at h
    · rename_i hc
      injection h with h
      simp only [Bool.and_eq_true, decide_eq_true_eq] at hc
      subst h
      exact ⟨vs, bind_arr.1 hv, fun v hv => (filterMap_all hc.1 v hv).imp fun _ h => h⟩
    · cases h
  · cases h

theorem mem_required {m : List (String × Val)} {k : String} (h : k ∈ requiredOf m) :
    ∃ l, aGet m "required" = some (.arr l) ∧ .str k ∈ l := by
  unfold requiredOf at h
  cases hx : (aGet m "required").bind asArr with
  | none => rw [hx] at h; cases h
  | some l =>
    rw [hx] at h
    obtain ⟨v, hv, e⟩ := List.mem_filterMap.1 (by simpa using h)
    exact ⟨l, bind_arr.1 hx, (asStr_some.1 e) ▸ hv⟩

theorem mem_typeCases {same : VT → VT → Bool} {D : String → Option VT} {T : VT} : ∀ {cs : List Val},
    T ∈ typeCases same D cs ↔ ∃ c ∈ cs, T = typeWith same D c
  | [] => by simp [typeCases]
  | c :: cs => by rw [typeCases, List.mem_cons, mem_typeCases]; simp

/-! ## The types are well formed -/

theorem fieldTypes_all {same : VT → VT → Bool} {D : String → Option VT} {req : List String} {P : String → VT → Prop} :
    ∀ (ps : List (String × Val)) (fields : List (String × VT)), (∀ e ∈ fields, P e.1 e.2) →
    (∀ k s, (k, s) ∈ ps → P k (if k ∈ req then typeWith same D s else wrapOptional (typeWith same D s))) →
    ∀ e ∈ fieldTypes same D req fields ps, P e.1 e.2
  | [], fields, h, _ => by rw [fieldTypes]; exact h
  | (k, s) :: ps, fields, h, hp => by
    rw [fieldTypes]
    refine fieldTypes_all ps _ (fun e he => ?_) fun k' s' h' => hp k' s' (List.mem_cons_of_mem _ h')
    rcases Policy.entry_aSet he with rfl | he
    · exact hp k s List.mem_cons_self
    · exact h e he

theorem fieldTypes_nodup {same : VT → VT → Bool} {D : String → Option VT} {req : List String} :
    ∀ (ps : List (String × Val)) (fields : List (String × VT)), (aKeys fields).Nodup → (aKeys (fieldTypes same D req fields ps)).Nodup
  | [], fields, h => by rw [fieldTypes]; exact h
  | (k, s) :: ps, fields, h => by
    rw [fieldTypes]
    exact fieldTypes_nodup ps _ (aKeys_aSet_nodup _ _ h)

theorem typed_wf {o i : VT} (ho : WF o) (hi : WF i) (m : List (String × Val)) (k : String) : WF (typed o i m k) := by
  unfold typed
  split
  · exact ho
  · exact .arr hi
  · split
    · exact .date
    · exact .date
    · exact .string
  · exact .number
  · exact .number
  · exact .bool
  · exact .null
  · exact .any

section
variable {same : VT → VT → Bool} {D : String → Option VT}

theorem type_wf (hD : ∀ n T, D n = some T → WF T) (n : Nat) : ∀ s : Val, sizeOf s < n → WF (typeWith same D s) := by
  induction n with
  | zero => intro s h; omega
  | succ n ih =>
    intro s hn
    cases s with
    | obj m =>
      have hm : sizeOf m < n := by simp at hn; omega
      have hi : WF (itemType same D m) := by
        rw [itemType]
        split
        · rename_i it h; exact ih it (by have := size_get h; omega)
        · exact .any
      have ho : WF (objectType same D m) := by
        rw [objectType]
        split
        · rename_i ps h
          have hps := size_props h
          refine .obj (fieldTypes_nodup ps [] (by simp)) fun k t hk => ?_
          refine fieldTypes_all (P := fun _ t => WF t) ps [] (by simp) (fun k s hs => ?_) (k, t) hk
          have hsz := List.sizeOf_lt_of_mem hs
          simp at hsz
          have hw := ih s (by omega)
          split
          · exact hw
          · exact wf_wrap hw
        · exact .any
      rw [typeWith]
      split
      · rename_i name _
        cases hx : D name with
        | none => exact .any
        | some T => exact hD _ _ hx
      · split
        · rename_i cs h
          refine mergeAll_wf same fun T hT => ?_
          obtain ⟨c, hc, rfl⟩ := mem_typeCases.1 hT
          have := List.sizeOf_lt_of_mem hc
          have := size_cases h
          exact ih c (by omega)
        · split
          · exact .enum
          · split
            · exact typed_wf ho hi m _
            · refine mergeAll_wf same fun T hT => ?_
              obtain ⟨k, _, rfl⟩ := List.mem_map.1 hT
              exact typed_wf ho hi m k
            · exact .any
    | _ => rw [typeWith]; exact .any; intro m h; cases h

/-! ## The type covers what is accepted -/

theorem typed_inh {o i : VT} {m : List (String × Val)} {k : String} {v : Val} (h : OfKind k v)
    (ho : ∀ fs, v = .obj fs → Inh o v) (hi : ∀ xs, v = .arr xs → ∀ x ∈ xs, Inh i x) : Inh (typed o i m k) v := by
  unfold OfKind at h
  unfold typed
  split
  · obtain ⟨fs, rfl⟩ := h; exact ho fs rfl
  · obtain ⟨xs, rfl⟩ := h
    rw [Inh]
    exact ⟨xs, rfl, hi xs rfl⟩
  · obtain ⟨s, rfl⟩ := h
    split <;> simp [Inh]
  · obtain ⟨n, rfl⟩ := h; simp [Inh]
  · obtain ⟨n, rfl⟩ := h; simp [Inh]
  · obtain ⟨b, rfl⟩ := h; simp [Inh]
  · simp only at h; subst h; simp [Inh]
  · simp [Inh]

variable (hs : ∀ a b, same a b = true → a = b) (hc : ∀ a b, same a b = same b a)
include hs hc

theorem sound {dict : String → List String} (hD : ∀ n T, D n = some T → WF T ∧ ∀ x ∈ dict n, Inh T (.str x)) (n : Nat) :
    ∀ (s v : Val), sizeOf s < n → NoRef s → Fair same D s → Accepts dict s v → Inh (typeWith same D s) v := by
  induction n with
  | zero => intro s v h; omega
  | succ n ih =>
    intro s v hn hr hf ha
    have wf : ∀ s : Val, WF (typeWith same D s) := fun s => type_wf (fun n T h => (hD n T h).1) _ s (Nat.lt_succ_self _)
    cases ha with
    | free hm => rw [typeWith]; trivial; exact hm
    | ref h => rename_i m; rw [hr m .refl] at h; cases h
    | dictionary h hx =>
      rename_i m name x
      rw [typeWith]
      rw [h]
      simp only [Option.bind_some, asStr]
      cases hx' : D name with
      | none => trivial
      | some T => exact (hD _ _ hx').2 x hx
    | plain hd h1 h2 h3 h4 h5 h6 h7 h8 =>
      rename_i m
      have hm : sizeOf m < n := by simp at hn; omega
      have hi : ∀ xs, v = .arr xs → ∀ x ∈ xs, Inh (itemType same D m) x := by
        intro xs e x hx
        rw [itemType]
        split
        · rename_i it h
          exact ih it x (by have := size_get h; omega) (fun m' hs' => hr m' (.item h hs')) (fun m' hs' => hf m' (.item h hs'))
            (h8 it xs x h e hx)
        · trivial
      have ho : ∀ fs, v = .obj fs → Inh (objectType same D m) v := by
        intro fs e
        rw [objectType]
        split
        · rename_i ps h
          have hps := size_props h
          have hp : aGet m "properties" = some (.obj ps) := bind_obj.1 h
          rw [Inh]
          refine ⟨fs, e, (inhFields_iff fs _).2 fun k t hk => ?_⟩
          refine fieldTypes_all (P := fun k t => Inh t ((aGet fs k).getD .null)) ps [] (by simp) (fun k s hk => ?_) (k, t) hk
          have hsz := List.sizeOf_lt_of_mem hk
          simp at hsz
          have hin : ∀ x, aGet fs k = some x → Inh (typeWith same D s) x := fun x hx =>
            ih s x (by omega) (fun m' hs' => hr m' (.prop h hk hs')) (fun m' hs' => hf m' (.prop h hk hs')) (h6 ps fs k s x hp e hk hx)
          cases hx : aGet fs k with
          | some x =>
            dsimp only [Option.getD]
            split
            · exact hin x hx
            · exact inh_wrap (.inr (hin x hx))
          | none =>
            dsimp only [Option.getD]
            rw [if_neg]
            · exact inh_wrap (.inl rfl)
            · intro hk'
              obtain ⟨l, hl, hkl⟩ := mem_required hk'
              have := h7 l fs k hl e hkl
              rw [hx] at this
              cases this
        · trivial
      rw [typeWith]
      rw [hd]
      simp only [Option.bind_none]
      split
      · rename_i cs h
        refine mergeAll_some hs hc (fun T hT => ?_) ((hf m .refl).1 cs h) ?_
        · obtain ⟨c, _, rfl⟩ := mem_typeCases.1 hT; exact wf c
        · have ⟨c, hcm, hca⟩ : ∃ c, c ∈ cs ∧ Accepts dict c v := ((casesOf_some h).elim (h1 cs) (h2 cs)).out
          have := List.sizeOf_lt_of_mem hcm
          have := size_cases h
          exact ⟨_, mem_typeCases.2 ⟨c, hcm, rfl⟩, ih c v (by omega) (fun m' hs' => hr m' (.case h hcm hs'))
            (fun m' hs' => hf m' (.case h hcm hs')) hca⟩
      · split
        · rename_i ss h
          obtain ⟨vs, hv, hall⟩ := enumOf_some h
          rw [Inh]
          exact hall v (h3 vs hv)
        · split
          · rename_i k h
            exact typed_inh (h4 k h) ho hi
          · rename_i ks h
            refine mergeAll_some hs hc (fun T hT => ?_) ((hf m .refl).2 ks h) ?_
            · obtain ⟨k, _, rfl⟩ := List.mem_map.1 hT
              refine typed_wf ?_ ?_ m k
              · rw [objectType]
                split
                · rename_i ps h
                  refine .obj (fieldTypes_nodup ps [] (by simp)) fun k t hk => ?_
                  refine fieldTypes_all (P := fun _ t => WF t) ps [] (by simp) (fun k s _ => ?_) (k, t) hk
                  split
                  · exact wf s
                  · exact wf_wrap (wf s)
                · exact .any
              · rw [itemType]
                split
                · exact wf _
                · exact .any
            · obtain ⟨k, hk, hv⟩ := h5 ks h
              exact ⟨_, List.mem_map.2 ⟨k, List.mem_filterMap.2 ⟨.str k, hk, rfl⟩, rfl⟩, typed_inh hv ho hi⟩
          · trivial

/-- **C87.** What a schema accepts has the type that is read from it, for all schemas without `$ref`
in which the types of cases can be merged. -/
theorem C87_type {dict : String → List String} (hD : ∀ n T, D n = some T → WF T ∧ ∀ x ∈ dict n, Inh T (.str x))
    {s v : Val} (hr : NoRef s) (hf : Fair same D s) (h : Accepts dict s v) : Inh (typeWith same D s) v :=
  sound hs hc hD _ s v (Nat.lt_succ_self _) hr hf h
end

/-- schemas without cases and without lists of types are fair -/
theorem C87_simple (same : VT → VT → Bool) (D : String → Option VT) {s : Val}
    (h : ∀ m, Sub s (.obj m) → casesOf m = none ∧ ∀ ks, aGet m "type" ≠ some (.arr ks)) : Fair same D s :=
  fun m hm => ⟨fun cs hc => (by rw [(h m hm).1] at hc; cases hc), fun ks hk => absurd hk ((h m hm).2 ks)⟩

/-! ## Null -/

theorem admitsAny_iff : ∀ cs : List Val, admitsAny cs = true ↔ ∃ c ∈ cs, admitsNull c = true
  | [] => by simp [admitsAny]
  | c :: cs => by rw [admitsAny, Bool.or_eq_true, admitsAny_iff cs]; simp

theorem null_kind {k : String} (h : OfKind k .null) : k = "null" := by
  unfold OfKind at h
  split at h <;> first | (obtain ⟨_, e⟩ := h; cases e) | rfl | exact h.elim

theorem admits_aux {dict : String → List String} (n : Nat) : ∀ s : Val, sizeOf s < n → NoRef s → Accepts dict s .null → admitsNull s = true := by
  induction n with
  | zero => intro s h; omega
  | succ n ih =>
    intro s hn hr ha
    cases ha with
    | free hm => rw [admitsNull]; exact hm
    | ref h => rename_i m; rw [hr m .refl] at h; cases h
    | plain hd h1 h2 h3 h4 h5 h6 h7 h8 =>
      rename_i m
      rw [admitsNull]
      rw [hd]
      simp only [Option.isSome_none, Bool.false_eq_true, if_false]
      split
      · rename_i cs h
        obtain ⟨c, hcm, hca⟩ : ∃ c, c ∈ cs ∧ Accepts dict c .null := ((casesOf_some h).elim (h1 cs) (h2 cs)).out
        have := List.sizeOf_lt_of_mem hcm
        have := size_cases h
        exact (admitsAny_iff cs).2 ⟨c, hcm, ih c (by simp at hn; omega) (fun m' hs' => hr m' (.case h hcm hs')) hca⟩
      · split
        · rename_i vs h
          exact List.any_eq_true.2 ⟨.null, h3 vs (bind_arr.1 h), rfl⟩
        · split
          · rename_i k h
            rw [null_kind (h4 k h)]; rfl
          · rename_i ks h
            obtain ⟨k, hk, hv⟩ := h5 ks h
            exact List.any_eq_true.2 ⟨k, List.mem_filterMap.2 ⟨.str k, hk, rfl⟩, by rw [null_kind hv]; rfl⟩
          · rfl

/-- **C87.** A schema that accepts null is seen to do so. -/
theorem C87_admits {dict : String → List String} {s : Val} (hr : NoRef s) (h : Accepts dict s .null) : admitsNull s = true :=
  admits_aux _ s (Nat.lt_succ_self _) hr h

/-! ## Reports -/

/-- `x` is within `s`, and its path is `q` when that of `s` is `p` -/
inductive At : Val → String → Val → String → Prop
  | refl {s p} : At s p s p
  | prop {m ps k s p x q} : propsOf m = some ps → (k, s) ∈ ps → At s (propPath p k) x q → At (.obj m) p x q
  | item {m s p x q} : aGet m "items" = some s → At s (itemPath p) x q → At (.obj m) p x q

theorem At.sub {s : Val} {p : String} {x : Val} {q : String} (h : At s p x q) : Sub s x := by
  induction h with
  | refl => exact .refl
  | prop h1 h2 _ ih => exact .prop h1 h2 ih
  | item h1 _ ih => exact .item h1 ih

theorem mem_divergeProps {req : List String} {path q : String} : ∀ {ps : List (String × Val)},
    q ∈ divergeProps req path ps ↔ ∃ k s, (k, s) ∈ ps ∧
      ((k ∉ req ∧ admitsNull s = false ∧ q = propPath path k) ∨ q ∈ divergences s (propPath path k))
  | [] => by simp [divergeProps]
  | (k, s) :: ps => by
    rw [divergeProps, List.mem_append, List.mem_append, mem_divergeProps (ps := ps)]
    constructor
    · rintro ((h | h) | ⟨k', s', h1, h2⟩)
      · split at h
        · rename_i hc
          exact ⟨k, s, List.mem_cons_self, .inl ⟨hc.1, hc.2, by simpa using h⟩⟩
        · cases h
      · exact ⟨k, s, List.mem_cons_self, .inr h⟩
      · exact ⟨k', s', List.mem_cons_of_mem _ h1, h2⟩
    · rintro ⟨k', s', h1, h2⟩
      rcases List.mem_cons.1 h1 with e | h1
      · cases e
        rcases h2 with ⟨h2, h3, rfl⟩ | h2
        · exact .inl (.inl (by rw [if_pos ⟨h2, h3⟩]; simp))
        · exact .inl (.inr h2)
      · exact .inr ⟨k', s', h1, h2⟩

theorem mem_divergences {m : List (String × Val)} {p q : String} : q ∈ divergences (.obj m) p ↔
    (∃ it, aGet m "items" = some it ∧ q ∈ divergences it (itemPath p)) ∨
    ∃ ps, propsOf m = some ps ∧ q ∈ divergeProps (requiredOf m) p ps := by
  rw [divergences, List.mem_append]
  refine or_congr ?_ ?_
  · split
    · rename_i it h; rw [h]; simp
    · rename_i h; rw [h]; simp
  · split
    · rename_i it h; rw [h]; simp
    · rename_i h; rw [h]; simp

theorem divergences_at (n : Nat) : ∀ (s : Val) (p q : String), sizeOf s < n → q ∈ divergences s p →
    ∃ m path ps k c, At s p (.obj m) path ∧ propsOf m = some ps ∧ (k, c) ∈ ps ∧ k ∉ requiredOf m ∧ admitsNull c = false ∧
      q = propPath path k := by
  induction n with
  | zero => intro s p q h; omega
  | succ n ih =>
    intro s p q hn h
    cases s with
    | obj m =>
      simp at hn
      rcases mem_divergences.1 h with ⟨it, h1, h2⟩ | ⟨ps, h1, h2⟩
      · obtain ⟨m', path, ps, k, c, ha, hb⟩ := ih it _ q (by have := size_get h1; omega) h2
        exact ⟨m', path, ps, k, c, .item h1 ha, hb⟩
      · obtain ⟨k, s, hk, ⟨h3, h4, h5⟩ | h3⟩ := mem_divergeProps.1 h2
        · exact ⟨m, p, ps, k, s, .refl, h1, hk, h3, h4, h5⟩
        · have := List.sizeOf_lt_of_mem hk
          simp at this
          obtain ⟨m', path, ps', k', c, ha, hb⟩ := ih s _ q (by have := size_props h1; omega) h3
          exact ⟨m', path, ps', k', c, .prop h1 hk ha, hb⟩
    | _ => rw [divergences] at h; cases h; intro m e; cases e

/-- **C87.** A path is reported exactly when it leads, through items and properties, to a property
that is not required and does not admit null. -/
theorem C87_divergences (s : Val) (q : String) : q ∈ divergences s "" ↔
    ∃ m path ps k c, At s "" (.obj m) path ∧ propsOf m = some ps ∧ (k, c) ∈ ps ∧ k ∉ requiredOf m ∧ admitsNull c = false ∧
      q = propPath path k := by
  refine ⟨divergences_at _ s "" q (Nat.lt_succ_self _), ?_⟩
  rintro ⟨m, path, ps, k, c, ha, h1, h2, h3, h4, rfl⟩
  generalize "" = p at ha
  generalize hx : Val.obj m = x at ha
  induction ha with
  | refl => subst hx; exact mem_divergences.2 (.inr ⟨ps, h1, mem_divergeProps.2 ⟨k, c, h2, .inl ⟨h3, h4, rfl⟩⟩⟩)
  | prop h5 h6 _ ih => exact mem_divergences.2 (.inr ⟨_, h5, mem_divergeProps.2 ⟨_, _, h6, .inr (ih hx)⟩⟩)
  | item h5 _ ih => exact mem_divergences.2 (.inl ⟨_, h5, ih hx⟩)

/-- **C87.** No report is false: the type of the property has null, but the validator does not accept
null there. -/
theorem C87_no_false_report (same : VT → VT → Bool) (D : String → Option VT) (dict : String → List String) {s : Val} (hr : NoRef s)
    {q : String} (h : q ∈ divergences s "") : ∃ m path ps k c, At s "" (.obj m) path ∧ propsOf m = some ps ∧ (k, c) ∈ ps ∧
      q = propPath path k ∧ ¬ Accepts dict c .null ∧ Inh (wrapOptional (typeWith same D c)) .null := by
  obtain ⟨m, path, ps, k, c, h1, h2, h3, _, h5, h6⟩ := (C87_divergences s q).1 h
  refine ⟨m, path, ps, k, c, h1, h2, h3, h6, fun ha => ?_, inh_wrap (.inl rfl)⟩
  have hsub : ∀ {a b c : Val}, Sub a b → Sub b c → Sub a c := by
    intro a b c h h'
    induction h with
    | refl => exact h'
    | case h1 h2 _ ih => exact .case h1 h2 (ih h')
    | prop h1 h2 _ ih => exact .prop h1 h2 (ih h')
    | item h1 _ ih => exact .item h1 (ih h')
  rw [C87_admits (fun m' hm' => hr m' (hsub h1.sub (.prop h2 h3 hm'))) ha] at h5
  cases h5

/-- an `enum` of two or more strings and nothing else -/
def EnumOfStrings (m : List (String × Val)) : Prop :=
  ∃ vs, aGet m "enum" = some (.arr vs) ∧ 2 ≤ vs.length ∧ ∀ v ∈ vs, ∃ x, v = .str x

theorem inlineEnum_iff (m : List (String × Val)) : inlineEnum m = true ↔ EnumOfStrings m := by
  have hall : ∀ vs : List Val, (vs.filter fun v => (asStr v).isSome).length = vs.length ↔ ∀ v ∈ vs, ∃ x, v = .str x := by
    intro vs
    rw [List.length_filter_eq_length_iff]
    refine forall_congr' fun v => forall_congr' fun _ => ?_
    cases v <;> simp [asStr]
  unfold inlineEnum EnumOfStrings
  split
  · rename_i vs h
    rw [bind_arr] at h
    rw [Bool.and_eq_true, decide_eq_true_eq, decide_eq_true_eq, hall]
    constructor
    · rintro ⟨h1, h2⟩; exact ⟨vs, h, h2, h1⟩
    · rintro ⟨vs', h', h2, h1⟩; rw [h] at h'; cases h'; exact ⟨h1, h2⟩
  · rename_i h
    constructor
    · intro h'; cases h'
    · rintro ⟨vs, h', _⟩; rw [bind_arr.2 h'] at h; cases h

theorem mem_inlineProps {path q : String} : ∀ {ps : List (String × Val)},
    q ∈ inlineProps path ps ↔ ∃ k s, (k, s) ∈ ps ∧ q ∈ inlineEnums s (propPath path k)
  | [] => by simp [inlineProps]
  | (k, s) :: ps => by
    rw [inlineProps, List.mem_append, mem_inlineProps (ps := ps)]
    constructor
    · rintro (h | ⟨k', s', h1, h2⟩)
      · exact ⟨k, s, List.mem_cons_self, h⟩
      · exact ⟨k', s', List.mem_cons_of_mem _ h1, h2⟩
    · rintro ⟨k', s', h1, h2⟩
      rcases List.mem_cons.1 h1 with e | h1
      · cases e; exact .inl h2
      · exact .inr ⟨k', s', h1, h2⟩

theorem mem_inlineEnums {m : List (String × Val)} {p q : String} : q ∈ inlineEnums (.obj m) p ↔
    ((aGet m "$dictionary" = none ∧ p ≠ "" ∧ EnumOfStrings m ∧ q = p) ∨
    (∃ it, aGet m "items" = some it ∧ q ∈ inlineEnums it (itemPath p))) ∨
    ∃ ps, propsOf m = some ps ∧ q ∈ inlineProps p ps := by
  rw [inlineEnums, List.mem_append, List.mem_append]
  refine or_congr (or_congr ?_ ?_) ?_
  · rw [← inlineEnum_iff]
    split
    · rename_i h
      simp only [Bool.and_eq_true, Option.isNone_iff_eq_none, bne_iff_ne] at h
      simp [h.1.1, h.1.2, h.2]
    · rename_i h
      simp only [Bool.and_eq_true, Option.isNone_iff_eq_none, bne_iff_ne] at h
      constructor
      · intro h'; cases h'
      · rintro ⟨a, b, c, _⟩; exact absurd ⟨⟨a, b⟩, c⟩ h
  · split
    · rename_i it h; rw [h]; simp
    · rename_i h; rw [h]; simp
  · split
    · rename_i it h; rw [h]; simp
    · rename_i h; rw [h]; simp

theorem inlineEnums_at (n : Nat) : ∀ (s : Val) (p q : String), sizeOf s < n → q ∈ inlineEnums s p →
    ∃ m, At s p (.obj m) q ∧ aGet m "$dictionary" = none ∧ q ≠ "" ∧ EnumOfStrings m := by
  induction n with
  | zero => intro s p q h; omega
  | succ n ih =>
    intro s p q hn h
    cases s with
    | obj m =>
      simp at hn
      rcases mem_inlineEnums.1 h with (⟨h1, h2, h3, rfl⟩ | ⟨it, h1, h2⟩) | ⟨ps, h1, h2⟩
      · exact ⟨m, .refl, h1, h2, h3⟩
      · obtain ⟨m', ha, hb⟩ := ih it _ q (by have := size_get h1; omega) h2
        exact ⟨m', .item h1 ha, hb⟩
      · obtain ⟨k, s, hk, h3⟩ := mem_inlineProps.1 h2
        have := List.sizeOf_lt_of_mem hk
        simp at this
        obtain ⟨m', ha, hb⟩ := ih s _ q (by have := size_props h1; omega) h3
        exact ⟨m', .prop h1 hk ha, hb⟩
    | _ => rw [inlineEnums] at h; cases h; intro m e; cases e

/-- **C87.** A path is listed as having an enumeration of its own exactly when it leads, through items
and properties, to an `enum` of at least two strings that is no reference to a dictionary, and is not
the schema itself. -/
theorem C87_inline_enums (s : Val) (q : String) : q ∈ inlineEnums s "" ↔
    ∃ m, At s "" (.obj m) q ∧ aGet m "$dictionary" = none ∧ q ≠ "" ∧ EnumOfStrings m := by
  refine ⟨inlineEnums_at _ s "" q (Nat.lt_succ_self _), ?_⟩
  rintro ⟨m, ha, h1, h2, h3⟩
  generalize "" = p at ha
  generalize hx : Val.obj m = x at ha
  induction ha with
  | refl =>
    subst hx
    exact mem_inlineEnums.2 (.inl (.inl ⟨h1, h2, h3, rfl⟩))
  | prop h5 h6 _ ih => exact mem_inlineEnums.2 (.inr ⟨_, h5, mem_inlineProps.2 ⟨_, _, h6, ih h2 hx⟩⟩)
  | item h5 _ ih => exact mem_inlineEnums.2 (.inl (.inr ⟨_, h5, ih h2 hx⟩))

/-- `x` is somewhere in `v` -/
inductive Inside : Val → Val → Prop
  | refl {v} : Inside v v
  | elem {xs y x} : y ∈ xs → Inside y x → Inside (.arr xs) x
  | entry {m k y x} : (k, y) ∈ m → Inside y x → Inside (.obj m) x

mutual
theorem names_iff : ∀ (v : Val) (n : String), n ∈ dictionaryNames v ↔ ∃ m, Inside v (.obj m) ∧ aGet m "$dictionary" = some (.str n)
  | .obj m, n => by
    rw [dictionaryNames, List.mem_append, namesE_iff m n, Option.mem_toList, bind_str]
    constructor
    · rintro (h | ⟨k, y, hk, m', h1, h2⟩)
      · exact ⟨m, .refl, h⟩
      · exact ⟨m', .entry hk h1, h2⟩
    · rintro ⟨m', h1, h2⟩
      cases h1 with
      | refl => exact .inl h2
      | entry hk h1 => exact .inr ⟨_, _, hk, m', h1, h2⟩
  | .arr xs, n => by
    rw [dictionaryNames, namesL_iff xs n]
    constructor
    · rintro ⟨y, hy, m, h1, h2⟩; exact ⟨m, .elem hy h1, h2⟩
    · rintro ⟨m, h1, h2⟩
      cases h1 with
      | elem hy h1 => exact ⟨_, hy, m, h1, h2⟩
  | .null, n => by simp only [dictionaryNames, List.not_mem_nil, false_iff]; rintro ⟨m, h, _⟩; cases h
  | .bool _, n => by simp only [dictionaryNames, List.not_mem_nil, false_iff]; rintro ⟨m, h, _⟩; cases h
  | .num _, n => by simp only [dictionaryNames, List.not_mem_nil, false_iff]; rintro ⟨m, h, _⟩; cases h
  | .str _, n => by simp only [dictionaryNames, List.not_mem_nil, false_iff]; rintro ⟨m, h, _⟩; cases h
  | .dyn _, n => by simp only [dictionaryNames, List.not_mem_nil, false_iff]; rintro ⟨m, h, _⟩; cases h
theorem namesL_iff : ∀ (xs : List Val) (n : String), n ∈ namesL xs ↔ ∃ y ∈ xs, ∃ m, Inside y (.obj m) ∧ aGet m "$dictionary" = some (.str n)
  | [], n => by simp [namesL]
  | x :: xs, n => by rw [namesL, List.mem_append, names_iff x n, namesL_iff xs n]; simp
theorem namesE_iff : ∀ (m : List (String × Val)) (n : String), n ∈ namesE m ↔
    ∃ k y, (k, y) ∈ m ∧ ∃ m', Inside y (.obj m') ∧ aGet m' "$dictionary" = some (.str n)
  | [], n => by simp [namesE]
  | (k, x) :: m, n => by
    rw [namesE, List.mem_append, names_iff x n, namesE_iff m n]
    constructor
    · rintro (h | ⟨k', y, h1, h2⟩)
      · exact ⟨k, x, List.mem_cons_self, h⟩
      · exact ⟨k', y, List.mem_cons_of_mem _ h1, h2⟩
    · rintro ⟨k', y, h1, h2⟩
      rcases List.mem_cons.1 h1 with e | h1
      · cases e; exact .inl h2
      · exact .inr ⟨k', y, h1, h2⟩
end

/-- **C87.** The dictionaries of a schema are exactly those that an object anywhere in it names. -/
theorem C87_dictionaries (v : Val) (n : String) :
    n ∈ dictionaryNames v ↔ ∃ m, Inside v (.obj m) ∧ aGet m "$dictionary" = some (.str n) := names_iff v n

/-! ## Nothing is lost -/

theorem typeWith_kind (same : VT → VT → Bool) (D : String → Option VT) {m : List (String × Val)} {k : String}
    (hd : aGet m "$dictionary" = none) (hc : casesOf m = none) (he : enumOf m = none) (ht : aGet m "type" = some (.str k)) :
    typeWith same D (.obj m) = typed (objectType same D m) (itemType same D m) m k := by
  rw [typeWith, hd]
  simp only [Option.bind_none]
  split
  · rename_i h; rw [hc] at h; cases h
  · rw [he, ht]

/-- **C87.** A type of JSON gives exactly its values, besides dates, which are strings. -/
theorem C87_kind (same : VT → VT → Bool) (D : String → Option VT) {m : List (String × Val)} {k : String}
    (hd : aGet m "$dictionary" = none) (hc : casesOf m = none) (he : enumOf m = none) (ht : aGet m "type" = some (.str k))
    (hk : k = "string" ∧ aGet m "format" = none ∨ k = "number" ∨ k = "integer" ∨ k = "boolean" ∨ k = "null") (v : Val) :
    Inh (typeWith same D (.obj m)) v ↔ OfKind k v := by
  rw [typeWith_kind same D hd hc he ht]
  rcases hk with ⟨rfl, hf⟩ | rfl | rfl | rfl | rfl
  · simp [typed, hf, Inh, OfKind]
  all_goals simp [typed, Inh, OfKind]

/-- strings with a format of dates are dates -/
theorem C87_date (same : VT → VT → Bool) (D : String → Option VT) {m : List (String × Val)} {f : String}
    (hd : aGet m "$dictionary" = none) (hc : casesOf m = none) (he : enumOf m = none) (ht : aGet m "type" = some (.str "string"))
    (hf : aGet m "format" = some (.str f)) :
    typeWith same D (.obj m) = if f = "date" ∨ f = "date-time" then .date else .string := by
  rw [typeWith_kind same D hd hc he ht]
  simp only [typed, hf, Option.bind_some, asStr]
  split
  · rename_i h; injection h with h; simp [h]
  · rename_i h; injection h with h; simp [h]
  · rename_i h1 h2
    rw [if_neg]
    rintro (rfl | rfl)
    · exact h1 rfl
    · exact h2 rfl

/-- a list has the type exactly when its items have that of `items`; without `items` they are free -/
theorem C87_array (same : VT → VT → Bool) (D : String → Option VT) {m : List (String × Val)}
    (hd : aGet m "$dictionary" = none) (hc : casesOf m = none) (he : enumOf m = none) (ht : aGet m "type" = some (.str "array")) (v : Val) :
    Inh (typeWith same D (.obj m)) v ↔
      ∃ xs, v = .arr xs ∧ ∀ it, aGet m "items" = some it → ∀ x ∈ xs, Inh (typeWith same D it) x := by
  rw [typeWith_kind same D hd hc he ht]
  simp only [typed, Inh]
  rw [itemType]
  refine exists_congr fun xs => and_congr_right fun _ => ?_
  split
  · rename_i it h; rw [h]; simp
  · rename_i h; rw [h]; simp [Inh]

theorem mem_fieldTypes {same : VT → VT → Bool} {D : String → Option VT} {req : List String} :
    ∀ (ps : List (String × Val)) (fields : List (String × VT)), (aKeys fields ++ aKeys ps).Nodup →
    fieldTypes same D req fields ps =
      fields ++ ps.map fun e => (e.1, if e.1 ∈ req then typeWith same D e.2 else wrapOptional (typeWith same D e.2))
  | [], fields, _ => by rw [fieldTypes]; simp
  | (k, s) :: ps, fields, h => by
    have hk : k ∉ aKeys fields := by
      intro hk
      exact (List.nodup_append.1 h).2.2 k hk k (by simp) rfl
    have e : ∀ x : VT, aSet fields k x = fields ++ [(k, x)] := by
      intro x
      unfold aSet
      rw [(aGet_eq_none_iff fields k).2 hk]
    rw [fieldTypes, e, mem_fieldTypes ps]
    · simp
    · simpa using h

/-- **C87.** An object has the type exactly when each property has its type, or is null and not
required; other fields are free. -/
theorem C87_object (same : VT → VT → Bool) (D : String → Option VT) {m ps : List (String × Val)}
    (hd : aGet m "$dictionary" = none) (hc : casesOf m = none) (he : enumOf m = none) (ht : aGet m "type" = some (.str "object"))
    (hp : aGet m "properties" = some (.obj ps)) (hn : (aKeys ps).Nodup) (v : Val) :
    Inh (typeWith same D (.obj m)) v ↔ ∃ fs, v = .obj fs ∧ ∀ k s, (k, s) ∈ ps →
      Inh (typeWith same D s) ((aGet fs k).getD .null) ∨ (k ∉ requiredOf m ∧ (aGet fs k).getD .null = .null) := by
  have hp' : propsOf m = some ps := bind_obj.2 hp
  rw [typeWith_kind same D hd hc he ht]
  simp only [typed]
  rw [objectType]
  split
  · rename_i ps' h
    rw [hp'] at h
    cases h
    rw [Inh, mem_fieldTypes ps [] (by simpa using hn)]
    refine exists_congr fun fs => and_congr_right fun _ => ?_
    rw [inhFields_iff]
    simp only [List.nil_append, List.mem_map, Prod.exists, Prod.mk.injEq]
    constructor
    · intro h k s hk
      have := h k _ ⟨k, s, hk, rfl, rfl⟩
      split at this
      · exact .inl this
      · rename_i hr
        exact (inh_unwrap this).symm.imp id fun e => ⟨hr, e⟩
    · rintro h k t ⟨k', s, hk, rfl, rfl⟩
      split
      · rename_i hr
        exact (h k' s hk).resolve_right fun hx => hx.1 hr
      · exact inh_wrap ((h k' s hk).symm.imp And.right id)
  · rename_i h; rw [hp'] at h; cases h

/-- **C87.** An `enum` of strings is the type of exactly these strings. -/
theorem C87_enum (same : VT → VT → Bool) (D : String → Option VT) {m : List (String × Val)} {ss : List String}
    (hd : aGet m "$dictionary" = none) (hc : casesOf m = none) (he : aGet m "enum" = some (.arr (ss.map .str))) (hn : ss ≠ []) :
    typeWith same D (.obj m) = .enum none ss := by
  have h : enumOf m = some ss := by
    have hm : (ss.map Val.str).filterMap asStr = ss := by
      rw [List.filterMap_map]
      exact (List.filterMap_congr fun _ _ => rfl).trans List.filterMap_some
    unfold enumOf
    rw [he]
    simp only [Option.bind_some, asArr, hm, List.length_map]
    simp [hn]
  rw [typeWith, hd]
  simp only [Option.bind_none]
  split
  · rename_i h'; rw [hc] at h'; cases h'
  · rw [h]

/-- a dictionary gives its type; cases give the types of all of them merged -/
theorem C87_dictionary (same : VT → VT → Bool) (D : String → Option VT) {m : List (String × Val)} {n : String}
    (hd : aGet m "$dictionary" = some (.str n)) : typeWith same D (.obj m) = (D n).getD .any ∧ admitsNull (.obj m) = false := by
  constructor
  · rw [typeWith, hd]; rfl
  · rw [admitsNull, hd]; rfl

/-- **C87.** For a schema without cases, and with `enum` or `type` but not both, null is seen to be
admitted exactly when it is. -/
theorem C87_admits_exact (dict : String → List String) {m : List (String × Val)} (hr : aGet m "$ref" = none)
    (hd : aGet m "$dictionary" = none) (h1 : aGet m "anyOf" = none) (h2 : aGet m "oneOf" = none)
    (h3 : aGet m "enum" = none ∨ aGet m "type" = none) :
    admitsNull (.obj m) = true ↔ Accepts dict (.obj m) .null := by
  have hc : casesOf m = none := by unfold casesOf; rw [h1, h2]; rfl
  have key : admitsNull (.obj m) = (match (aGet m "enum").bind asArr with
        | some vs => vs.any Val.isNull
        | none => match aGet m "type" with
          | some (.str kind) => kind == "null"
          | some (.arr kinds) => (kinds.filterMap asStr).any (· == "null")
          | _ => true) := by
    rw [admitsNull, hd]
    simp only [Option.isSome_none, Bool.false_eq_true, if_false]
    split
    · rename_i h; rw [hc] at h; cases h
    · rfl
  constructor
  · intro h
    rw [key] at h
    refine .plain hd (fun cs h => ?_) (fun cs h => ?_) (fun vs hv => ?_) (fun k hk => ?_) (fun ks hk => ?_) (fun _ _ _ _ _ _ e => (nomatch e))
      (fun _ _ _ _ e => (nomatch e)) (fun _ _ _ _ e => (nomatch e))
    · rw [h1] at h; cases h
    · rw [h2] at h; cases h
    · rw [hv] at h
      obtain ⟨x, hx, e⟩ := List.any_eq_true.1 h
      cases x <;> first | exact hx | cases e
    · have hn := h3.resolve_right (by rw [hk]; simp)
      rw [hn, hk] at h
      have : k = "null" := by simpa using h
      subst this
      rfl
    · have hn := h3.resolve_right (by rw [hk]; simp)
      rw [hn, hk] at h
      obtain ⟨k, hk', e⟩ := List.any_eq_true.1 h
      obtain ⟨x, hx, e'⟩ := List.mem_filterMap.1 hk'
      have : k = "null" := by simpa using e
      subst this
      exact ⟨"null", (asStr_some.1 e') ▸ hx, rfl⟩
  · intro h
    cases h with
    | free h => exact absurd rfl (h m)
    | ref h => rw [hr] at h; cases h
    | plain _ _ _ h4 h5 h6 =>
      rw [key]
      split
      · rename_i vs hv; exact List.any_eq_true.2 ⟨.null, h4 vs (bind_arr.1 hv), rfl⟩
      · split
        · rename_i k hk; rw [null_kind (h5 k hk)]; rfl
        · rename_i ks hk
          obtain ⟨k, hk, hv⟩ := h6 ks hk
          exact List.any_eq_true.2 ⟨k, List.mem_filterMap.2 ⟨.str k, hk, rfl⟩, by rw [null_kind hv]; rfl⟩
        · rfl

/-- how paths are written -/
theorem C87_path (p k : String) : itemPath p = p ++ "[]" ∧ propPath "" k = k ∧ (p ≠ "" → propPath p k = p ++ "." ++ k) := by
  refine ⟨?_, by simp [propPath], fun h => by simp [propPath, h]⟩
  unfold itemPath
  split
  · rename_i h; rw [h]; rfl
  · rfl

/-! ## What is not so -/

/-- `{ "type": "object", "required": [name], "properties": { name: { "type": kind } } }` -/
def one (name kind : String) : Val := .obj [("type", .str "object"), ("required", .arr [.str name]),
  ("properties", .obj [(name, .obj [("type", .str kind)])])]

/-- **Negative.** Cases are merged to a type with the fields of all of them: what one case accepts need
not have the type. -/
theorem C87_cases (same : VT → VT → Bool) (D : String → Option VT) (dict : String → List String) :
    Accepts dict (.obj [("anyOf", .arr [one "a" "string", one "b" "number"])]) (.obj [("b", .num 1)]) ∧
    ¬ Inh (typeWith same D (.obj [("anyOf", .arr [one "a" "string", one "b" "number"])])) (.obj [("b", .num 1)]) := by
  constructor
  · refine .plain (by simp [aGet]) (fun cs h => ?_) (fun cs h => ?_) ?_ ?_ ?_ ?_ ?_ ?_ <;> simp [aGet] at *
    subst h
    refine .mk (c := one "b" "number") (by simp) ?_
    refine .plain (by simp [aGet]) ?_ ?_ ?_ ?_ ?_ ?_ ?_ ?_ <;> simp [aGet, OfKind]
    · intro ps fs k s x hp hf hk hx
      subst hp hf
      simp only [List.mem_cons, Prod.mk.injEq, List.not_mem_nil, or_false] at hk
      obtain ⟨rfl, rfl⟩ := hk
      simp [aGet] at hx
      subst hx
      refine .plain (by simp [aGet]) ?_ ?_ ?_ ?_ ?_ ?_ ?_ ?_ <;> simp [aGet, OfKind]
    · intro req fs k hq hf hk
      subst hq hf
      simp at hk
      subst hk
      simp [aGet]
  · simp [one, typeWith, typeCases, casesOf, enumOf, asArr, asObj, asStr, typed, objectType, propsOf, requiredOf, fieldTypes,
      mergeAll, merge_eq, unwrap, core, fin, mgFields, Inh, InhFields, aGet, aSet]

/-- **Negative.** Beside `$ref` other keywords do not count (Draft 7), but the type is read from them. -/
theorem C87_ref (same : VT → VT → Bool) (D : String → Option VT) (dict : String → List String) :
    Accepts dict (.obj [("$ref", .str "#/definitions/a"), ("type", .str "string")]) (.num 1) ∧
    ¬ Inh (typeWith same D (.obj [("$ref", .str "#/definitions/a"), ("type", .str "string")])) (.num 1) := by
  refine ⟨.ref (by simp [aGet]), ?_⟩
  simp [typeWith, aGet, casesOf, enumOf, typed, Inh]

/-- **Negative.** Properties within cases are not looked at. -/
theorem C87_cases_unread (s : Val) : divergences (.obj [("anyOf", .arr [s])]) "" = [] := by
  simp [divergences, aGet, propsOf]

/-- **Negative.** Of `anyOf` and `type` only the first counts: null is said to be admitted where `type` refuses it. -/
theorem C87_admits_more (dict : String → List String) :
    admitsNull (.obj [("anyOf", .arr [.bool true]), ("type", .str "string")]) = true ∧
    ¬ Accepts dict (.obj [("anyOf", .arr [.bool true]), ("type", .str "string")]) .null := by
  constructor
  · simp [admitsNull, admitsAny, aGet, casesOf, asArr]
  · intro h
    cases h with
    | free h => exact h _ rfl
    | ref h => simp [aGet] at h
    | plain _ _ _ _ h4 =>
      have := null_kind (h4 "string" (by simp [aGet]))
      exact absurd this (by decide)

/-! ## A case -/

/-- an order: `total` is required, `note` may be missing -/
def order : Val := .obj [("type", .str "object"), ("required", .arr [.str "total"]),
  ("properties", .obj [("total", .obj [("type", .str "integer")]), ("note", .obj [("type", .str "string")])])]

example : divergences order "" = ["note"] := by
  simp [order, divergences, divergeProps, aGet, propsOf, asObj, requiredOf, asArr, asStr, admitsNull, casesOf, propPath]

/-- a list of orders with a state -/
example : inlineEnums (.obj [("items", .obj [("properties", .obj [("state", .obj [("enum", .arr [.str "open", .str "paid"])]),
    ("kind", .obj [("enum", .arr [.str "only"])])])])]) "" = ["[].state"] := by
  simp [inlineEnums, inlineProps, aGet, propsOf, asObj, asArr, asStr, inlineEnum, itemPath, propPath]

theorem order_sub {x : Val} (h : Sub order x) : x = order ∨ x = .obj [("type", .str "integer")] ∨ x = .obj [("type", .str "string")] := by
  have leaf : ∀ k x, Sub (.obj [("type", .str k)]) x → x = .obj [("type", .str k)] := by
    intro k x h
    cases h with
    | refl => rfl
    | case h _ _ => simp [casesOf, aGet] at h
    | prop h _ _ => simp [propsOf, aGet] at h
    | item h _ => simp [aGet] at h
  unfold order at h ⊢
  cases h with
  | refl => exact .inl rfl
  | case h _ _ => simp [casesOf, aGet] at h
  | item h _ => simp [aGet] at h
  | prop h hk hs =>
    simp [propsOf, aGet, asObj] at h
    subst h
    simp only [List.mem_cons, Prod.mk.injEq, List.not_mem_nil, or_false] at hk
    rcases hk with ⟨rfl, rfl⟩ | ⟨rfl, rfl⟩
    · exact .inr (.inl (leaf _ _ hs))
    · exact .inr (.inr (leaf _ _ hs))

/-- the hypotheses of `C87_type` hold, and the type says what the schema says -/
example : NoRef order ∧ Fair (fun _ _ => false) (fun _ => none) order ∧
    typeWith (fun _ _ => false) (fun _ => none) order = .obj [("total", .number), ("note", .nullable .string)] := by
  refine ⟨fun m h => ?_, C87_simple _ _ fun m h => ?_, ?_⟩
  · rcases order_sub h with e | e | e <;> injection e with e <;> subst e <;> simp [aGet]
  · rcases order_sub h with e | e | e <;> injection e with e <;> subst e <;> simp [aGet, casesOf]
  · simp [order, typeWith, casesOf, enumOf, asArr, asObj, asStr, typed, objectType, propsOf, requiredOf, fieldTypes,
      aGet, aSet, wrapOptional]

end Zen.Sch.C87
