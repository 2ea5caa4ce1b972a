import Verif.Engine.SchemaDict
import Verif.Props.C35
/-
C33: inlining of dictionaries in schemas.
-/
namespace Zen

/-- Specification: `w` is the schema `v` with its references resolved. A reference is an object with
the key `$dictionary`; it becomes a string type restricted to the values of the dictionary, its other
keys are as they were. -/
inductive Resolved (D : Dicts) : Val → Val → Prop
  | scalar (v : Val) : v.isObj = false → v.isArr = false → Resolved D v v
  | arr (xs ys : List Val) : xs.length = ys.length →
      (∀ (i : Nat) (a b : Val), xs[i]? = some a → ys[i]? = some b → Resolved D a b) → Resolved D (.arr xs) (.arr ys)
  | obj (m n : List (String × Val)) : aGet m "$dictionary" = none → m.map Prod.fst = n.map Prod.fst →
      (∀ (k : String) (a b : Val), aGet m k = some a → aGet n k = some b → Resolved D a b) → Resolved D (.obj m) (.obj n)
  | ref (m n : List (String × Val)) (name : String) (values : List String) :
      aGet m "$dictionary" = some (.str name) → D name = some values →
      aGet n "$dictionary" = none → aGet n "type" = some (.str "string") →
      aGet n "enum" = some (.arr (values.map .str)) →
      (∀ k, k ≠ "$dictionary" → k ≠ "type" → k ≠ "enum" → aGet n k = aGet m k) → Resolved D (.obj m) (.obj n)

/-- Specification: there is a reference that is not to a known dictionary. -/
inductive BadRef (D : Dicts) : Val → Prop
  | here (m : List (String × Val)) (x : Val) : aGet m "$dictionary" = some x →
      (∀ name values, x = .str name → D name ≠ some values) → BadRef D (.obj m)
  | entry (m : List (String × Val)) (k : String) (x : Val) : aGet m "$dictionary" = none → (k, x) ∈ m → BadRef D x →
      BadRef D (.obj m)
  | item (xs : List Val) (x : Val) : x ∈ xs → BadRef D x → BadRef D (.arr xs)

/-- Specification: there is a reference inside a value beside another reference. -/
inductive Nested : Val → Prop
  | here (m : List (String × Val)) (x y : Val) (k : String) : aGet m "$dictionary" = some x → (k, y) ∈ m →
      refKey k = false → HasKey "$dictionary" y → Nested (.obj m)
  | entry (m : List (String × Val)) (k : String) (x : Val) : (k, x) ∈ m → Nested x → Nested (.obj m)
  | item (xs : List Val) (x : Val) : x ∈ xs → Nested x → Nested (.arr xs)

/-- Specification: a reference stays: it is inside a value beside another reference, and that value is not replaced. -/
inductive Stays : Val → Prop
  | here (m : List (String × Val)) (x y : Val) (k : String) : aGet m "$dictionary" = some x → (k, y) ∈ m →
      refKey k = false → k ≠ "type" → k ≠ "enum" → HasKey "$dictionary" y → Stays (.obj m)
  | entry (m : List (String × Val)) (k : String) (x : Val) : aGet m "$dictionary" = none → (k, x) ∈ m → Stays x → Stays (.obj m)
  | item (xs : List Val) (x : Val) : x ∈ xs → Stays x → Stays (.arr xs)

/-! ## Lemmas -/

theorem rewriteL_ok {D : Dicts} : ∀ {xs ys : List Val}, rewriteL D xs = .ok ys →
    xs.length = ys.length ∧ ∀ (i : Nat) (a b : Val), xs[i]? = some a → ys[i]? = some b → rewriteSchema D a = .ok b := by
  intro xs
  induction xs with
  | nil =>
    intro ys h
    simp only [rewriteL, Except.ok.injEq] at h
    subst h
    exact ⟨rfl, fun i a b h => by simp at h⟩
  | cons x xs ih =>
    intro ys h
    simp only [rewriteL] at h
    cases hx : rewriteSchema D x with
    | error e => rw [hx] at h; cases h
    | ok y =>
      rw [hx] at h
      dsimp only at h
      cases hxs : rewriteL D xs with
      | error e => rw [hxs] at h; cases h
      | ok zs =>
        rw [hxs] at h
        simp only [Except.ok.injEq] at h
        subst h
        obtain ⟨h1, h2⟩ := ih hxs
        refine ⟨by simp [h1], ?_⟩
        intro i a b ha hb
        cases i with
        | zero =>
          simp only [List.getElem?_cons_zero, Option.some.injEq] at ha hb
          subst ha; subst hb; exact hx
        | succ i => exact h2 i a b (by simpa using ha) (by simpa using hb)

theorem rewriteE_ok {D : Dicts} : ∀ {m n : List (String × Val)}, rewriteE D m = .ok n →
    m.map Prod.fst = n.map Prod.fst ∧
    (∀ (k : String) (a b : Val), aGet m k = some a → aGet n k = some b → rewriteSchema D a = .ok b) ∧
    (∀ (k : String) (b : Val), (k, b) ∈ n → ∃ a, (k, a) ∈ m ∧ rewriteSchema D a = .ok b) := by
  intro m
  induction m with
  | nil =>
    intro n h
    simp only [rewriteE, Except.ok.injEq] at h
    subst h
    exact ⟨rfl, fun k a b h => by simp [aGet] at h, fun k b h => by simp at h⟩
  | cons p m ih =>
    obtain ⟨k0, x⟩ := p
    intro n h
    simp only [rewriteE] at h
    cases hx : rewriteSchema D x with
    | error e => rw [hx] at h; cases h
    | ok y =>
      rw [hx] at h
      dsimp only at h
      cases hxs : rewriteE D m with
      | error e => rw [hxs] at h; cases h
      | ok n' =>
        rw [hxs] at h
        simp only [Except.ok.injEq] at h
        subst h
        obtain ⟨h1, h2, h3⟩ := ih hxs
        refine ⟨by simp [h1], ?_, ?_⟩
        · intro k a b ha hb
          simp only [aGet] at ha hb
          split at ha
          · rename_i hk
            rw [if_pos hk] at hb
            injection ha with ha; injection hb with hb
            subst ha; subst hb; exact hx
          · rename_i hk
            rw [if_neg hk] at hb
            exact h2 k a b ha hb
        · intro k b hb
          rcases List.mem_cons.1 hb with hb | hb
          · cases hb; exact ⟨x, by simp, hx⟩
          · obtain ⟨a, ha, hr⟩ := h3 k b hb
            exact ⟨a, by simp [ha], hr⟩

theorem rewriteL_error {D : Dicts} : ∀ {xs : List Val} {e}, rewriteL D xs = .error e → ∃ x ∈ xs, rewriteSchema D x = .error e := by
  intro xs
  induction xs with
  | nil => intro e h; simp [rewriteL] at h
  | cons x xs ih =>
    intro e h
    simp only [rewriteL] at h
    cases hx : rewriteSchema D x with
    | error e' =>
      rw [hx] at h
      simp only [Except.error.injEq] at h
      subst h
      exact ⟨x, by simp, hx⟩
    | ok y =>
      rw [hx] at h
      dsimp only at h
      cases hxs : rewriteL D xs with
      | ok zs => rw [hxs] at h; cases h
      | error e' =>
        rw [hxs] at h
        simp only [Except.error.injEq] at h
        subst h
        obtain ⟨z, hz, hr⟩ := ih hxs
        exact ⟨z, by simp [hz], hr⟩

theorem rewriteE_error {D : Dicts} : ∀ {m : List (String × Val)} {e}, rewriteE D m = .error e →
    ∃ k x, (k, x) ∈ m ∧ rewriteSchema D x = .error e := by
  intro m
  induction m with
  | nil => intro e h; simp [rewriteE] at h
  | cons p m ih =>
    obtain ⟨k0, x⟩ := p
    intro e h
    simp only [rewriteE] at h
    cases hx : rewriteSchema D x with
    | error e' =>
      rw [hx] at h
      simp only [Except.error.injEq] at h
      subst h
      exact ⟨k0, x, by simp, hx⟩
    | ok y =>
      rw [hx] at h
      dsimp only at h
      cases hxs : rewriteE D m with
      | ok zs => rw [hxs] at h; cases h
      | error e' =>
        rw [hxs] at h
        simp only [Except.error.injEq] at h
        subst h
        obtain ⟨k, z, hz, hr⟩ := ih hxs
        exact ⟨k, z, by simp [hz], hr⟩

theorem aGet_filter {V : Type} (p : String → Bool) (m : List (String × V)) (k : String) :
    aGet (m.filter fun e => p e.1) k = if p k then aGet m k else none := by
  induction m with
  | nil => simp [aGet]
  | cons x m ih =>
    obtain ⟨k', v⟩ := x
    simp only [List.filter_cons]
    split
    · rename_i hp
      simp only [aGet]
      split
      · rename_i hk; subst hk; simp [hp]
      · exact ih
    · rename_i hp
      rw [ih]
      simp only [aGet]
      by_cases hk : k' = k
      · subst hk; simp [hp]
      · rw [if_neg hk]

theorem rewrite_obj_inv {D : Dicts} {m : List (String × Val)} {w : Val} (h : rewriteSchema D (.obj m) = .ok w) :
    (aGet m "$dictionary" = none ∧ ∃ n, rewriteE D m = .ok n ∧ w = .obj n) ∨
    (∃ name values, aGet m "$dictionary" = some (.str name) ∧ D name = some values ∧ w = inlined m values) := by
  simp only [rewriteSchema] at h
  cases hg : aGet m "$dictionary" with
  | none =>
    rw [hg] at h
    dsimp only at h
    cases hr : rewriteE D m with
    | error e => rw [hr] at h; cases h
    | ok n =>
      rw [hr] at h
      simp only [Except.ok.injEq] at h
      exact .inl ⟨rfl, n, rfl, h.symm⟩
  | some x =>
    rw [hg] at h
    cases x with
    | str name =>
      dsimp only at h
      cases hd : D name with
      | none => rw [hd] at h; cases h
      | some values =>
        rw [hd] at h
        simp only [Except.ok.injEq] at h
        exact .inr ⟨name, values, rfl, hd, h.symm⟩
    | _ => cases h

theorem inlined_get (m : List (String × Val)) (values : List String) (k : String) :
    ∃ n, inlined m values = .obj n ∧ aGet n k = (if k = "enum" then some (.arr (values.map .str))
      else if k = "type" then some (.str "string") else if k = "$dictionary" then none else aGet m k) := by
  refine ⟨_, rfl, ?_⟩
  rw [aGet_aSet, aGet_aSet, aGet_filter (fun k => !refKey k)]
  by_cases h1 : k = "enum"
  · rw [if_pos h1, if_pos h1]
  · rw [if_neg h1, if_neg h1]
    by_cases h2 : k = "type"
    · rw [if_pos h2, if_pos h2]
    · rw [if_neg h2, if_neg h2]
      by_cases h3 : k = "$dictionary"
      · simp [h3, refKey]
      · simp [h1, h2, h3, refKey]

/-! ## Theorems -/

/-- What resolving returns is the schema with its references replaced and nothing else changed. -/
theorem C33_resolves {D : Dicts} : ∀ (v w : Val), rewriteSchema D v = .ok w → Resolved D v w := by
  apply Val.ind
  case null => intro w h; cases h; exact .scalar _ rfl rfl
  case bool => intro _ w h; cases h; exact .scalar _ rfl rfl
  case num => intro _ w h; cases h; exact .scalar _ rfl rfl
  case str => intro _ w h; cases h; exact .scalar _ rfl rfl
  case dyn => intro _ w h; cases h; exact .scalar _ rfl rfl
  case arr =>
    intro xs ih w h
    simp only [rewriteSchema] at h
    cases hr : rewriteL D xs with
    | error e => rw [hr] at h; cases h
    | ok ys =>
      rw [hr] at h
      simp only [Except.ok.injEq] at h
      subst h
      obtain ⟨h1, h2⟩ := rewriteL_ok hr
      exact .arr _ _ h1 fun i a b ha hb => ih a (List.mem_of_getElem? ha) b (h2 i a b ha hb)
  case obj =>
    intro m ih w h
    rcases rewrite_obj_inv h with ⟨hg, n, hr, rfl⟩ | ⟨name, values, hg, hd, rfl⟩
    · obtain ⟨h1, h2, _⟩ := rewriteE_ok hr
      exact .obj _ _ hg h1 fun k a b ha hb => ih k a (aGet_mem ha) b (h2 k a b ha hb)
    · refine .ref _ _ name values hg hd ?_ ?_ ?_ ?_
      · obtain ⟨n, hn, hk⟩ := inlined_get m values "$dictionary"
        cases hn; simpa using hk
      · obtain ⟨n, hn, hk⟩ := inlined_get m values "type"
        cases hn; simpa using hk
      · obtain ⟨n, hn, hk⟩ := inlined_get m values "enum"
        cases hn; simpa using hk
      · intro k h1 h2 h3
        obtain ⟨n, hn, hk⟩ := inlined_get m values k
        cases hn; simpa [h1, h2, h3] using hk

/-- Resolving fails exactly when there is a reference to something that is not a known dictionary. -/
theorem C33_fails_iff {D : Dicts} : ∀ v : Val, (∃ e, rewriteSchema D v = .error e) ↔ BadRef D v := by
  apply Val.ind
  case null => exact ⟨fun ⟨_, h⟩ => (by cases h), fun h => (by cases h)⟩
  case bool => intro _; exact ⟨fun ⟨_, h⟩ => (by cases h), fun h => (by cases h)⟩
  case num => intro _; exact ⟨fun ⟨_, h⟩ => (by cases h), fun h => (by cases h)⟩
  case str => intro _; exact ⟨fun ⟨_, h⟩ => (by cases h), fun h => (by cases h)⟩
  case dyn => intro _; exact ⟨fun ⟨_, h⟩ => (by cases h), fun h => (by cases h)⟩
  case arr =>
    intro xs ih
    constructor
    · rintro ⟨e, h⟩
      simp only [rewriteSchema] at h
      cases hr : rewriteL D xs with
      | ok ys => rw [hr] at h; cases h
      | error e' =>
        obtain ⟨x, hx, hr⟩ := rewriteL_error hr
        exact .item _ x hx ((ih x hx).1 ⟨_, hr⟩)
    · intro h
      cases h with
      | item _ x hx h =>
        obtain ⟨e, he⟩ := (ih x hx).2 h
        cases hr : rewriteSchema D (.arr xs) with
        | error e => exact ⟨e, rfl⟩
        | ok w =>
          simp only [rewriteSchema] at hr
          cases hr' : rewriteL D xs with
          | error e => rw [hr'] at hr; cases hr
          | ok ys =>
            obtain ⟨h1, h2⟩ := rewriteL_ok hr'
            obtain ⟨i, hi⟩ := List.getElem?_of_mem hx
            have hlt : i < xs.length := (List.getElem?_eq_some_iff.1 hi).1
            have := h2 i x _ hi (List.getElem?_eq_getElem (by omega : i < ys.length))
            rw [he] at this; cases this
  case obj =>
    intro m ih
    constructor
    · rintro ⟨e, h⟩
      simp only [rewriteSchema] at h
      cases hg : aGet m "$dictionary" with
      | none =>
        rw [hg] at h
        dsimp only at h
        cases hr : rewriteE D m with
        | ok n => rw [hr] at h; cases h
        | error e' =>
          obtain ⟨k, x, hx, hr⟩ := rewriteE_error hr
          exact .entry _ k x hg hx ((ih k x hx).1 ⟨_, hr⟩)
      | some x =>
        rw [hg] at h
        refine .here _ x hg ?_
        rintro name values rfl hd
        dsimp only at h
        rw [hd] at h
        cases h
    · intro h
      cases hr : rewriteSchema D (.obj m) with
      | error e => exact ⟨e, rfl⟩
      | ok w =>
        exfalso
        rcases rewrite_obj_inv hr with ⟨hg, n, hr', rfl⟩ | ⟨name, values, hg, hd, rfl⟩
        · cases h with
          | here _ x hx _ => rw [hg] at hx; cases hx
          | entry _ k x _ hx h =>
            obtain ⟨e, he⟩ := (ih k x hx).2 h
            have hall : ∀ (m n : List (String × Val)), rewriteE D m = .ok n → ∀ k x, (k, x) ∈ m → ∃ y, rewriteSchema D x = .ok y := by
              intro m
              induction m with
              | nil => intro n _ k x hx; cases hx
              | cons p m ihm =>
                obtain ⟨k0, x0⟩ := p
                intro n hn k x hx
                simp only [rewriteE] at hn
                cases h0 : rewriteSchema D x0 with
                | error e => rw [h0] at hn; cases hn
                | ok y =>
                  rw [h0] at hn
                  dsimp only at hn
                  cases h1 : rewriteE D m with
                  | error e => rw [h1] at hn; cases hn
                  | ok n' =>
                    rcases List.mem_cons.1 hx with hx | hx
                    · cases hx; exact ⟨y, h0⟩
                    · exact ihm n' h1 k x hx
            obtain ⟨y, hy⟩ := hall m n hr' k x hx
            rw [he] at hy; cases hy
        · cases h with
          | here _ x hx hno =>
            rw [hg] at hx; injection hx with hx; subst hx
            exact hno name values rfl hd
          | entry _ k x hno => rw [hg] at hno; cases hno

/-- A schema without references is returned as it is. -/
theorem C33_no_reference {D : Dicts} : ∀ v : Val, ¬ HasKey "$dictionary" v → rewriteSchema D v = .ok v := by
  apply Val.ind
  case null => intro _; rfl
  case bool => intro _ _; rfl
  case num => intro _ _; rfl
  case str => intro _ _; rfl
  case dyn => intro _ _; rfl
  case arr =>
    intro xs ih h
    have : rewriteL D xs = .ok xs := by
      have hx : ∀ x ∈ xs, rewriteSchema D x = .ok x := fun x hx => ih x hx fun hk => h (.item _ x hx hk)
      clear ih h
      induction xs with
      | nil => rfl
      | cons x xs ih =>
        rw [rewriteL, hx x (by simp)]
        dsimp only
        rw [ih fun y hy => hx y (by simp [hy])]
    simp only [rewriteSchema, this]
  case obj =>
    intro m ih h
    have hg : aGet m "$dictionary" = none := by
      cases hg : aGet m "$dictionary" with
      | none => rfl
      | some x => exact absurd (.here _ x (aGet_mem hg)) h
    have : rewriteE D m = .ok m := by
      have hx : ∀ k x, (k, x) ∈ m → rewriteSchema D x = .ok x := fun k x hx => ih k x hx fun hk => h (.entry _ k x hx hk)
      clear ih h hg
      induction m with
      | nil => rfl
      | cons p m ih =>
        obtain ⟨k, x⟩ := p
        rw [rewriteE, hx k x (by simp)]
        dsimp only
        rw [ih fun k y hy => hx k y (by simp [hy])]
    simp only [rewriteSchema, hg, this]

theorem aSet_mem {V : Type} {l : List (String × V)} {k k' : String} {x y : V} (h : (k', y) ∈ aSet l k x) :
    (k' = k ∧ y = x) ∨ (k', y) ∈ l := by
  unfold aSet at h
  cases hg : aGet l k with
  | none =>
    rw [hg] at h
    dsimp only at h
    rcases List.mem_append.1 h with h | h
    · exact .inr h
    · simp only [List.mem_singleton, Prod.mk.injEq] at h; exact .inl h
  | some z =>
    rw [hg] at h
    dsimp only at h
    clear hg
    induction l with
    | nil => simp [aReplace] at h
    | cons p l ih =>
      obtain ⟨k0, v0⟩ := p
      simp only [aReplace] at h
      split at h
      · rcases List.mem_cons.1 h with h | h
        · cases h; rename_i hk; exact .inl ⟨hk, rfl⟩
        · exact .inr (by simp [h])
      · rcases List.mem_cons.1 h with h | h
        · cases h; exact .inr (by simp)
        · rcases ih h with h | h
          · exact .inl h
          · exact .inr (by simp [h])

/-- No reference is left, provided none lies inside a value beside another reference: such values are
copied as they are. -/
theorem C33_no_reference_left_partial {D : Dicts} : ∀ (v w : Val), ¬ Nested v → rewriteSchema D v = .ok w →
    ¬ HasKey "$dictionary" w := by
  apply Val.ind
  case null => intro w _ h hk; cases h; cases hk
  case bool => intro _ w _ h hk; cases h; cases hk
  case num => intro _ w _ h hk; cases h; cases hk
  case str => intro _ w _ h hk; cases h; cases hk
  case dyn => intro _ w _ h hk; cases h; cases hk
  case arr =>
    intro xs ih w hn h hk
    simp only [rewriteSchema] at h
    cases hr : rewriteL D xs with
    | error e => rw [hr] at h; cases h
    | ok ys =>
      rw [hr] at h
      simp only [Except.ok.injEq] at h
      subst h
      obtain ⟨h1, h2⟩ := rewriteL_ok hr
      cases hk with
      | item _ y hy hk =>
        obtain ⟨i, hi⟩ := List.getElem?_of_mem hy
        have hlt : i < ys.length := (List.getElem?_eq_some_iff.1 hi).1
        have hxi := List.getElem?_eq_getElem (by omega : i < xs.length)
        have hm := List.mem_of_getElem? hxi
        exact ih _ hm y (fun h => hn (.item _ _ hm h)) (h2 i _ y hxi hi) hk
  case obj =>
    intro m ih w hn h hk
    rcases rewrite_obj_inv h with ⟨hg, n, hr, rfl⟩ | ⟨name, values, hg, hd, rfl⟩
    · obtain ⟨h1, h2, h3⟩ := rewriteE_ok hr
      cases hk with
      | here _ x hx =>
        have := List.mem_map_of_mem (f := Prod.fst) hx
        rw [← h1] at this
        exact (aGet_eq_none_iff m "$dictionary").1 hg this
      | entry _ k y hy hk =>
        obtain ⟨x, hx, hr⟩ := h3 k y hy
        exact ih k x hx y (fun h => hn (.entry _ k x hx h)) hr hk
    · unfold inlined at hk
      have key : ∀ k y, (k, y) ∈ aSet (aSet (m.filter fun e => !refKey e.1) "type" (.str "string")) "enum"
          (.arr (values.map .str)) → k ≠ "$dictionary" ∧ ¬ HasKey "$dictionary" y := by
        intro k y hy
        rcases aSet_mem hy with ⟨rfl, rfl⟩ | hy
        · refine ⟨by decide, fun hk => ?_⟩
          cases hk with
          | item _ x hx hk =>
            obtain ⟨s, _, rfl⟩ := List.mem_map.1 hx
            cases hk
        · rcases aSet_mem hy with ⟨rfl, rfl⟩ | hy
          · exact ⟨by decide, fun hk => by cases hk⟩
          · obtain ⟨hy, hr⟩ := List.mem_filter.1 hy
            simp only [Bool.not_eq_true'] at hr
            refine ⟨fun he => by subst he; simp [refKey] at hr, fun hk => hn (.here _ _ y k hg hy hr hk)⟩
      cases hk with
      | here _ x hx => exact (key _ x hx).1 rfl
      | entry _ k y hy hk => exact (key k y hy).2 hk

theorem rewriteE_fwd {D : Dicts} : ∀ {m n : List (String × Val)}, rewriteE D m = .ok n → ∀ k a, (k, a) ∈ m → ∃ b, (k, b) ∈ n ∧ rewriteSchema D a = .ok b := by
  intro m
  induction m with
  | nil => intro n _ k a h; cases h
  | cons p m ih =>
    obtain ⟨k0, x⟩ := p
    intro n h k a hm
    simp only [rewriteE] at h
    cases hx : rewriteSchema D x with
    | error e => rw [hx] at h; cases h
    | ok y =>
      rw [hx] at h
      simp only at h
      cases hr : rewriteE D m with
      | error e => rw [hr] at h; cases h
      | ok r =>
        rw [hr] at h
        cases h
        rcases List.mem_cons.1 hm with e | e
        · cases e; exact ⟨y, by simp, hx⟩
        · obtain ⟨b, hb, hr⟩ := ih hr k a e
          exact ⟨b, by simp [hb], hr⟩

theorem mem_aSet_other {V : Type} {l : List (String × V)} {k k' : String} {x y : V} (h : (k', y) ∈ l) (hk : k' ≠ k) : (k', y) ∈ aSet l k x := by
  unfold aSet
  cases hg : aGet l k with
  | none => simp [h]
  | some z =>
    dsimp only
    clear hg
    induction l with
    | nil => cases h
    | cons p l ih =>
      obtain ⟨k0, v0⟩ := p
      simp only [aReplace]
      rcases List.mem_cons.1 h with e | e
      · cases e
        rw [if_neg hk]
        simp
      · split
        · simp [e]
        · simp [ih e]

theorem aSet_same_mem {V : Type} {l : List (String × V)} {k : String} {x y : V} (nd : (aKeys l).Nodup) (h : (k, y) ∈ aSet l k x) : y = x := by
  have := aGet_of_mem (aKeys_aSet_nodup k x nd) h
  rw [aGet_aSet, if_pos rfl] at this
  exact (Option.some.inj this).symm

/-- Exactly when a reference is left. -/
theorem C33_reference_left_iff {D : Dicts} : ∀ (v w : Val), v.Wf → rewriteSchema D v = .ok w → (HasKey "$dictionary" w ↔ Stays v) := by
  apply Val.ind
  case null => intro w _ h; cases h; exact iff_of_false (fun h => by cases h) (fun h => by cases h)
  case bool => intro _ w _ h; cases h; exact iff_of_false (fun h => by cases h) (fun h => by cases h)
  case num => intro _ w _ h; cases h; exact iff_of_false (fun h => by cases h) (fun h => by cases h)
  case str => intro _ w _ h; cases h; exact iff_of_false (fun h => by cases h) (fun h => by cases h)
  case dyn => intro _ w _ h; cases h; exact iff_of_false (fun h => by cases h) (fun h => by cases h)
  case arr =>
    intro xs ih w hw h
    have hwi : ∀ x ∈ xs, x.Wf := by cases hw with | arr _ a => exact a
    simp only [rewriteSchema] at h
    cases hr : rewriteL D xs with
    | error e => rw [hr] at h; cases h
    | ok ys =>
      rw [hr] at h
      simp only [Except.ok.injEq] at h
      subst h
      obtain ⟨h1, h2⟩ := rewriteL_ok hr
      constructor
      · rintro (_ | _ | ⟨_, y, hy, hk⟩)
        obtain ⟨i, hi⟩ := List.getElem?_of_mem hy
        have hlt : i < ys.length := (List.getElem?_eq_some_iff.1 hi).1
        have hxi := List.getElem?_eq_getElem (by omega : i < xs.length)
        have hm := List.mem_of_getElem? hxi
        exact .item _ _ hm ((ih _ hm y (hwi _ hm) (h2 i _ y hxi hi)).1 hk)
      · rintro (_ | _ | ⟨_, x, hx, hs⟩)
        obtain ⟨i, hi⟩ := List.getElem?_of_mem hx
        have hlt : i < xs.length := (List.getElem?_eq_some_iff.1 hi).1
        have hyi := List.getElem?_eq_getElem (by omega : i < ys.length)
        exact .item _ _ (List.mem_of_getElem? hyi) ((ih _ hx _ (hwi _ hx) (h2 i _ _ hi hyi)).2 hs)
  case obj =>
    intro m ih w hw h
    have ⟨nd, hwv⟩ := hw.obj_inv
    have nd1 : (aKeys (m.filter fun e => !refKey e.1)).Nodup := nd.sublist (List.filter_sublist.map _)
    rcases rewrite_obj_inv h with ⟨hg, n, hr, rfl⟩ | ⟨name, values, hg, hd, rfl⟩
    · obtain ⟨h1, h2, h3⟩ := rewriteE_ok hr
      constructor
      · intro hk
        cases hk with
        | here _ x hx =>
          have := List.mem_map_of_mem (f := Prod.fst) hx
          rw [← h1] at this
          exact absurd this ((aGet_eq_none_iff m "$dictionary").1 hg)
        | entry _ k y hy hk =>
          obtain ⟨x, hx, hr⟩ := h3 k y hy
          exact .entry _ k x hg hx ((ih k x hx y (hwv k x hx) hr).1 hk)
      · intro hs
        cases hs with
        | here _ x y k hg' => rw [hg] at hg'; cases hg'
        | entry _ k x _ hx hs =>
          obtain ⟨y, hy, hry⟩ := rewriteE_fwd hr k x hx
          exact .entry _ k y hy ((ih k x hx y (hwv k x hx) hry).2 hs)
    · unfold inlined
      constructor
      · intro hk
        have key : ∀ k y, (k, y) ∈ aSet (aSet (m.filter fun e => !refKey e.1) "type" (.str "string")) "enum"
            (.arr (values.map .str)) → HasKey "$dictionary" y → (k, y) ∈ m ∧ refKey k = false := by
          intro k y hy hk
          rcases aSet_mem hy with ⟨rfl, rfl⟩ | hy
          · cases hk with
            | item _ x hx hk =>
              obtain ⟨s, _, rfl⟩ := List.mem_map.1 hx
              cases hk
          · rcases aSet_mem hy with ⟨rfl, rfl⟩ | hy
            · cases hk
            · obtain ⟨hy, hr⟩ := List.mem_filter.1 hy
              exact ⟨hy, by simpa using hr⟩
        cases hk with
        | here _ x hx =>
          rcases aSet_mem hx with ⟨e, _⟩ | hx
          · exact absurd e (by decide)
          · rcases aSet_mem hx with ⟨e, _⟩ | hx
            · exact absurd e (by decide)
            · obtain ⟨_, hr⟩ := List.mem_filter.1 hx
              simp [refKey] at hr
        | entry _ k y hy hk =>
          obtain ⟨hm, hr⟩ := key k y hy hk
          refine .here m _ y k hg hm hr ?_ ?_ hk
          · rintro rfl
            rcases aSet_mem hy with ⟨e, _⟩ | hy
            · exact absurd e (by decide)
            · have := aSet_same_mem nd1 hy
              subst this; cases hk
          · rintro rfl
            have := aSet_same_mem (aKeys_aSet_nodup _ _ nd1) hy
            subst this
            cases hk with
            | item _ x hx hk =>
              obtain ⟨s, _, rfl⟩ := List.mem_map.1 hx
              cases hk
      · intro hs
        cases hs with
        | here _ x y k _ hm hr ht he hk =>
          exact .entry _ k y (mem_aSet_other (mem_aSet_other (List.mem_filter.2 ⟨hm, by simp [hr]⟩) ht) he) hk
        | entry _ k x hg' => rw [hg] at hg'; cases hg'

/-- Then resolving again changes nothing, with the same or with other dictionaries. -/
theorem C33_idempotent_partial {D D' : Dicts} (v w : Val) (hn : ¬ Nested v) (h : rewriteSchema D v = .ok w) :
    rewriteSchema D' w = .ok w :=
  C33_no_reference w (C33_no_reference_left_partial v w hn h)

/-- A schema with a reference is never left as it is. -/
theorem rewrite_changes {D : Dicts} : ∀ v : Val, HasKey "$dictionary" v → rewriteSchema D v ≠ .ok v := by
  apply Val.ind
  case null => intro h; cases h
  case bool => intro _ h; cases h
  case num => intro _ h; cases h
  case str => intro _ h; cases h
  case dyn => intro _ h; cases h
  case arr =>
    intro xs ih hk h
    simp only [rewriteSchema] at h
    cases hr : rewriteL D xs with
    | error e => rw [hr] at h; cases h
    | ok ys =>
      rw [hr] at h
      cases h
      obtain ⟨_, h2⟩ := rewriteL_ok hr
      cases hk with
      | item _ x hx hk =>
        obtain ⟨i, hi⟩ := List.getElem?_of_mem hx
        exact ih x hx hk (h2 i x x hi hi)
  case obj =>
    intro m ih hk h
    rcases rewrite_obj_inv h with ⟨hg, n, hr, e⟩ | ⟨name, values, hg, hd, e⟩
    · cases e
      cases hk with
      | here _ x hx => exact (aGet_eq_none_iff m "$dictionary").1 hg (List.mem_map_of_mem (f := Prod.fst) hx)
      | entry _ k x hx hk =>
        have same : ∀ {l r : List (String × Val)}, rewriteE D l = .ok r → l = r → ∀ k a, (k, a) ∈ l → rewriteSchema D a = .ok a := by
          intro l
          induction l with
          | nil => intro r _ _ k a h; cases h
          | cons p l ihl =>
            obtain ⟨k0, x0⟩ := p
            intro r h e k a hm
            simp only [rewriteE] at h
            cases hx : rewriteSchema D x0 with
            | error e => rw [hx] at h; cases h
            | ok y =>
              rw [hx] at h
              simp only at h
              cases hr : rewriteE D l with
              | error e => rw [hr] at h; cases h
              | ok r' =>
                rw [hr] at h
                cases h
                cases e
                rcases List.mem_cons.1 hm with e | e
                · cases e; exact hx
                · exact ihl hr rfl k a e
        exact ih k x hx hk (same hr rfl k x hx)
    · injection e with e
      have : aGet m "$dictionary" = none := by
        rw [e, aGet_aSet, if_neg (by decide), aGet_aSet, if_neg (by decide), aGet_eq_none_iff]
        intro hm
        obtain ⟨p, hp, he⟩ := List.mem_map.1 hm
        obtain ⟨_, hr⟩ := List.mem_filter.1 hp
        rw [he] at hr
        simp [refKey] at hr
      rw [this] at hg
      cases hg

/-- Resolving again changes nothing exactly when no reference stays. -/
theorem C33_idempotent_iff {D D' : Dicts} (v w : Val) (hv : v.Wf) (h : rewriteSchema D v = .ok w) : rewriteSchema D' w = .ok w ↔ ¬ Stays v := by
  rw [← C33_reference_left_iff v w hv h]
  exact ⟨fun h' hk => rewrite_changes w hk h', C33_no_reference w⟩

/-- what stands beside a reference under `type` is replaced, references and all -/
example : ¬ Stays (.obj [("$dictionary", .str "color"), ("type", .obj [("$dictionary", .str "color")])]) ∧
    Stays (.obj [("$dictionary", .str "color"), ("not", .obj [("$dictionary", .str "color")])]) := by
  refine ⟨?_, .here _ (.str "color") (.obj [("$dictionary", .str "color")]) "not" (by rfl) (by simp) (by decide) (by decide) (by decide) (.here _ _ List.mem_cons_self)⟩
  intro h
  cases h with
  | here _ x y k _ hm hr ht _ _ =>
    simp only [List.mem_cons, List.not_mem_nil, or_false, Prod.mk.injEq] at hm
    rcases hm with ⟨rfl, _⟩ | ⟨rfl, _⟩
    · simp [refKey] at hr
    · exact ht rfl
  | entry _ k x hg => cases hg

/-- Without the proviso it is false: a reference below a sibling of `$dictionary` is left in place,
and is resolved when resolving a second time. -/
theorem C33_not_idempotent : ∃ (D : Dicts) (v w w' : Val), rewriteSchema D v = .ok w ∧ HasKey "$dictionary" w ∧
    rewriteSchema D w = .ok w' ∧ ¬ HasKey "$dictionary" w' := by
  let D : Dicts := fun n => if n = "color" then some ["red"] else none
  refine ⟨D, .obj [("$dictionary", .str "color"), ("not", .obj [("$dictionary", .str "color")])],
    .obj [("not", .obj [("$dictionary", .str "color")]), ("type", .str "string"), ("enum", .arr [.str "red"])],
    .obj [("not", .obj [("type", .str "string"), ("enum", .arr [.str "red"])]), ("type", .str "string"),
      ("enum", .arr [.str "red"])], ?_, ?_, ?_, ?_⟩
  · simp [rewriteSchema, aGet, D, inlined, refKey, aSet]
  · exact .entry _ "not" _ (.head _) (.here _ _ (.head _))
  · simp [rewriteSchema, rewriteE, rewriteL, aGet, D, inlined, refKey, aSet]
  · intro h
    cases h with
    | here _ x hx => simp at hx
    | entry _ k x hx hk =>
      simp only [List.mem_cons, Prod.mk.injEq, List.not_mem_nil, or_false] at hx
      rcases hx with ⟨_, rfl⟩ | ⟨_, rfl⟩ | ⟨_, rfl⟩
      · cases hk with
        | here _ x hx => simp at hx
        | entry _ k x hx hk =>
          simp only [List.mem_cons, Prod.mk.injEq, List.not_mem_nil, or_false] at hx
          rcases hx with ⟨_, rfl⟩ | ⟨_, rfl⟩
          · cases hk
          · cases hk with
            | item _ y hy hk => rw [List.mem_singleton.1 hy] at hk; cases hk
      · cases hk
      · cases hk with
        | item _ y hy hk => rw [List.mem_singleton.1 hy] at hk; cases hk

mutual
theorem refersDict_iff : ∀ v : Val, refersDict v = true ↔ HasKey "$dictionary" v
  | .null => by simp only [refersDict, Bool.false_eq_true, false_iff]; intro h; cases h
  | .bool _ => by simp only [refersDict, Bool.false_eq_true, false_iff]; intro h; cases h
  | .num _ => by simp only [refersDict, Bool.false_eq_true, false_iff]; intro h; cases h
  | .str _ => by simp only [refersDict, Bool.false_eq_true, false_iff]; intro h; cases h
  | .dyn _ => by simp only [refersDict, Bool.false_eq_true, false_iff]; intro h; cases h
  | .arr xs => by
    rw [refersDict, refersDictL_iff xs]
    constructor
    · rintro ⟨x, hx, h⟩; exact .item _ x hx h
    · intro h; cases h with | item _ x hx h => exact ⟨x, hx, h⟩
  | .obj m => by
    rw [refersDict, Bool.or_eq_true, refersDictE_iff m]
    constructor
    · rintro (h | ⟨k, x, hx, h⟩)
      · obtain ⟨x, hx⟩ := Option.isSome_iff_exists.1 h
        exact .here _ x (aGet_mem hx)
      · exact .entry _ k x hx h
    · intro h
      cases h with
      | here _ x hx => exact .inl ((aGet_isSome_iff m _).2 (List.mem_map_of_mem (f := Prod.fst) hx))
      | entry _ k x hx h => exact .inr ⟨k, x, hx, h⟩
theorem refersDictL_iff : ∀ xs : List Val, refersDictL xs = true ↔ ∃ x ∈ xs, HasKey "$dictionary" x
  | [] => by simp [refersDictL]
  | x :: xs => by rw [refersDictL, Bool.or_eq_true, refersDict_iff x, refersDictL_iff xs]; simp
theorem refersDictE_iff : ∀ m : List (String × Val), refersDictE m = true ↔ ∃ k x, (k, x) ∈ m ∧ HasKey "$dictionary" x
  | [] => by simp [refersDictE]
  | (k, x) :: m => by
    rw [refersDictE, Bool.or_eq_true, refersDict_iff x, refersDictE_iff m]
    constructor
    · rintro (h | ⟨k', y, hy, h⟩)
      · exact ⟨k, x, by simp, h⟩
      · exact ⟨k', y, by simp [hy], h⟩
    · rintro ⟨k', y, hy, h⟩
      rcases List.mem_cons.1 hy with hy | hy
      · cases hy; exact .inl h
      · exact .inr ⟨k', y, hy, h⟩
end

/-- The test that decides whether a schema is resolved at all is exact: a schema is left alone only if
it has no reference, and then resolving would not change it. -/
theorem C33_test_exact (D : Dicts) (v : Val) : (refersDict v = true ↔ HasKey "$dictionary" v) ∧
    (refersDict v = false → rewriteSchema D v = .ok v) := by
  refine ⟨refersDict_iff v, fun h => C33_no_reference v fun hk => ?_⟩
  rw [(refersDict_iff v).2 hk] at h; cases h

/-! ## Imported dictionaries -/

/-- Specification: `k` is imported, directly or through policies. -/
inductive Imported (load : String → Except String (Option DictDoc)) (roots : List String) : String → Prop
  | root (k : String) : k ∈ roots → Imported load roots k
  | next (k k' : String) (d : DictDoc) : Imported load roots k → load k = .ok (some d) → k' ∈ d.imports →
      Imported load roots k'

theorem addDicts_get (ds : List (String × List String)) : ∀ (out : List (String × List String)) (n : String),
    aGet (addDicts out ds) n = (match aGet out n with | some x => some x | none => aGet ds n) := by
  induction ds with
  | nil => intro out n; rw [addDicts]; cases h : aGet out n <;> simp [aGet]
  | cons p ds ih =>
    obtain ⟨k, vs⟩ := p
    intro out n
    rw [addDicts, ih]
    cases h : aGet out k with
    | some x =>
      dsimp only
      cases h' : aGet out n with
      | some y => rfl
      | none =>
        dsimp only
        rw [aGet, if_neg]
        rintro rfl
        rw [h] at h'; cases h'
    | none =>
      dsimp only
      rw [aGet_append]
      cases h' : aGet out n with
      | some y => rfl
      | none =>
        by_cases hk : k = n
        · subst hk; simp [aGet]
        · simp [aGet, hk]

structure DInv (load : String → Except String (Option DictDoc)) (roots queue visited : List String)
    (out : List (String × List String)) : Prop where
  sound : ∀ k, k ∈ queue ∨ k ∈ visited → Imported load roots k
  roots : ∀ k ∈ roots, k ∈ queue ∨ k ∈ visited
  loaded : ∀ k ∈ visited, ∃ r, load k = .ok r
  closed : ∀ k ∈ visited, ∀ d, load k = .ok (some d) → ∀ k' ∈ d.imports, k' ∈ queue ∨ k' ∈ visited
  names : ∀ k ∈ visited, ∀ d, load k = .ok (some d) → ∀ n, (aGet d.dicts n).isSome → (aGet out n).isSome
  values : ∀ n vs, aGet out n = some vs → ∃ k ∈ visited, ∃ d, load k = .ok (some d) ∧ aGet d.dicts n = some vs

theorem loadDicts_inv {load : String → Except String (Option DictDoc)} {roots : List String} : ∀ (fuel : Nat)
    {queue visited : List String} {out : List (String × List String)} {r},
    DInv load roots queue visited out → loadDicts load fuel queue visited out = some r →
      match r with
      | .ok (v, o) => DInv load roots [] v o
      | .error _ => ∃ k e, Imported load roots k ∧ load k = .error e := by
  intro fuel
  induction fuel with
  | zero => intro queue visited out r _ h; cases h
  | succ fuel ih =>
    intro queue visited out r hi h
    cases queue with
    | nil =>
      simp only [loadDicts, Option.some.injEq] at h
      subst h
      exact hi
    | cons key queue =>
      simp only [loadDicts] at h
      split at h
      · rename_i hv
        refine ih ⟨?_, ?_, hi.loaded, ?_, hi.names, hi.values⟩ h
        · intro k hk; exact hi.sound k (by rcases hk with hk | hk <;> simp [hk])
        · intro k hk
          rcases hi.roots k hk with hk | hk
          · rcases List.mem_cons.1 hk with rfl | hk
            · exact .inr hv
            · exact .inl hk
          · exact .inr hk
        · intro k hk d hd k' hk'
          rcases hi.closed k hk d hd k' hk' with h | h
          · rcases List.mem_cons.1 h with rfl | h
            · exact .inr hv
            · exact .inl h
          · exact .inr h
      · rename_i hv
        have himp : Imported load roots key := hi.sound key (by simp)
        cases hl : load key with
        | error e =>
          rw [hl] at h
          simp only [Option.some.injEq] at h
          subst h
          exact ⟨key, e, himp, hl⟩
        | ok r0 =>
          rw [hl] at h
          cases r0 with
          | none =>
            dsimp only at h
            refine ih ⟨?_, ?_, ?_, ?_, ?_, ?_⟩ h
            · intro k hk
              rcases hk with hk | hk
              · exact hi.sound k (by simp [hk])
              · rcases List.mem_cons.1 hk with rfl | hk
                · exact himp
                · exact hi.sound k (by simp [hk])
            · intro k hk
              rcases hi.roots k hk with hk | hk
              · rcases List.mem_cons.1 hk with rfl | hk
                · simp
                · exact .inl hk
              · simp [hk]
            · intro k hk
              rcases List.mem_cons.1 hk with rfl | hk
              · exact ⟨_, hl⟩
              · exact hi.loaded k hk
            · intro k hk d hd k' hk'
              rcases List.mem_cons.1 hk with rfl | hk
              · rw [hl] at hd; cases hd
              · rcases hi.closed k hk d hd k' hk' with h | h
                · rcases List.mem_cons.1 h with rfl | h
                  · simp
                  · exact .inl h
                · simp [h]
            · intro k hk d hd n hn
              rcases List.mem_cons.1 hk with rfl | hk
              · rw [hl] at hd; cases hd
              · exact hi.names k hk d hd n hn
            · intro n vs hn
              obtain ⟨k, hk, d, hd⟩ := hi.values n vs hn
              exact ⟨k, by simp [hk], d, hd⟩
          | some d0 =>
            dsimp only at h
            refine ih ⟨?_, ?_, ?_, ?_, ?_, ?_⟩ h
            · intro k hk
              rcases hk with hk | hk
              · rcases List.mem_append.1 hk with hk | hk
                · exact .next key k d0 himp hl (List.mem_reverse.1 hk)
                · exact hi.sound k (by simp [hk])
              · rcases List.mem_cons.1 hk with rfl | hk
                · exact himp
                · exact hi.sound k (by simp [hk])
            · intro k hk
              rcases hi.roots k hk with hk | hk
              · rcases List.mem_cons.1 hk with rfl | hk
                · simp
                · exact .inl (by simp [hk])
              · simp [hk]
            · intro k hk
              rcases List.mem_cons.1 hk with rfl | hk
              · exact ⟨_, hl⟩
              · exact hi.loaded k hk
            · intro k hk d hd k' hk'
              rcases List.mem_cons.1 hk with rfl | hk
              · rw [hl] at hd; cases hd
                exact .inl (by simp [hk'])
              · rcases hi.closed k hk d hd k' hk' with h | h
                · rcases List.mem_cons.1 h with rfl | h
                  · simp
                  · exact .inl (by simp [h])
                · simp [h]
            · intro k hk d hd n hn
              rw [addDicts_get]
              cases ho : aGet out n with
              | some x => rfl
              | none =>
                dsimp only
                rcases List.mem_cons.1 hk with rfl | hk
                · rw [hl] at hd; cases hd; exact hn
                · have := hi.names k hk d hd n hn
                  rw [ho] at this; cases this
            · intro n vs hn
              rw [addDicts_get] at hn
              cases ho : aGet out n with
              | some x =>
                rw [ho] at hn
                dsimp only at hn
                rw [← hn] at *
                obtain ⟨k, hk, d, hd⟩ := hi.values n x ho
                cases hn
                exact ⟨k, by simp [hk], d, hd⟩
              | none =>
                rw [ho] at hn
                exact ⟨key, by simp, d0, hl, hn⟩

/-- Loading the imported dictionaries, when it succeeds: a dictionary is known exactly if some
imported policy has one of that name, and its values are those of one of them. -/
theorem C33_imports {load : String → Except String (Option DictDoc)} {roots : List String} {fuel : Nat} {visited out}
    (h : loadDicts load fuel roots.reverse [] [] = some (.ok (visited, out))) :
    (∀ n, (aGet out n).isSome ↔ ∃ k d, Imported load roots k ∧ load k = .ok (some d) ∧ (aGet d.dicts n).isSome) ∧
    (∀ n vs, aGet out n = some vs → ∃ k d, Imported load roots k ∧ load k = .ok (some d) ∧ aGet d.dicts n = some vs) ∧
    (∀ k, Imported load roots k → ∃ r, load k = .ok r) := by
  have hi := loadDicts_inv (load := load) (roots := roots) fuel (r := .ok (visited, out)) (queue := roots.reverse) (visited := [])
    (out := []) ⟨fun k hk => .root k (by simpa using hk), fun k hk => by simp [hk], by simp, by simp, by simp, by simp [aGet]⟩ h
  dsimp only at hi
  have hall : ∀ k, Imported load roots k → k ∈ visited := by
    intro k hk
    induction hk with
    | root k hk => simpa using hi.roots k hk
    | next k k' d _ hl hk' ih => simpa using hi.closed k ih d hl k' hk'
  refine ⟨fun n => ⟨fun hn => ?_, ?_⟩, ?_, fun k hk => hi.loaded k (hall k hk)⟩
  · obtain ⟨vs, hvs⟩ := Option.isSome_iff_exists.1 hn
    obtain ⟨k, hk, d, hd, hg⟩ := hi.values n vs hvs
    exact ⟨k, d, hi.sound k (by simp [hk]), hd, by rw [hg]; rfl⟩
  · rintro ⟨k, d, hk, hd, hn⟩
    exact hi.names k (hall k hk) d hd n hn
  · intro n vs hn
    obtain ⟨k, hk, d, hd, hg⟩ := hi.values n vs hn
    exact ⟨k, d, hi.sound k (by simp [hk]), hd, hg⟩

/-- It fails only if some imported document cannot be loaded. -/
theorem C33_imports_fail {load : String → Except String (Option DictDoc)} {roots : List String} {fuel : Nat} {e : String}
    (h : loadDicts load fuel roots.reverse [] [] = some (.error e)) :
    ∃ k e, Imported load roots k ∧ load k = .error e :=
  loadDicts_inv (load := load) (roots := roots) fuel (r := .error e) (queue := roots.reverse) (visited := [])
    (out := []) ⟨fun k hk => .root k (by simpa using hk), fun k hk => by simp [hk], by simp, by simp, by simp, by simp [aGet]⟩ h

/-- It ends whenever finitely many documents are imported, circular imports included. -/
theorem C33_imports_terminate {load : String → Except String (Option DictDoc)} {roots : List String} (K : List String)
    (hK : ∀ k, Imported load roots k → k ∈ K) : ∃ fuel r, loadDicts load fuel roots.reverse [] [] = some r := by
  have gen : ∀ (u q : Nat) (queue visited : List String) (out : List (String × List String)),
      (K.filter (· ∉ visited)).length ≤ u → queue.length ≤ q → (∀ k ∈ queue, Imported load roots k) →
      ∃ fuel r, loadDicts load fuel queue visited out = some r := by
    intro u
    induction u with
    | zero =>
      intro q
      induction q with
      | zero =>
        intro queue visited out _ hq _
        rw [List.length_eq_zero_iff.1 (by omega : queue.length = 0)]
        exact ⟨1, _, rfl⟩
      | succ q ihq =>
        intro queue visited out hu hq hi
        cases queue with
        | nil => exact ⟨1, _, rfl⟩
        | cons key queue =>
          by_cases hv : key ∈ visited
          · obtain ⟨f, r, h⟩ := ihq queue visited out hu (by simpa using hq) fun k hk => hi k (by simp [hk])
            exact ⟨f + 1, r, by rw [loadDicts, if_pos hv]; exact h⟩
          · exfalso
            have : key ∈ K.filter (· ∉ visited) := List.mem_filter.2 ⟨hK key (hi key (by simp)), by simp [hv]⟩
            rw [List.length_eq_zero_iff.1 (by omega : (K.filter (· ∉ visited)).length = 0)] at this
            cases this
    | succ u ihu =>
      intro q
      induction q with
      | zero =>
        intro queue visited out _ hq _
        rw [List.length_eq_zero_iff.1 (by omega : queue.length = 0)]
        exact ⟨1, _, rfl⟩
      | succ q ihq =>
        intro queue visited out hu hq hi
        cases queue with
        | nil => exact ⟨1, _, rfl⟩
        | cons key queue =>
          by_cases hv : key ∈ visited
          · obtain ⟨f, r, h⟩ := ihq queue visited out hu (by simpa using hq) fun k hk => hi k (by simp [hk])
            exact ⟨f + 1, r, by rw [loadDicts, if_pos hv]; exact h⟩
          · have himp := hi key (by simp)
            have hless : (K.filter (· ∉ key :: visited)).length ≤ u := by
              have hsub : ∀ l : List String, (l.filter (· ∉ key :: visited)).length ≤ (l.filter (· ∉ visited)).length := by
                intro l
                induction l with
                | nil => simp
                | cons x l ih =>
                  simp only [List.mem_cons] at ih
                  simp only [List.filter_cons]
                  by_cases h1 : x ∈ visited
                  · simpa [h1] using ih
                  · by_cases h2 : x = key
                    · simp only [h2, List.mem_cons, true_or, not_true_eq_false, decide_false, Bool.false_eq_true,
                        if_false, hv, not_false_eq_true, decide_true, if_true, List.length_cons]
                      omega
                    · simp only [List.mem_cons, h1, h2, or_self, not_false_eq_true, decide_true, if_true, List.length_cons]
                      omega
              have hlt : ∀ l : List String, key ∈ l →
                  (l.filter (· ∉ key :: visited)).length < (l.filter (· ∉ visited)).length := by
                intro l
                induction l with
                | nil => intro h; cases h
                | cons x l ih =>
                  intro hm
                  simp only [List.filter_cons]
                  by_cases h2 : x = key
                  · subst h2
                    have := hsub l
                    simp only [List.mem_cons] at this
                    simp only [List.mem_cons, true_or, not_true_eq_false, decide_false, Bool.false_eq_true,
                      if_false, hv, not_false_eq_true, decide_true, if_true, List.length_cons]
                    omega
                  · have hm' : key ∈ l := by
                      rcases List.mem_cons.1 hm with h | h
                      · exact absurd h.symm h2
                      · exact h
                    have := ih hm'
                    simp only [List.mem_cons] at this
                    by_cases h1 : x ∈ visited
                    · simpa [h1] using this
                    · simp only [List.mem_cons, h1, h2, or_self, not_false_eq_true, decide_true, if_true, List.length_cons]
                      omega
              have := hlt K (hK key himp)
              omega
            cases hl : load key with
            | error e => exact ⟨1, _, by rw [loadDicts, if_neg hv, hl]⟩
            | ok r0 =>
              cases r0 with
              | none =>
                obtain ⟨f, r, h⟩ := ihu queue.length queue (key :: visited) out hless (Nat.le_refl _)
                  fun k hk => hi k (by simp [hk])
                exact ⟨f + 1, r, by rw [loadDicts, if_neg hv, hl]; exact h⟩
              | some d =>
                obtain ⟨f, r, h⟩ := ihu _ (d.imports.reverse ++ queue) (key :: visited) (addDicts out d.dicts) hless
                  (Nat.le_refl _) (fun k hk => by
                    rcases List.mem_append.1 hk with hk | hk
                    · exact .next key k d himp hl (List.mem_reverse.1 hk)
                    · exact hi k (by simp [hk]))
                exact ⟨f + 1, r, by rw [loadDicts, if_neg hv, hl]; exact h⟩
  exact gen _ _ roots.reverse [] [] (Nat.le_refl _) (Nat.le_refl _) fun k hk => .root k (by simpa using hk)

/-! ## Instances -/

def demoDicts : Dicts := fun n => if n = "color" then some ["red", "green"] else none

/-- `{ "properties": { "c": { "$dictionary": "color", "title": "C", "type": "number" } } }` -/
def demoSchema : Val :=
  .obj [("properties", .obj [("c", .obj [("$dictionary", .str "color"), ("title", .str "C"), ("type", .str "number")])])]

example : rewriteSchema demoDicts demoSchema = .ok (.obj [("properties", .obj [("c",
    .obj [("title", .str "C"), ("type", .str "string"), ("enum", .arr [.str "red", .str "green"])])])]) := by
  simp [rewriteSchema, rewriteE, demoSchema, demoDicts, aGet, inlined, refKey, aSet]

example : BadRef demoDicts (.arr [.obj [("$dictionary", .str "size")]]) :=
  .item _ _ (.head _) (.here _ (.str "size") rfl (by rintro name values h; cases h; simp [demoDicts]))

/-- two policies that import each other, the second with a dictionary of the same name -/
def demoImports : String → Except String (Option DictDoc)
  | "a" => .ok (some ⟨["b"], [("color", ["red"])]⟩)
  | "b" => .ok (some ⟨["a"], [("color", ["blue"]), ("size", ["s"])]⟩)
  | _ => .error "not found"

example : loadDicts demoImports 10 ["a"] [] [] = some (.ok (["b", "a"], [("color", ["red"]), ("size", ["s"])])) := rfl

end Zen
