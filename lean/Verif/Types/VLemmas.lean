import Verif.Types.VType
import Verif.Core.Val
/-
Facts about `satisfies` and `merge`.
-/
namespace Zen
namespace VT

/-- No object type, at any depth, lists a key twice. -/
inductive WF : VT → Prop
  | any : WF .any
  | null : WF .null
  | bool : WF .bool
  | string : WF .string
  | number : WF .number
  | date : WF .date
  | interval : WF .interval
  | arr {t} : WF t → WF (.arr t)
  | obj {o} : (aKeys o).Nodup → (∀ k t, (k, t) ∈ o → WF t) → WF (.obj o)
  | const {c} : WF (.const c)
  | enum {n vs} : WF (.enum n vs)
  | nullable {t} : WF t → WF (.nullable t)

/-- The same type: equal up to the order of fields, the order and repetition of enumeration members and the
names of enumerations. -/
inductive Same : VT → VT → Prop
  | any : Same .any .any
  | null : Same .null .null
  | bool : Same .bool .bool
  | string : Same .string .string
  | number : Same .number .number
  | date : Same .date .date
  | interval : Same .interval .interval
  | arr {a b} : Same a b → Same (.arr a) (.arr b)
  | obj {o o'} : (∀ k, aGet o k = none ↔ aGet o' k = none) →
      (∀ k t t', aGet o k = some t → aGet o' k = some t' → Same t t') → Same (.obj o) (.obj o')
  | const {c} : Same (.const c) (.const c)
  | enum {n n' vs vs'} : (∀ x, x ∈ vs ↔ x ∈ vs') → Same (.enum n vs) (.enum n' vs')
  | nullable {a b} : Same a b → Same (.nullable a) (.nullable b)

/-- what `merge` does with the two unwrapped types, arranged as in the code (util.rs:148-235) -/
def core (same : VT → VT → Bool) (l r : VT) : VT :=
  match l, r with
  | .any, _ => .any
  | _, .any => .any
  | .null, .null => .null
  | .null, o => .nullable o
  | o, .null => .nullable o
  | .bool, .bool => .bool
  | .string, .string => .string
  | .number, .number => .number
  | .date, .date => .date
  | .interval, .interval => .interval
  | .arr a1, .arr a2 => if same a1 a2 then .arr a1 else match a1, a2 with
    | .any, o => .arr o
    | o, .any => .arr o
    | l, r => .arr (merge same l r)
  | .obj o1, .obj o2 => .obj (mgFields same o1 o2)
  | .const c, .enum _ vs => .enum none (if vs.contains c then vs else vs ++ [c])
  | .const c1, .const c2 => if c1 = c2 then .const c1 else .enum none [c1, c2]
  | .const _, .string => .string
  | .string, .const _ => .string
  | .enum n1 a, .enum n2 b => .enum (joinName n1 n2) (pushNew a b)
  | .enum _ vs, .const c => .enum none (if vs.contains c then vs else vs ++ [c])
  | .enum _ _, .string => .string
  | .string, .enum _ _ => .string
  | _, _ => .any

theorem core_arr (same : VT → VT → Bool) {a b : VT} (ha : a ≠ .any) (hb : b ≠ .any) (h : ¬ same a b = true) :
    core same (.arr a) (.arr b) = .arr (merge same a b) := by
  show (if same a b then _ else _) = _
  rw [if_neg h]
  cases a <;> cases b <;> first | rfl | exact absurd rfl ha | exact absurd rfl hb

theorem mg_eq (same : VT → VT → Bool) (rn : Bool) (l r : VT) (h : ∀ x, r ≠ .nullable x) :
    mg same rn l r = fin (l.unwrap.2 || rn) (core same l.unwrap.1 r) := by
  cases r with
  | nullable x => exact absurd rfl (h x)
  | arr b =>
    rw [mg]
    generalize l.unwrap = u
    obtain ⟨u, n⟩ := u
    cases u with
    | arr a =>
      show fin _ (if same a b then _ else _) = fin _ (if same a b then _ else _)
      split
      · rfl
      · cases a <;> cases b <;> rfl
    | _ => rfl
  | any =>
    rw [mg]
    generalize l.unwrap = u
    obtain ⟨u, n⟩ := u
    cases u <;> cases n <;> cases rn <;> rfl
  | _ =>
    rw [mg]
    generalize l.unwrap = u
    obtain ⟨u, n⟩ := u
    cases u <;> rfl

theorem merge_eq (same : VT → VT → Bool) (a b : VT) :
    merge same a b = fin (a.unwrap.2 || b.unwrap.2) (core same a.unwrap.1 b.unwrap.1) := by
  by_cases h : ∃ x, b = .nullable x
  · obtain ⟨x, rfl⟩ := h
    rw [merge, mg]
    by_cases h : ∃ y, x = .nullable y
    · obtain ⟨y, rfl⟩ := h
      rw [mg]
      generalize a.unwrap = u
      obtain ⟨u, n⟩ := u
      cases u <;> cases n <;> rfl
    · exact mg_eq same true a x fun y e => h ⟨y, e⟩
  · have hb : b.unwrap = (b, false) := by
      cases b <;> first | rfl | exact absurd ⟨_, rfl⟩ h
    rw [merge, mg_eq same false a b fun y e => h ⟨y, e⟩, hb]

theorem mgFields_nodup (same : VT → VT → Bool) (o2 : List (String × VT)) : ∀ (o1 : List (String × VT)),
    (aKeys o1).Nodup → (aKeys (mgFields same o1 o2)).Nodup := by
  induction o2 with
  | nil => intro o1 h; exact h
  | cons kv r ih =>
    intro o1 h
    obtain ⟨k, v⟩ := kv
    exact ih _ (aKeys_aSet_nodup _ _ h)

theorem mgFields_get (same : VT → VT → Bool) (o2 : List (String × VT)) : ∀ (o1 : List (String × VT)),
    (aKeys o2).Nodup → ∀ k, aGet (mgFields same o1 o2) k = match aGet o1 k, aGet o2 k with
      | some a, some b => some (merge same a b)
      | some a, none => some a
      | none, b => b := by
  induction o2 with
  | nil =>
    intro o1 _ k
    rw [mgFields, aGet_nil]
    cases aGet o1 k <;> rfl
  | cons kv r ih =>
    intro o1 h k
    obtain ⟨k', v⟩ := kv
    rw [aKeys_cons, List.nodup_cons] at h
    rw [mgFields, ih _ h.2, aGet_aSet, aGet_cons]
    by_cases e : k = k'
    · subst e
      have hn : aGet r k = none := (aGet_eq_none_iff r k).2 h.1
      rw [hn]
      cases h1 : aGet o1 k <;> simp [merge]
    · have e' : ¬ k' = k := fun h => e h.symm
      simp only [e, e', if_false]

theorem pushNew_mem (b : List String) : ∀ (a : List String) (x : String), x ∈ pushNew a b ↔ x ∈ a ∨ x ∈ b := by
  induction b with
  | nil => intro a x; simp [pushNew]
  | cons c cs ih =>
    intro a x
    rw [pushNew, ih]
    by_cases h : a.contains c
    · rw [if_pos h]
      have : c ∈ a := by simpa using h
      grind
    · rw [if_neg h]
      grind

theorem size_get {o : List (String × VT)} {k : String} {t : VT} (h : aGet o k = some t) :
    sizeOf t < sizeOf o := by
  have hm := aGet_mem h
  have := List.sizeOf_lt_of_mem hm
  simp only [Prod.mk.sizeOf_spec] at this
  omega

theorem WF.get {o : List (String × VT)} (h : WF (.obj o)) {k : String} {t : VT} (hg : aGet o k = some t) :
    WF t := by
  cases h with
  | obj _ h => exact h k t (aGet_mem hg)

theorem WF.nodup {o : List (String × VT)} (h : WF (.obj o)) : (aKeys o).Nodup := by
  cases h with
  | obj h _ => exact h

theorem WF.unwrap {t : VT} (h : WF t) : WF t.unwrap.1 := by
  cases h with
  | nullable h => exact h
  | any => exact .any
  | null => exact .null
  | bool => exact .bool
  | string => exact .string
  | number => exact .number
  | date => exact .date
  | interval => exact .interval
  | arr h => exact .arr h
  | obj h h' => exact .obj h h'
  | const => exact .const
  | enum => exact .enum

theorem Same.refl (t : VT) : Same t t := by
  induction t using VT.ind with
  | any => exact .any
  | null => exact .null
  | bool => exact .bool
  | string => exact .string
  | number => exact .number
  | date => exact .date
  | interval => exact .interval
  | arr t h => exact .arr h
  | obj o h =>
    refine .obj (fun _ => Iff.rfl) fun k t t' h1 h2 => ?_
    rw [h1] at h2
    cases h2
    exact h _ (aGet_mem h1)
  | const c => exact .const
  | enum n vs => exact .enum fun _ => Iff.rfl
  | nullable t h => exact .nullable h

theorem Same.symm {a b : VT} (h : Same a b) : Same b a := by
  induction h with
  | any => exact .any
  | null => exact .null
  | bool => exact .bool
  | string => exact .string
  | number => exact .number
  | date => exact .date
  | interval => exact .interval
  | arr _ h => exact .arr h
  | obj h _ ih => exact .obj (fun k => (h k).symm) fun k t t' h1 h2 => ih k t' t h2 h1
  | const => exact .const
  | enum h => exact .enum fun x => (h x).symm
  | nullable _ h => exact .nullable h

theorem Same.trans {a b : VT} (h : Same a b) : ∀ {c}, Same b c → Same a c := by
  induction h with
  | any => exact fun h => h
  | null => exact fun h => h
  | bool => exact fun h => h
  | string => exact fun h => h
  | number => exact fun h => h
  | date => exact fun h => h
  | interval => exact fun h => h
  | const => exact fun h => h
  | arr _ ih => intro c h; cases h with | arr h => exact .arr (ih h)
  | nullable _ ih => intro c h; cases h with | nullable h => exact .nullable (ih h)
  | enum h => intro c h'; cases h' with | enum h' => exact .enum fun x => (h x).trans (h' x)
  | @obj o o' h _ ih =>
    intro c h'
    cases h' with
    | obj h1 h2 =>
      refine .obj (fun k => (h k).trans (h1 k)) fun k t t' e1 e2 => ?_
      cases e : aGet o' k with
      | none => rw [(h k).2 e] at e1; cases e1
      | some x => exact ih k t x e1 e (h2 k x t' e e2)

theorem Same.loose {a b : VT} (h : Same a b) : a.loose = b.loose := by cases h <;> rfl

theorem Same.fin {a b : VT} (h : Same a b) (n : Bool) : Same (fin n a) (fin n b) := by
  rw [VT.fin, VT.fin, h.loose]
  split
  · exact .nullable h
  · exact h

theorem satFields_iff (o1 o2 : List (String × VT)) : satFields o1 o2 = true ↔
    ∀ k v, (k, v) ∈ o2 → (∃ t, aGet o1 k = some t ∧ sat t v = true) ∨ (aGet o1 k = none ∧ v.loose = true) := by
  induction o2 with
  | nil => simp [satFields]
  | cons kv r ih =>
    obtain ⟨k, v⟩ := kv
    rw [satFields, Bool.and_eq_true, ih]
    constructor
    · intro h k' v' hm
      rcases List.mem_cons.1 hm with e | hm
      · cases e
        cases e : aGet o1 k with
        | none => rw [e] at h; exact .inr ⟨rfl, h.1⟩
        | some t => rw [e] at h; exact .inl ⟨t, rfl, h.1⟩
      · exact h.2 k' v' hm
    · intro h
      refine ⟨?_, fun k' v' hm => h k' v' (List.mem_cons_of_mem _ hm)⟩
      rcases h k v List.mem_cons_self with ⟨t, e, h⟩ | ⟨e, h⟩ <;> rw [e] <;> exact h

theorem sat_any (t : VT) : sat t .any = true := by rw [sat]

theorem any_sat (c : VT) : sat .any c = true := by cases c <;> simp only [sat]

theorem sat_refl {t : VT} (h : WF t) : sat t t = true := by
  induction h with
  | arr _ ih => simp only [sat, ih]
  | nullable _ ih => simp only [sat, ih]
  | @obj o nd _ ih =>
    simp only [sat]
    exact (satFields_iff o o).2 fun k v hm => .inl ⟨v, aGet_of_mem nd hm, ih k v hm⟩
  | const => simp [sat]
  | enum => simp [sat]
  | _ => simp only [sat]

end VT
end Zen
