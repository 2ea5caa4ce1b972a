import Verif.Policy.Validator
import Mathlib.Logic.Relation
/-
C39  Validation of the input of a policy.
-/
namespace Zen.Policy
open Zen

/-! ## Specification -/

/-- what is demanded of a value -/
inductive Need where
  /-- a list of values of a kind -/
  | list (k : PKind)
  | one (k : PKind)
  /-- a list of entities -/
  | ents (name : String)
  | ent (name : String)

/-- what a property demands of its value -/
def PProp.need (p : PProp) : Need := if p.array then .list p.kind else .one p.kind

/-- a relationship that leads to a dictionary instead of an entity -/
def IsDict (S : InSchema) (t : String) (vs : List String) : Prop := aGet S.entities t = none ∧ aGet S.dicts t = some vs

/-- a value in the input, what is demanded of it, and the number of entities around it -/
structure Place where
  depth : Nat
  need : Need
  val : Val

/-- The places below a place. Null values and properties that are not declared are not looked at. -/
inductive Place.Below (S : InSchema) : Place → Place → Prop where
  | item {d k xs x} : x ∈ xs → x ≠ Val.null → Below S ⟨d, .list k, .arr xs⟩ ⟨d, .one k, x⟩
  | itemE {d n xs x} : x ∈ xs → x ≠ Val.null → Below S ⟨d, .ents n, .arr xs⟩ ⟨d, .ent n, x⟩
  | rel {d t v} : (∀ vs, ¬ IsDict S t vs) → Below S ⟨d, .one (.relationship t), v⟩ ⟨d, .ent t, v⟩
  | prop {d e m props k x p} : aGet S.entities e = some props → (k, x) ∈ m → x ≠ Val.null →
      props.find? (fun p => p.name == k) = some p → Below S ⟨d, .ent e, .obj m⟩ ⟨d + 1, p.need, x⟩

/-- the places at the top of an input -/
inductive Place.Top (S : InSchema) (m : List (String × Val)) : Place → Prop where
  | pool {k v} : (k, v) ∈ m → v ≠ Val.null → k ∈ S.refTargets → Top S m ⟨0, .ents k, v⟩
  | root {k v} : (k, v) ∈ m → v ≠ Val.null → k ∉ S.refTargets → k ∈ S.roots → Top S m ⟨0, .ent k, v⟩
  | global {k v p} : (k, v) ∈ m → v ≠ Val.null → k ∉ S.refTargets → k ∉ S.roots → aGet S.globals k = some p →
      Top S m ⟨0, p.need, v⟩

/-- the input holds an entity of the target with this id -/
def InPool (input : Val) (S : InSchema) (target id : String) : Prop :=
  target ∈ S.refTargets ∧ ∃ xs, input.dot target = some (.arr xs) ∧ ∃ x ∈ xs, x.dot "id" = some (.str id)

/-- the demand is met at this place (what is below is a place of its own) -/
def Place.Meets (S : InSchema) (input : Val) : Place → Prop
  | ⟨_, .list _, v⟩ => ∃ xs, v = .arr xs
  | ⟨_, .ents _, v⟩ => ∃ xs, v = .arr xs
  | ⟨d, .ent _, v⟩ => d < 32 ∧ ∃ m, v = .obj m
  | ⟨_, .one .string, v⟩ => ∃ s, v = .str s
  | ⟨_, .one (.enum vs), v⟩ => ∃ s ∈ vs, v = .str s
  | ⟨_, .one .number, v⟩ => ∃ q, v = .num q
  | ⟨_, .one .boolean, v⟩ => ∃ b, v = .bool b
  | ⟨_, .one .date, v⟩ => ∃ s, v = .str s
  | ⟨_, .one (.reference t), v⟩ => ∃ s, v = .str s ∧ InPool input S t s
  | ⟨_, .one (.relationship t), v⟩ => ∀ vs, IsDict S t vs → ∃ s ∈ vs, v = .str s

/-! ## Pools -/

theorem mem_poolFold : ∀ (xs : List Val) (p : List (String × Val)) (id : String),
    (aGet (xs.foldl poolAdd p) id).isSome ↔
      (aGet p id).isSome ∨ ∃ x ∈ xs, x.dot "id" = some (.str id)
  | [], p, id => by simp
  | x :: xs, p, id => by
    rw [List.foldl_cons, mem_poolFold xs]
    have key : (aGet (poolAdd p x) id).isSome ↔ (aGet p id).isSome ∨ x.dot "id" = some (.str id) := by
      unfold poolAdd
      split
      · next i h =>
        rw [h, aGet_aSet]
        by_cases e : id = i
        · subst e; simp
        · have : i ≠ id := fun h => e h.symm
          simp [e, this]
      · next h =>
        constructor
        · exact .inl
        · rintro (h' | h')
          · exact h'
          · exact absurd h' (h id)
    rw [key]
    simp only [List.mem_cons]
    constructor
    · rintro ((h | h) | ⟨y, hy, h⟩)
      · exact .inl h
      · exact .inr ⟨x, .inl rfl, h⟩
      · exact .inr ⟨y, .inr hy, h⟩
    · rintro (h | ⟨y, rfl | hy, h⟩)
      · exact .inl (.inl h)
      · exact .inl (.inr h)
      · exact .inr ⟨y, hy, h⟩

theorem aGet_poolsFold (input : Val) : ∀ (ts : List String) (ps : Pools) (t : String),
    aGet (ts.foldl (fun ps t => aSet ps t (poolOf input t)) ps) t = if t ∈ ts then some (poolOf input t) else aGet ps t
  | [], ps, t => by simp
  | u :: ts, ps, t => by
    rw [List.foldl_cons, aGet_poolsFold input ts]
    by_cases h : t ∈ ts
    · simp [h]
    · rw [if_neg h, aGet_aSet]
      by_cases e : t = u
      · subst e; simp
      · simp [e, h]

theorem aGet_poolsOf (input : Val) (ts : List String) (t : String) :
    aGet (poolsOf input ts) t = if t ∈ ts then some (poolOf input t) else none := by
  unfold poolsOf
  rw [aGet_poolsFold]; rfl

theorem poolContains_iff (input : Val) (S : InSchema) (t id : String) :
    poolContains (poolsOf input S.refTargets) t id = true ↔ InPool input S t id := by
  unfold poolContains InPool
  rw [aGet_poolsOf]
  by_cases h : t ∈ S.refTargets
  · rw [if_pos h]
    dsimp only
    unfold poolOf
    split
    · next xs hx =>
      rw [mem_poolFold, hx]
      constructor
      · rintro (h' | h')
        · cases h'
        · exact ⟨h, xs, rfl, h'⟩
      · rintro ⟨_, ys, e, h'⟩
        injection e with e; injection e with e; subst e
        exact .inr h'
    · next hx =>
      constructor
      · intro h'; cases h'
      · rintro ⟨_, ys, e, _⟩; exact absurd e (hx ys)
  · rw [if_neg h]
    constructor
    · intro h'; cases h'
    · intro h'; exact absurd h'.1 h

/-! ## The demands below a place -/

section
variable (S : InSchema) (input : Val)

def AllMeet (c : Place) : Prop := ∀ c', Relation.ReflTransGen (Place.Below S) c c' → c'.Meets S input

theorem allMeet_iff (c : Place) : AllMeet S input c ↔ c.Meets S input ∧ ∀ c', c.Below S c' → AllMeet S input c' := by
  constructor
  · intro h
    exact ⟨h c .refl, fun c' h1 c'' h2 => h c'' (.head h1 h2)⟩
  · rintro ⟨h1, h2⟩ c' hc
    rcases Relation.ReflTransGen.cases_head hc with rfl | ⟨d, hd, hc⟩
    · exact h1
    · exact h2 d hd c' hc

theorem isNull_iff {v : Val} : v.isNull = true ↔ v = Val.null := by cases v <;> simp [Val.isNull]

theorem validateEnum_nil {v : Val} {vs : List String} {path : String} : validateEnum v vs path = [] ↔ ∃ s ∈ vs, v = Val.str s := by
  unfold validateEnum
  cases v with
  | str s => by_cases h : s ∈ vs <;> simp [h]
  | _ => simp

theorem validateReference_nil {v : Val} {t path : String} :
    validateReference (poolsOf input S.refTargets) v t path = [] ↔ ∃ s, v = Val.str s ∧ InPool input S t s := by
  unfold validateReference
  cases v with
  | str s =>
    dsimp only
    by_cases h : poolContains (poolsOf input S.refTargets) t s = true
    · simp [h, (poolContains_iff input S t s).1 h]
    · have h' : ¬ InPool input S t s := fun k => h ((poolContains_iff input S t s).2 k)
      simp [h, h']
  | _ => simp

theorem validateItems_nil {f : Val → String → List InErr} {path : String} {Q : Val → Prop} (hf : ∀ x path, f x path = [] ↔ Q x) :
    ∀ i xs, validateItems f path i xs = [] ↔ ∀ x ∈ xs, x ≠ Val.null → Q x
  | i, [] => by simp [validateItems]
  | i, x :: xs => by
    unfold validateItems
    rw [List.append_eq_nil_iff, validateItems_nil hf (i + 1) xs]
    simp only [List.mem_cons, forall_eq_or_imp]
    refine and_congr ?_ Iff.rfl
    by_cases h : x.isNull = true
    · rw [if_pos h]; exact ⟨fun _ hn => absurd (isNull_iff.1 h) hn, fun _ => rfl⟩
    · have h' : x ≠ Val.null := fun e => h (isNull_iff.2 e)
      rw [if_neg h, hf]; simp [h']

theorem validateEntries_nil {f : Val → PProp → String → List InErr} {props : List PProp} {path : String} {Q : Val → PProp → Prop}
    (hf : ∀ x p path, f x p path = [] ↔ Q x p) : ∀ m, validateEntries f props path m = [] ↔
      ∀ k x p, (k, x) ∈ m → x ≠ Val.null → props.find? (fun p => p.name == k) = some p → Q x p
  | [] => by simp [validateEntries]
  | (k, v) :: m => by
    unfold validateEntries
    rw [List.append_eq_nil_iff, validateEntries_nil hf m]
    have key : validateEntry f props path k v = [] ↔
        (v ≠ Val.null → ∀ p, props.find? (fun p => p.name == k) = some p → Q v p) := by
      unfold validateEntry
      by_cases h : v.isNull = true
      · rw [if_pos h]; exact ⟨fun _ hn => absurd (isNull_iff.1 h) hn, fun _ => rfl⟩
      · have h' : v ≠ Val.null := fun e => h (isNull_iff.2 e)
        rw [if_neg h]
        cases hp : props.find? fun p => p.name == k with
        | none => simp
        | some p => simp [hf, h']
    rw [key]
    constructor
    · rintro ⟨h1, h2⟩ k' x p hm hx hp
      rcases List.mem_cons.1 hm with e | hm
      · injection e with e1 e2; subst e1; subst e2; exact h1 hx p hp
      · exact h2 k' x p hm hx hp
    · intro h
      exact ⟨fun hx p hp => h k v p (by simp) hx hp, fun k' x p hm => h k' x p (by simp [hm])⟩

section
variable {ent : Val → String → String → List InErr} {d : Nat}
variable (he : ∀ v name path, ent v name path = [] ↔ AllMeet S input ⟨d, .ent name, v⟩)
include he

theorem validateKind_nil (v : Val) (kind : PKind) (path : String) :
    validateKind S (poolsOf input S.refTargets) ent v kind path = [] ↔ AllMeet S input ⟨d, .one kind, v⟩ := by
  rw [allMeet_iff]
  cases kind with
  | string =>
    refine Iff.trans ?_ (and_iff_left (fun c' h => by cases h)).symm
    unfold validateKind Place.Meets; cases v <;> simp
  | enum vs =>
    refine Iff.trans ?_ (and_iff_left (fun c' h => by cases h)).symm
    exact validateEnum_nil
  | number =>
    refine Iff.trans ?_ (and_iff_left (fun c' h => by cases h)).symm
    unfold validateKind Place.Meets; cases v <;> simp
  | boolean =>
    refine Iff.trans ?_ (and_iff_left (fun c' h => by cases h)).symm
    unfold validateKind Place.Meets; cases v <;> simp
  | date =>
    refine Iff.trans ?_ (and_iff_left (fun c' h => by cases h)).symm
    unfold validateKind Place.Meets; cases v <;> simp
  | reference t =>
    refine Iff.trans ?_ (and_iff_left (fun c' h => by cases h)).symm
    exact validateReference_nil S input
  | relationship t =>
    unfold validateKind Place.Meets
    dsimp only
    by_cases hd : ∃ vs, IsDict S t vs
    · obtain ⟨vs, h1, h2⟩ := hd
      rw [h1, h2]
      dsimp only
      rw [validateEnum_nil]
      constructor
      · intro h
        refine ⟨fun vs' h' => ?_, fun c' hc => ?_⟩
        · have := h2.symm.trans h'.2
          injection this with this; subst this; exact h
        · cases hc with
          | rel hn => exact absurd ⟨h1, h2⟩ (hn vs)
      · exact fun h => h.1 vs ⟨h1, h2⟩
    · have hn : ∀ vs, ¬ IsDict S t vs := fun vs h => hd ⟨vs, h⟩
      split
      · next vs h1 h2 => exact absurd ⟨h1, h2⟩ (hn vs)
      rw [he]
      constructor
      · intro h
        refine ⟨fun vs h' => absurd h' (hn vs), fun c' hc => ?_⟩
        cases hc; exact h
      · exact fun h => h.2 _ (.rel hn)

theorem validateProp_nil (v : Val) (p : PProp) (path : String) :
    validateProp S (poolsOf input S.refTargets) ent v p path = [] ↔ AllMeet S input ⟨d, p.need, v⟩ := by
  unfold validateProp PProp.need
  by_cases ha : p.array = true
  · rw [if_pos ha, if_pos ha, allMeet_iff]
    cases v with
    | arr xs =>
      dsimp only
      rw [validateItems_nil fun x path => validateKind_nil S input he x p.kind path]
      constructor
      · intro h
        refine ⟨⟨xs, rfl⟩, fun c' hc => ?_⟩
        cases hc with
        | item h1 h2 => exact h _ h1 h2
      · intro h x hx hn
        exact h.2 _ (.item hx hn)
    | _ => simp [Place.Meets]
  · rw [if_neg ha, if_neg ha]
    exact validateKind_nil S input he v p.kind path

end

theorem validateEntity_nil : ∀ n d v name path, d + n = 32 →
    (validateEntity S (poolsOf input S.refTargets) n v name path = [] ↔ AllMeet S input ⟨d, .ent name, v⟩)
  | 0, d, v, name, path, h => by
    rw [allMeet_iff]
    constructor
    · intro h; cases h
    · intro h'
      have := h'.1.1
      omega
  | n + 1, d, v, name, path, h => by
    rw [allMeet_iff]
    unfold validateEntity
    cases v with
    | obj m =>
      dsimp only
      cases hp : aGet S.entities name with
      | none =>
        dsimp only
        refine ⟨fun _ => ⟨⟨by omega, m, rfl⟩, fun c' hc => ?_⟩, fun _ => rfl⟩
        cases hc with
        | prop h1 => rw [hp] at h1; cases h1
      | some props =>
        dsimp only
        rw [validateEntries_nil fun x p path => validateProp_nil S input (d := d + 1)
          (fun v name path => validateEntity_nil n (d + 1) v name path (by omega)) x p path]
        constructor
        · intro h'
          refine ⟨⟨by omega, m, rfl⟩, fun c' hc => ?_⟩
          cases hc with
          | prop h1 h2 h3 h4 =>
            rw [hp] at h1; injection h1 with h1; subst h1
            exact h' _ _ _ h2 h3 h4
        · intro h' k x p h1 h2 h3
          exact h'.2 _ (.prop hp h1 h2 h3)
    | _ => simp [Place.Meets]

theorem validateArray_nil (v : Val) (name path : String) :
    validateArrayOfEntity S (poolsOf input S.refTargets) v name path = [] ↔ AllMeet S input ⟨0, .ents name, v⟩ := by
  rw [allMeet_iff]
  unfold validateArrayOfEntity
  cases v with
  | arr xs =>
    dsimp only
    rw [validateItems_nil fun x path => validateEntity_nil S input maxDepth 0 x name path rfl]
    constructor
    · intro h
      refine ⟨⟨xs, rfl⟩, fun c' hc => ?_⟩
      cases hc with
      | itemE h1 h2 => exact h _ h1 h2
    · intro h x hx hn
      exact h.2 _ (.itemE hx hn)
  | _ => simp [Place.Meets]

theorem validateTop_nil (m : List (String × Val)) (k : String) (v : Val) (hm : (k, v) ∈ m) :
    validateTop S (poolsOf input S.refTargets) k v = [] ↔
      (v ≠ Val.null → (k ∈ S.refTargets → AllMeet S input ⟨0, .ents k, v⟩) ∧
        (k ∉ S.refTargets → k ∈ S.roots → AllMeet S input ⟨0, .ent k, v⟩) ∧
        (k ∉ S.refTargets → k ∉ S.roots → ∀ p, aGet S.globals k = some p → AllMeet S input ⟨0, p.need, v⟩)) := by
  unfold validateTop
  by_cases hn : v.isNull = true
  · rw [if_pos hn]; exact ⟨fun _ hn' => absurd (isNull_iff.1 hn) hn', fun _ => rfl⟩
  · have hn' : v ≠ Val.null := fun e => hn (isNull_iff.2 e)
    rw [if_neg hn]
    simp only [List.contains_iff_mem]
    by_cases h1 : k ∈ S.refTargets
    · rw [if_pos (by simpa using h1), validateArray_nil]; simp [hn', h1]
    · rw [if_neg (by simpa using h1)]
      by_cases h2 : k ∈ S.roots
      · rw [if_pos (by simpa using h2), validateEntity_nil S input maxDepth 0 v k k rfl]; simp [hn', h1, h2]
      · rw [if_neg (by simpa using h2)]
        cases hg : aGet S.globals k with
        | none => simp [h1, h2]
        | some p =>
          dsimp only
          rw [validateProp_nil S input (d := 0) (fun v name path => validateEntity_nil S input maxDepth 0 v name path rfl)]
          simp [hn', h1, h2]

end

/-! ## Theorems -/

/-- An input is accepted exactly when it is null or an object, and every declared place in it, at any depth,
holds what is declared; entities are at most 32 deep. -/
theorem C39_accepts_iff (S : InSchema) (input : Val) : validateInput S input = [] ↔
    input = .null ∨ ∃ m, input = .obj m ∧ ∀ top, Place.Top S m top → ∀ c, Relation.ReflTransGen (Place.Below S) top c → c.Meets S input := by
  unfold validateInput
  cases input with
  | obj m =>
    dsimp only
    rw [List.flatMap_eq_nil_iff]
    constructor
    · intro h
      refine .inr ⟨m, rfl, fun top ht => ?_⟩
      cases ht with
      | pool hm hn h1 => exact ((validateTop_nil S (.obj m) m _ _ hm).1 (h _ hm) hn).1 h1
      | root hm hn h1 h2 => exact ((validateTop_nil S (.obj m) m _ _ hm).1 (h _ hm) hn).2.1 h1 h2
      | global hm hn h1 h2 h3 => exact ((validateTop_nil S (.obj m) m _ _ hm).1 (h _ hm) hn).2.2 h1 h2 _ h3
    · rintro (h | ⟨m', e, h⟩)
      · cases h
      · injection e with e; subst e
        rintro ⟨k, v⟩ hm
        refine (validateTop_nil S (.obj m) m k v hm).2 fun hn => ⟨fun h1 => h _ (.pool hm hn h1), fun h1 h2 => h _ (.root hm hn h1 h2),
          fun h1 h2 p h3 => h _ (.global hm hn h1 h2 h3)⟩
  | null => simp
  | _ => simp

/-- In an accepted input every declared place holds what is declared. -/
theorem C39_conforms {S : InSchema} {m : List (String × Val)} (h : validateInput S (.obj m) = []) {top c : Place} (ht : Place.Top S m top)
    (hc : Relation.ReflTransGen (Place.Below S) top c) : c.Meets S (.obj m) := by
  rcases (C39_accepts_iff S _).1 h with h | ⟨m', e, h⟩
  · cases h
  · injection e with e; subst e; exact h top ht c hc

/-- The recursion is on the bound alone: whatever the data model and however deep the value, an entity met with
nothing left of the bound is reported and not entered. -/
theorem C39_bound (S : InSchema) (pools : Pools) (v : Val) (name path : String) :
    validateEntity S pools 0 v name path = [⟨path, "entity nesting within 32 levels", "deeper"⟩] := rfl

theorem repeat_deep (S : InSchema) (e k : String) (props : List PProp) (p : PProp) (he : aGet S.entities e = some props)
    (hp : props.find? (fun p => p.name == k) = some p) (hk : p.need = .one (.relationship e)) (hd : ∀ vs, ¬ IsDict S e vs) (w : Nat → Val)
    (hw : ∀ n, w (n + 1) = .obj [(k, w n)]) (h0 : w 0 ≠ .null) : ∀ n d, Relation.ReflTransGen (Place.Below S) ⟨d, .ent e, w n⟩ ⟨d + n, .ent e, w 0⟩
  | 0, d => .refl
  | n + 1, d => by
    have hn : w n ≠ Val.null := by cases n with
      | zero => exact h0
      | succ n => rw [hw]; simp
    have ih := repeat_deep S e k props p he hp hk hd w hw h0 n (d + 1)
    have e1 : d + 1 + n = d + (n + 1) := by omega
    rw [e1] at ih
    rw [hw n]
    refine .head (.prop he (by simp : (k, w n) ∈ [(k, w n)]) hn hp) ?_
    rw [hk]
    exact .head (.rel hd) ih

/-- On a recursive data model, a value nested more than 32 deep is rejected. -/
theorem C39_too_deep (S : InSchema) (root k : String) (props : List PProp) (p : PProp) (hr : root ∈ S.roots) (hr' : root ∉ S.refTargets)
    (he : aGet S.entities root = some props) (hp : props.find? (fun p => p.name == k) = some p) (hk : p.need = .one (.relationship root))
    (w : Nat → Val) (hw : ∀ n, w (n + 1) = .obj [(k, w n)]) (h0 : w 0 ≠ .null) (n : Nat) (hn : 32 ≤ n) :
    validateInput S (.obj [(root, w n)]) ≠ [] := by
  intro h
  have hnn : w n ≠ Val.null := by cases n with
    | zero => exact h0
    | succ n => rw [hw]; simp
  have hd : ∀ vs, ¬ IsDict S root vs := fun vs h => by rw [h.1] at he; cases he
  have := C39_conforms h (.root (List.mem_singleton.2 rfl) hnn hr' hr) (repeat_deep S root k props p he hp hk hd w hw h0 n 0)
  have := this.1
  omega

/-! NEGATIVE: what validation does not look at. -/

/-- A required property may be missing: an input without any of its properties is accepted. -/
theorem C39_missing_accepted (S : InSchema) (root : String) (hr : root ∉ S.refTargets) (hg : root ∈ S.roots) :
    validateInput S (.obj [(root, .obj [])]) = [] := by
  have h1 : S.refTargets.contains root = false := by simpa using hr
  have h2 : S.roots.contains root = true := by simpa using hg
  simp only [validateInput, List.flatMap_cons, List.flatMap_nil, List.append_nil, validateTop, Val.isNull, h1, h2]
  simp only [Bool.false_eq_true, if_false, if_true, maxDepth, validateEntity]
  split <;> rfl

/-- Any string is accepted as a date. -/
theorem C39_date_unchecked (S : InSchema) (pools : Pools) (ent : Val → String → String → List InErr) (s path : String) :
    validateKind S pools ent (.str s) .date path = [] := rfl

/-! ## Instances -/

def demoSchema : InSchema where
  entities := [("Order", [⟨"total", .number, false, false⟩, ⟨"lines", .relationship "Line", true, false⟩, ⟨"buyer", .reference "Person", false, true⟩]),
    ("Line", [⟨"sku", .string, false, false⟩, ⟨"state", .relationship "States", false, false⟩, ⟨"parent", .relationship "Line", false, true⟩]),
    ("Person", [⟨"id", .string, false, false⟩])]
  globals := [("mode", ⟨"mode", .enum ["a", "b"], false, false⟩)]
  roots := ["Order"]
  refTargets := ["Person"]
  dicts := [("States", ["new", "done"])]

def demoGood : Val := .obj [("mode", .str "a"), ("Person", .arr [.obj [("id", .str "p1")], .null]), ("extra", .num 1),
  ("Order", .obj [("total", .num 3), ("buyer", .str "p1"),
    ("lines", .arr [.obj [("sku", .str "x"), ("state", .str "new"), ("parent", .obj [("sku", .str "y")])], .null])])]

example : validateInput demoSchema demoGood = [] := by decide +kernel

/-- every sort of error, with its path -/
example : (validateInput demoSchema (.obj [("mode", .str "z"), ("Person", .obj []),
    ("Order", .obj [("total", .str "3"), ("buyer", .str "p1"), ("lines", .arr [.obj [("state", .str "old"), ("parent", .obj [("sku", .num 1)])], .num 1])])])).map
      InErr.path = ["mode", "Person", "Order.total", "Order.buyer", "Order.lines[0].state", "Order.lines[0].parent.sku", "Order.lines[1]"] := by
  decide +kernel

end Zen.Policy
