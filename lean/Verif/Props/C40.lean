import Verif.Policy.Hydrate
import Verif.Props.C39
import Verif.Props.C04
import Mathlib.Data.List.Forall2
/-
C40  Reference hydration.
-/
namespace Zen.Policy
open Zen

/-! ## Specification -/

/-- `x` is the last item with this id -/
def LastWithId (xs : List Val) (id : String) (x : Val) : Prop :=
  ∃ l r, xs = l ++ x :: r ∧ x.dot "id" = some (.str id) ∧ ∀ y ∈ r, y.dot "id" ≠ some (.str id)

/-- the entity an id stands for -/
def Entity (input : Val) (target id : String) (x : Val) : Prop :=
  ∃ xs, input.dot target = some (.arr xs) ∧ LastWithId xs id x

/-- what becomes of a value that may be a reference: an id that is known becomes the entity, anything else stays -/
def Becomes (input : Val) (target : String) (v w : Val) : Prop :=
  (∃ id, v = .str id ∧ Entity input target id w) ∨ ((∀ id x, v = .str id → ¬ Entity input target id x) ∧ w = v)

/-- what becomes of the value of a field -/
def FieldBecomes (input : Val) (f : RefField) (v w : Val) : Prop :=
  if f.array then (∃ xs ys, v = .arr xs ∧ w = .arr ys ∧ List.Forall₂ (Becomes input f.target) xs ys) ∨ ((∀ xs, v ≠ .arr xs) ∧ w = v)
  else Becomes input f.target v w

/-- no field's path is a prefix of another's -/
def FieldsApart (fields : List RefField) : Prop :=
  fields.Pairwise fun f g => Independent (splitDot f.path) (splitDot g.path)

/-! ## Pools -/

theorem aGet_poolFold (id : String) : ∀ (xs : List Val) (p : List (String × Val)),
    (∀ x, LastWithId xs id x → aGet (xs.foldl poolAdd p) id = some x) ∧
      ((∀ x ∈ xs, x.dot "id" ≠ some (.str id)) → aGet (xs.foldl poolAdd p) id = aGet p id)
  | [], p => by
    refine ⟨?_, fun _ => rfl⟩
    rintro x ⟨l, r, e, _⟩
    simp at e
  | y :: xs, p => by
    obtain ⟨h1, h2⟩ := aGet_poolFold id xs (poolAdd p y)
    constructor
    · rintro x ⟨l, r, e, hx, hr⟩
      rw [List.foldl_cons]
      cases l with
      | nil =>
        rw [List.nil_append] at e
        injection e with e1 e2
        subst e1; subst e2
        rw [h2 hr]
        unfold poolAdd
        rw [hx]
        dsimp only
        rw [aGet_aSet]; simp
      | cons z l =>
        injection e with e1 e2
        exact h1 x ⟨l, r, e2, hx, hr⟩
    · intro h
      rw [List.foldl_cons, h2 fun x hx => h x (by simp [hx])]
      unfold poolAdd
      split
      · next i hi =>
        rw [aGet_aSet, if_neg]
        rintro rfl
        exact h y (by simp) hi
      · rfl

theorem exists_last (id : String) : ∀ xs : List Val, (∃ x ∈ xs, x.dot "id" = some (.str id)) → ∃ x, LastWithId xs id x
  | [], h => by obtain ⟨x, hx, _⟩ := h; cases hx
  | y :: xs, h => by
    by_cases hx : ∃ x ∈ xs, x.dot "id" = some (.str id)
    · obtain ⟨x, l, r, e, h1, h2⟩ := exists_last id xs hx
      exact ⟨x, y :: l, r, by rw [e]; rfl, h1, h2⟩
    · obtain ⟨x, hm, hi⟩ := h
      rcases List.mem_cons.1 hm with rfl | hm
      · exact ⟨x, [], xs, rfl, hi, fun z hz he => hx ⟨z, hz, he⟩⟩
      · exact absurd ⟨x, hm, hi⟩ hx

/-- The pool of a target holds, for each id, the last item with that id, and no other id. -/
theorem C40_pool (input : Val) (target id : String) (x : Val) : aGet (poolOf input target) id = some x ↔ Entity input target id x := by
  unfold poolOf Entity
  split
  · next xs hx =>
    have key := aGet_poolFold id xs []
    constructor
    · intro h
      by_cases he : ∃ x ∈ xs, x.dot "id" = some (.str id)
      · obtain ⟨y, hy⟩ := exists_last id xs he
        have := key.1 y hy
        rw [h] at this
        injection this with this; subst this
        exact ⟨xs, hx, hy⟩
      · rw [key.2 fun x hm hi => he ⟨x, hm, hi⟩] at h
        cases h
    · rintro ⟨ys, e, hy⟩
      rw [hx] at e
      injection e with e; injection e with e; subst e
      exact key.1 x hy
  · next hx =>
    constructor
    · intro h; cases h
    · rintro ⟨xs, e, _⟩; exact absurd e (hx xs)

/-! ## One field -/

theorem hydrateSlot_spec (input : Val) (target : String) (x : Val) : Becomes input target x (hydrateSlot (poolOf input target) x) := by
  unfold hydrateSlot
  cases x with
  | str id =>
    dsimp only
    cases h : aGet (poolOf input target) id with
    | some o => exact .inl ⟨id, rfl, (C40_pool _ _ _ _).1 h⟩
    | none =>
      refine .inr ⟨fun id' x e he => ?_, rfl⟩
      injection e with e; subst e
      rw [(C40_pool _ _ _ _).2 he] at h; cases h
  | _ => exact .inr ⟨fun id x e => (by cases e), rfl⟩

theorem forall2_slots (input : Val) (target : String) : ∀ xs, List.Forall₂ (Becomes input target) xs (xs.map (hydrateSlot (poolOf input target)))
  | [] => .nil
  | x :: xs => .cons (hydrateSlot_spec input target x) (forall2_slots input target xs)

theorem walkable_of_dotP : ∀ (d : Val) (p : List String) (v : Val), Val.dotP d p = some v → Walkable d p
  | d, [], v, _ => by
    intro q hq hne x hx
    exact absurd (List.prefix_nil.1 hq) hne
  | d, k :: ks, v, h => by
    cases d with
    | obj m =>
      unfold Val.dotP at h
      cases hg : aGet m k with
      | none => rw [hg] at h; cases h
      | some y =>
        rw [hg] at h
        have ih := walkable_of_dotP y ks v h
        intro q hq hne x hx
        cases q with
        | nil => unfold Val.dotP at hx; injection hx with hx; subst hx; rfl
        | cons a q =>
          rw [List.cons_prefix_cons] at hq
          obtain ⟨rfl, hq⟩ := hq
          unfold Val.dotP at hx
          rw [hg] at hx
          exact ih q hq (fun e => hne (by rw [e])) x hx
    | _ => unfold Val.dotP at h; cases h

/-- one field: its value becomes what it should, and independent paths keep their values -/
theorem hydrateField_spec (input store : Val) (pools : Pools) (f : RefField) (hp : aGet pools f.target = some (poolOf input f.target)) :
    (∀ v, store.dot f.path = some v → ∃ w, (hydrateField pools store f).dot f.path = some w ∧ FieldBecomes input f v w) ∧
    (store.dot f.path = none → (hydrateField pools store f).dot f.path = none) ∧
    ∀ q, Independent (splitDot f.path) q → Val.dotP (hydrateField pools store f) q = Val.dotP store q := by
  unfold hydrateField
  rw [hp]
  dsimp only
  cases hd : store.dot f.path with
  | none => exact ⟨fun v h => (by cases h), fun _ => hd, fun _ _ => rfl⟩
  | some v =>
    have hw : Walkable store (splitDot f.path) := walkable_of_dotP _ _ _ hd
    have hins : ∀ x, ((store.dotInsert f.path x).1.dot f.path = some x) ∧
        ∀ q, Independent (splitDot f.path) q → Val.dotP (store.dotInsert f.path x).1 q = Val.dotP store q := fun x =>
      ⟨(C04_insert_read store _ x (splitDot_ne_nil _) hw).1, (C04_insert_read store _ x (splitDot_ne_nil _) hw).2.2.2⟩
    dsimp only
    refine ⟨?_, fun h => (by cases h), ?_⟩
    · rintro v' e
      injection e with e; subst e
      unfold FieldBecomes
      by_cases ha : f.array = true
      · simp only [if_pos ha]
        cases v with
        | arr xs => exact ⟨_, (hins _).1, .inl ⟨xs, _, rfl, rfl, forall2_slots input f.target xs⟩⟩
        | _ => exact ⟨_, hd, .inr ⟨fun xs e => (by cases e), rfl⟩⟩
      · simp only [if_neg ha]
        cases v with
        | str id =>
          dsimp only
          have := hydrateSlot_spec input f.target (.str id)
          unfold hydrateSlot at this
          dsimp only at this
          cases hg : aGet (poolOf input f.target) id with
          | none => rw [hg] at this; exact ⟨_, hd, this⟩
          | some o => rw [hg] at this; exact ⟨_, (hins _).1, this⟩
        | _ => exact ⟨_, hd, .inr ⟨fun id x e => (by cases e), rfl⟩⟩
    · intro q hq
      by_cases ha : f.array = true
      · rw [if_pos ha]
        cases v with
        | arr xs => exact (hins _).2 q hq
        | _ => rfl
      · rw [if_neg ha]
        cases v with
        | str id =>
          dsimp only
          cases hg : aGet (poolOf input f.target) id with
          | none => rfl
          | some o => exact (hins _).2 q hq
        | _ => rfl

theorem hydrateFold_rest (input : Val) (pools : Pools) (q : List String) : ∀ (fields : List RefField) (store : Val),
    (∀ f ∈ fields, aGet pools f.target = some (poolOf input f.target)) → (∀ f ∈ fields, Independent (splitDot f.path) q) →
    Val.dotP (fields.foldl (hydrateField pools) store) q = Val.dotP store q
  | [], _, _, _ => rfl
  | f :: fs, store, hp, hq => by
    rw [List.foldl_cons, hydrateFold_rest input pools q fs _ (fun g hg => hp g (by simp [hg])) fun g hg => hq g (by simp [hg])]
    exact (hydrateField_spec input store pools f (hp f (by simp))).2.2 q (hq f (by simp))

theorem hydrateFold_at (input : Val) (pools : Pools) (f : RefField) : ∀ (fields : List RefField) (store : Val),
    (∀ f ∈ fields, aGet pools f.target = some (poolOf input f.target)) → FieldsApart fields → f ∈ fields →
    (∀ v, store.dot f.path = some v → ∃ w, (fields.foldl (hydrateField pools) store).dot f.path = some w ∧ FieldBecomes input f v w) ∧
      (store.dot f.path = none → (fields.foldl (hydrateField pools) store).dot f.path = none)
  | [], _, _, _, hf => by cases hf
  | g :: gs, store, hp, ha, hf => by
    obtain ⟨ha1, ha2⟩ := List.pairwise_cons.1 ha
    rw [List.foldl_cons]
    obtain ⟨s1, s2, s3⟩ := hydrateField_spec input store pools g (hp g (by simp))
    rcases List.mem_cons.1 hf with rfl | hf
    · have key := hydrateFold_rest input pools (splitDot f.path) gs (hydrateField pools store f) (fun g hg => hp g (by simp [hg]))
        fun g hg => ⟨(ha1 g hg).2, (ha1 g hg).1⟩
      unfold Val.dot at *
      rw [key]
      exact ⟨s1, s2⟩
    · have hi := hydrateFold_at input pools f gs (hydrateField pools store g) (fun g hg => hp g (by simp [hg])) ha2 hf
      have : (hydrateField pools store g).dot f.path = store.dot f.path := s3 _ (ha1 f hf)
      rw [this] at hi
      exact hi

theorem pools_of_fields (fields : List RefField) (store : Val) : ∀ f ∈ fields,
    aGet (poolsOf store (fields.map RefField.target)) f.target = some (poolOf store f.target) := by
  intro f hf
  rw [aGet_poolsOf, if_pos (List.mem_map.2 ⟨f, hf, rfl⟩)]

/-! ## Theorems -/

/-- At the path of a reference field the value becomes what it should: a known id the (last) entity with that
id, in a list slot by slot; unknown ids and everything that is not an id stay as they are; nothing appears where
nothing was. -/
theorem C40_fields (fields : List RefField) (store : Val) (ha : FieldsApart fields) {f : RefField} (hf : f ∈ fields) :
    (∀ v, store.dot f.path = some v → ∃ w, (hydrate fields store).dot f.path = some w ∧ FieldBecomes store f v w) ∧
      (store.dot f.path = none → (hydrate fields store).dot f.path = none) :=
  hydrateFold_at store _ f fields store (pools_of_fields fields store) ha hf

/-- Everything else keeps its value. -/
theorem C40_rest (fields : List RefField) (store : Val) (q : List String) (hq : ∀ f ∈ fields, Independent (splitDot f.path) q) :
    Val.dotP (hydrate fields store) q = Val.dotP store q :=
  hydrateFold_rest store _ q fields store (pools_of_fields fields store) hq

/-- What a reference becomes is determined. -/
theorem C40_determined {input : Val} {target : String} {v w w' : Val} (h : Becomes input target v w) (h' : Becomes input target v w') : w = w' := by
  rcases h with ⟨id, rfl, h⟩ | ⟨h, rfl⟩
  · rcases h' with ⟨id', e, h'⟩ | ⟨h', _⟩
    · injection e with e; subst e
      have a := (C40_pool _ _ _ _).2 h
      have b := (C40_pool _ _ _ _).2 h'
      rw [a] at b; injection b
    · exact absurd h (h' id w rfl)
  · rcases h' with ⟨id, rfl, h'⟩ | ⟨_, rfl⟩
    · exact absurd h' (h id w' rfl)
    · rfl

/-- In an accepted input (C39) every reference on a root entity is known, so that it becomes an entity with that
id: no reference dangles. -/
theorem C40_accepted {S : InSchema} {fields : List RefField} {m : List (String × Val)} (hv : validateInput S (.obj m) = [])
    (ha : FieldsApart fields) {f : RefField} (hf : f ∈ fields) {e : String} {props : List PProp} {p : PProp} {em : List (String × Val)} {v : Val}
    (hpath : splitDot f.path = [e, p.name]) (hr : e ∈ S.roots) (hr' : e ∉ S.refTargets) (hm : aGet m e = some (.obj em))
    (he : aGet S.entities e = some props) (hp : props.find? (fun q => q.name == p.name) = some p) (hk : p.kind = .reference f.target)
    (harr : p.array = false) (hfa : f.array = false) (hval : aGet em p.name = some v) (hnn : v ≠ .null) :
    ∃ id x, v = .str id ∧ (hydrate fields (.obj m)).dot f.path = some x ∧ x.dot "id" = some (.str id) := by
  have hmem : (e, Val.obj em) ∈ m := aGet_mem hm
  have hmem2 : (p.name, v) ∈ em := aGet_mem hval
  have hplace := C39_conforms hv (.root hmem (by simp) hr' hr)
    (.single (.prop he hmem2 hnn hp))
  unfold PProp.need at hplace
  rw [harr, hk] at hplace
  obtain ⟨id, rfl, hin, xs, hx, hex⟩ := hplace
  have hdot : (Val.obj m).dot f.path = some (.str id) := by
    unfold Val.dot
    rw [hpath]
    simp only [Val.dotP, hm, hval]
  obtain ⟨w, hw, hb⟩ := (C40_fields fields (.obj m) ha hf).1 _ hdot
  obtain ⟨x, hlast⟩ := exists_last id xs hex
  unfold FieldBecomes at hb
  rw [hfa] at hb
  have : w = x := C40_determined hb (.inl ⟨id, rfl, xs, hx, hlast⟩)
  subst this
  obtain ⟨_, _, _, hid, _⟩ := hlast
  exact ⟨id, w, rfl, hw, hid⟩

/-! NEGATIVE: the store is a copy of the top level of the input only, and hydration writes into what the two
share. -/

/-- `{Order: {buyer: "p1"}, Person: [{id: "p1"}]}`, the input at address 0 -/
def demoHeap : Heap := [.obj [("Order", .obj 1), ("Person", .arr 2)], .obj [("buyer", .str "p1")], .arr [.obj 3], .obj [("id", .str "p1")]]

def demoFields : List RefField := [⟨"Order.buyer", "Person", false⟩]

/-- Preparing an evaluation changes the caller's input: the reference in it has become an entity, and the same
input is rejected when it is evaluated again. -/
theorem C40_input_changed :
    ∃ x y, Heap.read 9 demoHeap (.obj 0) = some x ∧ Heap.read 9 (H.prepare demoFields demoHeap (.obj 0)).1 (.obj 0) = some y ∧
      x.dot "Order.buyer" = some (.str "p1") ∧ y.dot "Order.buyer" = some (.obj [("id", .str "p1")]) ∧
      validateInput demoSchema x = [] ∧ (validateInput demoSchema y).map InErr.path = ["Order.buyer"] :=
  ⟨_, _, rfl, rfl, rfl, rfl, by decide +kernel, by decide +kernel⟩

/-- References in entities that are not at the top of the input are left as ids: the field's path leads nowhere. -/
theorem C40_nested_untouched (fields : List RefField) (m : List (String × Val)) (h : ∀ f ∈ fields, ∃ e r, splitDot f.path = e :: r ∧ aGet m e = none) :
    hydrate fields (.obj m) = .obj m := by
  have key : ∀ (pools : Pools) (fs : List RefField), (∀ f ∈ fs, ∃ e r, splitDot f.path = e :: r ∧ aGet m e = none) →
      fs.foldl (hydrateField pools) (.obj m) = .obj m := by
    intro pools fs
    induction fs with
    | nil => intro _; rfl
    | cons f fs ih =>
      intro hf
      have hn : (Val.obj m).dot f.path = none := by
        obtain ⟨e, r, h1, h2⟩ := hf f (by simp)
        unfold Val.dot
        rw [h1]
        simp only [Val.dotP, h2]
      have h1 : hydrateField pools (.obj m) f = .obj m := by
        unfold hydrateField
        rw [hn]
        cases aGet pools f.target <;> rfl
      rw [List.foldl_cons, h1]
      exact ih fun g hg => hf g (by simp [hg])
  exact key _ fields h

/-! ## Instances -/

def demoRefs : List RefField := [⟨"Order.buyer", "Person", false⟩, ⟨"watchers", "Person", true⟩]

example : FieldsApart demoRefs := by
  unfold FieldsApart demoRefs Independent; decide +kernel

example : (hydrate demoRefs (.obj [("Order", .obj [("buyer", .str "a"), ("total", .num 1)]), ("watchers", .arr [.str "b", .str "zz", .num 3]),
    ("Person", .arr [.obj [("id", .str "a"), ("n", .num 1)], .obj [("id", .str "b")], .obj [("id", .str "a"), ("n", .num 2)]])])).beq
    (.obj [("Order", .obj [("buyer", .obj [("id", .str "a"), ("n", .num 2)]), ("total", .num 1)]),
      ("watchers", .arr [.obj [("id", .str "b")], .str "zz", .num 3]),
      ("Person", .arr [.obj [("id", .str "a"), ("n", .num 1)], .obj [("id", .str "b")], .obj [("id", .str "a"), ("n", .num 2)]])]) = true := by
  decide +kernel

end Zen.Policy
