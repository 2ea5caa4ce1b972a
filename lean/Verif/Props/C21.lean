import Verif.Builtins.MergeLemmas
/-
C21  merge / mergeDeep / flatten / keys / values built-ins.
-/
namespace Zen
open Fn

/-- objects and nulls as an argument array -/
def objsOrNulls (l : List (Option (List (String × Val)))) : List Val :=
  l.map fun m => match m with | some m => .obj m | none => .null

/-- arrays and nulls as an argument array -/
def arrsOrNulls (l : List (Option (List Val))) : List Val :=
  l.map fun m => match m with | some m => .arr m | none => .null

/-- the last of the objects that has the key gives its value -/
def LastWith (l : List (Option (List (String × Val)))) (k : String) (v : Val) : Prop :=
  ∃ pre m post, l = pre ++ some m :: post ∧ aGet m k = some v ∧
    ∀ m', some m' ∈ post → aGet m' k = none

namespace MergeFn

theorem mergeObjs_ok (l : List (Option (List (String × Val)))) (acc : List (String × Val)) :
    ∃ r, mergeObjs acc (objsOrNulls l) = .ok r ∧
      r = l.foldl (fun a m => match m with | some m => insertAll a m | none => a) acc := by
  induction l generalizing acc with
  | nil => exact ⟨acc, rfl, rfl⟩
  | cons m l ih =>
    cases m with
    | none => exact ih acc
    | some m => exact ih (insertAll acc m)

theorem mergeArrs_ok (l : List (Option (List Val))) (acc : List Val) :
    mergeArrs acc (arrsOrNulls l) = .ok (acc ++ (l.map (·.getD [])).flatten) := by
  induction l generalizing acc with
  | nil => simp [arrsOrNulls, mergeArrs]
  | cons m l ih =>
    cases m with
    | none => simpa [arrsOrNulls, mergeArrs] using ih acc
    | some m => simpa [arrsOrNulls, mergeArrs, List.append_assoc] using ih (acc ++ m)

/-- the accumulated object -/
def acc (l : List (Option (List (String × Val)))) (a : List (String × Val)) : List (String × Val) :=
  l.foldl (fun a m => match m with | some m => insertAll a m | none => a) a

theorem acc_nodup (l : List (Option (List (String × Val)))) (a : List (String × Val))
    (na : (aKeys a).Nodup) : (aKeys (acc l a)).Nodup := by
  induction l generalizing a with
  | nil => exact na
  | cons m l ih =>
    cases m with
    | none => exact ih a na
    | some m => exact ih _ (nodup_insertAll _ _ na)

theorem acc_get (l : List (Option (List (String × Val)))) (a : List (String × Val))
    (hl : ∀ m, some m ∈ l → (aKeys m).Nodup) (k : String) (v : Val) :
    aGet (acc l a) k = some v ↔
      LastWith l k v ∨ (aGet a k = some v ∧ ∀ m, some m ∈ l → aGet m k = none) := by
  induction l generalizing a with
  | nil => simp [acc, LastWith]
  | cons m l ih =>
    have hl' : ∀ m, some m ∈ l → (aKeys m).Nodup := fun m hm => hl m (List.mem_cons_of_mem _ hm)
    have hlw : LastWith (m :: l) k v ↔ LastWith l k v ∨
        ∃ m', m = some m' ∧ aGet m' k = some v ∧ ∀ m'', some m'' ∈ l → aGet m'' k = none := by
      constructor
      · rintro ⟨pre, m', post, he, hg, hp⟩
        cases pre with
        | nil =>
          simp only [List.nil_append, List.cons.injEq] at he
          obtain ⟨rfl, rfl⟩ := he
          exact Or.inr ⟨m', rfl, hg, hp⟩
        | cons p pre =>
          simp only [List.cons_append, List.cons.injEq] at he
          obtain ⟨_, rfl⟩ := he
          exact Or.inl ⟨pre, m', post, rfl, hg, hp⟩
      · rintro (⟨pre, m', post, rfl, hg, hp⟩ | ⟨m', rfl, hg, hp⟩)
        · exact ⟨m :: pre, m', post, rfl, hg, hp⟩
        · exact ⟨[], m', l, rfl, hg, hp⟩
    rw [hlw]
    cases m with
    | none =>
      change aGet (acc l a) k = some v ↔ _
      rw [ih a hl']
      simp [List.mem_cons]
    | some m =>
      change aGet (acc l (insertAll a m)) k = some v ↔ _
      have nm : (aKeys m).Nodup := hl m (by simp)
      rw [ih _ hl', aGet_insertAll _ _ nm]
      constructor
      · rintro (h | ⟨h1, h2⟩)
        · exact Or.inl (Or.inl h)
        · cases hm : aGet m k with
          | none =>
            rw [hm] at h1
            refine Or.inr ⟨by simpa using h1, ?_⟩
            intro m' hm'
            rcases List.mem_cons.1 hm' with q | q
            · cases q; exact hm
            · exact h2 m' q
          | some w =>
            rw [hm] at h1
            cases h1
            exact Or.inl (Or.inr ⟨m, rfl, hm, h2⟩)
      · rintro ((h | ⟨m', e, hg, hp⟩) | ⟨h1, h2⟩)
        · exact Or.inl h
        · cases e
          exact Or.inr ⟨by simp [hg], hp⟩
        · exact Or.inr ⟨by simp [h2 m (by simp), h1], fun m' hm' => h2 m' (List.mem_cons_of_mem _ hm')⟩

theorem find_objs (l : List (Option (List (String × Val)))) :
    ((objsOrNulls l).find? (fun v => !v.isNull) = none ∧ ∀ m, some m ∉ l) ∨
    ∃ m, (objsOrNulls l).find? (fun v => !v.isNull) = some (.obj m) := by
  induction l with
  | nil => left; exact ⟨rfl, by simp⟩
  | cons m l ih =>
    cases m with
    | none =>
      rcases ih with ⟨h, hn⟩ | ⟨m, h⟩
      · left; exact ⟨by simpa [objsOrNulls, Val.isNull] using h, by simpa using hn⟩
      · right; exact ⟨m, by simpa [objsOrNulls, Val.isNull] using h⟩
    | some m => right; exact ⟨m, by simp [objsOrNulls, Val.isNull]⟩

theorem merge_objs (l : List (Option (List (String × Val)))) :
    Fn.merge [.arr (objsOrNulls l)] = .ok (.obj (acc l [])) := by
  obtain ⟨r, hr, he⟩ := mergeObjs_ok l []
  rcases find_objs l with ⟨h, hn⟩ | ⟨m, h⟩
  · simp only [Fn.merge, argArr, List.getElem?_cons_zero, bind, Except.bind, h, pure, Except.pure]
    congr 2
    have : ∀ (l : List (Option (List (String × Val)))) a, (∀ m, some m ∉ l) → acc l a = a := by
      intro l
      induction l with
      | nil => intro a _; rfl
      | cons m l ih =>
        intro a h
        cases m with
        | none => exact ih a (fun m hm => h m (List.mem_cons_of_mem _ hm))
        | some m => exact absurd (List.mem_cons_self) (h m)
    exact (this l [] hn).symm
  · simp only [Fn.merge, argArr, List.getElem?_cons_zero, bind, Except.bind, h, hr, pure, Except.pure]
    rw [he]; rfl

end MergeFn
open MergeFn

/-! ### merge -/

/-- `merge` of objects is the key-wise union in which the last object with a key wins; nulls are skipped,
and the result has every key once. -/
theorem C21_merge_objects (l : List (Option (List (String × Val))))
    (hl : ∀ m, some m ∈ l → (aKeys m).Nodup) :
    ∃ r, Fn.merge [.arr (objsOrNulls l)] = .ok (.obj r) ∧ (aKeys r).Nodup ∧
      ∀ k v, aGet r k = some v ↔ LastWith l k v := by
  refine ⟨acc l [], merge_objs l, acc_nodup l [] (by simp), fun k v => ?_⟩
  rw [acc_get l [] hl]
  simp

/-- a case with an override and a null -/
example : Fn.merge [.arr (objsOrNulls [some [("a", .num 1), ("b", .num 2)], none, some [("b", .num 3)]])] =
    .ok (.obj [("a", .num 1), ("b", .num 3)]) := by
  simp [merge_objs, acc, insertAll, aSet, aGet, aReplace]

/-- `merge` of arrays is their concatenation; nulls are skipped. -/
theorem C21_merge_arrays (l : List (Option (List Val))) (h : ∃ a, some a ∈ l) :
    Fn.merge [.arr (arrsOrNulls l)] = .ok (.arr (l.filterMap id).flatten) := by
  have hf : ∃ a, (arrsOrNulls l).find? (fun v => !v.isNull) = some (.arr a) := by
    obtain ⟨a, ha⟩ := h
    induction l with
    | nil => cases ha
    | cons m l ih =>
      cases m with
      | none =>
        obtain ⟨b, hb⟩ := ih (by simpa using ha)
        exact ⟨b, by simpa [arrsOrNulls, Val.isNull] using hb⟩
      | some m => exact ⟨m, by simp [arrsOrNulls, Val.isNull]⟩
  obtain ⟨a, ha⟩ := hf
  simp only [Fn.merge, argArr, List.getElem?_cons_zero, bind, Except.bind, ha, mergeArrs_ok, pure,
    Except.pure, List.nil_append]
  congr 2
  clear ha h
  induction l with
  | nil => rfl
  | cons m l ih => cases m <;> simp [ih]

/-- `merge` succeeds exactly on arrays of objects and nulls, and on arrays of arrays and nulls. -/
theorem C21_merge_succeeds_iff (xs : List Val) :
    (∃ v, Fn.merge [.arr xs] = .ok v) ↔
      (∃ l, xs = objsOrNulls l) ∨ ∃ l, xs = arrsOrNulls l := by
  constructor
  · rintro ⟨v, hv⟩
    simp only [Fn.merge, argArr, List.getElem?_cons_zero, bind, Except.bind, pure, Except.pure] at hv
    have allNull : ∀ xs : List Val, xs.find? (fun v => !v.isNull) = none → ∃ l, xs = objsOrNulls l := by
      intro xs
      induction xs with
      | nil => intro _; exact ⟨[], rfl⟩
      | cons x xs ih =>
        intro h
        cases x <;> simp [Val.isNull] at h
        obtain ⟨l, hl⟩ := ih (by simpa [Val.isNull] using h)
        exact ⟨none :: l, by rw [hl]; rfl⟩
    have goA : ∀ (xs : List Val) acc r, mergeArrs acc xs = .ok r → ∃ l, xs = arrsOrNulls l := by
      intro xs
      induction xs with
      | nil => intro _ _ _; exact ⟨[], rfl⟩
      | cons x xs ih =>
        intro acc r h
        cases x <;> simp only [mergeArrs] at h <;> try cases h
        · obtain ⟨l, hl⟩ := ih _ _ h; exact ⟨none :: l, by rw [hl]; rfl⟩
        · next m => obtain ⟨l, hl⟩ := ih _ _ h; exact ⟨some m :: l, by rw [hl]; rfl⟩
    have goO : ∀ (xs : List Val) acc r, mergeObjs acc xs = .ok r → ∃ l, xs = objsOrNulls l := by
      intro xs
      induction xs with
      | nil => intro _ _ _; exact ⟨[], rfl⟩
      | cons x xs ih =>
        intro acc r h
        cases x <;> simp only [mergeObjs] at h <;> try cases h
        · obtain ⟨l, hl⟩ := ih _ _ h; exact ⟨none :: l, by rw [hl]; rfl⟩
        · next m => obtain ⟨l, hl⟩ := ih _ _ h; exact ⟨some m :: l, by rw [hl]; rfl⟩
    split at hv
    · next h => exact Or.inl (allNull xs h)
    · cases hm : mergeArrs [] xs with
      | error e => rw [hm] at hv; cases hv
      | ok r => exact Or.inr (goA xs _ _ hm)
    · cases hm : mergeObjs [] xs with
      | error e => rw [hm] at hv; cases hv
      | ok r => exact Or.inl (goO xs _ _ hm)
    · cases hv
  · rintro (⟨l, rfl⟩ | ⟨l, rfl⟩)
    · exact ⟨_, merge_objs l⟩
    · by_cases h : ∃ a, some a ∈ l
      · exact ⟨_, C21_merge_arrays l h⟩
      · have : arrsOrNulls l = objsOrNulls (l.map fun _ => none) := by
          simp only [arrsOrNulls, objsOrNulls, List.map_map]
          apply List.map_congr_left
          intro m hm
          cases m with
          | none => rfl
          | some m => exact absurd ⟨m, hm⟩ h
        rw [this]
        exact ⟨_, merge_objs _⟩

theorem MergeFn.acc_append (l l' : List (Option (List (String × Val)))) (a : List (String × Val)) :
    acc (l ++ l') a = acc l' (acc l a) := by simp [acc, List.foldl_append]

theorem MergeFn.acc_assoc (l : List (Option (List (String × Val)))) (a b : List (String × Val))
    (na : (aKeys a).Nodup) (nb : (aKeys b).Nodup) (hl : ∀ m, some m ∈ l → (aKeys m).Nodup) :
    acc l (insertAll a b) = insertAll a (acc l b) := by
  induction l generalizing b with
  | nil => rfl
  | cons m l ih =>
    have hl' : ∀ m, some m ∈ l → (aKeys m).Nodup := fun m hm => hl m (List.mem_cons_of_mem _ hm)
    cases m with
    | none => exact ih b nb hl'
    | some m =>
      change acc l (insertAll (insertAll a b) m) = insertAll a (acc l (insertAll b m))
      rw [insertAll_assoc a b m na nb (hl m (by simp)), ih _ (nodup_insertAll _ _ nb) hl']

/-- `merge` of objects is associative: merging two halves and then the results gives the same object,
key order included. -/
theorem C21_merge_associative (l l' : List (Option (List (String × Val))))
    (hl : ∀ m, some m ∈ l ++ l' → (aKeys m).Nodup) :
    ∃ a b r, Fn.merge [.arr (objsOrNulls l)] = .ok a ∧ Fn.merge [.arr (objsOrNulls l')] = .ok b ∧
      Fn.merge [.arr (objsOrNulls (l ++ l'))] = .ok r ∧ Fn.merge [.arr [a, b]] = .ok r := by
  refine ⟨_, _, _, merge_objs l, merge_objs l', merge_objs _, ?_⟩
  have h1 := acc_nodup l [] (by simp)
  have h2 := acc_nodup l' [] (by simp)
  have := merge_objs [some (acc l []), some (acc l' [])]
  simp only [objsOrNulls, List.map_cons, List.map_nil] at this
  rw [this]
  congr 2
  change insertAll (insertAll [] (acc l [])) (acc l' []) = acc (l ++ l') []
  rw [insertAll_nil h1, MergeFn.acc_append]
  exact (MergeFn.acc_assoc l' (acc l []) [] h1 (by simp) (fun m hm => hl m (by simp [hm]))).symm

/-! ### mergeDeep -/

/-- Specification. `Deep b p r`: deep merging the patch `p` into `b` gives `r`. -/
inductive Deep : Val → Val → Val → Prop
  /-- arrays are concatenated -/
  | arrays (a b : List Val) : Deep (.arr a) (.arr b) (.arr (a ++ b))
  /-- anything else but two objects is replaced by the patch -/
  | replace (b p : Val) : (b.isObj && p.isObj) = false → (b.isArr && p.isArr) = false → Deep b p p
  | objects (b p r : List (String × Val)) :
      -- a key only one side has keeps its value
      (∀ k, aGet p k = none → aGet r k = aGet b k) →
      (∀ k, aGet b k = none → aGet r k = aGet p k) →
      -- a key both have holds the deep merge of the two values
      (∀ k x y, aGet b k = some x → aGet p k = some y → (aGet r k).isSome = true) →
      (∀ k x y z, aGet b k = some x → aGet p k = some y → aGet r k = some z → Deep x y z) →
      Deep (.obj b) (.obj p) (.obj r)

theorem MergeFn.deepV_spec : ∀ p b : Val, b.Wf → p.Wf → Deep b p (deepV b p) := by
  apply Val.indObj
  · intro p hp b _ _
    by_cases h : (b.isArr && p.isArr) = true
    · cases b <;> cases p <;> simp [Val.isArr] at h
      rw [deepV_arr]; exact .arrays _ _
    · rw [deepV_other (by simp [hp]) (by simpa using h)]
      exact .replace _ _ (by simp [hp]) (by simpa using h)
  · intro m ih b hb hm
    by_cases h : b.isObj = true
    · cases b <;> simp [Val.isObj] at h
      next a =>
      have ⟨na, _⟩ := hb.obj_inv
      have ⟨nm, _⟩ := hm.obj_inv
      rw [deepV_obj _ _ na]
      refine .objects _ _ _ ?_ ?_ ?_ ?_
      · intro k hk; rw [aGet_upd _ _ _ nm, hk]
      · intro k hk; rw [aGet_upd _ _ _ nm, hk]; cases aGet m k <;> rfl
      · intro k x y _ hy; rw [aGet_upd _ _ _ nm, hy]; rfl
      · intro k x y z hx hy hz
        rw [aGet_upd _ _ _ nm, hy, hx] at hz
        cases hz
        exact ih k y (aGet_mem hy) x (hb.get hx) (hm.get hy)
    · rw [deepV_other (by simp [h]) (by simp [Val.isArr])]
      exact .replace _ _ (by simp [h]) (by simp [Val.isArr])

/-- The specification determines the data of the result. -/
theorem C21_deep_determines {b p r₁ r₂ : Val} (h₁ : Deep b p r₁) (h₂ : Deep b p r₂) : SameV r₁ r₂ := by
  induction h₁ generalizing r₂ with
  | arrays a b =>
    cases h₂ with
    | arrays => exact SameV.refl _
    | replace _ _ _ h => simp [Val.isArr] at h
  | replace b p h1 h2 =>
    cases h₂ with
    | arrays => simp [Val.isArr] at h2
    | replace => exact SameV.refl _
    | objects => simp [Val.isObj] at h1
  | objects b p r hp hb hs hr ih =>
    cases h₂ with
    | replace _ _ h => simp [Val.isObj] at h
    | objects _ _ r' hp' hb' hs' hr' =>
      refine .obj _ _ (fun k => ?_) (fun k x y hx hy => ?_)
      · cases hpk : aGet p k with
        | none => rw [hp k hpk, hp' k hpk]
        | some v =>
          cases hbk : aGet b k with
          | none => rw [hb k hbk, hb' k hbk]
          | some w => rw [hs k w v hbk hpk, hs' k w v hbk hpk]
      · cases hpk : aGet p k with
        | none => rw [hp k hpk] at hx; rw [hp' k hpk, hx] at hy; cases hy; exact SameV.refl _
        | some v =>
          cases hbk : aGet b k with
          | none => rw [hb k hbk] at hx; rw [hb' k hbk, hx] at hy; cases hy; exact SameV.refl _
          | some w => exact ih k w v x hbk hpk hx (hr' k w v y hbk hpk hy)

theorem MergeFn.deepGo_append (xs ys : List Val) (a : Val) :
    mergeDeepGo a (xs ++ ys) = (mergeDeepGo a xs).bind fun r => mergeDeepGo r ys := by
  induction xs generalizing a with
  | nil => rfl
  | cons x xs ih => cases x <;> simp only [List.cons_append, mergeDeepGo, ih] <;> rfl

theorem MergeFn.mergeDeep_eq (xs : List Val) : mergeDeep [.arr xs] = mergeDeepGo (.obj []) xs := rfl

theorem MergeFn.deepGo_obj (l : List (Option (List (String × Val))))
    (hl : ∀ m, some m ∈ l → (Val.obj m).Wf) (a : List (String × Val)) (ha : (Val.obj a).Wf) :
    ∃ r, mergeDeepGo (.obj a) (objsOrNulls l) = .ok (.obj r) ∧ (Val.obj r).Wf := by
  induction l generalizing a with
  | nil => exact ⟨a, rfl, ha⟩
  | cons m l ih =>
    have hl' : ∀ m, some m ∈ l → (Val.obj m).Wf := fun m hm => hl m (List.mem_cons_of_mem _ hm)
    cases m with
    | none => exact ih hl' a ha
    | some m =>
      have hw := deepV_wf (.obj m) (.obj a) ha (hl m (by simp))
      have e := deepV_obj a m ha.obj_inv.1
      simp only [objsOrNulls, List.map_cons, mergeDeepGo]
      rw [e] at hw ⊢
      exact ih hl' _ hw

/-- `mergeDeep` starts with the empty object, skips nulls, and deep merges one object after another:
every array of objects and nulls has a result, and one more object is deep merged into it. -/
theorem C21_merge_deep (l : List (Option (List (String × Val))))
    (hl : ∀ m, some m ∈ l → (Val.obj m).Wf) :
    ∃ r, mergeDeep [.arr (objsOrNulls l)] = .ok (.obj r) ∧ (Val.obj r).Wf ∧
      mergeDeep [.arr (objsOrNulls (l ++ [none]))] = .ok (.obj r) ∧
      ∀ m, (Val.obj m).Wf → ∃ r', mergeDeep [.arr (objsOrNulls (l ++ [some m]))] = .ok r' ∧
        Deep (.obj r) (.obj m) r' := by
  obtain ⟨r, hr, hw⟩ := MergeFn.deepGo_obj l hl [] (.obj _ (by simp) (by simp))
  refine ⟨r, hr, hw, ?_, fun m hm => ⟨deepV (.obj r) (.obj m), ?_, MergeFn.deepV_spec _ _ hw hm⟩⟩
  · rw [MergeFn.mergeDeep_eq]
    simp only [objsOrNulls, List.map_append] at hr ⊢
    rw [MergeFn.deepGo_append, hr]; rfl
  · rw [MergeFn.mergeDeep_eq]
    simp only [objsOrNulls, List.map_append] at hr ⊢
    rw [MergeFn.deepGo_append, hr]; rfl

/-- … the empty array gives the empty object. -/
theorem C21_merge_deep_empty : mergeDeep [.arr []] = .ok (.obj []) := rfl

/-- `mergeDeep` succeeds exactly on arrays of objects and nulls. -/
theorem C21_merge_deep_succeeds_iff (xs : List Val) :
    (∃ v, mergeDeep [.arr xs] = .ok v) ↔ ∃ l, xs = objsOrNulls l := by
  rw [MergeFn.mergeDeep_eq]
  have : ∀ (xs : List Val) a, (∃ v, mergeDeepGo a xs = .ok v) ↔ ∃ l, xs = objsOrNulls l := by
    intro xs
    induction xs with
    | nil => intro a; exact ⟨fun _ => ⟨[], rfl⟩, fun _ => ⟨a, rfl⟩⟩
    | cons x xs ih =>
      intro a
      have hc : (∃ l, x :: xs = objsOrNulls l) ↔
          (x = .null ∨ ∃ m, x = .obj m) ∧ ∃ l, xs = objsOrNulls l := by
        constructor
        · rintro ⟨l, hl⟩
          cases l with
          | nil => cases hl
          | cons m l =>
            simp only [objsOrNulls, List.map_cons, List.cons.injEq] at hl
            refine ⟨?_, l, hl.2⟩
            cases m with
            | none => exact Or.inl hl.1
            | some m => exact Or.inr ⟨m, hl.1⟩
        · rintro ⟨rfl | ⟨m, rfl⟩, l, rfl⟩
          · exact ⟨none :: l, rfl⟩
          · exact ⟨some m :: l, rfl⟩
      rw [hc]
      cases x <;> simp only [mergeDeepGo] <;> simp [ih]
  exact this xs _

/-- Three values that can be combined in either grouping: between two arrays stands an array, and between
two objects stands an object, hereditarily. -/
inductive Uniform : Val → Val → Val → Prop
  /-- the outer two are neither both objects nor both arrays -/
  | outer (x y z : Val) : (x.isObj && z.isObj) = false → (x.isArr && z.isArr) = false → Uniform x y z
  | arrays (a b c : List Val) : Uniform (.arr a) (.arr b) (.arr c)
  | objects (a b c : List (String × Val)) :
      (∀ k x y z, aGet a k = some x → aGet b k = some y → aGet c k = some z → Uniform x y z) →
      Uniform (.obj a) (.obj b) (.obj c)

theorem MergeFn.deepV_assoc {x y z : Val} (h : Uniform x y z) (hx : x.Wf) (hy : y.Wf) (hz : z.Wf) :
    deepV (deepV x y) z = deepV x (deepV y z) := by
  induction h with
  | arrays a b c => simp [deepV_arr]
  | outer x y z h1 h2 =>
    by_cases ho : (y.isObj && z.isObj) = true
    · cases y <;> cases z <;> simp [Val.isObj] at ho
      next b c =>
      have hxo : x.isObj = false := by simpa [Val.isObj] using h1
      have hn := hy.obj_inv.1
      rw [deepV_other (x := x) (by simp [hxo]) (by simp [Val.isArr]), deepV_obj _ _ hn,
        deepV_other (x := x) (by simp [hxo]) (by simp [Val.isArr])]
    · by_cases ha : (y.isArr && z.isArr) = true
      · cases y <;> cases z <;> simp [Val.isArr] at ha
        next b c =>
        have hxa : x.isArr = false := by simpa [Val.isArr] using h2
        rw [deepV_other (x := x) (by simp [Val.isObj]) (by simp [hxa]), deepV_arr,
          deepV_other (x := x) (by simp [Val.isObj]) (by simp [hxa])]
      · have hyz := deepV_other (x := y) (y := z) (by simpa using ho) (by simpa using ha)
        rw [hyz, deepV_other h1 h2]
        by_cases hxyo : (x.isObj && y.isObj) = true
        · cases x <;> cases y <;> simp [Val.isObj] at hxyo
          next a b =>
          rw [deepV_obj _ _ hx.obj_inv.1]
          exact deepV_other (by simpa [Val.isObj] using h1) (by simp [Val.isArr])
        · by_cases hxya : (x.isArr && y.isArr) = true
          · cases x <;> cases y <;> simp [Val.isArr] at hxya
            rw [deepV_arr]
            exact deepV_other (by simp [Val.isObj]) (by simpa [Val.isArr] using h2)
          · rw [deepV_other (x := x) (y := y) (by simpa using hxyo) (by simpa using hxya), hyz]
  | objects a b c hk ih =>
    have na : (aKeys a).Nodup := hx.obj_inv.1
    have nb : (aKeys b).Nodup := hy.obj_inv.1
    have nc : (aKeys c).Nodup := hz.obj_inv.1
    rw [deepV_obj _ _ na, deepV_obj _ _ nb, deepV_obj _ _ (nodup_upd _ _ _ na), deepV_obj _ _ na]
    congr 1
    apply assoc_ext
    · rw [aKeys_upd _ _ _ nc, aKeys_upd _ _ _ nb, aKeys_upd _ _ _ (nodup_upd _ _ _ nb),
        aKeys_upd _ _ _ nc, keys_assoc]
    · exact nodup_upd _ _ _ (nodup_upd _ _ _ na)
    · intro k
      rw [aGet_upd _ _ _ nc, aGet_upd _ _ _ nb, aGet_upd _ _ _ (nodup_upd _ _ _ nb), aGet_upd _ _ _ nc]
      cases hc : aGet c k with
      | none => cases aGet b k <;> rfl
      | some z' =>
        cases hb : aGet b k with
        | none => rfl
        | some y' =>
          cases ha : aGet a k with
          | none => rfl
          | some x' =>
            simp only [deepG]
            rw [ih k x' y' z' ha hb hc (hx.get ha) (hy.get hb) (hz.get hc)]

/-- Grouping to the left is what `mergeDeep` does: merging the first two first changes nothing. -/
theorem C21_merge_deep_left (a b c : List (String × Val)) (ha : (Val.obj a).Wf) :
    ∃ ab r, mergeDeep [.arr [.obj a, .obj b]] = .ok ab ∧ mergeDeep [.arr [ab, .obj c]] = .ok r ∧
      mergeDeep [.arr [.obj a, .obj b, .obj c]] = .ok r := by
  have na : (aKeys a).Nodup := ha.obj_inv.1
  have start : ∀ m : List (String × Val), (aKeys m).Nodup → deepV (.obj []) (.obj m) = .obj m := by
    intro m nm
    rw [deepV_obj _ _ (by simp)]
    congr 1
    apply assoc_ext
    · rw [aKeys_upd _ _ _ nm]; simp
    · exact nodup_upd _ _ _ (by simp)
    · intro k; rw [aGet_upd _ _ _ nm]; cases aGet m k <;> rfl
  refine ⟨deepV (.obj a) (.obj b), deepV (deepV (.obj a) (.obj b)) (.obj c), ?_, ?_, ?_⟩
  · simp only [MergeFn.mergeDeep_eq, mergeDeepGo, start a na]
  · rw [deepV_obj _ _ na]
    simp only [MergeFn.mergeDeep_eq, mergeDeepGo, start _ (nodup_upd deepG a b na)]
  · simp only [MergeFn.mergeDeep_eq, mergeDeepGo, start a na]

/-- `mergeDeep` is associative on objects that are uniform: either grouping gives the same object,
key order included. -/
theorem C21_merge_deep_associative_partial (a b c : List (String × Val)) (ha : (Val.obj a).Wf)
    (hb : (Val.obj b).Wf) (hc : (Val.obj c).Wf) (hu : Uniform (.obj a) (.obj b) (.obj c)) :
    ∃ ab bc r, mergeDeep [.arr [.obj a, .obj b]] = .ok ab ∧ mergeDeep [.arr [.obj b, .obj c]] = .ok bc ∧
      mergeDeep [.arr [ab, .obj c]] = .ok r ∧ mergeDeep [.arr [.obj a, bc]] = .ok r := by
  have na : (aKeys a).Nodup := ha.obj_inv.1
  have nb : (aKeys b).Nodup := hb.obj_inv.1
  have start : ∀ m : List (String × Val), (aKeys m).Nodup → deepV (.obj []) (.obj m) = .obj m := by
    intro m nm
    rw [deepV_obj _ _ (by simp)]
    congr 1
    apply assoc_ext
    · rw [aKeys_upd _ _ _ nm]; simp
    · exact nodup_upd _ _ _ (by simp)
    · intro k; rw [aGet_upd _ _ _ nm]; cases aGet m k <;> rfl
  have hassoc := MergeFn.deepV_assoc hu ha hb hc
  refine ⟨deepV (.obj a) (.obj b), deepV (.obj b) (.obj c), deepV (deepV (.obj a) (.obj b)) (.obj c), ?_, ?_, ?_, ?_⟩
  · simp only [MergeFn.mergeDeep_eq, mergeDeepGo, start a na]
  · simp only [MergeFn.mergeDeep_eq, mergeDeepGo, start b nb]
  · rw [deepV_obj _ _ na]
    simp only [MergeFn.mergeDeep_eq, mergeDeepGo, start _ (nodup_upd deepG a b na)]
  · rw [hassoc, deepV_obj _ _ nb]
    simp only [MergeFn.mergeDeep_eq, mergeDeepGo, start a na]

/-- the hypothesis holds for nested configuration layers -/
example : Uniform (.obj [("a", .obj [("x", .num 1)]), ("l", .arr [.num 1])])
    (.obj [("a", .obj [("x", .num 2), ("y", .null)])]) (.obj [("a", .obj [("y", .num 3)]), ("l", .arr [.num 2])]) := by
  refine .objects _ _ _ fun k x y z hx hy hz => ?_
  simp only [aGet_cons, aGet_nil] at hx hy hz
  by_cases h : "a" = k
  · subst h
    simp at hx hy hz
    subst hx hy hz
    refine .objects _ _ _ fun k x y z hx hy hz => ?_
    simp only [aGet_cons, aGet_nil] at hx hy hz
    by_cases h : "x" = k
    · subst h; simp at hz
    · simp [h] at hx
  · simp [h] at hy

/-- NEGATIVE. `mergeDeep` is not associative in general: a number between two arrays cuts the first one
off in one grouping and not in the other. -/
theorem C21_merge_deep_not_associative :
    ∃ a b c ab bc : Val, mergeDeep [.arr [a, b]] = .ok ab ∧ mergeDeep [.arr [b, c]] = .ok bc ∧
      mergeDeep [.arr [ab, c]] = .ok (.obj [("k", .arr [.num 2])]) ∧
      mergeDeep [.arr [a, bc]] = .ok (.obj [("k", .arr [.num 1, .num 2])]) := by
  refine ⟨.obj [("k", .arr [.num 1])], .obj [("k", .num 5)], .obj [("k", .arr [.num 2])],
    .obj [("k", .num 5)], .obj [("k", .arr [.num 2])], ?_, ?_, ?_, ?_⟩ <;>
  simp [MergeFn.mergeDeep_eq, mergeDeepGo, deepV, deepE, insertAll, aSet, aGet, aReplace]

/-- Deep merging the second into the first is not the second alone: there is an item, or a property that the second lacks. -/
inductive Adds : Val → Val → Prop
  | items (a : Val) (as c : List Val) : Adds (.arr (a :: as)) (.arr c)
  | property {a c : List (String × Val)} {k x} : aGet a k = some x → aGet c k = none → Adds (.obj a) (.obj c)
  | inside {a c : List (String × Val)} {k x z} : aGet a k = some x → aGet c k = some z → Adds x z → Adds (.obj a) (.obj c)

/-- both objects or both arrays -/
def alike (x y : Val) : Bool := (x.isObj && y.isObj) || (x.isArr && y.isArr)

/-- Somewhere a value of another kind stands between two objects or two arrays, the first of which adds something to the last. -/
inductive Cut : Val → Val → Val → Prop
  | here {x y z} : Adds x z → alike x y = false → Cut x y z
  | inside {a b c : List (String × Val)} {k x y z} : aGet a k = some x → aGet b k = some y → aGet c k = some z → Cut x y z → Cut (.obj a) (.obj b) (.obj c)

theorem MergeFn.deepV_unlike {x y : Val} (h : alike x y = false) : deepV x y = y := by
  simp only [alike, Bool.or_eq_false_iff] at h
  exact deepV_other h.1 h.2

theorem Adds.alike {x z : Val} (h : Adds x z) : Zen.alike x z = true := by cases h <;> rfl

theorem MergeFn.adds_iff : ∀ x z : Val, x.Wf → z.Wf → (SameV (deepV x z) z ↔ ¬ Adds x z) := by
  intro x
  refine Val.indObj (P := fun x => ∀ z, x.Wf → z.Wf → (SameV (deepV x z) z ↔ ¬ Adds x z)) ?_ ?_ x
  · intro x hx z hxw hzw
    by_cases ha : Zen.alike x z = true
    · cases x <;> cases z <;> simp [Zen.alike, Val.isObj, Val.isArr] at ha hx
      next a c =>
      rw [deepV_arr]
      cases a with
      | nil => exact iff_of_true (SameV.refl _) (by rintro ⟨⟩)
      | cons a as =>
        refine iff_of_false ?_ (fun h => h (.items a as c))
        intro h
        cases h with
        | arr _ _ hl _ => simp at hl; omega
    · rw [deepV_unlike (by simpa using ha)]
      exact iff_of_true (SameV.refl _) fun h => ha h.alike
  · intro a ih z hx hz
    by_cases ha : Zen.alike (.obj a) z = true
    · cases z <;> simp [Zen.alike, Val.isObj, Val.isArr] at ha
      next c =>
      have na := hx.obj_inv.1
      have nc := hz.obj_inv.1
      rw [deepV_obj _ _ na]
      constructor
      · intro hs hadds
        cases hs with
        | obj _ _ hsome hval =>
          cases hadds with
          | @property _ _ k x hk hc =>
            have := hsome k
            rw [aGet_upd _ _ _ nc, hc, hk] at this
            cases this
          | @inside _ _ k x z hk hc hin =>
            have := hval k (deepV x z) z (by rw [aGet_upd _ _ _ nc, hc, hk]; rfl) hc
            exact (ih k x (aGet_mem hk) z (hx.get hk) (hz.get hc)).1 this hin
      · intro hno
        refine .obj _ _ (fun k => ?_) (fun k p q hp hq => ?_)
        · rw [aGet_upd _ _ _ nc]
          cases hc : aGet c k with
          | some z => rfl
          | none =>
            cases hk : aGet a k with
            | none => rfl
            | some x => exact absurd (.property hk hc) hno
        · rw [aGet_upd _ _ _ nc, hq] at hp
          cases hp
          cases hk : aGet a k with
          | none => exact SameV.refl _
          | some x => exact (ih k x (aGet_mem hk) q (hx.get hk) (hz.get hq)).2 fun h => hno (.inside hk hq h)
    · rw [deepV_unlike (by simpa using ha)]
      exact iff_of_true (SameV.refl _) fun h => ha h.alike

theorem MergeFn.cut_iff : ∀ x y z : Val, x.Wf → y.Wf → z.Wf → (SameV (deepV (deepV x y) z) (deepV x (deepV y z)) ↔ ¬ Cut x y z) := by
  -- the first two differ in kind
  have differ : ∀ x y z : Val, x.Wf → y.Wf → z.Wf → Zen.alike x y = false → (SameV (deepV (deepV x y) z) (deepV x (deepV y z)) ↔ ¬ Cut x y z) := by
    intro x y z hx hy hz hxy
    rw [deepV_unlike hxy]
    have hcut : Cut x y z ↔ Adds x z := by
      constructor
      · rintro (⟨h, _⟩ | _)
        · exact h
        · simp [Zen.alike, Val.isObj] at hxy
      · intro h; exact .here h hxy
    by_cases hyz : Zen.alike y z = true
    · have hk : Zen.alike x (deepV y z) = false := by
        cases y <;> cases z <;> simp [Zen.alike, Val.isObj, Val.isArr] at hyz
        · rw [deepV_arr]; simpa [Zen.alike, Val.isObj, Val.isArr] using hxy
        · rw [deepV_obj _ _ hy.obj_inv.1]; simpa [Zen.alike, Val.isObj, Val.isArr] using hxy
      rw [deepV_unlike hk]
      refine iff_of_true (SameV.refl _) fun h => ?_
      have hal := (hcut.1 h).alike
      clear hcut h hk
      cases x <;> cases y <;> cases z <;> simp [Zen.alike, Val.isObj, Val.isArr] at hxy hyz hal
    · rw [deepV_unlike (by simpa using hyz), hcut, ← adds_iff x z hx hz]
      exact ⟨SameV.symm, SameV.symm⟩
  intro x
  refine Val.indObj (P := fun x => ∀ y z, x.Wf → y.Wf → z.Wf → (SameV (deepV (deepV x y) z) (deepV x (deepV y z)) ↔ ¬ Cut x y z)) ?_ ?_ x
  · intro x hxo y z hx hy hz
    by_cases hxy : Zen.alike x y = true
    · cases x <;> cases y <;> simp [Zen.alike, Val.isObj, Val.isArr] at hxy hxo
      next a b =>
      refine iff_of_true ?_ (by rintro (⟨_, h⟩ | _); simp [Zen.alike, Val.isArr] at h)
      rw [deepV_arr]
      cases z
      case arr c => rw [deepV_arr, deepV_arr, deepV_arr, List.append_assoc]; exact SameV.refl _
      all_goals (repeat rw [deepV_unlike (by rfl)]); exact SameV.refl _
    · exact differ x y z hx hy hz (by simpa using hxy)
  · intro a ih y z hx hy hz
    by_cases hxy : Zen.alike (.obj a) y = true
    · cases y <;> simp [Zen.alike, Val.isObj, Val.isArr] at hxy
      next b =>
      by_cases hzo : z.isObj = true
      · cases z <;> simp [Val.isObj] at hzo
        next c =>
        have na : (aKeys a).Nodup := hx.obj_inv.1
        have nb : (aKeys b).Nodup := hy.obj_inv.1
        have nc : (aKeys c).Nodup := hz.obj_inv.1
        rw [deepV_obj _ _ na, deepV_obj _ _ nb, deepV_obj _ _ (nodup_upd _ _ _ na), deepV_obj _ _ na]
        have hl : ∀ k, aGet (upd deepG (upd deepG a b) c) k = match aGet c k with
            | none => aGet (upd deepG a b) k
            | some z => some (deepG (aGet (upd deepG a b) k) z) := fun k => aGet_upd _ _ _ nc k
        have hr : ∀ k, aGet (upd deepG a (upd deepG b c)) k = match aGet (upd deepG b c) k with
            | none => aGet a k
            | some z => some (deepG (aGet a k) z) := fun k => aGet_upd _ _ _ (nodup_upd _ _ _ nb) k
        have hb : ∀ k, aGet (upd deepG a b) k = match aGet b k with
            | none => aGet a k
            | some z => some (deepG (aGet a k) z) := fun k => aGet_upd _ _ _ nb k
        have hc : ∀ k, aGet (upd deepG b c) k = match aGet c k with
            | none => aGet b k
            | some z => some (deepG (aGet b k) z) := fun k => aGet_upd _ _ _ nc k
        constructor
        · intro hs hcut
          cases hcut with
          | here _ h => simp [Zen.alike, Val.isObj] at h
          | @inside _ _ _ k x y z hax hby hcz hin =>
            cases hs with
            | obj _ _ _ hval =>
              refine (ih k x (aGet_mem hax) y z (hx.get hax) (hy.get hby) (hz.get hcz)).1 (hval k _ _ ?_ ?_) hin
              · rw [hl, hcz, hb, hby, hax]; rfl
              · rw [hr, hc, hcz, hby, hax]; rfl
        · intro hno
          refine .obj _ _ (fun k => ?_) (fun k p q hp hq => ?_)
          · rw [hl, hr, hc, hb]
            cases aGet c k <;> cases aGet b k <;> rfl
          · rw [hl, hb] at hp
            rw [hr, hc] at hq
            cases hcz : aGet c k with
            | none =>
              rw [hcz] at hp hq
              cases hby : aGet b k with
              | none => rw [hby] at hp hq; simp only at hp hq; rw [hp] at hq; cases hq; exact SameV.refl _
              | some y => rw [hby] at hp hq; cases hp; cases hq; exact SameV.refl _
            | some z =>
              rw [hcz] at hp hq
              cases hby : aGet b k with
              | none => rw [hby] at hp hq; cases hp; cases hq; exact SameV.refl _
              | some y =>
                rw [hby] at hp hq
                cases hp; cases hq
                cases hax : aGet a k with
                | none => exact SameV.refl _
                | some x =>
                  exact (ih k x (aGet_mem hax) y z (hx.get hax) (hy.get hby) (hz.get hcz)).2 fun h => hno (.inside hax hby hcz h)
      · have hu : ∀ m : List (String × Val), deepV (.obj m) z = z := fun m => deepV_unlike (by simp [Zen.alike, Val.isArr]; exact fun _ => by simpa using hzo)
        refine iff_of_true ?_ ?_
        · rw [deepV_obj _ _ hx.obj_inv.1, hu, hu, hu]; exact SameV.refl _
        · intro h
          cases h with
          | here _ h => simp [Zen.alike, Val.isObj] at h
          | inside => simp [Val.isObj] at hzo
    · exact differ _ y z hx hy hz (by simpa using hxy)

/-- Exactly when both groupings give the same object. -/
theorem C21_merge_deep_associative_iff (a b c : List (String × Val)) (ha : (Val.obj a).Wf) (hb : (Val.obj b).Wf) (hc : (Val.obj c).Wf) :
    ∃ ab bc l r, mergeDeep [.arr [.obj a, .obj b]] = .ok ab ∧ mergeDeep [.arr [.obj b, .obj c]] = .ok bc ∧
      mergeDeep [.arr [ab, .obj c]] = .ok l ∧ mergeDeep [.arr [.obj a, bc]] = .ok r ∧ (SameV l r ↔ ¬ Cut (.obj a) (.obj b) (.obj c)) := by
  have na : (aKeys a).Nodup := ha.obj_inv.1
  have nb : (aKeys b).Nodup := hb.obj_inv.1
  have start : ∀ m : List (String × Val), (aKeys m).Nodup → deepV (.obj []) (.obj m) = .obj m := by
    intro m nm
    rw [deepV_obj _ _ (by simp)]
    congr 1
    apply assoc_ext
    · rw [aKeys_upd _ _ _ nm]; simp
    · exact nodup_upd _ _ _ (by simp)
    · intro k; rw [aGet_upd _ _ _ nm]; cases aGet m k <;> rfl
  refine ⟨deepV (.obj a) (.obj b), deepV (.obj b) (.obj c), deepV (deepV (.obj a) (.obj b)) (.obj c), deepV (.obj a) (deepV (.obj b) (.obj c)), ?_, ?_, ?_, ?_,
    MergeFn.cut_iff _ _ _ ha hb hc⟩
  · simp only [MergeFn.mergeDeep_eq, mergeDeepGo, start a na]
  · simp only [MergeFn.mergeDeep_eq, mergeDeepGo, start b nb]
  · rw [deepV_obj _ _ na]
    simp only [MergeFn.mergeDeep_eq, mergeDeepGo, start _ (nodup_upd deepG a b na)]
  · rw [deepV_obj _ _ nb]
    simp only [MergeFn.mergeDeep_eq, mergeDeepGo, start a na]

/-- a number between two arrays cuts, unless the first array is empty -/
example : Cut (.obj [("k", .arr [.num 1])]) (.obj [("k", .num 5)]) (.obj [("k", .arr [.num 2])]) ∧
    ¬ Cut (.obj [("k", .arr [])]) (.obj [("k", .num 5)]) (.obj [("k", .arr [.num 2])]) := by
  refine ⟨.inside (k := "k") (by rfl) (by rfl) (by rfl) (.here (.items _ _ _) rfl), ?_⟩
  intro h
  cases h with
  | here _ h => cases h
  | inside h1 h2 h3 h =>
    simp only [aGet] at h1 h2 h3
    split at h1
    · cases h1
      rename_i e
      simp only [e, if_true, Option.some.injEq] at h2 h3
      subst h2 h3
      cases h with
      | here h => cases h
    · cases h1

/-! ### flatten -/

/-- `flatten` removes exactly one level: arrays inside are replaced by their elements, everything else is
kept, and the order is kept. -/
theorem C21_flatten (xs ys : List Val) (yss : List (List Val)) (hx : ∀ x ∈ xs, x.isArr = false)
    (hy : ∀ y ∈ ys, y.isArr = false) :
    Fn.flatten [.arr (xs ++ yss.map .arr ++ ys)] = .ok (.arr (xs ++ yss.flatten ++ ys)) := by
  have app : ∀ a b : List Val, flattenV (a ++ b) = flattenV a ++ flattenV b := by
    intro a b
    induction a with
    | nil => rfl
    | cons x a ih => cases x <;> simp [flattenV, ih]
  have flat : ∀ l : List Val, (∀ x ∈ l, x.isArr = false) → flattenV l = l := by
    intro l
    induction l with
    | nil => intro _; rfl
    | cons x l ih =>
      intro h
      have hx := h x (by simp)
      have := ih fun y hy => h y (by simp [hy])
      cases x <;> simp_all [flattenV, Val.isArr]
  have arrs : ∀ l : List (List Val), flattenV (l.map .arr) = l.flatten := by
    intro l
    induction l with
    | nil => rfl
    | cons a l ih => simp [flattenV, ih]
  simp only [Fn.flatten, argArr, List.getElem?_cons_zero, bind, Except.bind, pure, Except.pure, app,
    flat xs hx, flat ys hy, arrs]

/-- `flatten` works piece by piece, so the previous theorem determines it. -/
theorem C21_flatten_append (a b fa fb : List Val) (ha : Fn.flatten [.arr a] = .ok (.arr fa))
    (hb : Fn.flatten [.arr b] = .ok (.arr fb)) : Fn.flatten [.arr (a ++ b)] = .ok (.arr (fa ++ fb)) := by
  have app : ∀ a b : List Val, flattenV (a ++ b) = flattenV a ++ flattenV b := by
    intro a b
    induction a with
    | nil => rfl
    | cons x a ih => cases x <;> simp [flattenV, ih]
  simp only [Fn.flatten, argArr, List.getElem?_cons_zero, bind, Except.bind, pure, Except.pure,
    Except.ok.injEq, Val.arr.injEq] at ha hb ⊢
  rw [app, ha, hb]

/-- inner arrays of inner arrays stay -/
example : Fn.flatten [.arr [.num 1, .arr [.arr [.num 2]], .arr []]] = .ok (.arr [.num 1, .arr [.num 2]]) := rfl

/-! ### keys and values -/

/-- `keys` and `values` of an object have the same length and line up: the value at a position is the
object's value for the key at that position; every key occurs exactly once. -/
theorem C21_keys_values (m : List (String × Val)) (nd : (aKeys m).Nodup) :
    ∃ (ks : List String) (vs : List Val), Fn.keys [.obj m] = .ok (.arr (ks.map Val.str)) ∧ Fn.values [.obj m] = .ok (.arr vs) ∧
      ks.length = vs.length ∧ ks.Nodup ∧ (∀ k, k ∈ ks ↔ (aGet m k).isSome = true) ∧
      ∀ (i : Nat) (k : String) (v : Val), ks[i]? = some k → (vs[i]? = some v ↔ aGet m k = some v) := by
  refine ⟨aKeys m, m.map Prod.snd, ?_, rfl, by simp [aKeys], nd, fun k => (aGet_isSome_iff m k).symm, ?_⟩
  · simp only [Fn.keys, argVar, List.getElem?_cons_zero, bind, Except.bind, pure, Except.pure, aKeys,
      List.map_map]
    rfl
  · intro i k v hk
    simp only [aKeys, List.getElem?_map, Option.map_eq_some_iff] at hk ⊢
    obtain ⟨⟨k', v'⟩, he, rfl⟩ := hk
    have hm := aGet_of_mem nd (List.mem_of_getElem? he)
    rw [he]
    simp [hm]

/-- `keys` of an array are its positions. -/
theorem C21_keys_array (xs : List Val) :
    ∃ ks, Fn.keys [.arr xs] = .ok (.arr ks) ∧ ks.length = xs.length ∧
      ∀ i, i < xs.length → ks[i]? = some (.num i) := by
  refine ⟨_, rfl, by simp, fun i hi => ?_⟩
  simp [hi]

/-- Only objects have `values`, only objects and arrays have `keys`. -/
theorem C21_keys_values_fail (v : Val) :
    ((∃ r, Fn.values [v] = .ok r) ↔ v.isObj = true) ∧
    ((∃ r, Fn.keys [v] = .ok r) ↔ (v.isObj = true ∨ v.isArr = true)) := by
  cases v <;> simp [Fn.values, Fn.keys, argObj, argVar, bind, Except.bind, pure, Except.pure, Val.isObj, Val.isArr]

example : (aKeys [("a", Val.num 1), ("b", .null)]).Nodup := by decide

end Zen
