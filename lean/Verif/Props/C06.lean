import Verif.Core.Json
import Verif.Core.ValLemmas
import Verif.Builtins.Decimal
/-
C06: strictly converting JSON to a value and back gives the same document whenever the conversion succeeds; it fails
exactly when a number is out of range; the lossy conversion agrees with the strict one.

Code: core/types/src/variable/conv.rs (model: Core/Json). `ap`: built with `arbitrary_precision`, as all bindings are.
The number libraries are parameters; what is assumed of them stands in each theorem.
-/
namespace Zen

variable {N : Type}

/-! ### Specification -/

/-- the number occurs in the document -/
inductive Json.Has (n : N) : Json N → Prop
  | num : Json.Has n (.num n)
  | item {xs : List (Json N)} {x : Json N} : x ∈ xs → Json.Has n x → Json.Has n (.arr xs)
  | field {m : List (String × Json N)} {k : String} {x : Json N} : (k, x) ∈ m → Json.Has n x → Json.Has n (.obj m)

mutual
/-- the numbers of a document in their order -/
def Json.nums : Json N → List N
  | .num n => [n]
  | .arr xs => Json.numsL xs
  | .obj m => Json.numsE m
  | _ => []
def Json.numsL : List (Json N) → List N
  | [] => []
  | x :: xs => Json.nums x ++ Json.numsL xs
def Json.numsE : List (String × Json N) → List N
  | [] => []
  | (_, x) :: xs => Json.nums x ++ Json.numsE xs
end

/-- a document: no object has a key twice -/
inductive Json.Wf : Json N → Prop
  | null : Json.Wf .null
  | bool b : Json.Wf (.bool b)
  | num n : Json.Wf (.num n)
  | str s : Json.Wf (.str s)
  | arr xs : (∀ x ∈ xs, Json.Wf x) → Json.Wf (.arr xs)
  | obj m : (aKeys m).Nodup → (∀ k x, (k, x) ∈ m → Json.Wf x) → Json.Wf (.obj m)

/-- the same document: numbers by value, objects regardless of order -/
inductive SameJ (value : N → Rat) : Json N → Json N → Prop
  | null : SameJ value .null .null
  | bool b : SameJ value (.bool b) (.bool b)
  | num a b : value a = value b → SameJ value (.num a) (.num b)
  | str s : SameJ value (.str s) (.str s)
  | arr xs ys : xs.length = ys.length → (∀ (i : Nat) (a b : Json N), xs[i]? = some a → ys[i]? = some b → SameJ value a b) →
      SameJ value (.arr xs) (.arr ys)
  | obj m n : (∀ k, (aGet m k).isSome = (aGet n k).isSome) →
      (∀ k a b, aGet m k = some a → aGet n k = some b → SameJ value a b) → SameJ value (.obj m) (.obj n)

mutual
/-- the document with the numbers that do not convert replaced by null -/
def Json.nullOut (ok : N → Bool) : Json N → Json N
  | .num n => if ok n then .num n else .null
  | .arr xs => .arr (Json.nullOutL ok xs)
  | .obj m => .obj (Json.nullOutE ok m)
  | j => j
def Json.nullOutL (ok : N → Bool) : List (Json N) → List (Json N)
  | [] => []
  | x :: xs => Json.nullOut ok x :: Json.nullOutL ok xs
def Json.nullOutE (ok : N → Bool) : List (String × Json N) → List (String × Json N)
  | [] => []
  | (k, x) :: xs => (k, Json.nullOut ok x) :: Json.nullOutE ok xs
end

/-- no object of the document has the key first that marks a number -/
inductive Json.NoToken : Json N → Prop
  | null : Json.NoToken .null
  | bool b : Json.NoToken (.bool b)
  | num n : Json.NoToken (.num n)
  | str s : Json.NoToken (.str s)
  | arr xs : (∀ x ∈ xs, Json.NoToken x) → Json.NoToken (.arr xs)
  | obj m : (aKeys m).head? ≠ some "$serde_json::private::Number" → (∀ k x, (k, x) ∈ m → Json.NoToken x) → Json.NoToken (.obj m)

/-- outside the range of decimals -/
def OutOfRange (q : Rat) : Prop := q < -(2 ^ 96 - 1 : Rat) ∨ (2 ^ 96 - 1 : Rat) < q

/-! ### Lemmas -/

section
variable {lib : NumLib N} {ap : Bool}

theorem ofEntries_nodup {α : Type} {m : List (String × α)} (h : (aKeys m).Nodup) : ofEntries m = m := by
  unfold ofEntries
  exact (foldl_aSet_append m [] (by simpa using h)).trans (by simp)

mutual
theorem has_iff_nums {n : N} : ∀ j : Json N, j.Has n ↔ n ∈ j.nums
  | .null => ⟨nofun, by simp [Json.nums]⟩
  | .bool b => ⟨nofun, by simp [Json.nums]⟩
  | .str s => ⟨nofun, by simp [Json.nums]⟩
  | .num m => by
    simp only [Json.nums, List.mem_singleton]
    exact ⟨fun h => by cases h; rfl, fun h => h ▸ .num⟩
  | .arr xs => by
    simp only [Json.nums, ← hasL_iff xs]
    exact ⟨fun h => by cases h with | item hx h => exact ⟨_, hx, h⟩, fun ⟨x, hx, h⟩ => .item hx h⟩
  | .obj m => by
    simp only [Json.nums, ← hasE_iff m]
    exact ⟨fun h => by cases h with | field hx h => exact ⟨_, _, hx, h⟩, fun ⟨k, x, hx, h⟩ => .field hx h⟩
theorem hasL_iff {n : N} : ∀ xs : List (Json N), (∃ x ∈ xs, Json.Has n x) ↔ n ∈ Json.numsL xs
  | [] => by simp [Json.numsL]
  | x :: xs => by simp [Json.numsL, ← has_iff_nums x, ← hasL_iff xs]
theorem hasE_iff {n : N} : ∀ xs : List (String × Json N), (∃ k x, (k, x) ∈ xs ∧ Json.Has n x) ↔ n ∈ Json.numsE xs
  | [] => by simp [Json.numsE]
  | (k, x) :: xs => by
    simp only [Json.numsE, List.mem_append, ← has_iff_nums x, ← hasE_iff xs]
    constructor
    · rintro ⟨k', y, hy, h⟩
      rcases List.mem_cons.1 hy with e | hy
      · cases e; exact .inl h
      · exact .inr ⟨k', y, hy, h⟩
    · rintro (h | ⟨k', y, hy, h⟩)
      · exact ⟨k, x, by simp, h⟩
      · exact ⟨k', y, by simp [hy], h⟩
end

/-- the outcome: all numbers before the failing one convert -/
def FirstBad (lib : NumLib N) (ap : Bool) (l : List N) (n : N) : Prop :=
  ∃ a b, l = a ++ n :: b ∧ decimalFromNumber lib ap n = none ∧ ∀ m ∈ a, (decimalFromNumber lib ap m).isSome

theorem FirstBad.left {l r : List N} {n : N} (h : FirstBad lib ap l n) : FirstBad lib ap (l ++ r) n := by
  obtain ⟨a, b, rfl, h1, h2⟩ := h
  exact ⟨a, b ++ r, by simp, h1, h2⟩

theorem FirstBad.right {l r : List N} {n : N} (hl : ∀ m ∈ l, (decimalFromNumber lib ap m).isSome) (h : FirstBad lib ap r n) :
    FirstBad lib ap (l ++ r) n := by
  obtain ⟨a, b, rfl, h1, h2⟩ := h
  refine ⟨l ++ a, b, by simp, h1, fun m hm => ?_⟩
  rcases List.mem_append.1 hm with hm | hm
  · exact hl m hm
  · exact h2 m hm

mutual
theorem strict_spec : ∀ j : Json N, (∀ v, j.strict lib ap = .ok v → v = j.lossy lib ap ∧ ∀ m ∈ j.nums, (decimalFromNumber lib ap m).isSome) ∧
    ∀ e, j.strict lib ap = .error e → FirstBad lib ap j.nums e
  | .null => by simp [Json.strict, Json.lossy, Json.nums]
  | .bool b => by simp [Json.strict, Json.lossy, Json.nums]
  | .str s => by simp [Json.strict, Json.lossy, Json.nums]
  | .num n => by
    simp only [Json.strict, Json.lossy, Json.nums, List.mem_singleton, forall_eq]
    cases h : decimalFromNumber lib ap n with
    | none =>
      refine ⟨by simp, fun e he => ?_⟩
      simp only [Except.error.injEq] at he
      subst he
      exact ⟨[], [], rfl, h, by simp⟩
    | some d => simp
  | .arr xs => by
    have ih := strictL_spec xs
    simp only [Json.strict, Json.lossy, Json.nums]
    cases h : Json.strictL lib ap xs with
    | error e => exact ⟨by simp, fun e' he => by simp only [Except.error.injEq] at he; exact he ▸ ih.2 e h⟩
    | ok ys =>
      obtain ⟨h1, h2⟩ := ih.1 ys h
      exact ⟨fun v hv => by simp only [Except.ok.injEq] at hv; subst hv; exact ⟨by rw [h1], h2⟩, by simp⟩
  | .obj xs => by
    have ih := strictE_spec xs
    simp only [Json.strict, Json.lossy, Json.nums]
    cases h : Json.strictE lib ap xs with
    | error e => exact ⟨by simp, fun e' he => by simp only [Except.error.injEq] at he; exact he ▸ ih.2 e h⟩
    | ok ys =>
      obtain ⟨h1, h2⟩ := ih.1 ys h
      exact ⟨fun v hv => by simp only [Except.ok.injEq] at hv; subst hv; exact ⟨by rw [h1], h2⟩, by simp⟩
theorem strictL_spec : ∀ j : List (Json N), (∀ v, Json.strictL lib ap j = .ok v → v = Json.lossyL lib ap j ∧
      ∀ m ∈ Json.numsL j, (decimalFromNumber lib ap m).isSome) ∧
    ∀ e, Json.strictL lib ap j = .error e → FirstBad lib ap (Json.numsL j) e
  | [] => by simp [Json.strictL, Json.lossyL, Json.numsL]
  | x :: xs => by
    have ih1 := strict_spec x
    have ih2 := strictL_spec xs
    simp only [Json.strictL, Json.lossyL, Json.numsL]
    cases h : Json.strict lib ap x with
    | error e => exact ⟨by simp, fun e' he => by simp only [Except.error.injEq] at he; exact he ▸ (ih1.2 e h).left⟩
    | ok y =>
      obtain ⟨h1, h2⟩ := ih1.1 y h
      cases hs : Json.strictL lib ap xs with
      | error e => exact ⟨by simp, fun e' he => by simp only [Except.error.injEq] at he; exact he ▸ (ih2.2 e hs).right h2⟩
      | ok ys =>
        obtain ⟨h3, h4⟩ := ih2.1 ys hs
        refine ⟨fun v hv => ?_, by simp⟩
        simp only [Except.ok.injEq] at hv
        subst hv
        exact ⟨by rw [h1, h3], fun m hm => (List.mem_append.1 hm).elim (h2 m) (h4 m)⟩
theorem strictE_spec : ∀ j : List (String × Json N), (∀ v, Json.strictE lib ap j = .ok v → v = Json.lossyE lib ap j ∧
      ∀ m ∈ Json.numsE j, (decimalFromNumber lib ap m).isSome) ∧
    ∀ e, Json.strictE lib ap j = .error e → FirstBad lib ap (Json.numsE j) e
  | [] => by simp [Json.strictE, Json.lossyE, Json.numsE]
  | (k, x) :: xs => by
    have ih1 := strict_spec x
    have ih2 := strictE_spec xs
    simp only [Json.strictE, Json.lossyE, Json.numsE]
    cases h : Json.strict lib ap x with
    | error e => exact ⟨by simp, fun e' he => by simp only [Except.error.injEq] at he; exact he ▸ (ih1.2 e h).left⟩
    | ok y =>
      obtain ⟨h1, h2⟩ := ih1.1 y h
      cases hs : Json.strictE lib ap xs with
      | error e => exact ⟨by simp, fun e' he => by simp only [Except.error.injEq] at he; exact he ▸ (ih2.2 e hs).right h2⟩
      | ok ys =>
        obtain ⟨h3, h4⟩ := ih2.1 ys hs
        refine ⟨fun v hv => ?_, by simp⟩
        simp only [Except.ok.injEq] at hv
        subst hv
        exact ⟨by rw [h1, h3], fun m hm => (List.mem_append.1 hm).elim (h2 m) (h4 m)⟩
end

theorem lossyE_keys : ∀ m : List (String × Json N), aKeys (Json.lossyE lib ap m) = aKeys m
  | [] => rfl
  | (k, x) :: m => by simp [Json.lossyE, lossyE_keys m]

theorem toJsonE_keys {dyn : Dyn → Json N} : ∀ m : List (String × Val), aKeys (Val.toJsonE lib dyn m) = aKeys m
  | [] => rfl
  | (k, x) :: m => by simp [Val.toJsonE, toJsonE_keys m]

theorem lossyE_get : ∀ (m : List (String × Json N)) (k : String), aGet (Json.lossyE lib ap m) k = (aGet m k).map (Json.lossy lib ap)
  | [], k => rfl
  | (k', x) :: m, k => by
    simp only [Json.lossyE, aGet]
    split
    · rfl
    · exact lossyE_get m k

theorem toJsonE_get {dyn : Dyn → Json N} : ∀ (m : List (String × Val)) (k : String),
    aGet (Val.toJsonE lib dyn m) k = (aGet m k).map (Val.toJson lib dyn)
  | [], k => rfl
  | (k', x) :: m, k => by
    simp only [Val.toJsonE, aGet]
    split
    · rfl
    · exact toJsonE_get m k

theorem lossyL_get : ∀ (m : List (Json N)) (i : Nat), (Json.lossyL lib ap m)[i]? = m[i]?.map (Json.lossy lib ap)
  | [], i => by simp [Json.lossyL]
  | x :: m, 0 => by simp [Json.lossyL]
  | x :: m, i + 1 => by simpa [Json.lossyL] using lossyL_get m i

theorem toJsonL_get {dyn : Dyn → Json N} : ∀ (m : List Val) (i : Nat), (Val.toJsonL lib dyn m)[i]? = m[i]?.map (Val.toJson lib dyn)
  | [], i => by simp [Val.toJsonL]
  | x :: m, 0 => by simp [Val.toJsonL]
  | x :: m, i + 1 => by simpa [Val.toJsonL] using toJsonL_get m i

theorem lossyL_len : ∀ (m : List (Json N)), (Json.lossyL lib ap m).length = m.length
  | [] => by simp [Json.lossyL]
  | x :: m => by simp [Json.lossyL, lossyL_len m]

theorem toJsonL_len {dyn : Dyn → Json N} : ∀ (m : List Val), (Val.toJsonL lib dyn m).length = m.length
  | [] => by simp [Val.toJsonL]
  | x :: m => by simp [Val.toJsonL, toJsonL_len m]

/-- the document that comes back from the lossy conversion -/
theorem back_obj {dyn : Dyn → Json N} {m : List (String × Json N)} (h : (aKeys m).Nodup) :
    Val.toJson lib dyn (Json.lossy lib ap (.obj m)) = .obj (Val.toJsonE lib dyn (Json.lossyE lib ap m)) := by
  have h1 : ofEntries (Json.lossyE lib ap m) = Json.lossyE lib ap m := ofEntries_nodup (by rw [lossyE_keys]; exact h)
  rw [Json.lossy, h1, Val.toJson, ofEntries_nodup (by rw [toJsonE_keys, lossyE_keys]; exact h)]

theorem same_back {dyn : Dyn → Json N} {j : Json N} (hj : j.Wf) (hc : ∀ n, j.Has n → (decimalFromNumber lib ap n).isSome) :
    SameJ lib.value (Val.toJson lib dyn (j.lossy lib ap)) j ↔
      ∀ n, j.Has n → ∀ d, decimalFromNumber lib ap n = some d → lib.value (lib.print d) = lib.value n := by
  induction hj with
  | null => exact ⟨fun _ n h => (nomatch h), fun _ => .null⟩
  | bool b => exact ⟨fun _ n h => (nomatch h), fun _ => .bool b⟩
  | str s => exact ⟨fun _ n h => (nomatch h), fun _ => .str s⟩
  | num n =>
    obtain ⟨d, hd⟩ := Option.isSome_iff_exists.1 (hc n .num)
    simp only [Json.lossy, hd, Val.toJson]
    constructor
    · intro h m hm d' hd'
      cases hm
      rw [hd] at hd'; cases hd'
      cases h with | num _ _ h => exact h
    · intro h
      exact .num _ _ (h n .num d hd)
  | arr xs _ ih =>
    simp only [Json.lossy, Val.toJson]
    constructor
    · intro h n hn d hd
      cases hn with
      | @item _ x hx hn =>
        obtain ⟨i, hi⟩ := List.getElem?_of_mem hx
        cases h with
        | arr _ _ _ h =>
          have := h i _ x (by rw [toJsonL_get, lossyL_get, hi]; rfl) hi
          exact (ih x hx (fun n hn => hc n (.item hx hn))).1 this n hn d hd
    · intro h
      refine .arr _ _ (by rw [toJsonL_len, lossyL_len]) fun i a b ha hb => ?_
      rw [toJsonL_get, lossyL_get, hb] at ha
      cases ha
      have hx := List.mem_of_getElem? hb
      exact (ih b hx (fun n hn => hc n (.item hx hn))).2 fun n hn => h n (.item hx hn)
  | obj m nd _ ih =>
    rw [back_obj nd]
    constructor
    · intro h n hn d hd
      cases hn with
      | @field _ k x hx hn =>
        have hg := aGet_of_mem nd hx
        cases h with
        | obj _ _ _ h =>
          have := h k _ x (by rw [toJsonE_get, lossyE_get, hg]; rfl) hg
          exact (ih k x hx (fun n hn => hc n (.field hx hn))).1 this n hn d hd
    · intro h
      refine .obj _ _ (fun k => by rw [toJsonE_get, lossyE_get]; simp) fun k a b ha hb => ?_
      rw [toJsonE_get, lossyE_get, hb] at ha
      cases ha
      have hx := aGet_mem hb
      exact (ih k b hx (fun n hn => hc n (.field hx hn))).2 fun n hn => h n (.field hx hn)

mutual
theorem nullOut_nums {ok : N → Bool} : ∀ j : Json N, ∀ n ∈ (j.nullOut ok).nums, ok n = true
  | .null => by simp [Json.nullOut, Json.nums]
  | .bool b => by simp [Json.nullOut, Json.nums]
  | .str b => by simp [Json.nullOut, Json.nums]
  | .num m => by
    intro n hn
    simp only [Json.nullOut] at hn
    split at hn
    · next h => simp [Json.nums] at hn; exact hn ▸ h
    · simp [Json.nums] at hn
  | .arr xs => by simpa only [Json.nullOut, Json.nums] using nullOutL_nums xs
  | .obj xs => by simpa only [Json.nullOut, Json.nums] using nullOutE_nums xs
theorem nullOutL_nums {ok : N → Bool} : ∀ j : List (Json N), ∀ n ∈ Json.numsL (Json.nullOutL ok j), ok n = true
  | [] => by simp [Json.nullOutL, Json.numsL]
  | x :: xs => fun n hn => by
    simp only [Json.nullOutL, Json.numsL, List.mem_append] at hn
    exact hn.elim (nullOut_nums x n) (nullOutL_nums xs n)
theorem nullOutE_nums {ok : N → Bool} : ∀ j : List (String × Json N), ∀ n ∈ Json.numsE (Json.nullOutE ok j), ok n = true
  | [] => by simp [Json.nullOutE, Json.numsE]
  | (k, x) :: xs => fun n hn => by
    simp only [Json.nullOutE, Json.numsE, List.mem_append] at hn
    exact hn.elim (nullOut_nums x n) (nullOutE_nums xs n)
end

mutual
theorem nullOut_lossy : ∀ j : Json N, (j.nullOut fun n => (decimalFromNumber lib ap n).isSome).lossy lib ap = j.lossy lib ap
  | .null => by simp [Json.nullOut]
  | .bool b => by simp [Json.nullOut]
  | .str b => by simp [Json.nullOut]
  | .num m => by
    simp only [Json.nullOut]
    split
    · rfl
    · next h => simp only [Option.not_isSome_iff_eq_none] at h; simp [Json.lossy, h]
  | .arr xs => by simp only [Json.nullOut, Json.lossy, nullOutL_lossy xs]
  | .obj xs => by simp only [Json.nullOut, Json.lossy, nullOutE_lossy xs]
theorem nullOutL_lossy : ∀ j : List (Json N),
    Json.lossyL lib ap (Json.nullOutL (fun n => (decimalFromNumber lib ap n).isSome) j) = Json.lossyL lib ap j
  | [] => by simp [Json.nullOutL]
  | x :: xs => by simp only [Json.nullOutL, Json.lossyL, nullOut_lossy x, nullOutL_lossy xs]
theorem nullOutE_lossy : ∀ j : List (String × Json N),
    Json.lossyE lib ap (Json.nullOutE (fun n => (decimalFromNumber lib ap n).isSome) j) = Json.lossyE lib ap j
  | [] => by simp [Json.nullOutE]
  | (k, x) :: xs => by simp only [Json.nullOutE, Json.lossyE, nullOut_lossy x, nullOutE_lossy xs]
end

theorem visitL_of {text : String → Option Rat} : ∀ {xs : List (Json N)},
    (∀ x ∈ xs, x.visit lib ap text = (x.strict lib ap).mapError VisitErr.outOfRange) →
    Json.visitL lib ap text xs = (Json.strictL lib ap xs).mapError VisitErr.outOfRange
  | [], _ => rfl
  | x :: xs, h => by
    simp only [Json.visitL, Json.strictL, h x (by simp), visitL_of (xs := xs) fun y hy => h y (by simp [hy])]
    cases Json.strict lib ap x with
    | error e => rfl
    | ok y => cases Json.strictL lib ap xs <;> rfl

theorem visitE_of {text : String → Option Rat} : ∀ {xs : List (String × Json N)},
    (∀ k x, (k, x) ∈ xs → x.visit lib ap text = (x.strict lib ap).mapError VisitErr.outOfRange) →
    Json.visitE lib ap text xs = (Json.strictE lib ap xs).mapError VisitErr.outOfRange
  | [], _ => rfl
  | (k, x) :: xs, h => by
    simp only [Json.visitE, Json.strictE, h k x (by simp), visitE_of (xs := xs) fun k y hy => h k y (by simp [hy])]
    cases Json.strict lib ap x with
    | error e => rfl
    | ok y => cases Json.strictE lib ap xs <;> rfl

/-! ### Theorems -/

/-- The strict conversion succeeds exactly if every number in the document converts. -/
theorem C06_strict_iff (j : Json N) :
    (∃ v, j.strict lib ap = .ok v) ↔ ∀ n, j.Has n → (decimalFromNumber lib ap n).isSome := by
  constructor
  · rintro ⟨v, hv⟩ n hn
    exact ((strict_spec j).1 v hv).2 n ((has_iff_nums j).1 hn)
  · intro h
    cases hs : j.strict lib ap with
    | ok v => exact ⟨v, rfl⟩
    | error e =>
      obtain ⟨a, b, h1, h2, -⟩ := (strict_spec j).2 e hs
      have := h e ((has_iff_nums j).2 (by rw [h1]; simp))
      rw [h2] at this; cases this

/-- The error names the first number of the document that does not convert. -/
theorem C06_error (j : Json N) {e : N} (h : j.strict lib ap = .error e) :
    ∃ before after, j.nums = before ++ e :: after ∧ decimalFromNumber lib ap e = none ∧
      ∀ m ∈ before, (decimalFromNumber lib ap m).isSome :=
  (strict_spec j).2 e h

/-- If the number libraries reject exactly the numbers outside the range, then the strict conversion fails exactly if some
number of the document is outside the range. -/
theorem C06_fails_iff (hlib : ∀ n, decimalFromNumber lib ap n = none ↔ OutOfRange (lib.value n)) (j : Json N) :
    (∃ e, j.strict lib ap = .error e) ↔ ∃ n, j.Has n ∧ OutOfRange (lib.value n) := by
  constructor
  · rintro ⟨e, he⟩
    obtain ⟨a, b, h1, h2, -⟩ := C06_error j he
    exact ⟨e, (has_iff_nums j).2 (by rw [h1]; simp), (hlib e).1 h2⟩
  · rintro ⟨n, hn, ho⟩
    cases hs : j.strict lib ap with
    | error e => exact ⟨e, rfl⟩
    | ok v =>
      have := (C06_strict_iff j).1 ⟨v, hs⟩ n hn
      rw [(hlib n).2 ho] at this; cases this

/-- The lossy conversion agrees with the strict one whenever that succeeds. -/
theorem C06_lossy (j : Json N) {v : Val} (h : j.strict lib ap = .ok v) : j.lossy lib ap = v :=
  ((strict_spec j).1 v h).1.symm

/-- In general the lossy conversion is the strict one of the document with null for the numbers that do not convert. -/
theorem C06_lossy_nulls (j : Json N) :
    (j.nullOut fun n => (decimalFromNumber lib ap n).isSome).strict lib ap = .ok (j.lossy lib ap) := by
  obtain ⟨v, hv⟩ := (C06_strict_iff (lib := lib) (ap := ap) (j.nullOut fun n => (decimalFromNumber lib ap n).isSome)).2
    fun n hn => nullOut_nums j n ((has_iff_nums _).1 hn)
  rw [hv, ← C06_lossy _ hv, nullOut_lossy]

/-- After a successful strict conversion, converting back gives the same document exactly if every number in it was read
and printed without rounding. -/
theorem C06_round_trip_iff {dyn : Dyn → Json N} {j : Json N} (hj : j.Wf) {v : Val} (h : j.strict lib ap = .ok v) :
    SameJ lib.value (v.toJson lib dyn) j ↔
      ∀ n, j.Has n → ∀ d, decimalFromNumber lib ap n = some d → lib.value (lib.print d) = lib.value n := by
  rw [← C06_lossy j h]
  exact same_back hj ((C06_strict_iff j).1 ⟨v, h⟩)

/-- The round trip for documents whose numbers are decimals: with libraries that read such numbers and print decimals
exactly, the conversion succeeds and the same document comes back. -/
theorem C06_round_trip {dyn : Dyn → Json N} (hread : ∀ n, Dec.Rep (lib.value n) → decimalFromNumber lib ap n = some (lib.value n))
    (hprint : ∀ d, Dec.Rep d → lib.value (lib.print d) = d) {j : Json N} (hj : j.Wf) (hn : ∀ n, j.Has n → Dec.Rep (lib.value n)) :
    ∃ v, j.strict lib ap = .ok v ∧ SameJ lib.value (v.toJson lib dyn) j := by
  obtain ⟨v, hv⟩ := (C06_strict_iff (lib := lib) (ap := ap) j).2 fun n h => by rw [hread n (hn n h)]; rfl
  refine ⟨v, hv, (C06_round_trip_iff hj hv).2 fun n h d hd => ?_⟩
  rw [hread n (hn n h)] at hd; cases hd
  exact hprint _ (hn n h)

/-- Reading a document directly gives what the strict conversion gives, with the same error, if no object has the key first
that marks a number. -/
theorem C06_visit {text : String → Option Rat} {j : Json N} (hj : j.NoToken) :
    j.visit lib ap text = (j.strict lib ap).mapError VisitErr.outOfRange := by
  induction hj with
  | null => rfl
  | bool b => rfl
  | str s => rfl
  | num n => simp only [Json.visit, Json.strict]; cases decimalFromNumber lib ap n <;> rfl
  | arr xs _ ih =>
    simp only [Json.visit, Json.strict, visitL_of ih]
    cases Json.strictL lib ap xs <;> rfl
  | obj m hm _ ih =>
    cases m with
    | nil => simp only [Json.visit, Json.strict, Json.strictE]; rfl
    | cons e m =>
      obtain ⟨k, x⟩ := e
      have hk : (k == numberToken) = false := by
        rw [beq_eq_false_iff_ne]
        intro e; subst e
        exact hm rfl
      simp only [Json.visit, Json.strict, Json.strictE, hk, Bool.and_false, Bool.false_eq_true, if_false, ih k x (by simp),
        visitE_of (xs := m) fun k' y hy => ih k' y (by simp [hy])]
      cases Json.strict lib ap x with
      | error e => rfl
      | ok y => cases Json.strictE lib ap m <;> rfl

/-- Finding: an object whose first key is `$serde_json::private::Number` is not read as an object: a number if the entry is the text
of one and the only one, an error otherwise. The conversion keeps the object. -/
theorem C06_token {text : String → Option Rat} (s : String) :
    (Json.obj [("$serde_json::private::Number", .str s)]).visit lib true text =
      (match text s with
        | some d => .ok (.num d)
        | none => .error (.textOutOfRange s)) ∧
    (Json.obj [("$serde_json::private::Number", .str s)]).strict lib true = .ok (.obj [("$serde_json::private::Number", .str s)]) := by
  constructor
  · simp only [Json.visit, numberToken, beq_self_eq_true, Bool.and_self, if_true]
    cases text s <;> rfl
  · simp [Json.strict, Json.strictE, ofEntries, aSet, aGet]

end

/-! ### Findings and cases -/

/-- numbers written exactly, of any size; libraries that read a decimal exactly and round anything else to a decimal, if it is
in range (the double's own rounding is left out) -/
def exactLib : NumLib Rat where
  value q := q
  strExact q := if Dec.decRound q = some q then some q else none
  scientific _ := none
  viaFloat q := if |q| ≤ Dec.maxDec then Dec.decRound q else none
  asU64 _ := none
  asI64 _ := none
  print q := q

/-- Finding: a number with more places than a decimal has is rounded, and the conversion reports success: the document does
not come back. `1e-32` becomes 0 (the repository's own test `underflowing_number_rounds_to_zero`). -/
theorem C06_rounds {dyn : Dyn → Json Rat} : ∃ (j : Json Rat) (v : Val), j.Wf ∧ j.strict exactLib true = .ok v ∧
    ¬ SameJ exactLib.value (v.toJson exactLib dyn) j := by
  have hc : decimalFromNumber exactLib true (1 / 10 ^ 32) = some 0 := by
    decide +kernel
  refine ⟨.arr [.num (1 / 10 ^ 32)], .arr [.num 0], .arr _ (by simp; exact .num _), ?_, ?_⟩
  · simp only [Json.strict, Json.strictL, hc]
  · intro h
    simp only [Val.toJson, Val.toJsonL] at h
    cases h with
    | arr _ _ _ h =>
      have := h 0 _ _ rfl rfl
      cases this with
      | num _ _ h => exact absurd h (by decide +kernel)

/-- these libraries read every decimal exactly and reject exactly what is out of range: the assumptions of
`C06_round_trip` and `C06_fails_iff` can be met -/
example : (∀ n, Dec.Rep (exactLib.value n) → decimalFromNumber exactLib true n = some (exactLib.value n)) ∧
    (∀ d, Dec.Rep d → exactLib.value (exactLib.print d) = d) ∧
    (∀ n, decimalFromNumber exactLib true n = none ↔ OutOfRange (exactLib.value n)) := by
  refine ⟨fun n hn => ?_, fun d _ => rfl, fun n => ?_⟩
  · have hn : Dec.Rep n := hn
    simp [decimalFromNumber, exactLib, Dec.decRound_exact hn]
  · have ho : OutOfRange (exactLib.value n) ↔ ¬ |n| ≤ Dec.maxDec := by
      show OutOfRange n ↔ _
      rw [abs_le, OutOfRange, Dec.maxDec]
      constructor
      · rintro (h | h) ⟨h1, h2⟩ <;> linarith
      · intro h
        by_contra hc
        rw [not_or, not_lt, not_lt] at hc
        exact h ⟨hc.1, hc.2⟩
    rw [ho]
    simp only [decimalFromNumber, exactLib, if_true]
    by_cases h1 : |n| ≤ Dec.maxDec
    · rw [if_pos h1]
      have := Dec.decRound_inRange h1
      split
      · simp [h1]
      · simpa [h1] using this
    · rw [if_neg h1]
      split
      · next h2 =>
        obtain ⟨m, s, hm, hs, e⟩ := Dec.decRound_rep h2
        exfalso
        apply h1
        have hp : (1 : Rat) ≤ 10 ^ s := one_le_pow₀ (by norm_num)
        have hm' : |(m : Rat)| ≤ Dec.maxDec := by
          have h3 : |m| ≤ 2 ^ 96 - 1 := by rw [Int.abs_eq_natAbs]; omega
          have h4 : ((|m| : Int) : Rat) ≤ ((2 ^ 96 - 1 : Int) : Rat) := Int.cast_le.2 h3
          rw [Int.cast_abs] at h4
          refine le_trans h4 ?_
          rw [Dec.maxDec]; norm_num
        rw [e, abs_div, abs_of_pos (by linarith : (0 : Rat) < 10 ^ s)]
        exact le_trans (div_le_self (abs_nonneg _) hp) hm'
      · simp [h1]

end Zen
