import Verif.Props.C11
/-
C12  Closures over arrays and integer intervals.
The first operand evaluates to a value with elements `xs`; the meaning of the closure function is
stated with Lean's list functions. `fr` are the enclosing closures (arbitrary nesting); the body
sees the new element as the innermost frame.
-/
namespace Zen

/-- What a collection iterates over: the elements of an array, or the integers of a closed
interval in ascending order (other bracket kinds: see C16). -/
inductive Elements : Val → List Val → Prop
  | arr (xs : List Val) : Elements (.arr xs) xs
  | interval (a : Int) (k : Nat) (ha : -(2 ^ 63) ≤ a) (hb : a + k < 2 ^ 63) :
      Elements (.dyn (.interval .lsq .rsq (.num (a : Rat)) (.num ((a + k : Int) : Rat))))
        ((List.range (k + 1)).map fun (i : Nat) => .num ((a + i : Int) : Rat))

theorem ratTrunc_int (a : Int) : ratTrunc (a : Rat) = a := by
  unfold ratTrunc
  split
  · simp
  · simp

theorem toI64_int {a : Int} (h : -(2 ^ 63) ≤ a) (h' : a < 2 ^ 63) : toI64 (a : Rat) = some a := by
  unfold toI64
  rw [ratTrunc_int, if_pos ⟨h, h'⟩]

theorem Elements.begin {v : Val} {xs : List Val} (c : Bool) (h : Elements v xs) : opBegin c v = .ok xs := by
  cases h with
  | arr => rfl
  | interval a k ha hb =>
    have h1 := toI64_int ha (by omega)
    have h2 : toI64 ((a + k : Int) : Rat) = some (a + k) := toI64_int (by omega) hb
    unfold opBegin intervalToArray rangeStart rangeEnd
    dsimp only
    rw [h1]
    dsimp only
    rw [h2]
    dsimp only
    rw [show (a + (k : Int) - a + 1).toNat = k + 1 by omega]

section
variable (f : Val → Scope → Res) (P : Val → Bool) (env : Scope)

theorem loopAll_pure (xs : List Val) (h : ∀ x ∈ xs, f x env = .ok (.bool (P x), env)) :
    loopAll f xs env = .ok (decide (∀ x ∈ xs, P x = true), env) := by
  induction xs with
  | nil => simp [loopAll]
  | cons x xs ih =>
    have h1 := h x (List.mem_cons_self ..)
    have h2 := ih fun y hy => h y (List.mem_cons_of_mem _ hy)
    cases hp : P x <;> simp [loopAll, h1, hp, h2]

theorem loopSome_pure (xs : List Val) (h : ∀ x ∈ xs, f x env = .ok (.bool (P x), env)) :
    loopSome f xs env = .ok (decide (∃ x ∈ xs, P x = true), env) := by
  induction xs with
  | nil => simp [loopSome]
  | cons x xs ih =>
    have h1 := h x (List.mem_cons_self ..)
    have h2 := ih fun y hy => h y (List.mem_cons_of_mem _ hy)
    cases hp : P x <;> simp [loopSome, h1, hp, h2]

theorem loopNone_pure (xs : List Val) (h : ∀ x ∈ xs, f x env = .ok (.bool (P x), env)) :
    loopNone f xs env = .ok (decide (¬ ∃ x ∈ xs, P x = true), env) := by
  induction xs with
  | nil => simp [loopNone]
  | cons x xs ih =>
    have h1 := h x (List.mem_cons_self ..)
    have h2 := ih fun y hy => h y (List.mem_cons_of_mem _ hy)
    cases hp : P x <;> simp [loopNone, h1, hp, h2]

theorem loopFilter_pure (xs : List Val) (h : ∀ x ∈ xs, f x env = .ok (.bool (P x), env)) :
    loopFilter f xs env = .ok (xs.filter P, env) := by
  induction xs with
  | nil => simp [loopFilter]
  | cons x xs ih =>
    have h1 := h x (List.mem_cons_self ..)
    have h2 := ih fun y hy => h y (List.mem_cons_of_mem _ hy)
    cases hp : P x <;> simp [loopFilter, h1, hp, h2]

theorem loopMap_pure (F : Val → Val) (xs : List Val) (h : ∀ x ∈ xs, f x env = .ok (F x, env)) :
    loopMap f xs env = .ok (xs.map F, env) := by
  induction xs with
  | nil => simp [loopMap]
  | cons x xs ih =>
    have h1 := h x (List.mem_cons_self ..)
    have h2 := ih fun y hy => h y (List.mem_cons_of_mem _ hy)
    simp [loopMap, h1, h2]

theorem flattenV_map (F : Val → Val) (xs : List Val) :
    flattenV (xs.map F) = xs.flatMap fun x => match F x with | .arr ys => ys | v => [v] := by
  induction xs with
  | nil => rfl
  | cons x xs ih =>
    simp only [List.map_cons, List.flatMap_cons]
    cases hf : F x <;> simp [flattenV, ih]
end

/-- The quantifiers and filters, for a body that is a predicate `P` of the element. -/
theorem C12_predicates (B : Builtins) (root : Scope) (fr : Frames) (env env' : Scope)
    (over body : Node) (alias : Option String) (v : Val) (xs : List Val) (P : Val → Bool)
    (hover : eval B root fr env over = .ok (v, env')) (hxs : Elements v xs)
    (hbody : ∀ x ∈ xs, eval B root ((alias, x) :: fr) env' body = .ok (.bool (P x), env')) :
    eval B root fr env (.closure .all over alias body) =
      .ok (.bool (decide (∀ x ∈ xs, P x = true)), env') ∧
    eval B root fr env (.closure .some over alias body) =
      .ok (.bool (decide (∃ x ∈ xs, P x = true)), env') ∧
    eval B root fr env (.closure .none over alias body) =
      .ok (.bool (decide (¬ ∃ x ∈ xs, P x = true)), env') ∧
    eval B root fr env (.closure .one over alias body) =
      .ok (.bool (decide (xs.countP P = 1)), env') ∧
    eval B root fr env (.closure .count over alias body) =
      .ok (.num (xs.countP P : Nat), env') ∧
    eval B root fr env (.closure .filter over alias body) =
      .ok (.arr (xs.filter P), env') := by
  simp only [eval, hover, hxs.begin, loopMeaning]
  rw [loopAll_pure _ P env' xs hbody, loopSome_pure _ P env' xs hbody,
    loopNone_pure _ P env' xs hbody, loopFilter_pure _ P env' xs hbody]
  simp [Except.map, List.countP_eq_length_filter]

/-- The element-wise images, for a body that is a function `F` of the element. -/
theorem C12_images (B : Builtins) (root : Scope) (fr : Frames) (env env' : Scope)
    (over body : Node) (alias : Option String) (v : Val) (xs : List Val) (F : Val → Val)
    (hover : eval B root fr env over = .ok (v, env')) (hxs : Elements v xs)
    (hbody : ∀ x ∈ xs, eval B root ((alias, x) :: fr) env' body = .ok (F x, env')) :
    eval B root fr env (.closure .map over alias body) = .ok (.arr (xs.map F), env') ∧
    eval B root fr env (.closure .flatMap over alias body) =
      .ok (.arr (xs.flatMap fun x => match F x with | .arr ys => ys | v => [v]), env') := by
  simp only [eval, hover, hxs.begin, loopMeaning]
  rw [loopMap_pure _ env' F xs hbody]
  exact ⟨rfl, by rw [← flattenV_map]; rfl⟩

/-- `all`, `some` and `none` stop at the first element that decides them: elements after it may
fail or be of any type. -/
theorem C12_stops_early (B : Builtins) (root : Scope) (fr : Frames) (env env' : Scope)
    (over body : Node) (alias : Option String) (v x : Val) (pre post : List Val)
    (hover : eval B root fr env over = .ok (v, env')) (hxs : Elements v (pre ++ x :: post)) :
    ((∀ y ∈ pre, eval B root ((alias, y) :: fr) env' body = .ok (.bool true, env')) →
      eval B root ((alias, x) :: fr) env' body = .ok (.bool false, env') →
      eval B root fr env (.closure .all over alias body) = .ok (.bool false, env')) ∧
    ((∀ y ∈ pre, eval B root ((alias, y) :: fr) env' body = .ok (.bool false, env')) →
      eval B root ((alias, x) :: fr) env' body = .ok (.bool true, env') →
      eval B root fr env (.closure .some over alias body) = .ok (.bool true, env') ∧
      eval B root fr env (.closure .none over alias body) = .ok (.bool false, env')) := by
  simp only [eval, hover, hxs.begin, loopMeaning]
  clear hover hxs
  refine ⟨fun h hx => ?_, fun h hx => ⟨?_, ?_⟩⟩
  · induction pre with
    | nil => simp [loopAll, hx, Except.map]
    | cons y pre ih =>
      simp only [List.cons_append, loopAll, h y (List.mem_cons_self ..)]
      exact ih fun z hz => h z (List.mem_cons_of_mem _ hz)
  · induction pre with
    | nil => simp [loopSome, hx, Except.map]
    | cons y pre ih =>
      simp only [List.cons_append, loopSome, h y (List.mem_cons_self ..)]
      exact ih fun z hz => h z (List.mem_cons_of_mem _ hz)
  · induction pre with
    | nil => simp [loopNone, hx, Except.map]
    | cons y pre ih =>
      simp only [List.cons_append, loopNone, h y (List.mem_cons_self ..)]
      exact ih fun z hz => h z (List.mem_cons_of_mem _ hz)

/-- `#` is the element of the innermost closure. -/
theorem C12_pointer_innermost (B : Builtins) (root : Scope) (fr : Frames) (env : Scope)
    (alias : Option String) (x : Val) :
    eval B root ((alias, x) :: fr) env .pointer = .ok (x, env) := rfl

/-- End to end: compiled and run on the machine, for an operand and a body without assignments. -/
theorem C12_run (B : Builtins) (scope : Scope) (over body : Node) (alias : Option String)
    (v : Val) (xs : List Val) (P : Val → Bool) (F : Val → Val)
    (hn : NoAssign over) (hb : Compiles B body)
    (hover : Yields B scope over (.ok v)) (hxs : Elements v xs) :
    ((∀ x ∈ xs, eval B scope [(alias, x)] scope body = .ok (.bool (P x), scope)) →
      Yields B scope (.closure .all over alias body) (.ok (.bool (decide (∀ x ∈ xs, P x = true)))) ∧
      Yields B scope (.closure .some over alias body) (.ok (.bool (decide (∃ x ∈ xs, P x = true)))) ∧
      Yields B scope (.closure .none over alias body)
        (.ok (.bool (decide (¬ ∃ x ∈ xs, P x = true)))) ∧
      Yields B scope (.closure .one over alias body) (.ok (.bool (decide (xs.countP P = 1)))) ∧
      Yields B scope (.closure .count over alias body) (.ok (.num (xs.countP P : Nat))) ∧
      Yields B scope (.closure .filter over alias body) (.ok (.arr (xs.filter P)))) ∧
    ((∀ x ∈ xs, eval B scope [(alias, x)] scope body = .ok (F x, scope)) →
      Yields B scope (.closure .map over alias body) (.ok (.arr (xs.map F))) ∧
      Yields B scope (.closure .flatMap over alias body)
        (.ok (.arr (xs.flatMap fun x => match F x with | .arr ys => ys | v => [v])))) := by
  have he := eval_of_yields hn hover
  have hc : ∀ k, Compiles B (.closure k over alias body) := fun k =>
    compiles_iff.2 ⟨compiles_iff.1 (yields_iff.1 hover).1, compiles_iff.1 hb⟩
  constructor
  · intro h
    obtain ⟨h1, h2, h3, h4, h5, h6⟩ := C12_predicates B scope [] scope scope over body alias v xs P he hxs h
    refine ⟨?_, ?_, ?_, ?_, ?_, ?_⟩ <;> refine yields_iff.2 ⟨hc _, ?_⟩ <;> unfold evaluate
    · rw [h1]; rfl
    · rw [h2]; rfl
    · rw [h3]; rfl
    · rw [h4]; rfl
    · rw [h5]; rfl
    · rw [h6]; rfl
  · intro h
    obtain ⟨h1, h2⟩ := C12_images B scope [] scope scope over body alias v xs F he hxs h
    refine ⟨?_, ?_⟩ <;> refine yields_iff.2 ⟨hc _, ?_⟩ <;> unfold evaluate
    · rw [h1]; rfl
    · rw [h2]; rfl

/-! ### Instances -/

/-- `filter([1, 2, 3], # > x)`, nested below `map([10], …)` -/
example : (∀ y ∈ [Val.num 1, .num 2, .num 3],
    eval demoB demoScope ((none, y) :: [(some "t", .num 10)]) demoScope
      (.binary (.cmp .gt) .pointer (.ident "x")) =
      .ok (.bool (match y with | .num q => decide (1 < q) | _ => false), demoScope)) := by
  intro y hy
  simp only [List.mem_cons, List.not_mem_nil, or_false] at hy
  rcases hy with rfl | rfl | rfl <;> rfl
example : Elements (.dyn (.interval .lsq .rsq (.num 1) (.num 3))) [.num 1, .num 2, .num 3] := by
  have := Elements.interval 1 2 (by decide) (by decide)
  exact this
example : NoAssign (.arr [.num 1, .num 2]) := ⟨trivial, trivial, trivial⟩
example : Yields demoB demoScope (.arr [.num 1, .num 2]) (.ok (.arr [.num 1, .num 2])) :=
  ⟨_, 20, rfl, rfl⟩

end Zen
