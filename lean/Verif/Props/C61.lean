import Verif.Props.C60
/-
C61  What the type checker remarks about comparisons is so.
Next to errors the checker reports remarks: that a comparison always gives the same answer, that the left operand of
`??` is always or never null. `hintOf` (Types/Provider.lean) is the remark on an operator with operands of given types.
-/
namespace Zen
open VT Ty

/-! ### Remarks against values of the types -/

theorem opEqual_simple (a b : Val) : opEqual a b = .bool (simpleEq a b) := by
  unfold opEqual simpleEq
  split <;> split <;> simp_all

/-- the left operand is a date, the right one something a date may be given by -/
def DateFirst (l r : VT) : Prop := l.unwrap.1 = .date ∧ sat r.unwrap.1 .date = true

/-- a type below at most one `nullable` -/
def OneNull (t : VT) : Prop := isNullable t.unwrap.1 = false

theorem apart {l r : VT} (hl : isNullable l = false) (hr : isNullable r = false) (he : enumCheck l r = none) (hd : disjoint l r = true)
    (hn : ¬ DateFirst l r) {a b : Val} (ha : Inh l a) (hb : Inh r b) : simpleEq a b = false := by
  revert a b
  cases l <;> cases r <;> simp [isNullable] at hl hr <;>
    simp [disjoint, valueSet, VT.unwrap, sat, enumCheck, DateFirst] at he hd hn <;> intro a b ha hb <;> cases a <;> simp [Inh] at ha <;>
    cases b <;> simp [Inh] at hb <;> simp only [simpleEq]
  case date.interval.dyn.dyn =>
    obtain ⟨d, rfl⟩ := ha
    obtain ⟨lb, rb, l, r, rfl⟩ := hb
    rfl
  case interval.date.dyn.dyn =>
    obtain ⟨lb, rb, l, r, rfl⟩ := ha
    obtain ⟨d, rfl⟩ := hb
    rfl
  case enum.enum.str.str =>
    rw [beq_eq_false_iff_ne]
    rintro rfl
    exact hd _ ha hb

/-- Where the checker remarks that an equality is always false, or always true for `!=`, it is: for all values of the
operand types. -/
theorem C61_equality {strict : Bool} {ne b : Bool} {l r : VT} (hn : ¬ DateFirst l r)
    (h : hintOf strict (.cmp (if ne then .ne else .eq)) l r = some (.always b)) {x y : Val} (hx : Inh l x) (hy : Inh r y) :
    b = ne ∧ opEqual x y = .bool false := by
  have key : enumCheck l r = none ∧ neverEqual l r = true ∧ b = ne := by
    cases ne <;> simp [hintOf] at h <;> exact ⟨h.1.1, h.1.2, h.2⟩
  refine ⟨key.2.2, ?_⟩
  rw [opEqual_simple]
  congr 1
  have hd := key.2.1
  rw [neverEqual, Bool.or_eq_true] at hd
  rcases hd with hd | hd
  · cases l <;> cases r <;> simp [structured] at hd
    all_goals
      simp only [Inh] at hx hy
      obtain ⟨_, rfl, _⟩ := hx
      obtain ⟨_, rfl, _⟩ := hy
      rfl
  · simp only [Bool.and_eq_true, Bool.not_eq_true'] at hd
    have hnl : isNullable l = false := by
      have := hd.1.2
      cases l <;> simp_all [mayBeNull, isNullable]
    have hnr : isNullable r = false := by
      have := hd.2
      cases r <;> simp_all [mayBeNull, isNullable]
    exact apart hnl hnr key.1 hd.1.1 hn hx hy

theorem inh_unwrap {t : VT} {x : Val} (h : Inh t x) (hx : x ≠ .null) : Inh t.unwrap.1 x := by
  cases t <;> simp only [VT.unwrap]
  case nullable t =>
    simp only [Inh] at h
    exact h.resolve_left hx
  all_goals exact h

theorem inh_null {t : VT} (h : Inh t .null) : t = .any ∨ mayBeNull t = true := by
  cases t <;> simp_all [Inh, mayBeNull]

theorem simpleEq_null_left {x : Val} (h : x ≠ .null) : simpleEq .null x = false := by
  cases x <;> first | rfl | exact absurd rfl h

theorem simpleEq_null_right {x : Val} (h : x ≠ .null) : simpleEq x .null = false := by
  cases x <;> simp [simpleEq]
  exact h rfl

/-- What the checker reports as an error about a comparison with a constant is so, except that null equals null. -/
theorem C61_constant {l r : VT} (h : enumCheck l r = some true) {x y : Val} (hx : Inh l x) (hy : Inh r y)
    (hn : x ≠ .null ∨ y ≠ .null) : opEqual x y = .bool false := by
  rw [opEqual_simple]
  congr 1
  by_cases hxn : x = .null
  · subst hxn
    exact simpleEq_null_left (hn.resolve_left fun h => h rfl)
  by_cases hyn : y = .null
  · subst hyn
    exact simpleEq_null_right hxn
  have hx := inh_unwrap hx hxn
  have hy := inh_unwrap hy hyn
  unfold enumCheck at h
  generalize l.unwrap.1 = l' at *
  generalize r.unwrap.1 = r' at *
  cases l' <;> cases r' <;> simp at h <;> simp only [Inh] at hx hy
  · subst hx hy
    simpa [simpleEq] using h
  · subst hx
    obtain ⟨s, hs, rfl⟩ := hy
    simp only [simpleEq, beq_eq_false_iff_ne]
    rintro rfl
    exact h hs
  · subst hy
    obtain ⟨s, hs, rfl⟩ := hx
    simp only [simpleEq, beq_eq_false_iff_ne]
    rintro rfl
    exact h hs

theorem unwrap_once {t : VT} (h : OneNull t) : t.unwrap.1.unwrap.1 = t.unwrap.1 := by
  unfold OneNull at h
  generalize t.unwrap.1 = t at *
  cases t <;> simp_all [VT.unwrap, isNullable]

theorem disjoint_any {l r : VT} (h : disjoint l r = true) : l ≠ .any ∧ r ≠ .any := by
  constructor
  · rintro rfl
    revert h
    unfold disjoint
    generalize r.unwrap.1 = r
    cases r <;> simp [VT.unwrap, valueSet, sat]
  · rintro rfl
    revert h
    unfold disjoint
    generalize l.unwrap.1 = r
    cases r <;> simp [VT.unwrap, valueSet, sat]

/-- Where the checker remarks that a value is never in an array, or always not in it, it is so whenever there is an answer. -/
theorem C61_membership {strict : Bool} {ne b : Bool} {l t : VT} (hd : ¬ DateFirst l t)
    (h1 : OneNull l) (h2 : OneNull t) (hm : ¬ (mayBeNull l = true ∧ mayBeNull t = true))
    (h : hintOf strict (.cmp (if ne then .notIn else .in_)) l (.arr t) = some (.always b)) {x y v : Val} (hx : Inh l x)
    (hy : Inh (.arr t) y) (hv : opIn x y = .ok v) : b = ne ∧ v = .bool false := by
  have key : enumCheck l t = none ∧ disjoint l t = true ∧ b = ne := by
    cases ne <;> simp [hintOf, VT.widen] at h <;> exact ⟨h.1.1, h.1.2, h.2⟩
  obtain ⟨he, hdis, hb⟩ := key
  refine ⟨hb, ?_⟩
  simp only [Inh] at hy
  obtain ⟨xs, rfl, hxs⟩ := hy
  have hany : ∀ e ∈ xs, simpleEq x e = false := by
    intro e hmem
    have hee := hxs e hmem
    by_cases hxn : x = .null
    · subst hxn
      refine simpleEq_null_left ?_
      rintro rfl
      have hl := (inh_null hx).resolve_left (disjoint_any hdis).1
      have hr := (inh_null hee).resolve_left (disjoint_any hdis).2
      exact hm ⟨hl, hr⟩
    by_cases hen : e = .null
    · subst hen
      exact simpleEq_null_right hxn
    have hx' := inh_unwrap hx hxn
    have he' := inh_unwrap hee hen
    refine apart h1 h2 ?_ ?_ ?_ hx' he'
    · unfold enumCheck at he ⊢
      rwa [unwrap_once h1, unwrap_once h2]
    · unfold disjoint at hdis ⊢
      rwa [unwrap_once h1, unwrap_once h2]
    · unfold DateFirst at hd ⊢
      rwa [unwrap_once h1, unwrap_once h2]
  have hf : xs.any (simpleEq x) = false := by
    rw [List.any_eq_false]
    exact fun e hmem => by rw [hany e hmem]; simp
  cases x <;> simp only [opIn] at hv <;> first
    | (cases hv; rw [hf])
    | cases hv
    | skip
  all_goals (rename_i d; cases d <;> simp only [opIn] at hv <;> first
    | (cases hv; rw [hf])
    | cases hv)

/-- The remarks on `??`. -/
theorem C61_coalesce {strict : Bool} {l r : VT} {x : Val} (hx : Inh l x) :
    (hintOf strict (.logic .coalesce) l r = some .leftNull → x = .null) ∧
    (hintOf strict (.logic .coalesce) l r = some .leftNeverNull → x ≠ .null) := by
  cases strict
  · exact ⟨fun h => (nomatch h), fun h => (nomatch h)⟩
  · refine ⟨fun h => ?_, fun h hx' => ?_⟩
    · cases l <;> simp [hintOf] at h
      simpa [Inh] using hx
    · subst hx'
      cases l <;> simp [hintOf] at h <;> simp [Inh] at hx

/-! ### Remarks on accepted expressions -/

section
variable {L : Fn.Lib} {D : Dec.Rounding} {checks : Bool} {DL : Fn.DLib} {num : NumOps}
  {mArity : String → Option (Nat × Nat)} {method : String → List Val → Except BErr Val} {same : VT → VT → Bool}

/-- the types for which the remark of the checker about a comparison can be relied on -/
def Telling (op : Oper) (l r : VT) : Prop := ¬ DateFirst l r ∧ match op with
  | .cmp .in_ | .cmp .notIn => ∀ t, r = .arr t → ¬ DateFirst l t ∧ OneNull l ∧ OneNull t ∧ ¬ (mayBeNull l = true ∧ mayBeNull t = true)
  | _ => True

/-- The checker accepts a comparison, and remarks that it always gives `b`: that is the value the compiled program gives, for all
data of the type. -/
theorem C61_always (hm : MethodsTyped method) (hs : ∀ a b, same a b = true → a = b)
    (hc : ∀ a b, same a b = same b a) {o : List (String × VT)} (ho : VT.WF (.obj o)) {data : Val}
    (hd : Inh (.obj o) data) {op : Oper} {l r : Node} {b : Bool} (ha : Accepted true same (typeScope o) (.binary op l r))
    (hn : NoAssign (.binary op l r)) (hl : Sure same (typeScope o) l) (hr : Sure same (typeScope o) r)
    (ht : Telling op (determine true same (typeScope o) l).kind (determine true same (typeScope o) r).kind)
    (hh : hintOf true op (determine true same (typeScope o) l).kind (determine true same (typeScope o) r).kind = some (.always b))
    {v : Val} (h : Yields (Fn.builtins L D checks DL num mArity method) { base := data } (.binary op l r) (.ok v)) :
    v = .bool b := by
  obtain ⟨env, he⟩ := fst_of_yields h
  have hfr : FrFits (typeScope o) [] := ⟨fun _ e => (nomatch e), fun _ _ e => (nomatch e), fun _ _ => rfl⟩
  have hf : Fits (typeScope o) { base := data } := ⟨List.nodup_nil, o, rfl, hd⟩
  have hw : (typeScope o).WF := ⟨ho, ho, fun _ _ e => nomatch e⟩
  unfold Accepted at ha
  simp only [determine, Bool.or_eq_false_iff] at ha
  have il := fun x env' e => (sound (L := L) (D := D) (checks := checks) (DL := DL) (num := num) (mArity := mArity) hm hs hc l
    (typeScope o) [] { base := data } { base := data } hw hf hfr hn.1 (.inl rfl) ha.1.1 hl).1 x env' e
  have ir := fun x env' e => (sound (L := L) (D := D) (checks := checks) (DL := DL) (num := num) (mArity := mArity) hm hs hc r
    (typeScope o) [] { base := data } { base := data } hw hf hfr hn.2 (.inl rfl) ha.1.2 hr).1 x env' e
  generalize (determine true same (typeScope o) l).kind = tl at *
  generalize (determine true same (typeScope o) r).kind = tr at *
  have operands : ∀ f, binMeaning num op = some f → (∀ k, op ≠ .logic k) → ∃ x y, Inh tl x ∧ Inh tr y ∧ f x y = .ok v := by
    intro f hfm hlog
    have e1 : eval (Fn.builtins L D checks DL num mArity method) { base := data } [] { base := data } (.binary op l r) =
        match eval (Fn.builtins L D checks DL num mArity method) { base := data } [] { base := data } l with
        | .error e => .error e
        | .ok (a, env) => match eval (Fn.builtins L D checks DL num mArity method) { base := data } [] env r with
          | .error e => .error e
          | .ok (b, env) => match f a b with
            | .error e => .error e
            | .ok v => .ok (v, env) := by
      have hfm' : binMeaning (Fn.builtins L D checks DL num mArity method).num op = some f := hfm
      cases op with
      | logic k => exact absurd rfl (hlog k)
      | cmp k => simp only [eval, hfm']; rfl
      | arith k => simp only [eval, hfm']; rfl
      | _ => cases hfm
    rw [e1] at he
    split at he
    · cases he
    · rename_i x env1 hx
      have := keep hn.1 hx
      subst this
      split at he
      · cases he
      · rename_i y env2 hy
        split at he
        · cases he
        · rename_i w hw
          cases he
          exact ⟨x, y, il _ _ hx, ir _ _ hy, hw⟩
  match op, hh with
  | .cmp .eq, hh =>
    obtain ⟨x, y, hx, hy, e⟩ := operands _ rfl (by simp)
    obtain ⟨hb, hq⟩ := C61_equality (ne := false) ht.1 hh hx hy
    cases e
    rw [hq, hb]
  | .cmp .ne, hh =>
    obtain ⟨x, y, hx, hy, e⟩ := operands _ rfl (by simp)
    obtain ⟨hb, hq⟩ := C61_equality (ne := true) ht.1 hh hx hy
    rw [hq] at e
    cases e
    rw [hb]; rfl
  | .cmp .in_, hh =>
    obtain ⟨x, y, hx, hy, e⟩ := operands _ rfl (by simp)
    have : ∃ t, tr = .arr t := by
      cases tr <;> simp [hintOf, VT.widen] at hh
      exact ⟨_, rfl⟩
    obtain ⟨t, rfl⟩ := this
    obtain ⟨h1, h2, h3, h4⟩ := ht.2 t rfl
    obtain ⟨hb, hq⟩ := C61_membership (ne := false) h1 h2 h3 h4 hh hx hy e
    rw [hq, hb]
  | .cmp .notIn, hh =>
    obtain ⟨x, y, hx, hy, e⟩ := operands _ rfl (by simp)
    have : ∃ t, tr = .arr t := by
      cases tr <;> simp [hintOf, VT.widen] at hh
      exact ⟨_, rfl⟩
    obtain ⟨t, rfl⟩ := this
    obtain ⟨h1, h2, h3, h4⟩ := ht.2 t rfl
    split at e
    · rename_i w hw
      obtain ⟨hb, hq⟩ := C61_membership (ne := true) h1 h2 h3 h4 hh hx hy hw
      rw [hq] at e
      cases e
      rw [hb]; rfl
    · cases e
  | .logic .coalesce, hh => 
    exfalso
    cases tl <;> simp [hintOf] at hh
  | .cmp .lt, hh => cases hh
  | .cmp .le, hh => cases hh
  | .cmp .gt, hh => cases hh
  | .cmp .ge, hh => cases hh
  | .logic .and, hh => cases hh
  | .logic .or, hh => cases hh
  | .logic .not, hh => cases hh
  | .arith _, hh => cases hh

end

/-! ### An accepted comparison, and where the remarks are wrong -/

/-- `status == kind` for a status and a kind that share no value -/
def clashType : List (String × VT) :=
  [("status", .enum none ["open", "closed"]), ("kind", .enum none ["new", "used"])]

example : hintOf true (.cmp .eq) (.enum none ["open", "closed"]) (.enum none ["new", "used"]) = some (.always false) := by decide

example (L : Fn.Lib) (D : Dec.Rounding) (checks : Bool) (DL : Fn.DLib) (num : NumOps) (mArity : String → Option (Nat × Nat)) (b : Dur.Build)
    (toArg : Val → Fn.Arg) (ofDate : Option Fn.ZDate → Option Int) {data v : Val} (hd : Inh (.obj clashType) data)
    (h : Yields (Fn.builtins L D checks DL num mArity (methodOf DL b toArg ofDate)) { base := data }
      (.binary (.cmp .eq) (.ident "status") (.ident "kind")) (.ok v)) : v = .bool false := by
  refine C61_always (op := .cmp .eq) (l := .ident "status") (r := .ident "kind") (same := noSame) (C60_methods DL b toArg ofDate)
    (fun _ _ h => nomatch h) (fun _ _ => rfl) (.obj (by decide) ?_) hd rfl ⟨trivial, trivial⟩ trivial trivial ?_ rfl h
  · intro k t hk
    simp [clashType] at hk
    rcases hk with ⟨-, rfl⟩ | ⟨-, rfl⟩ <;> exact .enum
  · exact ⟨fun h => (nomatch h.1), trivial⟩

section
variable (B : Builtins)

/-- the checker accepts `l op r` and remarks that it always gives `b`; for some data of the type it does not -/
structure Misremarked (o : List (String × VT)) (data : Val) (op : Oper) (l r : Node) (b : Bool) : Prop where
  accepted : Accepted true noSame (typeScope o) (.binary op l r)
  fits : Inh (.obj o) data
  remark : hintOf true op (determine true noSame (typeScope o) l).kind (determine true noSame (typeScope o) r).kind = some (.always b)
  value : evaluate B { base := data } (.binary op l r) = .ok (.bool !b)

/-- NEGATIVE: a date may be given as text, and the text may be equal. -/
theorem C61_date_first : Misremarked B [("d", .date), ("s", .string)] (.obj [("d", .str "2024-01-01"), ("s", .str "2024-01-01")])
    (.cmp .eq) (.ident "d") (.ident "s") false :=
  ⟨rfl, by simp [Inh, InhFields, aGet], rfl, rfl⟩

/-- The other way round there is no remark. -/
theorem C61_date_second : hintOf true (.cmp .eq) .string .date = none := by decide

/-- NEGATIVE: null is found among elements that may be null. -/
theorem C61_null_in : Misremarked B [("x", .nullable .number), ("xs", .arr (.nullable .string))] (.obj [("x", .null), ("xs", .arr [.null])])
    (.cmp .in_) (.ident "x") (.ident "xs") false :=
  ⟨rfl, by simp [Inh, InhFields, aGet], rfl, rfl⟩

/-- NEGATIVE: only one `nullable` is looked through; a number is found among numbers. -/
theorem C61_two_nulls : Misremarked B [("x", .nullable (.nullable .bool)), ("xs", .arr .bool)]
    (.obj [("x", .bool true), ("xs", .arr [.bool true])]) (.cmp .in_) (.ident "x") (.ident "xs") false :=
  ⟨rfl, by simp [Inh, InhFields, aGet], rfl, rfl⟩

/-- NEGATIVE: the error about a constant is wrong for null on both sides. -/
theorem C61_null_constant : enumCheck (.nullable (.const "a")) (.nullable (.const "b")) = some true ∧
    Inh (.nullable (.const "a")) .null ∧ Inh (.nullable (.const "b")) .null ∧ opEqual .null .null = .bool true :=
  ⟨by decide, by simp [Inh], by simp [Inh], rfl⟩

end

end Zen
