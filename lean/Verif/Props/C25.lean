import Verif.Props.C24
import Verif.Props.C47
import Verif.Props.C13
/-
C25  Recognised tests mean what the analysis says.
-/
namespace Zen

/-- What a reader takes the path `a.b.c` to denote: property lookups starting from the scope
(assigned locals first, then the input), null for anything missing. -/
def valueAt (scope : Scope) : List String → Val
  | [] => .null
  | k :: ks => ks.foldl (fun v k => property k v) ((scope.get k).getD .null)

/-- the property a recognised test looks at -/
def ArmTest.path : ArmTest → List String
  | .enum p _ => p
  | .bool p _ => p
  | .number p _ => p
  | _ => []

/-- the set of values a recognised test stands for -/
def ArmTest.Holds : ArmTest → Val → Prop
  | .enum _ vs, v => ∃ s ∈ vs, v = .str s
  | .bool _ vs, v => ∃ b ∈ vs, v = .bool b
  | .number _ c, v => ∃ q, v = .num q ∧ c.Has q
  | _, _ => False

/-- the value has the kind the test is about -/
def ArmTest.Fits : ArmTest → Val → Prop
  | .enum _ _, v => ∃ s, v = .str s
  | .bool _ _, v => ∃ b, v = .bool b
  | .number _ _, v => ∃ q, v = .num q
  | _, _ => False

def ArmTest.Recognised (t : ArmTest) : Prop := t ≠ .dflt ∧ t ≠ .unrecognized

section
variable {B : Builtins} {scope : Scope}

/-- invariant of the induction -/
structure Faithful (B : Builtins) (scope : Scope) (n : Node) (t : ArmTest) : Prop where
  pure : NoAssign n
  acc : Accepts B n
  fits : t.Fits (valueAt scope t.path) →
    ∃ b, eval B scope [] scope n = .ok (.bool b, scope) ∧ (b = true ↔ t.Holds (valueAt scope t.path))
  unfit : ¬ t.Fits (valueAt scope t.path) → ∀ env, eval B scope [] scope n ≠ .ok (.bool true, env)

theorem fastProp_eq (k : String) (v : Val) : fastProp k v = property k v := rfl

theorem lenient_path {n : Node} {p : List String} (h : Opnd.extractPath n = some p) :
    p ≠ [] ∧ lenient scope scope [] n = some (valueAt scope p) := by
  induction n using Opnd.extractPath.induct generalizing p with
  | case1 name => cases h; exact ⟨by simp, rfl⟩
  | case2 n q hn ih => simp [Opnd.extractPath, hn] at h
  | case3 n pre hn key ih =>
    simp only [Opnd.extractPath, hn] at h
    cases h
    obtain ⟨hne, hl⟩ := ih hn
    refine ⟨by simp, ?_⟩
    simp only [lenient, hl]
    cases pre with
    | nil => exact absurd rfl hne
    | cons a r => simp [valueAt, List.foldl_append, fastProp_eq]
  | case4 n q pre hn hq ih => simp [Opnd.extractPath, hn] at h
  | case5 n h1 h2 => simp [Opnd.extractPath] at h

/-- evaluation of a path: its value, or a failure when the input is not an object (in which case
the value is null) -/
theorem eval_path {n : Node} {p : List String} (h : Opnd.extractPath n = some p) :
    NoAssign n ∧ Accepts B n ∧
    (eval B scope [] scope n = .ok (valueAt scope p, scope) ∨
      (valueAt scope p = .null ∧ ∃ e, eval B scope [] scope n = .error e)) := by
  have hl := (lenient_path (scope := scope) h).2
  cases n <;> simp [Opnd.extractPath] at h
  · rename_i name
    subst h
    refine ⟨trivial, trivial, ?_⟩
    simp only [eval, aliasOf, opFetchEnv, valueAt, List.foldl_nil, Scope.get]
    cases hloc : scope.local_ name with
    | some v => left; rfl
    | none =>
      cases hb : scope.base <;> simp
  · rename_i n q
    have key : ∀ (n : Node) (p : List String), Opnd.extractPath n = some p → NoAssign n ∧ Accepts B n := by
      intro n
      induction n using Opnd.extractPath.induct with
      | case1 name => intro p h; exact ⟨trivial, trivial⟩
      | case2 n q hn ih => intro p h; simp [Opnd.extractPath, hn] at h
      | case3 n pre hn key ih => intro p _; have := ih _ hn; exact ⟨⟨this.1, trivial⟩, ⟨this.2, trivial⟩⟩
      | case4 n q pre hn hq ih => intro p h; simp [Opnd.extractPath, hn] at h
      | case5 n h1 h2 => intro p h; simp [Opnd.extractPath] at h
    have := key (.member n q) p (by simpa [Opnd.extractPath] using h)
    refine ⟨this.1, this.2, .inl ?_⟩
    simp only [eval, hl]

theorem eval_unwrap (n : Node) :
    (NoAssign n ↔ NoAssign (Opnd.unwrap n)) ∧ (Accepts B n ↔ Accepts B (Opnd.unwrap n)) ∧
    eval B scope [] scope n = eval B scope [] scope (Opnd.unwrap n) := by
  induction n using Opnd.unwrap.induct with
  | case1 n ih => simpa [Opnd.unwrap, NoAssign, Accepts, eval] using ih
  | case2 n h => cases n <;> first | exact absurd rfl (h _) | simp [Opnd.unwrap]

/-- what a classified operand evaluates to -/
def OpndMeans (B : Builtins) (scope : Scope) (n : Node) : Opnd → Prop
  | .path p => NoAssign n ∧ Accepts B n ∧
      (eval B scope [] scope n = .ok (valueAt scope p, scope) ∨
        (valueAt scope p = .null ∧ ∃ e, eval B scope [] scope n = .error e))
  | .num q => NoAssign n ∧ Accepts B n ∧ eval B scope [] scope n = .ok (.num q, scope)
  | .str s => NoAssign n ∧ Accepts B n ∧ eval B scope [] scope n = .ok (.str s, scope)
  | .bool b => NoAssign n ∧ Accepts B n ∧ eval B scope [] scope n = .ok (.bool b, scope)
  | .other => True

theorem eval_classify (n : Node) (o : Opnd) (h : Opnd.classify n = o) : OpndMeans B scope n o := by
  obtain ⟨h1, h2, h3⟩ := eval_unwrap (B := B) (scope := scope) n
  unfold Opnd.classify at h
  split at h
  · rename_i heq; subst h; rw [heq] at h1 h2 h3
    exact ⟨h1.2 trivial, h2.2 trivial, h3⟩
  · rename_i heq; subst h; rw [heq] at h1 h2 h3
    exact ⟨h1.2 trivial, h2.2 trivial, h3⟩
  · rename_i heq; subst h; rw [heq] at h1 h2 h3
    exact ⟨h1.2 trivial, h2.2 trivial, h3⟩
  · rename_i m heq; rw [heq] at h1 h2 h3
    split at h
    · rename_i q hq
      subst h
      obtain ⟨g1, g2, g3⟩ := eval_unwrap (B := B) (scope := scope) m
      rw [hq] at g1 g2 g3
      refine ⟨h1.2 (g1.2 trivial), h2.2 ⟨rfl, g2.2 trivial⟩, ?_⟩
      rw [h3]
      simp only [eval, g3, opNegate]
    · subst h; trivial
  · cases hp : Opnd.extractPath (Opnd.unwrap n) with
    | none => rw [hp] at h; subst h; trivial
    | some p =>
      rw [hp] at h; subst h
      obtain ⟨g1, g2, g3⟩ := eval_path (B := B) (scope := scope) hp
      exact ⟨h1.2 g1, h2.2 g2, by rw [h3]; exact g3⟩
theorem not_fits_null (t : ArmTest) : ¬ t.Fits .null := by
  cases t <;> simp [ArmTest.Fits]

/-- a strict operator between the path and a constant -/
theorem faithful_left {l r : Node} {op : Oper} {f : Val → Val → Except VErr Val} {rv : Val}
    {t : ArmTest} (hl : OpndMeans B scope l (.path t.path))
    (hr : NoAssign r ∧ Accepts B r ∧ eval B scope [] scope r = .ok (rv, scope))
    (ho : binaryOk op = true) (hs : scJump op = none) (hf : binMeaning B.num op = some f)
    (h1 : t.Fits (valueAt scope t.path) → ∃ b, f (valueAt scope t.path) rv = .ok (.bool b) ∧
      (b = true ↔ t.Holds (valueAt scope t.path)))
    (h2 : ¬ t.Fits (valueAt scope t.path) → f (valueAt scope t.path) rv ≠ .ok (.bool true)) :
    Faithful B scope (.binary op l r) t := by
  obtain ⟨l1, l2, l3⟩ := hl
  obtain ⟨r1, r2, r3⟩ := hr
  refine ⟨⟨l1, r1⟩, compiles_iff.1 (compiles_binary ho (compiles_iff.2 l2) (compiles_iff.2 r2)), ?_, ?_⟩
  · intro hfit
    obtain ⟨b, hb, hbi⟩ := h1 hfit
    refine ⟨b, ?_, hbi⟩
    rcases l3 with l3 | ⟨l3, _⟩
    · rw [eval_binary_strict _ _ _ _ hs, hf]
      simp only [l3, r3, hb]
    · rw [l3] at hfit; exact absurd hfit (not_fits_null t)
  · intro hfit env
    rw [eval_binary_strict _ _ _ _ hs, hf]
    rcases l3 with l3 | ⟨_, e, l3⟩
    · simp only [l3, r3]
      have := h2 hfit
      cases hx : f (valueAt scope t.path) rv with
      | error e => simp
      | ok v => rw [hx] at this; simp only [ne_eq, Except.ok.injEq, Prod.mk.injEq, not_and]; intro e; exact absurd (congrArg Except.ok e) this
    · simp only [l3]; simp

/-- the same with the constant on the left -/
theorem faithful_right {l r : Node} {op : Oper} {f : Val → Val → Except VErr Val} {lv : Val}
    {t : ArmTest} (hr : OpndMeans B scope r (.path t.path))
    (hl : NoAssign l ∧ Accepts B l ∧ eval B scope [] scope l = .ok (lv, scope))
    (ho : binaryOk op = true) (hs : scJump op = none) (hf : binMeaning B.num op = some f)
    (h1 : t.Fits (valueAt scope t.path) → ∃ b, f lv (valueAt scope t.path) = .ok (.bool b) ∧
      (b = true ↔ t.Holds (valueAt scope t.path)))
    (h2 : ¬ t.Fits (valueAt scope t.path) → f lv (valueAt scope t.path) ≠ .ok (.bool true)) :
    Faithful B scope (.binary op l r) t := by
  obtain ⟨l1, l2, l3⟩ := hr
  obtain ⟨r1, r2, r3⟩ := hl
  refine ⟨⟨r1, l1⟩, compiles_iff.1 (compiles_binary ho (compiles_iff.2 r2) (compiles_iff.2 l2)), ?_, ?_⟩
  · intro hfit
    obtain ⟨b, hb, hbi⟩ := h1 hfit
    refine ⟨b, ?_, hbi⟩
    rcases l3 with l3 | ⟨l3, _⟩
    · rw [eval_binary_strict _ _ _ _ hs, hf]
      simp only [l3, r3, hb]
    · rw [l3] at hfit; exact absurd hfit (not_fits_null t)
  · intro hfit env
    rw [eval_binary_strict _ _ _ _ hs, hf]
    rcases l3 with l3 | ⟨_, e, l3⟩
    · simp only [l3, r3]
      have := h2 hfit
      cases hx : f lv (valueAt scope t.path) with
      | error e => simp
      | ok v => rw [hx] at this; simp only [ne_eq, Except.ok.injEq, Prod.mk.injEq, not_and]; intro e; exact absurd (congrArg Except.ok e) this
    · simp only [r3, l3]; simp

theorem point_has (n x : Rat) : (Cover.point n).Has x ↔ x = n := by
  simp [Cover.point, Cover.Has, Seg.Has, Bnd.Above, Bnd.Below]; grind

theorem faithful_equality {l r : Node} {t : ArmTest} (h : ArmTest.equality l r = t)
    (ht : t ≠ .unrecognized) : Faithful B scope (.binary (.cmp .eq) l r) t := by
  unfold ArmTest.equality at h
  split at h
  · rename_i p hp
    have hl := eval_classify (B := B) (scope := scope) l _ hp
    have hr := eval_classify (B := B) (scope := scope) r _ rfl
    unfold ArmTest.ofLiteral at h
    split at h
    all_goals first
      | (subst h; exact absurd rfl ht)
      | (rename_i heq
         rw [heq] at hr
         subst h
         refine faithful_left hl hr rfl rfl rfl ?_ ?_
         · rintro ⟨s, hs⟩
           rw [hs]
           exact ⟨_, rfl, by simp [ArmTest.Holds, point_has]⟩
         · intro hu
           cases hv : valueAt scope _ <;> simp_all [ArmTest.Fits, opEqual])
  · rename_i p hp _
    have hr := eval_classify (B := B) (scope := scope) r _ hp
    have hl := eval_classify (B := B) (scope := scope) l _ rfl
    unfold ArmTest.ofLiteral at h
    split at h
    all_goals first
      | (subst h; exact absurd rfl ht)
      | (rename_i heq
         rw [heq] at hl
         subst h
         refine faithful_right hr hl rfl rfl rfl ?_ ?_
         · rintro ⟨s, hs⟩
           rw [hs]
           exact ⟨_, rfl, by simp [ArmTest.Holds, point_has]; exact ⟨Eq.symm, Eq.symm⟩⟩
         · intro hu
           cases hv : valueAt scope _ <;> simp_all [ArmTest.Fits, opEqual])
  · subst h; exact absurd rfl ht

theorem faithful_numeric {l r : Node} {op : COp} {t : ArmTest} (h : ArmTest.numeric l op r = t)
    (ht : t ≠ .unrecognized) : Faithful B scope (.binary (.cmp op) l r) t := by
  unfold ArmTest.numeric at h
  split at h
  · rename_i p q hp hq
    have hl := eval_classify (B := B) (scope := scope) l _ hp
    have hr := eval_classify (B := B) (scope := scope) r _ hq
    unfold ArmTest.ofSingle Cover.single at h
    cases op <;> dsimp only at h <;> first
      | (subst h; exact absurd rfl ht)
      | (subst h
         refine faithful_left hl hr rfl rfl rfl ?_ ?_
         · rintro ⟨s, hs⟩
           rw [hs]
           exact ⟨_, rfl, by simp [ArmTest.Holds, Cover.Has, Seg.Has, Bnd.Above, Bnd.Below]⟩
         · intro hu
           cases hv : valueAt scope _ <;> simp_all [ArmTest.Fits, opCompare])
  · rename_i q p hq hp
    have hl := eval_classify (B := B) (scope := scope) l _ hq
    have hr := eval_classify (B := B) (scope := scope) r _ hp
    unfold ArmTest.ofSingle Cover.single ArmTest.flip at h
    cases op <;> dsimp only at h <;> first
      | (subst h; exact absurd rfl ht)
      | (subst h
         refine faithful_right hr hl rfl rfl rfl ?_ ?_
         · rintro ⟨s, hs⟩
           rw [hs]
           exact ⟨_, rfl, by simp [ArmTest.Holds, Cover.Has, Seg.Has, Bnd.Above, Bnd.Below]⟩
         · intro hu
           cases hv : valueAt scope _ <;> simp_all [ArmTest.Fits, opCompare])
  · subst h; exact absurd rfl ht

theorem strItems_eval {items : List Node} {vs : List String} (h : strItems items = some vs) :
    NoAssignL items ∧ AcceptsL B items ∧
      evalList B scope [] scope items = .ok (vs.map Val.str, scope) := by
  induction items generalizing vs with
  | nil => cases h; exact ⟨trivial, trivial, rfl⟩
  | cons n r ih =>
    unfold strItems at h
    split at h
    · rename_i s hs
      cases hr : strItems r with
      | none => rw [hr] at h; cases h
      | some ws =>
        rw [hr] at h; cases h
        obtain ⟨h1, h2, h3⟩ := eval_unwrap (B := B) (scope := scope) n
        rw [hs] at h1 h2 h3
        have := ih hr
        refine ⟨⟨h1.2 trivial, this.1⟩, ⟨h2.2 trivial, this.2.1⟩, ?_⟩
        simp only [evalList, h3, eval, this.2.2, List.map_cons]
    · cases h

theorem boolItems_eval {items : List Node} {vs : List Bool} (h : boolItems items = some vs) :
    NoAssignL items ∧ AcceptsL B items ∧
      evalList B scope [] scope items = .ok (vs.map Val.bool, scope) := by
  induction items generalizing vs with
  | nil => cases h; exact ⟨trivial, trivial, rfl⟩
  | cons n r ih =>
    unfold boolItems at h
    split at h
    · rename_i s hs
      cases hr : boolItems r with
      | none => rw [hr] at h; cases h
      | some ws =>
        rw [hr] at h; cases h
        obtain ⟨h1, h2, h3⟩ := eval_unwrap (B := B) (scope := scope) n
        rw [hs] at h1 h2 h3
        have := ih hr
        refine ⟨⟨h1.2 trivial, this.1⟩, ⟨h2.2 trivial, this.2.1⟩, ?_⟩
        simp only [evalList, h3, eval, this.2.2, List.map_cons]
    · cases h

theorem numItems_eval {items : List Node} {vs : List Rat} (h : numItems items = some vs) :
    NoAssignL items ∧ AcceptsL B items ∧
      evalList B scope [] scope items = .ok (vs.map Val.num, scope) := by
  induction items generalizing vs with
  | nil => cases h; exact ⟨trivial, trivial, rfl⟩
  | cons n r ih =>
    unfold numItems at h
    split at h
    · rename_i s hs
      cases hr : numItems r with
      | none => rw [hr] at h; cases h
      | some ws =>
        rw [hr] at h; cases h
        obtain ⟨h1, h2, h3⟩ := eval_classify (B := B) (scope := scope) n _ hs
        have := ih hr
        refine ⟨⟨h1, this.1⟩, ⟨h2, this.2.1⟩, ?_⟩
        simp only [evalList, h3, this.2.2, List.map_cons]
    · cases h

theorem foldPoints_has (ns : List Rat) (c : Cover) (x : Rat) :
    Cover.Has (ns.foldl (fun c n => Cover.mergedWith c (Cover.point n)) c) x ↔ c.Has x ∨ x ∈ ns := by
  induction ns generalizing c with
  | nil => simp
  | cons n ns ih =>
    rw [List.foldl_cons, ih, (C24_cover_algebra _ _ x).1, point_has]
    simp [or_assoc]

/-- a membership test whose right side is (possibly parenthesised) node `m` -/
theorem faithful_in_unwrap {l r : Node} {t : ArmTest} {rv : Val}
    (hl : OpndMeans B scope l (.path t.path))
    (hr : NoAssign (Opnd.unwrap r) ∧ Accepts B (Opnd.unwrap r) ∧
      eval B scope [] scope (Opnd.unwrap r) = .ok (rv, scope))
    (h1 : t.Fits (valueAt scope t.path) → ∃ b, opIn (valueAt scope t.path) rv = .ok (.bool b) ∧
      (b = true ↔ t.Holds (valueAt scope t.path)))
    (h2 : ¬ t.Fits (valueAt scope t.path) → opIn (valueAt scope t.path) rv ≠ .ok (.bool true)) :
    Faithful B scope (.binary (.cmp .in_) l r) t := by
  obtain ⟨g1, g2, g3⟩ := eval_unwrap (B := B) (scope := scope) r
  exact faithful_left hl ⟨g1.2 hr.1, g2.2 hr.2.1, by rw [g3]; exact hr.2.2⟩ rfl rfl rfl h1 h2

theorem faithful_inItems {l r : Node} {items : List Node} {p : List String} {t : ArmTest}
    (hl : OpndMeans B scope l (.path p)) (hr : Opnd.unwrap r = .arr items)
    (h : ArmTest.inItems p items = t) (ht : t ≠ .unrecognized) :
    Faithful B scope (.binary (.cmp .in_) l r) t := by
  unfold ArmTest.inItems at h
  split at h
  · subst h; exact absurd rfl ht
  split at h
  · rename_i vs hvs
    subst h
    obtain ⟨e1, e2, e3⟩ := strItems_eval (B := B) (scope := scope) hvs
    refine faithful_in_unwrap hl (rv := .arr (vs.map .str)) ?_ ?_ ?_
    · rw [hr]; exact ⟨e1, e2, by simp only [eval, e3]⟩
    · rintro ⟨s, hs⟩
      rw [hs]
      exact ⟨_, rfl, by simp [ArmTest.Holds, simpleEq]⟩
    · intro hu
      cases hv : valueAt scope _ with
      | dyn d => cases d <;> simp [opIn, inErr, simpleEq]
      | _ => simp_all [ArmTest.Fits, opIn, inErr, simpleEq]
  · split at h
    · rename_i vs hvs
      subst h
      obtain ⟨e1, e2, e3⟩ := boolItems_eval (B := B) (scope := scope) hvs
      refine faithful_in_unwrap hl (rv := .arr (vs.map .bool)) ?_ ?_ ?_
      · rw [hr]; exact ⟨e1, e2, by simp only [eval, e3]⟩
      · rintro ⟨s, hs⟩
        rw [hs]
        exact ⟨_, rfl, by simp [ArmTest.Holds, simpleEq]⟩
      · intro hu
        cases hv : valueAt scope _ with
        | dyn d => cases d <;> simp [opIn, inErr, simpleEq]
        | _ => simp_all [ArmTest.Fits, opIn, inErr, simpleEq]
    · split at h
      · subst h; exact absurd rfl ht
      · rename_i q qs hvs
        subst h
        obtain ⟨e1, e2, e3⟩ := numItems_eval (B := B) (scope := scope) hvs
        refine faithful_in_unwrap hl (rv := .arr ((q :: qs).map .num)) ?_ ?_ ?_
        · rw [hr]; exact ⟨e1, e2, by simp only [eval, e3]⟩
        · rintro ⟨s, hs⟩
          rw [hs]
          refine ⟨_, rfl, ?_⟩
          simp [ArmTest.Holds, simpleEq, foldPoints_has, point_has]
        · intro hu
          cases hv : valueAt scope _ with
          | dyn d => cases d <;> simp [opIn, inErr, simpleEq]
          | _ => simp_all [ArmTest.Fits, opIn, inErr, simpleEq]
      · subst h; exact absurd rfl ht

theorem faithful_inSet {l r : Node} {t : ArmTest} (h : ArmTest.inSet l r = t)
    (ht : t ≠ .unrecognized) : Faithful B scope (.binary (.cmp .in_) l r) t := by
  unfold ArmTest.inSet at h
  split at h
  · rename_i p hp
    have hl := eval_classify (B := B) (scope := scope) l _ hp
    split at h
    · rename_i lo hi lb rb hr
      split at h
      · rename_i a b ha hb
        obtain ⟨a1, a2, a3⟩ := eval_classify (B := B) (scope := scope) lo _ ha
        obtain ⟨b1, b2, b3⟩ := eval_classify (B := B) (scope := scope) hi _ hb
        split at h
        · rename_i c hc
          subst h
          refine faithful_in_unwrap hl (rv := .dyn (.interval lb rb (.num a) (.num b))) ?_ ?_ ?_
          · rw [hr]; exact ⟨⟨a1, b1⟩, ⟨a2, b2⟩, by simp only [eval, a3, b3, opInterval]⟩
          · rintro ⟨q, hq⟩
            rw [hq]
            cases lb <;> cases rb <;> simp [Cover.interval] at hc <;> subst hc <;>
              refine ⟨_, rfl, ?_⟩ <;>
              simp [IData.le_num, IData.lt_num, ArmTest.Holds, Cover.Has, Seg.Has, Bnd.Above, Bnd.Below]
          · intro hu
            cases hv : valueAt scope _ <;> simp_all [ArmTest.Fits, opIn, inErr]
            rename_i d
            cases d with
            | interval _ _ _ _ => simp
            | date d =>
              cases lb <;> cases rb <;> simp [Cover.interval] at hc <;>
                simp [opIncludes, includes, IData.le, IData.lt]
        · subst h; exact absurd rfl ht
      · subst h; exact absurd rfl ht
    · rename_i items hr
      exact faithful_inItems hl hr h ht
    · subst h; exact absurd rfl ht
  · subst h; exact absurd rfl ht

theorem faithful_and {l r : Node} {p : List String} {c d : Cover} {e : Cover}
    (hl : Faithful B scope l (.number p c)) (hr : Faithful B scope r (.number p d))
    (h : Cover.intersect c d = some e) :
    Faithful B scope (.binary (.logic .and) l r) (.number p e) := by
  refine ⟨⟨hl.pure, hr.pure⟩, compiles_iff.1 (compiles_binary rfl (compiles_iff.2 hl.acc) (compiles_iff.2 hr.acc)), ?_, ?_⟩
  · rintro hfit
    obtain ⟨a, ha, ha'⟩ := hl.fits hfit
    obtain ⟨b, hb, hb'⟩ := hr.fits hfit
    refine ⟨a && b, ?_, ?_⟩
    · simp only [eval, ha]
      cases a
      · rfl
      · simp only [hb, Bool.true_and]
    · rw [Bool.and_eq_true, ha', hb']
      obtain ⟨q, hq⟩ := hfit
      have := fun x => (C24_cover_algebra c d x).2.1 e h
      simp only [ArmTest.path] at hq
      simp only [ArmTest.Holds, ArmTest.path, hq, Val.num.injEq, exists_eq_left', this]
  · intro hfit env
    have h1 := hl.unfit hfit
    simp only [eval]
    cases hx : eval B scope [] scope l with
    | error e => simp
    | ok x =>
      obtain ⟨v, env'⟩ := x
      have he : env' = scope := eval_keeps l hl.pure _ _ _ hx
      subst he
      cases v <;> try (simp; done)
      rename_i b
      cases b
      · simp
      · exact absurd hx (h1 _)

theorem faithful_or {l r : Node} {tl tr t : ArmTest}
    (hl : Faithful B scope l tl) (hr : Faithful B scope r tr)
    (hp : tl.path = t.path ∧ tr.path = t.path)
    (hk : ∀ v, (t.Fits v ↔ tl.Fits v) ∧ (t.Fits v ↔ tr.Fits v))
    (hh : ∀ v, t.Holds v ↔ tl.Holds v ∨ tr.Holds v) :
    Faithful B scope (.binary (.logic .or) l r) t := by
  refine ⟨⟨hl.pure, hr.pure⟩, compiles_iff.1 (compiles_binary rfl (compiles_iff.2 hl.acc) (compiles_iff.2 hr.acc)), ?_, ?_⟩
  · intro hfit
    obtain ⟨a, ha, ha'⟩ := hl.fits (by rw [hp.1]; exact (hk _).1.1 hfit)
    obtain ⟨b, hb, hb'⟩ := hr.fits (by rw [hp.2]; exact (hk _).2.1 hfit)
    rw [hp.1] at ha'
    rw [hp.2] at hb'
    refine ⟨a || b, ?_, ?_⟩
    · simp only [eval, ha]
      cases a
      · simp only [hb, Bool.false_or]
      · rfl
    · rw [Bool.or_eq_true, ha', hb', hh]
  · intro hfit env
    have h1 := hl.unfit (by rw [hp.1]; exact fun h => hfit ((hk _).1.2 h))
    have h2 := hr.unfit (by rw [hp.2]; exact fun h => hfit ((hk _).2.2 h))
    simp only [eval]
    cases hx : eval B scope [] scope l with
    | error e => simp
    | ok x =>
      obtain ⟨v, env'⟩ := x
      have he : env' = scope := eval_keeps l hl.pure _ _ _ hx
      subst he
      cases v <;> try (simp; done)
      rename_i b
      cases b
      · exact h2 env
      · exact absurd hx (h1 _)

theorem faithful (n : Node) (t : ArmTest) (h : ArmTest.fromNode n = t) (ht : t ≠ .unrecognized) :
    Faithful B scope n t := by
  induction n using ArmTest.fromNode.induct generalizing t with
  | case1 n ih =>
    have := ih t (by simpa [ArmTest.fromNode] using h) ht
    exact ⟨this.pure, this.acc, fun hf => by simpa only [eval] using this.fits hf,
      fun hf => by simpa only [eval] using this.unfit hf⟩
  | case2 l r ihl ihr =>
    simp only [ArmTest.fromNode] at h
    unfold ArmTest.andT at h
    split at h
    · rename_i pa ca pb cb ha hb
      split at h
      · rename_i e; subst e
        split at h
        · rename_i c hc
          subst h
          exact faithful_and (ihl _ ha (by simp)) (ihr _ hb (by simp)) hc
        · subst h; exact absurd rfl ht
      · subst h; exact absurd rfl ht
    · subst h; exact absurd rfl ht
  | case3 l r ihl ihr =>
    simp only [ArmTest.fromNode] at h
    unfold ArmTest.orT at h
    split at h
    · rename_i pa ca pb cb ha hb
      split at h
      · rename_i e; subst e
        subst h
        refine faithful_or (ihl _ ha (by simp)) (ihr _ hb (by simp)) ⟨rfl, rfl⟩
          (fun v => by simp [ArmTest.Fits]) fun v => ?_
        simp only [ArmTest.Holds, List.mem_append]
        constructor
        · rintro ⟨s, h | h, rfl⟩
          · exact .inl ⟨s, h, rfl⟩
          · exact .inr ⟨s, h, rfl⟩
        · rintro (⟨s, h, rfl⟩ | ⟨s, h, rfl⟩)
          · exact ⟨s, .inl h, rfl⟩
          · exact ⟨s, .inr h, rfl⟩
      · subst h; exact absurd rfl ht
    · rename_i pa ca pb cb ha hb
      split at h
      · rename_i e; subst e
        subst h
        refine faithful_or (ihl _ ha (by simp)) (ihr _ hb (by simp)) ⟨rfl, rfl⟩
          (fun v => by simp [ArmTest.Fits]) fun v => ?_
        simp only [ArmTest.Holds, List.mem_append]
        constructor
        · rintro ⟨s, h | h, rfl⟩
          · exact .inl ⟨s, h, rfl⟩
          · exact .inr ⟨s, h, rfl⟩
        · rintro (⟨s, h, rfl⟩ | ⟨s, h, rfl⟩)
          · exact ⟨s, .inl h, rfl⟩
          · exact ⟨s, .inr h, rfl⟩
      · subst h; exact absurd rfl ht
    · rename_i pa ca pb cb ha hb
      split at h
      · rename_i e; subst e
        subst h
        refine faithful_or (ihl _ ha (by simp)) (ihr _ hb (by simp)) ⟨rfl, rfl⟩
          (fun v => by simp [ArmTest.Fits]) fun v => ?_
        simp only [ArmTest.Holds, (C24_cover_algebra _ _ _).1]
        constructor
        · rintro ⟨s, rfl, h | h⟩
          · exact .inl ⟨s, rfl, h⟩
          · exact .inr ⟨s, rfl, h⟩
        · rintro (⟨s, rfl, h⟩ | ⟨s, rfl, h⟩)
          · exact ⟨s, rfl, .inl h⟩
          · exact ⟨s, rfl, .inr h⟩
      · subst h; exact absurd rfl ht
    · subst h; exact absurd rfl ht
  | case4 l r op =>
    simp only [ArmTest.fromNode] at h
    cases op <;> simp only [ArmTest.leaf] at h
    · exact faithful_equality h ht
    · subst h; exact absurd rfl ht
    · exact faithful_numeric h ht
    · exact faithful_numeric h ht
    · exact faithful_numeric h ht
    · exact faithful_numeric h ht
    · exact faithful_inSet h ht
    · subst h; exact absurd rfl ht
  | case5 op l r h1 h2 h3 =>
    have : t = .unrecognized := by
      rw [← h]
      unfold ArmTest.fromNode
      split <;> simp_all
    exact absurd this ht
  | case6 n h1 h2 =>
    have : t = .unrecognized := by
      rw [← h]
      unfold ArmTest.fromNode
      split <;> simp_all
    exact absurd this ht

theorem fromNode_ne_default (n : Node) : ArmTest.fromNode n ≠ .dflt := by
  induction n using ArmTest.fromNode.induct with
  | case1 n ih => simpa [ArmTest.fromNode] using ih
  | case2 l r ihl ihr =>
    simp only [ArmTest.fromNode]; unfold ArmTest.andT
    repeat' split
    all_goals simp
  | case3 l r ihl ihr =>
    simp only [ArmTest.fromNode]; unfold ArmTest.orT
    repeat' split
    all_goals simp
  | case4 l r op =>
    simp only [ArmTest.fromNode, ArmTest.leaf, ArmTest.equality, ArmTest.ofLiteral, ArmTest.inSet,
      ArmTest.inItems, ArmTest.numeric, ArmTest.ofSingle]
    repeat' split
    all_goals simp
  | case5 op l r h1 h2 h3 => unfold ArmTest.fromNode; split <;> simp_all
  | case6 n h1 h2 => unfold ArmTest.fromNode; split <;> simp_all
end

/-- A test that the analysis recognises, as an enumeration, as booleans or as number ranges on a
property, compiles, and running it in any scope gives true exactly when the value of that
property belongs to the recognised set. -/
theorem C25_recognised_true_iff (B : Builtins) (scope : Scope) (n : Node)
    (h : ArmTest.fromNode n ≠ .unrecognized) :
    Compiles B n ∧ (Yields B scope n (.ok (.bool true)) ↔
      (ArmTest.fromNode n).Holds (valueAt scope (ArmTest.fromNode n).path)) := by
  have hf := faithful (B := B) (scope := scope) n _ rfl h
  refine ⟨compiles_iff.2 hf.acc, ?_⟩
  rw [yields_iff]
  by_cases hfit : (ArmTest.fromNode n).Fits (valueAt scope (ArmTest.fromNode n).path)
  · obtain ⟨b, hb, hbi⟩ := hf.fits hfit
    rw [← hbi]
    simp only [evaluate, hb, Except.map, compiles_iff.2 hf.acc, true_and]
    cases b <;> simp
  · constructor
    · rintro ⟨_, h⟩
      unfold evaluate at h
      cases hx : eval B scope [] scope n with
      | error e => rw [hx] at h; cases h
      | ok x =>
        obtain ⟨v, env⟩ := x
        rw [hx] at h
        have : v = .bool true := by simpa [Except.map, eq_comm] using h
        subst this
        exact absurd hx (hf.unfit hfit env)
    · intro h
      refine absurd ?_ hfit
      revert h
      generalize valueAt scope (ArmTest.fromNode n).path = v
      cases ArmTest.fromNode n <;> simp only [ArmTest.Holds, ArmTest.Fits]
      · rintro ⟨s, _, h⟩; exact ⟨s, h⟩
      · rintro ⟨s, _, h⟩; exact ⟨s, h⟩
      · rintro ⟨s, h, _⟩; exact ⟨s, h⟩
      · exact id
      · exact id

/-- When moreover the property holds a value of the recognised kind (a string, a boolean, a
number), the test never fails: it gives true or false. -/
theorem C25_recognised_decides (B : Builtins) (scope : Scope) (n : Node)
    (h : ArmTest.fromNode n ≠ .unrecognized)
    (hfit : (ArmTest.fromNode n).Fits (valueAt scope (ArmTest.fromNode n).path)) :
    ∃ b, Yields B scope n (.ok (.bool b)) ∧
      (b = true ↔ (ArmTest.fromNode n).Holds (valueAt scope (ArmTest.fromNode n).path)) := by
  have hf := faithful (B := B) (scope := scope) n _ rfl h
  obtain ⟨b, hb, hbi⟩ := hf.fits hfit
  exact ⟨b, yields_iff.2 ⟨compiles_iff.2 hf.acc, by simp [evaluate, hb, Except.map]⟩, hbi⟩

/-- An expression is never reported as the empty (default) test. -/
theorem C25_never_default (n : Node) : ArmTest.fromNode n ≠ .dflt := fromNode_ne_default n

/-! ### Which conditions are recognised -/

/-- in parentheses, any number of them -/
inductive InParens : Node → Node → Prop
  | refl {n} : InParens n n
  | paren {n m} : InParens n m → InParens (.paren n) m

/-- a path: a name and properties -/
inductive PlainPath : Node → List String → Prop
  | name {s} : PlainPath (.ident s) [s]
  | prop {n p k} : PlainPath n p → PlainPath (.member n (.str k)) (p ++ [k])

def PathOf (n : Node) (p : List String) : Prop := ∃ m, InParens n m ∧ PlainPath m p

/-- a number, possibly with a sign before it -/
def NumOf (n : Node) (q : Rat) : Prop :=
  InParens n (.num q) ∨ ∃ m r, InParens n (.unary (.arith .sub) m) ∧ InParens m (.num r) ∧ q = -r

/-- what is compared with: texts, truth values, numbers; of numbers, whether it is one range -/
inductive CondSort where
  | words
  | truth
  | numbers (one : Bool)

/-- a literal and its sort -/
inductive CondLit : Node → CondSort → Prop
  | str {n s} : InParens n (.str s) → CondLit n .words
  | bool {n b} : InParens n (.bool b) → CondLit n .truth
  | num {n q} : NumOf n q → CondLit n (.numbers true)

/-- the conditions on one path -/
inductive CondTest : Node → List String → CondSort → Prop
  | paren {n p k} : CondTest n p k → CondTest (.paren n) p k
  | eq {l r p k} : PathOf l p → CondLit r k → CondTest (.binary (.cmp .eq) l r) p k
  | eqR {l r p k} : CondLit l k → PathOf r p → CondTest (.binary (.cmp .eq) l r) p k
  | range {l r p lo hi lb rb a b} : PathOf l p → InParens r (.interval lo hi lb rb) → NumOf lo a → NumOf hi b →
      lb = .lsq ∨ lb = .lparen → rb = .rsq ∨ rb = .rparen → CondTest (.binary (.cmp .in_) l r) p (.numbers true)
  | words {l r p xs} : PathOf l p → InParens r (.arr xs) → xs ≠ [] → (∀ x ∈ xs, ∃ s, InParens x (.str s)) → CondTest (.binary (.cmp .in_) l r) p .words
  | truths {l r p xs} : PathOf l p → InParens r (.arr xs) → xs ≠ [] → (∀ x ∈ xs, ∃ s, InParens x (.bool s)) → CondTest (.binary (.cmp .in_) l r) p .truth
  | nums {l r p xs} : PathOf l p → InParens r (.arr xs) → xs ≠ [] → (∀ x ∈ xs, ∃ q, NumOf x q) →
      CondTest (.binary (.cmp .in_) l r) p (.numbers (decide (xs.length = 1)))
  | less {l r p q op} : op = .lt ∨ op = .le ∨ op = .gt ∨ op = .ge → PathOf l p → NumOf r q → CondTest (.binary (.cmp op) l r) p (.numbers true)
  | lessR {l r p q op} : op = .lt ∨ op = .le ∨ op = .gt ∨ op = .ge → NumOf l q → PathOf r p → CondTest (.binary (.cmp op) l r) p (.numbers true)
  | and {l r p} : CondTest l p (.numbers true) → CondTest r p (.numbers true) → CondTest (.binary (.logic .and) l r) p (.numbers true)
  | orWords {l r p} : CondTest l p .words → CondTest r p .words → CondTest (.binary (.logic .or) l r) p .words
  | orTruth {l r p} : CondTest l p .truth → CondTest r p .truth → CondTest (.binary (.logic .or) l r) p .truth
  | orNums {l r p a b} : CondTest l p (.numbers a) → CondTest r p (.numbers b) → CondTest (.binary (.logic .or) l r) p (.numbers false)

theorem around_unwrap (n : Node) : InParens n (Opnd.unwrap n) := by
  fun_induction Opnd.unwrap n with
  | case1 n ih => exact .paren ih
  | case2 n h => exact .refl

theorem unwrap_ne (n x : Node) : Opnd.unwrap n ≠ .paren x := by
  fun_induction Opnd.unwrap n with
  | case1 n ih => exact ih
  | case2 n h => exact h x

theorem around_iff {n m : Node} (h : ∀ x, m ≠ .paren x) : InParens n m ↔ Opnd.unwrap n = m := by
  constructor
  · intro h'
    induction h' with
    | refl =>
      rename_i n
      cases n <;> first | rfl | exact absurd rfl (h _)
    | paren _ ih => exact ih h
  · rintro rfl
    exact around_unwrap n

theorem isPath_iff (n : Node) : ∀ p, PlainPath n p ↔ Opnd.extractPath n = some p := by
  fun_induction Opnd.extractPath n with
  | case1 s => exact fun p => ⟨fun h => by cases h; rfl, fun h => by cases h; exact .name⟩
  | case2 n x hn ih =>
    refine fun p => ⟨fun h => ?_, fun h => by cases h⟩
    cases h with
    | prop h => have := (ih _).1 h; rw [hn] at this; cases this
  | case3 n pre hn k ih =>
    refine fun p => ⟨fun h => ?_, fun h => ?_⟩
    · cases h with
      | prop h => have := (ih _).1 h; rw [hn] at this; cases this; rfl
    · cases h
      exact .prop ((ih _).2 hn)
  | case4 n x pre hn hx ih =>
    refine fun p => ⟨fun h => ?_, fun h => by cases h⟩
    cases h with
    | prop h => exact absurd rfl (hx _)
  | case5 n h1 h2 =>
    refine fun p => ⟨fun h => ?_, fun h => by cases h⟩
    cases h with
    | name => exact absurd rfl (h1 _)
    | prop h => exact absurd rfl (h2 _ _)

theorem pathOf_iff (n : Node) (p : List String) : PathOf n p ↔ Opnd.extractPath (Opnd.unwrap n) = some p := by
  rw [← isPath_iff]
  constructor
  · rintro ⟨m, h, hp⟩
    have := (around_iff (n := n) (m := m) (by rintro x rfl; cases hp)).1 h
    rw [this]; exact hp
  · exact fun h => ⟨_, around_unwrap n, h⟩

theorem numOf_iff (n : Node) (q : Rat) : NumOf n q ↔ Opnd.unwrap n = .num q ∨
    ∃ m r, Opnd.unwrap n = .unary (.arith .sub) m ∧ Opnd.unwrap m = .num r ∧ q = -r := by
  unfold NumOf
  rw [around_iff (by simp)]
  simp only [around_iff (n := n) (m := .unary (.arith .sub) _) (by simp), around_iff (m := .num _) (by simp)]

theorem classify_cases (n : Node) : (∀ p, Opnd.classify n = .path p ↔ PathOf n p) ∧ (∀ q, Opnd.classify n = .num q ↔ NumOf n q) ∧
    (∀ s, Opnd.classify n = .str s ↔ InParens n (.str s)) ∧ ∀ b, Opnd.classify n = .bool b ↔ InParens n (.bool b) := by
  have h1 := fun s => around_iff (n := n) (m := .str s) (by simp)
  have h2 := fun s => around_iff (n := n) (m := .bool s) (by simp)
  simp only [h1, h2, pathOf_iff, numOf_iff]
  have hne := unwrap_ne n
  unfold Opnd.classify
  generalize Opnd.unwrap n = m at hne
  cases m with
  | unary o x =>
    cases o with
    | arith a =>
      cases a with
      | sub =>
        simp only
        cases hx : Opnd.unwrap x <;> simp [Opnd.extractPath, hx]
        exact fun q => ⟨fun h => h.symm, fun h => h.symm⟩
      | _ => simp [Opnd.extractPath]
    | _ => simp [Opnd.extractPath]
  | paren x => exact absurd rfl (hne x)
  | ident s => simp [Opnd.extractPath]
  | member a b =>
    simp only
    cases h : Opnd.extractPath (.member a b) <;> simp
  | _ => simp [Opnd.extractPath]

/-- the path and the sort of a test -/
def condSort : ArmTest → Option (List String × CondSort)
  | .enum p _ => some (p, .words)
  | .bool p _ => some (p, .truth)
  | .number p c => some (p, .numbers (decide (c.length = 1)))
  | _ => none

theorem lit_iff (n : Node) (k : CondSort) : CondLit n k ↔ ((∃ s, Opnd.classify n = .str s) ∧ k = .words) ∨ ((∃ b, Opnd.classify n = .bool b) ∧ k = .truth) ∨
    ((∃ q, Opnd.classify n = .num q) ∧ k = .numbers true) := by
  obtain ⟨_, h2, h3, h4⟩ := classify_cases n
  simp only [h2, h3, h4]
  constructor
  · rintro (h | h | h)
    · exact .inl ⟨⟨_, h⟩, rfl⟩
    · exact .inr (.inl ⟨⟨_, h⟩, rfl⟩)
    · exact .inr (.inr ⟨⟨_, h⟩, rfl⟩)
  · rintro (⟨⟨s, h⟩, rfl⟩ | ⟨⟨s, h⟩, rfl⟩ | ⟨⟨s, h⟩, rfl⟩)
    · exact .str h
    · exact .bool h
    · exact .num h

theorem equality_sort (l r : Node) (p : List String) (k : CondSort) :
    condSort (ArmTest.equality l r) = some (p, k) ↔ (PathOf l p ∧ CondLit r k) ∨ (CondLit l k ∧ PathOf r p) := by
  simp only [lit_iff, ← (classify_cases l).1, ← (classify_cases r).1]
  unfold ArmTest.equality
  cases Opnd.classify l <;> cases Opnd.classify r <;> simp [ArmTest.ofLiteral, condSort, Cover.point, and_comm, eq_comm]

theorem numeric_sort (l r : Node) (op : COp) (p : List String) (k : CondSort) (ho : op = .lt ∨ op = .le ∨ op = .gt ∨ op = .ge) :
    condSort (ArmTest.numeric l op r) = some (p, k) ↔ ((∃ q, PathOf l p ∧ NumOf r q) ∨ ∃ q, NumOf l q ∧ PathOf r p) ∧ k = .numbers true := by
  simp only [← (classify_cases l).1, ← (classify_cases r).1, ← (classify_cases l).2.1, ← (classify_cases r).2.1]
  unfold ArmTest.numeric
  rcases ho with rfl | rfl | rfl | rfl <;> cases Opnd.classify l <;> cases Opnd.classify r <;>
    simp [ArmTest.ofSingle, Cover.single, ArmTest.flip, condSort, eq_comm]

theorem strItems_some (xs : List Node) : (∃ vs, strItems xs = some vs) ↔ ∀ x ∈ xs, ∃ s, InParens x (.str s) := by
  have h1 := fun (n : Node) s => around_iff (n := n) (m := .str s) (by simp)
  simp only [h1]
  induction xs with
  | nil => simp [strItems]
  | cons x xs ih =>
    have key : (∃ vs, strItems (x :: xs) = some vs) ↔ (∃ s, Opnd.unwrap x = .str s) ∧ ∃ vs, strItems xs = some vs := by
      rw [strItems]
      cases Opnd.unwrap x <;> simp
      cases strItems xs <;> simp
    rw [key, List.forall_mem_cons]
    exact and_congr Iff.rfl ih

theorem boolItems_some (xs : List Node) : (∃ vs, boolItems xs = some vs) ↔ ∀ x ∈ xs, ∃ s, InParens x (.bool s) := by
  have h1 := fun (n : Node) s => around_iff (n := n) (m := .bool s) (by simp)
  simp only [h1]
  induction xs with
  | nil => simp [boolItems]
  | cons x xs ih =>
    have key : (∃ vs, boolItems (x :: xs) = some vs) ↔ (∃ s, Opnd.unwrap x = .bool s) ∧ ∃ vs, boolItems xs = some vs := by
      rw [boolItems]
      cases Opnd.unwrap x <;> simp
      cases boolItems xs <;> simp
    rw [key, List.forall_mem_cons]
    exact and_congr Iff.rfl ih

theorem numItems_some (xs : List Node) : (∃ vs, numItems xs = some vs) ↔ ∀ x ∈ xs, ∃ q, NumOf x q := by
  simp only [← fun n => (classify_cases n).2.1]
  induction xs with
  | nil => simp [numItems]
  | cons x xs ih =>
    have key : (∃ vs, numItems (x :: xs) = some vs) ↔ (∃ s, Opnd.classify x = .num s) ∧ ∃ vs, numItems xs = some vs := by
      rw [numItems]
      cases Opnd.classify x <;> simp
      cases numItems xs <;> simp
    rw [key, List.forall_mem_cons]
    exact and_congr Iff.rfl ih

theorem numItems_length : ∀ (xs : List Node) vs, numItems xs = some vs → vs.length = xs.length
  | [], vs, h => by cases h; rfl
  | x :: xs, vs, h => by
    unfold numItems at h
    split at h
    · obtain ⟨ws, hw, rfl⟩ := Option.map_eq_some_iff.1 h
      simp [numItems_length xs ws hw]
    · cases h

theorem foldl_points (ns : List Rat) : ∀ c : Cover, (ns.foldl (fun c n => Cover.mergedWith c (Cover.point n)) c).length = c.length + ns.length := by
  induction ns with
  | nil => intro c; rfl
  | cons n ns ih => intro c; rw [List.foldl_cons, ih]; simp [Cover.mergedWith, Cover.point]; omega

theorem inItems_sort (path : List String) (xs : List Node) (p : List String) (k : CondSort) :
    condSort (ArmTest.inItems path xs) = some (p, k) ↔ path = p ∧ xs ≠ [] ∧
      (((∀ x ∈ xs, ∃ s, InParens x (.str s)) ∧ k = .words) ∨ ((∀ x ∈ xs, ∃ s, InParens x (.bool s)) ∧ k = .truth) ∨
        ((∀ x ∈ xs, ∃ q, NumOf x q) ∧ k = .numbers (decide (xs.length = 1)))) := by
  unfold ArmTest.inItems
  cases xs with
  | nil => simp [condSort]
  | cons x xs =>
    have s1 := strItems_some (x :: xs)
    have s2 := boolItems_some (x :: xs)
    have s3 := numItems_some (x :: xs)
    have excl1 : (∀ y ∈ x :: xs, ∃ s, InParens y (.str s)) → ¬ (∀ y ∈ x :: xs, ∃ s, InParens y (.bool s)) ∧ ¬ (∀ y ∈ x :: xs, ∃ q, NumOf y q) := by
      intro h
      obtain ⟨s, hs⟩ := h x (by simp)
      have hs := (around_iff (by simp)).1 hs
      refine ⟨fun h' => ?_, fun h' => ?_⟩
      · obtain ⟨b, hb⟩ := h' x (by simp)
        have := (around_iff (by simp)).1 hb
        rw [hs] at this; cases this
      · obtain ⟨q, hq⟩ := h' x (by simp)
        rw [numOf_iff, hs] at hq
        simp at hq
    have excl2 : (∀ y ∈ x :: xs, ∃ s, InParens y (.bool s)) → ¬ (∀ y ∈ x :: xs, ∃ q, NumOf y q) := by
      intro h h'
      obtain ⟨s, hs⟩ := h x (by simp)
      have hs := (around_iff (by simp)).1 hs
      obtain ⟨q, hq⟩ := h' x (by simp)
      rw [numOf_iff, hs] at hq
      simp at hq
    rw [if_neg (by simp), ← s1, ← s2, ← s3] 
    rw [← s1, ← s2, ← s3] at excl1
    rw [← s2, ← s3] at excl2
    cases e1 : strItems (x :: xs) with
    | some vs =>
      have := excl1 ⟨vs, e1⟩
      simp only [this, condSort, false_and, or_false]
      simp [eq_comm]
    | none =>
      cases e2 : boolItems (x :: xs) with
      | some vs =>
        have := excl2 ⟨vs, e2⟩
        simp only [this, condSort, false_and, or_false]
        simp [eq_comm]
      | none =>
        cases e3 : numItems (x :: xs) with
        | none => simp [condSort]
        | some vs =>
          have hl := numItems_length _ _ e3
          cases vs with
          | nil => simp at hl
          | cons v vs =>
            simp only [condSort, foldl_points]
            have e : (Cover.point v).length + vs.length = (x :: xs).length := by
              rw [← hl]
              simp [Cover.point, Nat.add_comm]
            rw [e]
            simp [eq_comm]

theorem inSet_sort (l r : Node) (p : List String) (k : CondSort) : condSort (ArmTest.inSet l r) = some (p, k) ↔ PathOf l p ∧
    ((∃ lo hi lb rb a b, InParens r (.interval lo hi lb rb) ∧ NumOf lo a ∧ NumOf hi b ∧ (lb = .lsq ∨ lb = .lparen) ∧ (rb = .rsq ∨ rb = .rparen) ∧
        k = .numbers true) ∨
      ∃ xs, InParens r (.arr xs) ∧ xs ≠ [] ∧
        (((∀ x ∈ xs, ∃ s, InParens x (.str s)) ∧ k = .words) ∨ ((∀ x ∈ xs, ∃ s, InParens x (.bool s)) ∧ k = .truth) ∨
          ((∀ x ∈ xs, ∃ q, NumOf x q) ∧ k = .numbers (decide (xs.length = 1))))) := by
  have h1 := fun lo hi lb rb => around_iff (n := r) (m := .interval lo hi lb rb) (by simp)
  have h2 := fun xs => around_iff (n := r) (m := .arr xs) (by simp)
  simp only [h1, h2, ← (classify_cases l).1]
  unfold ArmTest.inSet
  cases Opnd.classify l with
  | path path =>
    simp only [Opnd.path.injEq]
    cases hr : Opnd.unwrap r with
    | arr xs =>
      simp only [inItems_sort]
      simp
    | interval lo hi lb rb =>
      have key : ((∃ lo' hi' lb' rb' a b, Node.interval lo hi lb rb = .interval lo' hi' lb' rb' ∧ NumOf lo' a ∧ NumOf hi' b ∧ (lb' = .lsq ∨ lb' = .lparen) ∧
          (rb' = .rsq ∨ rb' = .rparen) ∧ k = .numbers true) ↔
          (∃ a, NumOf lo a) ∧ (∃ b, NumOf hi b) ∧ (lb = .lsq ∨ lb = .lparen) ∧ (rb = .rsq ∨ rb = .rparen) ∧ k = .numbers true) := by
        constructor
        · rintro ⟨_, _, _, _, a, b, h, h1, h2, h3⟩
          cases h
          exact ⟨⟨a, h1⟩, ⟨b, h2⟩, h3⟩
        · rintro ⟨⟨a, h1⟩, ⟨b, h2⟩, h3⟩
          exact ⟨_, _, _, _, a, b, rfl, h1, h2, h3⟩
      rw [key]
      simp only [← (classify_cases _).2.1, reduceCtorEq, false_and, exists_false, or_false]
      cases Opnd.classify lo with
      | num a =>
        cases Opnd.classify hi with
        | num b =>
          simp only [Opnd.num.injEq, exists_eq', true_and]
          by_cases hl : lb = .lsq ∨ lb = .lparen
          · by_cases hh : rb = .rsq ∨ rb = .rparen
            · rcases hl with rfl | rfl <;> rcases hh with rfl | rfl <;> simp [Cover.interval, condSort, eq_comm]
            · have e : Cover.interval a lb b rb = none := by
                rcases hl with rfl | rfl <;> cases rb <;> simp_all [Cover.interval]
              simp [e, hh, condSort]
          · have e : Cover.interval a lb b rb = none := by
              cases lb <;> simp_all [Cover.interval]
            simp [e, hl, condSort]
        | _ => simp [condSort]
      | _ => simp [condSort]
    | _ => simp [condSort]
  | _ => simp [condSort]

theorem leaf_cover {op : COp} {l r : Node} {p c} (h : ArmTest.leaf op l r = .number p c) : 0 < c.length := by
  have hl : ∀ p' o, ArmTest.ofLiteral p' o = .number p c → 0 < c.length := by
    intro p' o h
    cases o <;> simp [ArmTest.ofLiteral] at h
    obtain ⟨_, rfl⟩ := h
    simp [Cover.point]
  have hs : ∀ p' op q, ArmTest.ofSingle p' op q = .number p c → 0 < c.length := by
    intro p' op q h
    cases op <;> simp [ArmTest.ofSingle, Cover.single] at h <;> obtain ⟨_, rfl⟩ := h <;> simp
  have hn : ∀ op, ArmTest.numeric l op r = .number p c → 0 < c.length := by
    intro op h
    unfold ArmTest.numeric at h
    split at h
    · exact hs _ _ _ h
    · exact hs _ _ _ h
    · cases h
  have hi : ArmTest.inSet l r = .number p c → 0 < c.length := by
    intro h
    unfold ArmTest.inSet at h
    split at h
    · split at h
      · split at h
        · split at h
          · rename_i c' hc
            cases h
            unfold Cover.interval at hc
            split at hc
            · cases hc
            · split at hc
              · cases hc
              · cases hc; simp
          · cases h
        · cases h
      · unfold ArmTest.inItems at h
        repeat' split at h
        all_goals first
          | cases h; done
          | (cases h; rw [foldl_points]; simp only [Cover.point, List.length_singleton]; omega)
      · cases h
    · cases h
  unfold ArmTest.leaf at h
  split at h
  · unfold ArmTest.equality at h
    split at h
    · exact hl _ _ h
    · exact hl _ _ h
    · cases h
  · exact hi h
  · exact hn _ h
  · exact hn _ h
  · exact hn _ h
  · exact hn _ h
  · cases h

theorem cover_ne (n : Node) : ∀ p c, ArmTest.fromNode n = .number p c → 0 < c.length := by
  fun_induction ArmTest.fromNode n with
  | case1 n ih => exact ih
  | case2 l r ih1 ih2 =>
    intro p c h
    unfold ArmTest.andT at h
    split at h
    · split at h
      · split at h
        · rename_i hc
          cases h
          unfold Cover.intersect at hc
          split at hc
          · cases hc; simp
          · cases hc
        · cases h
      · cases h
    · cases h
  | case3 l r ih1 ih2 =>
    intro p c h
    unfold ArmTest.orT at h
    split at h
    · split at h <;> cases h
    · split at h <;> cases h
    · rename_i h1 h2
      split at h
      · cases h
        have := ih1 _ _ h1
        simp [Cover.mergedWith]
        omega
      · cases h
    · cases h
  | case4 l r op => exact fun p c h => leaf_cover h
  | case5 => intro p c h; cases h
  | case6 => intro p c h; cases h

theorem recognises (n : Node) (p : List String) (k : CondSort) : CondTest n p k ↔ condSort (ArmTest.fromNode n) = some (p, k) := by
  induction n using ArmTest.fromNode.induct generalizing p k with
  | case1 n ih =>
    rw [ArmTest.fromNode, ← ih]
    exact ⟨fun h => by cases h; assumption, .paren⟩
  | case2 l r ih1 ih2 =>
    have e : CondTest (.binary (.logic .and) l r) p k ↔ CondTest l p (.numbers true) ∧ CondTest r p (.numbers true) ∧ k = .numbers true :=
      ⟨fun h => by cases h; exact ⟨by assumption, by assumption, rfl⟩, by rintro ⟨h1, h2, rfl⟩; exact .and h1 h2⟩
    rw [e, ih1, ih2, ArmTest.fromNode]
    have c1 := cover_ne l
    have c2 := cover_ne r
    generalize ArmTest.fromNode l = a at c1
    generalize ArmTest.fromNode r = b at c2
    cases a with
    | number p1 k1 =>
      cases b with
      | number p2 k2 =>
        have i : (∃ c, Cover.intersect k1 k2 = some c ∧ c.length = 1) ∧ k1.length = 1 ∧ k2.length = 1 ∨
            Cover.intersect k1 k2 = none ∧ ¬ (k1.length = 1 ∧ k2.length = 1) := by
          match k1, k2 with
          | [x], [y] => exact .inl ⟨⟨_, rfl, rfl⟩, rfl, rfl⟩
          | [], _ => exact .inr ⟨rfl, by simp⟩
          | _ :: _ :: _, _ => exact .inr ⟨rfl, by simp⟩
          | [_], [] => exact .inr ⟨rfl, by simp⟩
          | [_], _ :: _ :: _ => exact .inr ⟨rfl, by simp⟩
        by_cases hp : p1 = p2
        · subst hp
          rcases i with ⟨⟨c, h1, h2⟩, h3, h4⟩ | ⟨h1, h2⟩
          · simp [ArmTest.andT, condSort, h1, h2, h3, h4, eq_comm]
          · simp [ArmTest.andT, condSort, h1]
            exact fun _ h3 _ h4 => absurd ⟨h3, h4⟩ h2
        · simp [ArmTest.andT, condSort, hp]
          exact fun h1 _ h2 => absurd (h1.trans h2.symm) hp
      | _ => simp [ArmTest.andT, condSort]
    | _ => simp [ArmTest.andT, condSort]
  | case3 l r ih1 ih2 =>
    have e : CondTest (.binary (.logic .or) l r) p k ↔ (CondTest l p .words ∧ CondTest r p .words ∧ k = .words) ∨ (CondTest l p .truth ∧ CondTest r p .truth ∧ k = .truth) ∨
        (∃ a b, CondTest l p (.numbers a) ∧ CondTest r p (.numbers b)) ∧ k = .numbers false := by
      constructor
      · intro h
        cases h with
        | orWords h1 h2 => exact .inl ⟨h1, h2, rfl⟩
        | orTruth h1 h2 => exact .inr (.inl ⟨h1, h2, rfl⟩)
        | orNums h1 h2 => exact .inr (.inr ⟨⟨_, _, h1, h2⟩, rfl⟩)
      · rintro (⟨h1, h2, rfl⟩ | ⟨h1, h2, rfl⟩ | ⟨⟨a, b, h1, h2⟩, rfl⟩)
        · exact .orWords h1 h2
        · exact .orTruth h1 h2
        · exact .orNums h1 h2
    simp only [e, ih1, ih2]
    rw [ArmTest.fromNode]
    have c1 := cover_ne l
    have c2 := cover_ne r
    generalize ArmTest.fromNode l = a at c1
    generalize ArmTest.fromNode r = b at c2
    cases a with
    | enum p1 v1 =>
      cases b with
      | enum p2 v2 =>
        by_cases hp : p1 = p2
        · subst hp; simp [ArmTest.orT, condSort, eq_comm]
        · simp [ArmTest.orT, condSort, hp]
          exact fun h1 h2 => absurd (h1.trans h2.symm) hp
      | _ => simp [ArmTest.orT, condSort]
    | bool p1 v1 =>
      cases b with
      | bool p2 v2 =>
        by_cases hp : p1 = p2
        · subst hp; simp [ArmTest.orT, condSort, eq_comm]
        · simp [ArmTest.orT, condSort, hp]
          exact fun h1 h2 => absurd (h1.trans h2.symm) hp
      | _ => simp [ArmTest.orT, condSort]
    | number p1 k1 =>
      cases b with
      | number p2 k2 =>
        by_cases hp : p1 = p2
        · subst hp
          have l1 := c1 _ _ rfl
          have l2 := c2 _ _ rfl
          have e : ¬ (Cover.mergedWith k1 k2).length = 1 := by
            simp [Cover.mergedWith]
            omega
          simp only [ArmTest.orT, if_true, condSort, e, decide_false]
          simp [eq_comm]
        · simp [ArmTest.orT, condSort, hp]
          exact fun h1 h2 => absurd (h1.trans h2.symm) hp
      | _ => simp [ArmTest.orT, condSort]
    | _ => simp [ArmTest.orT, condSort]
  | case4 l r op =>
    rw [ArmTest.fromNode]
    have cmp : (op = .lt ∨ op = .le ∨ op = .gt ∨ op = .ge) →
        (CondTest (.binary (.cmp op) l r) p k ↔ ((∃ q, PathOf l p ∧ NumOf r q) ∨ ∃ q, NumOf l q ∧ PathOf r p) ∧ k = .numbers true) := by
      intro ho
      constructor
      · intro h
        cases h with
        | less _ h1 h2 => exact ⟨.inl ⟨_, h1, h2⟩, rfl⟩
        | lessR _ h1 h2 => exact ⟨.inr ⟨_, h1, h2⟩, rfl⟩
        | _ => simp at ho
      · rintro ⟨⟨q, h1, h2⟩ | ⟨q, h1, h2⟩, rfl⟩
        · exact .less ho h1 h2
        · exact .lessR ho h1 h2
    cases op with
    | eq =>
      show _ ↔ condSort (ArmTest.equality l r) = _
      rw [equality_sort]
      constructor
      · intro h
        cases h with
        | eq h1 h2 => exact .inl ⟨h1, h2⟩
        | eqR h1 h2 => exact .inr ⟨h1, h2⟩
        | less ho => simp at ho
        | lessR ho => simp at ho
      · rintro (⟨h1, h2⟩ | ⟨h1, h2⟩)
        · exact .eq h1 h2
        · exact .eqR h1 h2
    | in_ =>
      show _ ↔ condSort (ArmTest.inSet l r) = _
      rw [inSet_sort]
      constructor
      · intro h
        cases h with
        | range h1 h2 h3 h4 h5 h6 => exact ⟨h1, .inl ⟨_, _, _, _, _, _, h2, h3, h4, h5, h6, rfl⟩⟩
        | words h1 h2 h3 h4 => exact ⟨h1, .inr ⟨_, h2, h3, .inl ⟨h4, rfl⟩⟩⟩
        | truths h1 h2 h3 h4 => exact ⟨h1, .inr ⟨_, h2, h3, .inr (.inl ⟨h4, rfl⟩)⟩⟩
        | nums h1 h2 h3 h4 => exact ⟨h1, .inr ⟨_, h2, h3, .inr (.inr ⟨h4, rfl⟩)⟩⟩
        | less ho => simp at ho
        | lessR ho => simp at ho
      · rintro ⟨h1, ⟨_, _, _, _, _, _, h2, h3, h4, h5, h6, rfl⟩ | ⟨_, h2, h3, ⟨h4, rfl⟩ | ⟨h4, rfl⟩ | ⟨h4, rfl⟩⟩⟩
        · exact .range h1 h2 h3 h4 h5 h6
        · exact .words h1 h2 h3 h4
        · exact .truths h1 h2 h3 h4
        · exact .nums h1 h2 h3 h4
    | lt => exact (cmp (by simp)).trans (numeric_sort l r .lt p k (by simp)).symm
    | le => exact (cmp (by simp)).trans (numeric_sort l r .le p k (by simp)).symm
    | gt => exact (cmp (by simp)).trans (numeric_sort l r .gt p k (by simp)).symm
    | ge => exact (cmp (by simp)).trans (numeric_sort l r .ge p k (by simp)).symm
    | _ =>
      refine ⟨fun h => ?_, fun h => by cases h⟩
      cases h with
      | less ho => simp at ho
      | lessR ho => simp at ho
  | case5 op l r h1 h2 h3 =>
    have e : ArmTest.fromNode (.binary op l r) = .unrecognized := by
      unfold ArmTest.fromNode
      split
      · exact absurd rfl h1
      · exact absurd rfl h2
      · exact absurd rfl (h3 _)
      · rfl
    rw [e]
    refine ⟨fun h => ?_, fun h => by cases h⟩
    cases h <;> first | exact absurd rfl h1 | exact absurd rfl h2 | exact absurd rfl (h3 _)
  | case6 n h1 h2 =>
    have e : ArmTest.fromNode n = .unrecognized := by
      unfold ArmTest.fromNode
      split
      · exact absurd rfl (h1 _)
      · exact absurd rfl (h2 _ _ _)
      · rfl
    rw [e]
    refine ⟨fun h => ?_, fun h => by cases h⟩
    cases h <;> first | exact absurd rfl (h1 _) | exact absurd rfl (h2 _ _ _)

/-- Exactly the conditions on one path with literals are recognised, with their path and sort. -/
theorem C25_recognises (n : Node) : (ArmTest.fromNode n ≠ .unrecognized ↔ ∃ p k, CondTest n p k) ∧
    (∀ p, CondTest n p .words ↔ ∃ vs, ArmTest.fromNode n = .enum p vs) ∧ (∀ p, CondTest n p .truth ↔ ∃ vs, ArmTest.fromNode n = .bool p vs) ∧
    (∀ p, CondTest n p (.numbers true) ↔ ∃ s, ArmTest.fromNode n = .number p [s]) ∧
    ∀ p, CondTest n p (.numbers false) ↔ ∃ s t c, ArmTest.fromNode n = .number p (s :: t :: c) := by
  simp only [recognises]
  have h0 := C25_never_default n
  have hc := cover_ne n
  cases h : ArmTest.fromNode n with
  | dflt => exact absurd h h0
  | number p c =>
    match c, hc p c h with
    | [s], _ => simp [condSort, eq_comm]
    | s :: t :: c, _ => simp [condSort, eq_comm]
  | _ => simp [condSort, eq_comm]

/-! ### Instances -/
/-- `(c.age) >= 18 and c.age < 65` -/
def ageTest : Node := .binary (.logic .and)
  (.binary (.cmp .ge) (.paren (.member (.ident "c") (.str "age"))) (.num 18))
  (.binary (.cmp .lt) (.member (.ident "c") (.str "age")) (.num 65))
example : ArmTest.fromNode ageTest = .number ["c", "age"] [⟨.incl 18, .excl 65⟩] := rfl
/-- `seg in ["a", "b"] or "c" == seg` -/
def segTest : Node := .binary (.logic .or)
  (.binary (.cmp .in_) (.ident "seg") (.arr [.str "a", .str "b"]))
  (.binary (.cmp .eq) (.str "c") (.ident "seg"))
example : ArmTest.fromNode segTest = .enum ["seg"] ["a", "b", "c"] := rfl
example : (ArmTest.fromNode segTest).Fits
    (valueAt { base := .obj [("seg", .str "b")] } (ArmTest.fromNode segTest).path) := ⟨"b", rfl⟩

-- `x in (0..10]`, and a condition that is not recognised: a parenthesis inside of a path
example : CondTest (.binary (.cmp .in_) (.ident "x") (.interval (.num 0) (.num 10) .lparen .rsq)) ["x"] (.numbers true) :=
  .range ⟨_, .refl, .name⟩ .refl (.inl .refl) (.inl .refl) (.inr rfl) (.inl rfl)
example : ArmTest.fromNode (.binary (.cmp .lt) (.member (.paren (.ident "c")) (.str "age")) (.num 65)) = .unrecognized := rfl

end Zen
