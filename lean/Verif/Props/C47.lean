import Verif.Props.C16
import Verif.Core.MapLemmas
/-
C47  What the operators compute.
Operands are expressions without assignments that yield the given values in the scope.
-/
namespace Zen

section
variable {B : Builtins} {scope : Scope} {a b : Node} {va vb : Val}

theorem yields_bin {op : Oper} {f : Val → Val → Except VErr Val} (ha : Operand B scope a va)
    (hb : Operand B scope b vb) (ho : binaryOk op = true) (hs : scJump op = none)
    (hf : binMeaning B.num op = some f) : Yields B scope (.binary op a b) (f va vb) := by
  refine yields_iff.2 ⟨compiles_binary ho ha.compiles hb.compiles, ?_⟩
  unfold evaluate
  rw [eval_binary_strict _ _ _ _ hs, hf]
  simp only [ha.eval, hb.eval]
  cases f va vb <;> rfl
end

/-- Arithmetic on numbers: the decimal operation applied to the operands in order. Overflow of
`+ - *` and a failed `^` are errors; division and remainder by zero give null. -/
theorem C47_arithmetic (B : Builtins) (scope : Scope) (a b : Node) (x y : Rat)
    (ha : Operand B scope a (.num x)) (hb : Operand B scope b (.num y)) :
    (∀ z, B.num.add x y = some z → Yields B scope (.binary (.arith .add) a b) (.ok (.num z))) ∧
    (∀ z, B.num.sub x y = some z → Yields B scope (.binary (.arith .sub) a b) (.ok (.num z))) ∧
    (∀ z, B.num.mul x y = some z → Yields B scope (.binary (.arith .mul) a b) (.ok (.num z))) ∧
    (∀ z, B.num.div x y = some z → Yields B scope (.binary (.arith .div) a b) (.ok (.num z))) ∧
    (∀ z, B.num.rem x y = some z → Yields B scope (.binary (.arith .mod) a b) (.ok (.num z))) ∧
    (∀ z, B.num.pow x y = some z → Yields B scope (.binary (.arith .pow) a b) (.ok (.num z))) ∧
    (B.num.div x y = none → Yields B scope (.binary (.arith .div) a b) (.ok .null)) ∧
    (B.num.rem x y = none → Yields B scope (.binary (.arith .mod) a b) (.ok .null)) ∧
    (B.num.add x y = none → ∃ e, Yields B scope (.binary (.arith .add) a b) (.error e)) ∧
    (B.num.sub x y = none → ∃ e, Yields B scope (.binary (.arith .sub) a b) (.error e)) ∧
    (B.num.mul x y = none → ∃ e, Yields B scope (.binary (.arith .mul) a b) (.error e)) ∧
    (B.num.pow x y = none → ∃ e, Yields B scope (.binary (.arith .pow) a b) (.error e)) := by
  refine ⟨?_, ?_, ?_, ?_, ?_, ?_, ?_, ?_, ?_, ?_, ?_, ?_⟩
  all_goals
    first
    | (intro z hz
       have := yields_bin ha hb (op := .arith .add) rfl rfl rfl
       simpa [opAdd, hz] using this)
    | (intro z hz
       have := yields_bin ha hb (op := .arith .sub) rfl rfl rfl
       simpa [opSub, hz] using this)
    | (intro z hz
       have := yields_bin ha hb (op := .arith .mul) rfl rfl rfl
       simpa [opMul, hz] using this)
    | (intro z hz
       have := yields_bin ha hb (op := .arith .div) rfl rfl rfl
       simpa [opDiv, hz] using this)
    | (intro z hz
       have := yields_bin ha hb (op := .arith .mod) rfl rfl rfl
       simpa [opMod, hz] using this)
    | (intro z hz
       have := yields_bin ha hb (op := .arith .pow) rfl rfl rfl
       simpa [opPow, hz] using this)
    | (intro hz
       have := yields_bin ha hb (op := .arith .div) rfl rfl rfl
       simpa [opDiv, hz] using this)
    | (intro hz
       have := yields_bin ha hb (op := .arith .mod) rfl rfl rfl
       simpa [opMod, hz] using this)
    | (intro hz
       have := yields_bin ha hb (op := .arith .add) rfl rfl rfl
       simp only [opAdd, hz] at this
       exact ⟨_, this⟩)
    | (intro hz
       have := yields_bin ha hb (op := .arith .sub) rfl rfl rfl
       simp only [opSub, hz] at this
       exact ⟨_, this⟩)
    | (intro hz
       have := yields_bin ha hb (op := .arith .mul) rfl rfl rfl
       simp only [opMul, hz] at this
       exact ⟨_, this⟩)
    | (intro hz
       have := yields_bin ha hb (op := .arith .pow) rfl rfl rfl
       simp only [opPow, hz] at this
       exact ⟨_, this⟩)

/-- Comparisons of numbers. -/
theorem C47_comparison (B : Builtins) (scope : Scope) (a b : Node) (x y : Rat)
    (ha : Operand B scope a (.num x)) (hb : Operand B scope b (.num y)) :
    Yields B scope (.binary (.cmp .lt) a b) (.ok (.bool (decide (x < y)))) ∧
    Yields B scope (.binary (.cmp .le) a b) (.ok (.bool (decide (x ≤ y)))) ∧
    Yields B scope (.binary (.cmp .gt) a b) (.ok (.bool (decide (y < x)))) ∧
    Yields B scope (.binary (.cmp .ge) a b) (.ok (.bool (decide (y ≤ x)))) :=
  ⟨yields_bin ha hb (f := opCompare .less) rfl rfl rfl,
    yields_bin ha hb (f := opCompare .lessEq) rfl rfl rfl,
    yields_bin ha hb (f := opCompare .more) rfl rfl rfl,
    yields_bin ha hb (f := opCompare .moreEq) rfl rfl rfl⟩

/-- Comparisons of valid dates compare instants. -/
theorem C47_date_comparison (B : Builtins) (scope : Scope) (a b : Node) (x y : Int)
    (ha : Operand B scope a (.dyn (.date (some x)))) (hb : Operand B scope b (.dyn (.date (some y)))) :
    Yields B scope (.binary (.cmp .lt) a b) (.ok (.bool (decide (x < y)))) ∧
    Yields B scope (.binary (.cmp .le) a b) (.ok (.bool (decide (x ≤ y)))) ∧
    Yields B scope (.binary (.cmp .gt) a b) (.ok (.bool (decide (y < x)))) ∧
    Yields B scope (.binary (.cmp .ge) a b) (.ok (.bool (decide (y ≤ x)))) := by
  have e : ∀ p q : Int, (!decide (p < q)) = decide (q ≤ p) := by
    intro p q
    by_cases h : p < q
    · have : ¬ q ≤ p := by omega
      simp [h, this]
    · have : q ≤ p := by omega
      simp [h, this]
  refine ⟨yields_bin ha hb (f := opCompare .less) rfl rfl rfl, ?_,
    yields_bin ha hb (f := opCompare .more) rfl rfl rfl, ?_⟩
  · rw [← e y x]; exact yields_bin ha hb (f := opCompare .lessEq) rfl rfl rfl
  · rw [← e x y]; exact yields_bin ha hb (f := opCompare .moreEq) rfl rfl rfl

/-- An invalid date is below every valid one and equal to itself only. -/
theorem C47_invalid_date (B : Builtins) (scope : Scope) (a b : Node) (y : Int)
    (ha : Operand B scope a (.dyn (.date none))) (hb : Operand B scope b (.dyn (.date (some y)))) :
    Yields B scope (.binary (.cmp .lt) a b) (.ok (.bool true)) ∧
    Yields B scope (.binary (.cmp .ge) a b) (.ok (.bool false)) ∧
    Yields B scope (.binary (.cmp .gt) b a) (.ok (.bool true)) ∧
    Yields B scope (.binary (.cmp .eq) a b) (.ok (.bool false)) ∧
    Yields B scope (.binary (.cmp .eq) a a) (.ok (.bool true)) ∧
    Yields B scope (.binary (.cmp .lt) a a) (.ok (.bool false)) :=
  ⟨yields_bin ha hb (f := opCompare .less) rfl rfl rfl,
    yields_bin ha hb (f := opCompare .moreEq) rfl rfl rfl,
    yields_bin hb ha (f := opCompare .more) rfl rfl rfl,
    yields_bin ha hb (op := .cmp .eq) rfl rfl rfl,
    yields_bin ha ha (op := .cmp .eq) rfl rfl rfl,
    yields_bin ha ha (f := opCompare .less) rfl rfl rfl⟩

/-- the same null, boolean, number, string or date -/
inductive SameScalar : Val → Val → Prop
  | null : SameScalar .null .null
  | bool (x : Bool) : SameScalar (.bool x) (.bool x)
  | num (x : Rat) : SameScalar (.num x) (.num x)
  | str (x : String) : SameScalar (.str x) (.str x)
  | date (x : Option Int) : SameScalar (.dyn (.date x)) (.dyn (.date x))

theorem simpleEq_iff (x y : Val) : simpleEq x y = true ↔ SameScalar x y := by
  constructor
  · intro h
    unfold simpleEq at h
    split at h
    · have := of_decide_eq_true h; subst this; exact .num _
    · have := eq_of_beq h; subst this; exact .str _
    · have := eq_of_beq h; subst this; exact .bool _
    · exact .null
    · have := of_decide_eq_true h; subst this; exact .date _
    · cases h
  · intro h; cases h <;> simp [simpleEq]

theorem opEqual_simpleEq (x y : Val) : opEqual x y = .bool (simpleEq x y) := by
  unfold opEqual simpleEq
  split <;> simp_all

/-- `==` holds exactly for equal scalars of the same kind (so never between arrays or objects);
`!=` is its negation. -/
theorem C47_equality (B : Builtins) (scope : Scope) (a b : Node) (x y : Val)
    (ha : Operand B scope a x) (hb : Operand B scope b y) :
    ∃ r, (r = true ↔ SameScalar x y) ∧
      Yields B scope (.binary (.cmp .eq) a b) (.ok (.bool r)) ∧
      Yields B scope (.binary (.cmp .ne) a b) (.ok (.bool (!r))) := by
  refine ⟨simpleEq x y, simpleEq_iff x y, ?_, ?_⟩
  · rw [← opEqual_simpleEq]; exact yields_bin ha hb (op := .cmp .eq) rfl rfl rfl
  · have := yields_bin ha hb (op := .cmp .ne) rfl rfl rfl
    simpa [opEqual_simpleEq, opNot] using this

/-- a value that `in` looks for in an array -/
def Scalar (x : Val) : Prop := SameScalar x x

/-- `x in array` for a scalar `x` holds exactly when some element is the same scalar. -/
theorem C47_in_array (B : Builtins) (scope : Scope) (a b : Node) (x : Val) (xs : List Val)
    (hx : Scalar x) (ha : Operand B scope a x) (hb : Operand B scope b (.arr xs)) :
    ∃ r, (r = true ↔ ∃ y ∈ xs, SameScalar x y) ∧
      Yields B scope (.binary (.cmp .in_) a b) (.ok (.bool r)) ∧
      Yields B scope (.binary (.cmp .notIn) a b) (.ok (.bool (!r))) := by
  have hin : opIn x (.arr xs) = .ok (.bool (xs.any (simpleEq x))) := by cases hx <;> rfl
  refine ⟨xs.any (simpleEq x), ?_, ?_, ?_⟩
  · simp [List.any_eq_true, simpleEq_iff]
  · have := yields_bin ha hb (op := .cmp .in_) rfl rfl rfl
    rwa [hin] at this
  · have := yields_bin ha hb (op := .cmp .notIn) rfl rfl rfl
    simpa only [hin, opNot] using this

/-- `"key" in object` holds exactly when the object has the key. -/
theorem C47_in_object (B : Builtins) (scope : Scope) (a b : Node) (k : String)
    (m : List (String × Val)) (ha : Operand B scope a (.str k)) (hb : Operand B scope b (.obj m)) :
    ∃ r, (r = true ↔ ∃ v, aGet m k = some v) ∧
      Yields B scope (.binary (.cmp .in_) a b) (.ok (.bool r)) := by
  refine ⟨(aGet m k).isSome, by rw [Option.isSome_iff_exists], ?_⟩
  exact yields_bin ha hb (op := .cmp .in_) rfl rfl rfl

/-- `+` on strings is concatenation in order. -/
theorem C47_concat (B : Builtins) (scope : Scope) (a b : Node) (x y : String)
    (ha : Operand B scope a (.str x)) (hb : Operand B scope b (.str y)) :
    Yields B scope (.binary (.arith .add) a b) (.ok (.str (x ++ y))) :=
  yields_bin ha hb (op := .arith .add) rfl rfl rfl

/-- Unary minus and `not`. -/
theorem C47_unary (B : Builtins) (scope : Scope) (a : Node) :
    (∀ x, Operand B scope a (.num x) → Yields B scope (.unary (.arith .sub) a) (.ok (.num (-x)))) ∧
    (∀ p, Operand B scope a (.bool p) → Yields B scope (.unary (.logic .not) a) (.ok (.bool (!p)))) ∧
    (∀ v, Operand B scope a v → Yields B scope (.unary (.arith .add) a) (.ok v)) := by
  refine ⟨fun x h => ?_, fun p h => ?_, fun v h => ?_⟩ <;>
  · refine yields_iff.2 ⟨compiles_iff.2 ⟨rfl, compiles_iff.1 h.compiles⟩, ?_⟩
    simp [evaluate, eval, h.eval, opNegate, opNot, Except.map]

/-- expressions and the values they yield, in order -/
inductive Operands (B : Builtins) (scope : Scope) : List Node → List Val → Prop
  | nil : Operands B scope [] []
  | cons {n ns v vs} : Operand B scope n v → Operands B scope ns vs →
      Operands B scope (n :: ns) (v :: vs)

/-- An array literal holds its elements in order. -/
theorem C47_array (B : Builtins) (scope : Scope) (ns : List Node) (vs : List Val)
    (h : Operands B scope ns vs) : Yields B scope (.arr ns) (.ok (.arr vs)) := by
  have hl : evalList B scope [] scope ns = .ok (vs, scope) ∧ AcceptsL B ns := by
    induction h with
    | nil => exact ⟨rfl, trivial⟩
    | cons h _ ih =>
      refine ⟨?_, compiles_iff.1 h.compiles, ih.2⟩
      simp only [evalList, h.eval, ih.1]
  exact yields_iff.2 ⟨compiles_iff.2 hl.2, by simp [evaluate, eval, hl.1, Except.map]⟩

theorem aGet_objLiteral (kvs : List (String × Val)) (k : String) :
    aGet (objLiteral kvs) k = (kvs.find? fun p => p.1 = k).map Prod.snd := by
  induction kvs with
  | nil => rfl
  | cons p kvs ih =>
    obtain ⟨a, v⟩ := p
    simp only [objLiteral, List.foldr_cons, aGet_aSet, List.find?_cons]
    by_cases e : a = k
    · subst e; simp
    · have : ¬ k = a := fun h => e h.symm
      simp only [this, if_false, e, decide_false]
      exact ih

/-- An object literal maps each key to the value of its first occurrence. -/
theorem C47_object (B : Builtins) (scope : Scope) (ns : List (String × Node)) (vs : List Val)
    (hstr : ∀ s, B.fn "string" [.str s] = .ok (.str s))
    (h : Operands B scope (ns.map Prod.snd) vs) :
    ∃ m, Yields B scope (.obj (ns.map fun n => (.str n.1, n.2))) (.ok (.obj m)) ∧
      ∀ k, aGet m k = (((ns.map Prod.fst).zip vs).find? fun p => p.1 = k).map Prod.snd := by
  refine ⟨objLiteral ((ns.map Prod.fst).zip vs), ?_, fun k => aGet_objLiteral _ k⟩
  have hl : evalObj B scope [] scope (ns.map fun n => (.str n.1, n.2)) =
      .ok ((ns.map Prod.fst).zip vs, scope) ∧ AcceptsP B (ns.map fun n => (.str n.1, n.2)) := by
    induction ns generalizing vs with
    | nil => cases h; exact ⟨rfl, trivial⟩
    | cons n ns ih =>
      cases h with
      | cons h hr =>
      have ih := ih _ hr
      refine ⟨?_, trivial, compiles_iff.1 h.compiles, ih.2⟩
      simp only [List.map_cons, evalObj, eval, strOf, hstr, h.eval, ih.1, List.zip_cons_cons]
  exact yields_iff.2 ⟨compiles_iff.2 hl.2, by simp [evaluate, eval, hl.1, Except.map]⟩

/-- `xs[i]` on an array is the element at position `i`, null past the end, an error for a
negative index. -/
theorem C47_index (B : Builtins) (scope : Scope) (a i : Node) (xs : List Val)
    (hp : lenient scope scope [] (.member a i) = none)
    (ha : Operand B scope a (.arr xs)) :
    (∀ k : Nat, k < 2 ^ 64 → Operand B scope i (.num k) →
      Yields B scope (.member a i) (.ok ((xs[k]?).getD .null))) ∧
    (∀ q : Rat, q < 0 → Operand B scope i (.num q) →
      ∃ e, Yields B scope (.member a i) (.error e)) := by
  constructor
  · intro k hk hi
    refine yields_iff.2 ⟨compiles_iff.2 ?_, ?_⟩
    · exact ⟨compiles_iff.1 ha.compiles, compiles_iff.1 hi.compiles⟩
    · have : toUsize (k : Rat) = some k := by
        have h0 : ¬ ((k : Rat) < 0) := by
          rw [Rat.not_lt]; exact_mod_cast Nat.zero_le k
        have ht : ratTrunc (k : Rat) = k := by
          have := ratTrunc_int (k : Int)
          rwa [Rat.intCast_natCast] at this
        simp [toUsize, h0, ht, hk]
      simp [evaluate, eval, hp, ha.eval, hi.eval, opFetch, this, Except.map]
  · intro q hq hi
    refine ⟨.opcode "Fetch" "Failed to convert to usize", yields_iff.2 ⟨compiles_iff.2 ?_, ?_⟩⟩
    · exact ⟨compiles_iff.1 ha.compiles, compiles_iff.1 hi.compiles⟩
    · simp [evaluate, eval, hp, ha.eval, hi.eval, opFetch, toUsize, hq, Except.map]

/-- `xs[i:j]` on an array is the elements at positions `i` to `j` inclusive; positions outside the
array are an error. A missing `i` means 0. -/
theorem C47_slice (B : Builtins) (scope : Scope) (a i j : Node) (xs : List Val) (p q : Nat)
    (hp : p < 2 ^ 64) (hq : q < 2 ^ 64) (ha : Operand B scope a (.arr xs))
    (hi : Operand B scope i (.num p)) (hj : Operand B scope j (.num q)) :
    (p ≤ q → q < xs.length → ∃ ys, Yields B scope (.slice a (some i) (some j)) (.ok (.arr ys)) ∧
      ys.length = q - p + 1 ∧ ∀ k, k ≤ q - p → ys[k]? = xs[p + k]?) ∧
    (q < xs.length → ∃ ys, Yields B scope (.slice a none (some j)) (.ok (.arr ys)) ∧
      ys.length = q + 1 ∧ ∀ k, k ≤ q → ys[k]? = xs[k]?) ∧
    (xs.length ≤ q → ∃ e, Yields B scope (.slice a (some i) (some j)) (.error e)) := by
  have us : ∀ k : Nat, k < 2 ^ 64 → toUsize (k : Rat) = some k := by
    intro k hk
    have h0 : ¬ ((k : Rat) < 0) := by
      rw [Rat.not_lt]; exact_mod_cast Nat.zero_le k
    have ht : ratTrunc (k : Rat) = k := by
      have := ratTrunc_int (k : Int)
      rwa [Rat.intCast_natCast] at this
    simp [toUsize, h0, ht, hk]
  have hc : Compiles B (.slice a (some i) (some j)) :=
    compiles_iff.2 ⟨compiles_iff.1 ha.compiles, compiles_iff.1 hi.compiles, compiles_iff.1 hj.compiles⟩
  have hc' : Compiles B (.slice a none (some j)) :=
    compiles_iff.2 ⟨compiles_iff.1 ha.compiles, trivial, compiles_iff.1 hj.compiles⟩
  refine ⟨fun hpq hlen => ?_, fun hlen => ?_, fun hlen => ?_⟩
  · refine ⟨(xs.drop p).take (q + 1 - p), yields_iff.2 ⟨hc, ?_⟩, ?_, ?_⟩
    · have : p ≤ q + 1 ∧ q + 1 ≤ xs.length := by omega
      simp [evaluate, eval, evalTo, evalOpt, ha.eval, hi.eval, hj.eval, opSlice, us p hp, us q hq, this,
        Except.map]
    · simp only [List.length_take, List.length_drop]; omega
    · intro k hk
      rw [List.getElem?_take_of_lt (by omega), List.getElem?_drop]
  · refine ⟨xs.take (q + 1), yields_iff.2 ⟨hc', ?_⟩, ?_, ?_⟩
    · have h0 : toUsize (0 : Rat) = some 0 := us 0 (by omega)
      have : q + 1 ≤ xs.length := by omega
      simp [evaluate, eval, evalTo, evalOpt, ha.eval, hj.eval, opSlice, h0, us q hq, this, Except.map]
    · simp only [List.length_take]; omega
    · intro k hk
      rw [List.getElem?_take_of_lt (by omega)]
  · refine ⟨.opcode "Slice" "Index out of range", yields_iff.2 ⟨hc, ?_⟩⟩
    have : ¬ (p ≤ q + 1 ∧ q + 1 ≤ xs.length) := by omega
    simp [evaluate, eval, evalTo, evalOpt, ha.eval, hi.eval, hj.eval, opSlice, us p hp, us q hq, this,
      Except.map]

/-- A template literal joins the string forms of its parts, in order. (Without parts it is the empty string, but
crashes a build with overflow checks: `C46_empty_template`.) -/
theorem C47_template (B : Builtins) (scope : Scope) (ns : List Node) (vs : List Val)
    (ss : List String) (h : Operands B scope ns vs) (hne : ns ≠ [] ∨ B.checks = false)
    (hs : vs.map (fun v => B.fn "string" [v]) = ss.map fun s => .ok (.str s)) :
    Yields B scope (.tmpl ns) (.ok (.str (String.join ss))) := by
  have hl : evalTmpl B scope [] scope ns = .ok (ss.map .str, scope) ∧ AcceptsL B ns := by
    clear hne
    induction h generalizing ss with
    | nil =>
      cases ss with
      | nil => exact ⟨rfl, trivial⟩
      | cons s ss => cases hs
    | @cons n ns v vs h _ ih =>
      cases ss with
      | nil => cases hs
      | cons s ss =>
        simp only [List.map_cons, List.cons.injEq] at hs
        have ih := ih ss hs.2
        refine ⟨?_, compiles_iff.1 h.compiles, ih.2⟩
        simp only [evalTmpl, h.eval, strOf, hs.1, ih.1, List.map_cons]
  have ha : ∀ ss : List String, allStrs (ss.map .str) = some ss := by
    intro ss
    induction ss with
    | nil => rfl
    | cons s ss ih => simp [allStrs, ih]
  have hj : ∀ ss : List String, "".intercalate ss = String.join ss := by
    intro ss
    rw [← String.toList_inj]
    simp only [String.toList_intercalate, String.toList_join]
    induction ss with
    | nil => rfl
    | cons s ss ih =>
      cases ss with
      | nil => simp [List.intercalate]
      | cons t ss =>
        simp only [List.map_cons, List.intercalate, List.intersperse_cons_cons, List.flatten_cons,
          List.flatMap_cons] at ih ⊢
        simp_all
  exact yields_iff.2 ⟨compiles_iff.2 hl.2, by
    simp only [evaluate, eval, hl.1, opJoin, ha]
    cases ss with
    | nil =>
      have hn : ns = [] := by
        cases h with
        | nil => rfl
        | cons _ _ => cases hs
      have hc : B.checks = false := hne.resolve_left (fun q => q hn)
      simp [hc, Except.map]
    | cons s ss => simp [hj, Except.map]⟩

/-! ### Instances -/
example : Operand demoB demoScope (.binary (.cmp .lt) (.ident "x") (.num 2)) (.bool true) :=
  ⟨⟨trivial, trivial⟩, _, 10, rfl, rfl⟩
example : Scalar (.str "a") := .str _
example : Operands demoB demoScope [.num 1, .ident "x"] [.num 1, .num 1] :=
  .cons ⟨trivial, _, 10, rfl, rfl⟩ (.cons ⟨trivial, _, 10, rfl, rfl⟩ .nil)
example : lenient demoScope demoScope [] (.member (.arr [.num 1]) (.num 0)) = none := rfl
example : Yields demoB demoScope (.binary (.cmp .eq) (.arr [.num 1]) (.arr [.num 1]))
    (.ok (.bool false)) := ⟨_, 20, rfl, rfl⟩

end Zen
