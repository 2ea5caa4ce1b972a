import Verif.Props.C12
/-
C15  Interval membership.
-/
namespace Zen

/-- an expression without assignments that yields `v` can be used as an operand -/
structure Operand (B : Builtins) (scope : Scope) (n : Node) (v : Val) : Prop where
  pure : NoAssign n
  yields : Yields B scope n (.ok v)

theorem Operand.eval {B : Builtins} {scope : Scope} {n : Node} {v : Val}
    (h : Operand B scope n v) : Zen.eval B scope [] scope n = .ok (v, scope) :=
  eval_of_yields h.pure h.yields

theorem Operand.compiles {B : Builtins} {scope : Scope} {n : Node} {v : Val}
    (h : Operand B scope n v) : Compiles B n := (yields_iff.1 h.yields).1

/-- what the left bracket asks of `v` for the lower bound -/
def leftHolds (b : Brk) (lo v : Rat) : Prop :=
  match b with
  | .lparen => lo < v
  | .lsq => lo ≤ v
  | .rparen => v < lo
  | .rsq => v ≤ lo
  | _ => False
/-- what the right bracket asks of `v` for the upper bound -/
def rightHolds (b : Brk) (hi v : Rat) : Prop :=
  match b with
  | .rparen => v < hi
  | .rsq => v ≤ hi
  | .lparen => hi < v
  | .lsq => hi ≤ v
  | _ => False

/-- `(` and `[` on the left open an inside interval, `)` and `]` an outside interval -/
def inwardLeft (b : Brk) : Prop := b = .lparen ∨ b = .lsq
def outwardLeft (b : Brk) : Prop := b = .rparen ∨ b = .rsq
def round_ (b : Brk) : Prop := b ≠ .lcurly ∧ b ≠ .rcurly

/-- membership as a set: both conditions for an inside interval, either one for an outside one -/
def Member (lb rb : Brk) (lo hi v : Rat) : Prop :=
  (inwardLeft lb ∧ leftHolds lb lo v ∧ rightHolds rb hi v) ∨
  (outwardLeft lb ∧ (leftHolds lb lo v ∨ rightHolds rb hi v))

theorem IData.le_num (a b : Rat) : IData.le (.num a) (.num b) = true ↔ a ≤ b := by
  unfold IData.le IData.lt
  simp only [Bool.or_eq_true, decide_eq_true_eq, IData.num.injEq]
  constructor
  · rintro (h | h)
    · exact Rat.le_of_lt h
    · exact h ▸ Rat.le_refl
  · intro h
    by_cases e : a = b
    · exact .inr e
    · exact .inl (Rat.lt_of_le_of_ne h e)

theorem IData.lt_num (a b : Rat) : IData.lt (.num a) (.num b) = true ↔ a < b := by
  simp [IData.lt]

theorem includes_num (lb rb : Brk) (lo hi v : Rat) (hl : round_ lb) (hr : round_ rb) :
    ∃ b, includes lb rb (.num lo) (.num hi) (.num v) = some b ∧ (b = true ↔ Member lb rb lo hi v) := by
  obtain ⟨h1, h2⟩ := hl
  obtain ⟨h3, h4⟩ := hr
  cases lb <;> cases rb <;> simp only [ne_eq, not_true_eq_false] at h1 h2 h3 h4 <;>
    refine ⟨_, rfl, ?_⟩ <;>
    simp [Member, inwardLeft, outwardLeft, leftHolds, rightHolds, IData.le_num, IData.lt_num]

/-- A number is in an interval exactly when it satisfies the conditions its brackets express;
`not in` is the negation. -/
theorem C15_membership (B : Builtins) (scope : Scope) (x l r : Node) (v lo hi : Rat) (lb rb : Brk)
    (hx : Operand B scope x (.num v)) (hlo : Operand B scope l (.num lo))
    (hhi : Operand B scope r (.num hi)) (hl : round_ lb) (hr : round_ rb) :
    ∃ b, (b = true ↔ Member lb rb lo hi v) ∧
      Yields B scope (.binary (.cmp .in_) x (.interval l r lb rb)) (.ok (.bool b)) ∧
      Yields B scope (.binary (.cmp .notIn) x (.interval l r lb rb)) (.ok (.bool (!b))) := by
  have hi' : Compiles B (.interval l r lb rb) :=
    compiles_iff.2 ⟨compiles_iff.1 hlo.compiles, compiles_iff.1 hhi.compiles⟩
  obtain ⟨b, hinc, hb⟩ := includes_num lb rb lo hi v hl hr
  refine ⟨b, hb, ?_⟩
  constructor <;> refine yields_iff.2 ⟨compiles_binary rfl hx.compiles hi', ?_⟩ <;>
    simp [evaluate, eval, binMeaning, hx.eval, hlo.eval, hhi.eval, opInterval, opIn, opIncludes,
      hinc, opNot, Except.map]

/-- The four inside intervals. -/
theorem C15_inside (lo hi v : Rat) :
    (Member .lsq .rsq lo hi v ↔ lo ≤ v ∧ v ≤ hi) ∧
    (Member .lsq .rparen lo hi v ↔ lo ≤ v ∧ v < hi) ∧
    (Member .lparen .rsq lo hi v ↔ lo < v ∧ v ≤ hi) ∧
    (Member .lparen .rparen lo hi v ↔ lo < v ∧ v < hi) := by
  simp [Member, inwardLeft, outwardLeft, leftHolds, rightHolds]

/-- The outside intervals are the complements of the corresponding inside ones. -/
theorem C15_outside_is_complement (lo hi v : Rat) :
    (Member .rparen .lparen lo hi v ↔ ¬ Member .lsq .rsq lo hi v) ∧
    (Member .rparen .lsq lo hi v ↔ ¬ Member .lsq .rparen lo hi v) ∧
    (Member .rsq .lparen lo hi v ↔ ¬ Member .lparen .rsq lo hi v) ∧
    (Member .rsq .lsq lo hi v ↔ ¬ Member .lparen .rparen lo hi v) := by
  have n1 : (v < lo) ↔ ¬ lo ≤ v := Rat.not_le.symm
  have n2 : (v ≤ lo) ↔ ¬ lo < v := Rat.not_lt.symm
  have n3 : (hi < v) ↔ ¬ v ≤ hi := Rat.not_le.symm
  have n4 : (hi ≤ v) ↔ ¬ v < hi := Rat.not_lt.symm
  simp only [Member, inwardLeft, outwardLeft, leftHolds, rightHolds, n1, n2, n3, n4]
  simp only [reduceCtorEq, or_self, or_true, true_and, false_and, or_false, false_or]
  refine ⟨?_, ?_, ?_, ?_⟩
  · by_cases a : lo ≤ v <;> by_cases b : v ≤ hi <;> simp [a, b]
  · by_cases a : lo ≤ v <;> by_cases b : v < hi <;> simp [a, b]
  · by_cases a : lo < v <;> by_cases b : v ≤ hi <;> simp [a, b]
  · by_cases a : lo < v <;> by_cases b : v < hi <;> simp [a, b]

/-- Dates: the same with the order of instants (all three dates valid). -/
theorem C15_dates (B : Builtins) (scope : Scope) (x l r : Node) (v lo hi : Int) (lb rb : Brk)
    (hx : Operand B scope x (.dyn (.date (some v)))) (hlo : Operand B scope l (.dyn (.date (some lo))))
    (hhi : Operand B scope r (.dyn (.date (some hi)))) (hl : round_ lb) (hr : round_ rb) :
    ∃ b, (b = true ↔ Member lb rb lo hi v) ∧
      Yields B scope (.binary (.cmp .in_) x (.interval l r lb rb)) (.ok (.bool b)) ∧
      Yields B scope (.binary (.cmp .notIn) x (.interval l r lb rb)) (.ok (.bool (!b))) := by
  have hi' : Compiles B (.interval l r lb rb) :=
    compiles_iff.2 ⟨compiles_iff.1 hlo.compiles, compiles_iff.1 hhi.compiles⟩
  have hle : ∀ a b : Int, IData.le (.date (some a)) (.date (some b)) = true ↔ (a : Rat) ≤ b := by
    intro a b
    simp only [IData.le, IData.lt, dateLt, Rat.intCast_le_intCast, Bool.or_eq_true,
      decide_eq_true_eq, IData.date.injEq, Option.some.injEq]
    omega
  have hlt : ∀ a b : Int, IData.lt (.date (some a)) (.date (some b)) = true ↔ (a : Rat) < b := by
    intro a b; simp only [IData.lt, dateLt, Rat.intCast_lt_intCast, decide_eq_true_eq]
  have : ∃ b, includes lb rb (.date (some lo)) (.date (some hi)) (.date (some v)) = some b ∧
      (b = true ↔ Member lb rb lo hi v) := by
    obtain ⟨h1, h2⟩ := hl
    obtain ⟨h3, h4⟩ := hr
    cases lb <;> cases rb <;> simp only [ne_eq, not_true_eq_false] at h1 h2 h3 h4 <;>
      refine ⟨_, rfl, ?_⟩ <;>
      simp [Member, inwardLeft, outwardLeft, leftHolds, rightHolds, hle, hlt]
  obtain ⟨b, hinc, hb⟩ := this
  refine ⟨b, hb, ?_⟩
  constructor <;> refine yields_iff.2 ⟨compiles_binary rfl hx.compiles hi', ?_⟩ <;>
    simp [evaluate, eval, binMeaning, hx.eval, hlo.eval, hhi.eval, opInterval, opIn, opIncludes,
      hinc, opNot, Except.map]

/-! ### Instances -/
example : Operand demoB demoScope (.ident "x") (.num 1) := ⟨trivial, _, 10, rfl, rfl⟩
example : round_ .lsq ∧ round_ .rparen := by simp [round_]
example : Yields demoB demoScope
    (.binary (.cmp .in_) (.ident "x") (.interval (.num 1) (.num 5) .lsq .rparen))
    (.ok (.bool true)) := ⟨_, 20, rfl, rfl⟩

end Zen
