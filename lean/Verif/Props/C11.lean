import Verif.Props.C09
/-
C11  Short circuits.
`Yields B scope n r`: the compiled program of `n`, run in `scope`, ends with `r` (Expr/Spec.lean).
The operand that must not be evaluated is any expression that compiles; in particular one that
fails in every scope.
-/
namespace Zen

/-- Facts about results of assignment-free operands: the scope is unchanged. -/
theorem eval_of_yields {B : Builtins} {scope : Scope} {n : Node} {v : Val} (hn : NoAssign n)
    (h : Yields B scope n (.ok v)) : eval B scope [] scope n = .ok (v, scope) := by
  have := (yields_iff.1 h).2
  unfold evaluate at this
  cases he : eval B scope [] scope n with
  | error e => rw [he] at this; cases this
  | ok q =>
    rw [he] at this; cases this
    have := eval_keeps n hn _ _ _ he
    rw [← this]

/-- the value of the first operand alone, when it may assign -/
theorem fst_of_yields {B : Builtins} {scope : Scope} {n : Node} {v : Val}
    (h : Yields B scope n (.ok v)) : ∃ env, eval B scope [] scope n = .ok (v, env) := by
  have := (yields_iff.1 h).2
  unfold evaluate at this
  cases he : eval B scope [] scope n with
  | error e => rw [he] at this; cases this
  | ok q => rw [he] at this; cases this; exact ⟨q.2, rfl⟩

theorem compiles_binary {B : Builtins} {op : Oper} {a b : Node} (ho : binaryOk op = true)
    (ha : Compiles B a) (hb : Compiles B b) : Compiles B (.binary op a b) := by
  rw [compiles_iff] at *
  simp only [Accepts]
  exact ⟨ho, ha, hb⟩

theorem compiles_cond {B : Builtins} {c t f : Node}
    (hc : Compiles B c) (ht : Compiles B t) (hf : Compiles B f) : Compiles B (.cond c t f) := by
  rw [compiles_iff] at *
  exact ⟨hc, ht, hf⟩

/-- `a and b` is false whenever `a` is false, whatever `b` is. -/
theorem C11_and_false (B : Builtins) (scope : Scope) (a b : Node) (hb : Compiles B b)
    (ha : Yields B scope a (.ok (.bool false))) :
    Yields B scope (.binary (.logic .and) a b) (.ok (.bool false)) := by
  obtain ⟨env, he⟩ := fst_of_yields ha
  refine yields_iff.2 ⟨compiles_binary rfl (yields_iff.1 ha).1 hb, ?_⟩
  simp [evaluate, eval, he, Except.map]

/-- `a or b` is true whenever `a` is true, whatever `b` is. -/
theorem C11_or_true (B : Builtins) (scope : Scope) (a b : Node) (hb : Compiles B b)
    (ha : Yields B scope a (.ok (.bool true))) :
    Yields B scope (.binary (.logic .or) a b) (.ok (.bool true)) := by
  obtain ⟨env, he⟩ := fst_of_yields ha
  refine yields_iff.2 ⟨compiles_binary rfl (yields_iff.1 ha).1 hb, ?_⟩
  simp [evaluate, eval, he, Except.map]

/-- `a ?? b` is `a` whenever `a` is not null, whatever `b` is. -/
theorem C11_coalesce_present (B : Builtins) (scope : Scope) (a b : Node) (v : Val)
    (hb : Compiles B b) (hv : v ≠ .null) (ha : Yields B scope a (.ok v)) :
    Yields B scope (.binary (.logic .coalesce) a b) (.ok v) := by
  obtain ⟨env, he⟩ := fst_of_yields ha
  refine yields_iff.2 ⟨compiles_binary rfl (yields_iff.1 ha).1 hb, ?_⟩
  cases v <;> first | exact absurd rfl hv | simp [evaluate, eval, he, Except.map]

/-- In the other case the result is that of the second operand (for a first operand that does
not assign, so that both operands are evaluated in the same scope). -/
theorem C11_second_operand (B : Builtins) (scope : Scope) (a b : Node)
    (r : Except VErr Val) (hn : NoAssign a) :
    (Yields B scope a (.ok (.bool true)) → Yields B scope b r →
      Yields B scope (.binary (.logic .and) a b) r) ∧
    (Yields B scope a (.ok (.bool false)) → Yields B scope b r →
      Yields B scope (.binary (.logic .or) a b) r) ∧
    (Yields B scope a (.ok .null) → Yields B scope b r →
      Yields B scope (.binary (.logic .coalesce) a b) r) := by
  refine ⟨fun ha hb => ?_, fun ha hb => ?_, fun ha hb => ?_⟩ <;>
  · have he := eval_of_yields hn ha
    refine yields_iff.2 ⟨compiles_binary rfl (yields_iff.1 ha).1 (yields_iff.1 hb).1, ?_⟩
    rw [(yields_iff.1 hb).2]
    simp [evaluate, eval, he]

/-- A conditional evaluates only the selected branch: its result is exactly the result of that
branch, and the other branch may be any expression that compiles. -/
theorem C11_conditional (B : Builtins) (scope : Scope) (c t f : Node) (r : Except VErr Val)
    (hn : NoAssign c) :
    (Yields B scope c (.ok (.bool true)) → Compiles B f → Yields B scope t r →
      Yields B scope (.cond c t f) r) ∧
    (Yields B scope c (.ok (.bool false)) → Compiles B t → Yields B scope f r →
      Yields B scope (.cond c t f) r) := by
  refine ⟨fun hc hf ht => ?_, fun hc ht hf => ?_⟩ <;>
  · have he := eval_of_yields hn hc
    refine yields_iff.2 ⟨?_, ?_⟩
    · exact compiles_cond (yields_iff.1 hc).1 (by first | exact ht | exact (yields_iff.1 ht).1)
        (by first | exact hf | exact (yields_iff.1 hf).1)
    · first
      | (rw [(yields_iff.1 ht).2]; simp [evaluate, eval, he]; done)
      | (rw [(yields_iff.1 hf).2]; simp [evaluate, eval, he]; done)

/-- Replacing the branch that is not selected never changes the result, also when the condition
assigns. -/
theorem C11_unselected_irrelevant (B : Builtins) (scope : Scope) (c t f f' : Node)
    (r : Except VErr Val) (hf' : Compiles B f') (hc : Yields B scope c (.ok (.bool true)))
    (h : Yields B scope (.cond c t f) r) : Yields B scope (.cond c t f') r := by
  obtain ⟨env, he⟩ := fst_of_yields hc
  have hacc := compiles_iff.1 (yields_iff.1 h).1
  refine yields_iff.2 ⟨compiles_cond (yields_iff.1 hc).1 (compiles_iff.2 hacc.2.1) hf', ?_⟩
  rw [(yields_iff.1 h).2]
  simp [evaluate, eval, he]

/-- Inside any nesting of closures: the same facts about the evaluation of an operand in its
frames; `b` is arbitrary. -/
theorem C11_nested (B : Builtins) (root : Scope) (fr : Frames) (env env' : Scope) (a b : Node) :
    (eval B root fr env a = .ok (.bool false, env') →
      eval B root fr env (.binary (.logic .and) a b) = .ok (.bool false, env')) ∧
    (eval B root fr env a = .ok (.bool true, env') →
      eval B root fr env (.binary (.logic .or) a b) = .ok (.bool true, env')) ∧
    (∀ v, v ≠ .null → eval B root fr env a = .ok (v, env') →
      eval B root fr env (.binary (.logic .coalesce) a b) = .ok (v, env')) ∧
    (eval B root fr env a = .ok (.bool true, env') → ∀ t f,
      eval B root fr env (.cond a t f) = eval B root fr env' t) ∧
    (eval B root fr env a = .ok (.bool false, env') → ∀ t f,
      eval B root fr env (.cond a t f) = eval B root fr env' f) := by
  refine ⟨fun h => by simp [eval, h], fun h => by simp [eval, h], fun v hv h => ?_,
    fun h t f => by simp [eval, h], fun h t f => by simp [eval, h]⟩
  cases v <;> first | exact absurd rfl hv | simp [eval, h]

/-! ### Instances: the skipped operand `-"x"` fails in every scope -/

def failing : Node := .unary (.arith .sub) (.str "x")

example : Yields demoB demoScope failing (.error (.opcode "Negate" "Unsupported type")) :=
  ⟨_, 10, rfl, rfl⟩
example : Compiles demoB failing := ⟨_, rfl⟩
example : Yields demoB demoScope (.bool false) (.ok (.bool false)) := ⟨_, 10, rfl, rfl⟩
example : Yields demoB demoScope (.binary (.logic .and) (.bool false) failing) (.ok (.bool false)) :=
  C11_and_false _ _ _ _ ⟨_, rfl⟩ ⟨_, 10, rfl, rfl⟩
example : Yields demoB demoScope (.cond (.bool true) (.ident "x") failing) (.ok (.num 1)) :=
  (C11_conditional demoB demoScope (.bool true) (.ident "x") failing _ trivial).1 ⟨_, 10, rfl, rfl⟩ ⟨_, rfl⟩ ⟨_, 10, rfl, rfl⟩

end Zen
