import Verif.Expr.Safe
/-
C09  Compiling and running an expression computes its meaning.
`compile` and `runCode` model the compiler and the virtual machine; `evaluate` (Expr/Eval.lean)
is the specification: a recursive evaluator over the syntax tree that knows neither byte code
nor stacks nor jumps.
-/
namespace Zen

/-- For every syntax tree the compiler accepts and every scope, the run of the compiled program
terminates, and whenever a run has ended its result is the meaning of the expression. -/
theorem C09_run_is_meaning (B : Builtins) (n : Node) (code : List Op) (scope : Scope)
    (h : compile B n = .ok code) :
    (∃ fuel, runCode B code scope fuel = some (evaluate B scope n)) ∧
    (∀ fuel r, runCode B code scope fuel = some r → r = evaluate B scope n) :=
  let ⟨f, hf⟩ := run_compiled scope h
  ⟨⟨f, hf⟩, fun _ _ hr => runCode_det hr hf⟩

/-- A successful run ends exactly at the end of the program with exactly one value on the stack,
no open loop and no assignment under construction. -/
theorem C09_ends_clean (B : Builtins) (n : Node) (code : List Op) (scope : Scope) (v : Val)
    (h : compile B n = .ok code) (hv : evaluate B scope n = .ok v) :
    ∃ env, Steps B scope code (initState scope)
      { ip := code.length, stack := [v], loops := [], env := env, asg := [] } := by
  obtain ⟨ha, rfl⟩ := compileNode_gen h
  have hg := good (B := B) (root := scope) (code := gen [] n) n [] [] 0 [] [] scope [] ha rfl rfl
    (codeAt_self _)
  unfold evaluate at hv
  cases he : eval B scope [] scope n with
  | error e => rw [he] at hv; cases hv
  | ok q =>
    rw [he] at hg hv
    cases hv
    refine ⟨q.2, ?_⟩
    simpa [Reach, Except.map, initState] using hg

/-- Wherever the code of an expression is embedded in a larger program, and whatever surrounds it
at run time (values on the stack, enclosing loops positioned on the elements `fr`, assignments
under construction), running it pushes the expression's value on top of the untouched stack and
leaves loops and assignments alone, or fails as the expression does. -/
theorem C09_stack_discipline (B : Builtins) (root : Scope) (n : Node) (fr : Frames)
    (seg code : List Op) (pc : Nat) (st : List Val) (ls : List Loop) (env : Scope) (asg : List Val)
    (hc : compileNode B (fr.map Prod.fst) n [] = .ok seg)
    (hl : LoopsOk fr ls) (hseg : CodeAt code pc seg) :
    (∀ v env', eval B root fr env n = .ok (v, env') →
      Steps B root code ⟨pc, st, ls, env, asg⟩ ⟨pc + seg.length, v :: st, ls, env', asg⟩) ∧
    (∀ e, eval B root fr env n = .error e → ∃ t op,
      Steps B root code ⟨pc, st, ls, env, asg⟩ t ∧ code[t.ip]? = some op ∧
      exec B root op { t with ip := t.ip + 1 } = .error e) := by
  obtain ⟨ha, rfl⟩ := compileNode_gen hc
  have hg := good (B := B) (root := root) (code := code) n _ fr pc st ls env asg ha rfl hl hseg
  constructor
  · intro v env' he; rw [he] at hg; exact hg
  · intro e he; rw [he] at hg; exact hg

/-- No compiled program ever pops an empty stack. -/
theorem C09_never_out_of_stack (B : Builtins) (n : Node) (code : List Op) (scope : Scope)
    (fuel : Nat) (h : compile B n = .ok code) :
    runCode B code scope fuel ≠ some (.error .stackOutOfBounds) := by
  intro hr
  have h1 := (C09_run_is_meaning B n code scope h).2 _ _ hr
  exact (sane_map (f := Prod.fst) (sane_eval (B := B) (S := (· ≠ .code)) (root := scope) n
    (fun m _ => by cases m <;> simp [CrashOk]) [] scope)).1 h1.symm

/-- No compiled program ever jumps to before its start or calls a method without a receiver. -/
theorem C09_well_formed (B : Builtins) (n : Node) (code : List Op) (scope : Scope)
    (fuel : Nat) (h : compile B n = .ok code) :
    runCode B code scope fuel ≠ some (.error (.panic .code)) := by
  intro hr
  have h1 := (C09_run_is_meaning B n code scope h).2 _ _ hr
  exact (sane_map (f := Prod.fst) (sane_eval (B := B) (S := (· ≠ .code)) (root := scope) n
    (fun m _ => by cases m <;> simp [CrashOk]) [] scope)).2 _ h1.symm rfl

/-- The code of a larger expression is the code of its parts: compiling appends to what is
already there, and does not depend on it. -/
theorem C09_compile_appends (B : Builtins) (al : List (Option String)) (n : Node)
    (buf code : List Op) (h : compileNode B al n buf = .ok code) :
    ∃ seg, compileNode B al n [] = .ok seg ∧ code = buf ++ seg := by
  obtain ⟨ha, rfl⟩ := compileNode_gen h
  rcases compSpec B n with ⟨_, hc⟩ | ⟨h', _⟩
  · exact ⟨gen al n, by simpa using hc al [], rfl⟩
  · exact absurd ha h'

/-! ### Instances -/

/-- builtins used in the examples -/
def demoB : Builtins where
  checks := true
  num := { add := fun a b => some (a + b), sub := fun a b => some (a - b),
           mul := fun a b => some (a * b), div := fun a b => if b = 0 then none else some (a / b),
           rem := fun _ _ => none, pow := fun _ _ => none }
  fnArity := fun f => if f = "string" then some (1, 1) else none
  fn := fun _ vs => match vs with | [.str s] => .ok (.str s) | _ => .error (.err "unsupported")
  mArity := fun _ => none
  method := fun _ _ => .error (.err "unsupported")

/-- `some([1, 2], # > x) ? "yes" : "no"` with `x = 1` -/
def demoN : Node :=
  .cond (.closure .some (.arr [.num 1, .num 2]) none (.binary (.cmp .gt) .pointer (.ident "x")))
    (.str "yes") (.str "no")

def demoScope : Scope := { base := .obj [("x", .num 1)] }

example : ∃ code, compile demoB demoN = .ok code ∧
    evaluate demoB demoScope demoN = .ok (.str "yes") ∧
    runCode demoB code demoScope 100 = some (.ok (.str "yes")) := by
  exact ⟨_, rfl, rfl, rfl⟩

/-- an element of an enclosing loop is on hand when the code of a body runs -/
example : LoopsOk [(some "a", .num 7)] [{ arr := [.num 5, .num 7], len := 2, iter := 1, count := 0 }] := by
  simp [LoopsOk]

end Zen
