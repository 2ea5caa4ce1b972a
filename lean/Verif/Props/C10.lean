import Verif.Expr.Isolate
import Verif.Props.C09
/-
C10  A reused evaluator has no memory.
`Iso` is the reusable evaluator with its compiler buffer and its machine; `J : Junk` is what
failed calls leave behind in those buffers, and is arbitrary.
-/
namespace Zen

/-- the same input, references and shared cache, but a new compiler and a new machine -/
def Iso.fresh (i : Iso) : Iso := { i with compiler := {}, vm := {} }

theorem runLeft_fst (B : Builtins) (J : Junk) (root : Scope) (code : List Op) (fuel : Nat) :
    ∀ s, (runLeft B J root code fuel s).map Prod.fst = runFrom B root code fuel s := by
  induction fuel with
  | zero => intro s; rfl
  | succ n ih =>
    intro s
    simp only [runLeft, runFrom]
    cases code[s.ip]? with
    | none => dsimp only; cases s.pop <;> rfl
    | some op =>
      dsimp only
      cases exec B root op { s with ip := s.ip + 1 } with
      | error e => rfl
      | ok s' => exact ih _

/-- A run on a used machine gives the result of the program, whatever the machine did before. -/
theorem C10_vm_reuse (B : Builtins) (J : Junk) (vm : Vm) (code : List Op) (scope : Scope)
    (fuel : Nat) :
    (vm.run B J code scope fuel).map Prod.fst = runCode B code scope fuel :=
  runLeft_fst B J scope code fuel _

/-- Compiling with a used compiler gives the code a fresh one gives, also after a failed
compilation has left part of a program in the buffer. -/
theorem C10_compiler_reuse (B : Builtins) (J : Junk) (c : Comp) (n : Node) :
    (∀ code, compile B n = .ok code → c.compile B J n = (.ok (), ⟨code⟩)) ∧
    (∀ e, compile B n = .error e → (c.compile B J n).1 = .error e) := by
  constructor
  · intro code h
    simp only [compile] at h
    simp [Comp.compile, h]
  · intro e h
    simp only [compile] at h
    simp [Comp.compile, h]

/-- everything observable about an evaluator except its buffers -/
def Iso.SameAs (i j : Iso) : Prop := i.scope = j.scope ∧ i.refs = j.refs ∧ i.cache = j.cache

theorem vmRun_indep (B : Builtins) (J : Junk) (vm vm' : Vm) (code : List Op) (scope : Scope)
    (fuel : Nat) : vm.run B J code scope fuel = vm'.run B J code scope fuel := rfl

theorem compile_indep (B : Builtins) (J : Junk) (c c' : Comp) (n : Node) :
    c.compile B J n = c'.compile B J n := rfl

theorem runInternal_same (F : FrontEnd) (B : Builtins) (J : Junk) {i j : Iso} (h : i.SameAs j)
    (src : String) (k : Kind) :
    (i.runInternal F B J src k).1 = (j.runInternal F B J src k).1 ∧
    (i.runInternal F B J src k).2.SameAs (j.runInternal F B J src k).2 ∧
    ((i.runInternal F B J src k).1 = .ok () →
      (i.runInternal F B J src k).2.compiler = (j.runInternal F B J src k).2.compiler) := by
  unfold Iso.runInternal
  cases F k src with
  | error e => exact ⟨rfl, h, by intro h; cases h⟩
  | ok n =>
    dsimp only
    rw [compile_indep B J i.compiler j.compiler n]
    rcases hc : j.compiler.compile B J n with ⟨r, c⟩
    cases r with
    | ok u => exact ⟨rfl, h, fun _ => rfl⟩
    | error e => exact ⟨rfl, h, fun _ => rfl⟩

theorem runCompiled_same (B : Builtins) (J : Junk) (fuel : Nat) {i j : Iso} (h : i.SameAs j)
    (code : List Op) :
    Option.Rel (fun a b => a.1 = b.1 ∧ a.2.SameAs b.2)
      (i.runCompiled B J fuel code) (j.runCompiled B J fuel code) := by
  unfold Iso.runCompiled
  rw [vmRun_indep B J i.vm j.vm, h.1]
  cases j.vm.run B J code j.scope fuel with
  | none => exact .none
  | some r =>
    obtain ⟨r, vm⟩ := r
    cases r with
    | ok v => exact .some ⟨rfl, ⟨rfl, h.2.1, h.2.2⟩⟩
    | error e => exact .some ⟨rfl, ⟨rfl, h.2.1, h.2.2⟩⟩

theorem runKind_same (F : FrontEnd) (B : Builtins) (J : Junk) (k : Kind) (fuel : Nat) {i j : Iso}
    (h : i.SameAs j) (src : String) :
    Option.Rel (fun a b => a.1 = b.1 ∧ a.2.SameAs b.2)
      (i.runKind F B J k fuel src) (j.runKind F B J k fuel src) := by
  unfold Iso.runKind
  have hcache : i.cached k src = j.cached k src := by unfold Iso.cached; rw [h.2.2]
  rw [hcache]
  cases j.cached k src with
  | some code => exact runCompiled_same B J fuel h code
  | none =>
    dsimp only
    obtain ⟨h1, h2, h3⟩ := runInternal_same F B J h src k
    rcases hi : i.runInternal F B J src k with ⟨r, i'⟩
    rcases hj : j.runInternal F B J src k with ⟨r', j'⟩
    simp only [hi, hj] at h1 h2 h3
    subst h1
    cases r with
    | error e => exact .some ⟨rfl, h2⟩
    | ok u =>
      dsimp only
      rw [h3 rfl]
      exact runCompiled_same B J fuel h2 _

theorem relMapOpt {α β : Type} {R : α → α → Prop} {S : β → β → Prop} (f : α → β)
    (hf : ∀ a b, R a b → S (f a) (f b)) {x y : Option α} (h : Option.Rel R x y) :
    Option.Rel S (x.map f) (y.map f) := by
  cases h with
  | none => exact .none
  | some h => exact .some (hf _ _ h)

theorem apply_same (F : FrontEnd) (B : Builtins) (J : Junk) (fuel : Nat) {i j : Iso}
    (h : i.SameAs j) (o : IsoOp) :
    Option.Rel (fun a b => a.1 = b.1 ∧ a.2.SameAs b.2)
      (i.apply F B J fuel o) (j.apply F B J fuel o) := by
  obtain ⟨h1, h2, h3⟩ := h
  cases o with
  | setEnvironment v => exact .some ⟨rfl, ⟨rfl, rfl, h3⟩⟩
  | setLocal k v => exact .some ⟨rfl, ⟨by simp [Iso.setLocal, h1], h2, h3⟩⟩
  | insertDollar p v => exact .some ⟨rfl, ⟨by simp [Iso.insertDollar, Iso.setLocal, h1], h2, h3⟩⟩
  | setReferenceValue v => exact .some ⟨rfl, ⟨by simp [Iso.setLocal, h1], h2, h3⟩⟩
  | runStandard src =>
    exact relMapOpt _ (fun a b hab => ⟨by rw [hab.1], hab.2⟩)
      (runKind_same F B J .standard fuel ⟨h1, h2, h3⟩ src)
  | runUnary src =>
    exact relMapOpt _ (fun a b hab => ⟨by rw [hab.1], hab.2⟩)
      (runKind_same F B J .unary fuel ⟨h1, h2, h3⟩ src)
  | setReference src =>
    refine relMapOpt (R := fun a b => a.1 = b.1 ∧ a.2.SameAs b.2) _
      (fun a b hab => ⟨by rw [hab.1], hab.2⟩) ?_
    unfold Iso.setReference
    rw [h2]
    cases j.refs.lookup src with
    | some v => exact .some ⟨rfl, ⟨by simp [Iso.setLocal, h1], h2, h3⟩⟩
    | none =>
      dsimp only
      have hk := runKind_same F B J .standard fuel ⟨h1, h2, h3⟩ src
      revert hk
      rcases i.runKind F B J .standard fuel src with _ | ⟨r, i'⟩ <;>
        rcases j.runKind F B J .standard fuel src with _ | ⟨r', j'⟩ <;> intro hk <;> cases hk
      · exact .none
      · rename_i hk
        obtain ⟨hr, hs⟩ := hk
        dsimp only at hr hs
        subst hr
        obtain ⟨s1, s2, s3⟩ := hs
        cases r with
        | error e => exact .some ⟨rfl, ⟨s1, s2, s3⟩⟩
        | ok v => exact .some ⟨rfl, ⟨by simp [Iso.setLocal, s1], by simp [Iso.setLocal, s2], s3⟩⟩
  | compile k src =>
    simp only [Iso.apply]
    obtain ⟨e1, e2, e3⟩ := runInternal_same F B J ⟨h1, h2, h3⟩ src k
    rcases hi : i.runInternal F B J src k with ⟨r, i'⟩
    rcases hj : j.runInternal F B J src k with ⟨r', j'⟩
    simp only [hi, hj] at e1 e2 e3
    subst e1
    cases r with
    | error e => exact .some ⟨rfl, e2⟩
    | ok u => exact .some ⟨by rw [e3 rfl], e2⟩

theorem applyAll_same (F : FrontEnd) (B : Builtins) (J : Junk) (fuel : Nat) (os : List IsoOp) :
    ∀ {i j : Iso}, i.SameAs j →
    Option.Rel (fun a b => a.1 = b.1 ∧ a.2.SameAs b.2)
      (i.applyAll F B J fuel os) (j.applyAll F B J fuel os) := by
  induction os with
  | nil => intro i j h; exact .some ⟨rfl, h⟩
  | cons o os ih =>
    intro i j h
    simp only [Iso.applyAll]
    have ha := apply_same F B J fuel h o
    revert ha
    rcases i.apply F B J fuel o with _ | ⟨r, i'⟩ <;>
      rcases j.apply F B J fuel o with _ | ⟨r', j'⟩ <;> intro hk <;> cases hk
    · exact .none
    · rename_i hk
      obtain ⟨hr, hs⟩ := hk
      dsimp only at hr hs
      subst hr
      dsimp only
      have hb := ih hs
      revert hb
      rcases i'.applyAll F B J fuel os with _ | ⟨rs, i2⟩ <;>
        rcases j'.applyAll F B J fuel os with _ | ⟨rs', j2⟩ <;> intro hk <;> cases hk
      · exact .none
      · rename_i hk
        obtain ⟨hr, hs⟩ := hk
        dsimp only at hr hs
        subst hr
        exact .some ⟨rfl, hs⟩

/-- After any sequence of calls, successful or not, on an evaluator, every further sequence of
calls returns exactly what it returns on an evaluator with a fresh compiler and a fresh machine
and the same input and references. -/
theorem C10_no_memory (F : FrontEnd) (B : Builtins) (J : Junk) (fuel : Nat) (start used : Iso)
    (history : List IsoOp) (results : List IsoOut) (future : List IsoOp)
    (_h : start.applyAll F B J fuel history = some (results, used)) :
    (used.applyAll F B J fuel future).map Prod.fst =
      (used.fresh.applyAll F B J fuel future).map Prod.fst := by
  have := applyAll_same F B J fuel future (i := used) (j := used.fresh) ⟨rfl, rfl, rfl⟩
  revert this
  rcases used.applyAll F B J fuel future with _ | ⟨r, i⟩ <;>
    rcases used.fresh.applyAll F B J fuel future with _ | ⟨r', j⟩ <;> intro h <;> cases h
  · rfl
  · rename_i h; simpa using h.1

/-- Evaluating an expression does not touch input and references, so the next evaluation of any
expression sees exactly the input that was set. -/
theorem C10_run_leaves_input (F : FrontEnd) (B : Builtins) (J : Junk) (fuel : Nat) (i i' : Iso)
    (k : Kind) (src : String) (r : Except IErr Val)
    (h : i.runKind F B J k fuel src = some (r, i')) : i'.SameAs i := by
  have key : ∀ (j j' : Iso) code r, j.runCompiled B J fuel code = some (r, j') → j'.SameAs j := by
    intro j j' code r h
    unfold Iso.runCompiled at h
    split at h <;> cases h <;> exact ⟨rfl, rfl, rfl⟩
  unfold Iso.runKind at h
  split at h
  · exact key _ _ _ _ h
  · have hint : (i.runInternal F B J src k).2.SameAs i := by
      unfold Iso.runInternal
      split
      · exact ⟨rfl, rfl, rfl⟩
      · split <;> exact ⟨rfl, rfl, rfl⟩
    split at h
    · rename_i hi; rw [hi] at hint; cases h; exact hint
    · rename_i hi; rw [hi] at hint
      obtain ⟨a, b, c⟩ := key _ _ _ _ h
      exact ⟨a.trans hint.1, b.trans hint.2.1, c.trans hint.2.2⟩

/-! ### Instance: a history with a run that fails in the middle of a loop -/

/-- `filter([1], -"x")` fails inside the loop; the machine keeps the open loop and a value -/
def junkDemo : Junk := ⟨fun s => ⟨s.stack, s.loops⟩, fun _ => [.pushNull]⟩
def frontDemo : FrontEnd := fun _ s =>
  if s = "bad" then .ok (.closure .filter (.arr [.num 1]) none failing')
  else if s = "syntax" then .error (.front "unexpected token") else .ok (.ident "x")
where failing' : Node := .unary (.arith .sub) (.str "x")

example : ∃ results used, ({ scope := demoScope } : Iso).applyAll frontDemo demoB junkDemo 50
      [.runStandard "bad", .runStandard "syntax"] = some (results, used) ∧
    used.vm.loops.length = 1 ∧
    (used.applyAll frontDemo demoB junkDemo 50 [.runStandard "x"]).map Prod.fst =
      some [.val (.ok (.num 1))] :=
  ⟨_, _, rfl, rfl, rfl⟩

end Zen
