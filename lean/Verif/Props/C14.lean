import Verif.Props.C10
import Verif.Expr.Ev
import Verif.Props.C11
import Verif.Expr.Congr
import Verif.Core.MapLemmas
/-
C14  Caching in the reusable evaluator is invisible.
The specification is an evaluator that has no caches at all: its only state is the input with the
locals set so far, and every expression is parsed, compiled and evaluated afresh.
-/
namespace Zen

/-- one call on the evaluator without caches -/
def freshApply (F : FrontEnd) (B : Builtins) (scope : Scope) : IsoOp → IsoOut × Scope
  | .setEnvironment v => (.unit (.ok ()), { base := v })
  | .setLocal k v => (.unit (.ok ()), scope.setLocal k v)
  | .insertDollar p v =>
    let d : Val := match scope.local_ "$" with | some (.obj m) => .obj m | _ => .obj []
    (.unit (.ok ()), scope.setLocal "$" (d.dotInsert p v).1)
  | .setReferenceValue v => (.unit (.ok ()), scope.setLocal "$" v)
  | .setReference src => match freshRun F B scope .standard src with
    | .error e => (.unit (.error e), scope)
    | .ok v => (.unit (.ok ()), scope.setLocal "$" v)
  | .runStandard src => (.val (freshRun F B scope .standard src), scope)
  | .runUnary src => (.bool (match freshRun F B scope .unary src with
      | .ok (.bool b) => .ok b
      | .ok _ => .error .valueCast
      | .error e => .error e), scope)
  | .compile k src => (.code (match F k src with
      | .error e => .error e
      | .ok n => match compile B n with
        | .error e => .error (.compiler e)
        | .ok code => .ok code), scope)

def freshApplyAll (F : FrontEnd) (B : Builtins) : Scope → List IsoOp → List IsoOut × Scope
  | s, [] => ([], s)
  | s, o :: os =>
    let r := freshApply F B s o
    let rs := freshApplyAll F B r.2 os
    (r.1 :: rs.1, rs.2)

/-- the shared cache holds compiled forms of the sources it lists -/
def CacheOk (F : FrontEnd) (B : Builtins) (c : Option OpCache) : Prop :=
  ∀ cc, c = some cc → ∀ k src code, cc.get k src = some code →
    ∃ n, F k src = .ok n ∧ compile B n = .ok code

section
variable {F : FrontEnd} {B : Builtins} {J : Junk}

theorem runLeft_mono {root : Scope} {code : List Op} (fuel : Nat) : ∀ (s : VmState) r (k : Nat),
    runLeft B J root code fuel s = some r → runLeft B J root code (fuel + k) s = some r := by
  induction fuel with
  | zero => intro s r k h; cases h
  | succ n ih =>
    intro s r k h
    rw [show n + 1 + k = (n + k) + 1 by omega]
    simp only [runLeft] at h ⊢
    split at h
    · exact h
    · split at h
      · exact h
      · exact ih _ _ _ h

theorem vmRun_mono {vm : Vm} {code : List Op} {scope : Scope} {fuel : Nat} {r} (k : Nat)
    (h : vm.run B J code scope fuel = some r) : vm.run B J code scope (fuel + k) = some r :=
  runLeft_mono fuel _ _ k h

theorem runCompiled_mono {i : Iso} {code : List Op} {fuel : Nat} {r} (k : Nat)
    (h : i.runCompiled B J fuel code = some r) : i.runCompiled B J (fuel + k) code = some r := by
  unfold Iso.runCompiled at h ⊢
  cases hv : i.vm.run B J code i.scope fuel with
  | none => rw [hv] at h; cases h
  | some q => rw [hv] at h; rw [vmRun_mono k hv]; exact h

theorem runKind_mono {i : Iso} {kd : Kind} {src : String} {fuel : Nat} {r} (k : Nat)
    (h : i.runKind F B J kd fuel src = some r) : i.runKind F B J kd (fuel + k) src = some r := by
  unfold Iso.runKind at h ⊢
  revert h
  cases i.cached kd src with
  | some code => exact runCompiled_mono k
  | none =>
    dsimp only
    rcases i.runInternal F B J src kd with ⟨r, i'⟩
    cases r with
    | error e => exact id
    | ok u => exact runCompiled_mono k

theorem apply_mono {i : Iso} {o : IsoOp} {fuel : Nat} {r} (k : Nat)
    (h : i.apply F B J fuel o = some r) : i.apply F B J (fuel + k) o = some r := by
  cases o with
  | runStandard src =>
    simp only [Iso.apply] at h ⊢
    cases hr : i.runKind F B J .standard fuel src with
    | none => rw [hr] at h; cases h
    | some q => rw [runKind_mono k hr]; rw [hr] at h; exact h
  | runUnary src =>
    simp only [Iso.apply] at h ⊢
    cases hr : i.runKind F B J .unary fuel src with
    | none => rw [hr] at h; cases h
    | some q => rw [runKind_mono k hr]; rw [hr] at h; exact h
  | setReference src =>
    simp only [Iso.apply, Iso.setReference] at h ⊢
    revert h
    cases i.refs.lookup src with
    | some v => exact id
    | none =>
      dsimp only
      intro h
      cases hr : i.runKind F B J .standard fuel src with
      | none => rw [hr] at h; cases h
      | some q => rw [runKind_mono k hr]; rw [hr] at h; exact h
  | _ => exact h

/-- the machine runs a compiled program to its meaning -/
theorem vmRun_compiled (vm : Vm) {n : Node} {code : List Op} (scope : Scope)
    (hc : compile B n = .ok code) :
    (∃ fuel left, vm.run B J code scope fuel = some (evaluate B scope n, left)) ∧
    (∀ fuel r left, vm.run B J code scope fuel = some (r, left) → r = evaluate B scope n) := by
  obtain ⟨⟨f, hf⟩, hd⟩ := C09_run_is_meaning B n code scope hc
  constructor
  · have := C10_vm_reuse B J vm code scope f
    rw [hf] at this
    cases hv : vm.run B J code scope f with
    | none => rw [hv] at this; cases this
    | some q =>
      obtain ⟨q, left⟩ := q
      rw [hv] at this
      cases this
      exact ⟨f, left, hv⟩
  · intro fuel r left h
    have := C10_vm_reuse B J vm code scope fuel
    rw [h] at this
    exact hd fuel r this.symm

/-- how a machine result is reported -/
def report : Except VErr Val → Except IErr Val
  | .error e => .error (.vm e)
  | .ok v => .ok v

theorem runCompiled_spec (i : Iso) {n : Node} {code : List Op} (hc : compile B n = .ok code) :
    (∃ fuel i', i.runCompiled B J fuel code = some (report (evaluate B i.scope n), i')) ∧
    (∀ fuel r i', i.runCompiled B J fuel code = some (r, i') → r = report (evaluate B i.scope n)) := by
  obtain ⟨⟨f, left, hf⟩, hd⟩ := vmRun_compiled (J := J) i.vm i.scope hc
  constructor
  · refine ⟨f, { i with vm := left }, ?_⟩
    unfold Iso.runCompiled
    rw [hf]
    cases evaluate B i.scope n <;> rfl
  · intro fuel r i' h
    unfold Iso.runCompiled at h
    cases hv : i.vm.run B J code i.scope fuel with
    | none => rw [hv] at h; cases h
    | some q =>
      obtain ⟨q, left⟩ := q
      rw [hv] at h
      rw [← hd _ _ _ hv]
      cases q <;> cases h <;> rfl

theorem freshRun_ok {scope : Scope} {k : Kind} {src : String} {n : Node} {code : List Op}
    (hF : F k src = .ok n) (hc : compile B n = .ok code) :
    freshRun F B scope k src = report (evaluate B scope n) := by
  unfold freshRun report
  rw [hF]; dsimp only; rw [hc]
  cases evaluate B scope n <;> rfl

theorem runKind_spec (i : Iso) (hok : CacheOk F B i.cache) (k : Kind) (src : String) :
    (∃ fuel i', i.runKind F B J k fuel src = some (freshRun F B i.scope k src, i')) ∧
    (∀ fuel r i', i.runKind F B J k fuel src = some (r, i') → r = freshRun F B i.scope k src) := by
  unfold Iso.runKind
  cases hch : i.cached k src with
  | some code =>
    have : ∃ n, F k src = .ok n ∧ compile B n = .ok code := by
      unfold Iso.cached at hch
      cases hcc : i.cache with
      | none => rw [hcc] at hch; cases hch
      | some cc => rw [hcc] at hch; exact hok cc hcc k src code hch
    obtain ⟨n, hF, hc⟩ := this
    rw [freshRun_ok hF hc]
    exact runCompiled_spec i hc
  | none =>
    dsimp only
    unfold Iso.runInternal
    cases hF : F k src with
    | error e =>
      have : freshRun F B i.scope k src = .error e := by unfold freshRun; rw [hF]
      rw [this]
      exact ⟨⟨0, i, rfl⟩, fun fuel r i' h => by cases h; rfl⟩
    | ok n =>
      dsimp only
      cases hc : compile B n with
      | error e =>
        have : freshRun F B i.scope k src = .error (.compiler e) := by
          unfold freshRun; rw [hF]; dsimp only; rw [hc]
        rw [this]
        have hcomp := (C10_compiler_reuse B J i.compiler n).2 e hc
        rcases hx : i.compiler.compile B J n with ⟨r, c⟩
        rw [hx] at hcomp
        dsimp only at hcomp
        subst hcomp
        exact ⟨⟨0, _, rfl⟩, fun fuel r i' h => by cases h; rfl⟩
      | ok code =>
        rw [freshRun_ok hF hc, (C10_compiler_reuse B J i.compiler n).1 code hc]
        exact runCompiled_spec { i with compiler := ⟨code⟩ } hc
end

/-- The compile cache is invisible: with any cache of compiled sources (or none), after any use,
running a source ends, and the result is the result computed from scratch. -/
theorem C14_compile_cache_invisible (F : FrontEnd) (B : Builtins) (J : Junk) (i : Iso) (k : Kind)
    (src : String) (hok : CacheOk F B i.cache) :
    (∃ fuel i', i.runKind F B J k fuel src = some (freshRun F B i.scope k src, i')) ∧
    (∀ fuel r i', i.runKind F B J k fuel src = some (r, i') → r = freshRun F B i.scope k src) :=
  runKind_spec i hok k src

/-- The calls only set locals named in `L` (`$` among them), and reference expressions neither
mention such a name, nor the whole context, nor assign. -/
def RefsAvoid (F : FrontEnd) (L : List String) (ops : List IsoOp) : Prop :=
  "$" ∈ L ∧ ∀ o ∈ ops, match o with
    | .setLocal k _ => k ∈ L
    | .setReference src => ∀ n, F .standard src = .ok n → NoAssign n ∧ Avoids L n
    | _ => True

section
variable {F : FrontEnd} {B : Builtins} {J : Junk} {L : List String}

/-- every cached reference value is what computing it now would give -/
def RefsOk (F : FrontEnd) (B : Builtins) (L : List String) (i : Iso) : Prop :=
  ∀ src v, i.refs.lookup src = some v →
    (∀ n, F .standard src = .ok n → NoAssign n ∧ Avoids L n) ∧
    freshRun F B i.scope .standard src = .ok v

theorem sameOutside_setLocal (s : Scope) (k : String) (v : Val) (hk : k ∈ L) :
    SameOutside L s (s.setLocal k v) := by
  refine ⟨.inl rfl, fun j hj => ?_⟩
  have : k ≠ j := fun e => hj (e ▸ hk)
  simp [Scope.setLocal, aGet_aSet, this.symm]

theorem freshRun_congr {s s' : Scope} {src : String} (h : SameOutside L s s')
    (ha : ∀ n, F .standard src = .ok n → NoAssign n ∧ Avoids L n) :
    freshRun F B s .standard src = freshRun F B s' .standard src := by
  unfold freshRun
  cases hF : F .standard src with
  | error e => rfl
  | ok n =>
    dsimp only
    cases compile B n with
    | error e => rfl
    | ok c =>
      dsimp only
      rw [evaluate_congr (ha n hF).1 (ha n hF).2 h]

theorem refsOk_setLocal {i : Iso} (h : RefsOk F B L i) (k : String) (v : Val) (hk : k ∈ L) :
    RefsOk F B L (i.setLocal k v) := by
  intro src w hw
  obtain ⟨h1, h2⟩ := h src w hw
  refine ⟨h1, ?_⟩
  exact (freshRun_congr (sameOutside_setLocal i.scope k v hk) h1).symm.trans h2

/-- one call: same result, same scope afterwards, invariant kept -/
theorem apply_spec (o : IsoOp) (i : Iso) (hok : CacheOk F B i.cache) (hr : RefsOk F B L i)
    (hL : "$" ∈ L)
    (ho : match o with
      | .setLocal k _ => k ∈ L
      | .setReference src => ∀ n, F .standard src = .ok n → NoAssign n ∧ Avoids L n
      | _ => True) :
    (∃ fuel i', i.apply F B J fuel o = some ((freshApply F B i.scope o).1, i')) ∧
    (∀ fuel r i', i.apply F B J fuel o = some (r, i') →
      r = (freshApply F B i.scope o).1 ∧ i'.scope = (freshApply F B i.scope o).2 ∧
      CacheOk F B i'.cache ∧ RefsOk F B L i') := by
  cases o with
  | setEnvironment v =>
    exact ⟨⟨0, _, rfl⟩, fun fuel r i' h => by
      cases h; exact ⟨rfl, rfl, hok, fun s w hw => by cases hw⟩⟩
  | setLocal k v =>
    exact ⟨⟨0, _, rfl⟩, fun fuel r i' h => by
      cases h; exact ⟨rfl, rfl, hok, refsOk_setLocal hr k v ho⟩⟩
  | insertDollar p v =>
    exact ⟨⟨0, _, rfl⟩, fun fuel r i' h => by
      cases h; exact ⟨rfl, rfl, hok, refsOk_setLocal hr _ _ hL⟩⟩
  | setReferenceValue v =>
    exact ⟨⟨0, _, rfl⟩, fun fuel r i' h => by
      cases h; exact ⟨rfl, rfl, hok, refsOk_setLocal hr _ _ hL⟩⟩
  | runStandard src =>
    obtain ⟨⟨f, j, hf⟩, hd⟩ := runKind_spec (J := J) i hok .standard src
    refine ⟨⟨f, j, by simp only [Iso.apply, hf]; rfl⟩, fun fuel r i' h => ?_⟩
    simp only [Iso.apply] at h
    cases hk : i.runKind F B J .standard fuel src with
    | none => rw [hk] at h; cases h
    | some q =>
      obtain ⟨q, j'⟩ := q
      rw [hk] at h; cases h
      obtain ⟨s1, s2, s3⟩ := C10_run_leaves_input F B J fuel i j' _ src q hk
      refine ⟨by rw [hd _ _ _ hk]; rfl, s1, by rw [s3]; exact hok, ?_⟩
      intro s w hw; rw [s2] at hw; rw [s1]; exact hr s w hw
  | runUnary src =>
    obtain ⟨⟨f, j, hf⟩, hd⟩ := runKind_spec (J := J) i hok .unary src
    refine ⟨⟨f, j, by simp only [Iso.apply, hf]; rfl⟩, fun fuel r i' h => ?_⟩
    simp only [Iso.apply] at h
    cases hk : i.runKind F B J .unary fuel src with
    | none => rw [hk] at h; cases h
    | some q =>
      obtain ⟨q, j'⟩ := q
      rw [hk] at h; cases h
      obtain ⟨s1, s2, s3⟩ := C10_run_leaves_input F B J fuel i j' _ src q hk
      refine ⟨by rw [hd _ _ _ hk]; rfl, s1, by rw [s3]; exact hok, ?_⟩
      intro s w hw; rw [s2] at hw; rw [s1]; exact hr s w hw
  | setReference src =>
    simp only [Iso.apply, Iso.setReference, freshApply]
    cases hl : i.refs.lookup src with
    | some v =>
      obtain ⟨h1, h2⟩ := hr src v hl
      simp only [h2]
      exact ⟨⟨0, _, rfl⟩, fun fuel r i' h => by
        cases h; exact ⟨rfl, rfl, hok, refsOk_setLocal hr _ _ hL⟩⟩
    | none =>
      dsimp only
      obtain ⟨⟨f, j, hf⟩, hd⟩ := runKind_spec (J := J) i hok .standard src
      constructor
      · refine ⟨f, ?_⟩
        simp only [hf]
        cases freshRun F B i.scope .standard src with
        | error e => exact ⟨_, rfl⟩
        | ok v => exact ⟨_, rfl⟩
      · intro fuel r i' h
        cases hk : i.runKind F B J .standard fuel src with
        | none => rw [hk] at h; cases h
        | some q =>
          obtain ⟨q, j'⟩ := q
          rw [hk] at h
          obtain ⟨s1, s2, s3⟩ := C10_run_leaves_input F B J fuel i j' _ src q hk
          have hq := hd _ _ _ hk
          rw [← hq]
          have hr' : RefsOk F B L j' := by
            intro s w hw; rw [s2] at hw; rw [s1]; exact hr s w hw
          cases q with
          | error e => cases h; exact ⟨rfl, s1, by rw [s3]; exact hok, hr'⟩
          | ok v =>
            cases h
            refine ⟨rfl, by simp [Iso.setLocal, s1], by simp only [Iso.setLocal]; rw [s3]; exact hok, ?_⟩
            refine refsOk_setLocal (i := { j' with refs := (src, v) :: j'.refs }) ?_ _ _ hL
            intro s w hw
            by_cases e : s = src
            · subst e
              simp only [List.lookup_cons, beq_self_eq_true] at hw
              cases hw
              exact ⟨ho, by dsimp only; rw [s1]; exact hq.symm⟩
            · have : (s == src) = false := by simp [e]
              simp only [List.lookup_cons, this] at hw
              exact hr' s w hw
  | compile k src =>
    simp only [Iso.apply, freshApply, Iso.runInternal]
    cases hF : F k src with
    | error e =>
      exact ⟨⟨0, _, rfl⟩, fun fuel r i' h => by cases h; exact ⟨rfl, rfl, hok, hr⟩⟩
    | ok n =>
      dsimp only
      cases hc : compile B n with
      | error e =>
        have hcomp := (C10_compiler_reuse B J i.compiler n).2 e hc
        rcases hx : i.compiler.compile B J n with ⟨r, c⟩
        rw [hx] at hcomp
        dsimp only at hcomp
        subst hcomp
        exact ⟨⟨0, _, rfl⟩, fun fuel r i' h => by cases h; exact ⟨rfl, rfl, hok, hr⟩⟩
      | ok code =>
        rw [(C10_compiler_reuse B J i.compiler n).1 code hc]
        exact ⟨⟨0, _, rfl⟩, fun fuel r i' h => by cases h; exact ⟨rfl, rfl, hok, hr⟩⟩

theorem applyAll_mono (os : List IsoOp) : ∀ {i : Iso} {fuel : Nat} {r} (k : Nat),
    i.applyAll F B J fuel os = some r → i.applyAll F B J (fuel + k) os = some r := by
  induction os with
  | nil => intro i fuel r k h; exact h
  | cons o os ih =>
    intro i fuel r k h
    simp only [Iso.applyAll] at h ⊢
    cases ha : i.apply F B J fuel o with
    | none => rw [ha] at h; cases h
    | some q =>
      rw [ha] at h; rw [apply_mono k ha]
      dsimp only at h ⊢
      cases hb : q.2.applyAll F B J fuel os with
      | none => rw [hb] at h; cases h
      | some q' => rw [hb] at h; rw [ih k hb]; exact h

theorem applyAll_spec (os : List IsoOp) : ∀ (i : Iso), CacheOk F B i.cache → RefsOk F B L i →
    RefsAvoid F L os →
    (∃ fuel i', i.applyAll F B J fuel os = some ((freshApplyAll F B i.scope os).1, i')) ∧
    (∀ fuel r i', i.applyAll F B J fuel os = some (r, i') →
      r = (freshApplyAll F B i.scope os).1 ∧ i'.scope = (freshApplyAll F B i.scope os).2) := by
  induction os with
  | nil => intro i _ _ _; exact ⟨⟨0, i, rfl⟩, fun fuel r i' h => by cases h; exact ⟨rfl, rfl⟩⟩
  | cons o os ih =>
    intro i hok hr ⟨hL, ho⟩
    obtain ⟨⟨f, j, hf⟩, hd⟩ := apply_spec (J := J) o i hok hr hL (ho o (List.mem_cons_self ..))
    constructor
    · obtain ⟨_, s2, s3, s4⟩ := hd _ _ _ hf
      obtain ⟨⟨g, j', hg⟩, _⟩ := ih j s3 s4 ⟨hL, fun q hq => ho q (List.mem_cons_of_mem _ hq)⟩
      refine ⟨f + g, j', ?_⟩
      simp only [Iso.applyAll, apply_mono g hf]
      rw [Nat.add_comm f g, applyAll_mono os f hg]
      simp only [freshApplyAll, s2]
    · intro fuel r i' h
      simp only [Iso.applyAll] at h
      cases ha : i.apply F B J fuel o with
      | none => rw [ha] at h; cases h
      | some q =>
        obtain ⟨q, j⟩ := q
        rw [ha] at h
        obtain ⟨s1, s2, s3, s4⟩ := hd _ _ _ ha
        dsimp only at h
        cases hb : j.applyAll F B J fuel os with
        | none => rw [hb] at h; cases h
        | some q' =>
          obtain ⟨q', j'⟩ := q'
          rw [hb] at h
          cases h
          obtain ⟨t1, t2⟩ := (ih j s3 s4 ⟨hL, fun q hq => ho q (List.mem_cons_of_mem _ hq)⟩).2 _ _ _ hb
          simp only [freshApplyAll]
          rw [← s2, ← t1, ← t2, s1]
          exact ⟨rfl, rfl⟩
end

/-- Caching is invisible in whole histories, as long as the cached references do not depend on
locals: for every sequence of calls on a new evaluator, every call returns what the evaluator
without caches returns. In particular references computed under an earlier input are never seen
after the input was changed. (Missing for the full property: references that depend on locals;
for those it fails, see `C14_stale_reference`.) -/
theorem C14_history_partial (F : FrontEnd) (B : Builtins) (J : Junk) (cache : Option OpCache)
    (L : List String) (ops : List IsoOp) (hok : CacheOk F B cache) (hops : RefsAvoid F L ops) :
    (∃ fuel i', ({ cache := cache } : Iso).applyAll F B J fuel ops =
      some ((freshApplyAll F B { base := .null } ops).1, i')) ∧
    (∀ fuel results i', ({ cache := cache } : Iso).applyAll F B J fuel ops = some (results, i') →
      results = (freshApplyAll F B { base := .null } ops).1) :=
  let h := applyAll_spec (J := J) (L := L) ops ({ cache := cache } : Iso) hok
    (fun _ _ hw => by cases hw) hops
  ⟨h.1, fun fuel results i' hr => (h.2 fuel results i' hr).1⟩

/-- Changing the input discards every cached reference: the next call behaves as on a new
evaluator with that input. -/
theorem C14_environment_discards (F : FrontEnd) (B : Builtins) (J : Junk) (fuel : Nat) (i : Iso)
    (v : Val) (ops : List IsoOp) :
    ((i.setEnvironment v).applyAll F B J fuel ops).map Prod.fst =
      (({ scope := { base := v }, cache := i.cache } : Iso).applyAll F B J fuel ops).map Prod.fst :=
  C10_no_memory F B J fuel (i.setEnvironment v) (i.setEnvironment v) [] [] ops rfl

/-! ### The evaluator with only its reference cache

Node handlers are modelled on `Ev`, which keeps the scope and the reference cache of `Iso` and
nothing else. Unlike the theorem about histories above this needs no condition on the references. -/

/-- `Ev` holds the scope and the references of `i` -/
def Iso.ev (i : Iso) : Ev := { scope := i.scope, refs := i.refs }

section
variable {F : FrontEnd} {B : Builtins} {J : Junk}

theorem ev_apply (o : IsoOp) (i : Iso) (hok : CacheOk F B i.cache) :
    (∃ fuel i', i.apply F B J fuel o = some ((i.ev.apply F B o).1, i')) ∧
    (∀ fuel r i', i.apply F B J fuel o = some (r, i') →
      r = (i.ev.apply F B o).1 ∧ i'.ev = (i.ev.apply F B o).2 ∧ CacheOk F B i'.cache) := by
  cases o with
  | setEnvironment v =>
    exact ⟨⟨0, _, rfl⟩, fun fuel r i' h => by cases h; exact ⟨rfl, rfl, hok⟩⟩
  | setLocal k v =>
    exact ⟨⟨0, _, rfl⟩, fun fuel r i' h => by cases h; exact ⟨rfl, rfl, hok⟩⟩
  | insertDollar p v =>
    exact ⟨⟨0, _, rfl⟩, fun fuel r i' h => by cases h; exact ⟨rfl, rfl, hok⟩⟩
  | setReferenceValue v =>
    exact ⟨⟨0, _, rfl⟩, fun fuel r i' h => by cases h; exact ⟨rfl, rfl, hok⟩⟩
  | runStandard src =>
    obtain ⟨⟨f, j, hf⟩, hd⟩ := runKind_spec (J := J) i hok .standard src
    refine ⟨⟨f, j, by simp only [Iso.apply, hf]; rfl⟩, fun fuel r i' h => ?_⟩
    simp only [Iso.apply] at h
    cases hk : i.runKind F B J .standard fuel src with
    | none => rw [hk] at h; cases h
    | some q =>
      obtain ⟨q, j'⟩ := q
      rw [hk] at h; cases h
      obtain ⟨s1, s2, s3⟩ := C10_run_leaves_input F B J fuel i j' _ src q hk
      exact ⟨by rw [hd _ _ _ hk]; rfl, by simp [Iso.ev, Ev.apply, s1, s2], by rw [s3]; exact hok⟩
  | runUnary src =>
    obtain ⟨⟨f, j, hf⟩, hd⟩ := runKind_spec (J := J) i hok .unary src
    refine ⟨⟨f, j, by simp only [Iso.apply, hf]; rfl⟩, fun fuel r i' h => ?_⟩
    simp only [Iso.apply] at h
    cases hk : i.runKind F B J .unary fuel src with
    | none => rw [hk] at h; cases h
    | some q =>
      obtain ⟨q, j'⟩ := q
      rw [hk] at h; cases h
      obtain ⟨s1, s2, s3⟩ := C10_run_leaves_input F B J fuel i j' _ src q hk
      exact ⟨by rw [hd _ _ _ hk]; rfl, by simp [Iso.ev, Ev.apply, s1, s2], by rw [s3]; exact hok⟩
  | setReference src =>
    have hrun : i.ev.run F B src = freshRun F B i.scope .standard src := rfl
    simp only [Iso.apply, Iso.setReference, Ev.apply, Ev.setReference, hrun]
    have hl : i.ev.refs = i.refs := rfl
    rw [hl]
    cases hl : i.refs.lookup src with
    | some v =>
      exact ⟨⟨0, _, rfl⟩, fun fuel r i' h => by cases h; exact ⟨rfl, rfl, hok⟩⟩
    | none =>
      dsimp only
      obtain ⟨⟨f, j, hf⟩, hd⟩ := runKind_spec (J := J) i hok .standard src
      constructor
      · refine ⟨f, ?_⟩
        simp only [hf]
        cases freshRun F B i.scope .standard src with
        | error e => exact ⟨_, rfl⟩
        | ok v => exact ⟨_, rfl⟩
      · intro fuel r i' h
        cases hk : i.runKind F B J .standard fuel src with
        | none => rw [hk] at h; cases h
        | some q =>
          obtain ⟨q, j'⟩ := q
          rw [hk] at h
          obtain ⟨s1, s2, s3⟩ := C10_run_leaves_input F B J fuel i j' _ src q hk
          rw [← hd _ _ _ hk]
          cases q with
          | error e => cases h; exact ⟨rfl, by simp [Iso.ev, s1, s2], by rw [s3]; exact hok⟩
          | ok v =>
            cases h
            exact ⟨rfl, by simp [Iso.ev, Iso.setLocal, Ev.setLocal, s1, s2],
              by simp only [Iso.setLocal]; rw [s3]; exact hok⟩
  | compile k src =>
    simp only [Iso.apply, Ev.apply, Iso.runInternal]
    cases hF : F k src with
    | error e =>
      exact ⟨⟨0, _, rfl⟩, fun fuel r i' h => by cases h; exact ⟨rfl, rfl, hok⟩⟩
    | ok n =>
      dsimp only
      cases hc : compile B n with
      | error e =>
        have hcomp := (C10_compiler_reuse B J i.compiler n).2 e hc
        rcases hx : i.compiler.compile B J n with ⟨r, c⟩
        rw [hx] at hcomp
        dsimp only at hcomp
        subst hcomp
        exact ⟨⟨0, _, rfl⟩, fun fuel r i' h => by cases h; exact ⟨rfl, rfl, hok⟩⟩
      | ok code =>
        rw [(C10_compiler_reuse B J i.compiler n).1 code hc]
        exact ⟨⟨0, _, rfl⟩, fun fuel r i' h => by cases h; exact ⟨rfl, rfl, hok⟩⟩
end

/-- For every sequence of calls on an evaluator in any state, with any cache of compiled sources,
the calls end, return what the same calls on `Ev` return, and leave the scope and the references
`Ev` has. -/
theorem C14_only_references_matter (F : FrontEnd) (B : Builtins) (J : Junk) (ops : List IsoOp) :
    ∀ (i : Iso), CacheOk F B i.cache →
    (∃ fuel i', i.applyAll F B J fuel ops = some ((i.ev.applyAll F B ops).1, i')) ∧
    (∀ fuel results i', i.applyAll F B J fuel ops = some (results, i') →
      results = (i.ev.applyAll F B ops).1 ∧ i'.ev = (i.ev.applyAll F B ops).2) := by
  induction ops with
  | nil => intro i _; exact ⟨⟨0, i, rfl⟩, fun fuel r i' h => by cases h; exact ⟨rfl, rfl⟩⟩
  | cons o os ih =>
    intro i hok
    obtain ⟨⟨f, j, hf⟩, hd⟩ := ev_apply (J := J) o i hok
    constructor
    · obtain ⟨_, s2, s3⟩ := hd _ _ _ hf
      obtain ⟨⟨g, j', hg⟩, _⟩ := ih j s3
      refine ⟨f + g, j', ?_⟩
      simp only [Iso.applyAll, apply_mono g hf]
      rw [Nat.add_comm f g, applyAll_mono os f hg]
      simp only [Ev.applyAll, s2]
    · intro fuel r i' h
      simp only [Iso.applyAll] at h
      cases ha : i.apply F B J fuel o with
      | none => rw [ha] at h; cases h
      | some q =>
        obtain ⟨q, j⟩ := q
        rw [ha] at h
        obtain ⟨s1, s2, s3⟩ := hd _ _ _ ha
        dsimp only at h
        cases hb : j.applyAll F B J fuel os with
        | none => rw [hb] at h; cases h
        | some q' =>
          obtain ⟨q', j'⟩ := q'
          rw [hb] at h
          cases h
          obtain ⟨t1, t2⟩ := (ih j s3).2 _ _ _ hb
          simp only [Ev.applyAll]
          rw [← s2, ← t1, ← t2, s1]
          exact ⟨rfl, rfl⟩

/-! ### A reference that depends on a local is served stale -/

def frontX : FrontEnd := fun _ s => if s = "$" then .ok (.ident "$") else .ok (.ident "x")

/-- set the local `x` to 1, take `x` as reference, change it to 2, take `x` as reference again -/
def staleOps : List IsoOp :=
  [.setEnvironment (.obj []), .setLocal "x" (.num 1), .setReference "x",
   .setLocal "x" (.num 2), .setReference "x", .runStandard "$"]

/-- The full property fails: the second reference still gives the old value. -/
theorem C14_stale_reference :
    (({} : Iso).applyAll frontX demoB junkDemo 20 staleOps).map Prod.fst =
      some [.unit (.ok ()), .unit (.ok ()), .unit (.ok ()), .unit (.ok ()), .unit (.ok ()),
        .val (.ok (.num 1))] ∧
    (freshApplyAll frontX demoB { base := .null } staleOps).1 =
      [.unit (.ok ()), .unit (.ok ()), .unit (.ok ()), .unit (.ok ()), .unit (.ok ()),
        .val (.ok (.num 2))] ∧
    (Val.num 1 ≠ .num 2) :=
  ⟨rfl, rfl, by simp⟩

def frontD : FrontEnd := fun _ s => if s = "$" then .ok (.ident "$")
  else if s = "[$]" then .ok (.arr [.ident "$"]) else .ok (.ident "x")
def staleDollarOps : List IsoOp :=
  [.setEnvironment (.obj [("x", .num 1)]), .setReference "x", .setReference "[$]",
   .setReference "[$]", .runStandard "$"]

/-- `$` itself is such a local, so no explicit local is needed: taking the reference `[$]` twice
gives `[1]` both times, while computed afresh the second one is `[[1]]`. -/
theorem C14_stale_dollar :
    (({} : Iso).applyAll frontD demoB junkDemo 20 staleDollarOps).map Prod.fst =
      some [.unit (.ok ()), .unit (.ok ()), .unit (.ok ()), .unit (.ok ()),
        .val (.ok (.arr [.num 1]))] ∧
    (freshApplyAll frontD demoB { base := .null } staleDollarOps).1 =
      [.unit (.ok ()), .unit (.ok ()), .unit (.ok ()), .unit (.ok ()),
        .val (.ok (.arr [.arr [.num 1]]))] :=
  ⟨rfl, rfl⟩

/-! ### Instances -/

/-- references `x` (an input property), the local `$` set repeatedly, a change of input -/
example : RefsAvoid frontX ["$"] [.setEnvironment (.obj [("x", .num 1)]), .setReference "x",
    .runUnary "$", .setReference "x", .setEnvironment (.obj [("x", .num 2)]), .setReference "x",
    .runStandard "$"] := by
  refine ⟨by simp, ?_⟩
  intro o ho
  simp only [List.mem_cons, List.not_mem_nil, or_false] at ho
  rcases ho with rfl | rfl | rfl | rfl | rfl | rfl | rfl <;> try trivial
  all_goals
    intro n hn
    simp [frontX] at hn
    subst hn
    exact ⟨trivial, by simp [Avoids]⟩
example : CacheOk frontX demoB (some { standard := [("x", [.fetchEnv "x"])] }) := by
  intro cc h k src code hg
  cases h
  cases k with
  | unary => simp [OpCache.get] at hg
  | standard =>
    simp only [OpCache.get, List.lookup_cons, List.lookup_nil] at hg
    by_cases e : src = "x"
    · subst e
      simp only [beq_self_eq_true] at hg
      cases hg
      exact ⟨_, rfl, rfl⟩
    · have : (src == "x") = false := by simp [e]
      rw [this] at hg
      cases hg

end Zen
