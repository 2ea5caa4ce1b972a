import Verif.Builtins.Registry
import Verif.Props.C09
import Verif.Props.C12
import Verif.Props.C20
import Verif.Props.C22
/-
C46  Built-ins are total: which calls crash the process instead of returning a value or an error.

The claim holds but for a list of exceptions, and the theorems say exactly which: `rand` of a negative
number and formatting a date with an unknown format crash in every build; a build with overflow checks
also crashes on the median of an empty array, on an empty template, on intervals and durations at the
limit of their integers. Not covered: what library functions (the parameters) do, and running out of
memory or stack.
-/
namespace Zen
open Fn
open Dur (Build Duration DUnit)

/-! ### Functions -/

namespace Total

/-- not a crash -/
def Calm {α : Type} (r : Fn.Res α) : Prop := r ≠ .error .panic

theorem calm_ok {α : Type} (a : α) : Calm (.ok a : Fn.Res α) := by simp [Calm]
theorem calm_pure {α : Type} (a : α) : Calm (pure a : Fn.Res α) := by simp [Calm, pure, Except.pure]
theorem calm_err {α : Type} (m : String) : Calm (.error (.err m) : Fn.Res α) := by simp [Calm]
theorem calm_bind {α β : Type} {x : Fn.Res α} {f : α → Fn.Res β} (hx : Calm x) (hf : ∀ a, x = .ok a → Calm (f a)) :
    Calm (x >>= f) := by
  cases x with
  | ok a => exact hf a rfl
  | error e => intro h; exact hx (by simpa [bind, Except.bind] using h)

macro "calm" : tactic =>
  `(tactic| (repeat' first
    | exact calm_ok _ | exact calm_pure _ | exact calm_err _
    | (refine calm_bind ?_ (fun _ _ => ?_)) | split | dsimp only))

theorem argVar (a : List Val) (i : Nat) : Calm (argVar a i) := by unfold Fn.argVar; calm
theorem argStr (a : List Val) (i : Nat) : Calm (argStr a i) := by unfold Fn.argStr; calm
theorem argOStr (a : List Val) (i : Nat) : Calm (argOStr a i) := by unfold Fn.argOStr; calm
theorem argNum (a : List Val) (i : Nat) : Calm (argNum a i) := by unfold Fn.argNum; calm
theorem argONum (a : List Val) (i : Nat) : Calm (argONum a i) := by unfold Fn.argONum; calm
theorem argArr (a : List Val) (i : Nat) : Calm (argArr a i) := by unfold Fn.argArr; calm
theorem argObj (a : List Val) (i : Nat) : Calm (argObj a i) := by unfold Fn.argObj; calm

macro "calm'" : tactic =>
  `(tactic| (repeat' first
    | exact argVar _ _ | exact argStr _ _ | exact argOStr _ _ | exact argNum _ _ | exact argONum _ _
    | exact argArr _ _ | exact argObj _ _
    | exact calm_ok _ | exact calm_pure _ | exact calm_err _
    | (refine calm_bind ?_ (fun _ _ => ?_)) | split | dsimp only))

theorem mergeArrs (xs : List Val) : ∀ acc, Calm (mergeArrs acc xs) := by
  induction xs with
  | nil => intro acc; exact calm_ok _
  | cons x xs ih => intro acc; cases x <;> first | exact ih _ | exact calm_err _
theorem mergeObjs (xs : List Val) : ∀ acc, Calm (mergeObjs acc xs) := by
  induction xs with
  | nil => intro acc; exact calm_ok _
  | cons x xs ih => intro acc; cases x <;> first | exact ih _ | exact calm_err _
theorem mergeDeepGo (xs : List Val) : ∀ acc, Calm (mergeDeepGo acc xs) := by
  induction xs with
  | nil => intro acc; exact calm_ok _
  | cons x xs ih => intro acc; cases x <;> first | exact ih _ | exact calm_err _
theorem numArray (a : List Val) (i : Nat) : Calm (numArray a i) := by unfold Fn.numArray; calm'
theorem numOrDateArray (a : List Val) (i : Nat) : Calm (numOrDateArray a i) := by
  unfold Fn.numOrDateArray; calm'
theorem decimalPlaces (a : List Val) (i : Nat) : Calm (decimalPlaces a i) := by
  unfold Fn.decimalPlaces; calm'

theorem others (L : Lib) (D : Dec.Rounding) (checks : Bool) (n : Name) (args : List Val)
    (h1 : n ≠ .rand) (h2 : n ≠ .median) : Calm (call L D checks n args) := by
  cases n <;> first | exact absurd rfl h1 | exact absurd rfl h2 | skip
  all_goals simp only [call]
  case len => unfold Fn.len; calm'
  case contains => unfold Fn.contains; calm'
  case flatten => unfold Fn.flatten; calm'
  case merge =>
    unfold Fn.merge
    refine calm_bind (argArr _ _) fun _ _ => ?_
    split
    · exact calm_pure _
    · exact calm_bind (mergeArrs _ _) fun _ _ => calm_pure _
    · exact calm_bind (mergeObjs _ _) fun _ _ => calm_pure _
    · exact calm_err _
  case mergeDeep => exact calm_bind (argArr _ _) fun _ _ => mergeDeepGo _ _
  case upper => unfold Fn.upper; calm'
  case lower => unfold Fn.lower; calm'
  case trim => unfold Fn.trim; calm'
  case startsWith => unfold Fn.startsWith; calm'
  case endsWith => unfold Fn.endsWith; calm'
  case matches_ => unfold Fn.matches_; calm'
  case extract => unfold Fn.extract; calm'
  case fuzzyMatch => unfold Fn.fuzzyMatch; calm'
  case split => unfold Fn.split; calm'
  case abs => unfold Fn.abs; calm'
  case sum => exact calm_bind (numArray _ _) fun _ _ => by calm
  case avg => exact calm_bind (numArray _ _) fun _ _ => by calm
  case min => exact calm_bind (numOrDateArray _ _) fun _ _ => by calm
  case max => exact calm_bind (numOrDateArray _ _) fun _ _ => by calm
  case mode => exact calm_bind (numArray _ _) fun _ _ => by calm
  case floor => unfold Fn.floor; calm'
  case ceil => unfold Fn.ceil; calm'
  case round => exact calm_bind (argNum _ _) fun _ _ => calm_bind (decimalPlaces _ _) fun _ _ => calm_pure _
  case trunc => exact calm_bind (argNum _ _) fun _ _ => calm_bind (decimalPlaces _ _) fun _ _ => calm_pure _
  case isNumeric => unfold Fn.isNumeric; calm'
  case string => unfold Fn.toString; calm'
  case number => unfold Fn.toNumber; calm'
  case bool => unfold Fn.toBool; calm'
  case type => unfold Fn.toType; calm'
  case keys => unfold Fn.keys; calm'
  case values => unfold Fn.values; calm'
  case date => unfold Fn.date; calm'

theorem halfEven_neg (x : Rat) : Dec.halfEven x < 0 ↔ x < -(1 / 2) := by
  constructor
  · intro h
    have a := (Dec.halfEven_near x).1
    have b : (Dec.halfEven x : Rat) ≤ -1 := by exact_mod_cast (show Dec.halfEven x ≤ -1 by omega)
    rcases lt_or_eq_of_le (show x ≤ -(1 / 2) by linarith) with c | c
    · exact c
    · subst c
      have hf : ⌊(-(1 / 2) : Rat)⌋ = -1 := by rw [Int.floor_eq_iff]; constructor <;> norm_num
      unfold Dec.halfEven at h
      rw [hf] at h
      norm_num at h
  · intro h
    by_contra hc
    have b : (0 : Rat) ≤ (Dec.halfEven x : Rat) := by exact_mod_cast (show (0 : Int) ≤ Dec.halfEven x by omega)
    linarith [(Dec.halfEven_near x).2]

theorem halfEven_least (x : Rat) : -(2 ^ 63) ≤ Dec.halfEven x ↔ (-(2 ^ 63) - 1 / 2 : Rat) ≤ x := by
  constructor
  · intro h
    have b : ((-(2 ^ 63) : Int) : Rat) ≤ (Dec.halfEven x : Rat) := by exact_mod_cast h
    have := (Dec.halfEven_near x).2
    push_cast at b
    linarith
  · intro h
    have e : Dec.halfEven (-(2 ^ 63) - 1 / 2) = -(2 ^ 63) := by
      have hf : ⌊(-(2 ^ 63) - 1 / 2 : Rat)⌋ = -(2 ^ 63) - 1 := by
        rw [Int.floor_eq_iff]; constructor <;> norm_num
      unfold Dec.halfEven
      rw [hf]
      norm_num
    rw [← e]
    exact Dec.halfEven_mono h

end Total

/-- The calls of functions that crash: `rand` with a negative upper bound (after rounding; numbers below the
64-bit range are refused), and, with overflow checks, `median` of an empty array. Every other call of a
function, whatever its arguments, returns a value or an error. -/
theorem C46_functions (L : Lib) (D : Dec.Rounding) (checks : Bool) (n : Name) (args : List Val) :
    call L D checks n args = .error .panic ↔
      (n = .rand ∧ ∃ x : Rat, args[0]? = some (.num x) ∧ -(2 ^ 63) - 1 / 2 ≤ x ∧ x < -(1 / 2)) ∨
      (n = .median ∧ checks = true ∧ args[0]? = some (.arr [])) := by
  by_cases h1 : n = .rand
  · subst h1
    simp only [call, reduceCtorEq, false_and, or_false, true_and]
    have hnum : argNum args 0 = match (args[0]? : Option Val) with
        | some (.num x) => .ok x
        | _ => .error (.err "Argument is not a number") := rfl
    constructor
    · intro h
      unfold rand at h
      cases ha : argNum args 0 with
      | error e =>
        rw [ha] at h
        simp only [bind, Except.bind, Except.error.injEq] at h
        exact absurd (h ▸ ha) (Total.argNum _ _)
      | ok x =>
        rw [ha] at h
        rw [hnum] at ha
        split at ha
        · rename_i y hy
          cases ha
          refine ⟨x, hy, ?_⟩
          simp only [bind, Except.bind] at h
          unfold toI64 at h
          rw [ratTrunc_int] at h
          split at h
          · cases h
          · rename_i u hu
            split_ifs at hu with hr
            cases hu
            split_ifs at h with hp
            · cases h
            · exact ⟨(Total.halfEven_least x).1 hr.1, (Total.halfEven_neg x).1 (by omega)⟩
        · cases ha
    · rintro ⟨x, hx, h1, h2⟩
      have a := (Total.halfEven_least x).2 h1
      have b := (Total.halfEven_neg x).2 h2
      unfold rand
      rw [hnum, hx]
      simp only [bind, Except.bind]
      unfold toI64
      rw [ratTrunc_int, if_pos ⟨a, by omega⟩]
      dsimp only
      rw [if_neg (by omega)]
  by_cases h2 : n = .median
  · subst h2
    simp only [call, reduceCtorEq, false_and, false_or, true_and]
    constructor
    · intro h
      cases ha : args[0]? with
      | none => simp [median, numArray, argArr, ha, bind, Except.bind] at h
      | some v =>
        cases v with
        | arr xs =>
          have hm : median D checks args = median D checks [.arr xs] := by
            simp [median, numArray, argArr, ha]
          rw [hm] at h
          cases hn : allNums xs with
          | none => simp [median, numArray, argArr, hn, bind, Except.bind] at h
          | some ns =>
            have hx : xs = ns.map .num := by
              clear h hm ha
              induction xs generalizing ns with
              | nil => cases hn; rfl
              | cons x xs ih =>
                cases x <;> simp only [allNums] at hn <;> try cases hn
                cases hq : allNums xs with
                | none => rw [hq] at hn; cases hn
                | some q =>
                  rw [hq] at hn; cases hn
                  rw [ih q hq]; rfl
            cases ns with
            | nil =>
              subst hx
              refine ⟨?_, rfl⟩
              cases checks with
              | true => rfl
              | false => exact absurd h (C20_median_no_panic D [])
            | cons y ns =>
              exfalso
              subst hx
              have hmn : median D checks [.arr ((y :: ns).map .num)] = median D false [.arr ((y :: ns).map .num)] := by
                simp only [median, numArray, argArr, bind, Except.bind, pure, Except.pure]
                simp only [List.getElem?_cons_zero, hn]
                unfold medianOf
                have hl : ¬ ((y :: ns).insertionSort (· ≤ ·)).length = 0 := by
                  rw [List.length_insertionSort]; simp
                by_cases ho : ((y :: ns).insertionSort (· ≤ ·)).length % 2 = 1
                · simp only [ho, if_true]
                · have hc : ¬ ((y :: ns).insertionSort (· ≤ ·)).length / 2 = 0 := by omega
                  simp only [ho, if_false, hc]
              rw [hmn] at h
              exact C20_median_no_panic D _ h
        | _ => simp [median, numArray, argArr, ha, bind, Except.bind] at h
    · rintro ⟨rfl, ha⟩
      simp [median, numArray, argArr, ha, bind, Except.bind, pure, Except.pure, allNums, medianOf]
  · constructor
    · intro h; exact absurd h (Total.others L D checks n args h1 h2)
    · rintro (⟨h, _⟩ | ⟨h, _⟩)
      · exact absurd h h1
      · exact absurd h h2

/-- The deprecated date functions never crash. -/
theorem C46_deprecated (L : DLib) (n : DName) (args : List Val) : depCall L n args ≠ .error .panic := by
  have hc : ∀ v, Total.Calm (convertDate L v) := by intro v; unfold convertDate; calm
  have hp : ∀ part, Total.Calm (depPart L part args) := fun part =>
    Total.calm_bind (Total.argVar _ _) fun _ _ => Total.calm_bind (hc _) fun _ _ => Total.calm_pure _
  have he : ∀ edge, Total.Calm (depEdge L edge args) := fun edge =>
    Total.calm_bind (Total.argVar _ _) fun _ _ => Total.calm_bind (Total.argStr _ _) fun _ _ =>
      Total.calm_bind (hc _) fun _ _ => by calm
  show Total.Calm _
  cases n <;> simp only [depCall] <;> first | exact hp _ | exact he _ | skip
  · unfold depDate; calm'
  · unfold depTime; calm'
  · unfold depDuration; calm'

/-! ### Methods of dates -/

namespace Total

theorem thisDate (a : List Arg) : Calm (thisDate a) := by unfold Fn.thisDate; calm
theorem mStr (a : List Arg) (i : Nat) : Calm (mStr a i) := by unfold Fn.mStr; calm
theorem mOStr (a : List Arg) (i : Nat) : Calm (mOStr a i) := by unfold Fn.mOStr; calm
theorem mUnit (a : List Arg) (i : Nat) : Calm (mUnit a i) := calm_bind (mStr _ _) fun _ _ => by calm
theorem mUnitOpt (a : List Arg) (i : Nat) : Calm (mUnitOpt a i) := calm_bind (mOStr _ _) fun _ _ => by calm
theorem mDate (L : DLib) (a : List Arg) (i : Nat) : Calm (mDate L a i) := by unfold Fn.mDate; calm

end Total

/-- The method calls that crash, by build. `format` crashes in every build: on a valid date with a format
string that has an unknown item. `add` and `sub` crash when reading the duration overflows, and `sub` when
the duration cannot be negated. No other method crashes, whatever its arguments. -/
theorem C46_methods (L : DLib) (b : Build) (m : MName) (args : List Arg) :
    mCall L b m args = .error .panic ↔
      (m = .format ∧ ∃ d f, args[0]? = some (.date (some d)) ∧ args[1]? = some (.val (.str f)) ∧ L.fmtOk f = false) ∨
      ((m = .add ∨ m = .sub) ∧ (∃ d, args[0]? = some (.date d)) ∧ mDuration b args 1 = .error .panic) ∨
      (m = .sub ∧ ∃ d dur, args[0]? = some (.date (some d)) ∧ mDuration b args 1 = .ok dur ∧ dur.negate b = none) := by
  have ht : ∀ d, Fn.thisDate args = .ok d ↔ args[0]? = some (.date d) := by
    intro d
    unfold Fn.thisDate
    split
    · rename_i h; rw [h]; simp
    · rename_i h
      constructor
      · intro q; cases q
      · intro q; exact absurd q (h d)
  cases m with
  | format =>
    simp only [mCall, reduceCtorEq, false_and, or_false, true_and]
    unfold mFormat
    cases hd : Fn.thisDate args with
    | error e =>
      simp only [bind, Except.bind]
      constructor
      · intro h; rw [Except.error.injEq] at h; exact absurd (h ▸ hd) (Total.thisDate _)
      · rintro ⟨d, f, h, _⟩; rw [(ht _).2 h] at hd; cases hd
    | ok d =>
      have hd' := (ht d).1 hd
      simp only [bind, Except.bind]
      cases hf : Fn.mOStr args 1 with
      | error e =>
        constructor
        · intro h; simp only [Except.error.injEq] at h; exact absurd (h ▸ hf) (Total.mOStr _ _)
        · rintro ⟨d, f, _, h, _⟩; simp [Fn.mOStr, h] at hf
      | ok o =>
        dsimp only
        cases d with
        | none =>
          constructor
          · intro h; cases h
          · rintro ⟨d, f, h, _⟩; rw [hd'] at h; cases h
        | some d =>
          cases o with
          | none =>
            constructor
            · intro h; cases h
            · rintro ⟨d, f, _, h, _⟩; simp [Fn.mOStr, h] at hf
          | some f =>
            have hf' : args[1]? = some (.val (.str f)) := by
              unfold Fn.mOStr at hf
              split at hf
              · rename_i h; cases hf; exact h
              · cases hf
              · cases hf
            dsimp only
            cases hq : L.fmtOk f with
            | true =>
              constructor
              · intro h; cases h
              · rintro ⟨_, g, _, h, h'⟩
                rw [hf'] at h; cases h; rw [hq] at h'; cases h'
            | false => exact ⟨fun _ => ⟨d, f, hd', hf', hq⟩, fun _ => rfl⟩
  | add =>
    simp only [mCall, reduceCtorEq, false_and, or_false, true_and, false_or]
    unfold mAdd
    cases hd : Fn.thisDate args with
    | error e =>
      simp only [bind, Except.bind]
      constructor
      · intro h; rw [Except.error.injEq] at h; exact absurd (h ▸ hd) (Total.thisDate _)
      · rintro ⟨⟨d, h⟩, _⟩; rw [(ht _).2 h] at hd; cases hd
    | ok d =>
      simp only [bind, Except.bind]
      cases hu : mDuration b args 1 with
      | error e =>
        constructor
        · intro h; exact ⟨⟨d, (ht d).1 hd⟩, by simpa using h⟩
        · rintro ⟨_, h⟩; simpa using h
      | ok u =>
        constructor
        · intro h; cases h
        · rintro ⟨_, h⟩; cases h
  | sub =>
    simp only [mCall, reduceCtorEq, false_and, or_true, true_and, false_or]
    unfold mSub
    cases hd : Fn.thisDate args with
    | error e =>
      simp only [bind, Except.bind]
      constructor
      · intro h; rw [Except.error.injEq] at h; exact absurd (h ▸ hd) (Total.thisDate _)
      · rintro (⟨⟨d, h⟩, _⟩ | ⟨d, u, h, _⟩) <;> (rw [(ht _).2 h] at hd; cases hd)
    | ok d =>
      have hd' := (ht d).1 hd
      simp only [bind, Except.bind]
      cases hu : mDuration b args 1 with
      | error e =>
        constructor
        · intro h; exact .inl ⟨⟨d, hd'⟩, by simpa using h⟩
        · rintro (⟨_, h⟩ | ⟨_, u, _, h, _⟩)
          · simpa using h
          · cases h
      | ok u =>
        dsimp only
        cases d with
        | none =>
          constructor
          · intro h; cases h
          · rintro (⟨_, h⟩ | ⟨d, u, h, _⟩)
            · cases h
            · rw [hd'] at h; cases h
        | some d =>
          dsimp only
          cases hn : u.negate b with
          | none => exact ⟨fun _ => .inr ⟨d, u, hd', rfl, hn⟩, fun _ => rfl⟩
          | some v =>
            constructor
            · intro h; cases h
            · rintro (⟨_, h⟩ | ⟨_, w, _, h, h'⟩)
              · cases h
              · cases h; rw [hn] at h'; cases h'
  | _ =>
    simp only [reduceCtorEq, false_and, or_false, iff_false]
    show Total.Calm _
    simp only [mCall]
    first
    | exact Total.calm_bind (Total.thisDate _) fun _ _ => Total.calm_bind (Total.mUnit _ _) fun _ _ => Total.calm_pure _
    | exact Total.calm_bind (Total.thisDate _) fun _ _ => Total.calm_bind (Total.mUnit _ _) fun _ _ => by calm
    | exact Total.calm_bind (Total.thisDate _) fun _ _ => Total.calm_bind (Total.mDate _ _ _) fun _ _ =>
        Total.calm_bind (Total.mUnitOpt _ _) fun _ _ => by calm
    | exact Total.calm_bind (Total.thisDate _) fun _ _ => Total.calm_bind (Total.mStr _ _) fun _ _ => by calm
    | exact Total.calm_bind (Total.thisDate _) fun _ _ => by calm

/-- Reading the duration argument of a method crashes only with overflow checks, and only when a number of
quarters, multiplied by three, leaves the 32-bit range. -/
theorem C46_duration_argument (b : Build) (args : List Arg) (i : Nat) (h : mDuration b args i = .error .panic) :
    b.overflowChecks = true ∧
    ((∃ s, args[i]? = some (.val (.str s)) ∧ Dur.QuartersOverflow s.toList) ∨
     (∃ x : Rat, ∃ k : Int, args[i]? = some (.val (.num x)) ∧ Dur.toI32 x = some k ∧
       (3 * k < -(2 ^ 31) ∨ 2 ^ 31 ≤ 3 * k))) := by
  unfold mDuration at h
  split at h
  · cases h
  · rename_i s hs
    split at h
    · cases h
    · cases h
    · rename_i hp
      obtain ⟨c⟩ := b
      cases c with
      | false => exact absurd hp (Dur.C22_no_panic _)
      | true => exact ⟨rfl, .inl ⟨s, hs, Dur.C22_panic _ hp⟩⟩
  · rename_i x hx
    cases hu : Fn.mUnit args (i + 1) with
    | error e =>
      rw [hu] at h
      simp only [bind, Except.bind, Except.error.injEq] at h
      exact absurd (h ▸ hu) (Total.mUnit _ _)
    | ok u =>
      rw [hu] at h
      simp only [bind, Except.bind] at h
      split at h
      · cases h
      · cases h
      · rename_i hp
        unfold Duration.fromUnit at hp
        split at hp
        · split at hp <;> cases hp
        · split at hp
          · split at hp <;> cases hp
          · split at hp
            · rename_i k hk
              split at hp
              · cases hp
              · rename_i hw
                unfold Build.wrap at hw
                split_ifs at hw with h1 h2
                exact ⟨h2, .inr ⟨x, k, hx, hk, by omega⟩⟩
            · cases hp
          · split at hp <;> cases hp
          · cases hp
  · cases h

/-- A build without overflow checks crashes on a method call only for an invalid format. -/
theorem C46_methods_release (L : DLib) (m : MName) (args : List Arg) :
    mCall L ⟨false⟩ m args = .error .panic ↔
      m = .format ∧ ∃ d f, args[0]? = some (.date (some d)) ∧ args[1]? = some (.val (.str f)) ∧ L.fmtOk f = false := by
  rw [C46_methods]
  constructor
  · rintro (h | ⟨_, _, h⟩ | ⟨_, _, dur, _, _, h⟩)
    · exact h
    · exact absurd (C46_duration_argument _ _ _ h).1 (by simp)
    · simp [Duration.negate, Build.wrap] at h
      split_ifs at h <;> simp at h
  · exact .inl

/-! ### Expressions -/

theorem Total.i64Wrap (checks : Bool) (i : Int) (c : Crash) :
    i64Wrap checks i = .error (.panic c) ↔ c = .interval ∧ checks = true ∧ (i < -(2 ^ 63) ∨ 2 ^ 63 ≤ i) := by
  unfold Zen.i64Wrap
  split_ifs with h1 h2
  · simp; intro _ _; omega
  · simp only [Except.error.injEq, VErr.panic.injEq, h2, true_and]
    exact ⟨fun h => ⟨h.symm, by omega⟩, fun h => h.1.symm⟩
  · simp [h2]

theorem Total.toI64_range {x : Rat} {i : Int} (h : toI64 x = some i) : -(2 ^ 63) ≤ i ∧ i < 2 ^ 63 := by
  unfold toI64 at h
  split_ifs at h with hr
  cases h; exact hr

theorem Total.rangeStart (checks : Bool) (lb : Brk) (l : Rat) (c : Crash) :
    rangeStart checks lb l = .error (.panic c) ↔
      c = .interval ∧ checks = true ∧ lb = .lparen ∧ toI64 l = some (2 ^ 63 - 1) := by
  cases lb <;> simp only [Zen.rangeStart, reduceCtorEq, false_and, and_false, true_and]
  cases h : toI64 l with
  | none => simp
  | some i =>
    have := Total.toI64_range h
    simp only [Total.i64Wrap, Option.some.injEq]
    constructor <;> (intro ⟨a, b, c⟩; exact ⟨a, b, by omega⟩)

theorem Total.rangeEnd (checks : Bool) (rb : Brk) (r : Rat) (c : Crash) :
    rangeEnd checks rb r = .error (.panic c) ↔
      c = .interval ∧ checks = true ∧ rb = .rparen ∧ toI64 r = some (-(2 ^ 63)) := by
  cases rb <;> simp only [Zen.rangeEnd, reduceCtorEq, false_and, and_false, true_and]
  cases h : toI64 r with
  | none => simp
  | some i =>
    have := Total.toI64_range h
    simp only [Total.i64Wrap, Option.some.injEq]
    constructor <;> (intro ⟨a, b, c⟩; exact ⟨a, b, by omega⟩)

theorem Total.rangeStart_ok {checks : Bool} {lb : Brk} {l : Rat} :
    (∃ a, Zen.rangeStart checks lb l = .ok (some a)) ↔
      (lb = .lsq ∧ (toI64 l).isSome) ∨
      (lb = .lparen ∧ ∃ i, toI64 l = some i ∧ (checks = true → i ≠ 2 ^ 63 - 1)) := by
  cases lb <;> simp only [Zen.rangeStart, reduceCtorEq, false_and, or_false, false_or, true_and, Except.ok.injEq,
    exists_false]
  · cases h : toI64 l with
    | none => simp
    | some i =>
      have := Total.toI64_range h
      simp only [Option.some.injEq]
      unfold Zen.i64Wrap
      split_ifs with h1 h2
      · simp; intro _; omega
      · simp [h2]; omega
      · simp [h2]
  · cases toI64 l <;> simp

/-- The array an interval stands for in a closure: crashes only with overflow checks, and only for an excluded
bound at the limit of 64 bits. -/
theorem C46_begin (checks : Bool) (v : Val) (c : Crash) :
    opBegin checks v = .error (.panic c) ↔ c = .interval ∧ checks = true ∧
      ∃ lb rb : Brk, ∃ l r : Rat, v = .dyn (.interval lb rb (.num l) (.num r)) ∧
        ((lb = .lparen ∧ toI64 l = some (2 ^ 63 - 1)) ∨
         (rb = .rparen ∧ toI64 r = some (-(2 ^ 63)) ∧ (lb = .lparen ∨ lb = .lsq) ∧ (toI64 l).isSome)) := by
  constructor
  · intro h
    unfold opBegin at h
    split at h
    · cases h
    · rename_i lb rb l r
      split at h
      · rename_i e he
        cases h
        unfold intervalToArray at he
        split at he
        · rename_i l r
          split at he
          · rename_i e hs
            cases he
            obtain ⟨h1, h2, h3, h4⟩ := (Total.rangeStart ..).1 hs
            exact ⟨h1, h2, _, _, _, _, rfl, .inl ⟨h3, h4⟩⟩
          · cases he
          · rename_i a hs
            split at he
            · rename_i e hs'
              cases he
              obtain ⟨h1, h2, h3, h4⟩ := (Total.rangeEnd ..).1 hs'
              refine ⟨h1, h2, _, _, _, _, rfl, .inr ⟨h3, h4, ?_⟩⟩
              rcases Total.rangeStart_ok.1 ⟨a, hs⟩ with ⟨q1, q2⟩ | ⟨q1, i, q2, _⟩
              · exact ⟨.inr q1, q2⟩
              · exact ⟨.inl q1, by rw [q2]; rfl⟩
            · cases he
            · cases he
        · cases he
      · cases h
      · cases h
    · cases h
  · rintro ⟨rfl, rfl, lb, rb, l, r, rfl, h⟩
    simp only [opBegin, intervalToArray]
    by_cases hs : lb = .lparen ∧ toI64 l = some (2 ^ 63 - 1)
    · rw [(Total.rangeStart true lb l .interval).2 ⟨rfl, rfl, hs⟩]
    · rcases h with h | ⟨h1, h2, h3, h4⟩
      · exact absurd h hs
      · obtain ⟨i, hi⟩ := Option.isSome_iff_exists.1 h4
        obtain ⟨a, ha⟩ : ∃ a, Zen.rangeStart true lb l = .ok (some a) := by
          refine Total.rangeStart_ok.2 ?_
          rcases h3 with rfl | rfl
          · exact .inr ⟨rfl, i, hi, fun _ q => hs ⟨rfl, by rw [hi, q]⟩⟩
          · exact .inl ⟨rfl, h4⟩
        rw [ha]
        dsimp only
        rw [(Total.rangeEnd true rb r .interval).2 ⟨rfl, rfl, h1, h2⟩]

/-- Joining strings crashes on the empty list: with overflow checks, or with a separator. -/
theorem C46_join (checks : Bool) (a b : Val) (c : Crash) :
    opJoin checks a b = .error (.panic c) ↔
      c = .join ∧ a = .arr [] ∧ ∃ s, b = .str s ∧ (checks = true ∨ s ≠ "") := by
  constructor
  · intro h
    unfold opJoin at h
    split at h
    · rename_i xs sep
      split at h
      · rename_i hx
        have hx' : xs = [] := by
          cases xs with
          | nil => rfl
          | cons x xs => cases x <;> simp [allStrs] at hx
        split_ifs at h with hc
        cases h
        refine ⟨rfl, by rw [hx'], sep, rfl, by simpa using hc⟩
      · cases h
      · cases h
    · cases h
  · rintro ⟨rfl, rfl, s, rfl, h⟩
    simp only [opJoin, allStrs]
    rw [if_pos (by simpa using h)]

/-- The crashes an expression can cause: only with overflow checks, an interval in a closure or an empty
template; the functions `rand` and, with overflow checks, `median`; and methods. An expression that has none of
them never crashes, whatever its context. -/
theorem C46_expressions (L : Lib) (D : Dec.Rounding) (checks : Bool) (DL : DLib) (num : NumOps)
    (mArity : String → Option (Nat × Nat)) (method : String → List Val → Except BErr Val)
    (n : Node) (code : List Op) (scope : Scope) (fuel : Nat) (c : Crash)
    (h : compile (builtins L D checks DL num mArity method) n = .ok code)
    (hr : runCode (builtins L D checks DL num mArity method) code scope fuel = some (.error (.panic c))) :
    (checks = true ∧ c = .interval ∧ ∃ k o al b, Node.Occ (.closure k o al b) n) ∨
    (checks = true ∧ c = .join ∧ Node.Occ (.tmpl []) n) ∨
    (c = .builtin "rand" ∧ ∃ as, Node.Occ (.call "rand" as) n) ∨
    (checks = true ∧ c = .builtin "median" ∧ ∃ as, Node.Occ (.call "median" as) n) ∨
    (∃ m t as vs, c = .builtin m ∧ Node.Occ (.method m t as) n ∧ method m vs = .error .panic) := by
  have hfn : ∀ f vs, (builtins L D checks DL num mArity method).fn f vs = .error .panic →
      f = "rand" ∨ (checks = true ∧ f = "median") := by
    intro f vs hf
    simp only [builtins] at hf
    split at hf
    · rename_i nm hn
      have ht : nm.text = f := by
        have := List.find?_some hn
        simpa using this
      rcases (C46_functions ..).1 hf with ⟨rfl, _⟩ | ⟨rfl, hc, _⟩
      · exact .inl ht.symm
      · exact .inr ⟨hc, ht.symm⟩
    · split at hf
      · exact absurd hf (C46_deprecated _ _ _)
      · cases hf
  have h1 := (C09_run_is_meaning _ n code scope h).2 _ _ hr
  refine (sane_map (f := Prod.fst) (sane_eval (B := builtins L D checks DL num mArity method)
    (S := fun c => (checks = true ∧ c = .interval ∧ ∃ k o al b, Node.Occ (.closure k o al b) n) ∨
      (checks = true ∧ c = .join ∧ Node.Occ (.tmpl []) n) ∨
      (c = .builtin "rand" ∧ ∃ as, Node.Occ (.call "rand" as) n) ∨
      (checks = true ∧ c = .builtin "median" ∧ ∃ as, Node.Occ (.call "median" as) n) ∨
      (∃ m t as vs, c = .builtin m ∧ Node.Occ (.method m t as) n ∧ method m vs = .error .panic))
    (root := scope) n ?_ [] scope)).2 c h1.symm
  intro m hm
  cases m with
  | closure k o al b => exact fun hc => .inl ⟨hc, rfl, k, o, al, b, hm⟩
  | call f as =>
    intro vs hf
    rcases hfn f vs hf with rfl | ⟨hc, rfl⟩
    · exact .inr (.inr (.inl ⟨rfl, as, hm⟩))
    · exact .inr (.inr (.inr (.inl ⟨hc, rfl, as, hm⟩)))
  | method m t as => exact fun vs hf => .inr (.inr (.inr (.inr ⟨m, t, as, vs, rfl, hm, hf⟩)))
  | tmpl ps =>
    refine ⟨fun vs hf => ?_, fun hc hp => .inr (.inl ⟨hc, rfl, hp ▸ hm⟩)⟩
    rcases hfn _ vs hf with q | ⟨_, q⟩ <;> exact absurd q (by decide)
  | obj ps =>
    intro vs hf
    rcases hfn _ vs hf with q | ⟨_, q⟩ <;> exact absurd q (by decide)
  | _ => trivial

/-- An empty template crashes a build with overflow checks. -/
theorem C46_empty_template (B : Builtins) (scope : Scope) (hc : B.checks = true) :
    Yields B scope (.tmpl []) (.error (.panic .join)) := by
  refine yields_iff.2 ⟨compiles_iff.2 trivial, ?_⟩
  simp [evaluate, eval, evalTmpl, opJoin, allStrs, hc, Except.map]

/-- `rand(-1)` crashes every build. -/
theorem C46_rand_negative (L : Lib) (D : Dec.Rounding) (checks : Bool) (DL : DLib) (num : NumOps)
    (mArity : String → Option (Nat × Nat)) (method : String → List Val → Except BErr Val) (scope : Scope) :
    Yields (builtins L D checks DL num mArity method) scope (.call "rand" [.num (-1)])
      (.error (.panic (.builtin "rand"))) := by
  have hf : (builtins L D checks DL num mArity method).fn "rand" [.num (-1)] = .error .panic := by
    show call L D checks .rand [.num (-1)] = .error .panic
    exact (C46_functions ..).2 (.inl ⟨rfl, -1, rfl, by norm_num, by norm_num⟩)
  refine yields_iff.2 ⟨compiles_iff.2 ⟨rfl, trivial, trivial⟩, ?_⟩
  simp [evaluate, eval, evalList, hf, callErr, Except.map]

/-! ### cases -/

example (L : Lib) (D : Dec.Rounding) (checks : Bool) : call L D checks .rand [.num (-3)] = .error .panic :=
  (C46_functions ..).2 (.inl ⟨rfl, -3, rfl, by norm_num, by norm_num⟩)
example (L : Lib) (D : Dec.Rounding) (checks : Bool) : call L D checks .rand [.num (-1 / 2)] ≠ .error .panic := by
  rw [ne_eq, C46_functions]
  rintro (⟨_, x, hx, _, h⟩ | ⟨h, _⟩)
  · cases hx; norm_num at h
  · cases h
example (L : Lib) (D : Dec.Rounding) : call L D true .median [.arr []] = .error .panic :=
  (C46_functions ..).2 (.inr ⟨rfl, rfl, rfl⟩)
-- wrong kinds of arguments are errors, as are too few
example (L : Lib) (D : Dec.Rounding) (checks : Bool) : ∃ m, call L D checks .sum [.str "a"] = .error (.err m) := ⟨_, rfl⟩
example (L : Lib) (D : Dec.Rounding) (checks : Bool) : ∃ m, call L D checks .contains [] = .error (.err m) := ⟨_, rfl⟩
-- the largest 64-bit integer as an excluded lower bound
example : opBegin true (.dyn (.interval .lparen .rsq (.num (2 ^ 63 - 1 : Int)) (.num 5))) = .error (.panic .interval) :=
  (C46_begin ..).2 ⟨rfl, rfl, _, _, _, _, rfl, .inl ⟨rfl, by rw [toI64_int (by norm_num) (by norm_num)]⟩⟩
-- a wrong format on any date, in any build
example (L : DLib) (b : Build) (d : ZDate) (h : L.fmtOk "%!" = false) :
    mCall L b .format [.date (some d), .val (.str "%!")] = .error .panic :=
  (C46_methods ..).2 (.inl ⟨rfl, d, "%!", rfl, rfl, h⟩)
-- too many quarters, only where overflow is checked
example (L : DLib) (d : ZDate) :
    mCall L ⟨true⟩ .add [.date (some d), .val (.str "715827883q")] = .error .panic :=
  (C46_methods ..).2 (.inr (.inl ⟨.inl rfl, ⟨_, rfl⟩, rfl⟩))

end Zen
