import Verif.Builtins.Registry
import Verif.Props.C23
import Verif.Props.C52
/-
C73  The number of arguments that a function or a date method is said to take is what its implementation uses; and what a method does to a date is what
it is called.
-/
namespace Zen
open Fn Cal Dur

/-! ## Specification -/

/-- the first number is what is required: with fewer the call is an error, and that many can be enough; the second is what is looked at: what comes
later makes no difference, and nothing less is so. `f` is a function for every choice of the library. -/
structure Uses {Λ α β : Type} (f : Λ → List α → Fn.Res β) (lo hi : Nat) : Prop where
  few : ∀ L args, args.length < lo → ∃ e, f L args = .error (.err e)
  enough : ∃ L args v, args.length = lo ∧ f L args = .ok v
  rest : ∀ L args, f L args = f L (args.take hi)
  all : ∀ k < hi, ∃ L args, f L args ≠ f L (args.take k)

/-- the names of a unit -/
def unitNames : DUnit → List String
  | .second => ["seconds", "second", "secs", "sec", "s"]
  | .minute => ["minutes", "minute", "min", "mins", "m"]
  | .hour => ["hours", "hour", "hr", "hrs", "h"]
  | .day => ["days", "day", "d"]
  | .week => ["weeks", "week", "w"]
  | .month => ["months", "month", "mo", "M"]
  | .quarter => ["quarters", "quarter", "qtr", "q"]
  | .year => ["years", "year", "y"]

/-- the date is the first of its unit, in its zone -/
def IsFirst (u : DUnit) (d x : ZDate) : Prop :=
  x.zone = d.zone ∧ x.name = d.name ∧ x.t.Valid ∧ SameUnit u (d.zone.toLocal d.t) (d.zone.toLocal x.t) ∧
    ∀ l : Local, l.Valid → SameUnit u (d.zone.toLocal d.t) l → (d.zone.toLocal x.t).nanos ≤ l.nanos

/-- the date is the last of its unit, in its zone -/
def IsLast (u : DUnit) (d x : ZDate) : Prop :=
  x.zone = d.zone ∧ x.name = d.name ∧ x.t.Valid ∧ SameUnit u (d.zone.toLocal d.t) (d.zone.toLocal x.t) ∧
    ∀ l : Local, l.Valid → SameUnit u (d.zone.toLocal d.t) l → l.nanos ≤ (d.zone.toLocal x.t).nanos

/-- every local time of the unit the date lies in occurs once, and is in range -/
def Regular (u : DUnit) (d : ZDate) : Prop :=
  ∀ x : Local, x.Valid → SameUnit u (d.zone.toLocal d.t) x → ∃ i, d.zone.resolve x = some i

/-- the units of a fixed number of seconds -/
def seconds? : DUnit → Option Nat
  | .second => some 1 | .minute => some 60 | .hour => some 3600 | .day => some 86400 | .week => some 604800
  | _ => none

/-! ## Proofs -/

theorem Uses.all_of_last {Λ α β : Type} {f : Λ → List α → Fn.Res β} {hi : Nat} (h : ∃ L args, f L args ≠ f L (args.take hi)) : ∀ k < hi + 1, ∃ L args, f L args ≠ f L (args.take k) := by
  obtain ⟨L, args, h⟩ := h
  intro k hk
  by_contra hn
  push Not at hn
  refine h ?_
  rw [hn L args, hn L (args.take hi), List.take_take, Nat.min_eq_left (by omega)]

/-- a library in which everything there is to find is found -/
def fullLib : Lib where
  upper := id
  lower := id
  regex _ := some ⟨fun _ => true, fun _ => none⟩
  similarity _ _ := 0
  showNum _ := "0"
  readNum _ := some 0
  random _ := 0
  mkDate _ z := match z with
    | none => some none
    | some _ => none

abbrev FnLib := Lib × Dec.Rounding × Bool

/-- where nothing is optional the rest follows -/
theorem Uses.fixed {Λ α β : Type} {f : Λ → List α → Fn.Res β} {k : Nat} (few : ∀ L args, args.length < k + 1 → ∃ e, f L args = .error (.err e))
    (enough : ∃ L args v, args.length = k + 1 ∧ f L args = .ok v) (rest : ∀ L args, f L args = f L (args.take (k + 1))) : Uses f (k + 1) (k + 1) where
  few := few
  enough := enough
  rest := rest
  all := by
    obtain ⟨L, args, v, hl, hv⟩ := enough
    refine Uses.all_of_last ⟨L, args, ?_⟩
    obtain ⟨e, he⟩ := few L (args.take k) (by rw [List.length_take]; omega)
    rw [hv, he]
    simp

theorem fn_few (n : Name) (L : Lib) (D : Dec.Rounding) (c : Bool) (args : List Val) (h : args.length < n.arity.1) : ∃ e, call L D c n args = .error (.err e) := by
  rcases args with _ | ⟨a, _ | ⟨b, r⟩⟩
  · cases n <;> first | exact ⟨_, rfl⟩ | simp [Name.arity] at h
  · cases n <;> first | (simp [Name.arity] at h; done) | (cases a <;> exact ⟨_, rfl⟩)
  · cases n <;> simp [Name.arity] at h <;> omega

theorem fn_rest (n : Name) (L : Lib) (D : Dec.Rounding) (c : Bool) (args : List Val) : call L D c n args = call L D c n (args.take n.arity.2) := by
  cases n <;> simp [Name.arity, call, len, contains, flatten, merge, mergeDeep, upper, lower, trim, startsWith, endsWith, matches_, extract, fuzzyMatch, split, Fn.abs,
    Fn.sum, avg, Fn.min, Fn.max, rand, median, mode, Fn.floor, ceil, Fn.round, trunc, isNumeric, Fn.toString, toNumber, Fn.toBool, toType, keys, values, Fn.date, argVar, argStr,
    argArr, argNum, argObj, argOStr, argONum, numArray, numOrDateArray, decimalPlaces]

/-- arguments that a function takes -/
def fnArgs : Name → List Val
  | .contains => [.arr [], .null]
  | .startsWith | .endsWith | .matches_ | .extract | .fuzzyMatch | .split => [.str "", .str ""]
  | .len | .upper | .lower | .trim => [.str ""]
  | .flatten | .merge | .mergeDeep | .sum | .keys => [.arr []]
  | .avg | .min | .max | .median | .mode => [.arr [.num 1]]
  | .abs | .rand | .floor | .ceil | .round | .trunc | .number => [.num 0]
  | .isNumeric | .string | .bool | .type => [.null]
  | .values => [.obj []]
  | .date => []

theorem fn_enough (n : Name) : (fnArgs n).length = n.arity.1 ∧ ∃ v, call fullLib Dec.decimal true n (fnArgs n) = .ok v := by
  refine ⟨by cases n <;> rfl, ?_⟩
  cases n
  case avg =>
    have one : Dec.Rep 1 := ⟨1, 0, by norm_num⟩
    have h1 : Dec.decimal.add 0 1 = some 1 := by
      unfold Dec.Rounding.add
      rw [zero_add]
      exact Dec.decimal.exact 1 one
    have h2 : Dec.decimal.div 1 (([1] : List Rat).length : Rat) = some 1 := by
      unfold Dec.Rounding.div
      rw [if_neg (by simp)]
      simpa using Dec.decimal.exact 1 one
    refine ⟨.num 1, ?_⟩
    show (match sumFrom Dec.decimal 0 [1] with
      | none => (.error (.err "Number overflow") : Fn.Res Val)
      | some s => match Dec.decimal.div s (([1] : List Rat).length : Rat) with
        | some q => .ok (.num q)
        | none => .error (.err "Empty array")) = _
    have h3 : sumFrom Dec.decimal 0 [1] = some 1 := by simp [sumFrom, h1]
    rw [h3]
    simp only
    rw [h2]
  case rand =>
    refine ⟨.num 0, ?_⟩
    have : Dec.halfEven 0 = 0 := by norm_num [Dec.halfEven]
    show (match toI64 (Dec.halfEven 0) with
      | none => (.error (.err "Invalid upper range") : Fn.Res Val)
      | some u => if 0 ≤ u then .ok (.num (0 : Int)) else .error .panic) = _
    rw [this]
    rfl
  all_goals exact ⟨_, rfl⟩

theorem fn_uses (n : Name) : Uses (fun (L : FnLib) => call L.1 L.2.1 L.2.2 n) n.arity.1 n.arity.2 := by
  have few := fun (L : FnLib) args h => fn_few n L.1 L.2.1 L.2.2 args h
  have rest := fun (L : FnLib) args => fn_rest n L.1 L.2.1 L.2.2 args
  have enough : ∃ (L : FnLib) (args : List Val) (v : Val), args.length = n.arity.1 ∧ call L.1 L.2.1 L.2.2 n args = .ok v :=
    ⟨(fullLib, Dec.decimal, true), fnArgs n, (fn_enough n).2.choose, (fn_enough n).1, (fn_enough n).2.choose_spec⟩
  cases n
  case round => exact ⟨few, enough, rest, Uses.all_of_last ⟨(fullLib, Dec.decimal, true), [.num 0, .null], fun h => nomatch h⟩⟩
  case trunc => exact ⟨few, enough, rest, Uses.all_of_last ⟨(fullLib, Dec.decimal, true), [.num 0, .null], fun h => nomatch h⟩⟩
  case date => exact ⟨few, enough, rest, Uses.all_of_last ⟨(fullLib, Dec.decimal, true), [.null, .str ""], fun h => nomatch h⟩⟩
  all_goals exact Uses.fixed few enough rest

/-- the same for dates; the present moment is the beginning of 1970 -/
def fullDLib : DLib where
  dateTime _ := some ⟨⟨1970, 1, 1⟩, 0, 0, 0, 0⟩
  time _ := some 0
  humantime _ := some 0
  okSecs _ := true
  showLocal _ := ""
  now := ⟨Zone.fixed 0 (fun _ => true), "UTC", ⟨0, 0⟩⟩
  parse _ := none
  tz _ := some (Zone.fixed 0 (fun _ => true), "UTC")
  fmtOk _ := true
  fmt f _ := f
  show_ _ := ""

theorem dep_few (n : DName) (L : DLib) (args : List Val) (h : args.length < n.arity.1) : ∃ e, depCall L n args = .error (.err e) := by
  rcases args with _ | ⟨a, _ | ⟨b, r⟩⟩
  · cases n <;> exact ⟨_, rfl⟩
  · cases n <;> first | (simp [DName.arity] at h; done) | (cases a <;> exact ⟨_, rfl⟩)
  · cases n <;> simp [DName.arity] at h <;> omega

theorem dep_rest (n : DName) (L : DLib) (args : List Val) : depCall L n args = depCall L n (args.take n.arity.2) := by
  cases n <;> simp [DName.arity, depCall, depDate, depTime, depDuration, depPart, depEdge, argVar, argStr]

def depArgs : DName → List Val
  | .startOf | .endOf => [.str "", .str "s"]
  | _ => [.str ""]

theorem dep_uses (n : DName) : Uses (fun (L : DLib) => depCall L n) n.arity.1 n.arity.2 := by
  have few := fun (L : DLib) args h => dep_few n L args h
  have rest := fun (L : DLib) args => dep_rest n L args
  cases n
  case startOf => exact Uses.fixed few ⟨fullDLib, [.str "", .str "s"], _, rfl, rfl⟩ rest
  case endOf => exact Uses.fixed few ⟨fullDLib, [.str "", .str "s"], _, rfl, rfl⟩ rest
  all_goals exact Uses.fixed few ⟨fullDLib, [.str ""], _, rfl, rfl⟩ rest

theorem m_few (n : MName) (L : DLib) (b : Build) (args : List Arg) (h : args.length < n.arity.1) : ∃ e, mCall L b n args = .error (.err e) := by
  rcases args with _ | ⟨a, _ | ⟨x, _ | ⟨y, r⟩⟩⟩
  · cases n <;> exact ⟨_, rfl⟩
  · cases n <;> first | (simp [MName.arity] at h; done) | (cases a <;> exact ⟨_, rfl⟩)
  · cases n <;> first | (simp [MName.arity] at h; done) | skip
    cases a with
    | val v => exact ⟨_, rfl⟩
    | date d =>
      simp only [mCall, mSet, thisDate, mUnit, mStr]
      cases x with
      | date _ => exact ⟨_, rfl⟩
      | val v =>
        cases v with
        | str s =>
          show ∃ e, (do
            let u ← (match DUnit.parse s.toList with
              | some u => .ok u
              | none => .error (.err "Invalid duration unit") : Fn.Res DUnit)
            (.error (.err "Argument is not a number") : Fn.Res MRes)) = _
          cases DUnit.parse s.toList <;> exact ⟨_, rfl⟩
        | _ => exact ⟨_, rfl⟩
  · cases n <;> simp [MName.arity] at h <;> omega

theorem m_rest (n : MName) (L : DLib) (b : Build) (args : List Arg) : mCall L b n args = mCall L b n (args.take n.arity.2) := by
  cases n <;> simp [MName.arity, mCall, mAdd, mSub, mSet, mFormat, mEdge, mDiff, mTz, mCompare, mGet, thisDate, mStr, mOStr, mUnit, mUnitOpt, mDuration, mDate]

theorem m_uses (n : MName) : Uses (fun (L : DLib × Build) => mCall L.1 L.2 n) n.arity.1 n.arity.2 := by
  have few := fun (L : DLib × Build) args h => m_few n L.1 L.2 args h
  have rest := fun (L : DLib × Build) args => m_rest n L.1 L.2 args
  let L : DLib × Build := (fullDLib, ⟨false⟩)
  cases n
  case add => exact ⟨few, ⟨L, [.date none, .val (.str "1d")], _, rfl, rfl⟩, rest, Uses.all_of_last ⟨L, [.date none, .val (.num 0), .val (.str "mo")], fun h => nomatch h⟩⟩
  case sub => exact ⟨few, ⟨L, [.date none, .val (.str "1d")], _, rfl, rfl⟩, rest, Uses.all_of_last ⟨L, [.date none, .val (.num 0), .val (.str "mo")], fun h => nomatch h⟩⟩
  case set => exact Uses.fixed few ⟨L, [.date none, .val (.str "s"), .val (.num 0)], _, rfl, rfl⟩ rest
  case format => exact ⟨few, ⟨L, [.date none], _, rfl, rfl⟩, rest, Uses.all_of_last ⟨L, [.date none, .val .null], fun h => nomatch h⟩⟩
  case startOf => exact Uses.fixed few ⟨L, [.date none, .val (.str "s")], _, rfl, rfl⟩ rest
  case endOf => exact Uses.fixed few ⟨L, [.date none, .val (.str "s")], _, rfl, rfl⟩ rest
  case diff => exact ⟨few, ⟨L, [.date none, .date none], _, rfl, rfl⟩, rest, Uses.all_of_last ⟨L, [.date none, .date none, .val .null], fun h => nomatch h⟩⟩
  case tz => exact Uses.fixed few ⟨L, [.date none, .val (.str "")], _, rfl, rfl⟩ rest
  case compare op => exact ⟨few, ⟨L, [.date none, .date none], _, rfl, rfl⟩, rest, Uses.all_of_last ⟨L, [.date none, .date none, .val .null], fun h => nomatch h⟩⟩
  case get g =>
    refine Uses.fixed few ⟨L, [.date none], ?_⟩ rest
    cases g <;> exact ⟨_, rfl, rfl⟩

theorem find_text {α : Type} {l : List α} {text : α → String} (hall : ∀ n, n ∈ l) (hinj : ∀ n m, text n = text m → n = m) (s : String) (n : α) :
    (l.find? fun n => text n == s) = some n ↔ text n = s := by
  constructor
  · intro h
    simpa using List.find?_some h
  · rintro rfl
    cases h : l.find? fun m => text m == text n with
    | none => exact absurd (List.find?_eq_none.1 h n (hall n)) (by simp)
    | some m =>
      have := List.find?_some h
      rw [hinj m n (by simpa using this)]

/-! ## Theorems -/

/-- The two numbers are determined by the implementation. -/
theorem C73_determined {Λ α β : Type} {f : Λ → List α → Fn.Res β} {lo hi lo' hi' : Nat} (h : Uses f lo hi) (h' : Uses f lo' hi') : lo = lo' ∧ hi = hi' := by
  constructor
  · rcases Nat.lt_trichotomy lo lo' with hl | e | hl
    · obtain ⟨L, args, v, hn, hv⟩ := h.enough
      obtain ⟨e, he⟩ := h'.few L args (hn ▸ hl)
      rw [hv] at he; cases he
    · exact e
    · obtain ⟨L, args, v, hn, hv⟩ := h'.enough
      obtain ⟨e, he⟩ := h.few L args (hn ▸ hl)
      rw [hv] at he; cases he
  · rcases Nat.lt_trichotomy hi hi' with hl | e | hl
    · obtain ⟨L, args, hn⟩ := h'.all hi hl
      exact absurd (h.rest L args) hn
    · exact e
    · obtain ⟨L, args, hn⟩ := h.all hi' hl
      exact absurd (h'.rest L args) hn

/-- The number of arguments of every function, and of every deprecated function, is what it uses. -/
theorem C73_functions : (∀ n : Name, Uses (fun (L : FnLib) => call L.1 L.2.1 L.2.2 n) n.arity.1 n.arity.2) ∧
    ∀ n : DName, Uses (fun (L : DLib) => depCall L n) n.arity.1 n.arity.2 := ⟨fn_uses, dep_uses⟩

/-- So is that of every date method, with the date. -/
theorem C73_methods (n : MName) : Uses (fun (L : DLib × Build) => mCall L.1 L.2 n) n.arity.1 n.arity.2 := m_uses n

/-- A function, deprecated function or method is found by its name and by no other; no name is that of a function and of a deprecated one. -/
theorem C73_names (s : String) : (∀ n, Name.ofText s = some n ↔ n.text = s) ∧ (∀ n, DName.ofText s = some n ↔ n.text = s) ∧
    (∀ n, MName.ofText s = some n ↔ n.text = s) ∧ ∀ (n : Name) (m : DName), n.text ≠ m.text := by
  refine ⟨fun n => find_text (fun n => by cases n <;> decide) ?_ s n, fun n => find_text (fun n => by cases n <;> decide) ?_ s n,
    fun n => find_text ?_ ?_ s n, ?_⟩
  · have : ∀ n ∈ Name.all, ∀ m ∈ Name.all, n.text = m.text → n = m := by decide +kernel
    have all : ∀ n, n ∈ Name.all := fun n => by cases n <;> decide
    exact fun n m => this n (all n) m (all m)
  · have : ∀ n ∈ DName.all, ∀ m ∈ DName.all, n.text = m.text → n = m := by decide +kernel
    have all : ∀ n, n ∈ DName.all := fun n => by cases n <;> decide
    exact fun n m => this n (all n) m (all m)
  · intro n
    cases n with
    | compare op => cases op <;> decide
    | get g => cases g <;> decide
    | _ => decide
  · have : ∀ n ∈ MName.all, ∀ m ∈ MName.all, n.text = m.text → n = m := by decide +kernel
    have all : ∀ n, n ∈ MName.all := by
      intro n
      cases n with
      | compare op => cases op <;> decide
      | get g => cases g <;> decide
      | _ => decide
    exact fun n m => this n (all n) m (all m)
  · have : ∀ n ∈ Name.all, ∀ m ∈ DName.all, n.text ≠ m.text := by decide +kernel
    have all : ∀ n, n ∈ Name.all := fun n => by cases n <;> decide
    have all' : ∀ n, n ∈ DName.all := fun n => by cases n <;> decide
    exact fun n m => this n (all n) m (all' m)

/-- What the virtual machine calls for a name: the function with that name, whose arguments are counted as it uses them; a name that has no function
has no count either, and a call would be an error. -/
theorem C73_registry (num : NumOps) (mArity : String → Option (Nat × Nat)) (method : String → List Val → Except BErr Val) (f : String) :
    (∀ lo hi, (∀ L D c DL, (builtins L D c DL num mArity method).fnArity f = some (lo, hi)) ↔
      (∃ n : Name, n.text = f ∧ Uses (fun (L : FnLib) => call L.1 L.2.1 L.2.2 n) lo hi) ∨
      ∃ n : DName, n.text = f ∧ Uses (fun (L : DLib) => depCall L n) lo hi) ∧
    (∀ L D c DL args, (∀ n : Name, n.text = f → (builtins L D c DL num mArity method).fn f args = call L D c n args) ∧
      (∀ n : DName, n.text = f → (builtins L D c DL num mArity method).fn f args = depCall DL n args) ∧
      ((builtins L D c DL num mArity method).fnArity f = none → (builtins L D c DL num mArity method).fn f args = .error (.err "Function not found"))) := by
  obtain ⟨hn, hd, _, hdis⟩ := C73_names f
  have dep : ∀ n : DName, n.text = f → Name.ofText f = none := by
    intro n e
    cases h : Name.ofText f with
    | none => rfl
    | some m => exact absurd (((hn m).1 h).trans e.symm) (hdis m n)
  constructor
  · intro lo hi
    constructor
    · intro h
      have h := h fullLib Dec.decimal true fullDLib
      simp only [builtins] at h
      cases hN : Name.ofText f with
      | some n =>
        rw [hN] at h
        injection h with h
        refine .inl ⟨n, (hn n).1 hN, ?_⟩
        have := fn_uses n
        rw [h] at this
        exact this
      | none =>
        rw [hN] at h
        simp only [Option.map_eq_some_iff] at h
        obtain ⟨n, hD, h⟩ := h
        refine .inr ⟨n, (hd n).1 hD, ?_⟩
        have := dep_uses n
        rw [h] at this
        exact this
    · rintro (⟨n, e, h⟩ | ⟨n, e, h⟩) L D c DL <;> simp only [builtins]
      · rw [(hn n).2 e]
        obtain ⟨h1, h2⟩ := C73_determined (fn_uses n) h
        simp [← h1, ← h2]
      · rw [dep n e, (hd n).2 e]
        obtain ⟨h1, h2⟩ := C73_determined (dep_uses n) h
        simp [← h1, ← h2]
  · intro L D c DL args
    refine ⟨fun n e => ?_, fun n e => ?_, fun h => ?_⟩ <;> simp only [builtins] at *
    · rw [(hn n).2 e]
    · rw [dep n e, (hd n).2 e]
    · cases hN : Name.ofText f with
      | some n => rw [hN] at h; cases h
      | none =>
        rw [hN] at h
        cases hD : DName.ofText f with
        | some n => rw [hD] at h; cases h
        | none => rfl

/-- The units are found by their names. -/
theorem C73_units (s : String) (u : DUnit) : DUnit.parse s.toList = some u ↔ s ∈ unitNames u := by
  have h : ∀ t : String, s.toList = t.toList ↔ s = t := fun t => ⟨fun h => String.ext h, fun h => h ▸ rfl⟩
  unfold DUnit.parse
  simp only [h]
  cases u <;> simp only [unitNames, List.mem_cons, List.not_mem_nil, or_false]
  all_goals
    constructor
    · intro e
      split_ifs at e <;> first | assumption | cases e
    · intro e
      rcases e with rfl | rfl | rfl | rfl | rfl <;> decide

variable (L : DLib) (b : Build)

theorem mUnit_ok {args : List Arg} {i : Nat} {s : String} (h : args[i]? = some (.val (.str s))) : mUnit args i =
    match DUnit.parse s.toList with
    | some u => .ok u
    | none => .error (.err "Invalid duration unit") := by
  unfold mUnit mStr
  rw [h]
  show (match DUnit.parse s.toList with | some u => _ | none => _) = _
  cases DUnit.parse s.toList <;> rfl

/-- `startOf` and `endOf` give the first and the last moment of the unit, in the zone of the date. Where local times are regular they give something,
unless the first (last) month of the quarter does not have the day of the date. What is no unit is an error. -/
theorem C73_edges (d : ZDate) (hd : d.t.Valid) (s : String) (rest : List Arg) :
    (∀ u, s ∈ unitNames u → ∃ r r', mCall L b .startOf (.date (some d) :: .val (.str s) :: rest) = .ok (.date r) ∧ (∀ x, r = some x → IsFirst u d x) ∧
      (Regular u d → (r = none ↔ u = .quarter ∧ (d.zone.toLocal d.t).date.m = 5 ∧ (d.zone.toLocal d.t).date.d = 31)) ∧
      mCall L b .endOf (.date (some d) :: .val (.str s) :: rest) = .ok (.date r') ∧ (∀ x, r' = some x → IsLast u d x)) ∧
    ((∀ u, s ∉ unitNames u) → mCall L b .startOf (.date (some d) :: .val (.str s) :: rest) = .error (.err "Invalid duration unit") ∧
      mCall L b .endOf (.date (some d) :: .val (.str s) :: rest) = .error (.err "Invalid duration unit")) := by
  have hu := mUnit_ok (args := .date (some d) :: .val (.str s) :: rest) (i := 1) (s := s) rfl
  constructor
  · intro u hs
    rw [(C73_units s u).2 hs] at hu
    refine ⟨(startOf d.zone u d.t).map fun t => { d with t }, (endOf d.zone u d.t).map fun t => { d with t }, ?_, ?_, ?_, ?_, ?_⟩
    · simp only [mCall, mEdge, hu]; rfl
    · intro x hx
      obtain ⟨t, ht, rfl⟩ := Option.map_eq_some_iff.1 hx
      obtain ⟨h1, h2, h3⟩ := C23_start_first hd ht
      exact ⟨rfl, rfl, h1, h2, h3⟩
    · intro hR
      have := C23_start_succeeds_iff (u := u) hd hR
      rw [Option.map_eq_none_iff]
      constructor
      · intro hn
        by_contra hq
        obtain ⟨s, hs⟩ := this.2 hq
        rw [hs] at hn
        cases hn
      · intro hq
        cases hs : startOf d.zone u d.t with
        | none => rfl
        | some s => exact absurd hq (this.1 ⟨s, hs⟩)
    · simp only [mCall, mEdge, hu]; rfl
    · intro x hx
      obtain ⟨t, ht, rfl⟩ := Option.map_eq_some_iff.1 hx
      obtain ⟨h1, h2, h3⟩ := C23_end_last hd ht
      exact ⟨rfl, rfl, h1, h2, h3⟩
  · intro hn
    have : DUnit.parse s.toList = none := by
      cases h : DUnit.parse s.toList with
      | none => rfl
      | some u => exact absurd ((C73_units s u).1 h) (hn u)
    rw [this] at hu
    simp only [mCall, mEdge, hu]
    exact ⟨rfl, rfl⟩

/-- Another zone does not change the moment: two dates that differ in the zone only have the same timestamp, and a difference of nothing. -/
theorem C73_tz (d : ZDate) (s : String) (rest : List Arg) (r : MRes) (h : mCall L b .tz (.date (some d) :: .val (.str s) :: rest) = .ok r) :
    ∃ x : ZDate, r = .date (some x) ∧ L.tz s = some (x.zone, x.name) ∧ mCall L b (.get .timestamp) [.date (some x)] = mCall L b (.get .timestamp) [.date (some d)] ∧
      mCall L b .diff [.date (some x), .date (some d)] = .ok (.val (.num 0)) := by
  simp only [mCall, mTz, mStr] at h
  change (match L.tz s with
    | none => (.error (.err "Invalid timezone") : Fn.Res MRes)
    | some (z, n) => .ok (.date (some { d with zone := z, name := n }))) = .ok r at h
  cases hz : L.tz s with
  | none => rw [hz] at h; cases h
  | some zn =>
    rw [hz] at h
    injection h with h
    refine ⟨_, h.symm, rfl, rfl, ?_⟩
    show (Except.ok (MRes.val (.num (Cal.diff zn.1 d.t d.zone d.t none : Int))) : Fn.Res MRes) = _
    simp [Cal.diff]

theorem mUnitOpt_ok {args : List Arg} {i : Nat} {s : String} {u : DUnit} (h : args[i]? = some (.val (.str s))) (hs : s ∈ unitNames u) : mUnitOpt args i = .ok (some u) := by
  unfold mUnitOpt mOStr
  rw [h]
  show (match DUnit.parse s.toList with | some u => _ | none => _) = _
  rw [(C73_units s u).2 hs]
  rfl

/-- The comparisons by a unit say whether the other date, seen in the zone of the first, is in the same unit, after all of it or before all of it, if the
unit has a first and a last moment; otherwise all are false. -/
theorem C73_compare (a c : ZDate) (hz : a.zone.Ordered) (ha : a.t.Valid) (hc : c.t.Valid) (s : String) (u : DUnit) (hs : s ∈ unitNames u) (op : CmpOp) :
    ∃ r : Bool, mCall L b (.compare op) [.date (some a), .date (some c), .val (.str s)] = .ok (.val (.bool r)) ∧
      ((∃ x, startOf a.zone u a.t = some x) → (∃ x, endOf a.zone u a.t = some x) → (r = true ↔
        let la := a.zone.toLocal a.t
        let lc := a.zone.toLocal c.t
        let before := ∀ x : Local, x.Valid → SameUnit u la x → x.nanos < lc.nanos
        let after := ∀ x : Local, x.Valid → SameUnit u la x → lc.nanos < x.nanos
        match op with
        | .isSame => SameUnit u la lc
        | .isBefore => before
        | .isAfter => after
        | .isSameOrBefore => before ∨ SameUnit u la lc
        | .isSameOrAfter => after ∨ SameUnit u la lc)) ∧
      (startOf a.zone u a.t = none → endOf a.zone u a.t = none → r = false) := by
  have hu := mUnitOpt_ok (args := [.date (some a), .date (some c), .val (.str s)]) (i := 2) rfl hs
  refine ⟨_, by simp only [mCall, mCompare, hu]; rfl, ?_, ?_⟩
  · rintro ⟨x, hx⟩ ⟨y, hy⟩
    have same : ∃ r, isSame a.zone a.t c.t (some u) = some r ∧ (r = true ↔ SameUnit u (a.zone.toLocal a.t) (a.zone.toLocal c.t)) := by
      have : ∃ r, isSame a.zone a.t c.t (some u) = some r := ⟨_, by simp [isSame, hx, hy]; rfl⟩
      obtain ⟨r, hr⟩ := this
      exact ⟨r, hr, C23_is_same hz ha hc hr⟩
    have before : ∃ r, isBefore a.zone a.t c.t (some u) = some r ∧ (r = true ↔ ∀ x : Local, x.Valid → SameUnit u (a.zone.toLocal a.t) x → x.nanos < (a.zone.toLocal c.t).nanos) := by
      have : ∃ r, isBefore a.zone a.t c.t (some u) = some r := ⟨_, by simp [isBefore, hy]; rfl⟩
      obtain ⟨r, hr⟩ := this
      exact ⟨r, hr, C23_is_before hz ha hc hr⟩
    have after : ∃ r, isAfter a.zone a.t c.t (some u) = some r ∧ (r = true ↔ ∀ x : Local, x.Valid → SameUnit u (a.zone.toLocal a.t) x → (a.zone.toLocal c.t).nanos < x.nanos) := by
      have : ∃ r, isAfter a.zone a.t c.t (some u) = some r := ⟨_, by simp [isAfter, hx]; rfl⟩
      obtain ⟨r, hr⟩ := this
      exact ⟨r, hr, C23_is_after hz ha hc hr⟩
    obtain ⟨r1, e1, h1⟩ := same
    obtain ⟨r2, e2, h2⟩ := before
    obtain ⟨r3, e3, h3⟩ := after
    cases op <;> simp only [cmpDates, e1, e2, e3, Option.getD_some, Bool.or_eq_true, h1, h2, h3]
  · intro hx hy
    cases op <;> simp [cmpDates, isSame, isBefore, isAfter, hx, hy]

/-- Without a unit the milliseconds decide whether two dates are the same, and the nanoseconds which is earlier. -/
theorem C73_compare_plain (a c : ZDate) (op : CmpOp) : ∃ r : Bool, mCall L b (.compare op) [.date (some a), .date (some c)] = .ok (.val (.bool r)) ∧ (r = true ↔
    match op with
    | .isSame => a.t.millis = c.t.millis
    | .isBefore => a.t.nanos < c.t.nanos
    | .isAfter => c.t.nanos < a.t.nanos
    | .isSameOrBefore => a.t.nanos < c.t.nanos ∨ a.t.millis = c.t.millis
    | .isSameOrAfter => c.t.nanos < a.t.nanos ∨ a.t.millis = c.t.millis) := by
  refine ⟨_, rfl, ?_⟩
  cases op <;> simp [cmpDates, isSame, isBefore, isAfter]

/-- The difference without a unit is that of the timestamps. In seconds, minutes, hours, days and weeks exchanging the dates changes the sign. -/
theorem C73_diff (a c : ZDate) : mCall L b .diff [.date (some a), .date (some c)] = .ok (.val (.num (a.t.millis - c.t.millis : Int))) ∧
    ∀ s u, s ∈ unitNames u → (seconds? u).isSome → ∃ n : Int, mCall L b .diff [.date (some a), .date (some c), .val (.str s)] = .ok (.val (.num n)) ∧
      mCall L b .diff [.date (some c), .date (some a), .val (.str s)] = .ok (.val (.num (-n : Int))) := by
  refine ⟨rfl, fun s u hs hu => ?_⟩
  refine ⟨Cal.diff a.zone a.t c.zone c.t (some u), ?_, ?_⟩
  · simp only [mCall, mDiff, mUnitOpt_ok (args := [.date (some a), .date (some c), .val (.str s)]) (i := 2) rfl hs]; rfl
  · simp only [mCall, mDiff, mUnitOpt_ok (args := [.date (some c), .date (some a), .val (.str s)]) (i := 2) rfl hs]
    rw [← (C23_diff_antisymm_fixed_units a.zone c.zone a.t c.t u (by cases u <;> simp [seconds?] at hu ⊢)).1]
    rfl

theorem mDuration_unit {args : List Arg} {n : Rat} {s : String} {u : DUnit} (h : args[1]? = some (.val (.num n))) (h' : args[2]? = some (.val (.str s))) (hs : s ∈ unitNames u) :
    mDuration b args 1 = match Duration.fromUnit b n u with
      | .ok d => .ok d
      | .err _ => .error (.err "Invalid duration unit")
      | .panic => .error .panic := by
  unfold mDuration
  rw [h]
  simp only
  rw [mUnit_ok h', (C73_units s u).2 hs]
  rfl

theorem fromUnit_secs {n : Int} {u : DUnit} {k : Nat} (hu : seconds? u = some k) (h : -(2 ^ 63) ≤ n * k) (h' : n * k < 2 ^ 63) : Duration.fromUnit b (n : Rat) u = .ok { seconds := n * k } := by
  have e : u.asSecs = some k := by cases u <;> simp [seconds?] at hu <;> subst hu <;> rfl
  unfold Duration.fromUnit
  rw [e]
  have : ((n : Rat) * (k : Rat)) = ((n * k : Int) : Rat) := by push_cast; rfl
  have t : truncate ((n * k : Int) : Rat) = n * k := by
    unfold truncate
    split <;> simp only [Int.floor_intCast, Int.ceil_intCast]
  have i : Dur.toI64 ((n * k : Int) : Rat) = some (n * k) := by
    unfold Dur.toI64
    rw [t, if_pos ⟨by omega, by omega⟩]
  simp only [this, i]

/-- Adding a whole number of seconds, minutes, hours, days or weeks moves the moment by so many seconds, and keeps the zone; taking them away again leads back
where the local time of the date occurs once. -/
theorem C73_add_sub (d : ZDate) (hd : d.t.Valid) (n : Int) (s : String) (u : DUnit) (hs : s ∈ unitNames u) (k : Nat) (hu : seconds? u = some k) (x : ZDate)
    (h : mCall L b .add [.date (some d), .val (.num n), .val (.str s)] = .ok (.date (some x))) (h1 : -(2 ^ 63) < n * k) (h2 : n * k < 2 ^ 63) :
    x = { d with t := ⟨d.t.utc + n * k, d.t.ns⟩ } ∧
      (d.zone.Good d.t → mCall L b .sub [.date (some x), .val (.num n), .val (.str s)] = .ok (.date (some d))) := by
  have hm := mDuration_unit (b := b) (args := [.date (some d), .val (.num n), .val (.str s)]) rfl rfl hs
  rw [fromUnit_secs (b := b) hu (by omega) h2] at hm
  simp only [mCall, mAdd, hm] at h
  change Except.ok (onDate (some d) fun d => addDuration d.zone d.t { seconds := n * k }) = Except.ok (MRes.date (some x)) at h
  injection h with h
  simp only [onDate] at h
  injection h with h
  obtain ⟨t, ht, rfl⟩ := Option.map_eq_some_iff.1 h
  obtain ⟨b1, b2, rfl, _⟩ := (C23_add_seconds_iff hd _).1 ht
  refine ⟨rfl, fun hg => ?_⟩
  have hm := mDuration_unit (b := b) (args := [.date (some { d with t := ⟨d.t.utc + n * k, d.t.ns⟩ }), .val (.num n), .val (.str s)]) rfl rfl hs
  rw [fromUnit_secs (b := b) hu (by omega) h2] at hm
  simp only [mCall, mSub, hm]
  have hneg : Duration.negate b { seconds := n * k } = some { seconds := -(n * k) } := by
    unfold Duration.negate Build.wrap
    have : -9223372036854775808 ≤ -(n * k : Int) ∧ -(n * k : Int) < 9223372036854775808 := by omega
    simp [this.2, Int.neg_le_neg_iff.1 this.1]
  change (match Duration.negate b { seconds := n * k } with
    | none => (.error .panic : Fn.Res MRes)
    | some dur => .ok (onDate (some { d with t := ⟨d.t.utc + n * k, d.t.ns⟩ }) fun d => addDuration d.zone d.t dur)) = _
  rw [hneg]
  simp only [onDate]
  have back : addDuration d.zone ⟨d.t.utc + n * k, d.t.ns⟩ { seconds := -(n * k) } = some d.t := by
    refine (C23_add_seconds_iff (show Inst.Valid ⟨d.t.utc + n * k, d.t.ns⟩ from hd) _).2 ⟨by omega, by omega, ?_, hg⟩
    cases hdt : d.t
    simp
  rw [back]
  rfl

/-- Adding months keeps the time of day, and the day of the month as far as the month has it; the difference in months to the date before, where its local
time occurs once, is what was added. -/
theorem C73_months (d : ZDate) (hd : d.t.Valid) (n : Int) (h1 : -2147483648 ≤ n) (h2 : n < 2147483648) (s : String) (hs : s ∈ unitNames .month) (x : ZDate)
    (h : mCall L b .add [.date (some d), .val (.num n), .val (.str s)] = .ok (.date (some x))) :
    (let l := d.zone.toLocal d.t
     ∃ y m : Int, y * 12 + m = l.date.y * 12 + l.date.m + n ∧ 1 ≤ m ∧ m ≤ 12 ∧ x.zone = d.zone ∧ x.name = d.name ∧
       d.zone.toLocal x.t = { l with date := ⟨y, m, min l.date.d (monthDays y m)⟩ }) ∧
    (d.zone.Good d.t → mCall L b .diff [.date (some x), .date (some d), .val (.str s)] = .ok (.val (.num n))) := by
  have hm := mDuration_unit (b := b) (args := [.date (some d), .val (.num n), .val (.str s)]) rfl rfl hs
  have t : truncate (n : Rat) = n := by
    unfold truncate
    split <;> simp only [Int.floor_intCast, Int.ceil_intCast]
  have i : Dur.toI32 (n : Rat) = some n := by
    unfold Dur.toI32
    rw [t, if_pos ⟨by omega, by omega⟩]
  have f : Duration.fromUnit b (n : Rat) .month = .ok { months := n } := by
    unfold Duration.fromUnit
    simp only [DUnit.asSecs, i]
  rw [f] at hm
  simp only [mCall, mAdd, hm] at h
  change Except.ok (onDate (some d) fun d => addDuration d.zone d.t { months := n }) = Except.ok (MRes.date (some x)) at h
  injection h with h
  simp only [onDate] at h
  injection h with h
  obtain ⟨t, ht, rfl⟩ := Option.map_eq_some_iff.1 h
  refine ⟨?_, fun hg => ?_⟩
  · obtain ⟨y, m, k, e, m1, m2, rfl, hl, _⟩ := C23_add_months_years hd n 0 ht
    exact ⟨y, m, e, m1, m2, rfl, rfl, by simpa using hl⟩
  · simp only [mCall, mDiff, mUnitOpt_ok (args := [.date (some { d with t := t }), .date (some d), .val (.str s)]) (i := 2) rfl hs]
    change Except.ok (MRes.val (.num (Cal.diff d.zone t d.zone d.t (some .month)))) = _
    rw [C23_diff_add_months hg n ht]

/-- Setting a field replaces it and nothing else, and gives no date if there is no such day or time, or if the local time does not occur exactly once.
The week and the quarter cannot be set: the date stays as it is. -/
theorem C73_set (d : ZDate) (hd : d.t.Valid) (n : Nat) (hn : n < 4294967296) (s : String) (u : DUnit) (hs : s ∈ unitNames u) :
    ∃ r, mCall L b .set [.date (some d), .val (.str s), .val (.num n)] = .ok (.date r) ∧
      ((u = .week ∨ u = .quarter) → r = some d) ∧
      (u ≠ .week → u ≠ .quarter → (u = .year → n < 2147483648) → ∀ x, r = some x ↔
        x.zone = d.zone ∧ x.name = d.name ∧ (replace u n (d.zone.toLocal d.t)).Valid ∧ d.zone.toLocal x.t = replace u n (d.zone.toLocal d.t) ∧ d.zone.Good x.t) := by
  have hu := mUnit_ok (args := [.date (some d), .val (.str s), .val (.num n)]) (i := 1) (s := s) rfl
  rw [(C73_units s u).2 hs] at hu
  refine ⟨(set d.zone u n d.t).map fun t => { d with t }, ?_, ?_, ?_⟩
  · simp only [mCall, mSet, hu]
    have : toU32 (n : Rat) = some n := Round.toU32_nat n hn
    change (match toU32 (n : Rat) with
      | none => _
      | some k => _) = _
    rw [this]
    rfl
  · rintro (rfl | rfl)
    · rw [(C23_set_noop d.zone n d.t).1]; rfl
    · rw [(C23_set_noop d.zone n d.t).2]; rfl
  · intro h1 h2 h3 x
    constructor
    · intro h
      obtain ⟨t, ht, rfl⟩ := Option.map_eq_some_iff.1 h
      exact ⟨rfl, rfl, (C23_set_iff hd n h3 ⟨h1, h2⟩).1 ht⟩
    · rintro ⟨e1, e2, h⟩
      rw [(C23_set_iff hd n h3 ⟨h1, h2⟩).2 h]
      obtain ⟨z, nm, t⟩ := x
      simp only at e1 e2
      subst e1 e2
      rfl

/-- A method of an invalid date gives an invalid date, or says that it is none: no number, no comparison that holds. -/
theorem C73_invalid (m : MName) (args : List Arg) (r : MRes) (h : mCall L b m (.date none :: args) = .ok r) :
    r = match m with
      | .format => .val (.str "Invalid date")
      | .compare _ | .get .isValid => .val (.bool false)
      | .diff | .get _ => .val .null
      | _ => .date none := by
  have bind : ∀ {α β : Type} {x : Fn.Res α} {f : α → Fn.Res β} {r : β}, x.bind f = .ok r → ∃ a, x = .ok a ∧ f a = .ok r := by
    intro α β x f r h
    cases x with
    | error e => cases h
    | ok a => exact ⟨a, rfl, h⟩
  have this' : thisDate (.date none :: args) = .ok none := rfl
  cases m
  case get g =>
    simp only [mCall, mGet, this'] at h
    cases g <;> cases h <;> rfl
  case compare op =>
    simp only [mCall, mCompare, this'] at h
    obtain ⟨_, e, h⟩ := bind h
    cases e
    obtain ⟨o, _, h⟩ := bind h
    obtain ⟨u, _, h⟩ := bind h
    injection h with h
    subst h
    cases op <;> rfl
  all_goals
    simp only [mCall, mAdd, mSub, mSet, mFormat, mEdge, mDiff, mTz, this'] at h
    obtain ⟨_, e, h⟩ := bind h
    cases e
  case tz =>
    obtain ⟨s, _, h⟩ := bind h
    split at h <;> cases h
    rfl
  case set =>
    obtain ⟨u, _, h⟩ := bind h
    split at h
    · split at h <;> cases h
      rfl
    · cases h
  case diff =>
    obtain ⟨o, _, h⟩ := bind h
    obtain ⟨u, _, h⟩ := bind h
    cases h
    rfl
  all_goals
    obtain ⟨u, _, h⟩ := bind h
    cases h
    rfl

/-! ## Examples -/

example : Name.arity .round = (1, 2) ∧ DName.arity .dateString = (1, 1) ∧ MName.arity .add = (2, 3) ∧ MName.arity (.compare .isBefore) = (2, 3) := by decide
example : "M" ∈ unitNames .month ∧ "m" ∈ unitNames .minute ∧ "M" ∉ unitNames .minute := by decide

/-- 29 February 2024, 12:34:56, in a zone without changes -/
private def leapDay : ZDate := ⟨anyZone 0, "UTC", Cal.utc 2024 2 29 12 34 56 789⟩

example : mCall fullDLib ⟨false⟩ .startOf [.date (some leapDay), .val (.str "month")] = .ok (.date (some { leapDay with t := Cal.utc 2024 2 1 0 0 0 0 })) := by
  have h := mUnit_ok (args := [.date (some leapDay), .val (.str "month")]) (i := 1) (s := "month") rfl
  rw [(C73_units "month" .month).2 (by decide)] at h
  simp only [mCall, mEdge, h]
  have : startOf leapDay.zone .month leapDay.t = some (Cal.utc 2024 2 1 0 0 0 0) := by decide +kernel
  change Except.ok (MRes.date ((startOf leapDay.zone .month leapDay.t).map _)) = _
  rw [this]
  rfl

example : leapDay.zone.Good leapDay.t ∧ leapDay.t.Valid := ⟨by refine ⟨⟨by decide, by decide⟩, by decide, by decide⟩, ⟨by decide, by decide⟩⟩
example : leapDay.zone.Ordered := fun u v _ => by simp [leapDay, anyZone, Zone.fixed]
-- a method of an invalid date
example : mCall fullDLib ⟨false⟩ .add [.date none, .val (.str "1d")] = .ok (.date none) := rfl
example : mCall fullDLib ⟨false⟩ (.get .isValid) [.date none] = .ok (.val (.bool false)) := rfl

end Zen
