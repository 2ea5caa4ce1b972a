import Verif.Types.Sound
/-
The results of the built-in functions have the types declared for them (helper of Props/C60).
-/
namespace Zen
namespace Ty
open VT

/-- the declared result of a function whose result type does not depend on the arguments -/
def fixedRet : Fn.Name → VT
  | .len | .abs | .rand | .floor | .ceil | .round | .trunc | .sum | .avg | .median | .mode | .number => .number
  | .contains | .startsWith | .endsWith | .matches_ | .bool | .isNumeric => .bool
  | .upper | .lower | .trim | .type | .string => .string
  | .extract | .split => .arr .string
  | .date => .date
  | .mergeDeep => .obj []
  | .values => .arr .any
  | _ => .any

theorem bind_ok {α β ε : Type} {x : Except ε α} {f : α → Except ε β} {b : β} (h : (x >>= f) = .ok b) :
    ∃ a, x = .ok a ∧ f a = .ok b := by
  cases x with
  | error e => cases h
  | ok a => exact ⟨a, rfl, h⟩

theorem deepV_obj (a : Val) (m : List (String × Val)) : ∃ m', Fn.deepV a (.obj m) = .obj m' := by
  cases a <;> simp [Fn.deepV]

theorem mergeDeep_obj : ∀ (xs : List Val) (acc : Val) (v : Val), (∃ m, acc = .obj m) →
    Fn.mergeDeepGo acc xs = .ok v → ∃ m, v = .obj m
  | [], acc, v, h, e => by simp only [Fn.mergeDeepGo] at e; cases e; exact h
  | x :: xs, acc, v, h, e => by
    cases x <;> simp only [Fn.mergeDeepGo] at e <;> first
      | (cases e; done)
      | exact mergeDeep_obj xs _ v h e
      | exact mergeDeep_obj xs _ v (deepV_obj _ _) e

theorem medianOf_num {D : Dec.Rounding} {checks : Bool} {a : List Rat} {v : Val}
    (h : Fn.medianOf D checks a = .ok v) : ∃ n, v = .num n := by
  unfold Fn.medianOf at h
  dsimp only at h
  split at h
  · split at h <;> cases h
    exact ⟨_, rfl⟩
  · split at h
    · split at h <;> cases h
    · repeat' (split at h)
      all_goals first | (cases h; exact ⟨_, rfl⟩) | cases h

set_option maxHeartbeats 1000000 in
theorem call_fixed {L : Fn.Lib} {D : Dec.Rounding} {checks : Bool} {n : Fn.Name} {vs : List Val} {v : Val}
    (h : Fn.call L D checks n vs = .ok v) : Inh (fixedRet n) v := by
  cases n <;> simp only [Fn.call] at h <;> simp only [fixedRet]
  case len =>
    unfold Fn.len at h
    obtain ⟨a, _, h⟩ := bind_ok h
    cases a <;> cases h <;> simp [Inh]
  case contains =>
    unfold Fn.contains at h
    obtain ⟨a, _, h⟩ := bind_ok h
    obtain ⟨b, _, h⟩ := bind_ok h
    split at h <;> cases h <;> simp [Inh]
  case matches_ =>
    unfold Fn.matches_ at h
    obtain ⟨a, _, h⟩ := bind_ok h
    obtain ⟨b, _, h⟩ := bind_ok h
    split at h <;> cases h
    simp [Inh]
  case extract =>
    unfold Fn.extract at h
    obtain ⟨a, _, h⟩ := bind_ok h
    obtain ⟨b, _, h⟩ := bind_ok h
    split at h <;> cases h
    simp only [Inh]
    refine ⟨_, rfl, fun x hx => ?_⟩
    obtain ⟨c, _, hc⟩ := List.mem_filterMap.1 hx
    cases c <;> cases hc
    exact ⟨_, rfl⟩
  case split =>
    unfold Fn.split at h
    obtain ⟨a, _, h⟩ := bind_ok h
    obtain ⟨b, _, h⟩ := bind_ok h
    cases h
    simp only [Inh]
    refine ⟨_, rfl, fun x hx => ?_⟩
    obtain ⟨c, _, rfl⟩ := List.mem_map.1 hx
    exact ⟨_, rfl⟩
  case mergeDeep =>
    unfold Fn.mergeDeep at h
    obtain ⟨a, _, h⟩ := bind_ok h
    obtain ⟨m, rfl⟩ := mergeDeep_obj a _ v ⟨[], rfl⟩ h
    simp [Inh, InhFields]
  case values =>
    unfold Fn.values at h
    obtain ⟨a, _, h⟩ := bind_ok h
    cases h
    simp [Inh]
  case median =>
    unfold Fn.median at h
    obtain ⟨a, _, h⟩ := bind_ok h
    simpa [Inh] using medianOf_num h
  case date =>
    unfold Fn.date at h
    obtain ⟨a, _, h⟩ := bind_ok h
    split at h <;> cases h
    simp [Inh]
  case round =>
    unfold Fn.round at h
    obtain ⟨a, _, h⟩ := bind_ok h
    obtain ⟨b, _, h⟩ := bind_ok h
    cases h; simp [Inh]
  case trunc =>
    unfold Fn.trunc at h
    obtain ⟨a, _, h⟩ := bind_ok h
    obtain ⟨b, _, h⟩ := bind_ok h
    cases h; simp [Inh]
  case startsWith =>
    unfold Fn.startsWith at h
    obtain ⟨a, _, h⟩ := bind_ok h
    obtain ⟨b, _, h⟩ := bind_ok h
    cases h; simp [Inh]
  case endsWith =>
    unfold Fn.endsWith at h
    obtain ⟨a, _, h⟩ := bind_ok h
    obtain ⟨b, _, h⟩ := bind_ok h
    cases h; simp [Inh]
  case string =>
    unfold Fn.toString at h
    obtain ⟨a, _, h⟩ := bind_ok h
    cases a <;> cases h <;> simp [Inh]
  case number =>
    unfold Fn.toNumber at h
    obtain ⟨a, _, h⟩ := bind_ok h
    cases a <;> first
      | (cases h; simp [Inh]; done)
      | (cases h; done)
      | (dsimp only at h; split at h <;> cases h; simp [Inh])
  case isNumeric =>
    unfold Fn.isNumeric at h
    obtain ⟨a, _, h⟩ := bind_ok h
    cases a <;> cases h <;> simp [Inh]
  all_goals
    first
      | (simp only [Inh]; done)
      | simp only [Fn.upper, Fn.lower, Fn.trim, Fn.abs, Fn.sum, Fn.avg, Fn.rand, Fn.mode, Fn.floor, Fn.ceil, Fn.toBool,
          Fn.toType] at h
        obtain ⟨a, _, h⟩ := bind_ok h
        first
          | (cases h; simp [Inh]; done)
          | (repeat' (split at h)
             all_goals first | (cases h; simp [Inh]; done) | (cases h; done))

theorem depCall_fixed {DL : Fn.DLib} {n : Fn.DName} {vs : List Val} {v : Val} (h : Fn.depCall DL n vs = .ok v) :
    ∀ ts, Inh ((depDef n).check ts).kind v := by
  intro ts
  have part : ∀ {p : Cal.Local → Val}, Fn.depPart DL p vs = .ok v → ∃ l, v = p l := by
    intro p h
    unfold Fn.depPart at h
    obtain ⟨a, _, h⟩ := bind_ok h
    obtain ⟨b, _, h⟩ := bind_ok h
    cases h
    exact ⟨b, rfl⟩
  have edge : ∀ {p}, Fn.depEdge DL p vs = .ok v → ∃ l : Rat, v = .num l := by
    intro p h
    unfold Fn.depEdge at h
    obtain ⟨a, _, h⟩ := bind_ok h
    obtain ⟨b, _, h⟩ := bind_ok h
    obtain ⟨b, _, h⟩ := bind_ok h
    repeat' (split at h)
    all_goals first | (cases h; exact ⟨_, rfl⟩) | (cases h; done)
  cases n <;> simp only [Fn.depCall] at h <;> simp only [depDef, FDef.check, Sig.single]
  case date =>
    unfold Fn.depDate at h
    obtain ⟨a, _, h⟩ := bind_ok h
    repeat' (split at h)
    all_goals first | (cases h; simp [Inh]; done) | (cases h; done) | skip
    all_goals (obtain ⟨_, _, h⟩ := bind_ok h; cases h; simp [Inh])
  case time =>
    unfold Fn.depTime at h
    obtain ⟨a, _, h⟩ := bind_ok h
    repeat' (split at h)
    all_goals first | (cases h; simp [Inh]; done) | (cases h; done)
  case duration =>
    unfold Fn.depDuration at h
    obtain ⟨a, _, h⟩ := bind_ok h
    repeat' (split at h)
    all_goals first | (cases h; simp [Inh]; done) | (cases h; done)
  all_goals first
    | (obtain ⟨l, rfl⟩ := part h; simp [Inh]; done)
    | (obtain ⟨l, rfl⟩ := edge h; simp [Inh]; done)

/-- values of one type after one step of flattening -/
theorem flatten_elem {same : VT → VT → Bool} (hs : ∀ a b, same a b = true → a = b) (hc : ∀ a b, same a b = same b a) :
    ∀ {t : VT}, VT.WF t → isIntervalLike t = false → ∀ {x : Val}, Inh t x →
      ∀ y ∈ flattenV [x], Inh (flatElem same t) y := by
  intro t
  induction t using VT.ind with
  | nullable t ih =>
    intro hw hi x hx y hy
    have hw' : VT.WF t := by cases hw; assumption
    refine C08_merge_values same hs hc (scalar_alike _ _ _ _ trivial (by simp [unwrap]) (by simp [unwrap])) .null
      (wf_flatElem same hw') y ?_
    simp only [Inh] at hx
    rcases hx with rfl | hx
    · left; simp only [flattenV, List.mem_singleton] at hy; simp [Inh, hy]
    · exact .inr (ih hw' (by simpa [isIntervalLike] using hi) hx y hy)
  | arr t _ =>
    intro _ _ x hx y hy
    simp only [Inh] at hx
    obtain ⟨xs, rfl, hxs⟩ := hx
    simp only [flattenV, List.append_nil] at hy
    exact hxs y hy
  | interval => intro _ hi; simp [isIntervalLike] at hi
  | any => intro _ _ x _ y _; simp [flatElem, Inh]
  | obj o _ =>
    intro _ _ x hx y hy
    have hx' := hx
    simp only [Inh] at hx
    obtain ⟨xs, rfl, hxs⟩ := hx
    simp only [flattenV, List.mem_singleton] at hy
    subst hy
    exact hx'
  | date =>
    intro _ _ x hx y hy
    have hx' := hx
    simp only [Inh] at hx
    rcases hx with ⟨s, rfl⟩ | ⟨s, rfl⟩ | ⟨s, rfl⟩ <;>
    · simp only [flattenV, List.mem_singleton] at hy
      subst hy
      exact hx'
  | null =>
    intro _ _ x hx y hy
    simp only [Inh] at hx
    subst hx
    simp only [flattenV, List.mem_singleton] at hy
    subst hy
    simp [flatElem, Inh]
  | const c =>
    intro _ _ x hx y hy
    simp only [Inh] at hx
    subst hx
    simp only [flattenV, List.mem_singleton] at hy
    subst hy
    simp [flatElem, Inh]
  | enum n vs =>
    intro _ _ x hx y hy
    have hx' := hx
    simp only [Inh] at hx
    obtain ⟨s, _, rfl⟩ := hx
    simp only [flattenV, List.mem_singleton] at hy
    subst hy
    exact hx'
  | _ =>
    intro _ _ x hx y hy
    have hx' := hx
    simp only [Inh] at hx
    obtain ⟨s, rfl⟩ := hx
    simp only [flattenV, List.mem_singleton] at hy
    subst hy
    exact hx'

theorem flattenV_cons (x : Val) (xs : List Val) : flattenV (x :: xs) = flattenV [x] ++ flattenV xs := by
  cases x <;> simp [flattenV]

theorem flattenV_mem : ∀ {xs : List Val} {y : Val}, y ∈ flattenV xs → ∃ x ∈ xs, y ∈ flattenV [x]
  | [], _, h => nomatch h
  | x :: xs, y, h => by
    rw [flattenV_cons, List.mem_append] at h
    rcases h with h | h
    · exact ⟨x, List.mem_cons_self, h⟩
    · obtain ⟨x', hm, h⟩ := flattenV_mem h
      exact ⟨x', List.mem_cons_of_mem _ hm, h⟩

theorem numOrDate {vs : List Val} {a : List Rat ⊕ List (Option Int)} {t : VT} {x : Val} (hx : Inh t x)
    (hv : vs[0]? = some x) (h : Fn.numOrDateArray vs 0 = .ok a) (ht : t = .arr .number) :
    (∃ ns, a = .inl ns) ∨ a = .inr [] := by
  subst ht
  simp only [Inh] at hx
  obtain ⟨xs, rfl, hxs⟩ := hx
  unfold Fn.numOrDateArray at h
  obtain ⟨ys, hy, h⟩ := bind_ok h
  simp only [Fn.argArr, hv] at hy
  cases hy
  cases xs with
  | nil => simp only [Fn.allDates] at h; cases h; exact .inr rfl
  | cons z zs =>
    obtain ⟨n, rfl⟩ := hxs z List.mem_cons_self
    dsimp only at h
    split at h <;> cases h
    exact .inl ⟨_, rfl⟩

theorem sat_arr {t c : VT} (h : sat t (.arr c) = true) : t = .any ∨ ∃ a, t = .arr a ∧ sat a c = true := by
  cases t <;> simp_all [sat]

theorem sat_number {t : VT} (h : sat t .number = true) : t = .any ∨ t = .number := by
  cases t <;> simp_all [sat]

theorem check_one {s1 s2 : Sig} {p1 p2 : VT} (h1 : s1.params = [p1]) (h2 : s2.params = [p2]) {args : List VT}
    (hbad : (FDef.check (.composite [s1, s2]) args).bad = false) :
    ∃ a, args = [a] ∧ ((sat a p1 = true ∧ (FDef.check (.composite [s1, s2]) args).kind = s1.ret) ∨
      (sat a p1 = false ∧ sat a p2 = true ∧ (FDef.check (.composite [s1, s2]) args).kind = s2.ret)) := by
  match args with
  | [] => revert hbad; simp [FDef.check, zipSat, minArity, h1, h2]
  | [a] =>
    refine ⟨a, rfl, ?_⟩
    revert hbad
    cases e1 : sat a p1 <;> cases e2 : sat a p2 <;> simp [FDef.check, zipSat, minArity, maxArity, h1, h2, e1, e2, List.find?]
  | a :: b :: r =>
    revert hbad
    cases e1 : sat a p1 <;> cases e2 : sat a p2 <;>
      simp [FDef.check, zipSat, minArity, maxArity, h1, h2, e1, e2, List.find?]

theorem inh_minmax {n : Fn.Name} (hn : n = .min ∨ n = .max) {L : Fn.Lib} {D : Dec.Rounding} {checks : Bool}
    {args : List VT} {vs : List Val} {v : Val} (h : Fn.call L D checks n vs = .ok v)
    (hbad : ((fnDef n).check args).bad = false) (hvs : List.Forall₂ Inh args vs)
    (h1 : args.head? ≠ some .any) (h2 : args.head? ≠ some (.arr .any)) : Inh ((fnDef n).check args).kind v := by
  have e : fnDef n = .composite [.single (.arr .number) .number, .single (.arr .date) .date] := by
    rcases hn with rfl | rfl <;> rfl
  rw [e] at hbad ⊢
  obtain ⟨a, rfl, hk⟩ := check_one rfl rfl hbad
  cases hvs with
  | @cons _ x _ vs' hx hr =>
  cases hr
  have shape : ∃ nd, Fn.numOrDateArray [x] 0 = .ok nd ∧ ((∃ q, v = .num q ∧ ∃ ns, nd = .inl ns) ∨
      ∃ d, v = .dyn (.date d) ∧ ∃ y ys, nd = .inr (y :: ys)) := by
    rcases hn with rfl | rfl <;> simp only [Fn.call, Fn.min, Fn.max] at h <;> obtain ⟨nd, e1, h⟩ := bind_ok h <;>
    · refine ⟨nd, e1, ?_⟩
      cases nd with
      | inl ns => dsimp only at h; split at h <;> cases h; exact .inl ⟨_, rfl, _, rfl⟩
      | inr ds =>
        cases ds with
        | nil => cases h
        | cons d ds => dsimp only [Fn.minDate, Fn.maxDate] at h; cases h; exact .inr ⟨_, rfl, _, _, rfl⟩
  obtain ⟨nd, e1, hs⟩ := shape
  rcases hk with ⟨hk, hr⟩ | ⟨_, hk, hr⟩ <;> rw [hr]
  · rcases sat_arr hk with rfl | ⟨u, rfl, hu⟩
    · simp at h1
    · rcases sat_number hu with rfl | rfl
      · simp at h2
      · rcases numOrDate hx (by rfl) e1 rfl with ⟨ns, rfl⟩ | rfl
        · rcases hs with ⟨q, rfl, _⟩ | ⟨d, _, y, ys, h⟩
          · simp [Sig.single, Inh]
          · cases h
        · rcases hs with ⟨q, _, ns, h⟩ | ⟨d, _, y, ys, h⟩ <;> cases h
  · rcases hs with ⟨q, rfl, _⟩ | ⟨d, rfl, _⟩ <;> simp [Sig.single, Inh]

theorem inh_keys {L : Fn.Lib} {D : Dec.Rounding} {checks : Bool}
    {args : List VT} {vs : List Val} {v : Val} (h : Fn.call L D checks .keys vs = .ok v)
    (hbad : ((fnDef .keys).check args).bad = false) (hvs : List.Forall₂ Inh args vs)
    (h1 : args.head? ≠ some .any) : Inh ((fnDef .keys).check args).kind v := by
  have e : fnDef .keys = .composite [.single (.obj []) (.arr .string), .single (.arr .any) (.arr .number)] := rfl
  rw [e] at hbad ⊢
  obtain ⟨a, rfl, hk⟩ := check_one rfl rfl hbad
  cases hvs with
  | @cons _ x _ vs' hx hr =>
  cases hr
  simp only [Fn.call, Fn.keys] at h
  obtain ⟨y, hy, h⟩ := bind_ok h
  cases hy
  rcases hk with ⟨hk, hr⟩ | ⟨_, hk, hr⟩ <;> rw [hr]
  · have : ∃ m, x = .obj m := by
      cases a <;> simp [sat] at hk
      · simp at h1
      · simp only [Inh] at hx; obtain ⟨m, rfl, _⟩ := hx; exact ⟨m, rfl⟩
    obtain ⟨m, rfl⟩ := this
    cases h
    simp only [Sig.single, Inh]
    refine ⟨_, rfl, fun z hz => ?_⟩
    obtain ⟨c, _, rfl⟩ := List.mem_map.1 hz
    exact ⟨_, rfl⟩
  · have : ∃ m, x = .arr m := by
      rcases sat_arr hk with rfl | ⟨u, rfl, hu⟩
      · simp at h1
      · simp only [Inh] at hx; obtain ⟨m, rfl, _⟩ := hx; exact ⟨m, rfl⟩
    obtain ⟨m, rfl⟩ := this
    cases h
    simp only [Sig.single, Inh]
    refine ⟨_, rfl, fun z hz => ?_⟩
    obtain ⟨c, _, rfl⟩ := List.mem_map.1 hz
    exact ⟨_, rfl⟩

theorem inh_fuzzy {L : Fn.Lib} {D : Dec.Rounding} {checks : Bool}
    {args : List VT} {vs : List Val} {v : Val} (h : Fn.call L D checks .fuzzyMatch vs = .ok v)
    (hbad : ((fnDef .fuzzyMatch).check args).bad = false) (hvs : List.Forall₂ Inh args vs)
    (h1 : args.head? ≠ some .any) : Inh ((fnDef .fuzzyMatch).check args).kind v := by
  simp only [Fn.call, Fn.fuzzyMatch] at h
  obtain ⟨x, hx, h0⟩ := bind_ok h
  clear h
  obtain ⟨b, hb, h⟩ := bind_ok h0
  clear h0
  cases hvs with
  | nil => cases hx
  | @cons a x' as vs' ha _ =>
  cases hx
  simp only [List.head?_cons, ne_eq, Option.some.injEq] at h1
  revert hbad
  simp only [fnDef, FDef.check]
  split
  · rename_i s hs
    intro _
    have hm := List.mem_of_find?_eq_some hs
    have hz := List.find?_some hs
    simp only [List.mem_cons, List.not_mem_nil, or_false] at hm
    rcases hm with rfl | rfl
    · have : sat a .string = true := by
        cases as <;> simp_all [zipSat]
      have : ∃ s, x = .str s := by
        cases a <;> simp_all [sat, Inh]
        obtain ⟨s, _, rfl⟩ := ha
        exact ⟨s, rfl⟩
      obtain ⟨s, rfl⟩ := this
      cases h
      simp [Inh]
    · have : sat a (.arr .string) = true := by
        cases as <;> simp_all [zipSat]
      rcases sat_arr this with rfl | ⟨u, rfl, _⟩
      · simp at h1
      · simp only [Inh] at ha
        obtain ⟨xs, rfl, _⟩ := ha
        dsimp only at h
        split at h <;> cases h
        simp only [Inh]
        refine ⟨_, rfl, fun z hz => ?_⟩
        obtain ⟨c, _, rfl⟩ := List.mem_map.1 hz
        exact ⟨_, rfl⟩
  · intro h; cases h

/-- the type of a call by the function called -/
def kindOfName (same : VT → VT → Bool) (args : List VT) : Fn.Name → TI
  | .merge => mergeKind args
  | .mergeDeep => mergeDeepKind args
  | .flatten => flattenKind true same args
  | .values => valuesKind same args
  | n => (fnDef n).check args

theorem callKind_name {same : VT → VT → Bool} {f : String} {n : Fn.Name} (hf : Fn.Name.ofText f = some n)
    (args : List VT) : callKind true same f args = kindOfName same args n := by
  unfold callKind
  rw [hf]
  cases n <;> rfl

/-- the result of a function has the inferred type -/
theorem inh_call {same : VT → VT → Bool} (hs : ∀ a b, same a b = true → a = b) (hc : ∀ a b, same a b = same b a)
    {L : Fn.Lib} {D : Dec.Rounding} {checks : Bool} {f : String} {n : Fn.Name} (hf : Fn.Name.ofText f = some n)
    {args : List VT} (hw : ∀ t ∈ args, VT.WF t) {vs : List Val} {v : Val} (h : Fn.call L D checks n vs = .ok v)
    (hbad : (callKind true same f args).bad = false) (hvs : overloaded n = true → List.Forall₂ Inh args vs)
    (sure : SureCall n args (callKind true same f args).kind) : Inh (callKind true same f args).kind v := by
  have fixed := call_fixed h
  have e := callKind_name (same := same) hf args
  rw [e] at hbad sure ⊢
  cases n with
  | merge => simp only [SureCall] at sure; rw [sure]; simp [Inh]
  | mergeDeep => simp only [SureCall] at sure; rw [sure]; exact fixed
  | values => simp only [SureCall] at sure; rw [sure]; exact fixed
  | min => exact inh_minmax (.inl rfl) h hbad (hvs rfl) sure.1 sure.2
  | max => exact inh_minmax (.inr rfl) h hbad (hvs rfl) sure.1 sure.2
  | keys => exact inh_keys h hbad (hvs rfl) sure
  | fuzzyMatch => exact inh_fuzzy h hbad (hvs rfl) sure
  | flatten =>
    have hvs := hvs rfl
    have one : ∃ a t, args = [a] ∧ a.iterator = some t ∧ isNullable a = false := by
      revert hbad
      simp only [kindOfName]
      unfold flattenKind
      split
      · split
        · intro h; cases h
        · rename_i et
          intro hb
          exact ⟨_, _, rfl, et, by simpa using hb⟩
      · intro h; cases h
    obtain ⟨a, t, rfl, et, hb⟩ := one
    cases hvs with
    | @cons _ x _ vs' hx hr =>
    cases hr
    have sure := sure a t rfl et
    simp only [Fn.call, Fn.flatten] at h
    obtain ⟨xs, hy, h⟩ := bind_ok h
    cases h
    have hxs : x = .arr xs := by
      cases x <;> simp only [Fn.argArr, List.getElem?_cons_zero] at hy <;> cases hy
      rfl
    subst hxs
    have wt := wf_iterator (hw a List.mem_cons_self) et
    have hel : ∀ z ∈ xs, Inh t z := by
      cases a <;> simp [VT.iterator, isNullable] at et hb <;> subst et <;> simp only [Inh] at hx
      · obtain ⟨_, _, _, _, h⟩ := hx; cases h
      · obtain ⟨ys, h, hys⟩ := hx
        cases h
        exact hys
    simp only [kindOfName, flattenKind, et, Inh]
    refine ⟨_, rfl, fun y hy => ?_⟩
    obtain ⟨z, hz, hy⟩ := flattenV_mem hy
    exact flatten_elem hs hc wt sure (hel z hz) y hy
  | len =>
    revert hbad
    dsimp only [kindOfName, fnDef, FDef.check]
    split
    · rename_i s hs
      have hm := List.mem_of_find?_eq_some hs
      simp only [List.mem_cons, List.not_mem_nil, or_false] at hm
      intro _
      rcases hm with rfl | rfl <;> exact fixed
    · intro h; cases h
  | contains =>
    revert hbad
    dsimp only [kindOfName, fnDef, FDef.check]
    split
    · rename_i s hs
      have hm := List.mem_of_find?_eq_some hs
      simp only [List.mem_cons, List.not_mem_nil, or_false] at hm
      intro _
      rcases hm with rfl | rfl <;> exact fixed
    · intro h; cases h
  | round =>
    revert hbad
    dsimp only [kindOfName, fnDef, FDef.check]
    split
    · rename_i s hs
      have hm := List.mem_of_find?_eq_some hs
      simp only [List.mem_cons, List.not_mem_nil, or_false] at hm
      intro _
      rcases hm with rfl | rfl <;> exact fixed
    · intro h; cases h
  | trunc =>
    revert hbad
    dsimp only [kindOfName, fnDef, FDef.check]
    split
    · rename_i s hs
      have hm := List.mem_of_find?_eq_some hs
      simp only [List.mem_cons, List.not_mem_nil, or_false] at hm
      intro _
      rcases hm with rfl | rfl <;> exact fixed
    · intro h; cases h
  | date =>
    revert hbad
    dsimp only [kindOfName, fnDef, FDef.check]
    split
    · rename_i s hs
      have hm := List.mem_of_find?_eq_some hs
      simp only [List.mem_cons, List.not_mem_nil, or_false] at hm
      intro _
      rcases hm with rfl | rfl | rfl <;> exact fixed
    · intro h; cases h
  | _ => exact fixed

end Ty
end Zen
