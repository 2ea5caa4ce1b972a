import Verif.Types.SoundAsg
import Verif.Props.C11
/-
C60  An expression the type checker accepts gives a value of the inferred type.
`Accepted strict same sc n`: the checker records no error (Types/Provider.lean). `VT.Inh t v`: the value has the
type (Types/Inhabits.lean). `SureTop` (Types/Sure.lean) leaves out the operators for which this is not so; each of
them has a counterexample below.
-/
namespace Zen
open VT Ty

/-- the scope in which an expression over data of an object type is checked (intellisense/mod.rs) -/
def typeScope (o : List (String × VT)) : TScope := { root := .obj o, pointer := .obj o }

section
variable {L : Fn.Lib} {D : Dec.Rounding} {checks : Bool} {DL : Fn.DLib} {num : NumOps}
  {mArity : String → Option (Nat × Nat)} {method : String → List Val → Except BErr Val} {same : VT → VT → Bool}

/-- The checker accepts the expression for data of type `o`; the data has that type; then a value the compiled
program gives has the inferred type. -/
theorem C60_value_has_type (hm : MethodsTyped method) (hs : ∀ a b, same a b = true → a = b)
    (hc : ∀ a b, same a b = same b a) {o : List (String × VT)} (ho : VT.WF (.obj o)) {data : Val}
    (hd : Inh (.obj o) data) {n : Node} (ha : Accepted true same (typeScope o) n) (hsu : SureTop same (typeScope o) n)
    {v : Val} (h : Yields (Fn.builtins L D checks DL num mArity method) { base := data } n (.ok v)) :
    Inh (determine true same (typeScope o) n).kind v := by
  obtain ⟨env, he⟩ := fst_of_yields h
  have hfr : FrFits (typeScope o) [] := ⟨fun _ e => (nomatch e), fun _ _ e => (nomatch e), fun _ _ => rfl⟩
  have hf : Fits (typeScope o) { base := data } := ⟨List.nodup_nil, o, rfl, hd⟩
  exact sound_top hm hs hc ⟨ho, ho, fun _ _ e => nomatch e⟩ hf hfr ha hsu he

/-- The methods of dates have the types the theorem above asks for. -/
theorem C60_methods (DL : Fn.DLib) (b : Dur.Build) (toArg : Val → Fn.Arg) (ofDate : Option Fn.ZDate → Option Int) :
    MethodsTyped (methodOf DL b toArg ofDate) := methodOf_typed DL b toArg ofDate

end

/-! ### An accepted program -/

/-- an order with a customer who may have no name, and some lines -/
def orderType : List (String × VT) :=
  [("customer", .obj [("name", .nullable .string), ("age", .number)]),
   ("lines", .arr (.obj [("price", .number), ("tags", .arr .string)]))]

/-- `total = sum(map(lines as l, l.price)); {total: total, who: customer.name ?? "?", tags: flatMap(lines, #.tags), old: customer.age > 65}` -/
def orderExpr : Node :=
  .assigns [(.str "total", .call "sum" [.closure .map (.ident "lines") (some "l") (.member (.ident "l") (.str "price"))])]
    (some (.obj [(.str "total", .ident "total"),
      (.str "who", .binary (.logic .coalesce) (.member (.ident "customer") (.str "name")) (.str "?")),
      (.str "tags", .closure .flatMap (.ident "lines") none (.member .pointer (.str "tags"))),
      (.str "old", .binary (.cmp .gt) (.member (.ident "customer") (.str "age")) (.num 65))]))

/-- no two types share their memory -/
def noSame : VT → VT → Bool := fun _ _ => false

theorem order_type : (determine true noSame (typeScope orderType) orderExpr).kind =
    .obj [("total", .number), ("who", .string), ("tags", .arr .string), ("old", .bool)] := by
  rfl

theorem order_accepted : Accepted true noSame (typeScope orderType) orderExpr := by
  rfl

theorem order_sure : SureTop noSame (typeScope orderType) orderExpr := by
  refine ⟨⟨⟨trivial, trivial, trivial⟩, ⟨?_, ?_, ?_⟩, "total", rfl, trivial⟩, ?_, ?_, ?_⟩
  · simp [NoAssign, NoAssignL]
  · simp [Avoids, AvoidsL]
  · intro n hn
    have : n = .sum := by
      have e : Fn.Name.ofText "sum" = some .sum := by decide +kernel
      rw [e] at hn; cases hn; rfl
    subst this
    exact ⟨fun h => (nomatch h), trivial⟩
  · simp [NoAssign, NoAssignP]
  · simp [Avoids, AvoidsP]
  · refine .inr ⟨⟨trivial, trivial, trivial, ⟨⟨trivial, trivial⟩, trivial, ?_⟩, trivial, ⟨trivial, ⟨trivial, trivial⟩, .inr ⟨.string, rfl⟩⟩,
      trivial, trivial, trivial⟩, ["total", "who", "tags", "old"], by decide, rfl⟩
    intro t ht
    have : t = .string := by
      have e : VT.nullable .string = .nullable t := ht
      cases e; rfl
    subst this
    exact scalar_alike _ _ _ _ trivial (by simp [unwrap]) (by simp [unwrap])

example {L : Fn.Lib} {D : Dec.Rounding} {checks : Bool} {DL : Fn.DLib} {num : NumOps}
    {mArity : String → Option (Nat × Nat)} {b : Dur.Build} {toArg : Val → Fn.Arg} {ofDate : Option Fn.ZDate → Option Int}
    {v : Val} (h : Yields (Fn.builtins L D checks DL num mArity (methodOf DL b toArg ofDate))
      { base := .obj [("customer", .obj [("age", .num 70)]), ("lines", .arr [.obj [("price", .num 3), ("tags", .arr [])]])] }
      orderExpr (.ok v)) :
    ∃ fs, v = .obj fs ∧ (∃ x, (aGet fs "total").getD .null = .num x) ∧ (∃ x, (aGet fs "who").getD .null = .str x) ∧
      ∃ x, (aGet fs "old").getD .null = .bool x := by
  have wf : VT.WF (.obj orderType) := by
    refine .obj (by decide) fun k t ht => ?_
    simp only [orderType, List.mem_cons, Prod.mk.injEq, List.not_mem_nil, or_false] at ht
    rcases ht with ⟨_, rfl⟩ | ⟨_, rfl⟩
    · refine .obj (by decide) fun k t ht => ?_
      simp only [List.mem_cons, Prod.mk.injEq, List.not_mem_nil, or_false] at ht
      rcases ht with ⟨_, rfl⟩ | ⟨_, rfl⟩
      · exact .nullable .string
      · exact .number
    · refine .arr (.obj (by decide) fun k t ht => ?_)
      simp only [List.mem_cons, Prod.mk.injEq, List.not_mem_nil, or_false] at ht
      rcases ht with ⟨_, rfl⟩ | ⟨_, rfl⟩
      · exact .number
      · exact .arr .string
  have key := C60_value_has_type (same := noSame) (methodOf_typed DL b toArg ofDate) (fun _ _ h => nomatch h)
    (fun _ _ => rfl) wf (by simp [orderType, Inh, InhFields, aGet]) order_accepted order_sure h
  rw [order_type] at key
  simp only [Inh, InhFields] at key
  obtain ⟨fs, h0, h1, h2, _, h4, _⟩ := key
  exact ⟨fs, h0, h1, h2, h4⟩

/-! ### Where the inferred type cannot be relied on

Each is an expression the checker accepts for the data type `o`, with data of that type, and a value that does not
have the inferred type. -/

/-- the checker accepts, and is wrong about the value -/
structure Mistyped (B : Builtins) (strict : Bool) (o : List (String × VT)) (data : Val) (n : Node) (v : Val) : Prop where
  accepted : Accepted strict noSame (typeScope o) n
  fits : Inh (.obj o) data
  value : evaluate B { base := data } n = .ok v
  wrong : ¬ Inh (determine strict noSame (typeScope o) n).kind v

section
variable (B : Builtins)

/-- `flag and x`: the right operand is returned as it is. -/
theorem C60_and_of_any : Mistyped B true [("x", .any)] (.obj [("x", .num 5)])
    (.binary (.logic .and) (.bool true) (.ident "x")) (.num 5) := by
  refine ⟨rfl, by simp [Inh, InhFields], rfl, ?_⟩
  show ¬ Inh .bool _
  simp [Inh]

/-- `flag or x`: likewise -/
theorem C60_or_of_any : Mistyped B true [("x", .any)] (.obj [("x", .num 5)])
    (.binary (.logic .or) (.bool false) (.ident "x")) (.num 5) := by
  refine ⟨rfl, by simp [Inh, InhFields], rfl, ?_⟩
  show ¬ Inh .bool _
  simp [Inh]

/-- `+x`: a sign does not convert. -/
theorem C60_plus_of_any : Mistyped B true [("x", .any)] (.obj [("x", .str "s")])
    (.unary (.arith .add) (.ident "x")) (.str "s") := by
  refine ⟨rfl, by simp [Inh, InhFields], rfl, ?_⟩
  show ¬ Inh .number _
  simp [Inh]

/-- `a / b`: null where the division fails, as it does for zero. -/
theorem C60_division (h : B.num.div 1 0 = none) : Mistyped B true [] (.obj [])
    (.binary (.arith .div) (.num 1) (.num 0)) .null := by
  refine ⟨rfl, by simp [Inh, InhFields], by simp [evaluate, eval, binMeaning, opDiv, h, Except.map], ?_⟩
  show ¬ Inh .number _
  simp [Inh]

/-- `a % b`: likewise -/
theorem C60_remainder (h : B.num.rem 1 0 = none) : Mistyped B true [] (.obj [])
    (.binary (.arith .mod) (.num 1) (.num 0)) .null := by
  refine ⟨rfl, by simp [Inh, InhFields], by simp [evaluate, eval, binMeaning, opMod, h, Except.map], ?_⟩
  show ¬ Inh .number _
  simp [Inh]

/-- `true ? a : b` of objects with different fields: the merged type promises both fields. -/
theorem C60_merged_objects : Mistyped B true [("a", .obj [("x", .number)]), ("b", .obj [("y", .number)])]
    (.obj [("a", .obj [("x", .num 1)]), ("b", .obj [("y", .num 2)])])
    (.cond (.bool true) (.ident "a") (.ident "b")) (.obj [("x", .num 1)]) := by
  refine ⟨rfl, by simp [Inh, InhFields, aGet], rfl, ?_⟩
  show ¬ Inh (.obj [("x", .number), ("y", .number)]) _
  simp [Inh, InhFields, aGet]

/-- `x ?? b` likewise -/
theorem C60_coalesced_objects :
    Mistyped B true [("a", .nullable (.obj [("x", .number)])), ("b", .obj [("y", .number)])]
    (.obj [("a", .null), ("b", .obj [("y", .num 2)])])
    (.binary (.logic .coalesce) (.ident "a") (.ident "b")) (.obj [("y", .num 2)]) := by
  refine ⟨rfl, by simp [Inh, InhFields, aGet], rfl, ?_⟩
  show ¬ Inh (.obj [("x", .number), ("y", .number)]) _
  simp [Inh, InhFields, aGet]

/-- `true ? a : b` where `a` is an array of anything: the merged type is that of `b`. -/
theorem C60_merged_arrays : Mistyped B true [("a", .arr .any), ("b", .arr .number)]
    (.obj [("a", .arr [.str "s"]), ("b", .arr [])])
    (.cond (.bool true) (.ident "a") (.ident "b")) (.arr [.str "s"]) := by
  refine ⟨rfl, by simp [Inh, InhFields, aGet], rfl, ?_⟩
  show ¬ Inh (.arr .number) _
  simp [Inh]

/-- `[a, b]` likewise -/
theorem C60_merged_elements : Mistyped B true [("a", .arr .any), ("b", .arr .number)]
    (.obj [("a", .arr [.str "s"]), ("b", .arr [])])
    (.arr [.ident "a", .ident "b"]) (.arr [.arr [.str "s"], .arr []]) := by
  refine ⟨rfl, by simp [Inh, InhFields, aGet], rfl, ?_⟩
  show ¬ Inh (.arr (.arr .number)) _
  simp [Inh]

/-- `filter([1..2], true)`: the result is an array, its type that of the interval. -/
theorem C60_filter_interval : Mistyped B true [] (.obj [])
    (.closure .filter (.interval (.num 1) (.num 0) .lsq .rsq) none (.bool true)) (.arr []) := by
  refine ⟨rfl, by simp [Inh, InhFields], ?_, ?_⟩
  · have h1 : toI64 1 = some 1 := by decide +kernel
    have h0 : toI64 0 = some 0 := by decide +kernel
    simp [evaluate, eval, opInterval, opBegin, intervalToArray, rangeStart, rangeEnd, h1, h0, loopMeaning, loopFilter,
      Except.map]
  · show ¬ Inh .interval _
    simp [Inh]

/-- `flatMap([1], [1..2])`: an interval is not flattened. -/
theorem C60_flatMap_interval : Mistyped B true [] (.obj [])
    (.closure .flatMap (.arr [.num 1]) none (.interval (.num 1) (.num 2) .lsq .rsq))
    (.arr [.dyn (.interval .lsq .rsq (.num 1) (.num 2))]) := by
  refine ⟨rfl, by simp [Inh, InhFields], rfl, ?_⟩
  show ¬ Inh (.arr .number) _
  simp [Inh]

/-- `flatMap(xs, #)` where elements may be null: null stays. -/
theorem C60_flatMap_null : Mistyped B true [("xs", .arr (.nullable (.arr .number)))] (.obj [("xs", .arr [.null])])
    (.closure .flatMap (.ident "xs") none .pointer) (.arr [.null]) := by
  refine ⟨rfl, by simp [Inh, InhFields, aGet], rfl, ?_⟩
  show ¬ Inh (.arr .number) _
  simp [Inh]

/-- `x = "s"; $root.x`: `$root` in a path is the input, its type that after the assignment. -/
theorem C60_root_after_assignment : Mistyped B true [("x", .number)] (.obj [("x", .num 1)])
    (.assigns [(.str "x", .str "s")] (some (.member .root (.str "x")))) (.num 1) := by
  refine ⟨rfl, by simp [Inh, InhFields, aGet], rfl, ?_⟩
  show ¬ Inh (.const "s") _
  simp [Inh]

/-- `a.b = 1`: the value is nested, its type has a field called `a.b`. -/
theorem C60_dotted_assignment : Mistyped B true [] (.obj [])
    (.assigns [(.str "a.b", .num 1)] none) (.obj [("a", .obj [("b", .num 1)])]) := by
  refine ⟨rfl, by simp [Inh, InhFields], by rfl, ?_⟩
  show ¬ Inh (.obj [("a.b", .number)]) _
  simp [Inh, InhFields, aGet]

/-- `xs[0]` without strict checking: an element that is not there is null. -/
theorem C60_index_not_strict : Mistyped B false [("xs", .arr .number)] (.obj [("xs", .arr [])])
    (.member (.ident "xs") (.num 0)) .null := by
  refine ⟨rfl, by simp [Inh, InhFields, aGet], ?_, ?_⟩
  · have h0 : toU32 0 = some 0 := by decide +kernel
    simp [evaluate, eval, aliasOf, Scope.get, Scope.local_, aGet, fastIdx, h0, lenient, Except.map]
  · show ¬ Inh .number _
    simp [Inh]

/-- For data of unknown type every name is taken for null. -/
theorem C60_unknown_data : (determine true noSame { root := .any, pointer := .any } (.ident "x")) = ⟨.null, false⟩ ∧
    evaluate B { base := .obj [("x", .num 1)] } (.ident "x") = .ok (.num 1) := ⟨rfl, rfl⟩

end

section
variable (L : Fn.Lib) (D : Dec.Rounding) (checks : Bool) (DL : Fn.DLib) (num : NumOps)
  (mArity : String → Option (Nat × Nat)) (method : String → List Val → Except BErr Val)

local notation "B" => Fn.builtins L D checks DL num mArity method

theorem call_one {f : String} {n : Fn.Name} (hf : Fn.Name.ofText f = some n) {x : String} {data : List (String × Val)}
    {v r : Val} (hx : aGet data x = some v) (h : Fn.call L D checks n [v] = .ok r) :
    evaluate B { base := .obj data } (.call f [.ident x]) = .ok r := by
  simp [evaluate, eval, evalList, aliasOf, opFetchEnv, Scope.local_, hx, Fn.builtins, hf, h, Except.map, aGet]

/-- `{a: 1, a: "s"}`: the first value is kept, the type is that of the last. -/
theorem C60_duplicate_keys : Mistyped B true [] (.obj [])
    (.obj [(.str "a", .num 1), (.str "a", .str "s")]) (.obj [("a", .num 1)]) := by
  refine ⟨rfl, by simp [Inh, InhFields], ?_, ?_⟩
  · simp [evaluate, eval, evalObj, strOf_str, objLiteral, aSet, aGet, aReplace, Except.map]
  · show ¬ Inh (.obj [("a", .const "s")]) _
    simp [Inh, InhFields, aGet]

/-- `{[k]: "s", a: 1}`: an entry with a computed key is skipped, though it may win. -/
theorem C60_computed_key : Mistyped B true [("k", .string)] (.obj [("k", .str "a")])
    (.obj [(.ident "k", .str "s"), (.str "a", .num 1)]) (.obj [("a", .str "s")]) := by
  refine ⟨rfl, by simp [Inh, InhFields, aGet], ?_, ?_⟩
  · simp [evaluate, eval, evalObj, strOf_str, objLiteral, aSet, Except.map, aliasOf, opFetchEnv, Scope.local_, aGet, aReplace]
  · show ¬ Inh (.obj [("a", .number)]) _
    simp [Inh, InhFields, aGet]

/-- The value of such an entry is not even looked at. -/
theorem C60_computed_key_unchecked : Accepted true noSame (typeScope [("k", .string)]) (.obj [(.ident "k", .binary (.arith .add) (.num 1) (.bool true))]) ∧
    ¬ Accepted true noSame (typeScope [("k", .string)]) (.binary (.arith .add) (.num 1) (.bool true)) := by
  refine ⟨rfl, ?_⟩
  intro h
  cases h

/-- `values(x)`: fields beyond the declared ones are included. -/
theorem C60_values : Mistyped B true [("x", .obj [("a", .number)])] (.obj [("x", .obj [("a", .num 1), ("b", .str "s")])])
    (.call "values" [.ident "x"]) (.arr [.num 1, .str "s"]) := by
  have e : Fn.Name.ofText "values" = some .values := by decide +kernel
  refine ⟨?_, by simp [Inh, InhFields, aGet], call_one L D checks DL num mArity method e rfl rfl, ?_⟩
  · simp [Accepted, determine, detList, callKind, e, valuesKind, typeScope, aGet, VT.get, unwrap]
  · have : (determine true noSame (typeScope [("x", .obj [("a", .number)])]) (.call "values" [.ident "x"])).kind = .arr .number := by
      simp [determine, detList, callKind, e, valuesKind, typeScope, aGet, VT.get, unwrap, unionOf]
    rw [this]
    simp [Inh]

/-- `mergeDeep(xs)`: no objects give an empty one. -/
theorem C60_mergeDeep_empty : Mistyped B true [("xs", .arr (.obj [("a", .number)]))] (.obj [("xs", .arr [])])
    (.call "mergeDeep" [.ident "xs"]) (.obj []) := by
  have e : Fn.Name.ofText "mergeDeep" = some .mergeDeep := by decide +kernel
  refine ⟨?_, by simp [Inh, InhFields, aGet], call_one L D checks DL num mArity method e rfl rfl, ?_⟩
  · simp [Accepted, determine, detList, callKind, e, mergeDeepKind, typeScope, aGet, VT.get, unwrap, VT.iterator]
  · have : (determine true noSame (typeScope [("xs", .arr (.obj [("a", .number)]))]) (.call "mergeDeep" [.ident "xs"])).kind =
        .obj [("a", .number)] := by
      simp [determine, detList, callKind, e, mergeDeepKind, typeScope, aGet, VT.get, unwrap, VT.iterator]
    rw [this]
    simp [Inh, InhFields, aGet]

/-- `merge(xs)`: no arrays give an empty object. -/
theorem C60_merge_empty : Mistyped B true [("xs", .arr (.arr .number))] (.obj [("xs", .arr [])])
    (.call "merge" [.ident "xs"]) (.obj []) := by
  have e : Fn.Name.ofText "merge" = some .merge := by decide +kernel
  refine ⟨?_, by simp [Inh, InhFields, aGet], call_one L D checks DL num mArity method e rfl rfl, ?_⟩
  · simp [Accepted, determine, detList, callKind, e, mergeKind, mergeKindOf, typeScope, aGet, VT.get, unwrap, VT.iterator]
  · have : (determine true noSame (typeScope [("xs", .arr (.arr .number))]) (.call "merge" [.ident "xs"])).kind =
        .arr .number := by
      simp [determine, detList, callKind, e, mergeKind, mergeKindOf, typeScope, aGet, VT.get, unwrap, VT.iterator]
    rw [this]
    simp [Inh]

/-- `flatten(xs)`: intervals are not flattened. -/
theorem C60_flatten_interval : Mistyped B true [("xs", .arr .interval)]
    (.obj [("xs", .arr [.dyn (.interval .lsq .rsq (.num 1) (.num 2))])])
    (.call "flatten" [.ident "xs"]) (.arr [.dyn (.interval .lsq .rsq (.num 1) (.num 2))]) := by
  have e : Fn.Name.ofText "flatten" = some .flatten := by decide +kernel
  refine ⟨?_, by simp [Inh, InhFields, aGet], call_one L D checks DL num mArity method e rfl rfl, ?_⟩
  · simp [Accepted, determine, detList, callKind, e, flattenKind, typeScope, aGet, VT.get, isNullable, VT.iterator]
  · have : (determine true noSame (typeScope [("xs", .arr .interval)]) (.call "flatten" [.ident "xs"])).kind =
        .arr .number := by
      simp [determine, detList, callKind, e, flattenKind, typeScope, aGet, VT.get, isNullable, VT.iterator, flatElem]
    rw [this]
    simp [Inh]

/-- `keys(x)` of a value of unknown type: the first signature is taken. -/
theorem C60_keys_of_any : Mistyped B true [("x", .any)] (.obj [("x", .arr [.null])])
    (.call "keys" [.ident "x"]) (.arr [.num 0]) := by
  have e : Fn.Name.ofText "keys" = some .keys := by decide +kernel
  refine ⟨?_, by simp [Inh, InhFields, aGet], call_one L D checks DL num mArity method e rfl ?_, ?_⟩
  · simp [Accepted, determine, detList, callKind, e, fnDef, FDef.check, Sig.single, zipSat, sat, typeScope, aGet, VT.get, minArity, maxArity]
  · simp [Fn.call, Fn.keys, Fn.argVar, bind, Except.bind, pure, Except.pure]
  · have : (determine true noSame (typeScope [("x", .any)]) (.call "keys" [.ident "x"])).kind = .arr .string := by
      simp [determine, detList, callKind, e, fnDef, FDef.check, Sig.single, zipSat, sat, typeScope, aGet, VT.get]
    rw [this]
    simp [Inh]

/-- `min(xs)` of an array of unknown elements: taken for numbers, also when they are dates -/
theorem C60_min_of_any : Mistyped B true [("xs", .arr .any)] (.obj [("xs", .arr [.dyn (.date none)])])
    (.call "min" [.ident "xs"]) (.dyn (.date none)) := by
  have e : Fn.Name.ofText "min" = some .min := by decide +kernel
  refine ⟨?_, by simp [Inh, InhFields, aGet], call_one L D checks DL num mArity method e rfl rfl, ?_⟩
  · simp [Accepted, determine, detList, callKind, e, fnDef, FDef.check, Sig.single, zipSat, sat, typeScope, aGet, VT.get, minArity, maxArity]
  · have : (determine true noSame (typeScope [("xs", .arr .any)]) (.call "min" [.ident "xs"])).kind = .number := by
      simp [determine, detList, callKind, e, fnDef, FDef.check, Sig.single, zipSat, sat, typeScope, aGet, VT.get]
    rw [this]
    simp [Inh]

/-- `round(1, "s")`: an optional argument is not checked, and the call fails in every run. -/
theorem C60_optional_argument : Accepted true noSame (typeScope []) (.call "round" [.num 1, .str "s"]) ∧
    ∀ scope, ∃ err, evaluate B scope (.call "round" [.num 1, .str "s"]) = .error err := by
  have e : Fn.Name.ofText "round" = some .round := by decide +kernel
  constructor
  · simp [Accepted, determine, detList, callKind, e, fnDef, FDef.check, zipSat, sat, minArity, maxArity]
  · intro scope
    refine ⟨callErr "CallFunction" "round" (BErr.err "Argument is not a number"), ?_⟩
    simp [evaluate, eval, evalList, Fn.builtins, e, Fn.call, Fn.round, Fn.argNum, Fn.decimalPlaces, Fn.argONum,
      Except.map, bind, Except.bind]

/-- the getters of an invalid date give null, whatever type they declare -/
theorem C60_getter_invalid (b : Dur.Build) {toArg : Val → Fn.Arg} {ofDate : Option Fn.ZDate → Option Int} {d : Option Int}
    (ht : toArg (.dyn (.date d)) = .date none) :
    Mistyped (Fn.builtins L D checks DL num mArity (methodOf DL b toArg ofDate)) true [("x", .date)]
      (.obj [("x", .dyn (.date d))]) (.method "year" (.ident "x") []) .null := by
  refine ⟨by rfl, by simp [Inh, InhFields, aGet], ?_, ?_⟩
  · simp [evaluate, eval, evalList, aliasOf, opFetchEnv, Scope.local_, aGet, Fn.builtins, methodOf, methodNames, ht,
      Fn.mCall, Fn.mGet, Fn.thisDate, bind, Except.bind, pure, Except.pure, Except.map]
  · show ¬ Inh .number _
    simp [Inh]

end

end Zen
