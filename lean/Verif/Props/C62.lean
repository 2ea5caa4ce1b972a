import Verif.Types.Progress
import Verif.Props.C60
/-
C62  An expression the type checker accepts does not fail on the types of its operands.
`Excusable e` (Types/Firm.lean): the failure is not about a type: a function failing by itself, a number or an index
out of range, a crash. `FirmTop` leaves out the uses of values of unknown type and the operators for which the checker
is too generous; each of them has a counterexample below.
-/
namespace Zen
open VT Ty

section
variable {L : Fn.Lib} {D : Dec.Rounding} {checks : Bool} {DL : Fn.DLib} {num : NumOps}
  {mArity : String → Option (Nat × Nat)} {method : String → List Val → Except BErr Val} {same : VT → VT → Bool}

/-- The checker accepts the expression for data of type `o`; the data has that type; then a failure of the compiled
program is not about the type of an operand. -/
theorem C62_no_type_error (hm : MethodsTyped method) (hs : ∀ a b, same a b = true → a = b)
    (hc : ∀ a b, same a b = same b a) {o : List (String × VT)} (ho : VT.WF (.obj o)) {data : Val}
    (hd : Inh (.obj o) data) {n : Node} (ha : Accepted true same (typeScope o) n) (hf : FirmTop same (typeScope o) n)
    {e : VErr} (h : Yields (Fn.builtins L D checks DL num mArity method) { base := data } n (.error e)) :
    Excusable e := by
  obtain ⟨hco, he⟩ := yields_iff.1 h
  have he : eval (Fn.builtins L D checks DL num mArity method) { base := data } [] { base := data } n = .error e := by
    unfold evaluate at he
    exact exceptMap_error he.symm
  have hfr : FrFits (typeScope o) [] := ⟨fun _ e => (nomatch e), fun _ _ e => (nomatch e), fun _ _ => rfl⟩
  have hal : ∀ k t, aGet (typeScope o).aliases k = some t → VT.WF t := fun _ _ e => nomatch e
  have hf' : Fits (typeScope o) { base := data } := ⟨List.nodup_nil, o, rfl, hd⟩
  exact progress_top hm hs hc ⟨ho, ho, hal⟩ hf' hfr (compiles_iff.1 hco) ha hf he

/-- In particular none of the messages about types can appear, unless a function raises it. -/
theorem C62_messages (hm : MethodsTyped method) (hs : ∀ a b, same a b = true → a = b)
    (hc : ∀ a b, same a b = same b a) {o : List (String × VT)} (ho : VT.WF (.obj o)) {data : Val}
    (hd : Inh (.obj o) data) {n : Node} (ha : Accepted true same (typeScope o) n) (hf : FirmTop same (typeScope o) n)
    {op msg : String} (h : Yields (Fn.builtins L D checks DL num mArity method) { base := data } n (.error (.opcode op msg)))
    (h1 : op ≠ "CallFunction") (h2 : op ≠ "CallMethod") : msg ≠ "Unsupported type" ∧ msg ≠ "Unexpected type in array" ∧
      msg ≠ "Cannot determine len" ∧ msg ≠ "Unexpected key value" ∧ msg ≠ "Scope depth out of bounds" := by
  have := C62_no_type_error hm hs hc ho hd ha hf h
  cases this <;> first | exact absurd rfl h1 | exact absurd rfl h2 | decide

end

/-! ### An accepted program -/

/-- a cart: prices, a limit, and a flag -/
def cartType : List (String × VT) :=
  [("prices", .arr .number), ("limit", .number), ("vip", .bool), ("names", .arr .string)]

/-- `total = sum(filter(prices, # < limit)); vip and total > 10 ? names[0:1] : "none" in names ? ["x" + "y"] : []` -/
def cartExpr : Node :=
  .assigns [(.str "total", .call "sum" [.closure .filter (.ident "prices") none (.binary (.cmp .lt) .pointer (.ident "limit"))])]
    (some (.cond (.binary (.logic .and) (.ident "vip") (.binary (.cmp .gt) (.ident "total") (.num 10)))
      (.slice (.ident "names") (some (.num 0)) (some (.num 1)))
      (.cond (.binary (.cmp .in_) (.str "none") (.ident "names")) (.arr [.binary (.arith .add) (.str "x") (.str "y")]) (.arr []))))

theorem cart_accepted : Accepted true noSame (typeScope cartType) cartExpr := by
  rfl

theorem cart_firm : FirmTop noSame (typeScope cartType) cartExpr := by
  refine ⟨⟨⟨trivial, trivial, trivial⟩, ⟨?_, ?_, ?_⟩, "total", rfl, trivial⟩, ⟨trivial, ?_, fun _ _ => trivial⟩, ?_, ?_, ?_⟩
  · simp [NoAssign, NoAssignL]
  · simp [Avoids, AvoidsL]
  · intro n hn
    have : n = .sum := by
      have e : Fn.Name.ofText "sum" = some .sum := by decide +kernel
      rw [e] at hn; cases hn; rfl
    subst this
    exact ⟨fun h => (nomatch h), trivial⟩
  · refine ⟨⟨⟨trivial, trivial, VT.noConfusion, VT.noConfusion⟩, ⟨⟨rfl, trivial⟩, ⟨trivial, VT.noConfusion, VT.noConfusion⟩,
      trivial, VT.noConfusion, VT.noConfusion⟩, fun _ => ⟨trivial, VT.noConfusion⟩⟩, trivial⟩
  · simp [NoAssign, NoAssignL, NoAssignO]
  · simp [Avoids, AvoidsL, AvoidsO]
  · refine ⟨⟨⟨⟨trivial, ⟨trivial, trivial⟩, ⟨trivial, VT.noConfusion, VT.noConfusion⟩, trivial, VT.noConfusion, VT.noConfusion⟩,
      trivial, VT.noConfusion⟩, ⟨trivial, rfl⟩, VT.noConfusion⟩,
      ⟨⟨trivial, trivial, VT.noConfusion⟩, ⟨trivial, trivial, VT.noConfusion⟩, trivial, trivial, VT.noConfusion⟩,
      ⟨⟨⟨trivial, trivial⟩, ⟨trivial, rfl⟩, trivial, VT.noConfusion⟩, trivial, VT.noConfusion⟩,
      ⟨⟨⟨trivial, trivial⟩, ⟨trivial, VT.noConfusion⟩, trivial, VT.noConfusion⟩, trivial⟩, trivial⟩

example {L : Fn.Lib} {D : Dec.Rounding} {checks : Bool} {DL : Fn.DLib} {num : NumOps}
    {mArity : String → Option (Nat × Nat)} {b : Dur.Build} {toArg : Val → Fn.Arg} {ofDate : Option Fn.ZDate → Option Int}
    {e : VErr} (h : Yields (Fn.builtins L D checks DL num mArity (methodOf DL b toArg ofDate))
      { base := .obj [("prices", .arr [.num 3, .num 40]), ("limit", .num 50), ("vip", .bool true), ("names", .arr [.str "a"])] }
      cartExpr (.error e)) : Excusable e := by
  have wf : VT.WF (.obj cartType) := by
    refine .obj (by decide) fun k t ht => ?_
    simp only [cartType, List.mem_cons, Prod.mk.injEq, List.not_mem_nil, or_false] at ht
    rcases ht with ⟨_, rfl⟩ | ⟨_, rfl⟩ | ⟨_, rfl⟩ | ⟨_, rfl⟩
    · exact .arr .number
    · exact .number
    · exact .bool
    · exact .arr .string
  exact C62_no_type_error (same := noSame) (methodOf_typed DL b toArg ofDate) (fun _ _ h => nomatch h) (fun _ _ => rfl) wf
    (by simp [cartType, Inh, InhFields, aGet]) cart_accepted cart_firm h

/-! ### Where the checker is too generous

Each is an expression the checker accepts for the data type `o`, with data of that type, that fails on the type of an
operand. -/

/-- the checker accepts, and the evaluation fails on a type -/
structure Misjudged (B : Builtins) (o : List (String × VT)) (data : Val) (n : Node) (op : String) : Prop where
  accepted : Accepted true noSame (typeScope o) n
  fits : Inh (.obj o) data
  fails : evaluate B { base := data } n = .error (.opcode op "Unsupported type")

section
variable (B : Builtins)

/-- `x + 1`: values of unknown type are let through. -/
theorem C62_unknown : Misjudged B [("x", .any)] (.obj [("x", .bool true)])
    (.binary (.arith .add) (.ident "x") (.num 1)) "Add" :=
  ⟨rfl, by simp [Inh, InhFields], rfl⟩

/-- `1 / n + 1`: a division by zero is null. -/
theorem C62_division (h : B.num.div 1 0 = none) : Misjudged B [("n", .number)] (.obj [("n", .num 0)])
    (.binary (.arith .add) (.binary (.arith .div) (.num 1) (.ident "n")) (.num 1)) "Add" := by
  refine ⟨rfl, by simp [Inh, InhFields, aGet], ?_⟩
  have e : aliasOf [] "n" = none := rfl
  have e' : opFetchEnv { base := .obj [("n", .num 0)] } "n" = .ok (.num 0) := rfl
  simp only [evaluate, eval, binMeaning, e, e', opDiv, h, opAdd]
  rfl

/-- `d < e`: in JSON data a date is a string, and strings have no order. -/
theorem C62_dates : Misjudged B [("d", .date), ("e", .date)] (.obj [("d", .str "2024-01-01"), ("e", .str "2024-01-02")])
    (.binary (.cmp .lt) (.ident "d") (.ident "e")) "Compare" :=
  ⟨rfl, by simp [Inh, InhFields, aGet], rfl⟩

/-- `o in os`: the checker looks only at the list; the search fails for an object, whatever the list. -/
theorem C62_object_in (os : List Val) (hos : ∀ x ∈ os, Inh (.obj []) x) :
    Misjudged B [("o", .obj []), ("os", .arr (.obj []))] (.obj [("o", .obj []), ("os", .arr os)])
      (.binary (.cmp .in_) (.ident "o") (.ident "os")) "In" := by
  refine ⟨rfl, ?_, rfl⟩
  exact ⟨_, rfl, ⟨_, rfl, trivial⟩, ⟨os, rfl, hos⟩, trivial⟩

/-- `["a".."b"]`: strings are accepted as dates, but an interval of them cannot be made. -/
theorem C62_string_interval : Misjudged B [] (.obj []) (.interval (.str "a") (.str "b") .lsq .rsq) "Interval" :=
  ⟨rfl, by simp [Inh, InhFields], rfl⟩

/-- `[n..d(s)]`: the two ends are checked separately. -/
theorem C62_mixed_interval (d : Option Int) (h : B.fn "d" [.str "2024-01-01"] = .ok (.dyn (.date d))) :
    Misjudged B [("n", .number)] (.obj [("n", .num 1)])
      (.interval (.ident "n") (.call "d" [.str "2024-01-01"]) .lsq .rsq) "Interval" := by
  have e2 : aliasOf [] "n" = none := rfl
  have e' : opFetchEnv { base := .obj [("n", .num 1)] } "n" = .ok (.num 1) := rfl
  refine ⟨?_, by simp [Inh, InhFields, aGet], ?_⟩
  · rfl
  · simp only [evaluate, eval, evalList, e2, e', h, opInterval]
    rfl

/-- `map([d(s)..d(s)], #)`: an interval of dates has no elements to visit. -/
theorem C62_date_interval (d : Option Int) (h : B.fn "d" [.str "2024-01-01"] = .ok (.dyn (.date d))) :
    Misjudged B [] (.obj [])
      (.closure .map (.interval (.call "d" [.str "2024-01-01"]) (.call "d" [.str "2024-01-01"]) .lsq .rsq) none .pointer)
      "Begin" := by
  refine ⟨?_, by simp [Inh, InhFields], ?_⟩
  · rfl
  · simp only [evaluate, eval, evalList, h, opInterval, opBegin, intervalToArray]
    rfl

/-- `{[k]: -true}`: the value under a computed key is not looked at. -/
theorem C62_computed_key (h : B.fn "string" [.str "a"] = .ok (.str "a")) : Misjudged B [("k", .string)] (.obj [("k", .str "a")])
    (.obj [(.ident "k", .unary (.arith .sub) (.bool true))]) "Negate" := by
  have e2 : aliasOf [] "k" = none := rfl
  have e' : opFetchEnv { base := .obj [("k", .str "a")] } "k" = .ok (.str "a") := rfl
  refine ⟨rfl, by simp [Inh, InhFields, aGet], ?_⟩
  simp only [evaluate, eval, evalObj, strOf, e2, e', h, opNegate]
  rfl

/-- `#` outside every closure: the checker takes it for the whole data. (The parser reads `#` only inside a closure,
standard.rs:84, so this does not arise from a text.) -/
theorem C62_pointer : Accepted true noSame (typeScope []) .pointer ∧
    evaluate B { base := .obj [] } .pointer = .error (.opcode "Pointer" "Scope depth out of bounds") :=
  ⟨rfl, rfl⟩

/-! ## What is rejected -/

/-- what the checker takes for the end of an interval -/
def Endlike : VT → Prop
  | .any | .number | .date | .string | .const _ | .enum _ _ => True
  | _ => False

/-- An interval is accepted exactly if its ends are accepted and each is a number, a date, a text or anything. -/
theorem C62_interval_ends (strict : Bool) (same : VT → VT → Bool) (sc : TScope) (l r : Node) (lb rb : Brk) :
    (determine strict same sc (.interval l r lb rb)).bad = false ↔
      (determine strict same sc l).bad = false ∧ (determine strict same sc r).bad = false ∧
      Endlike (determine strict same sc l).kind ∧ Endlike (determine strict same sc r).kind := by
  have key : ∀ t : VT, (!sat t .number && !sat t .date) = false ↔ Endlike t := by
    intro t
    cases t <;> simp [sat, Endlike]
  rw [← key, ← key, determine]
  simp only [Bool.or_eq_false_iff, and_assoc]

/-- A method that does not exist is not reported: the call is of any type, and accepted if its parts are. -/
theorem C62_unknown_method (strict : Bool) (same : VT → VT → Bool) (sc : TScope) (m : String) (this : Node) (args : List Node)
    (hm : ∀ n, (m, n) ∉ methodNames) : (determine strict same sc (.method m this args)).kind = .any ∧
      ((determine strict same sc (.method m this args)).bad = false ↔
        (determine strict same sc this).bad = false ∧ (detList strict same sc args).2 = false) := by
  have hg : aGet methodNames m = none := by
    cases h : aGet methodNames m with
    | none => rfl
    | some n => exact absurd (aGet_mem h) (hm n)
  rw [determine]
  simp [methodKind, hg]

/-- `merge` is accepted exactly for what can be iterated over objects, lists, null or anything, where each may be null. -/
theorem C62_merge_accepts (a : VT) : (mergeKind [a]).bad = false ↔
    ∃ t, a.iterator = some t ∧ ((∃ o, t.unwrap.1 = .obj o) ∨ (∃ u, t.unwrap.1 = .arr u) ∨ t.unwrap.1 = .any ∨ t.unwrap.1 = .null) := by
  rw [show mergeKind [a] = match a.iterator with | none => ⟨.any, true⟩ | some t => mergeKindOf t from rfl]
  generalize a.iterator = i
  cases i with
  | none => simp
  | some t =>
    simp only [Option.some.injEq, exists_eq_left']
    unfold mergeKindOf
    cases t.unwrap.1 <;> simp

end

end Zen
