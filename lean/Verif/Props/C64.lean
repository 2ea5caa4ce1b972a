import Verif.Parse.ParenLintValue
import Verif.Props.C18
/-
C64: parentheses the linter calls unnecessary can be dropped.
-/
namespace Zen.Parse
open Zen.Lex

theorem dropped_range {C : PCfg} {x : Node} {ts ts' : List Token} (h : Dropped C x ts ts') : hasRange ts' = hasRange ts := by
  obtain ⟨d, u, a, tx, b, v, rfl, rfl, ha, hb, _⟩ := h
  have e1 : (Kind.bracket Brk.lparen == Kind.op Oper.range) = false := rfl
  have e2 : (Kind.bracket Brk.rparen == Kind.op Oper.range) = false := rfl
  simp [hasRange, ha, hb, e1, e2]

theorem dropped_shorter {C : PCfg} {x : Node} {ts ts' : List Token} (h : Dropped C x ts ts') : ts'.length + 2 = ts.length := by
  obtain ⟨d, u, a, tx, b, v, rfl, rfl, _, _, _⟩ := h
  simp
  omega

/-- Parentheses that are reported can be left out: the tokens without them are parsed to the tree without them, everything
else grouping as before. Excepted are operands of products, powers and `??` in which a `not` reaches to the end. -/
theorem C64_dropped {L : PLib} {ts : List Token} {n : Node} {f : Finding Node}
    (h : Written ⟨L, false, hasRange ts⟩ .global 0 0 n ts) (hf : f ∈ scan n)
    (hs : ∀ o side k, f.site = .operand o side → strength o = some k → k ≤ 4 ∨ opensNot f.inner = false) :
    parse L ts = some n ∧ ∃ d u a tx b v, ts = u ++ a :: (tx ++ b :: v) ∧ a.kind = .bracket .lparen ∧ b.kind = .bracket .rparen ∧
      Written ⟨L, false, hasRange ts⟩ .global d 0 f.inner tx ∧ parse L (u ++ (tx ++ v)) = some f.result := by
  refine ⟨C18_written h, ?_⟩
  obtain ⟨ts', h1, h2, _⟩ := h.drops rfl .delimited f hf hs (Nat.le_refl _)
  have hr := dropped_range h1
  obtain ⟨d, u, a, tx, b, v, e, rfl, ha, hb, hw⟩ := h1
  refine ⟨d, u, a, tx, b, v, e, ha, hb, hw, C18_written ?_⟩
  rw [hr]
  exact h2

/-- Nothing but the parentheses goes. -/
theorem C64_same {n : Node} {f : Finding Node} (hf : f ∈ scan n) : bare f.result = bare n := visit_bare n _ f hf

/-- Without assignments and in a scope of names, parentheses do not count for the value, wherever they are. -/
theorem C64_bare (B : Builtins) {n : Node} {scope : Scope} (hn : NoAssign n) (hb : (∃ m, scope.base = .obj m) ∨ scope.base = .null) :
    evaluate B scope (bare n) = evaluate B scope n := by
  simp only [evaluate, bare_eval (B := B) (root := scope) (env := scope) ⟨rfl, hb⟩ n hn []]

/-- So the expression has the value it had. -/
theorem C64_value (B : Builtins) {n : Node} {f : Finding Node} {scope : Scope} (hf : f ∈ scan n) (hn : NoAssign n)
    (hb : (∃ m, scope.base = .obj m) ∨ scope.base = .null) : evaluate B scope f.result = evaluate B scope n := by
  have e := C64_same hf
  have hn' : NoAssign f.result := by rw [← noAssign_bare, e, noAssign_bare]; exact hn
  rw [← C64_bare B hn' hb, e, C64_bare B hn hb]

/-- Following the hints one after the other ends, with tokens that have the value the first ones had and about which
nothing is reported any more, but possibly operands of the excepted kind. -/
theorem C64_all {L : PLib} {ts : List Token} {n : Node} (h : Written ⟨L, false, hasRange ts⟩ .global 0 0 n ts) :
    ∃ ts' n', parse L ts' = some n' ∧ bare n' = bare n ∧
      (∀ f ∈ scan n', ∃ o side k, f.site = .operand o side ∧ strength o = some k ∧ 4 < k ∧ opensNot f.inner = true) ∧
      ∀ B scope, ((∃ m, scope.base = .obj m) ∨ scope.base = .null) → evaluate B scope n' = evaluate B scope n := by
  suffices H : ∀ N ts n, ts.length < N → Written ⟨L, false, hasRange ts⟩ .global 0 0 n ts →
      ∃ ts' n', Written ⟨L, false, hasRange ts'⟩ .global 0 0 n' ts' ∧ bare n' = bare n ∧
        ∀ f ∈ scan n', ∃ o side k, f.site = .operand o side ∧ strength o = some k ∧ 4 < k ∧ opensNot f.inner = true by
    obtain ⟨ts', n', h1, h2, h3⟩ := H _ ts n (Nat.lt_succ_self _) h
    refine ⟨ts', n', C18_written h1, h2, h3, fun B scope hb => ?_⟩
    rw [← C64_bare B h1.noAssign hb, h2, C64_bare B h.noAssign hb]
  intro N
  induction N with
  | zero => intro ts n hl; omega
  | succ N ih =>
    intro ts n hl h
    by_cases hs : ∃ f ∈ scan n, f.Sound
    · obtain ⟨f, hf, hs⟩ := hs
      obtain ⟨ts1, h1, h2, _⟩ := h.drops rfl .delimited f hf hs (Nat.le_refl _)
      have hlen := dropped_shorter h1
      obtain ⟨ts', n', g1, g2, g3⟩ := ih ts1 f.result (by omega) (by rw [dropped_range h1]; exact h2)
      exact ⟨ts', n', g1, g2.trans (C64_same hf), g3⟩
    · refine ⟨ts, n, h, rfl, fun f hf => ?_⟩
      have : ¬ f.Sound := fun h => hs ⟨f, hf, h⟩
      simp only [Finding.Sound, Classical.not_forall, not_or] at this
      obtain ⟨o, side, k, h1, h2, h3, h4⟩ := this
      exact ⟨o, side, k, h1, h2, by omega, by simpa using h4⟩

/-! ### Where the hint is not right -/

private def lib : PLib := ⟨String.ofList, fun _ => some 1⟩
private def nm (s : String) : Token := ⟨.literal, 0, 0, s.toList⟩
private def opn : Token := ⟨.bracket .lparen, 0, 0, []⟩
private def cls : Token := ⟨.bracket .rparen, 0, 0, []⟩
private def coal : Token := ⟨.op (.logic .coalesce), 0, 0, []⟩
private def neg : Token := ⟨.op (.logic .not), 0, 0, []⟩

/-- The exception is there: the parentheses in `(a ?? not b) ?? c` are reported, but `a ?? not b ?? c` is
`a ?? not (b ?? c)`, which can have a value where the first fails. -/
theorem C64_not :
    ∃ n m f, parse lib [opn, nm "a", coal, neg, nm "b", cls, coal, nm "c"] = some n ∧ f ∈ scan n ∧
      parse lib [nm "a", coal, neg, nm "b", coal, nm "c"] = some m ∧ m ≠ f.result ∧
      ∀ B, evaluate B ⟨.obj [("c", .bool true)], []⟩ n = .error (.opcode "Not" "Unsupported type") ∧
        evaluate B ⟨.obj [("c", .bool true)], []⟩ m = .ok (.bool false) := by
  refine ⟨.binary (.logic .coalesce) (.paren (.binary (.logic .coalesce) (.ident "a") (.unary (.logic .not) (.ident "b")))) (.ident "c"),
    .binary (.logic .coalesce) (.ident "a") (.unary (.logic .not) (.binary (.logic .coalesce) (.ident "b") (.ident "c"))),
    ⟨.operand (.logic .coalesce) .left, .binary (.logic .coalesce) (.ident "a") (.unary (.logic .not) (.ident "b")),
      .binary (.logic .coalesce) (.binary (.logic .coalesce) (.ident "a") (.unary (.logic .not) (.ident "b"))) (.ident "c")⟩,
    rfl, ?_, rfl, ?_, fun B => ⟨rfl, rfl⟩⟩
  · simp [scan, visit, operandSite, binOp, redundant, sameFamily, Finding.map]
  · intro h; cases h

/-- With assignments the value can change: `x = 1; ($root).x` is 1, while `x = 1; $root.x` is what it was before. -/
theorem C64_assigned (B : Builtins) :
    let n : Node := .assigns [(.str "x", .num 1)] (some (.member (.paren .root) (.str "x")))
    let f : Finding Node := ⟨.base, .root, .assigns [(.str "x", .num 1)] (some (.member .root (.str "x")))⟩
    f ∈ scan n ∧ evaluate B ⟨.obj [], []⟩ n = .ok (.num 1) ∧ evaluate B ⟨.obj [], []⟩ f.result = .ok .null := by
  refine ⟨?_, rfl, rfl⟩
  simp [scan, visit, visitPairs, visitOpt, redundant, isBase, Finding.map]

/-! ### Cases -/

section
private def o (s : String) : Token := ⟨match opOfText s.toList with | some o => .op o | none => .literal, 0, 0, s.toList⟩
private def lf : Node → List Token
  | .ident s => [nm s]
  | _ => []

-- a + (b * ((d))): all three pairs are reported
private def n1 : Node := .binary (.arith .add) (.ident "a") (.paren (.binary (.arith .mul) (.ident "b") (.paren (.paren (.ident "d")))))
example : (scan n1).map (·.result) =
    [.binary (.arith .add) (.ident "a") (.binary (.arith .mul) (.ident "b") (.paren (.paren (.ident "d")))),
     .binary (.arith .add) (.ident "a") (.paren (.binary (.arith .mul) (.ident "b") (.paren (.ident "d")))),
     .binary (.arith .add) (.ident "a") (.paren (.binary (.arith .mul) (.ident "b") (.paren (.ident "d"))))] := rfl
-- nothing is reported where the grouping would change
example : scan (.binary (.arith .sub) (.ident "a") (.paren (.binary (.arith .sub) (.ident "b") (.ident "c")))) = [] := rfl
example : scan (.binary (.arith .mul) (.paren (.binary (.arith .add) (.ident "a") (.ident "b"))) (.ident "c")) = [] := rfl
example : scan (.unary (.logic .not) (.paren (.binary (.logic .and) (.ident "a") (.ident "b")))) = [] := rfl
example : scan (.member (.paren (.arr [.ident "a"])) (.num 0)) = [] := rfl

-- the hypotheses of C64_dropped hold
example : Written ⟨lib, false, hasRange (toks lf n1)⟩ .global 0 0 n1 (toks lf n1) := by
  have h : ∀ s, Primary ⟨lib, false, hasRange (toks lf n1)⟩ (Written ⟨lib, false, hasRange (toks lf n1)⟩) 0 true (.ident s) [nm s] := fun s => by
    have := Primary.name (C := ⟨lib, false, hasRange (toks lf n1)⟩) (E := Written ⟨lib, false, hasRange (toks lf n1)⟩) (d := 0) (t := nm s) (.inl rfl)
    rwa [show lib.dec (nm s).value = s from String.ofList_toList] at this
  have j : ∀ o, ¬ joins ⟨lib, false, hasRange (toks lf n1)⟩ .global o := fun o h => by cases h.1
  have hd := Primary.paren (C := ⟨lib, false, hasRange (toks lf n1)⟩) (E := Written ⟨lib, false, hasRange (toks lf n1)⟩) (a := sym (.bracket .lparen))
    (b := sym (.bracket .rparen)) rfl (.primary (.paren (a := sym (.bracket .lparen)) (b := sym (.bracket .rparen)) rfl (.primary (h "d")) rfl)) rfl
  have hm := Written.binary (C := ⟨lib, false, hasRange (toks lf n1)⟩) (c := .global) (L := 0) (o := .arith .mul) (t := sym (.op (.arith .mul))) (k := 6)
    rfl rfl (j _) (by omega) (.primary (h "b")) (.inl (by decide)) (.primary hd)
  exact .binary (t := sym (.op (.arith .add))) (k := 4) rfl rfl (j _) (by omega) (.primary (h "a")) (.inl (by decide))
    (.primary (.paren (a := sym (.bracket .lparen)) (b := sym (.bracket .rparen)) rfl hm rfl))

example : parse lib [nm "a", o "+", nm "b", o "*", opn, opn, nm "d", cls, cls] =
    some (.binary (.arith .add) (.ident "a") (.binary (.arith .mul) (.ident "b") (.paren (.paren (.ident "d"))))) := rfl
end

end Zen.Parse
