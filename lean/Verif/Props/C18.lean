import Verif.Parse.ParseSound
import Verif.Expr.Eval
/-
C18: operators group by precedence and associativity.
-/
namespace Zen.Parse
open Zen.Lex

/-- the forms an expression without operators at its top can have in tokens `ts` -/
abbrev Leaf (C : PCfg) (n : Node) (ts : List Token) : Prop := ∃ f, Primary C (Written C) 0 f n ts

/-- Every written expression (Verif/Parse/Syntax.lean) is parsed, to the tree it stands for. -/
theorem C18_written {L : PLib} {n : Node} {ts : List Token} (h : Written ⟨L, false, hasRange ts⟩ .global 0 0 n ts) :
    parse L ts = some n := by
  have e := h.read (m := ts.length + 1) (r := []) (by omega) .nil
  rw [List.append_nil] at e
  have e' : binExpr ⟨L, false, hasRange ts⟩ (ts.length + 1) .global 0 0 ts = (n, []) := e
  unfold parse
  rw [e']
  simp [result, h.noError]

/-- No tokens are the written form of two trees. -/
theorem C18_unambiguous {C : PCfg} {n n' : Node} {ts : List Token} (h : Written C .global 0 0 n ts)
    (h' : Written C .global 0 0 n' ts) : n = n' := by
  have e := h.read (m := ts.length + 1) (r := []) (by omega) .nil
  have e' := h'.read (m := ts.length + 1) (r := []) (by omega) .nil
  rw [e] at e'
  exact (Prod.mk.inj e').1

theorem hasRange_append (a b : List Token) : hasRange (a ++ b) = (hasRange a || hasRange b) := by
  simp [hasRange]

theorem hasRange_sym {k : Kind} (h : k ≠ .op .range) (r : List Token) : hasRange (sym k :: r) = hasRange r := by
  simp [hasRange, sym, h]

/-- parentheses do not bring range operators -/
theorem hasRange_addP {leaf : Node → List Token} (n : Node) : ∀ L F, hasRange (toks leaf (addP L F n)) = hasRange (toks leaf n) := by
  have paren : ∀ x, hasRange (toks leaf (.paren x)) = hasRange (toks leaf x) := by
    intro x
    simp only [toks, List.cons_append]
    rw [hasRange_sym (by simp), hasRange_append, hasRange_sym (by simp)]
    simp [hasRange]
  have cons : ∀ k r r', hasRange r = hasRange r' → hasRange (sym k :: r) = hasRange (sym k :: r') := by
    intro k r r' h
    unfold hasRange at h ⊢
    simp only [List.any_cons, h]
  induction n using Node.opInd with
  | unary o x ih =>
    intro L F
    simp only [addP]
    split
    · exact cons _ _ _ (ih _ _)
    · rw [paren]; exact cons _ _ _ (ih _ _)
  | binary o l r ihl ihr =>
    intro L F
    simp only [addP]
    split
    · simp only [toks]; rw [hasRange_append, hasRange_append, ihl, cons _ _ _ (ihr _ _)]
    · rw [paren]; simp only [toks]; rw [hasRange_append, hasRange_append, ihl, cons _ _ _ (ihr _ _)]
  | cond x y z ihx ihy ihz =>
    intro L F
    have e : hasRange (toks leaf (.cond (addP 0 1 x) (addP 0 0 y) (addP 0 0 z))) = hasRange (toks leaf (.cond x y z)) := by
      simp only [toks, List.append_assoc, List.cons_append]
      rw [hasRange_append, hasRange_append, ihx]
      refine congrArg _ (cons _ _ _ ?_)
      rw [hasRange_append, hasRange_append, ihy, cons _ _ _ (ihz _ _)]
    simp only [addP]
    split
    · exact e
    · rw [paren]; exact e
  | paren x _ => intro L F; simp only [addP]
  | leaf n hn => intro L F; rw [addP_leaf hn]

/-- A tree of operators printed with minimal parentheses is parsed back: the result is the printed
tree, which without its parentheses is the tree printed. -/
theorem C18_print {L : PLib} {leaf : Node → List Token} {n : Node} (hp : parens n = 0) (ho : Ops n)
    (hl : Leaves (fun x => Leaf ⟨L, false, hasRange (toks leaf n)⟩ x (leaf x)) n) :
    parse L (toks leaf (addP 0 0 n)) = some (addP 0 0 n) ∧ strip (addP 0 0 n) = n := by
  refine ⟨C18_written ?_, strip_addP n hp 0 0⟩
  rw [hasRange_addP]
  exact (addP_written rfl n hp ho hl .global 0 0 (by omega)).1

/-- The parentheses are as few as possible: whatever tokens are parsed to a tree that without its
parentheses is the same, they contain at least as many. -/
theorem C18_minimal {L : PLib} {ts : List Token} {m n : Node} (h : parse L ts = some m) (hn : strip m = n) :
    parens (addP 0 0 n) ≤ parens m := by
  subst hn
  refine addP_min m 0 0 ?_ (Nat.zero_le _)
  unfold parse at h
  rcases e : binExpr ⟨L, false, hasRange ts⟩ (ts.length + 1) .global 0 0 ts with ⟨x, r⟩
  rw [e] at h
  cases r with
  | cons t r => simp [result] at h
  | nil =>
    simp only [result] at h
    split at h
    · cases h
    · rename_i hx
      cases h
      exact (binExpr_sound rfl _ .global 0 0 ts m [] e (by simpa using hx)).1

/-- In every tree that comes out of the parser, whatever the tokens were, operators group by strength. -/
theorem C18_groups {L : PLib} {ts : List Token} {m : Node} (h : parse L ts = some m) : Fit 0 m := by
  unfold parse at h
  rcases e : binExpr ⟨L, false, hasRange ts⟩ (ts.length + 1) .global 0 0 ts with ⟨x, r⟩
  rw [e] at h
  cases r with
  | cons t r => simp [result] at h
  | nil =>
    simp only [result] at h
    split at h
    · cases h
    · rename_i hx
      cases h
      exact (binExpr_sound rfl _ .global 0 0 ts m [] e (by simpa using hx)).1

/-- Two operators in a row, for all operators and operands: the first takes its operands first, unless the second is
stronger or both are `^`. -/
theorem C18_two {L : PLib} {a b c : Node} {ta tb tc : List Token} {o p : Oper} {k j : Nat} (hk : strength o = some k)
    (hj : strength p = some j) (ts : List Token) (hts : ts = ta ++ sym (.op o) :: (tb ++ sym (.op p) :: tc))
    (ha : Leaf ⟨L, false, hasRange ts⟩ a ta) (hb : Leaf ⟨L, false, hasRange ts⟩ b tb) (hc : Leaf ⟨L, false, hasRange ts⟩ c tc) :
    parse L ts = if j < k ∨ (j = k ∧ o ≠ .arith .pow) then some (.binary p (.binary o a b) c) else some (.binary o a (.binary p b c)) := by
  obtain ⟨fa, ha⟩ := ha
  obtain ⟨fb, hb⟩ := hb
  obtain ⟨fc, hc⟩ := hc
  have hj' : ∀ o, ¬ joins ⟨L, false, hasRange ts⟩ .global o := fun o h => by cases h.1
  have ea : edge a = 100 := by cases ha <;> rfl
  have eb : edge b = 100 := by cases hb <;> rfl
  have := strength_le hk
  have := strength_le hj
  split
  · rename_i h
    refine C18_written ?_
    have hlt : 2 * j < place o k := by
      unfold place
      split
      · rename_i hp; rcases h with h | h
        · omega
        · exact absurd hp h.2
      · omega
    generalize hC : (⟨L, false, hasRange ts⟩ : PCfg) = C at ha hb hc hj' ⊢
    rw [hts, ← List.cons_append, ← List.append_assoc]
    refine .binary rfl hj (hj' _) (by omega) (.binary rfl hk (hj' _) (by omega) (.primary ha) (.inl (by omega)) (.primary hb)) (.inl ?_) (.primary hc)
    simp only [edge, hk, Option.getD_some, eb]
    omega
  · rename_i h
    refine C18_written ?_
    have hle : place o k ≤ 2 * j := by
      unfold place
      split
      · omega
      · rename_i hp
        have : ¬ j = k := fun e => h (.inr ⟨e, hp⟩)
        omega
    generalize hC : (⟨L, false, hasRange ts⟩ : PCfg) = C at ha hb hc hj' ⊢
    rw [hts]
    exact .binary rfl hk (hj' _) (by omega) (.primary ha) (.inl (by omega)) (.binary rfl hj (hj' _) hle (.primary hb) (.inl (by omega)) (.primary hc))

/-- A prefix operator before a binary one, for all of them: it takes the operand alone exactly when it is stronger. So
`-a ^ b` is `(-a) ^ b`, `not a == b` is `(not a) == b`, and `not a * b` is `not (a * b)`. -/
theorem C18_prefix {L : PLib} {a b : Node} {ta tb : List Token} {o p : Oper} {s j : Nat} (hs : prefixStrength o = some s)
    (hj : strength p = some j) (ts : List Token) (hts : ts = sym (.op o) :: (ta ++ sym (.op p) :: tb))
    (ha : Leaf ⟨L, false, hasRange ts⟩ a ta) (hb : Leaf ⟨L, false, hasRange ts⟩ b tb) :
    parse L ts = if j < s then some (.binary p (.unary o a) b) else some (.unary o (.binary p a b)) := by
  obtain ⟨fa, ha⟩ := ha
  obtain ⟨fb, hb⟩ := hb
  have hj' : ∀ o, ¬ joins ⟨L, false, hasRange ts⟩ .global o := fun o h => by cases h.1
  have ea : edge a = 100 := by cases ha <;> rfl
  have := strength_le hj
  split
  · refine C18_written ?_
    generalize hC : (⟨L, false, hasRange ts⟩ : PCfg) = C at ha hb hj' ⊢
    rw [hts, ← List.cons_append]
    refine .binary rfl hj (hj' _) (by omega) (.unary rfl hs (.primary ha)) (.inl ?_) (.primary hb)
    simp only [edge, hs, Option.getD_some, ea]
    omega
  · refine C18_written ?_
    generalize hC : (⟨L, false, hasRange ts⟩ : PCfg) = C at ha hb hj' ⊢
    rw [hts]
    exact .unary rfl hs (.binary rfl hj (hj' _) (by omega) (.primary ha) (.inl (by omega)) (.primary hb))

/-- A prefix operator right of a stronger binary operator takes everything it would take elsewhere: `a * not b * c`
is `a * (not (b * c))`. -/
theorem C18_prefix_inside {L : PLib} {a b c : Node} {ta tb tc : List Token} {o p q : Oper} {k s j : Nat} (hk : strength o = some k)
    (hs : prefixStrength p = some s) (hj : strength q = some j) (hsj : s ≤ j) (ts : List Token)
    (hts : ts = ta ++ sym (.op o) :: sym (.op p) :: (tb ++ sym (.op q) :: tc))
    (ha : Leaf ⟨L, false, hasRange ts⟩ a ta) (hb : Leaf ⟨L, false, hasRange ts⟩ b tb) (hc : Leaf ⟨L, false, hasRange ts⟩ c tc) :
    parse L ts = some (.binary o a (.unary p (.binary q b c))) := by
  obtain ⟨fa, ha⟩ := ha
  obtain ⟨fb, hb⟩ := hb
  obtain ⟨fc, hc⟩ := hc
  have hj' : ∀ o, ¬ joins ⟨L, false, hasRange ts⟩ .global o := fun o h => by cases h.1
  have ea : edge a = 100 := by cases ha <;> rfl
  have eb : edge b = 100 := by cases hb <;> rfl
  have := strength_le hk
  have := strength_le hj
  refine C18_written ?_
  generalize hC : (⟨L, false, hasRange ts⟩ : PCfg) = C at ha hb hc hj' ⊢
  rw [hts]
  exact .binary rfl hk (hj' _) (by omega) (.primary ha) (.inl (by omega))
    (.unary rfl hs (.binary rfl hj (hj' _) (by omega) (.primary hb) (.inl (by omega)) (.primary hc)))

/-- Parentheses are not seen by evaluation, so what is evaluated is the tree that was printed. -/
theorem C18_value (B : Builtins) (root : Scope) (n : Node) : ∀ fr env, eval B root fr env (strip n) = eval B root fr env n := by
  induction n using Node.opInd with
  | unary o x ih => intro fr env; simp only [strip, eval, ih]
  | binary o l r ihl ihr => intro fr env; simp only [strip, eval, ihl, ihr]
  | cond x y z ihx ihy ihz => intro fr env; simp only [strip, eval, ihx, ihy, ihz]
  | paren x ih => intro fr env; simp only [strip, eval, ih]
  | leaf n hn => intro fr env; rw [strip_leaf hn]

/-! ### Cases -/

section
/-- names as they are, every number read as 1 -/
private def lib : PLib := ⟨String.ofList, fun _ => some 1⟩
private def nm (s : String) : Token := ⟨.literal, 0, 0, s.toList⟩
private def v (s : String) : Node := .ident s
private def lf : Node → List Token
  | .ident s => [nm s]
  | _ => []
private def o (s : String) : Token := ⟨match opOfText s.toList with | some o => .op o | none => .literal, 0, 0, s.toList⟩
private def p (b : Brk) : Token := ⟨.bracket b, 0, 0, []⟩

-- (a + b) * -c ^ d - (e - (x ? y : z))
private def t1 : Node := .binary (.arith .sub)
  (.binary (.arith .mul) (.binary (.arith .add) (v "a") (v "b")) (.unary (.arith .sub) (.binary (.arith .pow) (v "c") (v "d"))))
  (.binary (.arith .sub) (v "e") (.cond (v "x") (v "y") (v "z")))

example : addP 0 0 t1 = .binary (.arith .sub)
    (.binary (.arith .mul) (.paren (.binary (.arith .add) (v "a") (v "b"))) (.unary (.arith .sub) (.paren (.binary (.arith .pow) (v "c") (v "d")))))
    (.paren (.binary (.arith .sub) (v "e") (.paren (.cond (v "x") (v "y") (v "z"))))) := rfl

example : parens t1 = 0 ∧ Ops t1 ∧ Leaves (fun x => Leaf ⟨lib, false, hasRange (toks lf t1)⟩ x (lf x)) t1 := by
  refine ⟨rfl, by simp [t1, Ops, v, strength, prefixStrength], ?_⟩
  have h : ∀ s, Leaf ⟨lib, false, hasRange (toks lf t1)⟩ (v s) (lf (v s)) := fun s =>
    ⟨true, by
      have := Primary.name (C := ⟨lib, false, hasRange (toks lf t1)⟩) (E := Written ⟨lib, false, hasRange (toks lf t1)⟩) (d := 0) (t := nm s) (.inl rfl)
      rwa [show lib.dec (nm s).value = s from String.ofList_toList] at this⟩
  simp only [t1, Leaves]
  exact ⟨⟨⟨h _, h _⟩, h _, h _⟩, h _, h _, h _, h _⟩

example : parse lib (toks lf (addP 0 0 t1)) = some (addP 0 0 t1) := rfl

-- the parser at work: accesses, calls, closures, intervals
example : parse lib [nm "f", p .lsq, ⟨.number, 0, 0, []⟩, p .rsq, o ".", nm "g", o "+", nm "max", p .lparen, nm "a", o ",", nm "b", p .rparen] =
    some (.binary (.arith .add) (.member (.member (v "f") (.num 1)) (.str "g")) (.call "max" [v "a", v "b"])) := rfl
example : parse lib [nm "x", o "in", p .lparen, nm "a", o "..", nm "b", p .rsq, o "and", nm "y"] =
    some (.binary (.logic .and) (.binary (.cmp .in_) (v "x") (.interval (v "a") (v "b") .lparen .rsq)) (v "y")) := rfl
-- an assignment may stand where an operand is expected: `a + b = c` is `a + (b = c)`
example : parse lib [nm "a", o "+", nm "b", sym (.op .assign), nm "c"] =
    some (.binary (.arith .add) (v "a") (.assigns [(.str (String.intercalate "." ["b"]), v "c")] none)) := rfl
-- not every sequence of tokens is an expression
example : parse lib [nm "a", o "+"] = none := rfl
example : parse lib [nm "a", nm "b"] = none := rfl
end

end Zen.Parse
