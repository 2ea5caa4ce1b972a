import Verif.Parse.Unary
import Verif.Parse.Cell
import Verif.Parse.ParseMain
/-
C17: the meaning of tests in table cells.
-/
namespace Zen.Parse
open Zen.Lex

/-! ### from tokens to the tree -/

/-- the tree of a test -/
def Test.tree : Test → Node
  | .lead c x => .binary (.cmp c) refNode x
  | .plain x => wrapped x

def Join.op : Join → LOp
  | .and => .and
  | .or => .or

/-- the tree of a cell -/
def joined : Node → List (Join × Test) → Node
  | l, [] => l
  | l, (j, t) :: rest => joined (.binary (.logic j.op) l t.tree) rest

theorem joinAt_of {j : Join} {k : Lex.Kind} (h : JoinW j k) : joinAt k = some j.op := by cases h <;> rfl

theorem RestW.stop {C : PCfg} (hu : C.unary = true) {rest : List (Join × Test)} {rs : List Token} (h : RestW C rest rs) (M : Nat) :
    Stop C .global M rs ∧ cmpAt rs = none := by
  cases h with
  | nil => exact ⟨.nil, rfl⟩
  | @cons j t k ts rest rs hj _ _ =>
    generalize hk : k.kind = kd at hj
    cases hj with
    | comma => exact ⟨.of_closes hk rfl _, by simp [cmpAt, hk]⟩
    | _ =>
      refine ⟨?_, by simp [cmpAt, hk]⟩
      intro kd hkd
      simp [kind?, hk] at hkd
      subst hkd
      refine ⟨by simp, by simp, by simp, by simp, ?_, by simp⟩
      rintro o s ⟨⟩ _
      left
      simp [stopsAt, hu]

theorem cmpAt_starts {ts : List Token} (h : Starts ts) (r : List Token) : cmpAt (ts ++ r) = none := by
  obtain ⟨t, ts, rfl, h⟩ := h
  simp only [List.cons_append, cmpAt]
  split
  · rename_i c e
    rw [e] at h
    simp [startKind, prefixStrength] at h
  · rfl

theorem exprPair_read {C : PCfg} (hu : C.unary = true) {t : Test} {ts : List Token} (h : TestW C t ts) {m : Nat} (hm : ts.length < m)
    {rest : List (Join × Test)} {rs : List Token} (hr : RestW C rest rs) : exprPair (binExpr C m) (ts ++ rs) = (t.tree, rs) := by
  cases h with
  | @lead t c x ts ht hx =>
    have e := hx.read (m := m) (r := rs) (by simp at hm; omega) (hr.stop hu _).1
    have e : binExpr C m .global 0 0 (ts ++ rs) = (x, rs) := e
    simp [exprPair, cmpAt, ht, e, Test.tree]
  | @plain x ts hx =>
    have e := hx.read (m := m) (r := rs) hm (hr.stop hu _).1
    have e : binExpr C m .global 0 0 (ts ++ rs) = (x, rs) := e
    simp [exprPair, cmpAt_starts hx.starts, e, (hr.stop hu 0).2, Test.tree]

theorem TestW.pos {C : PCfg} {t : Test} {ts : List Token} (h : TestW C t ts) : 0 < ts.length := by
  cases h with
  | lead => simp
  | plain h => exact List.length_pos_iff.2 h.starts.ne_nil

theorem rootLoop_read {C : PCfg} (hu : C.unary = true) {rest : List (Join × Test)} {rs : List Token} (h : RestW C rest rs) {m : Nat}
    (hm : rs.length < m) : ∀ n l, rs.length < n → rootLoop (binExpr C m) n l rs = (joined l rest, []) := by
  induction h with
  | nil =>
    intro n l hn
    obtain ⟨n, rfl⟩ : ∃ k, n = k + 1 := ⟨n - 1, by omega⟩
    rfl
  | @cons j t k ts rest rs hj ht hr ih =>
    intro n l hn
    simp only [List.length_append, List.length_cons] at hm hn
    obtain ⟨n, rfl⟩ : ∃ k, n = k + 1 := ⟨n - 1, by omega⟩
    have e := exprPair_read hu ht (m := m) (by omega) hr
    simp only [rootLoop, List.cons_append, joinAt_of hj, e, joined]
    exact ih (by omega) _ _ (by omega)

theorem wrapped_noError {x : Node} (h : hasError x = false) : hasError (wrapped x) = false := by
  unfold wrapped
  split <;> simp [hasError, hasErrorL, refNode, h]

theorem TestW.noError {C : PCfg} {t : Test} {ts : List Token} (h : TestW C t ts) : hasError t.tree = false := by
  cases h with
  | lead _ h => simp [Test.tree, hasError, refNode, h.noError]
  | plain h => exact wrapped_noError h.noError

theorem RestW.noError {C : PCfg} {rest : List (Join × Test)} {rs : List Token} (h : RestW C rest rs) :
    ∀ l, hasError l = false → hasError (joined l rest) = false := by
  induction h with
  | nil => exact fun l h => h
  | cons _ ht _ ih =>
    intro l hl
    exact ih _ (by simp [hasError, hl, ht.noError])

/-- The tokens of a cell are parsed: to its tests, joined from the left in the order in which they are written,
whichever joins they are. -/
theorem C17_parsed {L : PLib} {t : Test} {rest : List (Join × Test)} {ts rs : List Token}
    (h : TestW ⟨L, true, hasRange (ts ++ rs)⟩ t ts) (hr : RestW ⟨L, true, hasRange (ts ++ rs)⟩ rest rs) :
    parseUnary L (ts ++ rs) = some (joined t.tree rest) := by
  have e := exprPair_read rfl h (m := (ts ++ rs).length + 1) (by simp; omega) hr
  have e2 := rootLoop_read rfl hr (m := (ts ++ rs).length + 1) (by simp; omega) ((ts ++ rs).length + 1) t.tree (by simp; omega)
  unfold parseUnary rootExpr
  rw [e]
  dsimp only
  rw [e2]
  simp [result, hr.noError _ h.noError]

/-! ### from the tree to the verdict -/

def senseB : Sense → Behaviour
  | .same => .compare .eq
  | .among => .compare .in_
  | .cond => .asBoolean

theorem ofText_text {f : String} {n : Fn.Name} (h : Fn.Name.ofText f = some n) : n.text = f := by
  have := List.find?_some h
  simpa using this

theorem senseB_inj {s s' : Sense} (h : s ≠ s') : senseB s ≠ senseB s' := by
  cases s <;> cases s' <;> simp [senseB] at h ⊢

theorem Use.behaviour {x : Node} {s : Sense} (h : Use x s) : behaviour x = senseB s := by
  induction h with
  | quantifier o al b h => rcases h with rfl | rfl | rfl | rfl <;> rfl
  | collect o al b h => rcases h with rfl | rfl | rfl <;> rfl
  | callCond xs h =>
    simp only [condFns, List.mem_cons, List.not_mem_nil, or_false] at h
    rcases h with rfl | rfl | rfl | rfl | rfl <;> rfl
  | callList xs h =>
    simp only [listFns, List.mem_cons, List.not_mem_nil, or_false] at h
    rcases h with rfl | rfl | rfl | rfl | rfl | rfl | rfl <;> rfl
  | @call f xs h h' =>
    simp only [Parse.behaviour]
    split
    · rename_i n hn
      have := ofText_text hn
      subst this
      cases n <;> first | rfl | (exact absurd (by decide) h) | (exact absurd (by decide) h')
    · rfl
  | methodCond t xs h =>
    simp only [condMethods, List.mem_cons, List.not_mem_nil, or_false] at h
    simp [Parse.behaviour, methodBehaviour, h, senseB]
  | method t xs h =>
    simp only [condMethods, List.mem_cons, List.not_mem_nil, or_false] at h
    simp only [Parse.behaviour, methodBehaviour, if_neg h, senseB]
  | paren _ ih => simpa [Parse.behaviour] using ih
  | sign _ _ ih => simpa [Parse.behaviour] using ih
  | not _ ih => simpa [Parse.behaviour] using ih
  | arith o _ _ ih1 ih2 => simp [Parse.behaviour, ih1, ih2]
  | arithMixed o _ _ hs ih1 ih2 => simp only [Parse.behaviour, ih1, ih2, if_neg (senseB_inj hs)]; rfl
  | branch c _ _ ih1 ih2 => simp [Parse.behaviour, ih1, ih2]
  | branchMixed c _ _ hs ih1 ih2 => simp only [Parse.behaviour, ih1, ih2, if_neg (senseB_inj hs)]; rfl
  | count => rfl
  | _ => simp [Parse.behaviour, senseB]

/-- what is used of the function `bool`: it takes one argument and leaves booleans as they are -/
structure KnowsBool (B : Builtins) : Prop where
  arity : arityOk 1 (B.fnArity "bool") = true
  bool : ∀ b, B.fn "bool" [.bool b] = .ok (.bool b)

theorem builtins_bool (L : Fn.Lib) (D : Dec.Rounding) (checks : Bool) (DL : Fn.DLib) (num : NumOps)
    (mArity : String → Option (Nat × Nat)) (method : String → List Val → Except BErr Val) :
    KnowsBool (Fn.builtins L D checks DL num mArity method) := by
  refine ⟨rfl, fun b => ?_⟩
  cases b <;> rfl

section
variable {B : Builtins} {scope : Scope} {r : Val}

theorem ref_operand (h : scope.local_ "$" = some r) : Operand B scope refNode r := by
  refine ⟨trivial, yields_iff.2 ⟨compiles_iff.2 trivial, ?_⟩⟩
  simp [evaluate, refNode, eval, Zen.aliasOf, opFetchEnv, h, Except.map]

theorem bool_eq {a b : Bool} {p : Prop} (ha : a = true ↔ p) (hb : b = true ↔ p) : a = b := by
  cases a <;> cases b <;> simp_all

theorem bool_dec {b : Bool} {p : Prop} [Decidable p] (h : b = true ↔ p) : b = decide p := by
  cases b <;> simp_all

theorem bool_not {a b : Bool} {p : Prop} (ha : a = true ↔ p) (hb : b = true ↔ ¬ p) : b = !a := by
  cases a <;> cases b <;> simp_all

theorem Compare.yields {a x : Node} {c : COp} {v : Val} {b : Bool} (h : Compare c r v b) (ha : Operand B scope a r)
    (hx : Operand B scope x v) : Yields B scope (.binary (.cmp c) a x) (.ok (.bool b)) := by
  cases h with
  | eq h =>
    obtain ⟨q, hq, y, _⟩ := C47_equality B scope a x _ _ ha hx
    rw [bool_eq h hq]; exact y
  | ne h =>
    obtain ⟨q, hq, _, y⟩ := C47_equality B scope a x _ _ ha hx
    rw [bool_not hq h]; exact y
  | @num c x y b hc h =>
    obtain ⟨h1, h2, h3, h4⟩ := C47_comparison B scope a _ _ _ ha hx
    rcases hc with rfl | rfl | rfl | rfl
    · rw [bool_dec (p := x < y) h]; exact h1
    · rw [bool_dec (p := x ≤ y) h]; exact h2
    · rw [bool_dec (p := y < x) h]; exact h3
    · rw [bool_dec (p := y ≤ x) h]; exact h4
  | @date c x y b hc h =>
    obtain ⟨h1, h2, h3, h4⟩ := C47_date_comparison B scope a _ _ _ ha hx
    rcases hc with rfl | rfl | rfl | rfl
    · rw [bool_dec (p := x < y) h]; exact h1
    · rw [bool_dec (p := x ≤ y) h]; exact h2
    · rw [bool_dec (p := y < x) h]; exact h3
    · rw [bool_dec (p := y ≤ x) h]; exact h4
  | elem hs h =>
    obtain ⟨q, hq, y, _⟩ := C47_in_array B scope a x _ _ hs ha hx
    rw [bool_eq h hq]; exact y
  | notElem hs h =>
    obtain ⟨q, hq, _, y⟩ := C47_in_array B scope a x _ _ hs ha hx
    rw [bool_not hq h]; exact y
  | key h =>
    obtain ⟨q, hq, y⟩ := C47_in_object B scope a x _ _ ha hx
    rw [bool_eq h hq]; exact y

/-- the tree is accepted and evaluates to the boolean, leaving the scope as it is -/
def Verdict (B : Builtins) (scope : Scope) (n : Node) (b : Bool) : Prop :=
  Accepts B n ∧ eval B scope [] scope n = .ok (.bool b, scope)

theorem Operand.verdict {n : Node} {b : Bool} (h : Operand B scope n (.bool b)) : Verdict B scope n b :=
  ⟨compiles_iff.1 h.compiles, h.eval⟩

theorem Holds.verdict (hB : KnowsBool B) (hr : scope.local_ "$" = some r) {t : Test} {b : Bool} (h : Holds B scope r t b) :
    Verdict B scope t.tree b := by
  have ha : Operand B scope refNode r := ref_operand hr
  cases h with
  | lead hx hc => exact Operand.verdict ⟨⟨trivial, hx.pure⟩, hc.yields ha hx⟩
  | leadIn hx hq hb =>
    subst hq
    cases hx with
    | mk hl hh h1 h2 =>
      obtain ⟨q, hq, y, _⟩ := C15_membership B scope refNode _ _ _ _ _ _ _ ha hl hh h1 h2
      rw [bool_eq hb hq]
      exact Operand.verdict ⟨⟨trivial, hl.pure, hh.pure⟩, y⟩
  | leadNotIn hx hq hb =>
    subst hq
    cases hx with
    | mk hl hh h1 h2 =>
      obtain ⟨q, hq, _, y⟩ := C15_membership B scope refNode _ _ _ _ _ _ _ ha hl hh h1 h2
      rw [bool_not hq hb]
      exact Operand.verdict ⟨⟨trivial, hl.pure, hh.pure⟩, y⟩
  | same hu hx hb =>
    simp only [Test.tree, wrapped, hu.behaviour, senseB]
    exact Operand.verdict ⟨⟨trivial, hx.pure⟩, (Compare.eq hb).yields ha hx⟩
  | among hu hx hs hb =>
    simp only [Test.tree, wrapped, hu.behaviour, senseB]
    exact Operand.verdict ⟨⟨trivial, hx.pure⟩, (Compare.elem hs hb).yields ha hx⟩
  | within hx hq hb =>
    subst hq
    cases hx with
    | mk hl hh h1 h2 =>
      obtain ⟨q, hq, y, _⟩ := C15_membership B scope refNode _ _ _ _ _ _ _ ha hl hh h1 h2
      rw [bool_eq hb hq]
      exact Operand.verdict ⟨⟨trivial, hl.pure, hh.pure⟩, y⟩
  | cond hu hx =>
    simp only [Test.tree, wrapped, hu.behaviour, senseB]
    refine ⟨⟨hB.arity, compiles_iff.1 hx.compiles, trivial⟩, ?_⟩
    simp [eval, evalList, hx.eval, hB.bool]

theorem tree_accepts (hB : KnowsBool B) {t : Test} (h : Compiles B t.expr) : Accepts B t.tree := by
  have h := compiles_iff.1 h
  cases t with
  | lead c x => cases c <;> exact ⟨rfl, trivial, h⟩
  | plain x =>
    simp only [Test.tree, wrapped]
    split
    · rename_i c _; cases c <;> exact ⟨rfl, trivial, h⟩
    · exact ⟨hB.arity, h, trivial⟩

theorem Ends.verdict (hB : KnowsBool B) (hr : scope.local_ "$" = some r) {b b' : Bool} {rest : List (Join × Test)}
    (h : Ends B scope r b rest b') : ∀ l, Verdict B scope l b → Verdict B scope (joined l rest) b' := by
  induction h with
  | nil => exact fun l h => h
  | @skip j t rest b b' hs hc _ ih =>
    intro l hl
    refine ih _ ⟨?_, ?_⟩
    · cases j <;> exact ⟨rfl, hl.1, tree_accepts hB hc⟩
    · cases j <;> (simp only [settled] at hs; subst hs; simp [eval, Join.op, hl.2])
  | @take j t rest b c b' hs ht _ ih =>
    intro l hl
    have ht := ht.verdict hB hr
    refine ih _ ⟨?_, ?_⟩
    · cases j <;> exact ⟨rfl, hl.1, ht.1⟩
    · cases j <;> (simp only [settled, Bool.not_eq_true, Bool.not_eq_false] at hs; subst hs; simp [eval, Join.op, hl.2, ht.2])

end

/-- The verdict of a cell is the result of running it, with the reference value as `$`: from the source text through
lexer, parser, compiler and virtual machine. -/
theorem C17_verdict {L : PLib} {enc : String → List Char} {B : Builtins} (hB : KnowsBool B) {e : Ev} {r : Val}
    (href : e.scope.local_ "$" = some r) {src : String} {t : Test} {rest : List (Join × Test)} {ts rs : List Token} {b b' : Bool}
    (hsrc : tokenize (enc src) = .ok (ts ++ rs)) (h : TestW ⟨L, true, hasRange (ts ++ rs)⟩ t ts)
    (hr : RestW ⟨L, true, hasRange (ts ++ rs)⟩ rest rs) (hb : Holds B e.scope r t b) (he : Ends B e.scope r b rest b') :
    e.runUnary (frontEnd L enc) B src = .ok b' := by
  have hv := he.verdict hB href _ (hb.verdict hB href)
  obtain ⟨code, hc⟩ := compiles_iff.2 hv.1
  have hf : frontEnd L enc .unary src = .ok (joined t.tree rest) := by
    simp only [frontEnd, hsrc, C17_parsed h hr]
  simp [Ev.runUnary, freshRun, hf, hc, evaluate, hv.2, Except.map, Iso.asBool]

/-- Every test of the cell holds or does not, whatever becomes of the others. -/
inductive AllHold (B : Builtins) (scope : Scope) (r : Val) : List (Join × Test) → List Bool → Prop
  | nil : AllHold B scope r [] []
  | cons {j t b rest bs} : Holds B scope r t b → AllHold B scope r rest bs → AllHold B scope r ((j, t) :: rest) (b :: bs)

theorem Holds.compiles {B : Builtins} {scope : Scope} {r : Val} {t : Test} {b : Bool} (h : Holds B scope r t b) :
    Compiles B t.expr := by
  cases h with
  | lead h => exact h.compiles
  | leadIn h | leadNotIn h | within h => cases h with | mk hl hh => exact compiles_iff.2 ⟨compiles_iff.1 hl.compiles, compiles_iff.1 hh.compiles⟩
  | same _ h => exact h.compiles
  | among _ h => exact h.compiles
  | cond _ h => exact h.compiles

/-- Tests joined by `,` and `or`: the cell holds when one of them does. -/
theorem C17_disjunction {B : Builtins} {scope : Scope} {r : Val} {rest : List (Join × Test)} {b : Bool} {bs : List Bool}
    (h : AllHold B scope r rest bs) (hj : ∀ p ∈ rest, p.1 = .or) : Ends B scope r b rest (b || bs.any id) := by
  induction h generalizing b with
  | nil => simpa using Ends.nil
  | @cons j t c rest bs ht _ ih =>
    obtain rfl : j = .or := hj (j, t) (by simp)
    have ih := fun b => ih (b := b) (fun p hp => hj p (by simp [hp]))
    cases b with
    | true => exact .skip rfl ht.compiles (by simpa using ih true)
    | false => exact .take (by simp [settled]) ht (by simpa using ih c)

/-- Tests joined by `and`: the cell holds when all of them do. -/
theorem C17_conjunction {B : Builtins} {scope : Scope} {r : Val} {rest : List (Join × Test)} {b : Bool} {bs : List Bool}
    (h : AllHold B scope r rest bs) (hj : ∀ p ∈ rest, p.1 = .and) : Ends B scope r b rest (b && bs.all id) := by
  induction h generalizing b with
  | nil => simpa using Ends.nil
  | @cons j t c rest bs ht _ ih =>
    obtain rfl : j = .and := hj (j, t) (by simp)
    have ih := fun b => ih (b := b) (fun p hp => hj p (by simp [hp]))
    cases b with
    | false => exact .skip rfl ht.compiles (by simpa using ih false)
    | true => exact .take (by simp [settled]) ht (by simpa using ih c)

/-- A test that matters and fails makes the cell fail, with the error of its expression. -/
theorem C17_failure {L : PLib} {enc : String → List Char} {B : Builtins} (hB : KnowsBool B) {e : Ev} {r : Val}
    (href : e.scope.local_ "$" = some r) {src : String} {t u : Test} {rest more : List (Join × Test)} {j : Join} {ts rs : List Token}
    {b b' : Bool} {er : VErr} (hsrc : tokenize (enc src) = .ok (ts ++ rs)) (h : TestW ⟨L, true, hasRange (ts ++ rs)⟩ t ts)
    (hr : RestW ⟨L, true, hasRange (ts ++ rs)⟩ (rest ++ (j, u) :: more) rs) (hb : Holds B e.scope r t b)
    (he : Ends B e.scope r b rest b') (hj : ¬ settled j b') (hf : Yields B e.scope u.expr (.error er))
    (hm : ∀ p ∈ more, Compiles B p.2.expr) :
    e.runUnary (frontEnd L enc) B src = .error (.vm er) := by
  have hv := he.verdict hB href _ (hb.verdict hB href)
  obtain ⟨hc, hf⟩ := yields_iff.1 hf
  have hue : eval B e.scope [] e.scope u.expr = .error er := by
    unfold evaluate at hf
    cases hx : eval B e.scope [] e.scope u.expr with
    | error e => rw [hx] at hf; cases hf; rfl
    | ok v => rw [hx] at hf; cases hf
  have hre := (ref_operand (B := B) href).eval
  have hte : eval B e.scope [] e.scope u.tree = .error er := by
    have cmp : ∀ c x, eval B e.scope [] e.scope x = .error er → eval B e.scope [] e.scope (.binary (.cmp c) refNode x) = .error er := by
      intro c x hx
      rw [eval_binary_strict _ _ _ _ (by cases c <;> rfl)]
      cases c <;> simp [binMeaning, hre, hx]
    cases u with
    | lead c x => exact cmp c x hue
    | plain x =>
      simp only [Test.tree, wrapped]
      split
      · exact cmp _ x hue
      · simp only [Test.expr] at hue
        simp [eval, evalList, hue]
  have tail : ∀ (more : List (Join × Test)) l, (∀ p ∈ more, Compiles B p.2.expr) → Accepts B l → eval B e.scope [] e.scope l = .error er →
      Accepts B (joined l more) ∧ eval B e.scope [] e.scope (joined l more) = .error er := by
    intro more
    induction more with
    | nil => exact fun l _ h1 h2 => ⟨h1, h2⟩
    | cons p more ih =>
      intro l hp h1 h2
      obtain ⟨j, t⟩ := p
      refine ih _ (fun q hq => hp q (by simp [hq])) ?_ ?_
      · have := tree_accepts hB (hp (j, t) (by simp)); cases j <;> exact ⟨rfl, h1, this⟩
      · cases j <;> simp [eval, Join.op, h2]
  have app : ∀ (rest : List (Join × Test)) l, joined l (rest ++ (j, u) :: more) = joined (.binary (.logic j.op) (joined l rest) u.tree) more := by
    intro rest
    induction rest with
    | nil => intro l; rfl
    | cons p rest ih => intro l; exact ih _
  have hall := tail more (.binary (.logic j.op) (joined t.tree rest) u.tree) hm
    (by cases j <;> exact ⟨rfl, hv.1, tree_accepts hB hc⟩)
    (by cases j <;> (simp only [settled, Bool.not_eq_true, Bool.not_eq_false] at hj; subst hj; simp [eval, Join.op, hv.2, hte]))
  rw [← app] at hall
  obtain ⟨code, hcode⟩ := compiles_iff.2 hall.1
  have hfe : frontEnd L enc .unary src = .ok (joined t.tree (rest ++ (j, u) :: more)) := by
    simp only [frontEnd, hsrc, C17_parsed h hr]
  simp [Ev.runUnary, freshRun, hfe, hcode, evaluate, hall.2, Except.map, Iso.asBool]

/-! ### departures from expressions outside cells -/

/-- `or` followed by `and` is grouped from the left, unlike in expressions (C18_two). -/
theorem C17_no_precedence {L : PLib} {t u v : Test} {ts tu tv : List Token} {o a : Token} (ho : o.kind = .op (.logic .or))
    (ha : a.kind = .op (.logic .and)) (all : List Token) (hall : all = ts ++ (o :: tu ++ (a :: tv)))
    (h : TestW ⟨L, true, hasRange all⟩ t ts) (hu : TestW ⟨L, true, hasRange all⟩ u tu) (hv : TestW ⟨L, true, hasRange all⟩ v tv) :
    parseUnary L all = some (.binary (.logic .and) (.binary (.logic .or) t.tree u.tree) v.tree) := by
  subst hall
  have h2 : RestW ⟨L, true, hasRange (ts ++ (o :: tu ++ (a :: tv)))⟩ [(.or, u), (.and, v)] (o :: tu ++ (a :: tv)) := by
    have := RestW.cons (j := .and) (k := a) (by rw [ha]; exact .and) hv .nil
    rw [List.append_nil] at this
    exact .cons (by rw [ho]; exact .or) hu this
  exact C17_parsed h h2

theorem rootLoop_error {rec : Rec} : ∀ n l ts, hasError l = true → hasError (rootLoop rec n l ts).1 = true
  | 0, _, _, _ => rfl
  | n + 1, l, ts, h => by
    unfold rootLoop
    split
    · exact h
    · split
      · rfl
      · rcases exprPair rec _ with ⟨x, r1⟩
        exact rootLoop_error n _ _ (by simp [hasError, h])

theorem result_error {n : Node} {r : List Token} (h : hasError n = true) : result (n, r) = none := by
  cases r <;> simp [result, h]

/-- Tests cannot be grouped: `and` or `or` after an expression inside parentheses is refused, whatever follows. -/
theorem C17_parentheses {L : PLib} {x : Node} {tx r : List Token} {a o : Token} {j : LOp} (ha : a.kind = .bracket .lparen)
    (ho : o.kind = .op (.logic j)) (hj : j = .and ∨ j = .or)
    (hx : Written ⟨L, true, hasRange (a :: tx ++ o :: r)⟩ .global 0 0 x tx) :
    parseUnary L (a :: tx ++ o :: r) = none := by
  generalize hall : a :: tx ++ o :: r = all at hx
  generalize hC : (⟨L, true, hasRange all⟩ : PCfg) = C at hx
  have hu : C.unary = true := by rw [← hC]
  have hlen : all.length = tx.length + r.length + 2 := by rw [← hall]; simp; omega
  have hstop : ∀ M, Stop C .global M (o :: r) := by
    intro M kd hkd
    simp [kind?, ho] at hkd
    subst hkd
    refine ⟨by simp, by simp, by simp, by simp, ?_, by simp⟩
    rintro o s ⟨⟩ _
    left
    rcases hj with rfl | rfl <;> simp [stopsAt, hu]
  have hread : binExpr C all.length .global 0 0 (tx ++ o :: r) = (x, o :: r) :=
    hx.read (m := all.length) (by omega) (hstop _)
  have hint : interval C (binExpr C all.length) 0 (a :: (tx ++ o :: r)) = (none, a :: (tx ++ o :: r)) := by
    refine interval_fail fun _ _ _ => ?_
    right
    rw [hread]
    exact expect_ne ho (by simp) _
  have hun : unaryExpr C (binExpr C all.length) 0 (a :: (tx ++ o :: r)) = (.error, o :: r) := by
    unfold unaryExpr
    simp [ha, hint, hread, expect_ne ho (by simp : (Lex.Kind.op (.logic j)) ≠ .bracket .rparen)]
  have hbin : binExpr C (all.length + 1) .global 0 0 (a :: (tx ++ o :: r)) = (.error, o :: r) := by
    rw [binExpr_loop, hun]
    have := loop_stop (C := C) (rec := binExpr C all.length) (c := .global) (d := 0) (L := 0) (l := .error) (hstop 0)
    have this : loop C (binExpr C all.length) .global 0 0 .error (o :: r) = (.error, o :: r) := this
    dsimp only
    rw [this]
    exact conditional_none (by simp [kind?, ho])
  have hcmp : cmpAt all = none := by rw [← hall]; simp [cmpAt, ha]
  have hcmp2 : cmpAt (o :: r) = none := by simp [cmpAt, ho]
  have hp : exprPair (binExpr C (all.length + 1)) all = (.call "bool" [.error], o :: r) := by
    unfold exprPair
    rw [hcmp]
    dsimp only
    have hall' : a :: (tx ++ o :: r) = all := hall
    rw [hall'] at hbin
    rw [hbin]
    dsimp only
    rw [hcmp2]
    rfl
  unfold parseUnary rootExpr
  rw [hC, hp]
  have := rootLoop_error (rec := binExpr C (all.length + 1)) (all.length + 1) (.call "bool" [.error]) (o :: r) rfl
  dsimp only
  generalize rootLoop (binExpr C (all.length + 1)) (all.length + 1) (.call "bool" [.error]) (o :: r) = z at this
  obtain ⟨z, w⟩ := z
  exact result_error this

/-- In the body of a closure in a cell `and` after `or` takes what comes before it as a whole, unlike outside
cells: the same text is two different expressions. -/
theorem C17_closure_body {L : PLib} {k : Clo} {f p xs c a o b n d q : Token} (hf : f.kind = .literal)
    (hfn : isFn (L.dec f.value) = false) (hk : cloOfText (L.dec f.value) = some k) (hp : p.kind = .bracket .lparen)
    (hxs : xs.kind = .literal) (hc : c.kind = .op .comma) (ha : a.kind = .literal) (ho : o.kind = .op (.logic .or))
    (hb : b.kind = .literal) (hn : n.kind = .op (.logic .and)) (hd : d.kind = .literal) (hq : q.kind = .bracket .rparen)
    (A B D X : Node) (hA : A = .ident (L.dec a.value)) (hB : B = .ident (L.dec b.value)) (hD : D = .ident (L.dec d.value))
    (hX : X = .ident (L.dec xs.value)) :
    parseUnary L [f, p, xs, c, a, o, b, n, d, q] =
      some (wrapped (.closure k X none (.binary (.logic .and) (.binary (.logic .or) A B) D))) ∧
    parse L [f, p, xs, c, a, o, b, n, d, q] =
      some (.closure k X none (.binary (.logic .or) A (.binary (.logic .and) B D))) := by
  subst hA hB hD hX
  have nm : ∀ (C : PCfg) c d L' (t : Token), t.kind = .literal → Written C c d L' (.ident (C.lib.dec t.value)) [t] :=
    fun C c d L' t h => .primary (.name (.inl h))
  constructor
  · refine C17_parsed (ts := [f, p, xs, c, a, o, b, n, d, q]) (rs := []) (t := .plain _) (rest := []) (.plain (.primary (f := true) ?_)) .nil
    generalize hC : (⟨L, true, _⟩ : PCfg) = C
    have hl : C.lib = L := by rw [← hC]
    have hu : C.unary = true := by rw [← hC]
    rw [← hl] at hfn hk ⊢
    refine Primary.closure (tO := [xs]) (tal := []) (tb := [a, o, b, n, d]) (.inl hf) hfn ((cloOfText_iff _ _).1 hk) hp (nm _ _ _ _ _ hxs) .none hc ?_ hq
    refine Written.binary (tl := [a, o, b]) (tr := [d]) hn rfl (by simp [joins]) (by omega) ?_ (.inr ⟨by simp [edge, place, strength], by simp [joins, hu]⟩)
      (nm _ _ _ _ _ hd)
    exact Written.binary (tl := [a]) (tr := [b]) ho rfl (by simp [joins]) (by omega) (nm _ _ _ _ _ ha) (.inl (by simp [edge]))
      (nm _ _ _ _ _ hb)
  · have hw : Written ⟨L, false, hasRange [f, p, xs, c, a, o, b, n, d, q]⟩ .global 0 0
        (.closure k (.ident (L.dec xs.value)) none (.binary (.logic .or) (.ident (L.dec a.value))
          (.binary (.logic .and) (.ident (L.dec b.value)) (.ident (L.dec d.value))))) [f, p, xs, c, a, o, b, n, d, q] := by
      generalize hC : (⟨L, false, _⟩ : PCfg) = C
      have hl : C.lib = L := by rw [← hC]
      have hu : C.unary = false := by rw [← hC]
      rw [← hl] at hfn hk ⊢
      refine .primary (f := true) ?_
      refine Primary.closure (tO := [xs]) (tal := []) (tb := [a, o, b, n, d]) (.inl hf) hfn ((cloOfText_iff _ _).1 hk) hp (nm _ _ _ _ _ hxs) .none hc ?_ hq
      refine Written.binary (tl := [a]) (tr := [b, n, d]) ho rfl (by simp [joins, hu]) (by omega) (nm _ _ _ _ _ ha) (.inl (by simp [edge])) ?_
      exact Written.binary (tl := [b]) (tr := [d]) hn rfl (by simp [joins, hu]) (by simp [place]) (nm _ _ _ _ _ hb) (.inl (by simp [edge]))
        (nm _ _ _ _ _ hd)
    have e := hw.read (m := 11) (r := []) (by simp) .nil
    have e : binExpr _ 11 .global 0 0 [f, p, xs, c, a, o, b, n, d, q] = _ := e
    unfold parse
    rw [show [f, p, xs, c, a, o, b, n, d, q].length + 1 = 11 from rfl, e]
    simp [result, hw.noError]

/-- A negated name is not used as a condition: its value is compared with the reference value. -/
theorem C17_negated_name {L : PLib} {enc : String → List Char} {B : Builtins} {e : Ev} {r : Val}
    (href : e.scope.local_ "$" = some r) {src : String} {t x : Token} {b : Bool} (ht : t.kind = .op (.logic .not))
    (hx : x.kind = .literal) (hsrc : tokenize (enc src) = .ok [t, x])
    (hv : Operand B e.scope (.ident (L.dec x.value)) (.bool b)) :
    e.runUnary (frontEnd L enc) B src = .ok true ↔ r = .bool (!b) := by
  have hw : TestW ⟨L, true, hasRange ([t, x] ++ [])⟩ (.plain (.unary (.logic .not) (.ident (L.dec x.value)))) [t, x] :=
    .plain (.unary ht rfl (.primary (.name (.inl hx))))
  have hf : frontEnd L enc .unary src = .ok (.binary (.cmp .eq) refNode (.unary (.logic .not) (.ident (L.dec x.value)))) := by
    have h := C17_parsed (rs := []) (rest := []) hw .nil
    rw [List.append_nil] at h
    simp only [frontEnd, hsrc, h]
    rfl
  have hn : Operand B e.scope (.unary (.logic .not) (.ident (L.dec x.value))) (.bool (!b)) :=
    ⟨hv.pure, (C47_unary B e.scope _).2.1 b hv⟩
  obtain ⟨q, hq, y, _⟩ := C47_equality B e.scope refNode _ _ _ (ref_operand href) hn
  obtain ⟨⟨code, hc⟩, he⟩ := yields_iff.1 y
  simp only [Ev.runUnary, freshRun, hf, hc, ← he, Iso.asBool]
  constructor
  · intro h
    cases h
    have := hq.1 rfl
    generalize Val.bool (!b) = w at this ⊢
    cases this <;> first | rfl
  · rintro rfl
    rw [hq.2 (.bool _)]

/-- An alternative for null is used as a condition, not compared with the reference value, whatever its operands
are. -/
theorem C17_coalesce {L : PLib} {x y : Node} {ts : List Token}
    (h : Written ⟨L, true, hasRange ts⟩ .global 0 0 (.binary (.logic .coalesce) x y) ts) :
    parseUnary L ts = some (.call "bool" [.binary (.logic .coalesce) x y]) := by
  have h' := C17_parsed (rs := []) (rest := []) (ts := ts) (L := L) (t := .plain (.binary (.logic .coalesce) x y))
    (by rw [List.append_nil]; exact .plain h) .nil
  rw [List.append_nil] at h'
  exact h'

/-! ### examples -/
section
private def digits (s : List Char) : Option Rat := some (s.foldl (fun a c => 10 * a + (c.toNat - 48)) 0 : Nat)
private def lib : PLib := ⟨String.ofList, digits⟩
private def num : NumOps := ⟨fun a b => some (a + b), fun a b => some (a - b), fun a b => some (a * b), fun _ _ => none, fun _ _ => none, fun _ _ => none⟩
private def B : Builtins where
  checks := true
  num := num
  fnArity := fun f => if f = "bool" then some (1, 1) else none
  fn := fun f as => match f, as with
    | "bool", [.bool b] => .ok (.bool b)
    | _, _ => .error (.err "")
  mArity := fun _ => none
  method := fun _ _ => .error (.err "")
private theorem hB : KnowsBool B := ⟨rfl, fun b => by cases b <;> rfl⟩
private def ev (r : Val) : Ev := { scope := { base := .obj [("x", .num 12), ("off", .bool true)], locals := [("$", r)] } }

-- the hypotheses of C17_verdict for the cell `> 5, 3 and x > 10`
private def tk (k : Lex.Kind) (a b : Nat) (s : String) : Token := ⟨k, a, b, s.toList⟩
private def cell : List Token :=
  [tk (.op (.cmp .gt)) 0 1 ">", tk .number 2 3 "5"]
private def cellRest : List Token :=
  [tk (.op .comma) 3 4 ",", tk .number 5 6 "3", tk (.op (.logic .and)) 7 10 "and", tk .literal 11 12 "x",
   tk (.op (.cmp .gt)) 13 14 ">", tk .number 15 17 "10"]
private theorem cell_tokens : tokenize "> 5, 3 and x > 10".toList = .ok (cell ++ cellRest) := rfl
private def tests : List (Join × Test) := [(.or, .plain (.num 3)), (.and, .plain (.binary (.cmp .gt) (.ident "x") (.num 10)))]

private theorem cell_first : TestW ⟨lib, true, hasRange (cell ++ cellRest)⟩ (.lead .gt (.num 5)) cell :=
  .lead rfl (.primary (.num rfl (by simp [tk, lib, digits])))
private theorem cell_rest : RestW ⟨lib, true, hasRange (cell ++ cellRest)⟩ tests cellRest := by
  refine .cons (ts := [_]) .comma (.plain (.primary (.num rfl (by simp [tk, lib, digits])))) ?_
  refine .cons (ts := [_, _, _]) (rs := []) .and (.plain ?_) .nil
  refine .binary (tl := [_]) (tr := [_]) (o := .cmp .gt) rfl rfl (by simp [joins]) (by omega) ?_ (.inl (by simp [edge])) (.primary (.num rfl (by simp [tk, lib, digits])))
  have := Primary.name (C := ⟨lib, true, hasRange (cell ++ cellRest)⟩) (E := Written ⟨lib, true, hasRange (cell ++ cellRest)⟩) (d := 0)
    (t := tk .literal 11 12 "x") (.inl rfl)
  exact .primary this

private theorem lit (q : Rat) (r : Val) : Operand B (ev r).scope (.num q) (.num q) :=
  ⟨trivial, yields_iff.2 ⟨compiles_iff.2 trivial, rfl⟩⟩
private theorem nameX (r : Val) : Operand B (ev r).scope (.ident "x") (.num 12) :=
  ⟨trivial, yields_iff.2 ⟨compiles_iff.2 trivial, rfl⟩⟩

/-- 7 is greater than 5, so `3` is not asked; `x > 10` holds -/
example : (ev (.num 7)).runUnary (frontEnd lib String.toList) B "> 5, 3 and x > 10" = .ok true := by
  refine C17_verdict hB (r := .num 7) rfl cell_tokens cell_first cell_rest (b := true)
    (.lead (lit 5 _) (.num (.inr (.inr (.inl rfl))) (by simp [ordered]; norm_num))) ?_
  refine .skip rfl ⟨_, rfl⟩ (.take (by simp [settled]) (c := true) ?_ .nil)
  have h := (C47_comparison B _ _ _ _ _ (nameX (.num 7)) (lit 10 (.num 7))).2.2.1
  rw [show decide ((10 : Rat) < 12) = true by norm_num] at h
  exact .cond (.compare _ _ _) ⟨⟨trivial, trivial⟩, h⟩

example : Use (.unary (.arith .sub) (.num 5)) .same := .sign (.inr rfl) (.num 5)
example : Use (.unary (.logic .not) (.call "contains" [.ident "$", .str "a"])) .cond := .not (.callCond _ (by decide))
example : Use (.cond (.ident "x") (.arr [.num 1]) (.num 2)) .same := .branchMixed _ (.arr _) (.num _) (by decide)

-- the parser of cells at work
example : parseUnary lib (cell ++ cellRest) =
    some (.binary (.logic .and) (.binary (.logic .or) (.binary (.cmp .gt) (.ident "$") (.num 5)) (.binary (.cmp .eq) (.ident "$") (.num 3)))
      (.call "bool" [.binary (.cmp .gt) (.ident "x") (.num 10)])) := C17_parsed cell_first cell_rest
private def q (s : String) : List Token := [tk (.quote .single) 0 0 "'", tk .literal 0 0 s, tk (.quote .single) 0 0 "'"]
example : parseUnary lib (tk (.bracket .lparen) 0 0 "(" :: q "a" ++ tk (.op (.logic .or)) 0 0 "or" :: q "b" ++ [tk (.bracket .rparen) 0 0 ")"]) = none := rfl
example : parseUnary lib (q "a" ++ q "b") = none := rfl
example : parseUnary lib (q "a" ++ [tk (.op .comma) 0 0 ","]) = none := rfl
example : (ev (.num 5)).runUnary (frontEnd lib String.toList) B "not off" = .ok true ↔ Val.num 5 = .bool (!true) :=
  C17_negated_name (t := tk (.op (.logic .not)) 0 3 "not") (x := tk .literal 4 7 "off") rfl rfl rfl rfl
    ⟨trivial, yields_iff.2 ⟨compiles_iff.2 trivial, rfl⟩⟩
end

end Zen.Parse
