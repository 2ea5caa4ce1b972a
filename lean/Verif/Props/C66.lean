import Verif.Parse.ParsePlain
import Verif.Props.C17
import Verif.Props.C18
import Verif.Props.C19
/-
C66: the parser accepts exactly the written expressions.
-/
namespace Zen.Parse
open Zen.Lex

theorem parse_some {L : PLib} {ts : List Token} {n : Node} (h : parse L ts = some n) :
    binExpr ⟨L, false, hasRange ts⟩ (ts.length + 1) .global 0 0 ts = (n, []) ∧ hasError n = false := by
  unfold parse at h
  rcases e : binExpr ⟨L, false, hasRange ts⟩ (ts.length + 1) .global 0 0 ts with ⟨x, r⟩
  rw [e] at h
  cases r with
  | cons t r => simp [result] at h
  | nil =>
    simp only [result] at h
    split at h
    · cases h
    · rename_i hx
      cases h
      exact ⟨rfl, by simpa using hx⟩

/-- Tokens are parsed to a tree without assignments, unusual intervals and, beside a range, empty arrays and objects,
exactly when they are a written form of it: all tokens are used, each in the place the grammar gives it. -/
theorem C66_exact {L : PLib} {ts : List Token} {n : Node} :
    (parse L ts = some n ∧ usual (hasRange ts) n = true) ↔ Written ⟨L, false, hasRange ts⟩ .global 0 0 n ts := by
  constructor
  · rintro ⟨h, hu⟩
    obtain ⟨u, e, hw, _⟩ := binExpr_spells (C := ⟨L, false, hasRange ts⟩) _ .global 0 0 ts n [] (parse_some h).1 hu
    rw [List.append_nil] at e
    generalize hasRange ts = R at hw
    subst e
    exact hw
  · intro h
    exact ⟨C18_written h, h.usual⟩

/-- Without assignment sign and range among the tokens the parser accepts exactly the language of the grammar. -/
theorem C66_language {L : PLib} {ts : List Token} {n : Node} (he : NoEq ts) (hr : hasRange ts = false) :
    parse L ts = some n ↔ Written ⟨L, false, false⟩ .global 0 0 n ts := by
  have key := C66_exact (L := L) (ts := ts) (n := n)
  rw [hr] at key
  rw [← key]
  refine ⟨fun h => ⟨h, ?_⟩, And.left⟩
  obtain ⟨h1, h2⟩ := parse_some h
  obtain ⟨u, e, hu⟩ := binExpr_quiet (C := ⟨L, false, hasRange ts⟩) hr _ .global 0 0 ts n [] h1 h2
  rw [List.append_nil] at e
  subst e
  exact hu he

/-- Everything else is rejected. -/
theorem C66_rejects {L : PLib} {ts : List Token} (he : NoEq ts) (hr : hasRange ts = false)
    (h : ∀ n, ¬ Written ⟨L, false, false⟩ .global 0 0 n ts) : parse L ts = none := by
  cases e : parse L ts with
  | none => rfl
  | some n => exact absurd ((C66_language he hr).1 e) (h n)

/-! ### sources -/

/-- From the text of a source on: a source is accepted exactly when it can be cut into tokens that are a written form
of the tree. -/
theorem C66_source {L : PLib} {enc : String → List Char} {src : String} {n : Node}
    (h : ∀ ts, Spec.Lexed (enc src) .top 0 (enc src) ts → NoEq ts ∧ hasRange ts = false) :
    frontEnd L enc .standard src = .ok n ↔
      ∃ ts, Spec.Lexed (enc src) .top 0 (enc src) ts ∧ Written ⟨L, false, false⟩ .global 0 0 n ts := by
  unfold frontEnd
  cases e : tokenize (enc src) with
  | error x =>
    simp only [reduceCtorEq, false_iff, not_exists, not_and]
    intro ts hl
    rw [(C19_grammar _ _).2 hl] at e
    cases e
  | ok ts =>
    have hl := (C19_grammar _ _).1 e
    obtain ⟨he, hr⟩ := h ts hl
    have key := C66_language (L := L) (n := n) he hr
    constructor
    · intro hp
      cases e' : parse L ts with
      | none => simp [e'] at hp
      | some m =>
        simp [e'] at hp
        subst hp
        exact ⟨ts, hl, key.1 e'⟩
    · rintro ⟨ts', hl', hw⟩
      have := (C19_grammar _ _).2 hl'
      rw [e] at this
      cases this
      simp [key.2 hw]

/-! ### cells -/

theorem wrapped_usual {R : Bool} {x : Node} (h : usual R (wrapped x) = true) : usual R x = true := by
  unfold wrapped at h
  split at h <;> simpa [usual, usualL, refNode] using h

theorem joined_usual {R : Bool} : ∀ rest l, usual R (joined l rest) = true → usual R l = true ∧ ∀ p ∈ rest, usual R p.2.tree = true
  | [], _, h => ⟨h, by simp⟩
  | (j, t) :: rest, l, h => by
    obtain ⟨h1, h2⟩ := joined_usual rest _ h
    simp [usual] at h1
    refine ⟨h1.1, fun p hp => ?_⟩
    rcases List.mem_cons.1 hp with rfl | hp
    · exact h1.2
    · exact h2 p hp

theorem EndsAt.noCmp {C : PCfg} {r : List Token} (h : EndsAt C 0 r) : cmpAt r = none := by
  cases r with
  | nil => rfl
  | cons t r =>
    simp only [cmpAt]
    split
    · rename_i c hc
      rcases h (.cmp c) 3 (by simp [kind?, hc]) rfl with h | ⟨_, _, h | h⟩
      · omega
      · cases h
      · cases h
    · rfl

theorem exprPair_spells {C : PCfg} {rec : Rec} (hs : Spells C rec) {ts m r} (h : exprPair rec ts = (m, r)) (hm : usual C.range m = true) :
    ∃ t used, ts = used ++ r ∧ TestW C t used ∧ m = t.tree := by
  unfold exprPair at h
  split at h
  · rename_i c hc
    cases ts with
    | nil => cases hc
    | cons t ts =>
      simp only [cmpAt] at hc
      split at hc
      · rename_i hk
        cases hc
        rcases e : rec .global 0 0 (t :: ts).tail with ⟨y, r1⟩
        rw [e] at h
        cases h
        simp [usual, refNode] at hm
        obtain ⟨u, e', hw⟩ := hs.top e hm
        simp at e'
        exact ⟨.lead c y, t :: u, by rw [e']; rfl, .lead hk hw, rfl⟩
      · cases hc
  · rcases e : rec .global 0 0 ts with ⟨x, r1⟩
    rw [e] at h
    dsimp only at h
    split at h
    · rename_i c hc
      rcases e1 : rec .global 0 0 r1.tail with ⟨y, r2⟩
      rw [e1] at h
      cases h
      simp [usual] at hm
      obtain ⟨u, _, _, _, he⟩ := hs .global 0 0 ts x r1 e hm.1
      rw [Nat.zero_min] at he
      rw [he.noCmp] at hc
      cases hc
    · cases h
      obtain ⟨u, e', hw⟩ := hs.top e (wrapped_usual hm)
      exact ⟨.plain x, u, e', .plain hw, rfl⟩

theorem joinAt_some {k : Lex.Kind} {j : LOp} (h : joinAt k = some j) : ∃ j', JoinW j' k ∧ j'.op = j := by
  unfold joinAt at h
  split at h
  · cases h; exact ⟨.and, .and, rfl⟩
  · cases h; exact ⟨.or, .or, rfl⟩
  · cases h; exact ⟨.or, .comma, rfl⟩
  · cases h

theorem rootLoop_usual {R : Bool} {rec : Rec} : ∀ n l ts, usual R (rootLoop rec n l ts).1 = true → usual R l = true
  | 0, _, _, h => by cases h
  | n + 1, l, ts, h => by
    unfold rootLoop at h
    split at h
    · exact h
    · split at h
      · cases h
      · have := rootLoop_usual n _ _ h
        simp [usual] at this
        exact this.1

theorem rootLoop_spells {C : PCfg} {rec : Rec} (hs : Spells C rec) : ∀ n l ts m r, rootLoop rec n l ts = (m, r) → usual C.range m = true →
    r = [] ∧ ∃ rest, RestW C rest ts ∧ m = joined l rest
  | 0, _, _, _, _, h, hm => by cases h; cases hm
  | n + 1, l, ts, m, r, h, hm => by
    unfold rootLoop at h
    split at h
    · cases h; exact ⟨rfl, [], .nil, rfl⟩
    · rename_i t r0
      split at h
      · cases h; cases hm
      · rename_i j hj
        obtain ⟨j', hj', rfl⟩ := joinAt_some hj
        rcases e : exprPair rec r0 with ⟨x, r1⟩
        rw [e] at h
        dsimp only at h
        have hx := rootLoop_usual (R := C.range) (rec := rec) n (.binary (.logic j'.op) l x) r1 (by rw [h]; exact hm)
        simp [usual] at hx
        obtain ⟨t', u, rfl, ht, rfl⟩ := exprPair_spells hs e hx.2
        obtain ⟨h1, rest, h2, rfl⟩ := rootLoop_spells hs n _ _ _ _ h hm
        exact ⟨h1, (j', t') :: rest, .cons hj' ht h2, rfl⟩

theorem parseUnary_some {L : PLib} {ts : List Token} {n : Node} (h : parseUnary L ts = some n) :
    rootExpr (binExpr ⟨L, true, hasRange ts⟩ (ts.length + 1)) ts = (n, []) ∧ hasError n = false := by
  unfold parseUnary at h
  rcases e : rootExpr (binExpr ⟨L, true, hasRange ts⟩ (ts.length + 1)) ts with ⟨x, r⟩
  rw [e] at h
  cases r with
  | cons t r => simp [result] at h
  | nil =>
    simp only [result] at h
    split at h
    · cases h
    · rename_i hx
      cases h
      exact ⟨rfl, by simpa using hx⟩

/-- the tokens of a cell are a first test and further ones, joined -/
def CellW (C : PCfg) (n : Node) (ts : List Token) : Prop :=
  ∃ t rest tt tr, ts = tt ++ tr ∧ TestW C t tt ∧ RestW C rest tr ∧ n = joined t.tree rest

theorem TestW.usual {C : PCfg} {t : Test} {ts : List Token} (h : TestW C t ts) : usual C.range t.tree = true := by
  cases h with
  | lead _ h => simp [Test.tree, Parse.usual, refNode, h.usual]
  | plain h =>
    have := h.usual
    simp only [Test.tree, wrapped]
    split <;> simp [Parse.usual, usualL, refNode, this]

theorem RestW.usual {C : PCfg} {rest : List (Join × Test)} {rs : List Token} (h : RestW C rest rs) :
    ∀ l, usual C.range l = true → usual C.range (joined l rest) = true := by
  induction h with
  | nil => exact fun l h => h
  | cons _ ht _ ih =>
    intro l hl
    exact ih _ (by simp [Parse.usual, hl, ht.usual])

/-- Cells: accepted are exactly the tests joined by `and`, `or` and commas. -/
theorem C66_cell_exact {L : PLib} {ts : List Token} {n : Node} :
    (parseUnary L ts = some n ∧ usual (hasRange ts) n = true) ↔ CellW ⟨L, true, hasRange ts⟩ n ts := by
  constructor
  · rintro ⟨h, hu⟩
    have e := (parseUnary_some h).1
    have hs := binExpr_spells (C := ⟨L, true, hasRange ts⟩) (ts.length + 1)
    unfold rootExpr at e
    rcases e1 : exprPair (binExpr ⟨L, true, hasRange ts⟩ (ts.length + 1)) ts with ⟨x, r⟩
    rw [e1] at e
    dsimp only at e
    obtain ⟨_, rest, hr, rfl⟩ := rootLoop_spells hs _ _ _ _ _ e hu
    obtain ⟨t, u, e2, ht, rfl⟩ := exprPair_spells hs e1 (joined_usual rest _ hu).1
    exact ⟨t, rest, u, r, e2, ht, hr, rfl⟩
  · rintro ⟨t, rest, tt, tr, e, ht, hr, rfl⟩
    refine ⟨?_, hr.usual _ ht.usual⟩
    rw [e] at ht hr ⊢
    exact C17_parsed ht hr

theorem exprPair_quiet {rec : Rec} (hs : Quiet rec) {ts m r} (h : exprPair rec ts = (m, r)) (hm : hasError m = false) :
    ∃ used, ts = used ++ r ∧ (NoEq used → usual false m = true) := by
  have tail : ∀ {ts : List Token} {c}, cmpAt ts = some c → ∃ t r, ts = t :: r := by
    intro ts c h
    cases ts with
    | nil => cases h
    | cons t r => exact ⟨t, r, rfl⟩
  unfold exprPair at h
  split at h
  · rename_i c hc
    obtain ⟨t, ts, rfl⟩ := tail hc
    rcases e : rec .global 0 0 (t :: ts).tail with ⟨y, r1⟩
    rw [e] at h
    cases h
    simp [hasError, refNode] at hm
    obtain ⟨u, e', hw⟩ := hs _ _ _ _ _ _ e hm
    simp at e'
    exact ⟨t :: u, by rw [e']; rfl, fun hq => by simp [usual, refNode, hw (NoEq_cons.1 hq).2]⟩
  · rcases e : rec .global 0 0 ts with ⟨x, r1⟩
    rw [e] at h
    dsimp only at h
    split at h
    · rename_i c hc
      obtain ⟨t, r1, rfl⟩ := tail hc
      rcases e1 : rec .global 0 0 (t :: r1).tail with ⟨y, r2⟩
      rw [e1] at h
      cases h
      simp [hasError] at hm
      obtain ⟨u, rfl, hw⟩ := hs _ _ _ _ _ _ e hm.1
      obtain ⟨u', e', hw'⟩ := hs _ _ _ _ _ _ e1 hm.2
      simp at e'
      refine ⟨u ++ t :: u', by rw [e']; simp, fun hq => ?_⟩
      simp [NoEq_append, NoEq_cons] at hq
      simp [usual, hw hq.1, hw' hq.2.2]
    · cases h
      have hx : hasError x = false := by
        unfold wrapped at hm
        split at hm <;> simpa [hasError, hasErrorL, refNode] using hm
      obtain ⟨u, e', hw⟩ := hs _ _ _ _ _ _ e hx
      refine ⟨u, e', fun hq => ?_⟩
      unfold wrapped
      split <;> simp [usual, usualL, refNode, hw hq]

theorem rootLoop_quiet {rec : Rec} (hs : Quiet rec) : ∀ n l ts m r, rootLoop rec n l ts = (m, r) → hasError m = false →
    hasError l = false ∧ (NoEq ts → usual false l = true → usual false m = true)
  | 0, _, _, _, _, h, hm => by cases h; cases hm
  | n + 1, l, ts, m, r, h, hm => by
    unfold rootLoop at h
    split at h
    · cases h; exact ⟨hm, fun _ h => h⟩
    · rename_i t r0
      split at h
      · cases h; cases hm
      · rename_i j hj
        rcases e : exprPair rec r0 with ⟨x, r1⟩
        rw [e] at h
        dsimp only at h
        obtain ⟨h1, h2⟩ := rootLoop_quiet hs n _ _ _ _ h hm
        simp [hasError] at h1
        obtain ⟨u, rfl, h3⟩ := exprPair_quiet hs e h1.2
        refine ⟨h1.1, fun hq hl => ?_⟩
        simp [NoEq_append, NoEq_cons] at hq
        exact h2 hq.2.2 (by simp [usual, hl, h3 hq.2.1])

theorem C66_cell_language {L : PLib} {ts : List Token} {n : Node} (he : NoEq ts) (hr : hasRange ts = false) :
    parseUnary L ts = some n ↔ CellW ⟨L, true, false⟩ n ts := by
  have key := C66_cell_exact (L := L) (ts := ts) (n := n)
  rw [hr] at key
  rw [← key]
  refine ⟨fun h => ⟨h, ?_⟩, And.left⟩
  obtain ⟨h1, h2⟩ := parseUnary_some h
  have hs := binExpr_quiet (C := ⟨L, true, hasRange ts⟩) hr (ts.length + 1)
  unfold rootExpr at h1
  rcases e1 : exprPair (binExpr ⟨L, true, hasRange ts⟩ (ts.length + 1)) ts with ⟨x, r⟩
  rw [e1] at h1
  obtain ⟨h3, h4⟩ := rootLoop_quiet hs _ _ _ _ _ h1 h2
  obtain ⟨u, rfl, h5⟩ := exprPair_quiet hs e1 h3
  rw [NoEq_append] at he
  exact h4 he.2 (h5 he.1)

/-! ### what lies outside -/

/-- An interval that leaves out what lies between its bounds, `]a..b[`, is read when the upper bound is a number, -/
theorem C66_outside_numbers {L : PLib} {va vb : List Char} {p q : Rat} (hp : L.number va = some p) (hq : L.number vb = some q) (s e : Nat) :
    parse L [⟨.bracket .rsq, s, e, []⟩, ⟨.number, s, e, va⟩, ⟨.op .range, s, e, []⟩, ⟨.number, s, e, vb⟩, ⟨.bracket .lsq, s, e, []⟩] =
      some (.interval (.num p) (.num q) .rsq .lsq) := by
  simp [parse, hasRange, binExpr, binBody, unaryExpr, interval, literal, number, hp, hq, binLoop, conditional, expect, kind?,
    hasError, withPostfix, postfixes, binOp, stopsAt, result]

/-- but not when it is a name: the bracket after it is taken as an access. -/
theorem C66_outside_names {L : PLib} {va vb : List Char} (s e : Nat) :
    parse L [⟨.bracket .rsq, s, e, []⟩, ⟨.literal, s, e, va⟩, ⟨.op .range, s, e, []⟩, ⟨.literal, s, e, vb⟩, ⟨.bracket .lsq, s, e, []⟩] =
      none := rfl

/-! ### Cases -/

section
private def lib : PLib := ⟨String.ofList, fun _ => some 1⟩
private def nm (s : String) : Token := ⟨.literal, 0, 0, s.toList⟩
private def k (x : Lex.Kind) : Token := ⟨x, 0, 0, []⟩

-- xs[0].n + `a${b}` ?? {c: 1, "d": []}
private def ts1 : List Token :=
  [nm "xs", k (.bracket .lsq), k .number, k (.bracket .rsq), k (.op .dot), nm "n", k (.op (.arith .add)), k (.quote .backtick), nm "a",
   k (.tmpl .exprStart), nm "b", k (.tmpl .exprEnd), k (.quote .backtick), k (.op (.logic .coalesce)), k (.bracket .lcurly), nm "c",
   k (.op .slice), k .number, k (.op .comma), k (.quote .double), nm "d", k (.quote .double), k (.op .slice), k (.bracket .lsq),
   k (.bracket .rsq), k (.bracket .rcurly)]
example : NoEq ts1 ∧ hasRange ts1 = false := by
  refine ⟨?_, rfl⟩
  intro t h
  simp only [ts1, List.mem_cons, List.not_mem_nil, or_false] at h
  rcases h with rfl | rfl | rfl | rfl | rfl | rfl | rfl | rfl | rfl | rfl | rfl | rfl | rfl | rfl | rfl | rfl | rfl | rfl | rfl | rfl |
    rfl | rfl | rfl | rfl | rfl | rfl <;> simp [k, nm]
example : ∃ n, parse lib ts1 = some n := ⟨_, rfl⟩
-- a dangling operator is not written
example : parse lib [nm "a", k (.op (.arith .add))] = none := rfl
-- a cell: `> a, b`
example : ∃ n, parseUnary lib [k (.op (.cmp .gt)), nm "a", k (.op .comma), nm "b"] = some n := ⟨_, rfl⟩
-- with a range: the tree decides
example : usual true (.binary (.cmp .in_) (.ident "x") (.interval (.num 1) (.num 2) .lsq .rparen)) = true := rfl
-- outside of the grammar, yet accepted: assignments
example : ∃ n, parse lib [nm "a", k (.op .assign), nm "b"] = some n ∧ usual false n = false := ⟨_, rfl, rfl⟩
end

end Zen.Parse
