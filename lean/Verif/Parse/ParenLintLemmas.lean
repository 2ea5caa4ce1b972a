import Verif.Parse.ParenLint
/-
What dropping parentheses does to written expressions.
-/
namespace Zen
namespace Parse
open Zen.Lex

/-- `ts'` is `ts` without one pair of parentheses, which stand around the tokens of `x` -/
def Dropped (C : PCfg) (x : Node) (ts ts' : List Token) : Prop :=
  ∃ d u a tx b v, ts = u ++ a :: (tx ++ b :: v) ∧ ts' = u ++ (tx ++ v) ∧ a.kind = .bracket .lparen ∧ b.kind = .bracket .rparen ∧
    Written C .global d 0 x tx

theorem Dropped.ctx {C : PCfg} {x : Node} {ts ts' : List Token} (h : Dropped C x ts ts') (p q : List Token) :
    Dropped C x (p ++ (ts ++ q)) (p ++ (ts' ++ q)) := by
  obtain ⟨d, u, a, tx, b, v, rfl, rfl, h1, h2, h3⟩ := h
  exact ⟨d, p ++ u, a, tx, b, v ++ q, by simp, by simp, h1, h2, h3⟩

/-- the highest level of a place at the site -/
def limit : Site → Nat
  | .delimited => 0
  | .operand o .left => 2 * (strength o).getD 0
  | .operand o .right => place o ((strength o).getD 0)
  | .base | .guarded => 100

/-- what is demanded of the end of an expression at the site -/
def need : Site → Nat
  | .delimited => 0
  | .operand o .left => 2 * (strength o).getD 0 + 1
  | .operand o .right => place o ((strength o).getD 0)
  | .base | .guarded => 100

theorem Primary.edge {C : PCfg} {E : Expr} {d f n ts} (h : Primary C E d f n ts) : edge n = 100 := by
  cases h <;> rfl

/-- a lower level takes more -/
theorem Written.lower {C : PCfg} {c d L n ts} (h : Written C c d L n ts) : ∀ L', L' ≤ L → Written C c d L' n ts := by
  have key := Written.ind (C := C) (P := fun c d L n ts => Written C c d L n ts ∧ ∀ L', L' ≤ L → Written C c d L' n ts)
    ?_ ?_ ?_ ?_ h
  · exact key.2
  · intro c d L f n ts h
    have h' : Primary C (Written C) d f n ts := h.mono (Nat.le_refl _) fun _ _ _ _ _ _ h => h.1
    exact ⟨.primary h', fun _ _ => .primary h'⟩
  · intro c d L o t s x ts h1 h2 h3 _
    exact ⟨.unary h1 h2 h3, fun _ _ => .unary h1 h2 h3⟩
  · intro c d L o t k l tl r tr h1 h2 h3 h4 h5 ih h6 h7 _
    exact ⟨.binary h1 h2 h3 h4 h5 h6 h7, fun L' hL => .binary h1 h2 h3 (by omega) (ih.2 _ hL) h6 h7⟩
  · intro c d q s x tx y ty z tz h1 h2 h3 _ h4 h5 _ h6 _
    exact ⟨.cond h1 h2 h3 h4 h5 h6, fun L' hL => by obtain rfl : L' = 0 := by omega
                                                    exact .cond h1 h2 h3 h4 h5 h6⟩

/-- outside table cells the context plays no part -/
theorem Written.ctx {C : PCfg} (hC : C.unary = false) {c d L n ts} (h : Written C c d L n ts) : ∀ c', Written C c' d L n ts := by
  have hj : ∀ c o, ¬ joins C c o := fun c o h => by cases hC.symm.trans h.1
  have key := Written.ind (C := C) (P := fun c d L n ts => ∀ c', Written C c' d L n ts) ?_ ?_ ?_ ?_ h
  · exact key
  · intro c d L f n ts h c'
    exact .primary (h.mono (Nat.le_refl _) fun _ _ _ _ _ _ h => h.1)
  · intro c d L o t s x ts h1 h2 h3 _ c'
    exact .unary h1 h2 h3
  · intro c d L o t k l tl r tr h1 h2 h3 h4 h5 ih h6 h7 _ c'
    exact .binary h1 h2 (hj _ _) h4 (ih _) h6 h7
  · intro c d q s x tx y ty z tz h1 h2 h3 ih h4 h5 _ h6 _ c'
    exact .cond h1 h2 (ih _) h4 h5 h6

/-- an expression without a place of level `2 * k` or lower at its end has no operators of strength less than `k` at its top -/
theorem Written.raise {C : PCfg} (hC : C.unary = false) {c d L n ts} (h : Written C c d L n ts) :
    ∀ k, 2 * k < edge n → Written C c d (2 * k) n ts := by
  have hj : ∀ c o, ¬ joins C c o := fun c o h => by cases hC.symm.trans h.1
  have key := Written.ind (C := C) (P := fun c d L n ts => ∀ k, 2 * k < Parse.edge n → Written C c d (2 * k) n ts) ?_ ?_ ?_ ?_ h
  · exact key
  · intro c d L f n ts h k _
    exact .primary (h.mono (Nat.le_refl _) fun _ _ _ _ _ _ h => h.1)
  · intro c d L o t s x ts h1 h2 h3 _ k _
    exact .unary h1 h2 h3
  · intro c d L o t j l tl r tr h1 h2 h3 h4 h5 ih h6 h7 _ k hk
    simp only [Parse.edge, h2, Option.getD_some] at hk
    have hp : place o j ≤ 2 * j + 1 := by unfold place; split <;> omega
    have h6' : 2 * j < Parse.edge l := h6.resolve_right fun h => hj _ _ h.2
    exact .binary h1 h2 h3 (by omega) (Written.lower (ih j h6') _ (by omega)) h6 h7
  · intro c d q s x tx y ty z tz h1 h2 h3 ih h4 h5 _ h6 _ k hk
    simp [Parse.edge] at hk

/-- an expression that is no operation at its top is written without operators at its top -/
theorem Written.atom {C : PCfg} {c d L n ts} (h : Written C c d L n ts) (ha : isAtom n = true) :
    ∃ f, Primary C (Written C) d f n ts := by
  cases h with
  | primary h => exact ⟨_, h⟩
  | unary => cases ha
  | binary => cases ha
  | cond => cases ha

/-- the operators for which parentheses are dropped at the left -/
theorem family_left {p o : Oper} {i q j k : Nat} {a b : Bool} (hf : sameFamily p o = true) (hp : binOp p = some (i, a))
    (ho : binOp o = some (q, b)) (hj : strength p = some j) (hk : strength o = some k)
    (h : i > q ∨ (i = q ∧ b = false)) : k ≤ j ∧ 2 * k + 1 ≤ place p j := by
  cases p with
  | arith x =>
    cases o with
    | arith y =>
      cases x <;> cases y <;>
        first | (simp only [binOp, strength, Option.some.injEq, Prod.mk.injEq, reduceCtorEq] at hp ho hj hk; obtain ⟨rfl, rfl⟩ := hp; obtain ⟨rfl, rfl⟩ := ho; subst hj; subst hk; revert h; simp [place])
    | _ => simp [sameFamily] at hf
  | logic x =>
    have : Oper.logic x = o := by cases o <;> simp_all [sameFamily]
    subst this
    cases x <;>
      first | (exfalso; simp [strength] at hj; done) | (simp only [binOp, strength, Option.some.injEq, Prod.mk.injEq, reduceCtorEq] at hp ho hj hk; obtain ⟨rfl, rfl⟩ := hp; cases ho.1; cases ho.2; subst hj; cases hk; revert h; simp [place])
  | cmp x =>
    have : Oper.cmp x = o := by cases o <;> simp_all [sameFamily]
    subst this
    simp only [binOp, strength, Option.some.injEq, Prod.mk.injEq] at hp ho hj hk
    obtain ⟨rfl, rfl⟩ := hp
    cases ho.1; cases ho.2; subst hj; cases hk; revert h; simp [place]
  | _ => simp [strength] at hj

/-- the operators for which parentheses are dropped at the right -/
theorem family_right {p o : Oper} {i q j k : Nat} {a b : Bool} (hf : sameFamily p o = true) (hp : binOp p = some (i, a))
    (ho : binOp o = some (q, b)) (hj : strength p = some j) (hk : strength o = some k)
    (h : i > q ∨ (i = q ∧ b = true)) : place o k ≤ 2 * j := by
  cases p with
  | arith x =>
    cases o with
    | arith y =>
      cases x <;> cases y <;>
        first | (simp only [binOp, strength, Option.some.injEq, Prod.mk.injEq, reduceCtorEq] at hp ho hj hk; obtain ⟨rfl, rfl⟩ := hp; obtain ⟨rfl, rfl⟩ := ho; subst hj; subst hk; revert h; simp [place])
    | _ => simp [sameFamily] at hf
  | logic x =>
    have : Oper.logic x = o := by cases o <;> simp_all [sameFamily]
    subst this
    cases x <;>
      first | (exfalso; simp [strength] at hj; done) | (simp only [binOp, strength, Option.some.injEq, Prod.mk.injEq, reduceCtorEq] at hp ho hj hk; obtain ⟨rfl, rfl⟩ := hp; cases ho.1; cases ho.2; subst hj; cases hk; revert h; simp [place])
  | cmp x =>
    have : Oper.cmp x = o := by cases o <;> simp_all [sameFamily]
    subst this
    simp only [binOp, strength, Option.some.injEq, Prod.mk.injEq] at hp ho hj hk
    obtain ⟨rfl, rfl⟩ := hp
    cases ho.1; cases ho.2; subst hj; cases hk; revert h; simp [place]
  | _ => simp [strength] at hj

theorem binOp_of_strength {o : Oper} {k : Nat} (h : strength o = some k) : ∃ q b, binOp o = some (q, b) := by
  cases o with
  | arith a => cases a <;> exact ⟨_, _, rfl⟩
  | logic a => cases a <;> first | exact ⟨_, _, rfl⟩ | (simp [strength] at h)
  | cmp a => exact ⟨_, _, rfl⟩
  | _ => simp [strength] at h

theorem strength_of_binOp {o : Oper} {q : Nat × Bool} (h : binOp o = some q) : ∃ k, strength o = some k := by
  cases o with
  | arith a => cases a <;> exact ⟨_, rfl⟩
  | logic a => cases a <;> first | exact ⟨_, rfl⟩ | (simp [binOp] at h)
  | cmp a => exact ⟨_, rfl⟩
  | _ => simp [binOp] at h

theorem operandSite_of {o : Oper} {k : Nat} (h : strength o = some k) (s : Side) : operandSite o s = .operand o s := by
  obtain ⟨q, b, e⟩ := binOp_of_strength h
  simp [operandSite, e]

/-- a `not` reaches to the end of the expression -/
def opensNot : Node → Bool
  | .unary o x => decide (o = .logic .not) || opensNot x
  | .binary _ _ r => opensNot r
  | _ => false

theorem strength_le {o : Oper} {k : Nat} (h : strength o = some k) : k ≤ 8 := by
  cases o with
  | arith a => cases a <;> simp [strength] at h <;> omega
  | logic a => cases a <;> simp [strength] at h <;> omega
  | cmp a => simp [strength] at h; omega
  | _ => simp [strength] at h

/-- the open places at the end of an expression are not lower than the place of the expression, unless a `not` reaches to the end -/
theorem Written.high {C : PCfg} {c d L n ts} (h : Written C c d L n ts) :
    ∀ M, M ≤ L → M ≤ 18 → (M ≤ 10 ∨ opensNot n = false) → M ≤ edge n := by
  refine Written.ind (C := C) (P := fun c d L n ts => ∀ M, M ≤ L → M ≤ 18 → (M ≤ 10 ∨ opensNot n = false) → M ≤ Parse.edge n)
    ?_ ?_ ?_ ?_ h
  · intro c d L f n ts h M _ h18 _
    rw [h.edge]
    omega
  · intro c d L o t s x ts h1 h2 h3 ih M hM h18 hn
    simp only [Parse.edge, h2, Option.getD_some]
    simp only [opensNot, Bool.or_eq_false_iff, decide_eq_false_iff_not] at hn
    have hs : M ≤ 2 * s := by
      cases o with
      | arith a => cases a <;> simp [prefixStrength] at h2 <;> omega
      | logic a => cases a <;> simp [prefixStrength] at h2 hn; omega
      | _ => simp [prefixStrength] at h2
    have := ih M hs h18 (hn.imp id fun h => h.2)
    omega
  · intro c d L o t k l tl r tr h1 h2 h3 h4 h5 _ h6 h7 ih M hM h18 hn
    simp only [Parse.edge, h2, Option.getD_some]
    simp only [opensNot] at hn
    have hp : 2 * k ≤ place o k := by unfold place; split <;> omega
    have := ih M (by omega) h18 hn
    omega
  · intro c d q s x tx y ty z tz _ _ _ _ _ _ _ _ _ M hM _ _
    omega

/-- content of parentheses that are found not to be needed can stand in the place of the parentheses -/
theorem redundant_written {C : PCfg} (hC : C.unary = false) {c d x tx} {s : Site} (h : Written C c d 0 x tx)
    (hr : redundant x s = true) (hn : ∀ o side k, s = .operand o side → strength o = some k → k ≤ 4 ∨ opensNot x = false) :
    (∀ c' L, L ≤ limit s → Written C c' d L x tx) ∧ need s ≤ edge x := by
  have atom : isAtom x = true → (∀ c' L, Written C c' d L x tx) ∧ edge x = 100 := fun ha => by
    obtain ⟨f, hf⟩ := h.atom ha
    exact ⟨fun _ _ => .primary hf, hf.edge⟩
  cases s with
  | delimited =>
    refine ⟨fun c' L hL => ?_, Nat.zero_le _⟩
    obtain rfl : L = 0 := by simpa [limit] using hL
    exact h.ctx hC c'
  | guarded =>
    have := atom hr
    exact ⟨fun c' L _ => this.1 c' L, by simp [need, this.2]⟩
  | base =>
    have := atom (by simp only [redundant] at hr; cases x <;> simp_all [isBase, isAtom])
    exact ⟨fun c' L _ => this.1 c' L, by simp [need, this.2]⟩
  | operand o side =>
    have hneed : ∀ k, strength o = some k → need (.operand o side) ≤ 2 * k + 1 := by
      intro k hk
      have : place o k ≤ 2 * k + 1 := by unfold place; split <;> omega
      cases side <;> simp only [need, hk, Option.getD_some] <;> omega
    have atom' : isAtom x = true → (∀ c' L, L ≤ limit (.operand o side) → Written C c' d L x tx) ∧ need (.operand o side) ≤ edge x := by
      intro ha
      have := atom ha
      refine ⟨fun c' L _ => this.1 c' L, ?_⟩
      rw [this.2]
      cases hk : strength o with
      | none => cases side <;> simp [need, hk, place] <;> split <;> omega
      | some k => have := hneed k hk; have := strength_le hk; omega
    cases ho : binOp o with
    | none => exact atom' (by cases x <;> simp_all [redundant, isAtom])
    | some q =>
      obtain ⟨q, b⟩ := q
      obtain ⟨k, hk⟩ := strength_of_binOp ho
      have hneed := hneed k hk
      have hk8 := strength_le hk
      have hn := hn _ _ _ rfl hk
      cases x with
      | unary p y => cases h with
        | primary h => cases h
        | @unary _ _ _ _ t j _ ts h1 h2 h3 =>
          refine ⟨fun _ _ _ => .unary h1 h2 h3, ?_⟩
          have hj : j = 9 := by
            simp only [redundant, Bool.and_eq_true] at hr
            cases p with
            | arith a => cases a <;> simp [prefixStrength] at h2 <;> omega
            | logic a =>
              obtain rfl : Oper.logic a = o := by
                have := hr.1
                cases o <;> simp_all [sameFamily]
              cases a <;> simp [prefixStrength, strength] at h2 hk
            | _ => simp [prefixStrength] at h2
          subst hj
          have := h3.high (need (.operand o side)) (by omega) (by omega) (by
            rcases hn with hn | hn
            · left; omega
            · right; simp only [opensNot, Bool.or_eq_false_iff] at hn; exact hn.2)
          simp only [edge, h2, Option.getD_some]
          omega
      | binary p l r =>
        cases h with
        | primary h => cases h
        | @binary _ _ _ _ t j _ tl _ tr h1 h2 h3 h4 h5 h6 h7 =>
        obtain ⟨i, a, hp⟩ := binOp_of_strength h2
        simp only [redundant, hp, ho, Bool.and_eq_true, Bool.or_eq_true, decide_eq_true_eq, beq_iff_eq] at hr
        have hj' : ∀ c o, ¬ joins C c o := fun c o h => by cases hC.symm.trans h.1
        have hop : 2 * j < edge l := h6.resolve_right fun h => hj' _ _ h.2
        have hpl : 2 * j ≤ place p j := by unfold place; split <;> omega
        have key : limit (.operand o side) ≤ 2 * j ∧ need (.operand o side) ≤ place p j := by
          cases side with
          | left =>
            simp only [limit, need, hk, Option.getD_some]
            have := family_left hr.1 hp ho h2 hk (hr.2.imp id fun h => ⟨h.1, by cases b <;> simp_all⟩)
            omega
          | right =>
            simp only [limit, need, hk, Option.getD_some]
            have := family_right hr.1 hp ho h2 hk (hr.2.imp id fun h => ⟨h.1, by cases b <;> simp_all⟩)
            omega
        refine ⟨fun c' L hL => ?_, ?_⟩
        · have hL' : L ≤ 2 * j := by omega
          exact .binary h1 h2 (hj' _ _) hL' ((h5.raise hC j hop).lower _ hL' |>.ctx hC _) h6 h7
        · have := h7.high (need (.operand o side)) (by omega) (by omega) (by
            rcases hn with hn | hn
            · left; omega
            · right; simpa only [opensNot] using hn)
          simp only [edge, h2, Option.getD_some]
          omega
      | _ => exact atom' (by simpa [redundant] using hr)

end Parse
end Zen
