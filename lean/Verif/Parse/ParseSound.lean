import Verif.Parse.Print
import Verif.Parse.ParseMain
/-
In every tree the parser makes the operators group by strength.
-/
namespace Zen
namespace Parse
open Zen.Lex

section
variable {C : PCfg} {rec : Rec} {d : Nat}

theorem propertyAccess_leaf (node : Node) (r : List Token) : isOp (propertyAccess rec d node r).1 = false := by
  unfold propertyAccess
  repeat' split
  all_goals rfl

theorem postfixes_leaf : ∀ n node ts, (postfixes C rec d n node ts).1.1 = node ∨ isOp (postfixes C rec d n node ts).1.1 = false
  | 0, _, _ => .inr rfl
  | n + 1, node, ts => by
    have ih := postfixes_leaf n
    have ih' : ∀ x r, isOp x = false → isOp (postfixes C rec d n x r).1.1 = false := by
      intro x r hx
      rcases ih x r with h | h
      · rw [h]; exact hx
      · exact h
    unfold postfixes
    split
    · exact .inl rfl
    · rename_i t r
      split
      · right
        exact ih' _ _ (propertyAccess_leaf node r)
      · split
        · split
          · exact .inr (ih' _ _ rfl)
          · split
            · split
              · split
                · exact .inr (ih' _ _ (ih' _ _ rfl))
                · exact .inr (ih' _ _ rfl)
              · exact .inr (ih' _ _ rfl)
            · exact .inr (ih' _ _ rfl)
        · exact .inl rfl

theorem wp_leaf {node : Node} (h : isOp node = false) (ts : List Token) : isOp (withPostfix C rec d node ts).1.1 = false := by
  rcases postfixes_leaf (C := C) (rec := rec) (d := d) (ts.length + 1) node ts with e | e
  · unfold withPostfix; rw [e]; exact h
  · exact e

theorem assignedObject_leaf (key : Node) (ts : List Token) : isOp (assignedObject C rec d key ts).1 = false := by
  unfold assignedObject
  repeat' split
  all_goals rfl

theorem closureCall_leaf (k : Clo) (ts : List Token) : isOp (closureCall C rec d k ts).1 = false := by
  unfold closureCall
  dsimp only
  split <;> rfl

theorem identifier_leaf (t : Token) (r : List Token) : isOp (identifier C rec d t r).1 = false := by
  unfold identifier
  split
  · generalize hn : (if t.kind = .ident .root then Node.root else .ident (C.lib.dec t.value)) = node
    have h := wp_leaf (C := C) (rec := rec) (d := d) (node := node) (by rw [← hn]; split <;> rfl) r
    dsimp only
    split
    · split
      · exact assignedObject_leaf _ _
      · rfl
    · exact h
  · split
    · exact wp_leaf rfl _
    · split
      · rfl
      · rename_i k _
        exact wp_leaf (closureCall_leaf k r.tail) _

theorem interval_leaf {ts : List Token} {z : Node} (h : (interval C rec d ts).1 = some z) : isOp z = false := by
  unfold interval at h
  split at h
  · split at h
    · cases h
    · split at h
      · rename_i lb _
        dsimp only at h
        split at h
        · cases h
        · split at h
          · cases h
          · split at h
            · cases h
            · split at h
              · cases h
              · split at h
                · cases h; exact wp_leaf rfl _
                · cases h
      · cases h
  · cases h

theorem number_leaf (t : Token) (ts : List Token) : isOp (number C t ts).1 = false := by
  unfold number; split <;> rfl

theorem simpleString_leaf (q : Quote) (ts : List Token) : isOp (simpleString C q ts).1 = false := by
  unfold simpleString; repeat' split
  all_goals rfl

theorem templateString_leaf (ts : List Token) : isOp (templateString C rec d ts).1 = false := by
  unfold templateString; repeat' split
  all_goals rfl

theorem array_leaf (ts : List Token) : isOp (array C rec d ts).1 = false := by
  unfold array
  split
  · rfl
  · split
    · rfl
    · exact wp_leaf rfl _

theorem object_leaf (ts : List Token) : isOp (object C rec d ts).1 = false := by
  unfold object; repeat' split
  all_goals rfl

theorem literal_leaf (ts : List Token) : isOp (literal C rec d ts).1 = false := by
  unfold literal
  split
  · rfl
  · split
    · rfl
    · exact identifier_leaf _ _
    · exact identifier_leaf _ _
    · rfl
    · exact number_leaf _ _
    · exact templateString_leaf _
    · exact simpleString_leaf _ _
    · split
      · rename_i e; exact interval_leaf (by rw [e])
      · exact array_leaf _
    · exact object_leaf _
    · rfl
    · split
      · rename_i e; exact interval_leaf (by rw [e])
      · rfl
    · rfl
    · rfl

end

/-- the next token is not an operator that belongs to an open end of level `M` -/
def After (M : Nat) (r : List Token) : Prop := ∀ o k, kind? r = some (.op o) → strength o = some k → 2 * k < M

/-- the next token is not a question mark that belongs to an open end of level `M` -/
def AfterQ (M : Nat) (r : List Token) : Prop := kind? r = some (.op .question) → 0 < M

theorem strength_le {o : Oper} {k : Nat} (h : strength o = some k) : k ≤ 8 := by
  cases o with
  | arith a => cases a <;> simp [strength] at h <;> omega
  | logic a => cases a <;> simp [strength] at h <;> omega
  | cmp a => simp [strength] at h; omega
  | _ => simp [strength] at h

/-- what is shown of the trees an expression parser makes -/
def Sound (rec : Rec) : Prop := ∀ c d L ts m r, rec c d (lv L) ts = (m, r) → hasError m = false →
  Fit L m ∧ After (min L (edge m)) r ∧ AfterQ (min L (edge m)) r

theorem unOp_some {o : Oper} {q : Nat} (h : unOp o = some q) : ∃ s, prefixStrength o = some s ∧ q = lv (2 * s) := by
  cases hs : prefixStrength o with
  | some s => exact ⟨s, rfl, by rw [unOp_strength hs] at h; cases h; rfl⟩
  | none =>
    cases o with
    | arith a => cases a <;> simp_all [unOp, prefixStrength]
    | logic a => cases a <;> simp_all [unOp, prefixStrength]
    | _ => cases h

theorem binOp_some {o : Oper} {q : Nat} {right : Bool} (h : binOp o = some (q, right)) :
    ∃ k, strength o = some k ∧ q = lv (2 * k) ∧ (if right then q else q + 1) = lv (place o k) := by
  cases hs : strength o with
  | none => rw [binOp_none hs] at h; cases h
  | some k =>
    obtain ⟨right', e, e'⟩ := binOp_strength hs
    rw [e] at h
    cases h
    exact ⟨k, rfl, rfl, e'⟩

section
variable {C : PCfg} {rec : Rec} {d : Nat}

theorem unaryExpr_sound (hs : Sound rec) {ts m r} (h : unaryExpr C rec d ts = (m, r)) (hm : hasError m = false) :
    (∀ L, Fit L m) ∧ After (edge m) r ∧ AfterQ (edge m) r := by
  have leaf : isOp m = false → (∀ L, Fit L m) ∧ After (edge m) r ∧ AfterQ (edge m) r := by
    intro hl
    rw [edge_leaf hl]
    refine ⟨Fit_leaf hl, fun o k _ hk => ?_, fun _ => by omega⟩
    have := strength_le hk
    omega
  unfold unaryExpr at h
  split at h
  · cases h; exact leaf rfl
  · rename_i t r0
    split at h
    · cases h; exact leaf (wp_leaf rfl _)
    · split at h
      · rename_i o _
        split at h
        · cases h; exact leaf rfl
        · rename_i q hq
          obtain ⟨s, hs1, rfl⟩ := unOp_some hq
          rcases e : rec .global d (lv (2 * s)) r0 with ⟨x, r1⟩
          rw [e] at h
          cases h
          obtain ⟨h1, h2, h3⟩ := hs _ _ _ _ _ _ e (by simpa [hasError] using hm)
          refine ⟨fun L => ⟨s, hs1, h1⟩, ?_, ?_⟩
          · simpa [edge, hs1] using h2
          · simpa [edge, hs1] using h3
      · split at h
        · rename_i e; cases h; exact leaf (interval_leaf (by rw [e]))
        · rename_i ts1 _
          split at h
          · rcases e : rec .global d 0 ts1.tail with ⟨x, r1⟩
            rw [e] at h
            dsimp only at h
            split at h
            · cases h; exact leaf rfl
            · rename_i r2 _
              cases h
              rcases postfixes_leaf (C := C) (rec := rec) (d := d) (r2.length + 1) (.paren x) r2 with hp | hp
              · have hp : (withPostfix C rec d (.paren x) r2).1.1 = .paren x := hp
                rw [hp] at hm ⊢
                obtain ⟨h1, _⟩ := hs .global d 0 _ _ _ e (by simpa [hasError] using hm)
                refine ⟨fun L => h1, fun o k _ hk => ?_, fun _ => by simp [edge]⟩
                have := strength_le hk
                simp [edge]
                omega
              · exact leaf hp
          · have := literal_leaf (C := C) (rec := rec) (d := d) ts1
            rw [h] at this
            exact leaf this

theorem binLoop_error {c : Ctx} {p : Nat} : ∀ n l ts, hasError l = true → hasError (binLoop C rec c d p n l ts).1 = true
  | 0, _, _, _ => rfl
  | n + 1, l, ts, h => by
    unfold binLoop
    split
    · exact h
    · split
      · split
        · exact h
        · split
          · exact h
          · split
            · exact h
            · exact binLoop_error n _ _ (by simp [hasError, h])
      · exact h

theorem binLoop_sound (hC : C.unary = false) (hs : Sound rec) {c : Ctx} {L : Nat} : ∀ n l ts m r,
    binLoop C rec c d (lv L) n l ts = (m, r) → hasError m = false → Fit L l → After (edge l) ts → AfterQ (edge l) ts →
    Fit L m ∧ After (min L (edge m)) r ∧ AfterQ (edge m) r
  | 0, l, ts, m, r, h, hm, _, _, _ => by
    cases h; cases hm
  | n + 1, l, ts, m, r, h, hm, h1, h2, h3 => by
    have hst : ∀ o, stopsAt C c o = false := fun o => by simp [stopsAt, hC]
    unfold binLoop at h
    split at h
    · cases h
      exact ⟨h1, fun o k hk => by simp [kind?] at hk, h3⟩
    · rename_i t r0
      split at h
      · rename_i o ho
        rw [hst, if_neg (by simp)] at h
        split at h
        · rename_i hb
          cases h
          refine ⟨h1, fun o' k hk hk' => ?_, h3⟩
          simp [kind?, ho] at hk
          subst hk
          obtain ⟨_, e, _⟩ := binOp_strength hk'
          rw [hb] at e
          cases e
        · rename_i q right hb
          obtain ⟨k, hk, hq, hp⟩ := binOp_some hb
          have hlt := h2 o k (by simp [kind?, ho]) hk
          split at h
          · rename_i hlv
            cases h
            refine ⟨h1, fun o' k' e hk' => ?_, h3⟩
            have := h2 o' k' e hk'
            simp [kind?, ho] at e
            subst e
            rw [hk] at hk'
            cases hk'
            rw [hq] at hlv
            have hnl : ¬ L ≤ 2 * k := fun hle => by have := lv_le hle; omega
            omega
          · rename_i hlv
            have hle : L ≤ 2 * k := by
              rcases Nat.lt_or_ge (2 * k) L with hh | hh
              · have := lv_lt hh; omega
              · exact hh
            rw [hp] at h
            rcases e : rec .global d (lv (place o k)) r0 with ⟨x, r1⟩
            rw [e] at h
            dsimp only at h
            have hx : hasError x = false := by
              cases hx : hasError x with
              | false => rfl
              | true =>
                have := binLoop_error (C := C) (rec := rec) (d := d) (c := c) (p := lv L) n (.binary o l x) r1 (by simp [hasError, hx])
                rw [h, hm] at this
                cases this
            obtain ⟨g1, g2, g3⟩ := hs _ _ _ _ _ _ e hx
            refine binLoop_sound hC hs n _ _ _ _ h hm ⟨k, hk, hle, h1, hlt, g1⟩ ?_ ?_
            · simpa [edge, hk] using g2
            · simpa [edge, hk] using g3
      · rename_i hno
        cases h
        refine ⟨h1, fun o k hk => ?_, h3⟩
        simp [kind?] at hk
        exact absurd hk (hno o)

end

theorem binExpr_sound {C : PCfg} (hC : C.unary = false) : ∀ n, Sound (binExpr C n)
  | 0 => by
    intro c d L ts m r h hm
    cases h; cases hm
  | n + 1 => by
    have hs := binExpr_sound hC n
    intro c d L ts m r h hm
    rw [binExpr_loop] at h
    rcases e : unaryExpr C (binExpr C n) d ts with ⟨l, r0⟩
    rw [e] at h
    dsimp only at h
    rcases e1 : loop C (binExpr C n) c d (lv L) l r0 with ⟨x, r1⟩
    rw [e1] at h
    dsimp only at h
    have key : hasError x = false → Fit L x ∧ After (min L (edge x)) r1 ∧ AfterQ (edge x) r1 := by
      intro hx
      have hl : hasError l = false := by
        cases hl : hasError l with
        | false => rfl
        | true =>
          have := binLoop_error (C := C) (rec := binExpr C n) (d := d) (c := c) (p := lv L) (r0.length + 1) l r0 hl
          unfold loop at e1
          rw [e1, hx] at this
          cases this
      obtain ⟨g1, g2, g3⟩ := unaryExpr_sound hs e hl
      exact binLoop_sound hC hs _ _ _ _ _ e1 hx (g1 L) g2 g3
    split at h
    · rename_i hp
      rw [lv_zero] at hp
      subst hp
      unfold conditional at h
      split at h
      · rename_i hq
        cases h
        obtain ⟨g1, g2, _⟩ := key hm
        refine ⟨g1, g2, fun hk => ?_⟩
        cases r with
        | nil => simp [kind?] at hk
        | cons t r =>
          simp [kind?] at hk
          rw [expect_eq hk] at hq
          cases hq
      · rename_i r2 hq
        rcases e2 : binExpr C n .global d 0 r2 with ⟨y, r3⟩
        rw [e2] at h
        dsimp only at h
        split at h
        · cases h; cases hm
        · rename_i r4 _
          rcases e3 : binExpr C n .global d 0 r4 with ⟨z, r5⟩
          rw [e3] at h
          cases h
          simp only [hasError, Bool.or_eq_false_iff] at hm
          obtain ⟨g1, _, g3⟩ := key hm.1.1
          obtain ⟨y1, _⟩ := hs .global d 0 _ _ _ e2 hm.1.2
          obtain ⟨z1, z2, z3⟩ := hs .global d 0 _ _ _ e3 hm.2
          obtain ⟨t, rfl, ht⟩ := expect_some hq
          refine ⟨⟨rfl, g1, g3 (by simp [kind?, ht]), y1, z1⟩, ?_, ?_⟩
          · simpa using z2
          · simpa using z3
    · rename_i hp
      rw [lv_zero] at hp
      cases h
      obtain ⟨g1, g2, g3⟩ := key hm
      refine ⟨g1, g2, fun hk => ?_⟩
      have := g3 hk
      omega

end Parse
end Zen
