import Verif.Parse.Syntax
/-
Printing trees of operators with as few parentheses as possible.
-/
namespace Zen
namespace Parse
open Zen.Lex

/-- the tree without the parentheses around and between its operators -/
def strip : Node → Node
  | .unary o x => .unary o (strip x)
  | .binary o l r => .binary o (strip l) (strip r)
  | .cond x y z => .cond (strip x) (strip y) (strip z)
  | .paren x => strip x
  | n => n

/-- the number of pairs of parentheses around and between the operators -/
def parens : Node → Nat
  | .unary _ x => parens x
  | .binary _ l r => parens l + parens r
  | .cond x y z => parens x + parens y + parens z
  | .paren x => parens x + 1
  | _ => 0

/-- the operators of the tree are those of the language -/
def Ops : Node → Prop
  | .unary o x => (prefixStrength o).isSome ∧ Ops x
  | .binary o l r => (strength o).isSome ∧ Ops l ∧ Ops r
  | .cond x y z => Ops x ∧ Ops y ∧ Ops z
  | .paren x => Ops x
  | _ => True

/-- the parts of the tree that are not operators -/
def Leaves (P : Node → Prop) : Node → Prop
  | .unary _ x => Leaves P x
  | .binary _ l r => Leaves P l ∧ Leaves P r
  | .cond x y z => Leaves P x ∧ Leaves P y ∧ Leaves P z
  | .paren x => Leaves P x
  | n => P n

/-- the tree with parentheses where it needs them in a place of level `L` when `F` is demanded of its
end: the level of the operator that follows plus one, 1 before a question mark, 0 at the end -/
def addP : Nat → Nat → Node → Node
  | _, F, .unary o x =>
    let s := (prefixStrength o).getD 0
    if F ≤ 2 * s then .unary o (addP (2 * s) F x) else .paren (.unary o (addP (2 * s) 0 x))
  | L, F, .binary o l r =>
    let k := (strength o).getD 0
    if L ≤ 2 * k ∧ F ≤ place o k then .binary o (addP L (2 * k + 1) l) (addP (place o k) F r)
    else .paren (.binary o (addP 0 (2 * k + 1) l) (addP (place o k) 0 r))
  | L, F, .cond x y z =>
    if L = 0 ∧ F = 0 then .cond (addP 0 1 x) (addP 0 0 y) (addP 0 0 z)
    else .paren (.cond (addP 0 1 x) (addP 0 0 y) (addP 0 0 z))
  | _, _, n => n

/-- a token that is a sign -/
def sym (k : Kind) : Token := ⟨k, 0, 0, []⟩

/-- the tokens of a tree, those of its parts without operators given by `leaf` -/
def toks (leaf : Node → List Token) : Node → List Token
  | .unary o x => sym (.op o) :: toks leaf x
  | .binary o l r => toks leaf l ++ sym (.op o) :: toks leaf r
  | .cond x y z => toks leaf x ++ sym (.op .question) :: toks leaf y ++ sym (.op .slice) :: toks leaf z
  | .paren x => sym (.bracket .lparen) :: toks leaf x ++ [sym (.bracket .rparen)]
  | n => leaf n

/-- a tree whose operators group by strength: operands of level at least that of their place, and no
left operand or condition with an open end the operator would belong to -/
def Fit : Nat → Node → Prop
  | _, .unary o x => ∃ s, prefixStrength o = some s ∧ Fit (2 * s) x
  | L, .binary o l r => ∃ k, strength o = some k ∧ L ≤ 2 * k ∧ Fit L l ∧ 2 * k < edge l ∧ Fit (place o k) r
  | L, .cond x y z => L = 0 ∧ Fit 0 x ∧ 0 < edge x ∧ Fit 0 y ∧ Fit 0 z
  | _, .paren x => Fit 0 x
  | _, _ => True

/-- is the tree an operator or in parentheses? -/
def isOp : Node → Bool
  | .unary .. | .binary .. | .cond .. | .paren _ => true
  | _ => false

section
variable {n : Node} (h : isOp n = false)
include h

theorem strip_leaf : strip n = n := by cases n <;> simp_all [isOp, strip]
theorem parens_leaf : parens n = 0 := by cases n <;> simp_all [isOp, parens]
theorem addP_leaf (L F : Nat) : addP L F n = n := by cases n <;> simp_all [isOp, addP]
theorem toks_leaf (leaf : Node → List Token) : toks leaf n = leaf n := by cases n <;> simp_all [isOp, toks]
theorem edge_leaf : edge n = 100 := by cases n <;> simp_all [isOp, edge]
theorem Fit_leaf (L : Nat) : Fit L n := by cases n <;> simp_all [isOp, Fit]
theorem Leaves_leaf (P : Node → Prop) : Leaves P n = P n := by cases n <;> simp_all [isOp, Leaves]

end

/-- induction over the operators of a tree -/
theorem Node.opInd {P : Node → Prop} (unary : ∀ o x, P x → P (.unary o x)) (binary : ∀ o l r, P l → P r → P (.binary o l r))
    (cond : ∀ x y z, P x → P y → P z → P (.cond x y z)) (paren : ∀ x, P x → P (.paren x))
    (leaf : ∀ n, isOp n = false → P n) : ∀ n, P n
  | .unary o x => unary o x (opInd unary binary cond paren leaf x)
  | .binary o l r => binary o l r (opInd unary binary cond paren leaf l) (opInd unary binary cond paren leaf r)
  | .cond x y z => cond x y z (opInd unary binary cond paren leaf x) (opInd unary binary cond paren leaf y)
      (opInd unary binary cond paren leaf z)
  | .paren x => paren x (opInd unary binary cond paren leaf x)
  | .null | .bool _ | .num _ | .str _ | .pointer | .ident _ | .root | .error | .tmpl _ | .arr _ | .obj _ | .assigns .. | .member ..
  | .slice .. | .interval .. | .call .. | .closure .. | .method .. => leaf _ rfl

theorem place_le (o : Oper) (k : Nat) : place o k ≤ 2 * k + 1 := by unfold place; split <;> omega

theorem strip_addP (n : Node) : parens n = 0 → ∀ L F, strip (addP L F n) = n := by
  induction n using Node.opInd with
  | unary o x ih =>
    intro h L F
    simp only [parens] at h
    simp only [addP]
    split <;> simp [strip, ih h]
  | binary o l r ihl ihr =>
    intro h L F
    simp only [parens] at h
    simp only [addP]
    split <;> simp [strip, ihl (by omega), ihr (by omega)]
  | cond x y z ihx ihy ihz =>
    intro h L F
    simp only [parens] at h
    simp only [addP]
    split <;> simp [strip, ihx (by omega), ihy (by omega), ihz (by omega)]
  | paren x _ => intro h; simp [parens] at h
  | leaf n hn => intro _ L F; rw [addP_leaf hn, strip_leaf hn]

theorem Leaves.imp {P Q : Node → Prop} (h : ∀ n, P n → Q n) (n : Node) : Leaves P n → Leaves Q n := by
  induction n using Node.opInd with
  | unary o x ih => exact ih
  | binary o l r ihl ihr => exact fun h => ⟨ihl h.1, ihr h.2⟩
  | cond x y z ihx ihy ihz => exact fun h => ⟨ihx h.1, ihy h.2.1, ihz h.2.2⟩
  | paren x ih => exact ih
  | leaf n hn => rw [Leaves_leaf hn, Leaves_leaf hn]; exact h n

/-- the level matters only as far as the demand on the end does not imply it -/
theorem addP_level (n : Node) : ∀ L F, L < F → addP L F n = addP 0 F n := by
  induction n using Node.opInd with
  | unary o x _ => intro L F _; simp only [addP]
  | binary o l r ihl ihr =>
    intro L F h
    have hp := place_le o ((strength o).getD 0)
    simp only [addP]
    by_cases hF : F ≤ place o ((strength o).getD 0)
    · rw [if_pos ⟨by omega, hF⟩, if_pos ⟨by omega, hF⟩, ihl _ _ (by omega)]
    · rw [if_neg (by simp [hF]), if_neg (by simp [hF])]
  | cond x y z _ _ _ =>
    intro L F h
    simp only [addP]
    rw [if_neg (by omega), if_neg (by omega)]
  | paren x _ => intro L F _; simp only [addP]
  | leaf n hn => intro L F _; rw [addP_leaf hn, addP_leaf hn]

theorem addP_follow (n : Node) : ∀ L F, parens (addP L F n) ≤ parens (addP L 0 n) + 1 := by
  induction n using Node.opInd with
  | unary o x ih =>
    intro L F
    simp only [addP]
    rw [if_pos (Nat.zero_le _)]
    split
    · simpa [parens] using ih _ F
    · simp [parens]
  | binary o l r ihl ihr =>
    intro L F
    simp only [addP]
    by_cases hL : L ≤ 2 * (strength o).getD 0
    · rw [if_pos (⟨hL, Nat.zero_le _⟩ : L ≤ 2 * (strength o).getD 0 ∧ 0 ≤ _)]
      split
      · have := ihr (place o ((strength o).getD 0)) F
        simp only [parens]
        omega
      · rw [addP_level l L _ (by omega)]
        simp [parens]
    · rw [if_neg (by simp [hL]), if_neg (by simp [hL])]
      omega
  | cond x y z _ _ _ =>
    intro L F
    simp only [addP]
    split <;> split <;> simp only [parens] <;> omega
  | paren x _ => intro L F; simp only [addP]; omega
  | leaf n hn => intro L F; rw [addP_leaf hn, addP_leaf hn]; omega

theorem addP_most (n : Node) (L F : Nat) : parens (addP L F n) ≤ parens (addP 0 0 n) + 1 := by
  cases n with
  | unary o x =>
    simp only [addP]
    rw [if_pos (Nat.zero_le _)]
    split
    · simpa [parens] using addP_follow x _ F
    · simp [parens]
  | binary o l r =>
    simp only [addP]
    rw [if_pos (⟨Nat.zero_le _, Nat.zero_le _⟩ : 0 ≤ 2 * (strength o).getD 0 ∧ 0 ≤ _)]
    split
    · have := addP_follow r (place o ((strength o).getD 0)) F
      rename_i h
      rw [addP_level l L _ (by omega)]
      simp only [parens]
      omega
    · simp [parens]
  | cond x y z =>
    simp only [addP]
    split <;> simp [parens]
  | _ => simp only [addP]; omega

/-- no tree that groups by strength has fewer parentheses than `addP` puts -/
theorem addP_min (m : Node) : ∀ L F, Fit L m → F ≤ edge m → parens (addP L F (strip m)) ≤ parens m := by
  induction m using Node.opInd with
  | unary o x ih =>
    rintro L F ⟨s, hs, hx⟩ hF
    simp only [edge, hs, Option.getD_some] at hF
    simp only [strip, addP, hs, Option.getD_some]
    rw [if_pos (by omega)]
    exact ih _ _ hx (by omega)
  | binary o l r ihl ihr =>
    rintro L F ⟨k, hk, hL, hl, he, hr⟩ hF
    simp only [edge, hk, Option.getD_some] at hF
    simp only [strip, addP, hk, Option.getD_some]
    rw [if_pos (by omega)]
    have := ihl L (2 * k + 1) hl (by omega)
    have := ihr (place o k) F hr (by omega)
    simp only [parens]
    omega
  | cond x y z ihx ihy ihz =>
    rintro L F ⟨hL, hx, he, hy, hz⟩ hF
    simp only [edge] at hF
    simp only [strip, addP]
    rw [if_pos (by omega)]
    have := ihx 0 1 hx (by omega)
    have := ihy 0 0 hy (by omega)
    have := ihz 0 0 hz (by omega)
    simp only [parens]
    omega
  | paren x ih =>
    intro L F h _
    have := ih 0 0 h (by omega)
    have := addP_most (strip x) L F
    simp only [strip, parens]
    omega
  | leaf n hn => intro L F _ _; rw [strip_leaf hn, addP_leaf hn]

/-- the printed tree is written in a place of its level and its end meets the demand -/
theorem addP_written {C : PCfg} (hu : C.unary = false) {d : Nat} {leaf : Node → List Token} (n : Node) :
    parens n = 0 → Ops n → Leaves (fun x => ∃ f, Primary C (Written C) d f x (leaf x)) n → ∀ c L F, F ≤ 100 →
      Written C c d L (addP L F n) (toks leaf (addP L F n)) ∧ F ≤ edge (addP L F n) := by
  have hj : ∀ c o, ¬ joins C c o := fun c o h => by rw [h.1] at hu; cases hu
  have paren : ∀ c L F x, F ≤ 100 → Written C .global d 0 x (toks leaf x) →
      Written C c d L (.paren x) (toks leaf (.paren x)) ∧ F ≤ edge (.paren x) := by
    intro c L F x hF hx
    simp only [toks, edge]
    exact ⟨.primary (.paren rfl hx rfl), hF⟩
  induction n using Node.opInd with
  | unary o x ih =>
    intro hp ho hl c L F hF
    obtain ⟨s, hs⟩ := Option.isSome_iff_exists.1 ho.1
    have ih := ih hp ho.2 hl .global
    simp only [addP, hs, Option.getD_some]
    split
    · obtain ⟨h1, h2⟩ := ih (2 * s) F hF
      simp only [toks, edge, hs, Option.getD_some]
      exact ⟨.unary rfl hs h1, by omega⟩
    · refine paren _ _ _ _ hF ?_
      simp only [toks]
      exact .unary rfl hs (ih (2 * s) 0 (by omega)).1
  | binary o l r ihl ihr =>
    intro hp ho hl c L F hF
    obtain ⟨k, hk⟩ := Option.isSome_iff_exists.1 ho.1
    have hk8 : 2 * k + 1 ≤ 100 := by
      cases o with
      | arith a => cases a <;> simp [strength] at hk <;> omega
      | logic a => cases a <;> simp [strength] at hk <;> omega
      | cmp a => simp [strength] at hk; omega
      | _ => simp [strength] at hk
    simp only [parens] at hp
    have ihl := ihl (by omega) ho.2.1 hl.1
    have ihr := ihr (by omega) ho.2.2 hl.2 .global (place o k)
    simp only [addP, hk, Option.getD_some]
    split
    · obtain ⟨h1, h2⟩ := ihl c L (2 * k + 1) hk8
      obtain ⟨h3, h4⟩ := ihr F hF
      simp only [toks, edge, hk, Option.getD_some]
      exact ⟨.binary rfl hk (hj _ _) (by omega) h1 (.inl (by omega)) h3, by omega⟩
    · refine paren _ _ _ _ hF ?_
      obtain ⟨h1, h2⟩ := ihl .global 0 (2 * k + 1) hk8
      simp only [toks]
      exact .binary rfl hk (hj _ _) (by omega) h1 (.inl (by omega)) (ihr 0 (by omega)).1
  | cond x y z ihx ihy ihz =>
    intro hp ho hl c L F hF
    simp only [parens] at hp
    obtain ⟨h1, h2⟩ := ihx (by omega) ho.1 hl.1 c 0 1 (by omega)
    obtain ⟨h1', h2'⟩ := ihx (by omega) ho.1 hl.1 .global 0 1 (by omega)
    obtain ⟨h3, _⟩ := ihy (by omega) ho.2.1 hl.2.1 .global 0 0 (by omega)
    obtain ⟨h5, _⟩ := ihz (by omega) ho.2.2 hl.2.2 .global 0 0 (by omega)
    simp only [addP]
    split
    · rename_i h
      obtain ⟨rfl, rfl⟩ := h
      simp only [toks]
      exact ⟨.cond rfl rfl h1 (by omega) h3 h5, by omega⟩
    · refine paren _ _ _ _ hF ?_
      simp only [toks]
      exact .cond rfl rfl h1' (by omega) h3 h5
  | paren x _ => intro h; simp [parens] at h
  | leaf n hn =>
    intro _ _ hl c L F hF
    rw [Leaves_leaf hn] at hl
    obtain ⟨f, hl⟩ := hl
    rw [addP_leaf hn, toks_leaf hn, edge_leaf hn]
    exact ⟨.primary hl, hF⟩

end Parse
end Zen
