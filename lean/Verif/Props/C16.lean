import Verif.Props.C15
/-
C16  Iterating an interval enumerates exactly the integers inside it.
-/
namespace Zen

/-- Iterating an inward-bracketed interval with integer bounds visits the integers that are
members of the interval, in ascending order, each exactly once. The bounds are 64-bit integers
other than the two extreme ones (`(i64::MAX..` and `..i64::MIN)` overflow in the code). -/
theorem C16_enumerates (checks : Bool) (lb rb : Brk) (lo hi : Int)
    (hlb : lb = .lparen ∨ lb = .lsq) (hrb : rb = .rparen ∨ rb = .rsq)
    (h1 : -(2 ^ 63) < lo) (h2 : lo < 2 ^ 63 - 1) (h3 : -(2 ^ 63) < hi) (h4 : hi < 2 ^ 63 - 1) :
    ∃ is : List Int,
      opBegin checks (.dyn (.interval lb rb (.num lo) (.num hi))) =
        .ok (is.map fun (i : Int) => Val.num (i : Rat)) ∧
      is.Pairwise (· < ·) ∧
      ∀ i : Int, i ∈ is ↔ Member lb rb lo hi i := by
  have t1 : toI64 (lo : Rat) = some lo := toI64_int (by omega) (by omega)
  have t2 : toI64 (hi : Rat) = some hi := toI64_int (by omega) (by omega)
  have key : ∀ a b : Int, ∃ is : List Int,
      ((List.range (b - a + 1).toNat).map fun (i : Nat) => Val.num ((a + (i : Int) : Int) : Rat)) =
        is.map (fun (i : Int) => Val.num (i : Rat)) ∧ is.Pairwise (· < ·) ∧
      ∀ i : Int, i ∈ is ↔ a ≤ i ∧ i ≤ b := by
    intro a b
    refine ⟨(List.range (b - a + 1).toNat).map fun (i : Nat) => a + (i : Int), ?_, ?_, ?_⟩
    · simp [List.map_map, Function.comp_def]
    · rw [List.pairwise_map]
      exact List.pairwise_lt_range.imp (by intro a b h; omega)
    · intro i
      simp only [List.mem_map, List.mem_range]
      constructor
      · rintro ⟨n, hn, rfl⟩; omega
      · rintro ⟨ha, hb⟩; exact ⟨(i - a).toNat, by omega, by omega⟩
  have e1 : i64Wrap checks (lo + 1) = .ok (some (lo + 1)) := by unfold i64Wrap; rw [if_pos ⟨by omega, by omega⟩]
  have e2 : i64Wrap checks (hi - 1) = .ok (some (hi - 1)) := by unfold i64Wrap; rw [if_pos ⟨by omega, by omega⟩]
  rcases hlb with rfl | rfl <;> rcases hrb with rfl | rfl
  · obtain ⟨is, ha, hp, hm⟩ := key (lo + 1) (hi - 1)
    refine ⟨is, ?_, hp, ?_⟩
    · unfold opBegin intervalToArray rangeStart rangeEnd
      dsimp only
      rw [t1]; dsimp only; rw [e1]; dsimp only; rw [t2]; dsimp only; rw [e2]
      dsimp only; rw [ha]
    · intro i
      rw [hm, (C15_inside _ _ _).2.2.2, Rat.intCast_lt_intCast, Rat.intCast_lt_intCast]; omega
  · obtain ⟨is, ha, hp, hm⟩ := key (lo + 1) hi
    refine ⟨is, ?_, hp, ?_⟩
    · unfold opBegin intervalToArray rangeStart rangeEnd
      dsimp only
      rw [t1]; dsimp only; rw [e1]; dsimp only; rw [t2]; dsimp only; rw [ha]
    · intro i
      rw [hm, (C15_inside _ _ _).2.2.1, Rat.intCast_lt_intCast, Rat.intCast_le_intCast]; omega
  · obtain ⟨is, ha, hp, hm⟩ := key lo (hi - 1)
    refine ⟨is, ?_, hp, ?_⟩
    · unfold opBegin intervalToArray rangeStart rangeEnd
      dsimp only
      rw [t1]; dsimp only; rw [t2]; dsimp only; rw [e2]
      dsimp only; rw [ha]
    · intro i
      rw [hm, (C15_inside _ _ _).2.1, Rat.intCast_le_intCast, Rat.intCast_lt_intCast]; omega
  · obtain ⟨is, ha, hp, hm⟩ := key lo hi
    refine ⟨is, ?_, hp, ?_⟩
    · unfold opBegin intervalToArray rangeStart rangeEnd
      dsimp only
      rw [t1]; dsimp only; rw [t2]; dsimp only; rw [ha]
    · intro i
      rw [hm, (C15_inside _ _ _).1, Rat.intCast_le_intCast, Rat.intCast_le_intCast]

/-- End to end: `map` over such an interval returns its integers, and `filter`, `all`, … see
exactly them (with C12). -/
theorem C16_run (B : Builtins) (scope : Scope) (l r : Node) (lb rb : Brk) (lo hi : Int)
    (hlb : lb = .lparen ∨ lb = .lsq) (hrb : rb = .rparen ∨ rb = .rsq)
    (h1 : -(2 ^ 63) < lo) (h2 : lo < 2 ^ 63 - 1) (h3 : -(2 ^ 63) < hi) (h4 : hi < 2 ^ 63 - 1)
    (hl : Operand B scope l (.num lo)) (hr : Operand B scope r (.num hi)) :
    ∃ is : List Int, is.Pairwise (· < ·) ∧ (∀ i : Int, i ∈ is ↔ Member lb rb lo hi i) ∧
      Yields B scope (.closure .map (.interval l r lb rb) none .pointer)
        (.ok (.arr (is.map fun (i : Int) => Val.num (i : Rat)))) := by
  obtain ⟨is, hb, hp, hm⟩ := C16_enumerates B.checks lb rb lo hi hlb hrb h1 h2 h3 h4
  refine ⟨is, hp, hm, yields_iff.2 ⟨?_, ?_⟩⟩
  · exact compiles_iff.2 ⟨⟨compiles_iff.1 hl.compiles, compiles_iff.1 hr.compiles⟩, trivial⟩
  · simp only [evaluate, eval, hl.eval, hr.eval, opInterval, hb, loopMeaning]
    rw [loopMap_pure _ scope id _ (fun x _ => rfl)]
    simp [Except.map]

/-- the number 0.5 -/
def oneHalf : Rat := { num := 1, den := 2, den_nz := by decide, reduced := by decide }

/-- With fractional bounds the iteration truncates them toward zero and so may visit a number
that is not a member: `[0.5..2]` visits 0. -/
theorem C16_fractional_bounds_leak (checks : Bool) :
    opBegin checks (.dyn (.interval .lsq .rsq (.num oneHalf) (.num 2))) =
      .ok [.num 0, .num 1, .num 2] ∧ ¬ Member .lsq .rsq oneHalf 2 0 := by
  constructor
  · rfl
  · rw [(C15_inside _ _ _).1]
    rintro ⟨h, _⟩
    exact absurd h (by decide)

/-! ### Instances -/
example : (Brk.lparen = .lparen ∨ Brk.lparen = .lsq) ∧ (-(2 ^ 63) < (1 : Int)) ∧
    ((4 : Int) < 2 ^ 63 - 1) := by decide
example : Yields demoB demoScope (.closure .map (.interval (.num 1) (.num 4) .lparen .rsq) none .pointer)
    (.ok (.arr [.num 2, .num 3, .num 4])) := ⟨_, 100, rfl, rfl⟩

end Zen
