import Mathlib.Data.Rat.Floor
import Mathlib.Algebra.Order.Field.Basic
import Mathlib.Tactic.Linarith
import Mathlib.Tactic.Ring
import Mathlib.Tactic.FieldSimp
import Mathlib.Tactic.Positivity
import Mathlib.Tactic.NormNum
/-
Fixed-precision decimals: what `rust_decimal::Decimal` can represent and how results are rounded.
The library is not part of the repository; a value is an integer of at most 96 bits divided by a
power of ten with exponent at most 28, and a result that is not representable is rounded.

The theorems about built-ins hold for every rounding with the laws of `Rounding`;
`decRound` (round half to even at the largest scale that fits) is the one the library documents,
and is shown to satisfy them.
-/
namespace Zen
namespace Dec

/-- the values a `Decimal` can hold: a 96-bit integer over a power of ten up to 10^28 -/
def Rep (n : Rat) : Prop := ∃ (m : Int) (s : Nat), m.natAbs < 2 ^ 96 ∧ s ≤ 28 ∧ n = (m : Rat) / 10 ^ s

/-- `Decimal::MAX` -/
def maxDec : Rat := 2 ^ 96 - 1

/-- How an exact result becomes a `Decimal`: `none` is overflow (`checked_*` returning `None`). -/
structure Rounding where
  round : Rat → Option Rat
  /-- representable results are returned as they are -/
  exact : ∀ n, Rep n → round n = some n
  /-- results are representable -/
  rep : ∀ n r, round n = some r → Rep r
  /-- rounding never reverses the order of two results -/
  mono : ∀ x y a b, x ≤ y → round x = some a → round y = some b → a ≤ b
  /-- overflow happens only outside the range -/
  inRange : ∀ n, |n| ≤ maxDec → round n ≠ none
  /-- and always beyond it -/
  over : ∀ n, 2 ^ 96 ≤ |n| → round n = none

/-- `checked_add` -/
def Rounding.add (D : Rounding) (a b : Rat) : Option Rat := D.round (a + b)

/-- `checked_div`: nothing for a zero divisor -/
def Rounding.div (D : Rounding) (a b : Rat) : Option Rat :=
  if b = 0 then none else D.round (a / b)

/-! ### The library's rounding -/

/-- nearest integer, a half to the even neighbour -/
def halfEven (x : Rat) : Int :=
  if x - ⌊x⌋ < 1 / 2 then ⌊x⌋
  else if 1 / 2 < x - ⌊x⌋ then ⌊x⌋ + 1
  else if ⌊x⌋ % 2 = 0 then ⌊x⌋ else ⌊x⌋ + 1

/-- largest scale at most the given one whose coefficient fits 96 bits -/
def roundFrom (n : Rat) : Nat → Option Rat
  | 0 => if (halfEven n).natAbs < 2 ^ 96 then some (halfEven n) else none
  | s + 1 =>
    if (halfEven (n * 10 ^ (s + 1))).natAbs < 2 ^ 96 then
      some ((halfEven (n * 10 ^ (s + 1)) : Rat) / 10 ^ (s + 1))
    else roundFrom n s

/-- rounding to a `Decimal` -/
def decRound (n : Rat) : Option Rat := roundFrom n 28

theorem halfEven_near (x : Rat) : x - 1 / 2 ≤ halfEven x ∧ (halfEven x : Rat) ≤ x + 1 / 2 := by
  have h1 := Int.floor_le x
  have h2 := Int.lt_floor_add_one x
  unfold halfEven
  split_ifs <;> push_cast <;> constructor <;> linarith

theorem halfEven_int (m : Int) : halfEven (m : Rat) = m := by simp [halfEven]

theorem halfEven_mono {x y : Rat} (h : x ≤ y) : halfEven x ≤ halfEven y := by
  rcases eq_or_lt_of_le h with h | h
  · rw [h]
  by_contra hc
  push Not at hc
  have hc' : (halfEven y : Rat) + 1 ≤ halfEven x := by exact_mod_cast hc
  have a := halfEven_near x
  have b := halfEven_near y
  linarith [a.2, b.1]

/-- the coefficient at a scale fits -/
def Fits (n : Rat) (s : Nat) : Prop := (halfEven (n * 10 ^ s)).natAbs < 2 ^ 96

theorem fits_abs {n : Rat} {s : Nat} :
    Fits n s ↔ (-(2 ^ 96) < halfEven (n * 10 ^ s) ∧ halfEven (n * 10 ^ s) < 2 ^ 96) := by
  unfold Fits; omega

theorem roundFrom_some {n r : Rat} {S : Nat} (h : roundFrom n S = some r) :
    ∃ s ≤ S, Fits n s ∧ r = (halfEven (n * 10 ^ s) : Rat) / 10 ^ s ∧
      ∀ t, s < t → t ≤ S → ¬ Fits n t := by
  induction S with
  | zero =>
    rw [roundFrom] at h
    split_ifs at h with hf
    cases h
    exact ⟨0, le_refl _, by simpa [Fits] using hf, by simp, by intro t a b; omega⟩
  | succ S ih =>
    rw [roundFrom] at h
    split_ifs at h with hf
    · cases h
      exact ⟨S + 1, le_refl _, hf, rfl, by intro t a b; omega⟩
    · obtain ⟨s, hs, a, b, c⟩ := ih h
      refine ⟨s, by omega, a, b, ?_⟩
      intro t h1 h2
      by_cases ht : t = S + 1
      · subst ht; exact hf
      · exact c t h1 (by omega)

theorem roundFrom_none {n : Rat} {S : Nat} (h : roundFrom n S = none) : ¬ Fits n 0 := by
  induction S with
  | zero =>
    rw [roundFrom] at h
    split_ifs at h with hf
    simpa [Fits] using hf
  | succ S ih =>
    rw [roundFrom] at h
    split_ifs at h with hf
    exact ih h

/-- a coefficient that fits at a finer scale fits at a coarser one -/
theorem fits_coarser {n : Rat} {s t : Nat} (hst : s ≤ t) (h : Fits n t) : Fits n s := by
  induction t with
  | zero => have : s = 0 := by omega
            subst this; exact h
  | succ t ih =>
    by_cases he : s = t + 1
    · subst he; exact h
    refine ih (by omega) ?_
    rw [fits_abs] at h ⊢
    have a := halfEven_near (n * 10 ^ (t + 1))
    have b := halfEven_near (n * 10 ^ t)
    have e : n * 10 ^ (t + 1) = 10 * (n * 10 ^ t) := by ring
    rw [e] at a h
    generalize n * 10 ^ t = x at a b h ⊢
    have h1 : (-(2 ^ 96) : Rat) + 1 ≤ halfEven (10 * x) := by exact_mod_cast h.1
    have h2 : (halfEven (10 * x) : Rat) + 1 ≤ 2 ^ 96 := by exact_mod_cast h.2
    constructor
    · have : (-(2 ^ 96) : Rat) < halfEven x := by linarith [a.1, a.2, b.1, b.2]
      exact_mod_cast this
    · have : (halfEven x : Rat) < 2 ^ 96 := by linarith [a.1, a.2, b.1, b.2]
      exact_mod_cast this

theorem pow_pos' (s : Nat) : (0 : Rat) < 10 ^ s := by positivity

/-- the value one scale above is bounded by the coefficients that do not fit there -/
theorem above {n : Rat} {s : Nat} (h : 2 ^ 96 ≤ halfEven (n * 10 ^ (s + 1))) :
    (2 ^ 96 : Rat) / 10 ^ (s + 1) ≤ (halfEven (n * 10 ^ s) : Rat) / 10 ^ s := by
  have a := halfEven_near (n * 10 ^ (s + 1))
  have b := halfEven_near (n * 10 ^ s)
  have e : n * 10 ^ (s + 1) = 10 * (n * 10 ^ s) := by ring
  rw [e] at a h
  have p := pow_pos' s
  rw [pow_succ (10 : Rat) s, div_le_div_iff₀ (by positivity) p]
  generalize n * 10 ^ s = x at a b h ⊢
  have h1 : (2 ^ 96 : Rat) ≤ halfEven (10 * x) := by exact_mod_cast h
  have h2 : (7922816251426433759354395033 : Rat) < halfEven x := by
    norm_num at h1; linarith [a.1, a.2, b.1, b.2]
  have h3 : (7922816251426433759354395034 : Int) ≤ halfEven x := by
    have : (7922816251426433759354395033 : Int) < halfEven x := by exact_mod_cast h2
    omega
  have h4 : (7922816251426433759354395034 : Rat) ≤ halfEven x := by exact_mod_cast h3
  have h5 : (2 ^ 96 : Rat) ≤ halfEven x * 10 := by norm_num; linarith
  calc (2 ^ 96 : Rat) * 10 ^ s ≤ (halfEven x * 10) * 10 ^ s := by
        exact mul_le_mul_of_nonneg_right h5 p.le
    _ = halfEven x * (10 ^ s * 10) := by ring

theorem below {n : Rat} {s : Nat} (h : halfEven (n * 10 ^ (s + 1)) ≤ -(2 ^ 96)) :
    (halfEven (n * 10 ^ s) : Rat) / 10 ^ s ≤ -(2 ^ 96 : Rat) / 10 ^ (s + 1) := by
  have a := halfEven_near (n * 10 ^ (s + 1))
  have b := halfEven_near (n * 10 ^ s)
  have e : n * 10 ^ (s + 1) = 10 * (n * 10 ^ s) := by ring
  rw [e] at a h
  have p := pow_pos' s
  rw [pow_succ (10 : Rat) s, div_le_div_iff₀ p (by positivity)]
  generalize n * 10 ^ s = x at a b h ⊢
  have h1 : (halfEven (10 * x) : Rat) ≤ -(2 ^ 96) := by exact_mod_cast h
  have h2 : (halfEven x : Rat) < -7922816251426433759354395033 := by
    norm_num at h1; linarith [a.1, a.2, b.1, b.2]
  have h3 : halfEven x ≤ (-7922816251426433759354395034 : Int) := by
    have : halfEven x < (-7922816251426433759354395033 : Int) := by exact_mod_cast h2
    omega
  have h4 : (halfEven x : Rat) ≤ -7922816251426433759354395034 := by exact_mod_cast h3
  have h5 : halfEven x * 10 ≤ (-(2 ^ 96) : Rat) := by norm_num; linarith
  calc (halfEven x : Rat) * (10 ^ s * 10) = (halfEven x * 10) * 10 ^ s := by ring
    _ ≤ (-(2 ^ 96) : Rat) * 10 ^ s := mul_le_mul_of_nonneg_right h5 p.le

theorem coef_lt {n : Rat} {s : Nat} (h : Fits n s) :
    (halfEven (n * 10 ^ s) : Rat) / 10 ^ s ≤ (2 ^ 96 : Rat) / 10 ^ s ∧
    -(2 ^ 96 : Rat) / 10 ^ s ≤ (halfEven (n * 10 ^ s) : Rat) / 10 ^ s := by
  rw [fits_abs] at h
  have p := pow_pos' s
  have h1 : (halfEven (n * 10 ^ s) : Rat) ≤ 2 ^ 96 := by exact_mod_cast h.2.le
  have h2 : (-(2 ^ 96) : Rat) ≤ halfEven (n * 10 ^ s) := by exact_mod_cast h.1.le
  exact ⟨div_le_div_of_nonneg_right h1 p.le, div_le_div_of_nonneg_right h2 p.le⟩

theorem finer {s t : Nat} (h : s ≤ t) : (2 ^ 96 : Rat) / 10 ^ t ≤ (2 ^ 96 : Rat) / 10 ^ s := by
  apply div_le_div_of_nonneg_left (by norm_num) (pow_pos' s)
  exact pow_le_pow_right₀ (by norm_num) h

theorem decRound_mono {x y a b : Rat} (hxy : x ≤ y) (ha : decRound x = some a)
    (hb : decRound y = some b) : a ≤ b := by
  obtain ⟨s, hs, fx, rfl, mx⟩ := roundFrom_some ha
  obtain ⟨t, ht, fy, rfl, my⟩ := roundFrom_some hb
  have hle : ∀ u : Nat, halfEven (x * 10 ^ u) ≤ halfEven (y * 10 ^ u) := fun u =>
    halfEven_mono (mul_le_mul_of_nonneg_right hxy (pow_pos' u).le)
  rcases Nat.lt_trichotomy s t with h | h | h
  · have n1 := mx (s + 1) (by omega) (by omega)
    have f1 := fits_coarser (show s + 1 ≤ t by omega) fy
    rw [fits_abs] at n1 f1
    have := hle (s + 1)
    have hb : halfEven (x * 10 ^ (s + 1)) ≤ -(2 ^ 96) := by omega
    have c1 := below hb
    have c2 := (coef_lt fy).2
    have c3 := finer (show s + 1 ≤ t by omega)
    have e1 : -(2 ^ 96 : Rat) / 10 ^ (s + 1) = -((2 ^ 96 : Rat) / 10 ^ (s + 1)) := by ring
    have e2 : -(2 ^ 96 : Rat) / 10 ^ t = -((2 ^ 96 : Rat) / 10 ^ t) := by ring
    rw [e1] at c1; rw [e2] at c2
    linarith
  · subst h
    apply div_le_div_of_nonneg_right _ (pow_pos' s).le
    exact_mod_cast hle s
  · have n1 := my (t + 1) (by omega) (by omega)
    have f1 := fits_coarser (show t + 1 ≤ s by omega) fx
    rw [fits_abs] at n1 f1
    have := hle (t + 1)
    have hb : 2 ^ 96 ≤ halfEven (y * 10 ^ (t + 1)) := by omega
    have c1 := above hb
    have c2 := (coef_lt fx).1
    have c3 := finer (show t + 1 ≤ s by omega)
    linarith

theorem decRound_exact {n : Rat} (h : Rep n) : decRound n = some n := by
  obtain ⟨m, s, hm, hs, rfl⟩ := h
  have p := pow_pos' s
  have fs : Fits ((m : Rat) / 10 ^ s) s := by
    rw [Fits, div_mul_cancel₀ _ p.ne', halfEven_int]; exact hm
  cases hr : decRound ((m : Rat) / 10 ^ s) with
  | none => exact absurd (fits_coarser (Nat.zero_le s) fs) (roundFrom_none hr)
  | some r =>
    obtain ⟨t, ht, ft, rfl, mt⟩ := roundFrom_some hr
    have hst : s ≤ t := by
      by_contra hc
      exact mt s (by omega) hs fs
    obtain ⟨k, rfl⟩ := Nat.exists_eq_add_of_le hst
    have e : (m : Rat) / 10 ^ s * 10 ^ (s + k) = ((m * 10 ^ k : Int) : Rat) := by
      push_cast; rw [pow_add]; field_simp
    rw [e, halfEven_int]
    congr 1
    push_cast
    rw [pow_add]; field_simp

theorem decRound_rep {n r : Rat} (h : decRound n = some r) : Rep r := by
  obtain ⟨s, hs, f, rfl, _⟩ := roundFrom_some h
  exact ⟨_, s, f, hs, rfl⟩

theorem decRound_inRange {n : Rat} (h : |n| ≤ maxDec) : decRound n ≠ none := by
  intro hn
  apply roundFrom_none hn
  rw [fits_abs]
  simp only [pow_zero, mul_one]
  obtain ⟨h1, h2⟩ := abs_le.1 h
  have e1 : (-(2 ^ 96 - 1 : Int) : Int) ≤ halfEven n := by
    have := halfEven_mono (x := ((-(2 ^ 96 - 1) : Int) : Rat)) (y := n)
      (by unfold maxDec at h1; push_cast; linarith)
    rwa [halfEven_int] at this
  have e2 : halfEven n ≤ (2 ^ 96 - 1 : Int) := by
    have := halfEven_mono (x := n) (y := ((2 ^ 96 - 1 : Int) : Rat))
      (by unfold maxDec at h2; push_cast; linarith)
    rwa [halfEven_int] at this
  omega

theorem decRound_over {n : Rat} (h : 2 ^ 96 ≤ |n|) : decRound n = none := by
  cases hr : decRound n with
  | none => rfl
  | some r =>
    exfalso
    obtain ⟨s, hs, f, _, _⟩ := roundFrom_some hr
    have f0 := fits_coarser (Nat.zero_le s) f
    rw [fits_abs] at f0
    simp only [pow_zero, mul_one] at f0
    rcases le_abs.1 h with h | h
    · have := halfEven_mono (x := ((2 ^ 96 : Int) : Rat)) (y := n) (by push_cast; linarith)
      rw [halfEven_int] at this
      omega
    · have := halfEven_mono (x := n) (y := ((-(2 ^ 96) : Int) : Rat)) (by push_cast; linarith)
      rw [halfEven_int] at this
      omega

/-- The library's rounding satisfies the laws. -/
def decimal : Rounding where
  round := decRound
  exact _ h := decRound_exact h
  rep _ _ h := decRound_rep h
  mono _ _ _ _ h ha hb := decRound_mono h ha hb
  inRange _ h := decRound_inRange h
  over _ h := decRound_over h

/-- rounding happens: a third of one has 28 decimals -/
example : decRound (1 / 3) = some (3333333333333333333333333333 / 10 ^ 28) := by
  have hf : ⌊(1 / 3 : Rat) * 10 ^ 28⌋ = 3333333333333333333333333333 := by
    rw [Int.floor_eq_iff]; norm_num
  have : halfEven ((1 / 3 : Rat) * 10 ^ (27 + 1)) = 3333333333333333333333333333 := by
    unfold halfEven; rw [show (27 + 1 : Nat) = 28 from rfl, hf]; norm_num
  unfold decRound
  rw [roundFrom, this]
  norm_num

end Dec
end Zen
