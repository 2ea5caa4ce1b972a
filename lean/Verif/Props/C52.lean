import Verif.Builtins.Funcs
import Mathlib.Tactic.Linarith
import Mathlib.Tactic.Positivity
import Mathlib.Tactic.FieldSimp
import Mathlib.Tactic.NormNum
/-
C52: the functions that round numbers. `round` gives the nearest number with the requested number of decimal places,
a half away from zero; `trunc` the nearest towards zero; `floor` and `ceil` the nearest integers below and above; `abs`
the distance from zero. A number that has few enough places is left as it is, the order of numbers is kept, and
the result of rounding a decimal is a decimal.
-/
namespace Zen
open Fn

/-! ### What it means -/

/-- numbers with at most `dp` decimal places -/
def Places (dp : Nat) (r : Rat) : Prop := ∃ k : Int, r = (k : Rat) / 10 ^ dp

/-- `r` is `n` rounded to `dp` places, halves away from zero -/
structure RoundedTo (dp : Nat) (n r : Rat) : Prop where
  places : Places dp r
  near : |r - n| ≤ 1 / 2 / 10 ^ dp
  tie : |r - n| = 1 / 2 / 10 ^ dp → |n| < |r|

/-- `r` is `n` cut off after `dp` places -/
structure CutTo (dp : Nat) (n r : Rat) : Prop where
  places : Places dp r
  near : |r - n| < 1 / 10 ^ dp
  toward : |r| ≤ |n|
  sign : 0 ≤ r * n

/-! ### on integers -/
namespace Round

/-- nearest integer, a half away from zero -/
def nearest (x : Rat) : Int := if x < 0 then -⌊-x + 1 / 2⌋ else ⌊x + 1 / 2⌋

/-- the integer part -/
def cut (x : Rat) : Int := if x < 0 then -⌊-x⌋ else ⌊x⌋

theorem neg_iff (n : Rat) (dp : Nat) : n * 10 ^ dp < 0 ↔ n < 0 := by
  have h : (0 : Rat) < 10 ^ dp := by positivity
  constructor
  · intro hn; by_contra hc; push Not at hc; have := mul_nonneg hc h.le; linarith
  · intro hn; exact mul_neg_of_neg_of_pos hn h

theorem roundAway_eq (n : Rat) (dp : Nat) : roundAway n dp = (nearest (n * 10 ^ dp) : Rat) / 10 ^ dp := by
  unfold roundAway nearest
  by_cases h : n < 0
  · rw [if_pos h, if_pos ((neg_iff n dp).2 h), neg_mul]; push_cast; ring
  · rw [if_neg h, if_neg fun hc => h ((neg_iff n dp).1 hc)]

theorem truncDp_eq (n : Rat) (dp : Nat) : truncDp n dp = (cut (n * 10 ^ dp) : Rat) / 10 ^ dp := by
  unfold truncDp cut
  by_cases h : n < 0
  · rw [if_pos h, if_pos ((neg_iff n dp).2 h), neg_mul]; push_cast; ring
  · rw [if_neg h, if_neg fun hc => h ((neg_iff n dp).1 hc)]

theorem nearest_near (x : Rat) : |(nearest x : Rat) - x| ≤ 1 / 2 ∧ (|(nearest x : Rat) - x| = 1 / 2 → |x| < |(nearest x : Rat)|) := by
  unfold nearest
  split
  · next h =>
    have h1 := Int.floor_le (-x + 1 / 2)
    have h2 := Int.lt_floor_add_one (-x + 1 / 2)
    push_cast
    refine ⟨abs_le.2 ⟨by linarith, by linarith⟩, fun he => ?_⟩
    rcases abs_eq (by norm_num : (0 : Rat) ≤ 1 / 2) |>.1 he with e | e
    · linarith
    · rw [abs_of_neg h, abs_of_neg (by linarith)]; linarith
  · next h =>
    have h1 := Int.floor_le (x + 1 / 2)
    have h2 := Int.lt_floor_add_one (x + 1 / 2)
    push Not at h
    refine ⟨abs_le.2 ⟨by linarith, by linarith⟩, fun he => ?_⟩
    rcases abs_eq (by norm_num : (0 : Rat) ≤ 1 / 2) |>.1 he with e | e
    · rw [abs_of_nonneg h, abs_of_nonneg (by linarith)]; linarith
    · linarith

theorem nearest_unique {x : Rat} {k j : Int} (hk : |(k : Rat) - x| ≤ 1 / 2) (hk' : |(k : Rat) - x| = 1 / 2 → |x| < |(k : Rat)|)
    (hj : |(j : Rat) - x| ≤ 1 / 2) (hj' : |(j : Rat) - x| = 1 / 2 → |x| < |(j : Rat)|) : k = j := by
  wlog h : k < j generalizing k j
  · rcases lt_trichotomy k j with g | g | g
    · exact absurd g h
    · exact g
    · exact (this hj hj' hk hk' g).symm
  exfalso
  have h1 : (k : Rat) + 1 ≤ j := by exact_mod_cast h
  rw [abs_le] at hk hj
  have e1 : (k : Rat) - x = -(1 / 2) := by linarith
  have e2 : (j : Rat) - x = 1 / 2 := by linarith
  have a := hk' (by rw [e1]; norm_num)
  have b := hj' (by rw [e2]; norm_num)
  rcases lt_or_ge k 0 with g | g
  · have g1 : j ≤ 0 := by
      have : (j : Rat) = k + 1 := by linarith
      have : j = k + 1 := by exact_mod_cast this
      omega
    have g2 : (j : Rat) ≤ 0 := by exact_mod_cast g1
    rw [abs_of_nonpos g2, abs_of_nonpos (by linarith)] at b
    linarith
  · have g2 : (0 : Rat) ≤ k := by exact_mod_cast g
    rw [abs_of_nonneg g2, abs_of_nonneg (by linarith)] at a
    linarith

theorem cut_near (x : Rat) : |(cut x : Rat) - x| < 1 ∧ |(cut x : Rat)| ≤ |x| ∧ 0 ≤ (cut x : Rat) * x := by
  unfold cut
  split
  · next h =>
    have h1 := Int.floor_le (-x)
    have h2 := Int.lt_floor_add_one (-x)
    have h3 : (0 : Rat) ≤ ⌊-x⌋ := by exact_mod_cast Int.floor_nonneg.2 (by linarith : 0 ≤ -x)
    push_cast
    refine ⟨abs_lt.2 ⟨by linarith, by linarith⟩, ?_, ?_⟩
    · rw [abs_of_neg h, abs_of_nonpos (by linarith)]; linarith
    · nlinarith
  · next h =>
    have h1 := Int.floor_le x
    have h2 := Int.lt_floor_add_one x
    push Not at h
    have h3 : (0 : Rat) ≤ ⌊x⌋ := by exact_mod_cast Int.floor_nonneg.2 h
    refine ⟨abs_lt.2 ⟨by linarith, by linarith⟩, ?_, ?_⟩
    · rw [abs_of_nonneg h, abs_of_nonneg (by linarith)]; linarith
    · nlinarith

theorem cut_unique {x : Rat} {k j : Int} (hk : |(k : Rat) - x| < 1) (hk' : |(k : Rat)| ≤ |x|) (hk2 : 0 ≤ (k : Rat) * x)
    (hj : |(j : Rat) - x| < 1) (hj' : |(j : Rat)| ≤ |x|) (hj2 : 0 ≤ (j : Rat) * x) : k = j := by
  wlog h : k < j generalizing k j
  · rcases lt_trichotomy k j with g | g | g
    · exact absurd g h
    · exact g
    · exact (this hj hj' hj2 hk hk' hk2 g).symm
  exfalso
  have h1 : (k : Rat) + 1 ≤ j := by exact_mod_cast h
  rw [abs_lt] at hk hj
  rcases lt_trichotomy x 0 with hx | hx | hx
  · have : (j : Rat) ≤ 0 := by by_contra hc; push Not at hc; nlinarith
    rw [abs_of_neg hx, abs_of_nonpos (by linarith)] at hk'
    linarith
  · rw [hx, abs_zero] at hk' hj'
    have a := abs_nonpos_iff.1 hk'
    have b := abs_nonpos_iff.1 hj'
    linarith
  · have : (0 : Rat) ≤ k := by by_contra hc; push Not at hc; nlinarith
    rw [abs_of_pos hx, abs_of_nonneg (by linarith)] at hj'
    linarith

theorem scale_abs (k : Int) (n : Rat) (dp : Nat) : |(k : Rat) / 10 ^ dp - n| = |(k : Rat) - n * 10 ^ dp| / 10 ^ dp := by
  have h : (0 : Rat) < 10 ^ dp := by positivity
  rw [show (k : Rat) / 10 ^ dp - n = ((k : Rat) - n * 10 ^ dp) / 10 ^ dp by field_simp, abs_div, abs_of_pos h]

theorem abs_scale (n : Rat) (dp : Nat) : |n * 10 ^ dp| = |n| * 10 ^ dp := by
  rw [abs_mul, abs_of_pos (by positivity : (0 : Rat) < 10 ^ dp)]

theorem abs_div_scale (k : Int) (dp : Nat) : |(k : Rat) / 10 ^ dp| = |(k : Rat)| / 10 ^ dp := by
  rw [abs_div, abs_of_pos (by positivity : (0 : Rat) < 10 ^ dp)]

/-- rounding to places is rounding of the scaled number -/
theorem roundedTo_iff {dp : Nat} {n : Rat} {k : Int} : RoundedTo dp n ((k : Rat) / 10 ^ dp) ↔
    |(k : Rat) - n * 10 ^ dp| ≤ 1 / 2 ∧ (|(k : Rat) - n * 10 ^ dp| = 1 / 2 → |n * 10 ^ dp| < |(k : Rat)|) := by
  have h : (0 : Rat) < 10 ^ dp := by positivity
  constructor
  · rintro ⟨-, a, b⟩
    rw [scale_abs] at a b
    rw [div_le_div_iff_of_pos_right h] at a
    refine ⟨a, fun e => ?_⟩
    have := b (by rw [e])
    rw [abs_div_scale, lt_div_iff₀ h] at this
    rwa [abs_scale]
  · rintro ⟨a, b⟩
    refine ⟨⟨k, rfl⟩, ?_, fun e => ?_⟩
    · rw [scale_abs, div_le_div_iff_of_pos_right h]; exact a
    · rw [scale_abs, div_left_inj' h.ne'] at e
      have := b e
      rw [abs_scale] at this
      rwa [abs_div_scale, lt_div_iff₀ h]

theorem cutTo_iff {dp : Nat} {n : Rat} {k : Int} : CutTo dp n ((k : Rat) / 10 ^ dp) ↔
    |(k : Rat) - n * 10 ^ dp| < 1 ∧ |(k : Rat)| ≤ |n * 10 ^ dp| ∧ 0 ≤ (k : Rat) * (n * 10 ^ dp) := by
  have h : (0 : Rat) < 10 ^ dp := by positivity
  have hs : 0 ≤ (k : Rat) / 10 ^ dp * n ↔ 0 ≤ (k : Rat) * (n * 10 ^ dp) := by
    rw [show (k : Rat) * (n * 10 ^ dp) = ((k : Rat) / 10 ^ dp * n) * (10 ^ dp * 10 ^ dp) by field_simp]
    constructor
    · intro g; positivity
    · intro g
      by_contra hc; push Not at hc
      have := mul_neg_of_neg_of_pos hc (mul_pos h h)
      linarith
  constructor
  · rintro ⟨-, a, b, c⟩
    rw [scale_abs, div_lt_div_iff_of_pos_right h] at a
    rw [abs_div_scale, div_le_iff₀ h] at b
    exact ⟨a, by rwa [abs_scale], hs.1 c⟩
  · rintro ⟨a, b, c⟩
    refine ⟨⟨k, rfl⟩, ?_, ?_, hs.2 c⟩
    · rw [scale_abs, div_lt_div_iff_of_pos_right h]; exact a
    · rw [abs_scale] at b; rwa [abs_div_scale, div_le_iff₀ h]

/-- at most one number is `n` rounded -/
theorem rounded_unique {dp : Nat} {n r r' : Rat} (h : RoundedTo dp n r) (h' : RoundedTo dp n r') : r = r' := by
  obtain ⟨k, rfl⟩ := h.places
  obtain ⟨j, rfl⟩ := h'.places
  rw [roundedTo_iff] at h h'
  rw [nearest_unique h.1 h.2 h'.1 h'.2]

theorem cutTo_unique {dp : Nat} {n r r' : Rat} (h : CutTo dp n r) (h' : CutTo dp n r') : r = r' := by
  obtain ⟨k, rfl⟩ := h.places
  obtain ⟨j, rfl⟩ := h'.places
  rw [cutTo_iff] at h h'
  rw [cut_unique h.1 h.2.1 h.2.2 h'.1 h'.2.1 h'.2.2]

theorem toU32_nat (dp : Nat) (h : dp < 2 ^ 32) : toU32 (dp : Rat) = some dp := by
  have h1 : ¬ (dp : Rat) < 0 := by push Not; positivity
  unfold toU32
  rw [if_neg h1]
  have : ratTrunc (dp : Rat) = dp := by
    unfold ratTrunc
    rw [if_pos (by positivity)]
    exact Int.floor_natCast (R := Rat) dp
  rw [this, Int.toNat_natCast, if_pos h]

end Round
open Round

/-! ### round, trunc -/

/-- `round` gives the one number that is its argument rounded to the requested places. -/
theorem C52_round (n : Rat) (dp : Nat) (h : dp < 2 ^ 32) (v : Val) :
    Fn.round [.num n, .num dp] = .ok v ↔ ∃ r, v = .num r ∧ RoundedTo dp n r := by
  have hr : Fn.round [.num n, .num dp] = .ok (.num (roundAway n dp)) := by
    simp [Fn.round, argNum, argONum, decimalPlaces, toU32_nat dp h, bind, Except.bind, pure, Except.pure]
  have hs : RoundedTo dp n (roundAway n dp) := by
    rw [roundAway_eq, roundedTo_iff]
    exact nearest_near _
  rw [hr]
  constructor
  · intro h; cases h; exact ⟨_, rfl, hs⟩
  · rintro ⟨r, rfl, h⟩; rw [rounded_unique hs h]

/-- `trunc` gives the one number that is its argument cut off after the requested places. -/
theorem C52_trunc (n : Rat) (dp : Nat) (h : dp < 2 ^ 32) (v : Val) :
    trunc [.num n, .num dp] = .ok v ↔ ∃ r, v = .num r ∧ CutTo dp n r := by
  have hr : trunc [.num n, .num dp] = .ok (.num (truncDp n dp)) := by
    simp [trunc, argNum, argONum, decimalPlaces, toU32_nat dp h, bind, Except.bind, pure, Except.pure]
  have hs : CutTo dp n (truncDp n dp) := by
    rw [truncDp_eq, cutTo_iff]
    exact cut_near _
  rw [hr]
  constructor
  · intro h; cases h; exact ⟨_, rfl, hs⟩
  · rintro ⟨r, rfl, h⟩; rw [cutTo_unique hs h]

/-- Without places the functions round to integers. -/
theorem C52_default (n : Rat) :
    Fn.round [.num n] = Fn.round [.num n, .num 0] ∧ trunc [.num n] = trunc [.num n, .num 0] := by
  have h : toU32 (0 : Rat) = some 0 := toU32_nat 0 (by norm_num)
  constructor
  · simp [Fn.round, argNum, argONum, decimalPlaces, h, bind, Except.bind, pure, Except.pure]
  · simp [trunc, argNum, argONum, decimalPlaces, h, bind, Except.bind, pure, Except.pure]

/-- The number of places is cut to an integer; below zero or from 2^32 on it is an error. -/
theorem C52_places (n p : Rat) :
    (0 ≤ p → p < 2 ^ 32 → ∃ dp : Nat, (dp : Rat) ≤ p ∧ p < dp + 1 ∧
      Fn.round [.num n, .num p] = Fn.round [.num n, .num dp] ∧ trunc [.num n, .num p] = trunc [.num n, .num dp]) ∧
    ((p < 0 ∨ 2 ^ 32 ≤ p) → (∃ m, Fn.round [.num n, .num p] = .error (.err m)) ∧
      ∃ m, trunc [.num n, .num p] = .error (.err m)) := by
  constructor
  · intro h0 h1
    have hf : (0 : Int) ≤ ⌊p⌋ := Int.floor_nonneg.2 h0
    have hfl := Int.floor_le p
    have hlt := Int.lt_floor_add_one p
    have hc : ((⌊p⌋.toNat : Nat) : Rat) = ⌊p⌋ := by exact_mod_cast Int.toNat_of_nonneg hf
    have hb : ⌊p⌋.toNat < 2 ^ 32 := by
      have : ((⌊p⌋.toNat : Nat) : Rat) < 2 ^ 32 := by rw [hc]; linarith
      exact_mod_cast this
    have hu : toU32 p = some ⌊p⌋.toNat := by
      unfold toU32
      rw [if_neg (by linarith)]
      have : ratTrunc p = ⌊p⌋ := by
        unfold ratTrunc
        rw [if_pos h0]
        rfl
      rw [this, if_pos hb]
    refine ⟨⌊p⌋.toNat, by rw [hc]; exact hfl, by rw [hc]; exact hlt, ?_, ?_⟩
    · simp only [Fn.round, argNum, argONum, decimalPlaces, hu, toU32_nat _ hb, bind, Except.bind, pure, Except.pure,
        List.getElem?_cons_zero, List.getElem?_cons_succ]
    · simp only [trunc, argNum, argONum, decimalPlaces, hu, toU32_nat _ hb, bind, Except.bind, pure, Except.pure,
        List.getElem?_cons_zero, List.getElem?_cons_succ]
  · intro h
    have hu : toU32 p = none := by
      unfold toU32
      split
      · rfl
      · next h0 =>
        have hp : (2 : Rat) ^ 32 ≤ p := by rcases h with h | h; exacts [absurd h h0, h]
        have : ratTrunc p = ⌊p⌋ := by
          unfold ratTrunc
          rw [if_pos (not_lt.1 h0)]
          rfl
        rw [this, if_neg]
        have h2 : ((2 : Int) ^ 32) ≤ ⌊p⌋ := Int.le_floor.2 (by exact_mod_cast hp)
        omega
    constructor
    · simp [Fn.round, argNum, argONum, decimalPlaces, hu, bind, Except.bind]
    · simp [trunc, argNum, argONum, decimalPlaces, hu, bind, Except.bind]

/-- A number that has no more places than requested is its own rounding; so rounding twice is rounding once. -/
theorem C52_fixed (dp : Nat) (n : Rat) (h : Places dp n) : RoundedTo dp n n ∧ CutTo dp n n := by
  have hp : (0 : Rat) < 10 ^ dp := by positivity
  refine ⟨⟨h, ?_, ?_⟩, ⟨h, ?_, le_refl _, mul_self_nonneg n⟩⟩
  · rw [sub_self, abs_zero]; positivity
  · rw [sub_self, abs_zero]; intro e; exfalso
    have : (0 : Rat) < 1 / 2 / 10 ^ dp := by positivity
    linarith
  · rw [sub_self, abs_zero]; positivity

/-- Rounding keeps the order, and treats a number and its opposite alike. -/
theorem C52_order (dp : Nat) (n m r s : Rat) (hn : RoundedTo dp n r) (hm : RoundedTo dp m s) :
    (n ≤ m → r ≤ s) ∧ RoundedTo dp (-n) (-r) := by
  have hp : (0 : Rat) < 10 ^ dp := by positivity
  constructor
  · intro h
    rcases eq_or_lt_of_le h with h | h
    · subst h; rw [rounded_unique hn hm]
    obtain ⟨k, rfl⟩ := hn.places
    obtain ⟨j, rfl⟩ := hm.places
    rw [roundedTo_iff] at hn hm
    rw [div_le_div_iff_of_pos_right hp]
    by_contra hc
    push Not at hc
    have h1 : (j : Rat) + 1 ≤ k := by exact_mod_cast (by exact_mod_cast hc : j < k)
    have h2 : n * 10 ^ dp < m * 10 ^ dp := mul_lt_mul_of_pos_right h hp
    have a := abs_le.1 hn.1
    have b := abs_le.1 hm.1
    linarith [a.2, b.1]
  · obtain ⟨k, rfl⟩ := hn.places
    rw [roundedTo_iff] at hn
    have : -((k : Rat) / 10 ^ dp) = ((-k : Int) : Rat) / 10 ^ dp := by push_cast; ring
    rw [this, roundedTo_iff]
    push_cast
    rw [show -(k : Rat) - -n * 10 ^ dp = -((k : Rat) - n * 10 ^ dp) by ring, abs_neg, neg_mul, abs_neg, abs_neg]
    exact hn

/-! ### floor, ceil, abs -/

/-- `floor` and `ceil` give the integers next below and above, `abs` the distance from zero. -/
theorem C52_floor_ceil_abs (n : Rat) :
    (∃ k : Int, floor [.num n] = .ok (.num k) ∧ ∀ j : Int, (j : Rat) ≤ n ↔ j ≤ k) ∧
    (∃ k : Int, ceil [.num n] = .ok (.num k) ∧ ∀ j : Int, n ≤ j ↔ k ≤ j) ∧
    (∃ r, Fn.abs [.num n] = .ok (.num r) ∧ 0 ≤ r ∧ (r = n ∨ r = -n)) := by
  refine ⟨⟨⌊n⌋, rfl, fun j => Int.le_floor.symm⟩, ⟨⌈n⌉, rfl, fun j => Int.ceil_le.symm⟩, ⟨|n|, rfl, abs_nonneg n, ?_⟩⟩
  exact abs_choice n

/-- All of them need a number. -/
theorem C52_numbers (a : Val) (f : List Val → Fn.Res Val) (hf : f ∈ [Fn.round, trunc, floor, ceil, Fn.abs]) :
    (∃ v, f [a] = .ok v) ↔ ∃ n, a = .num n := by
  simp only [List.mem_cons, List.not_mem_nil, or_false] at hf
  rcases hf with rfl | rfl | rfl | rfl | rfl
  · cases a <;> simp [Fn.round, argNum, argONum, decimalPlaces, bind, Except.bind, pure, Except.pure]
  · cases a <;> simp [trunc, argNum, argONum, decimalPlaces, bind, Except.bind, pure, Except.pure]
  · cases a <;> simp [floor, argNum, bind, Except.bind, pure, Except.pure]
  · cases a <;> simp [ceil, argNum, bind, Except.bind, pure, Except.pure]
  · cases a <;> simp [Fn.abs, argNum, bind, Except.bind, pure, Except.pure]

/-! ### decimals stay decimals -/

/-- an integer over a power of ten no larger than the coefficient of the rounded number -/
theorem Round.rep_of_le {m k : Int} {s dp : Nat} (hm : m.natAbs < 2 ^ 96) (hs : s ≤ 28) (hd : dp < s)
    (hk : |(k : Rat) - (m : Rat) / 10 ^ s * 10 ^ dp| ≤ 1) : Dec.Rep ((k : Rat) / 10 ^ dp) := by
  refine ⟨k, dp, ?_, by omega, rfl⟩
  have hp : (0 : Rat) < 10 ^ dp := by positivity
  obtain ⟨t, rfl⟩ : ∃ t, s = dp + (t + 1) := ⟨s - dp - 1, by omega⟩
  have e : (m : Rat) / 10 ^ (dp + (t + 1)) * 10 ^ dp = (m : Rat) / 10 ^ (t + 1) := by
    rw [pow_add]; field_simp
  rw [e] at hk
  have hq : (10 : Rat) ≤ 10 ^ (t + 1) := by
    rw [pow_succ]
    have : (1 : Rat) ≤ 10 ^ t := one_le_pow₀ (by norm_num)
    linarith
  have hm' : |(m : Rat)| ≤ 2 ^ 96 - 1 := by
    have h1 : m.natAbs ≤ 2 ^ 96 - 1 := by omega
    have h2 : |m| ≤ 2 ^ 96 - 1 := by rw [Int.abs_eq_natAbs]; omega
    exact_mod_cast h2
  have h3 : |(m : Rat) / 10 ^ (t + 1)| ≤ (2 ^ 96 - 1) / 10 := by
    rw [abs_div, abs_of_pos (by positivity : (0 : Rat) < 10 ^ (t + 1))]
    exact div_le_div₀ (by norm_num) hm' (by norm_num) hq
  have h4 : |(k : Rat)| ≤ (2 ^ 96 - 1) / 10 + 1 := by
    have := abs_sub_abs_le_abs_sub (k : Rat) ((m : Rat) / 10 ^ (t + 1))
    linarith
  have h5 : |(k : Rat)| < ((2 ^ 96 : Int) : Rat) := by
    have : ((2 : Rat) ^ 96 - 1) / 10 + 1 < 2 ^ 96 := by norm_num
    push_cast
    linarith
  have h6 : |k| < 2 ^ 96 := by exact_mod_cast h5
  rw [Int.abs_eq_natAbs] at h6
  omega

theorem Round.places_of_ge {m : Int} {s dp : Nat} (h : s ≤ dp) : Places dp ((m : Rat) / 10 ^ s) := by
  obtain ⟨t, rfl⟩ : ∃ t, dp = s + t := ⟨dp - s, by omega⟩
  refine ⟨m * 10 ^ t, ?_⟩
  push_cast
  rw [pow_add]
  field_simp

/-- The results of these functions on numbers the decimal type can hold are numbers it can hold: there is no
overflow, and nothing is lost beyond the rounding asked for. -/
theorem C52_representable (n : Rat) (h : Dec.Rep n) :
    (∀ (dp : Nat) (r : Rat), RoundedTo dp n r → Dec.Rep r) ∧ (∀ (dp : Nat) (r : Rat), CutTo dp n r → Dec.Rep r) ∧
    Dec.Rep ⌊n⌋ ∧ Dec.Rep ⌈n⌉ ∧ Dec.Rep |n| := by
  obtain ⟨m, s, hm, hs, rfl⟩ := h
  have hint : ∀ k : Int, |(k : Rat) - (m : Rat) / 10 ^ s| ≤ 1 → ((m : Rat) / 10 ^ s = ((m : Int) : Rat) / 10 ^ 0 → k = m) →
      Dec.Rep (k : Rat) := by
    intro k hk h0
    rcases Nat.eq_zero_or_pos s with h | h
    · subst h
      rw [h0 rfl]
      exact ⟨m, 0, hm, by omega, by simp⟩
    · have := rep_of_le (k := k) (dp := 0) hm hs h (by simpa using hk)
      simpa using this
  refine ⟨fun dp r hr => ?_, fun dp r hr => ?_, ?_, ?_, ?_⟩
  · rcases Nat.lt_or_ge dp s with h | h
    · obtain ⟨k, rfl⟩ := hr.places
      rw [roundedTo_iff] at hr
      exact rep_of_le hm hs h (by linarith [hr.1])
    · rw [rounded_unique hr (C52_fixed dp _ (places_of_ge h)).1]
      exact ⟨m, s, hm, hs, rfl⟩
  · rcases Nat.lt_or_ge dp s with h | h
    · obtain ⟨k, rfl⟩ := hr.places
      rw [cutTo_iff] at hr
      exact rep_of_le hm hs h hr.1.le
    · rw [cutTo_unique hr (C52_fixed dp _ (places_of_ge h)).2]
      exact ⟨m, s, hm, hs, rfl⟩
  · refine hint _ ?_ ?_
    · rw [abs_le]
      have := Int.floor_le ((m : Rat) / 10 ^ s)
      have := Int.lt_floor_add_one ((m : Rat) / 10 ^ s)
      constructor <;> linarith
    · intro e; rw [e]; simp
  · refine hint _ ?_ ?_
    · rw [abs_le]
      have := Int.le_ceil ((m : Rat) / 10 ^ s)
      have := Int.ceil_lt_add_one ((m : Rat) / 10 ^ s)
      constructor <;> linarith
    · intro e; rw [e]; simp
  · refine ⟨|m|, s, by rwa [Int.natAbs_abs], hs, ?_⟩
    rw [abs_div, abs_of_pos (by positivity : (0 : Rat) < 10 ^ s), Int.cast_abs]

/-! ### cases -/

example : RoundedTo 1 (25 / 100) (3 / 10) :=
  ⟨⟨3, by norm_num⟩, by rw [abs_of_nonneg (by norm_num)]; norm_num, fun _ => by
    rw [abs_of_nonneg (by norm_num), abs_of_nonneg (by norm_num)]; norm_num⟩
example : Fn.round [.num (-25 / 10)] = .ok (.num (-3)) := by
  rw [(C52_default _).1]
  exact (C52_round (-25 / 10) 0 (by norm_num) _).2 ⟨-3, rfl, ⟨-3, by norm_num⟩, by rw [abs_of_nonpos (by norm_num)]; norm_num,
    fun _ => by rw [abs_of_neg (by norm_num), abs_of_neg (by norm_num)]; norm_num⟩
example : trunc [.num (-1299 / 1000), .num 2] = .ok (.num (-129 / 100)) :=
  (C52_trunc (-1299 / 1000) 2 (by norm_num) _).2 ⟨-129 / 100, rfl, ⟨-129, by norm_num⟩,
    by rw [abs_of_nonneg (by norm_num)]; norm_num, by rw [abs_of_neg (by norm_num), abs_of_neg (by norm_num)]; norm_num,
    by norm_num⟩
example : Dec.Rep (1299 / 1000) := ⟨1299, 3, by norm_num, by norm_num, by norm_num⟩

end Zen
