import Mathlib.Tactic.Linarith
import Mathlib.Order.Basic
/-
The proleptic Gregorian calendar, as used by the `chrono` crate (the crate itself is trusted to follow
it): valid dates, the number of a day, and the date of a day number.
-/
namespace Zen.Cal

/-- a year is a leap year -/
def leap (y : Int) : Bool := y % 4 == 0 && (y % 100 != 0 || y % 400 == 0)

/-- the number of days of a month -/
def monthDays (y m : Int) : Int :=
  if m = 2 then (if leap y then 29 else 28)
  else if m = 4 ∨ m = 6 ∨ m = 9 ∨ m = 11 then 30
  else 31

/-- a calendar date -/
structure Date where
  y : Int
  m : Int
  d : Int
deriving DecidableEq, Repr

def Date.Valid (a : Date) : Prop := 1 ≤ a.m ∧ a.m ≤ 12 ∧ 1 ≤ a.d ∧ a.d ≤ monthDays a.y a.m

instance (a : Date) : Decidable a.Valid := by unfold Date.Valid; infer_instance

/-- days from the first of January of year 1 to the first of January of year `y` -/
def yearStart (y : Int) : Int := 365 * (y - 1) + (y - 1) / 4 - (y - 1) / 100 + (y - 1) / 400

/-- days from the first of January to the first of month `m` (`monthStart_succ` below: each month is
`monthDays` long) -/
def monthStart (y m : Int) : Int :=
  if m ≤ 2 then 31 * (m - 1)
  else (if leap y then 60 else 59) + (153 * (m - 3) + 2) / 5

/-- the number of a day; the first of January of year 1, a Monday, has number 0 -/
def Date.dayNo (a : Date) : Int := yearStart a.y + monthStart a.y a.m + a.d - 1

/-- the year of a day number -/
def yearOf (n : Int) : Int :=
  let q := n * 400 / 146097 + 1
  if n < yearStart q then q - 1
  else if n < yearStart (q + 1) then q
  else q + 1

/-- the month of the day `k` days after the first of January of year `y` -/
def monthOf (y k : Int) : Int :=
  if k < 31 then 1
  else if k < (if leap y then 60 else 59) then 2
  else 3 + (5 * (k - (if leap y then 60 else 59)) + 2) / 153

/-- the date of a day number -/
def ofDay (n : Int) : Date :=
  let y := yearOf n
  let k := n - yearStart y
  let m := monthOf y k
  ⟨y, m, k - monthStart y m + 1⟩

/-! ### it is a calendar -/

theorem yearStart_succ (y : Int) : yearStart (y + 1) = yearStart y + (if leap y then 366 else 365) := by
  simp only [yearStart, leap]
  by_cases h4 : y % 4 = 0 <;> by_cases h100 : y % 100 = 0 <;> by_cases h400 : y % 400 = 0 <;>
    simp [h4, h100, h400] <;> omega

theorem yearStart_mono {a b : Int} (h : a ≤ b) : yearStart a + 365 * (b - a) ≤ yearStart b := by
  simp only [yearStart]; omega

theorem yearOf_spec (n : Int) : yearStart (yearOf n) ≤ n ∧ n < yearStart (yearOf n + 1) := by
  simp only [yearOf]
  generalize hq : n * 400 / 146097 = q
  have h1 : yearStart q ≤ n := by simp only [yearStart]; omega
  have h2 : n < yearStart (q + 3) := by simp only [yearStart]; omega
  split_ifs with ha hb
  · have e1 : q + 1 - 1 = q := by omega
    rw [e1]; exact ⟨h1, ha⟩
  · exact ⟨by omega, hb⟩
  · have e1 : q + 1 + 1 + 1 = q + 3 := by omega
    rw [e1]; exact ⟨by omega, h2⟩

theorem monthStart_succ {y m : Int} (h1 : 1 ≤ m) (h2 : m ≤ 11) :
    monthStart y (m + 1) = monthStart y m + monthDays y m := by
  obtain rfl | rfl | rfl | rfl | rfl | rfl | rfl | rfl | rfl | rfl | rfl :
    m = 1 ∨ m = 2 ∨ m = 3 ∨ m = 4 ∨ m = 5 ∨ m = 6 ∨ m = 7 ∨ m = 8 ∨ m = 9 ∨ m = 10 ∨ m = 11 := by omega
  all_goals cases h : leap y <;> simp [monthStart, monthDays, h]

theorem monthStart_end (y : Int) : monthStart y 12 + monthDays y 12 = if leap y then 366 else 365 := by
  cases h : leap y <;> simp [monthStart, monthDays, h]

theorem monthDays_bounds (y m : Int) : 28 ≤ monthDays y m ∧ monthDays y m ≤ 31 := by
  unfold monthDays; split_ifs <;> omega

theorem monthOf_spec {y k : Int} (h0 : 0 ≤ k) (h1 : k < if leap y then 366 else 365) :
    1 ≤ monthOf y k ∧ monthOf y k ≤ 12 ∧ monthStart y (monthOf y k) ≤ k ∧
      k < monthStart y (monthOf y k) + monthDays y (monthOf y k) := by
  cases h : leap y <;> simp only [monthOf, monthStart, monthDays, h, if_true, if_false, Bool.false_eq_true] at h1 ⊢ <;>
    split_ifs <;> omega

theorem monthStart_nonneg {y m : Int} (h : 1 ≤ m) : 0 ≤ monthStart y m := by
  cases h : leap y <;> simp only [monthStart, h] <;> split_ifs <;> omega

theorem ofDay_valid (n : Int) : (ofDay n).Valid := by
  obtain ⟨h1, h2⟩ := yearOf_spec n
  rw [yearStart_succ] at h2
  obtain ⟨a, b, c, d⟩ := monthOf_spec (y := yearOf n) (k := n - yearStart (yearOf n)) (by omega) (by omega)
  exact ⟨a, b, by simp only [ofDay]; omega, by simp only [ofDay]; omega⟩

theorem dayNo_ofDay (n : Int) : (ofDay n).dayNo = n := by
  simp only [Date.dayNo, ofDay]; omega

theorem monthStart_mono {y a b : Int} (h1 : 1 ≤ a) (h : a < b) (h2 : b ≤ 12) :
    monthStart y a + monthDays y a ≤ monthStart y b := by
  obtain ⟨k, rfl⟩ : ∃ k : Nat, b = a + 1 + k := ⟨(b - a - 1).toNat, by omega⟩
  induction k with
  | zero =>
    have := monthStart_succ (y := y) h1 (by omega)
    simp only [Nat.cast_zero, Int.add_zero]; omega
  | succ k ih =>
    have h3 := ih (by omega) (by omega)
    have h4 := monthStart_succ (y := y) (m := a + 1 + k) (by omega) (by omega)
    have h5 := monthDays_bounds y (a + 1 + k)
    have e : a + 1 + ((k + 1 : Nat) : Int) = a + 1 + k + 1 := by omega
    rw [e, h4]; omega

theorem dayNo_year {a : Date} (h : a.Valid) : yearStart a.y ≤ a.dayNo ∧ a.dayNo < yearStart (a.y + 1) := by
  obtain ⟨h1, h2, h3, h4⟩ := h
  have hs := yearStart_succ a.y
  have he := monthStart_end a.y
  have h0 := monthStart_nonneg (y := a.y) h1
  have hm : monthStart a.y a.m + monthDays a.y a.m ≤ if leap a.y then 366 else 365 := by
    rcases Int.lt_or_le a.m 12 with h | h
    · have := monthStart_mono (y := a.y) h1 h (Int.le_refl 12)
      have := monthDays_bounds a.y 12
      omega
    · have : a.m = 12 := by omega
      rw [this]; omega
  simp only [Date.dayNo]
  rw [hs]
  revert hm
  generalize (if leap a.y then (366 : Int) else 365) = L
  generalize monthStart a.y a.m = M at *
  generalize monthDays a.y a.m = D at *
  generalize yearStart a.y = Y at *
  intro hm
  clear hs he h1 h2
  omega

/-- dates are ordered by year, month, day -/
def Date.Before (a b : Date) : Prop := a.y < b.y ∨ (a.y = b.y ∧ (a.m < b.m ∨ (a.m = b.m ∧ a.d < b.d)))

theorem dayNo_lt_of_before {a b : Date} (ha : a.Valid) (hb : b.Valid) (h : a.Before b) : a.dayNo < b.dayNo := by
  rcases h with h | ⟨hy, h⟩
  · have h1 := (dayNo_year ha).2
    have h2 := (dayNo_year hb).1
    have := yearStart_mono (a := a.y + 1) (b := b.y) (by omega)
    omega
  · rcases h with h | ⟨hm, h⟩
    · have := monthStart_mono (y := a.y) ha.1 h hb.2.1
      have h4 := ha.2.2.2
      have h3 := hb.2.2.1
      simp only [Date.dayNo]; rw [← hy]; omega
    · simp only [Date.dayNo]; rw [← hy, ← hm]; omega

theorem dayNo_lt_iff {a b : Date} (ha : a.Valid) (hb : b.Valid) : a.dayNo < b.dayNo ↔ a.Before b := by
  constructor
  · intro h
    by_contra hn
    have : b.Before a ∨ a = b := by
      obtain ⟨ay, am, ad⟩ := a
      obtain ⟨by', bm, bd⟩ := b
      simp only [Date.Before, Date.mk.injEq] at *
      omega
    rcases this with h2 | h2
    · have := dayNo_lt_of_before hb ha h2; omega
    · rw [h2] at h; omega
  · exact dayNo_lt_of_before ha hb

theorem dayNo_inj {a b : Date} (ha : a.Valid) (hb : b.Valid) (h : a.dayNo = b.dayNo) : a = b := by
  by_contra hn
  have : a.Before b ∨ b.Before a := by
    obtain ⟨ay, am, ad⟩ := a
    obtain ⟨by', bm, bd⟩ := b
    simp only [Date.Before, Date.mk.injEq] at *
    omega
  rcases this with h2 | h2
  · have := dayNo_lt_of_before ha hb h2; omega
  · have := dayNo_lt_of_before hb ha h2; omega

theorem ofDay_dayNo {a : Date} (ha : a.Valid) : ofDay a.dayNo = a :=
  dayNo_inj (ofDay_valid _) ha (dayNo_ofDay _)

-- the calendar of some days
example : (⟨1970, 1, 1⟩ : Date).dayNo = 719162 := by decide
example : ofDay 719162 = ⟨1970, 1, 1⟩ := by decide
example : (⟨2024, 2, 29⟩ : Date).Valid ∧ ¬ (⟨2023, 2, 29⟩ : Date).Valid ∧ ¬ (⟨1900, 2, 29⟩ : Date).Valid := by decide
example : ofDay ((⟨2024, 2, 28⟩ : Date).dayNo + 2) = ⟨2024, 3, 1⟩ := by decide
-- 16 November 2026 is a Monday
example : (⟨2026, 11, 16⟩ : Date).dayNo % 7 = 0 := by decide

end Zen.Cal
