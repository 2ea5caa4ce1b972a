import Verif.Date.DateLemmas
/-
C23 — Calendar helpers.

`start_of`, `end_of`, `set`, adding durations, the comparisons and `diff`, for every valid date-time in
every time zone. A zone is an arbitrary offset function; what needs more of the zone says so.
-/
namespace Zen

open Cal Dur

namespace Cal

/-! ### Specification -/

/-- two local times lie in the same second, minute, … year; weeks begin on Monday -/
def SameUnit (u : DUnit) (a b : Local) : Prop :=
  match u with
  | .second => a.date = b.date ∧ a.h = b.h ∧ a.mi = b.mi ∧ a.s = b.s
  | .minute => a.date = b.date ∧ a.h = b.h ∧ a.mi = b.mi
  | .hour => a.date = b.date ∧ a.h = b.h
  | .day => a.date = b.date
  | .week => ∃ monday : Int, monday % 7 = 0 ∧ monday ≤ a.date.dayNo ∧ a.date.dayNo < monday + 7 ∧
      monday ≤ b.date.dayNo ∧ b.date.dayNo < monday + 7
  | .month => a.date.y = b.date.y ∧ a.date.m = b.date.m
  | .quarter => a.date.y = b.date.y ∧ ∃ k, (k = 1 ∨ k = 4 ∨ k = 7 ∨ k = 10) ∧
      k ≤ a.date.m ∧ a.date.m ≤ k + 2 ∧ k ≤ b.date.m ∧ b.date.m ≤ k + 2
  | .year => a.date.y = b.date.y

/-- the zone orders instants like their local times, except among instants whose local time occurs
twice: whatever local time an instant has, it comes before (after) the instants whose local time
occurs once and is later (earlier). True of a fixed offset and of a zone with one clock change (below);
false only when a zone goes back over local times it had skipped before. -/
def Zone.Ordered (z : Zone) : Prop :=
  ∀ u v, z.single (u + z.offset u) = some u →
    (u + z.offset u ≤ v + z.offset v → u ≤ v) ∧ (v + z.offset v ≤ u + z.offset u → v ≤ u)

/-! ### the first and the last local time of a unit -/

def floorDate (u : DUnit) (d : Date) : Date :=
  match u with
  | .week => d.addDays (-d.weekday)
  | .month => ⟨d.y, d.m, 1⟩
  | .quarter => ⟨d.y, (d.quarter - 1) * 3 + 1, 1⟩
  | .year => ⟨d.y, 1, 1⟩
  | _ => d

def floorLocal (u : DUnit) (l : Local) : Local :=
  match u with
  | .second => ⟨l.date, l.h, l.mi, l.s, 0⟩
  | .minute => ⟨l.date, l.h, l.mi, 0, 0⟩
  | .hour => ⟨l.date, l.h, 0, 0, 0⟩
  | u => ⟨floorDate u l.date, 0, 0, 0, 0⟩

def ceilDate (u : DUnit) (d : Date) : Date :=
  match u with
  | .week => d.addDays (6 - d.weekday)
  | .month => ⟨d.y, d.m, monthDays d.y d.m⟩
  | .quarter => ⟨d.y, d.quarter * 3, monthDays d.y (d.quarter * 3)⟩
  | .year => ⟨d.y, 12, 31⟩
  | _ => d

def ceilLocal (u : DUnit) (l : Local) : Local :=
  match u with
  | .second => ⟨l.date, l.h, l.mi, l.s, 999999999⟩
  | .minute => ⟨l.date, l.h, l.mi, 59, 999999999⟩
  | .hour => ⟨l.date, l.h, 59, 59, 999999999⟩
  | u => ⟨ceilDate u l.date, 23, 59, 59, 999999999⟩

theorem addDays_zero {d : Date} (h : d.Valid) : d.addDays 0 = d := by
  simp only [Date.addDays, Int.add_zero]; exact ofDay_dayNo h

theorem months {m : Int} (h1 : 1 ≤ m) (h2 : m ≤ 12) : m = 1 ∨ m = 2 ∨ m = 3 ∨ m = 4 ∨ m = 5 ∨ m = 6 ∨ m = 7 ∨
    m = 8 ∨ m = 9 ∨ m = 10 ∨ m = 11 ∨ m = 12 := by omega

theorem first_of_quarter {d : Date} (h : d.Valid) :
    Date.Valid ⟨d.y, (d.quarter - 1) * 3 + 1, d.d⟩ ↔ ¬ (d.m = 5 ∧ d.d = 31) := by
  obtain ⟨y, m, dd⟩ := d
  obtain ⟨h1, h2, h3, h4⟩ := h
  simp only [Date.Valid, Date.quarter] at *
  obtain rfl | rfl | rfl | rfl | rfl | rfl | rfl | rfl | rfl | rfl | rfl | rfl := months h1 h2 <;>
    norm_num [monthDays] at h4 ⊢ <;> (try split_ifs at h4) <;> omega

theorem last_of_quarter {d : Date} (h : d.Valid) :
    Date.Valid ⟨d.y, d.quarter * 3, d.d⟩ ↔ ¬ (d.d = 31 ∧ (d.m = 5 ∨ d.m = 7 ∨ d.m = 8)) := by
  obtain ⟨y, m, dd⟩ := d
  obtain ⟨h1, h2, h3, h4⟩ := h
  simp only [Date.Valid, Date.quarter] at *
  obtain rfl | rfl | rfl | rfl | rfl | rfl | rfl | rfl | rfl | rfl | rfl | rfl := months h1 h2 <;>
    norm_num [monthDays] at h4 ⊢ <;> (try split_ifs at h4) <;> omega

theorem first_valid {y m : Int} (h1 : 1 ≤ m) (h2 : m ≤ 12) : Date.Valid ⟨y, m, 1⟩ := by
  have := monthDays_bounds y m
  exact ⟨h1, h2, by simp, by simp only; omega⟩

theorem last_valid {y m : Int} (h1 : 1 ≤ m) (h2 : m ≤ 12) : Date.Valid ⟨y, m, monthDays y m⟩ := by
  have := monthDays_bounds y m
  exact ⟨h1, h2, by simp only; omega, le_refl _⟩

theorem floor_valid (u : DUnit) {l : Local} (h : l.Valid) : (floorLocal u l).Valid := by
  obtain ⟨hd, h1, h2, h3, h4, h5, h6, h7, h8⟩ := h
  obtain ⟨d1, d2, d3, d4⟩ := hd
  cases u <;> refine ⟨?_, ?_, ?_, ?_, ?_, ?_, ?_, ?_, ?_⟩ <;> simp only [floorLocal, floorDate] <;> try omega
  · exact ⟨d1, d2, d3, d4⟩
  · exact ⟨d1, d2, d3, d4⟩
  · exact ⟨d1, d2, d3, d4⟩
  · exact ⟨d1, d2, d3, d4⟩
  · exact ofDay_valid _
  · exact first_valid d1 d2
  · exact first_valid (by simp only [Date.quarter]; omega) (by simp only [Date.quarter]; omega)
  · exact first_valid (by decide) (by decide)

theorem ceil_valid (u : DUnit) {l : Local} (h : l.Valid) : (ceilLocal u l).Valid := by
  obtain ⟨hd, h1, h2, h3, h4, h5, h6, h7, h8⟩ := h
  obtain ⟨d1, d2, d3, d4⟩ := hd
  cases u <;> refine ⟨?_, ?_, ?_, ?_, ?_, ?_, ?_, ?_, ?_⟩ <;> simp only [ceilLocal, ceilDate] <;> try omega
  · exact ⟨d1, d2, d3, d4⟩
  · exact ⟨d1, d2, d3, d4⟩
  · exact ⟨d1, d2, d3, d4⟩
  · exact ⟨d1, d2, d3, d4⟩
  · exact ofDay_valid _
  · exact last_valid d1 d2
  · exact last_valid (by simp only [Date.quarter]; omega) (by simp only [Date.quarter]; omega)
  · exact last_valid (y := l.date.y) (m := 12) (by decide) (by decide)

theorem start_chain (u : DUnit) {l : Local} (h : l.Valid) :
    localChain (startSteps u l.date) l =
      if u = .quarter ∧ l.date.m = 5 ∧ l.date.d = 31 then none else some (floorLocal u l) := by
  cases u
  case week =>
    by_cases hw : l.date.weekday = 0
    · simp [startSteps, clock0, localChain, hw, Local.withHour, Local.withMinute, Local.withSecond, Local.withNano,
        floorLocal, floorDate, addDays_zero h.1]
    · simp [startSteps, clock0, localChain, hw, Local.withHour, Local.withMinute, Local.withSecond, Local.withNano,
        floorLocal, floorDate]
  case quarter =>
    have h1 := first_of_quarter h.1
    by_cases hq : l.date.m = 5 ∧ l.date.d = 31
    · have : ¬ Date.Valid ⟨l.date.y, (l.date.quarter - 1) * 3 + 1, l.date.d⟩ := fun hv => h1.1 hv hq
      rw [if_pos ⟨rfl, hq⟩]
      simp [startSteps, localChain, Local.withMonth, Local.withDate, this]
    · have h2 : Date.Valid ⟨l.date.y, (l.date.quarter - 1) * 3 + 1, 1⟩ := (floor_valid .quarter h).1
      simp [startSteps, clock0, localChain, Local.withMonth, Local.withDay, Local.withDate, h1.2 hq, hq, h2,
        Local.withHour, Local.withMinute, Local.withSecond, Local.withNano, floorLocal, floorDate]
  case month =>
    have h2 : Date.Valid ⟨l.date.y, l.date.m, 1⟩ := first_valid h.1.1 h.1.2.1
    simp [startSteps, clock0, localChain, Local.withDay, Local.withDate, h2,
        Local.withHour, Local.withMinute, Local.withSecond, Local.withNano, floorLocal, floorDate]
  case year =>
    have h2 : Date.Valid ⟨l.date.y, 1, 1⟩ := first_valid (by decide) (by decide)
    have h3 : Date.Valid ⟨l.date.y, 1, l.date.d⟩ := by
      have := monthDays_bounds l.date.y l.date.m
      have := h.1.2.2
      exact ⟨by simp, by simp, this.1, by simp only [monthDays]; norm_num; omega⟩
    simp [startSteps, clock0, localChain, Local.withMonth, Local.withDay, Local.withDate, h2, h3,
        Local.withHour, Local.withMinute, Local.withSecond, Local.withNano, floorLocal, floorDate]
  all_goals simp [startSteps, clock0, localChain, Local.withHour, Local.withMinute, Local.withSecond, Local.withNano,
        floorLocal, floorDate]

theorem end_chain (u : DUnit) {l : Local} (h : l.Valid) :
    localChain (endSteps u l.date) l =
      if u = .quarter ∧ l.date.d = 31 ∧ (l.date.m = 5 ∨ l.date.m = 7 ∨ l.date.m = 8) then none
      else some (ceilLocal u l) := by
  cases u
  case week =>
    by_cases hw : l.date.weekday = 6
    · simp [endSteps, clock59, localChain, hw, Local.withHour, Local.withMinute, Local.withSecond, Local.withNano,
        ceilLocal, ceilDate, addDays_zero h.1]
    · simp [endSteps, clock59, localChain, hw, Local.withHour, Local.withMinute, Local.withSecond, Local.withNano,
        ceilLocal, ceilDate]
  case quarter =>
    have h1 := last_of_quarter h.1
    by_cases hq : l.date.d = 31 ∧ (l.date.m = 5 ∨ l.date.m = 7 ∨ l.date.m = 8)
    · have : ¬ Date.Valid ⟨l.date.y, l.date.quarter * 3, l.date.d⟩ := fun hv => h1.1 hv hq
      rw [if_pos ⟨rfl, hq⟩]
      simp [endSteps, localChain, Local.withMonth, Local.withDate, Local.withNano, this]
    · have h2 : Date.Valid ⟨l.date.y, l.date.quarter * 3, monthDays l.date.y (l.date.quarter * 3)⟩ :=
        (ceil_valid .quarter h).1
      simp [endSteps, clock59, localChain, Local.withMonth, Local.withDay, Local.withDate, h1.2 hq, hq, h2,
        Local.withHour, Local.withMinute, Local.withSecond, Local.withNano, ceilLocal, ceilDate]
  case month =>
    have h2 : Date.Valid ⟨l.date.y, l.date.m, monthDays l.date.y l.date.m⟩ := last_valid h.1.1 h.1.2.1
    simp [endSteps, clock59, localChain, Local.withDay, Local.withDate, h2,
        Local.withHour, Local.withMinute, Local.withSecond, Local.withNano, ceilLocal, ceilDate]
  case year =>
    have e : monthDays l.date.y 12 = 31 := by simp [monthDays]
    have h2 : Date.Valid ⟨l.date.y, 12, 31⟩ := ⟨by simp, by simp, by simp, by simp [monthDays]⟩
    have h3 : Date.Valid ⟨l.date.y, 12, l.date.d⟩ := by
      have := monthDays_bounds l.date.y l.date.m
      have := h.1.2.2
      exact ⟨by simp, by simp, this.1, by simp only [monthDays]; norm_num; omega⟩
    simp [endSteps, clock59, localChain, Local.withMonth, Local.withDay, Local.withDate, e, h2, h3,
        Local.withHour, Local.withMinute, Local.withSecond, Local.withNano, ceilLocal, ceilDate]
  all_goals simp [endSteps, clock59, localChain, Local.withHour, Local.withMinute, Local.withSecond, Local.withNano,
        ceilLocal, ceilDate]

/-! ### units are intervals -/

theorem addDays_dayNo (d : Date) (n : Int) : (d.addDays n).dayNo = d.dayNo + n := dayNo_ofDay _

theorem same_of_between {u : DUnit} {l x : Local} (hl : l.Valid) (hx : x.Valid)
    (h1 : (floorLocal u l).nanos ≤ x.nanos) (h2 : x.nanos ≤ (ceilLocal u l).nanos) : SameUnit u l x := by
  have hf := floor_valid u hl
  have hc := ceil_valid u hl
  have sf := secs_lt_day hf
  have sc := secs_lt_day hc
  have sx := secs_lt_day hx
  have nf := hf.2.2.2.2.2.2.2
  have nc := hc.2.2.2.2.2.2.2
  have nx := hx.2.2.2.2.2.2.2
  have d1 : (floorLocal u l).date.dayNo ≤ x.date.dayNo := by simp only [Local.nanos] at h1; omega
  have d2 : x.date.dayNo ≤ (ceilLocal u l).date.dayNo := by simp only [Local.nanos] at h2; omega
  have o1 : ¬ x.date.Before (floorLocal u l).date := by
    rw [← dayNo_lt_iff hx.1 hf.1]; omega
  have o2 : ¬ (ceilLocal u l).date.Before x.date := by
    rw [← dayNo_lt_iff hc.1 hx.1]; omega
  clear sf sc sx
  have hdate : ∀ {a b : Date}, a.Valid → b.Valid → a.dayNo ≤ b.dayNo → b.dayNo ≤ a.dayNo → a = b :=
    fun ha hb h1 h2 => dayNo_inj ha hb (by omega)
  obtain ⟨-, l1, l2, l3, l4, l5, l6, l7, l8⟩ := hl
  obtain ⟨-, x1, x2, x3, x4, x5, x6, x7, x8⟩ := id hx
  cases u
  case second =>
    have e := hdate hf.1 hx.1 d1 d2
    simp only [floorLocal, ceilLocal, Local.nanos, Local.secs] at *
    rw [← e] at h1 h2
    exact ⟨e, by omega, by omega, by omega⟩
  case minute =>
    have e := hdate hf.1 hx.1 d1 d2
    simp only [floorLocal, ceilLocal, Local.nanos, Local.secs] at *
    rw [← e] at h1 h2
    exact ⟨e, by omega, by omega⟩
  case hour =>
    have e := hdate hf.1 hx.1 d1 d2
    simp only [floorLocal, ceilLocal, Local.nanos, Local.secs] at *
    rw [← e] at h1 h2
    exact ⟨e, by omega⟩
  case day => exact hdate hf.1 hx.1 d1 d2
  case week =>
    simp only [floorLocal, ceilLocal, floorDate, ceilDate, addDays_dayNo, Date.weekday] at d1 d2
    refine ⟨l.date.dayNo - l.date.dayNo % 7, ?_, ?_, ?_, ?_, ?_⟩ <;> omega
  case month =>
    have := hx.1
    simp only [floorLocal, ceilLocal, floorDate, ceilDate, Date.Before, Date.Valid, SameUnit] at *
    omega
  case quarter =>
    have := hx.1
    simp only [floorLocal, ceilLocal, floorDate, ceilDate, Date.Before, Date.Valid, SameUnit, Date.quarter] at *
    refine ⟨by omega, (l.date.m - 1) / 3 * 3 + 1, ?_⟩
    omega
  case year =>
    have := hx.1
    simp only [floorLocal, ceilLocal, floorDate, ceilDate, Date.Before, Date.Valid, SameUnit] at *
    omega

theorem between_of_same {u : DUnit} {l x : Local} (hl : l.Valid) (hx : x.Valid) (h : SameUnit u l x) :
    (floorLocal u l).nanos ≤ x.nanos ∧ x.nanos ≤ (ceilLocal u l).nanos := by
  have hf := floor_valid u hl
  have hc := ceil_valid u hl
  obtain ⟨-, l1, l2, l3, l4, l5, l6, l7, l8⟩ := id hl
  obtain ⟨-, x1, x2, x3, x4, x5, x6, x7, x8⟩ := id hx
  -- for units of a day or more it is enough to compare the dates
  have key : (¬ x.date.Before (floorLocal u l).date) → (¬ (ceilLocal u l).date.Before x.date) →
      (floorLocal u l).h = 0 → (floorLocal u l).mi = 0 → (floorLocal u l).s = 0 → (floorLocal u l).ns = 0 →
      (ceilLocal u l).h = 23 → (ceilLocal u l).mi = 59 → (ceilLocal u l).s = 59 → (ceilLocal u l).ns = 999999999 →
      (floorLocal u l).nanos ≤ x.nanos ∧ x.nanos ≤ (ceilLocal u l).nanos := by
    intro o1 o2 e1 e2 e3 e4 e5 e6 e7 e8
    rw [← dayNo_lt_iff hx.1 hf.1] at o1
    rw [← dayNo_lt_iff hc.1 hx.1] at o2
    simp only [Local.nanos, Local.secs, e1, e2, e3, e4, e5, e6, e7, e8]
    omega
  cases u
  case second =>
    obtain ⟨e, e1, e2, e3⟩ := h
    simp only [floorLocal, ceilLocal, Local.nanos, Local.secs, e, e1, e2, e3]; omega
  case minute =>
    obtain ⟨e, e1, e2⟩ := h
    simp only [floorLocal, ceilLocal, Local.nanos, Local.secs, e, e1, e2]; omega
  case hour =>
    obtain ⟨e, e1⟩ := h
    simp only [floorLocal, ceilLocal, Local.nanos, Local.secs, e, e1]; omega
  case day =>
    refine key ?_ ?_ rfl rfl rfl rfl rfl rfl rfl rfl <;>
      (simp only [SameUnit] at h; simp only [floorLocal, ceilLocal, floorDate, ceilDate, h, Date.Before]; omega)
  case week =>
    refine key ?_ ?_ rfl rfl rfl rfl rfl rfl rfl rfl
    · rw [← dayNo_lt_iff hx.1 hf.1]
      obtain ⟨k, h⟩ := h
      simp only [floorLocal, floorDate, addDays_dayNo, Date.weekday]
      omega
    · rw [← dayNo_lt_iff hc.1 hx.1]
      obtain ⟨k, h⟩ := h
      simp only [ceilLocal, ceilDate, addDays_dayNo, Date.weekday]
      omega
  case month =>
    have hv := hx.1
    obtain ⟨e1, e2⟩ := h
    refine key ?_ ?_ rfl rfl rfl rfl rfl rfl rfl rfl
    · simp only [floorLocal, floorDate, Date.Before, Date.Valid] at *; omega
    · simp only [ceilLocal, ceilDate, Date.Before, Date.Valid, e1, e2] at *; omega
  case quarter =>
    have hv := hx.1
    obtain ⟨e1, k, hk, h1, h2, h3, h4⟩ := h
    have eq : l.date.quarter * 3 = k + 2 := by simp only [Date.quarter]; omega
    refine key ?_ ?_ rfl rfl rfl rfl rfl rfl rfl rfl
    · simp only [floorLocal, floorDate, Date.Before, Date.Valid] at *; omega
    · simp only [ceilLocal, ceilDate, Date.Before, eq, e1]
      rintro (h | ⟨-, h | ⟨h, h'⟩⟩)
      · omega
      · omega
      · have := hv.2.2.2; rw [← h] at this; omega
  case year =>
    have hv := hx.1
    simp only [SameUnit] at h
    have := monthDays_bounds x.date.y x.date.m
    refine key ?_ ?_ rfl rfl rfl rfl rfl rfl rfl rfl
    · simp only [floorLocal, floorDate, Date.Before, Date.Valid] at *; omega
    · simp only [ceilLocal, ceilDate, Date.Before, Date.Valid] at *; omega

theorem sameUnit_refl (u : DUnit) {l : Local} (hl : l.Valid) : SameUnit u l l := by
  have h := hl.1
  cases u
  case week => exact ⟨l.date.dayNo - l.date.dayNo % 7, by omega, by omega, by omega, by omega, by omega⟩
  case quarter =>
    refine ⟨rfl, (l.date.m - 1) / 3 * 3 + 1, ?_⟩
    simp only [Date.Valid] at h; omega
  all_goals simp [SameUnit]

theorem sameUnit_symm {u : DUnit} {a b : Local} (h : SameUnit u a b) : SameUnit u b a := by
  cases u
  case week => obtain ⟨k, h1, h2, h3, h4, h5⟩ := h; exact ⟨k, h1, h4, h5, h2, h3⟩
  case quarter => obtain ⟨e, k, hk, h2, h3, h4, h5⟩ := h; exact ⟨e.symm, k, hk, h4, h5, h2, h3⟩
  all_goals simp only [SameUnit] at *; simp_all

theorem sameUnit_trans {u : DUnit} {a b c : Local} (h : SameUnit u a b) (h' : SameUnit u b c) : SameUnit u a c := by
  cases u
  case week =>
    obtain ⟨k, h1, h2, h3, h4, h5⟩ := h
    obtain ⟨k', h1', h2', h3', h4', h5'⟩ := h'
    exact ⟨k, h1, h2, h3, by omega, by omega⟩
  case quarter =>
    obtain ⟨e, k, hk, h2, h3, h4, h5⟩ := h
    obtain ⟨e', k', hk', h2', h3', h4', h5'⟩ := h'
    exact ⟨e.trans e', k, hk, h2, h3, by omega, by omega⟩
  all_goals simp only [SameUnit] at *; simp_all


/-! ### the steps stay in the unit -/

theorem chainIn_clock0 {C : Local → Prop} (hC : ∀ l l' : Local, l.date = l'.date → C l → C l') {l : Local} (h : C l) :
    ChainIn C clock0 l := by
  simp only [clock0, ChainIn, Local.withHour, Local.withMinute, Local.withSecond, Local.withNano]
  norm_num
  refine ⟨?_, ?_, ?_, ?_⟩ <;> exact hC _ _ (by rfl) h

theorem chainIn_clock59 {C : Local → Prop} (hC : ∀ l l' : Local, l.date = l'.date → C l → C l') {l : Local} (h : C l) :
    ChainIn C clock59 l := by
  simp only [clock59, ChainIn, Local.withHour, Local.withMinute, Local.withSecond]
  norm_num
  refine ⟨?_, ?_, ?_⟩ <;> exact hC _ _ (by rfl) h

theorem same_date {u : DUnit} (hu : u = .day ∨ u = .week ∨ u = .month ∨ u = .quarter ∨ u = .year) {a : Local}
    (l l' : Local) (e : l.date = l'.date) (h : SameUnit u a l) : SameUnit u a l' := by
  rcases hu with rfl | rfl | rfl | rfl | rfl <;> simp only [SameUnit, ← e] at * <;> exact h

theorem withDate_some {d : Date} {l l' : Local} (h : l.withDate d = some l') : l' = { l with date := d } := by
  simp only [Local.withDate] at h
  split_ifs at h
  cases h; rfl

theorem start_in (u : DUnit) {l : Local} (h : l.Valid) : ChainIn (SameUnit u l) (startSteps u l.date) l := by
  have hr := sameUnit_refl u h
  have hd := h.1
  cases u
  case second => simp [startSteps, ChainIn, Local.withNano, SameUnit]
  case minute => simp [startSteps, ChainIn, Local.withNano, Local.withSecond, SameUnit]
  case hour => simp [startSteps, ChainIn, Local.withNano, Local.withSecond, Local.withMinute, SameUnit]
  case day => exact chainIn_clock0 (same_date (by simp)) hr
  case week =>
    simp only [startSteps]
    split_ifs with hw
    · exact chainIn_clock0 (same_date (by simp)) hr
    · intro l' e
      cases e
      have : SameUnit .week l { l with date := l.date.addDays (-l.date.weekday) } := by
        refine ⟨l.date.dayNo - l.date.dayNo % 7, ?_, ?_, ?_, ?_, ?_⟩ <;>
          (try simp only [addDays_dayNo, Date.weekday]) <;> omega
      exact ⟨this, chainIn_clock0 (same_date (by simp)) this⟩
  case month =>
    intro l' e
    have e := withDate_some e
    have : SameUnit .month l l' := by rw [e]; exact ⟨rfl, rfl⟩
    exact ⟨this, chainIn_clock0 (same_date (by simp)) this⟩
  case quarter =>
    have hq : ∀ d : Int, SameUnit .quarter l { l with date := ⟨l.date.y, (l.date.quarter - 1) * 3 + 1, d⟩ } := by
      intro d
      refine ⟨rfl, (l.date.quarter - 1) * 3 + 1, ?_⟩
      simp only [Date.Valid] at hd
      simp only [Date.quarter]
      omega
    intro l' e
    have e := withDate_some e
    subst e
    refine ⟨hq _, fun l' e => ?_⟩
    have e := withDate_some e
    subst e
    exact ⟨hq _, chainIn_clock0 (same_date (by simp)) (hq _)⟩
  case year =>
    intro l' e
    have e := withDate_some e
    subst e
    refine ⟨rfl, fun l' e => ?_⟩
    have e := withDate_some e
    subst e
    exact ⟨rfl, chainIn_clock0 (same_date (by simp)) rfl⟩

theorem end_in (u : DUnit) {l : Local} (h : l.Valid) : ChainIn (SameUnit u l) (endSteps u l.date) l := by
  have hr := sameUnit_refl u h
  have hd := h.1
  intro l1 e1
  have e1 : l1 = { l with ns := 999999999 } := by
    simp only [Local.withNano] at e1
    norm_num at e1
    exact e1.symm
  subst e1
  cases u
  case second => simp [ChainIn, SameUnit]
  case minute => simp [ChainIn, Local.withSecond, SameUnit]
  case hour => simp [ChainIn, Local.withSecond, Local.withMinute, SameUnit]
  case day => exact ⟨hr, chainIn_clock59 (same_date (by simp)) hr⟩
  case week =>
    refine ⟨hr, ?_⟩
    split_ifs with hw
    · exact chainIn_clock59 (same_date (by simp)) (same_date (by simp) _ _ rfl hr)
    · intro l' e
      cases e
      have : SameUnit .week l { l with date := l.date.addDays (6 - l.date.weekday), ns := 999999999 } := by
        refine ⟨l.date.dayNo - l.date.dayNo % 7, ?_, ?_, ?_, ?_, ?_⟩ <;>
          (try simp only [addDays_dayNo, Date.weekday]) <;> omega
      exact ⟨this, chainIn_clock59 (same_date (by simp)) this⟩
  case month =>
    refine ⟨hr, ?_⟩
    intro l' e
    have e := withDate_some e
    have : SameUnit .month l l' := by rw [e]; exact ⟨rfl, rfl⟩
    exact ⟨this, chainIn_clock59 (same_date (by simp)) this⟩
  case quarter =>
    refine ⟨same_date (by simp) _ _ rfl hr, ?_⟩
    have hq : ∀ d : Int, SameUnit .quarter l { l with date := ⟨l.date.y, l.date.quarter * 3, d⟩ } := by
      intro d
      refine ⟨rfl, l.date.quarter * 3 - 2, ?_⟩
      simp only [Date.Valid] at hd
      simp only [Date.quarter]
      omega
    intro l' e
    have e := withDate_some e
    subst e
    refine ⟨same_date (by simp) _ _ rfl (hq _), fun l' e => ?_⟩
    have e := withDate_some e
    subst e
    exact ⟨same_date (by simp) _ _ rfl (hq _), chainIn_clock59 (same_date (by simp)) (same_date (by simp) _ _ rfl (hq _))⟩
  case year =>
    refine ⟨rfl, fun l' e => ?_⟩
    have e := withDate_some e
    subst e
    refine ⟨rfl, fun l' e => ?_⟩
    have e := withDate_some e
    subst e
    exact ⟨rfl, chainIn_clock59 (same_date (by simp)) rfl⟩

/-! ### what a successful call returns -/

theorem startSteps_ne (u : DUnit) (d : Date) : startSteps u d ≠ [] := by cases u <;> simp [startSteps, clock0]

theorem startOf_some {z : Zone} {u : DUnit} {t s : Inst} (ht : t.Valid) (h : startOf z u t = some s) :
    z.toLocal s = floorLocal u (z.toLocal t) ∧ z.Good s := by
  rw [startOf_eq] at h
  obtain ⟨h1, -, h3⟩ := chain_some (keeps_start _ _) ht h
  rw [start_chain u (toLocal_valid z ht)] at h1
  split_ifs at h1
  exact ⟨(Option.some.inj h1).symm, h3 (startSteps_ne _ _)⟩

theorem endOf_some {z : Zone} {u : DUnit} {t e : Inst} (ht : t.Valid) (h : endOf z u t = some e) :
    z.toLocal e = ceilLocal u (z.toLocal t) ∧ z.Good e := by
  rw [endOf_eq z u ht] at h
  obtain ⟨h1, -, h3⟩ := chain_some (keeps_end _ _) ht h
  rw [end_chain u (toLocal_valid z ht)] at h1
  split_ifs at h1
  exact ⟨(Option.some.inj h1).symm, h3 (by simp [endSteps])⟩

theorem same_floor (u : DUnit) {l : Local} (h : l.Valid) : SameUnit u l (floorLocal u l) := by
  have := between_of_same h h (sameUnit_refl u h)
  exact same_of_between h (floor_valid u h) (le_refl _) (by omega)

theorem same_ceil (u : DUnit) {l : Local} (h : l.Valid) : SameUnit u l (ceilLocal u l) := by
  have := between_of_same h h (sameUnit_refl u h)
  exact same_of_between h (ceil_valid u h) (by omega) (le_refl _)

theorem nanos_inj {a b : Local} (ha : a.Valid) (hb : b.Valid) (h : a.nanos = b.nanos) : a = b := by
  have v1 := ha.2.2.2.2.2.2.2
  have v2 := hb.2.2.2.2.2.2.2
  simp only [Local.nanos] at h
  exact secs_inj ha hb (by omega) (by omega)

theorem floor_of_same {u : DUnit} {a b : Local} (ha : a.Valid) (hb : b.Valid) (h : SameUnit u a b) :
    floorLocal u a = floorLocal u b := by
  have h1 := between_of_same ha (floor_valid u hb) (sameUnit_trans h (same_floor u hb))
  have h2 := between_of_same hb (floor_valid u ha) (sameUnit_trans (sameUnit_symm h) (same_floor u ha))
  exact nanos_inj (floor_valid u ha) (floor_valid u hb) (by omega)

theorem ceil_of_same {u : DUnit} {a b : Local} (ha : a.Valid) (hb : b.Valid) (h : SameUnit u a b) :
    ceilLocal u a = ceilLocal u b := by
  have h1 := between_of_same ha (ceil_valid u hb) (sameUnit_trans h (same_ceil u hb))
  have h2 := between_of_same hb (ceil_valid u ha) (sameUnit_trans (sameUnit_symm h) (same_ceil u ha))
  exact nanos_inj (ceil_valid u ha) (ceil_valid u hb) (by omega)

theorem good_inj {z : Zone} {a b : Inst} (ha : z.Good a) (hb : z.Good b) (h : z.toLocal a = z.toLocal b) : a = b := by
  have h1 := resolve_good ha
  rw [h, resolve_good hb] at h1
  exact (Option.some.inj h1).symm

theorem start_id (u : DUnit) {l : Local} (h : l.Valid) (e : floorLocal u l = l) :
    ∀ f ∈ startSteps u l.date, f l = some l := by
  intro f hf
  obtain ⟨⟨y, m, d⟩, hh, mi, s, ns⟩ := l
  have hv := h.1
  cases u <;> simp only [floorLocal, floorDate, Local.mk.injEq, Date.mk.injEq] at e <;>
    simp only [startSteps, clock0, List.mem_cons, List.mem_append, List.not_mem_nil, or_false] at hf
  case second => obtain ⟨-, -, -, -, rfl⟩ := e; subst hf; simp [Local.withNano]
  case minute =>
    obtain ⟨-, -, -, rfl, rfl⟩ := e
    rcases hf with rfl | rfl <;> simp [Local.withNano, Local.withSecond]
  case hour =>
    obtain ⟨-, -, rfl, rfl, rfl⟩ := e
    rcases hf with rfl | rfl | rfl <;> simp [Local.withNano, Local.withSecond, Local.withMinute]
  case day =>
    obtain ⟨-, rfl, rfl, rfl, rfl⟩ := e
    rcases hf with rfl | rfl | rfl | rfl <;> simp [Local.withNano, Local.withSecond, Local.withMinute, Local.withHour]
  case week =>
    obtain ⟨e, rfl, rfl, rfl, rfl⟩ := e
    have hw : Date.weekday ⟨y, m, d⟩ = 0 := by
      have := congrArg Date.dayNo e
      rw [addDays_dayNo] at this
      omega
    rw [if_pos hw] at hf
    rcases hf with hf | rfl | rfl | rfl | rfl
    · simp at hf
    all_goals simp [Local.withNano, Local.withSecond, Local.withMinute, Local.withHour]
  case month =>
    obtain ⟨⟨-, -, rfl⟩, rfl, rfl, rfl, rfl⟩ := e
    rcases hf with rfl | rfl | rfl | rfl | rfl <;>
      simp [Local.withNano, Local.withSecond, Local.withMinute, Local.withHour, Local.withDay, Local.withDate, hv]
  case quarter =>
    obtain ⟨⟨-, e, rfl⟩, rfl, rfl, rfl, rfl⟩ := e
    rw [e] at hf
    rcases hf with rfl | rfl | rfl | rfl | rfl | rfl <;>
      simp [Local.withNano, Local.withSecond, Local.withMinute, Local.withHour, Local.withDay, Local.withMonth,
        Local.withDate, hv]
  case year =>
    obtain ⟨⟨-, rfl, rfl⟩, rfl, rfl, rfl, rfl⟩ := e
    rcases hf with rfl | rfl | rfl | rfl | rfl | rfl <;>
      simp [Local.withNano, Local.withSecond, Local.withMinute, Local.withHour, Local.withDay, Local.withMonth,
        Local.withDate, hv]

theorem end_id (u : DUnit) {l : Local} (h : l.Valid) (e : ceilLocal u l = l) :
    ∀ f ∈ endSteps u l.date, f l = some l := by
  intro f hf
  obtain ⟨⟨y, m, d⟩, hh, mi, s, ns⟩ := l
  have hv := h.1
  cases u <;> simp only [ceilLocal, ceilDate, Local.mk.injEq, Date.mk.injEq] at e <;>
    simp only [endSteps, clock59, List.mem_cons, List.mem_append, List.not_mem_nil, or_false] at hf
  case second => obtain ⟨-, -, -, -, rfl⟩ := e; subst hf; simp [Local.withNano]
  case minute =>
    obtain ⟨-, -, -, rfl, rfl⟩ := e
    rcases hf with rfl | rfl <;> simp [Local.withNano, Local.withSecond]
  case hour =>
    obtain ⟨-, -, rfl, rfl, rfl⟩ := e
    rcases hf with rfl | rfl | rfl <;> simp [Local.withNano, Local.withSecond, Local.withMinute]
  case day =>
    obtain ⟨-, rfl, rfl, rfl, rfl⟩ := e
    rcases hf with rfl | rfl | rfl | rfl <;> simp [Local.withNano, Local.withSecond, Local.withMinute, Local.withHour]
  case week =>
    obtain ⟨e, rfl, rfl, rfl, rfl⟩ := e
    have hw : Date.weekday ⟨y, m, d⟩ = 6 := by
      have := congrArg Date.dayNo e
      rw [addDays_dayNo] at this
      omega
    rw [if_pos hw] at hf
    rcases hf with rfl | hf | rfl | rfl | rfl
    · simp [Local.withNano]
    · simp at hf
    all_goals simp [Local.withSecond, Local.withMinute, Local.withHour]
  case month =>
    obtain ⟨⟨-, -, e⟩, rfl, rfl, rfl, rfl⟩ := e
    rw [e] at hf
    rcases hf with rfl | rfl | rfl | rfl | rfl <;>
      simp [Local.withNano, Local.withSecond, Local.withMinute, Local.withHour, Local.withDay, Local.withDate, hv]
  case quarter =>
    obtain ⟨⟨-, e, e2⟩, rfl, rfl, rfl, rfl⟩ := e
    rw [e2, e] at hf
    rcases hf with rfl | rfl | rfl | rfl | rfl | rfl <;>
      simp [Local.withNano, Local.withSecond, Local.withMinute, Local.withHour, Local.withDay, Local.withMonth,
        Local.withDate, hv]
  case year =>
    obtain ⟨⟨-, rfl, rfl⟩, rfl, rfl, rfl, rfl⟩ := e
    have e3 : monthDays y 12 = 31 := by simp [monthDays]
    rw [e3] at hf
    rcases hf with rfl | rfl | rfl | rfl | rfl | rfl <;>
      simp [Local.withNano, Local.withSecond, Local.withMinute, Local.withHour, Local.withDay, Local.withMonth,
        Local.withDate, hv]

/-! ### instants and local times -/

theorem le_iff_of_good {z : Zone} (hz : z.Ordered) {a b : Inst} (ha : z.Good a) (hb : b.Valid) :
    a.nanos ≤ b.nanos ↔ (z.toLocal a).nanos ≤ (z.toLocal b).nanos := by
  obtain ⟨va, ga, -⟩ := ha
  have h := hz a.utc b.utc ga
  have ne : a.utc = b.utc → a.utc + z.offset a.utc = b.utc + z.offset b.utc := fun e => by rw [e]
  simp only [Inst.nanos, Local.nanos, toLocal_secs, toLocal_ns]
  obtain ⟨h1, h2⟩ := h
  obtain ⟨a1, a2⟩ := va
  obtain ⟨b1, b2⟩ := hb
  constructor
  · intro h
    by_contra hn
    rcases Int.lt_or_le (b.utc + z.offset b.utc) (a.utc + z.offset a.utc) with h3 | h3
    · have := h2 (by omega); have : a.utc ≠ b.utc := fun e => by have := ne e; omega
      omega
    · have e : a.utc + z.offset a.utc = b.utc + z.offset b.utc := by omega
      have := h1 (by omega); have := h2 (by omega); omega
  · intro h
    by_contra hn
    rcases Int.lt_or_le (a.utc + z.offset a.utc) (b.utc + z.offset b.utc) with h3 | h3
    · have := h1 (by omega); have : a.utc ≠ b.utc := fun e => by have := ne e; omega
      omega
    · have e : a.utc + z.offset a.utc = b.utc + z.offset b.utc := by omega
      have := h1 (by omega); have := h2 (by omega); omega

theorem ge_iff_of_good {z : Zone} (hz : z.Ordered) {a b : Inst} (ha : z.Good a) (hb : b.Valid) :
    b.nanos ≤ a.nanos ↔ (z.toLocal b).nanos ≤ (z.toLocal a).nanos := by
  obtain ⟨va, ga, -⟩ := ha
  have h := hz a.utc b.utc ga
  have ne : a.utc = b.utc → a.utc + z.offset a.utc = b.utc + z.offset b.utc := fun e => by rw [e]
  simp only [Inst.nanos, Local.nanos, toLocal_secs, toLocal_ns]
  obtain ⟨h1, h2⟩ := h
  obtain ⟨a1, a2⟩ := va
  obtain ⟨b1, b2⟩ := hb
  constructor
  · intro h
    by_contra hn
    rcases Int.lt_or_le (a.utc + z.offset a.utc) (b.utc + z.offset b.utc) with h3 | h3
    · have := h1 (by omega); have : a.utc ≠ b.utc := fun e => by have := ne e; omega
      omega
    · have e : a.utc + z.offset a.utc = b.utc + z.offset b.utc := by omega
      have := h1 (by omega); have := h2 (by omega); omega
  · intro h
    by_contra hn
    rcases Int.lt_or_le (b.utc + z.offset b.utc) (a.utc + z.offset a.utc) with h3 | h3
    · have := h2 (by omega); have : a.utc ≠ b.utc := fun e => by have := ne e; omega
      omega
    · have e : a.utc + z.offset a.utc = b.utc + z.offset b.utc := by omega
      have := h1 (by omega); have := h2 (by omega); omega

end Cal

/-! ### start of a unit, end of a unit -/

/-- `start_of` returns the first local time of the unit the date lies in. -/
theorem C23_start_first {z : Zone} {u : DUnit} {t s : Inst} (ht : t.Valid) (h : startOf z u t = some s) :
    s.Valid ∧ SameUnit u (z.toLocal t) (z.toLocal s) ∧
      ∀ x : Local, x.Valid → SameUnit u (z.toLocal t) x → (z.toLocal s).nanos ≤ x.nanos := by
  obtain ⟨h1, h2⟩ := startOf_some ht h
  have hl := toLocal_valid z ht
  refine ⟨h2.1, ?_, ?_⟩
  · rw [h1]; exact same_floor u hl
  · intro x hx hs
    rw [h1]; exact (between_of_same hl hx hs).1

/-- `end_of` returns the last local time of the unit the date lies in, to the nanosecond. -/
theorem C23_end_last {z : Zone} {u : DUnit} {t e : Inst} (ht : t.Valid) (h : endOf z u t = some e) :
    e.Valid ∧ SameUnit u (z.toLocal t) (z.toLocal e) ∧
      ∀ x : Local, x.Valid → SameUnit u (z.toLocal t) x → x.nanos ≤ (z.toLocal e).nanos := by
  obtain ⟨h1, h2⟩ := endOf_some ht h
  have hl := toLocal_valid z ht
  refine ⟨h2.1, ?_, ?_⟩
  · rw [h1]; exact same_ceil u hl
  · intro x hx hs
    rw [h1]; exact (between_of_same hl hx hs).2

/-- `start_of` is idempotent, in every zone. -/
theorem C23_start_idempotent {z : Zone} {u : DUnit} {t s : Inst} (ht : t.Valid) (h : startOf z u t = some s) :
    startOf z u s = some s := by
  obtain ⟨h1, h2⟩ := startOf_some ht h
  have hl := toLocal_valid z ht
  rw [startOf_eq]
  refine chain_id h2 (start_id u (toLocal_valid z h2.1) ?_)
  rw [h1]
  exact (floor_of_same hl (floor_valid u hl) (same_floor u hl)).symm

/-- `end_of` is idempotent, in every zone. -/
theorem C23_end_idempotent {z : Zone} {u : DUnit} {t e : Inst} (ht : t.Valid) (h : endOf z u t = some e) :
    endOf z u e = some e := by
  obtain ⟨h1, h2⟩ := endOf_some ht h
  have hl := toLocal_valid z ht
  rw [endOf_eq z u h2.1]
  refine chain_id h2 (end_id u (toLocal_valid z h2.1) ?_)
  rw [h1]
  exact (ceil_of_same hl (ceil_valid u hl) (same_ceil u hl)).symm

/-- The start is not after the date, and the end is not before it. -/
theorem C23_bracket {z : Zone} (hz : z.Ordered) {u : DUnit} {t : Inst} (ht : t.Valid) :
    (∀ s, startOf z u t = some s → s.nanos ≤ t.nanos) ∧ (∀ e, endOf z u t = some e → t.nanos ≤ e.nanos) := by
  have hl := toLocal_valid z ht
  have hb := between_of_same hl hl (sameUnit_refl u hl)
  constructor
  · intro s h
    obtain ⟨h1, h2⟩ := startOf_some ht h
    rw [le_iff_of_good hz h2 ht, h1]; exact hb.1
  · intro e h
    obtain ⟨h1, h2⟩ := endOf_some ht h
    rw [ge_iff_of_good hz h2 ht, h1]; exact hb.2

/-- Dates in the same unit have the same start; dates with the same start are in the same unit. -/
theorem C23_start_same_iff {z : Zone} {u : DUnit} {a b sa sb : Inst} (ha : a.Valid) (hb : b.Valid)
    (h1 : startOf z u a = some sa) (h2 : startOf z u b = some sb) :
    sa = sb ↔ SameUnit u (z.toLocal a) (z.toLocal b) := by
  obtain ⟨e1, g1⟩ := startOf_some ha h1
  obtain ⟨e2, g2⟩ := startOf_some hb h2
  have la := toLocal_valid z ha
  have lb := toLocal_valid z hb
  constructor
  · rintro rfl
    rw [e1] at e2
    have := sameUnit_symm (same_floor u lb)
    rw [← e2] at this
    exact sameUnit_trans (same_floor u la) this
  · intro h
    exact good_inj g1 g2 (by rw [e1, e2, floor_of_same la lb h])

/-- When all local times of the unit occur exactly once (and in range), `start_of` succeeds — except
for the start of the quarter on the 31st of May: the month is set to April first, and there is no 31st
of April. -/
theorem C23_start_succeeds_iff {z : Zone} {u : DUnit} {t : Inst} (ht : t.Valid)
    (hz : ∀ x : Local, x.Valid → SameUnit u (z.toLocal t) x → ∃ i, z.resolve x = some i) :
    (∃ s, startOf z u t = some s) ↔
      ¬ (u = .quarter ∧ (z.toLocal t).date.m = 5 ∧ (z.toLocal t).date.d = 31) := by
  have hl := toLocal_valid z ht
  have hc := start_chain u hl
  constructor
  · rintro ⟨s, h⟩ hq
    rw [startOf_eq] at h
    have := (chain_some (keeps_start _ _) ht h).1
    rw [hc, if_pos hq] at this
    cases this
  · intro hq
    rw [if_neg hq] at hc
    rw [startOf_eq]
    exact chain_ok hz (keeps_start _ _) ht (start_in u hl) hc

/-- When all local times of the unit occur exactly once (and in range), `end_of` succeeds — except for
the end of the quarter on the 31st of May, July and August. -/
theorem C23_end_succeeds_iff {z : Zone} {u : DUnit} {t : Inst} (ht : t.Valid)
    (hz : ∀ x : Local, x.Valid → SameUnit u (z.toLocal t) x → ∃ i, z.resolve x = some i) :
    (∃ e, endOf z u t = some e) ↔ ¬ (u = .quarter ∧ (z.toLocal t).date.d = 31 ∧
      ((z.toLocal t).date.m = 5 ∨ (z.toLocal t).date.m = 7 ∨ (z.toLocal t).date.m = 8)) := by
  have hl := toLocal_valid z ht
  have hc := end_chain u hl
  constructor
  · rintro ⟨s, h⟩ hq
    rw [endOf_eq z u ht] at h
    have := (chain_some (keeps_end _ _) ht h).1
    rw [hc, if_pos hq] at this
    cases this
  · intro hq
    rw [if_neg hq] at hc
    rw [endOf_eq z u ht]
    exact chain_ok hz (keeps_end _ _) ht (end_in u hl) hc

/-- In every zone the start of the quarter fails on the 31st of May, and its end on the 31st of May, July
and August: the code does *not* succeed for every valid date. -/
theorem C23_quarter_fails {z : Zone} {t : Inst} (ht : t.Valid) (hd : (z.toLocal t).date.d = 31) :
    ((z.toLocal t).date.m = 5 → startOf z .quarter t = none) ∧
    ((z.toLocal t).date.m = 5 ∨ (z.toLocal t).date.m = 7 ∨ (z.toLocal t).date.m = 8 → endOf z .quarter t = none) := by
  have hl := toLocal_valid z ht
  constructor
  · intro hm
    cases h : startOf z .quarter t with
    | none => rfl
    | some s =>
      rw [startOf_eq] at h
      have := (chain_some (keeps_start _ _) ht h).1
      rw [start_chain .quarter hl, if_pos ⟨rfl, hm, hd⟩] at this
      cases this
  · intro hm
    cases h : endOf z .quarter t with
    | none => rfl
    | some s =>
      rw [endOf_eq z _ ht] at h
      have := (chain_some (keeps_end _ _) ht h).1
      rw [end_chain .quarter hl, if_pos ⟨rfl, hd, hm⟩] at this
      cases this

/-! ### comparisons by unit -/

/-- `is_same` by a unit: the other date, seen in this date's zone, lies in the same unit. -/
theorem C23_is_same {z : Zone} (hz : z.Ordered) {u : DUnit} {a b : Inst} (ha : a.Valid) (hb : b.Valid) {r : Bool}
    (h : isSame z a b (some u) = some r) : r = true ↔ SameUnit u (z.toLocal a) (z.toLocal b) := by
  simp only [isSame, Option.bind_eq_bind, Option.bind_eq_some_iff, Option.some.injEq] at h
  obtain ⟨s, hs, e, he, rfl⟩ := h
  obtain ⟨s1, s2⟩ := startOf_some ha hs
  obtain ⟨e1, e2⟩ := endOf_some ha he
  have la := toLocal_valid z ha
  have lb := toLocal_valid z hb
  rw [Bool.and_eq_true, decide_eq_true_iff, decide_eq_true_iff, le_iff_of_good hz s2 hb, ge_iff_of_good hz e2 hb, s1, e1]
  exact ⟨fun h => same_of_between la lb h.1 h.2, fun h => between_of_same la lb h⟩

/-- `is_before` by a unit: the other date, seen in this date's zone, is later than the whole unit. -/
theorem C23_is_before {z : Zone} (hz : z.Ordered) {u : DUnit} {a b : Inst} (ha : a.Valid) (hb : b.Valid) {r : Bool}
    (h : isBefore z a b (some u) = some r) :
    r = true ↔ ∀ x : Local, x.Valid → SameUnit u (z.toLocal a) x → x.nanos < (z.toLocal b).nanos := by
  simp only [isBefore, Option.bind_eq_bind, Option.bind_eq_some_iff, Option.some.injEq] at h
  obtain ⟨e, he, rfl⟩ := h
  obtain ⟨e1, e2⟩ := endOf_some ha he
  have la := toLocal_valid z ha
  have := ge_iff_of_good hz e2 hb
  rw [decide_eq_true_iff]
  constructor
  · intro h x hx hs
    have := (between_of_same la hx hs).2
    rw [e1] at *
    omega
  · intro h
    have := h _ (ceil_valid u la) (same_ceil u la)
    rw [e1] at *
    omega

/-- `is_after` by a unit: the other date, seen in this date's zone, is earlier than the whole unit. -/
theorem C23_is_after {z : Zone} (hz : z.Ordered) {u : DUnit} {a b : Inst} (ha : a.Valid) (hb : b.Valid) {r : Bool}
    (h : isAfter z a b (some u) = some r) :
    r = true ↔ ∀ x : Local, x.Valid → SameUnit u (z.toLocal a) x → (z.toLocal b).nanos < x.nanos := by
  simp only [isAfter, Option.bind_eq_bind, Option.bind_eq_some_iff, Option.some.injEq] at h
  obtain ⟨s, hs, rfl⟩ := h
  obtain ⟨s1, s2⟩ := startOf_some ha hs
  have la := toLocal_valid z ha
  have := le_iff_of_good hz s2 hb
  rw [decide_eq_true_iff]
  constructor
  · intro h x hx hs
    have := (between_of_same la hx hs).1
    rw [s1] at *
    omega
  · intro h
    have := h _ (floor_valid u la) (same_floor u la)
    rw [s1] at *
    omega

/-- Without failures, exactly one of "before", "same" and "after" holds. -/
theorem C23_before_same_after {z : Zone} {u : DUnit} {a b : Inst} {x y w : Bool}
    (h1 : isBefore z a b (some u) = some x) (h2 : isSame z a b (some u) = some y) (h3 : isAfter z a b (some u) = some w)
    (hz : z.Ordered) (ha : a.Valid) :
    (x, y, w) = (true, false, false) ∨ (x, y, w) = (false, true, false) ∨ (x, y, w) = (false, false, true) := by
  simp only [isBefore, isSame, isAfter, Option.bind_eq_bind, Option.bind_eq_some_iff, Option.some.injEq] at h1 h2 h3
  obtain ⟨e, he, rfl⟩ := h1
  obtain ⟨s, hs, e', he', rfl⟩ := h2
  obtain ⟨s', hs', rfl⟩ := h3
  rw [he] at he'; cases he'
  rw [hs] at hs'; cases hs'
  have h1 := (C23_bracket hz (u := u) ha).1 s hs
  have h2 := (C23_bracket hz (u := u) ha).2 e he
  by_cases p : e.nanos < b.nanos <;> by_cases q : b.nanos < s.nanos <;> simp [p, q] <;> omega

/-- On the 31st of May no date is in the same quarter, not even the date itself, in any zone. -/
theorem C23_not_same_quarter_as_itself {z : Zone} {t : Inst} (ht : t.Valid) (hd : (z.toLocal t).date.d = 31)
    (hm : (z.toLocal t).date.m = 5) (b : Inst) : isSame z t b (some .quarter) = none := by
  simp only [isSame, (C23_quarter_fails ht hd).1 hm, Option.bind_eq_bind, Option.bind_none]

/-- Without a unit, "same" compares milliseconds but "before" and "after" compare nanoseconds. -/
theorem C23_no_unit (z : Zone) (a b : Inst) :
    (isSame z a b none = some true ↔ a.millis = b.millis) ∧ (isBefore z a b none = some true ↔ a.nanos < b.nanos) ∧
      (isAfter z a b none = some true ↔ b.nanos < a.nanos) := by
  simp [isSame, isBefore, isAfter]

/-! ### zones -/

theorem Cal.fixed_ordered (o : Int) (ok : Int → Bool) : (Zone.fixed o ok).Ordered := by
  intro u v _
  simp only [Zone.fixed]
  constructor <;> intro h <;> omega

/-- every local time in a fixed zone occurs once -/
theorem Cal.fixed_resolve (o : Int) (ok : Int → Bool) (l : Local) :
    (Zone.fixed o ok).resolve l = if ok (l.secs - o) then some ⟨l.secs - o, l.ns⟩ else none := by
  rfl

/-- a zone with one clock change: from the instant `c` on the offset is `o'` -/
def Cal.Zone.change (c o o' : Int) (ok : Int → Bool) : Zone where
  offset u := if u < c then o else o'
  single l :=
    if l - o < c then (if c ≤ l - o' ∧ o ≠ o' then none else some (l - o))
    else if c ≤ l - o' then some (l - o') else none
  ok := ok
  single_iff l u := by
    constructor
    · intro h
      split_ifs at h with h1 h2 h3 <;> cases h
      · refine ⟨by rw [if_pos h1]; omega, fun v hv => ?_⟩
        split_ifs at hv <;> omega
      · refine ⟨by rw [if_neg (by omega)]; omega, fun v hv => ?_⟩
        split_ifs at hv <;> omega
    · rintro ⟨h1, h2⟩
      split_ifs at h1 with hu
      · have e : l - o = u := by omega
        rw [e, if_pos hu, if_neg]
        rintro ⟨h3, h4⟩
        have := h2 (l - o') (by rw [if_neg (by omega)]; omega)
        omega
      · have e : l - o' = u := by omega
        rw [e]
        by_cases h3 : l - o < c
        · have := h2 (l - o) (by rw [if_pos h3]; omega)
          omega
        · rw [if_neg h3, if_pos (by omega)]

theorem Cal.change_ordered (c o o' : Int) (ok : Int → Bool) : (Zone.change c o o' ok).Ordered := by
  intro u v h
  have h := (((Zone.change c o o' ok).single_iff _ _).1 h).2
  have h1 := h (u + (if u < c then o else o') - o)
  have h2 := h (u + (if u < c then o else o') - o')
  simp only [Zone.change] at *
  split_ifs at * <;> omega

/-! ### adding durations -/

theorem Cal.addMonths_zero {d : Date} (h : d.Valid) : d.addMonths 0 = d := by
  obtain ⟨y, m, dd⟩ := d
  obtain ⟨h1, h2, h3, h4⟩ := h
  simp only at *
  have e1 : (y * 12 + (m - 1) + 0) / 12 = y := by omega
  have e2 : (y * 12 + (m - 1) + 0) % 12 + 1 = m := by omega
  simp only [Date.addMonths, e1, e2, Date.mk.injEq, true_and]
  omega

/-- the month some months later -/
theorem Cal.addMonths_month {d : Date} (n : Int) :
    (d.addMonths n).y * 12 + (d.addMonths n).m = d.y * 12 + d.m + n ∧ 1 ≤ (d.addMonths n).m ∧ (d.addMonths n).m ≤ 12 := by
  simp only [Date.addMonths]; omega

theorem Cal.addMonths_some {z : Zone} {n : Int} {t t' : Inst} (ht : t.Valid) (h : z.addMonths n t = some t') :
    z.toLocal t' = { z.toLocal t with date := (z.toLocal t).date.addMonths n } ∧ z.Good t' := by
  obtain ⟨h1, h2⟩ := mapLocal_some (keeps_addMonths n) ht h
  exact ⟨(Option.some.inj h1).symm, h2⟩

theorem Cal.good_unique {z : Zone} {t t' : Inst} (h : z.Good t') (e : z.toLocal t = z.toLocal t') : t = t' := by
  have hs := ((z.single_iff _ _).1 h.2.1).2
  have h1 : t.utc = t'.utc := hs _ (by rw [← toLocal_secs, ← toLocal_secs, e])
  have h2 : t.ns = t'.ns := by rw [← toLocal_ns z, ← toLocal_ns z, e]
  obtain ⟨u, n⟩ := t
  obtain ⟨u', n'⟩ := t'
  simp only at h1 h2
  rw [h1, h2]

theorem Cal.mapLocal_id {z : Zone} {f} {t t' : Inst} (ht : t.Valid) (hf : f (z.toLocal t) = some (z.toLocal t)) :
    z.mapLocal f t = some t' ↔ t' = t ∧ z.Good t := by
  simp only [Zone.mapLocal, hf, Option.bind_some]
  constructor
  · intro h
    obtain ⟨h1, h2⟩ := resolve_some (toLocal_valid z ht) h
    have := good_unique h2 h1.symm
    subst this
    exact ⟨rfl, h2⟩
  · rintro ⟨rfl, h⟩; exact resolve_good h

/-- Adding seconds moves the instant by that many seconds; it succeeds when the new instant is in range
and its local time does not occur a second time (the same date with the same time of day is looked up
again when the months and years — none — are added). -/
theorem C23_add_seconds_iff {z : Zone} {t t' : Inst} (ht : t.Valid) (n : Int) :
    addDuration z t ⟨n, 0, 0⟩ = some t' ↔
      -9223372036854775 ≤ n ∧ n ≤ 9223372036854775 ∧ t' = ⟨t.utc + n, t.ns⟩ ∧ z.Good t' := by
  have hv : Inst.Valid ⟨t.utc + n, t.ns⟩ := ht
  have hl := toLocal_valid z hv
  simp only [addDuration, Option.bind_eq_bind, Option.bind_eq_some_iff]
  have h1 : ∀ t2, z.addMonths 0 ⟨t.utc + n, t.ns⟩ = some t2 ↔ t2 = ⟨t.utc + n, t.ns⟩ ∧ z.Good ⟨t.utc + n, t.ns⟩ := by
    intro t2
    exact mapLocal_id hv (by simp only [addMonths_zero hl.1])
  constructor
  · rintro ⟨t1, h, t2, h2, h3⟩
    simp only [Zone.addSeconds] at h
    split_ifs at h with hb
    cases h
    obtain ⟨rfl, hg⟩ := (h1 _).1 h2
    rw [Int.add_zero] at h3
    obtain ⟨rfl, hg⟩ := (mapLocal_id hv (by simp only [Local.withYear, Local.withDate, if_pos hl.1])).1 h3
    exact ⟨hb.1.1, hb.1.2, rfl, hg⟩
  · rintro ⟨h2, h3, rfl, hg⟩
    refine ⟨⟨t.utc + n, t.ns⟩, ?_, ⟨t.utc + n, t.ns⟩, (h1 _).2 ⟨rfl, hg⟩, ?_⟩
    · simp only [Zone.addSeconds]; rw [if_pos ⟨⟨h2, h3⟩, hg.2.2⟩]
    · rw [Int.add_zero]
      exact (mapLocal_id hv (by simp only [Local.withYear, Local.withDate, if_pos hl.1])).2 ⟨rfl, hg⟩

/-- Adding months and years: first the months, keeping the day or taking the last day of a shorter month,
then the years, keeping month and day. The time of day stays. -/
theorem C23_add_months_years {z : Zone} {t t' : Inst} (ht : t.Valid) (m y : Int)
    (h : addDuration z t ⟨0, m, y⟩ = some t') :
    ∃ y1 m1 d1 : Int, y1 * 12 + m1 = (z.toLocal t).date.y * 12 + (z.toLocal t).date.m + m ∧ 1 ≤ m1 ∧ m1 ≤ 12 ∧
      d1 = min (z.toLocal t).date.d (monthDays y1 m1) ∧
      z.toLocal t' = { z.toLocal t with date := ⟨y1 + y, m1, d1⟩ } ∧ Date.Valid ⟨y1 + y, m1, d1⟩ ∧ z.Good t' := by
  simp only [addDuration, Option.bind_eq_bind, Option.bind_eq_some_iff] at h
  obtain ⟨t1, h1, t2, h2, h3⟩ := h
  have e : t1 = t := by
    simp only [Zone.addSeconds] at h1
    split_ifs at h1
    cases h1
    simp
  subst e
  obtain ⟨e2, g2⟩ := addMonths_some ht h2
  obtain ⟨e3, g3⟩ := mapLocal_some (keeps_year _) g2.1 h3
  have hv := (toLocal_valid z g3.1).1
  have e3 := withDate_some e3
  have hm := addMonths_month (d := (z.toLocal t1).date) m
  refine ⟨_, _, _, hm.1, hm.2.1, hm.2.2, rfl, ?_, ?_, g3⟩
  · rw [e3, e2]; rfl
  · rw [e3, e2] at hv; exact hv

/-- Adding years to the 29th of February fails unless the result is a leap year — where adding twelve
months per year takes the 28th. -/
theorem C23_add_years_leap {z : Zone} {t : Inst} (ht : t.Valid) (k : Int) (hm : (z.toLocal t).date.m = 2)
    (hd : (z.toLocal t).date.d = 29) (hk : leap ((z.toLocal t).date.y + k) = false) :
    addDuration z t ⟨0, 0, k⟩ = none ∧
      ∀ t', addDuration z t ⟨0, 12 * k, 0⟩ = some t' → (z.toLocal t').date = ⟨(z.toLocal t).date.y + k, 2, 28⟩ := by
  constructor
  · cases h : addDuration z t ⟨0, 0, k⟩ with
    | none => rfl
    | some t' =>
      obtain ⟨y1, m1, d1, h1, h2, h3, h4, -, h6, -⟩ := C23_add_months_years ht 0 k h
      have e1 : m1 = 2 := by omega
      have e2 : y1 = (z.toLocal t).date.y := by omega
      subst e1 e2
      have hv := (toLocal_valid z ht).1.2.2.2
      rw [hd, hm] at hv
      obtain ⟨-, -, -, h6⟩ := h6
      simp only [monthDays, hk] at h6
      rw [hd] at h4
      norm_num at h6
      omega
  · intro t' h
    obtain ⟨y1, m1, d1, h1, h2, h3, h4, h5, -, -⟩ := C23_add_months_years ht (12 * k) 0 h
    have e1 : m1 = 2 := by omega
    have e2 : y1 = (z.toLocal t).date.y + k := by omega
    subst e1 e2
    rw [hd] at h4
    simp only [monthDays, hk] at h4
    norm_num at h4
    rw [h5, h4]
    simp

/-! ### set -/

/-- the local time with one field replaced -/
def Cal.replace (u : DUnit) (n : Nat) (l : Local) : Local :=
  match u with
  | .second => { l with s := n }
  | .minute => { l with mi := n }
  | .hour => { l with h := n }
  | .day => { l with date := ⟨l.date.y, l.date.m, n⟩ }
  | .month => { l with date := ⟨l.date.y, n, l.date.d⟩ }
  | .year => { l with date := ⟨n, l.date.m, l.date.d⟩ }
  | .week | .quarter => l

theorem Cal.set_steps {z : Zone} {u : DUnit} (n : Nat) (hn : u = .year → n < 2147483648) (hu : u ≠ .week ∧ u ≠ .quarter) (t : Inst) :
    ∃ f, Keeps f ∧ set z u n t = z.mapLocal f t ∧
      ∀ l : Local, l.Valid → f l = if (replace u n l).Valid then some (replace u n l) else none := by
  cases u
  case second =>
    refine ⟨_, keeps_second n, rfl, fun l hl => ?_⟩
    obtain ⟨a, b, c, d, e, f, g, i, j⟩ := hl
    simp only [Local.withSecond, replace, Local.Valid, a, b, c, d, e, i, j, true_and, and_true]
  case minute =>
    refine ⟨_, keeps_minute n, rfl, fun l hl => ?_⟩
    obtain ⟨a, b, c, d, e, f, g, i, j⟩ := hl
    simp only [Local.withMinute, replace, Local.Valid, a, b, c, f, g, i, j, true_and, and_true]
  case hour =>
    refine ⟨_, keeps_hour n, rfl, fun l hl => ?_⟩
    obtain ⟨a, b, c, d, e, f, g, i, j⟩ := hl
    simp only [Local.withHour, replace, Local.Valid, a, d, e, f, g, i, j, true_and, and_true]
  case day =>
    refine ⟨_, keeps_day n, rfl, fun l hl => ?_⟩
    obtain ⟨a, b, c, d, e, f, g, i, j⟩ := hl
    simp only [Local.withDay, Local.withDate, replace, Local.Valid, b, c, d, e, f, g, i, j, and_true]
  case month =>
    refine ⟨_, keeps_month n, rfl, fun l hl => ?_⟩
    obtain ⟨a, b, c, d, e, f, g, i, j⟩ := hl
    simp only [Local.withMonth, Local.withDate, replace, Local.Valid, b, c, d, e, f, g, i, j, and_true]
  case year =>
    refine ⟨_, keeps_year n, by simp [set, hn], fun l hl => ?_⟩
    obtain ⟨a, b, c, d, e, f, g, i, j⟩ := hl
    simp only [Local.withYear, Local.withDate, replace, Local.Valid, b, c, d, e, f, g, i, j, and_true]
  case week => exact absurd rfl hu.1
  case quarter => exact absurd rfl hu.2

/-- `set` returns an instant exactly when the local time with that field replaced is a valid local time
that occurs once; the instant has that local time. -/
theorem C23_set_iff {z : Zone} {u : DUnit} {t t' : Inst} (ht : t.Valid) (n : Nat) (hn : u = .year → n < 2147483648)
    (hu : u ≠ .week ∧ u ≠ .quarter) :
    set z u n t = some t' ↔
      (replace u n (z.toLocal t)).Valid ∧ z.toLocal t' = replace u n (z.toLocal t) ∧ z.Good t' := by
  obtain ⟨f, hf, e, h⟩ := set_steps (z := z) n hn hu t
  have h := h _ (toLocal_valid z ht)
  rw [e]
  constructor
  · intro h1
    obtain ⟨h2, h3⟩ := mapLocal_some hf ht h1
    rw [h] at h2
    split_ifs at h2 with hv
    exact ⟨hv, (Option.some.inj h2).symm, h3⟩
  · rintro ⟨h1, h2, h3⟩
    rw [if_pos h1] at h
    simp only [Zone.mapLocal, h, Option.bind_some, ← h2]
    exact resolve_good h3

/-- `set` ignores weeks and quarters. -/
theorem C23_set_noop (z : Zone) (n : Nat) (t : Inst) : set z .week n t = some t ∧ set z .quarter n t = some t :=
  ⟨rfl, rfl⟩

/-! ### differences -/

namespace Cal

/-- the rounding of `diff` -/
def towardsZero (r : Rat) : Int := if r < 0 then ⌈r⌉ else ⌊r⌋

theorem towardsZero_neg (r : Rat) : towardsZero (-r) = -towardsZero r := by
  unfold towardsZero
  rcases lt_trichotomy r 0 with h | h | h
  · rw [if_neg (by linarith), if_pos h, Int.floor_neg]
  · subst h; simp
  · rw [if_pos (by linarith), if_neg (by linarith), Int.ceil_neg]

theorem towardsZero_div (r : Rat) (n : Nat) : towardsZero (r / n) = (towardsZero r).tdiv n := by
  have pos : ∀ r : Rat, 0 ≤ r → towardsZero (r / n) = (towardsZero r).tdiv n := by
    intro r h
    have h1 : 0 ≤ r / n := div_nonneg h (by positivity)
    have h2 : 0 ≤ ⌊r⌋ := Int.floor_nonneg.2 h
    unfold towardsZero
    rw [if_neg (by linarith), if_neg (by linarith), Int.floor_div_natCast, Int.tdiv_eq_ediv_of_nonneg h2]
  rcases le_or_gt 0 r with h | h
  · exact pos r h
  · have h1 := pos (-r) (by linarith)
    rw [neg_div, towardsZero_neg, towardsZero_neg, Int.neg_tdiv] at h1
    omega

/-- an integer and a fraction, towards zero -/
theorem towardsZero_add (w : Int) (f : Rat) (h1 : -1 < f) (h2 : f < 1) :
    towardsZero (w + f) = if 0 < w ∧ f < 0 then w - 1 else if w < 0 ∧ 0 < f then w + 1 else w := by
  have key : ∀ (w : Int) (f : Rat), -1 < f → f < 1 → 0 ≤ w →
      towardsZero (w + f) = if 0 < w ∧ f < 0 then w - 1 else w := by
    intro w f h1 h2 hw
    have hw' : (0 : Rat) ≤ w := by exact_mod_cast hw
    unfold towardsZero
    rcases lt_or_ge f 0 with hf | hf
    · rcases lt_or_eq_of_le hw with hp | hp
      · have hp' : (1 : Rat) ≤ w := by exact_mod_cast hp
        rw [if_neg (by linarith), if_pos ⟨hp, hf⟩, Int.floor_eq_iff]
        push_cast
        constructor <;> linarith
      · subst hp
        rw [if_pos (by push_cast; linarith), if_neg (by simp), Int.ceil_eq_iff]
        push_cast
        constructor <;> linarith
    · rw [if_neg (by linarith), if_neg (fun h => by linarith [h.2]), Int.floor_eq_iff]
      constructor <;> linarith
  rcases le_or_gt 0 w with hw | hw
  · rw [key w f h1 h2 hw, if_neg (c := w < 0 ∧ 0 < f) (fun h => by omega)]
  · have h3 := key (-w) (-f) (by linarith) (by linarith) (by omega)
    have e : ((-w : Int) : Rat) + -f = -(w + f) := by push_cast; ring
    rw [e, towardsZero_neg] at h3
    rw [if_neg (c := 0 < w ∧ f < 0) (fun h => by omega)]
    split_ifs at h3 with h4
    · rw [if_pos ⟨hw, by linarith [h4.2]⟩]; omega
    · rw [if_neg (fun h => h4 ⟨by omega, by linarith [h.2]⟩)]; omega

theorem diff_eq (za : Zone) (a : Inst) (zb : Zone) (b : Inst) (u : DUnit) :
    diff za a zb b (some u) =
      match u with
      | .year => (towardsZero (monthDiff za a zb b)).tdiv 12
      | .quarter => (towardsZero (monthDiff za a zb b)).tdiv 3
      | .month => towardsZero (monthDiff za a zb b)
      | .week => (a.millis - b.millis - (zb.offset b.utc - za.offset a.utc) * 1000).tdiv 604800000
      | .day => (a.millis - b.millis - (zb.offset b.utc - za.offset a.utc) * 1000).tdiv 86400000
      | .hour => (a.millis - b.millis).tdiv 3600000
      | .minute => (a.millis - b.millis).tdiv 60000
      | .second => (a.millis - b.millis).tdiv 1000 := by
  have int : ∀ (x : Int) (n : Nat) (q : Rat), q = n → towardsZero ((x : Rat) / q) = x.tdiv n := by
    intro x n q hq
    rw [hq, towardsZero_div]
    congr 1
    unfold towardsZero
    split_ifs <;> simp
  cases u
  case year => exact_mod_cast towardsZero_div (monthDiff za a zb b) 12
  case quarter => exact_mod_cast towardsZero_div (monthDiff za a zb b) 3
  case month => rfl
  case week => simp only [diff]; exact int _ 604800000 _ (by norm_num)
  case day => simp only [diff]; exact int _ 86400000 _ (by norm_num)
  case hour => simp only [diff]; exact int _ 3600000 _ (by norm_num)
  case minute => simp only [diff]; exact int _ 60000 _ (by norm_num)
  case second => simp only [diff]; exact int _ 1000 _ (by norm_num)

/-- milliseconds from the local time 1970-01-01T00:00:00 -/
def Local.millis (l : Local) : Int := l.secs * 1000 + l.ns / 1000000

/-- all local times of the years `lo … hi` are in range -/
def Covers (o : Int) (ok : Int → Bool) (lo hi : Int) : Prop :=
  ∀ x : Local, x.Valid → lo ≤ x.date.y → x.date.y ≤ hi → ok (x.secs - o) = true

theorem fixed_millis {z : Zone} {o : Int} {ok : Int → Bool} (hz : z = Zone.fixed o ok) (t : Inst) :
    t.millis = (z.toLocal t).millis - o * 1000 := by
  subst hz
  simp only [Inst.millis, Local.millis, toLocal_secs, toLocal_ns, Zone.fixed]; omega

theorem month_millis_lt {p q : Local} (hp : p.Valid) (hq : q.Valid)
    (h : p.date.y * 12 + p.date.m < q.date.y * 12 + q.date.m) : p.millis < q.millis := by
  have hb : p.date.Before q.date := by
    have h1 := hp.1; have h2 := hq.1
    simp only [Date.Before, Date.Valid] at *; omega
  have hd := dayNo_lt_of_before hp.1 hq.1 hb
  have s1 := secs_lt_day hp
  have s2 := secs_lt_day hq
  have n1 := hp.2.2.2.2.2.2.2
  have n2 := hq.2.2.2.2.2.2.2
  simp only [Local.millis]; omega

theorem fixed_anchor {z : Zone} {o : Int} {ok : Int → Bool} (hz : z = Zone.fixed o ok) {lo hi : Int}
    (hc : Covers o ok lo hi) {a : Inst} (ha : a.Valid) (k : Int)
    (h1 : lo ≤ ((z.toLocal a).date.addMonths k).y) (h2 : ((z.toLocal a).date.addMonths k).y ≤ hi) :
    ∃ x, z.addMonths k a = some x ∧ addMonthsToDate z a k = x ∧ x.Valid ∧
      z.toLocal x = { z.toLocal a with date := (z.toLocal a).date.addMonths k } := by
  have hv : Local.Valid { z.toLocal a with date := (z.toLocal a).date.addMonths k } :=
    keeps_addMonths k _ _ (toLocal_valid z ha) rfl
  have hr := fixed_resolve o ok { z.toLocal a with date := (z.toLocal a).date.addMonths k }
  rw [if_pos (hc _ hv h1 h2), ← hz] at hr
  have hm : z.addMonths k a = some ⟨_, _⟩ := hr
  obtain ⟨e, g⟩ := resolve_some hv hr
  exact ⟨_, hm, by simp only [addMonthsToDate, hm, Option.getD_some], g.1, e⟩

/-- whole months and a fraction -/
theorem monthDiffFrom_of {za zb : Zone} {a b x xp xm : Inst} {w : Int}
    (hw : ((zb.toLocal b).date.y - (za.toLocal a).date.y) * 12 + ((zb.toLocal b).date.m - (za.toLocal a).date.m) = w)
    (h0 : addMonthsToDate za a w = x) (hp : addMonthsToDate za a (w + 1) = xp) (hm : addMonthsToDate za a (w + -1) = xm)
    (h1 : xm.millis < b.millis) (h2 : b.millis < xp.millis) :
    ∃ f : Rat, monthDiffFrom za a zb b = -(w + f) ∧ -1 < f ∧ f < 1 ∧
      (f < 0 ↔ b.millis < x.millis) ∧ (0 < f ↔ x.millis < b.millis) := by
  have q1 : (xm.millis : Rat) < b.millis := by exact_mod_cast h1
  have q2 : (b.millis : Rat) < xp.millis := by exact_mod_cast h2
  by_cases hlt : b.millis - x.millis < 0
  · have hne : x.millis - xm.millis ≠ 0 := by omega
    have q3 : (b.millis : Rat) < x.millis := by exact_mod_cast (show b.millis < x.millis by omega)
    refine ⟨((b.millis - x.millis : Int) : Rat) / ((x.millis - xm.millis : Int) : Rat), ?_, ?_, ?_, ?_, ?_⟩
    · simp only [monthDiffFrom, hw, h0, hlt, if_true, hm, hne, ne_eq, not_false_eq_true]
    all_goals push_cast
    · rw [lt_div_iff₀ (by linarith)]; linarith
    · rw [div_lt_iff₀ (by linarith)]; linarith
    · exact ⟨fun _ => by omega, fun _ => div_neg_of_neg_of_pos (by linarith) (by linarith)⟩
    · exact ⟨fun h => by
        have := div_neg_of_neg_of_pos (a := (b.millis : Rat) - x.millis) (b := (x.millis : Rat) - xm.millis) (by linarith) (by linarith)
        linarith, fun h => by omega⟩
  · have hne : xp.millis - x.millis ≠ 0 := by omega
    have q3 : (x.millis : Rat) ≤ b.millis := by exact_mod_cast (show x.millis ≤ b.millis by omega)
    have q4 : (0 : Rat) ≤ ((b.millis : Rat) - x.millis) / ((xp.millis : Rat) - x.millis) :=
      div_nonneg (by linarith) (by linarith)
    refine ⟨((b.millis - x.millis : Int) : Rat) / ((xp.millis - x.millis : Int) : Rat), ?_, ?_, ?_, ?_, ?_⟩
    · simp only [monthDiffFrom, hw, h0, hlt, if_false, hp, hne, ne_eq, not_false_eq_true, if_true]
    all_goals push_cast
    · linarith
    · rw [div_lt_iff₀ (by linarith)]; linarith
    · exact ⟨fun h => by linarith, fun h => by omega⟩
    · constructor
      · intro h
        by_contra hn
        have e : b.millis = x.millis := by omega
        rw [e] at h; simp at h
      · intro h
        have : (x.millis : Rat) < b.millis := by exact_mod_cast h
        exact div_pos (by linarith) (by linarith)

/-- `month_diff` from the first date, in a fixed zone: the months between the months of the dates, and a
fraction that says on which side of the anchor the other date lies -/
theorem monthDiffFrom_fixed {z : Zone} {o : Int} {ok : Int → Bool} (hz : z = Zone.fixed o ok) {lo hi : Int}
    (hc : Covers o ok lo hi) {a b : Inst} (ha : a.Valid) (hb : b.Valid) (h1 : lo < (z.toLocal b).date.y)
    (h2 : (z.toLocal b).date.y < hi) {w : Int}
    (hw : w = ((z.toLocal b).date.y - (z.toLocal a).date.y) * 12 + ((z.toLocal b).date.m - (z.toLocal a).date.m)) :
    ∃ (x xp xm : Inst) (f : Rat), z.addMonths w a = some x ∧ z.addMonths (w + 1) a = some xp ∧
      z.addMonths (w - 1) a = some xm ∧ xm.millis < b.millis ∧ b.millis < xp.millis ∧
      z.toLocal x = { z.toLocal a with date := (z.toLocal a).date.addMonths w } ∧ monthDiffFrom z a z b = -(w + f) ∧
      -1 < f ∧ f < 1 ∧ (f < 0 ↔ b.millis < x.millis) ∧ (0 < f ↔ x.millis < b.millis) := by
  have hvb := toLocal_valid z hb
  have hbm : 1 ≤ (z.toLocal b).date.m ∧ (z.toLocal b).date.m ≤ 12 := ⟨hvb.1.1, hvb.1.2.1⟩
  have hyw := addMonths_month (d := (z.toLocal a).date) w
  have hyp := addMonths_month (d := (z.toLocal a).date) (w + 1)
  have hym := addMonths_month (d := (z.toLocal a).date) (w + -1)
  obtain ⟨x, x1, x2, x3, x4⟩ := fixed_anchor hz hc ha w (by omega) (by omega)
  obtain ⟨xp, p1, p2, p3, p4⟩ := fixed_anchor hz hc ha (w + 1) (by omega) (by omega)
  obtain ⟨xm, m1, m2, m3, m4⟩ := fixed_anchor hz hc ha (w + -1) (by omega) (by omega)
  have mb := fixed_millis hz b
  have mp := fixed_millis hz xp
  have mm := fixed_millis hz xm
  -- the anchors a month away lie on either side of the month of `b`
  have lt1 : b.millis < xp.millis := by
    have := month_millis_lt hvb (toLocal_valid z p3) (by rw [p4]; simp only; omega)
    omega
  have lt2 : xm.millis < b.millis := by
    have := month_millis_lt (toLocal_valid z m3) hvb (by rw [m4]; simp only; omega)
    omega
  obtain ⟨f, hf⟩ := monthDiffFrom_of hw.symm x2 p2 m2 lt2 lt1
  exact ⟨x, xp, xm, f, x1, p1, m1, lt2, lt1, x4, hf⟩

end Cal

/-- `diff` is antisymmetric in seconds, minutes, hours, days and weeks, whatever the zones. -/
theorem C23_diff_antisymm_fixed_units (za zb : Zone) (a b : Inst) (u : DUnit) (hu : u ≠ .month ∧ u ≠ .quarter ∧ u ≠ .year) :
    diff zb b za a (some u) = -diff za a zb b (some u) ∧ diff zb b za a none = -diff za a zb b none := by
  have e : ∀ x y n : Int, x = -y → x.tdiv n = -y.tdiv n := by
    intro x y n h
    rw [h, Int.neg_tdiv]
  constructor
  · rw [diff_eq, diff_eq]
    cases u
    case month => exact absurd rfl hu.1
    case quarter => exact absurd rfl hu.2.1
    case year => exact absurd rfl hu.2.2
    all_goals exact e _ _ _ (by omega)
  · simp only [diff]; omega

/-- The month difference of dates on different days of the month is antisymmetric, whatever the zones. -/
theorem C23_month_diff_antisymm (za zb : Zone) (a b : Inst) (h : (za.toLocal a).date.d ≠ (zb.toLocal b).date.d) :
    monthDiff zb b za a = -monthDiff za a zb b := by
  simp only [monthDiff]
  rcases lt_or_gt_of_ne h with h | h
  · rw [if_pos h, if_neg (by omega), neg_neg]
  · rw [if_pos h, if_neg (by omega)]

/-- `diff` is antisymmetric in every unit, in a zone of fixed offset. -/
theorem C23_diff_antisymm {z : Zone} {o : Int} {ok : Int → Bool} (hz : z = Zone.fixed o ok) {lo hi : Int}
    (hc : Covers o ok lo hi) {a b : Inst} (ha : a.Valid) (hb : b.Valid)
    (ya : lo < (z.toLocal a).date.y ∧ (z.toLocal a).date.y < hi) (yb : lo < (z.toLocal b).date.y ∧ (z.toLocal b).date.y < hi)
    (u : Option DUnit) : diff z b z a u = -diff z a z b u := by
  have key : towardsZero (monthDiff z b z a) = -towardsZero (monthDiff z a z b) := by
    by_cases hd : (z.toLocal a).date.d = (z.toLocal b).date.d
    · -- the same day of the month: the anchors have the day of the other date
      obtain ⟨x, _, _, f, -, -, -, -, -, x4, e1, f1, f2, f3, f4⟩ := monthDiffFrom_fixed hz hc ha hb yb.1 yb.2 rfl
      obtain ⟨x', _, _, f', -, -, -, -, -, x4', e1', f1', f2', f3', f4'⟩ := monthDiffFrom_fixed hz hc hb ha ya.1 ya.2 rfl
      have day : ∀ {p q : Date}, p.Valid → q.Valid → p.d = q.d →
          p.addMonths ((q.y - p.y) * 12 + (q.m - p.m)) = q := by
        intro p q hp hq h
        obtain ⟨py, pm, pd⟩ := p
        obtain ⟨qy, qm, qd⟩ := q
        simp only [Date.Valid] at hp hq
        simp only at h
        subst h
        have t1 : (py * 12 + (pm - 1) + ((qy - py) * 12 + (qm - pm))) / 12 = qy := by omega
        have t2 : (py * 12 + (pm - 1) + ((qy - py) * 12 + (qm - pm))) % 12 + 1 = qm := by omega
        simp only [Date.addMonths, t1, t2, Date.mk.injEq, true_and]
        omega
      have va := toLocal_valid z ha
      have vb := toLocal_valid z hb
      rw [day va.1 vb.1 hd] at x4
      rw [day vb.1 va.1 hd.symm] at x4'
      have ma := fixed_millis hz a
      have mb := fixed_millis hz b
      have mx := fixed_millis hz x
      have mx' := fixed_millis hz x'
      rw [x4] at mx
      rw [x4'] at mx'
      simp only [Local.millis, Local.secs] at ma mb mx mx'
      have s1 : f < 0 ↔ 0 < f' := by rw [f3, f4']; omega
      have s2 : 0 < f ↔ f' < 0 := by rw [f4, f3']; omega
      simp only [monthDiff, hd, lt_irrefl, if_false]
      rw [e1, e1', towardsZero_neg, towardsZero_neg, towardsZero_add _ _ f1 f2, towardsZero_add _ _ f1' f2']
      simp only [s1, s2]
      by_cases p1 : 0 < f' <;> by_cases p2 : f' < 0 <;> simp only [p1, p2, and_true, and_false, if_false] <;>
        (try split_ifs) <;> omega
    · rw [C23_month_diff_antisymm z z a b hd, towardsZero_neg]
  cases u with
  | none => exact (C23_diff_antisymm_fixed_units z z a b .second (by decide)).2
  | some u =>
    cases u
    case month => rw [diff_eq, diff_eq]; exact key
    case quarter => rw [diff_eq, diff_eq]; simp only [key, Int.neg_tdiv]
    case year => rw [diff_eq, diff_eq]; simp only [key, Int.neg_tdiv]
    all_goals exact (C23_diff_antisymm_fixed_units z z a b _ (by decide)).1

/-- What the difference in months means, in a zone of fixed offset: starting from the date with the later
day of the month, it is the number of whole months that can be added (taken away) without going past the
other date. -/
theorem C23_diff_months {z : Zone} {o : Int} {ok : Int → Bool} (hz : z = Zone.fixed o ok) {lo hi : Int}
    (hc : Covers o ok lo hi) {a b : Inst} (ha : a.Valid) (hb : b.Valid)
    (yb : lo < (z.toLocal b).date.y ∧ (z.toLocal b).date.y < hi) (hd : (z.toLocal b).date.d ≤ (z.toLocal a).date.d) :
    ∃ k x, diff z a z b (some .month) = -k ∧ z.addMonths k a = some x ∧
      ((0 ≤ k ∧ x.millis ≤ b.millis ∧ ∃ y, z.addMonths (k + 1) a = some y ∧ b.millis < y.millis) ∨
        (k ≤ 0 ∧ b.millis ≤ x.millis ∧ ∃ y, z.addMonths (k - 1) a = some y ∧ y.millis < b.millis)) := by
  obtain ⟨x, xp, xm, f, h1, h2, h3, h4, h5, -, e, f1, f2, f3, f4⟩ := monthDiffFrom_fixed hz hc ha hb yb.1 yb.2 rfl
  rw [diff_eq]
  simp only [monthDiff]
  rw [if_neg (by omega), e, towardsZero_neg, towardsZero_add _ _ f1 f2]
  generalize ((z.toLocal b).date.y - (z.toLocal a).date.y) * 12 + ((z.toLocal b).date.m - (z.toLocal a).date.m) = w at *
  split_ifs with c1 c2
  · refine ⟨w - 1, xm, rfl, h3, Or.inl ⟨by omega, by omega, x, ?_, f3.1 c1.2⟩⟩
    rw [show w - 1 + 1 = w by omega]; exact h1
  · refine ⟨w + 1, xp, rfl, h2, Or.inr ⟨by omega, by omega, x, ?_, f4.1 c2.2⟩⟩
    rw [show w + 1 - 1 = w by omega]; exact h1
  · refine ⟨w, x, rfl, h1, ?_⟩
    rcases lt_trichotomy w 0 with hw | hw | hw
    · right
      have : ¬ x.millis < b.millis := fun h => c2 ⟨hw, f4.2 h⟩
      exact ⟨by omega, by omega, xm, h3, h4⟩
    · rcases le_or_gt x.millis b.millis with hx | hx
      · exact Or.inl ⟨by omega, hx, xp, h2, h5⟩
      · exact Or.inr ⟨by omega, by omega, xm, h3, h4⟩
    · left
      have : ¬ b.millis < x.millis := fun h => c1 ⟨hw, f3.2 h⟩
      exact ⟨by omega, by omega, xp, h2, h5⟩

/-- The difference of a date and the date some months later is that number of months, in every zone, also
when the day had to be cut to the end of a shorter month. -/
theorem C23_diff_add_months {z : Zone} {t t' : Inst} (ht : z.Good t) (n : Int)
    (h : addDuration z t ⟨0, n, 0⟩ = some t') : diff z t' z t (some .month) = n := by
  have hm : z.addMonths n t = some t' := by
    simp only [addDuration, Option.bind_eq_bind, Option.bind_eq_some_iff] at h
    obtain ⟨t1, h1, t2, h2, h3⟩ := h
    have e : t1 = t := by
      simp only [Zone.addSeconds] at h1
      split_ifs at h1
      cases h1
      simp
    subst e
    have g2 := (addMonths_some ht.1 h2).2
    rw [Int.add_zero] at h3
    have hl := toLocal_valid z g2.1
    obtain ⟨rfl, -⟩ := (mapLocal_id g2.1 (by simp only [Local.withYear, Local.withDate, if_pos hl.1])).1 h3
    exact h2
  obtain ⟨e, g⟩ := addMonths_some ht.1 hm
  have hv := (toLocal_valid z ht.1).1
  have hmo := addMonths_month (d := (z.toLocal t).date) n
  have hdate : (z.toLocal t').date = (z.toLocal t).date.addMonths n := by rw [e]
  have whole : ((z.toLocal t').date.y - (z.toLocal t).date.y) * 12 + ((z.toLocal t').date.m - (z.toLocal t).date.m) = n := by
    rw [hdate]; omega
  have int : ∀ k : Int, towardsZero (k : Rat) = k := by intro k; unfold towardsZero; split_ifs <;> simp
  have zero : ∀ {p q : Zone} {a b : Inst} {w : Int},
      ((q.toLocal b).date.y - (p.toLocal a).date.y) * 12 + ((q.toLocal b).date.m - (p.toLocal a).date.m) = w →
      addMonthsToDate p a w = b → monthDiffFrom p a q b = -w := by
    intro p q a b w hw hx
    simp [monthDiffFrom, hw, hx]
  rw [diff_eq]
  simp only [monthDiff]
  by_cases hd : (z.toLocal t').date.d < (z.toLocal t).date.d
  · rw [if_pos hd, zero whole (by simp only [addMonthsToDate, hm, Option.getD_some]), neg_neg, int]
  · rw [if_neg hd]
    have hback : z.addMonths (-n) t' = some t := by
      have e2 : ((z.toLocal t').date).addMonths (-n) = (z.toLocal t).date := by
        rw [hdate] at hd ⊢
        clear whole hmo hdate e h
        generalize (z.toLocal t).date = D at hv hd
        obtain ⟨y, m, d⟩ := D
        simp only [Date.Valid] at hv
        simp only [Date.addMonths] at hd ⊢
        have t1 : ((y * 12 + (m - 1) + n) / 12 * 12 + ((y * 12 + (m - 1) + n) % 12 + 1 - 1) + -n) / 12 = y := by omega
        have t2 : ((y * 12 + (m - 1) + n) / 12 * 12 + ((y * 12 + (m - 1) + n) % 12 + 1 - 1) + -n) % 12 + 1 = m := by omega
        rw [t1, t2]
        simp only [Date.mk.injEq, true_and]
        omega
      simp only [Zone.addMonths, Zone.mapLocal, Option.bind_some, e2]
      have e3 : ({ z.toLocal t' with date := (z.toLocal t).date } : Local) = z.toLocal t := by rw [e]
      rw [e3]
      exact resolve_good ht
    rw [zero (w := -n) (by omega) (by simp only [addMonthsToDate, hback, Option.getD_some])]
    push_cast
    rw [neg_neg, int]

/-! ### the deprecated functions of helpers.rs -/

theorem Cal.naiveStart_eq {u : DUnit} (hu : u ≠ .quarter) {l : Local} (h : l.Valid) :
    naiveStartOf u l = some (if u = .second then l else { floorLocal u l with ns := l.ns }) := by
  have h2 : Date.Valid ⟨l.date.y, l.date.m, 1⟩ := first_valid h.1.1 h.1.2.1
  have h3 : Date.Valid ⟨l.date.y, 1, 1⟩ := first_valid (by decide) (by decide)
  cases u
  case quarter => exact absurd rfl hu
  all_goals simp [naiveStartOf, Local.withSecond, Local.withMinute, Local.withHour, Local.withDay, Local.withMonth,
    Local.withDate, floorLocal, floorDate, h2, h3]

/-- The deprecated start of a unit always succeeds and lies in the first second of the unit, but keeps the
nanoseconds: it need not be the first instant. It is not after the date. -/
theorem C23_naive_start {u : DUnit} (hu : u ≠ .quarter) {l : Local} (h : l.Valid) :
    ∃ f, naiveStartOf u l = some f ∧ f.Valid ∧ SameUnit u l f ∧ f.ns = l.ns ∧ f.nanos ≤ l.nanos ∧
      ∀ x : Local, x.Valid → SameUnit u l x → f.secs ≤ x.secs := by
  refine ⟨_, naiveStart_eq hu h, ?_⟩
  have hf := floor_valid u h
  have n := h.2.2.2.2.2.2.2
  have nf := hf.2.2.2.2.2.2.2
  have bl := between_of_same h h (sameUnit_refl u h)
  split_ifs with hs
  · subst hs
    refine ⟨h, sameUnit_refl _ h, rfl, le_refl _, ?_⟩
    rintro x hx ⟨e1, e2, e3, e4⟩
    simp only [Local.secs, e1, e2, e3, e4, le_refl]
  · have hv : Local.Valid { floorLocal u l with ns := l.ns } := by
      obtain ⟨a, b, c, d, e, f, g, -, -⟩ := hf
      exact ⟨a, b, c, d, e, f, g, n.1, n.2⟩
    have e : Local.nanos { floorLocal u l with ns := l.ns } = (floorLocal u l).secs * 1000000000 + l.ns := rfl
    have e0 : (floorLocal u l).ns = 0 := by cases u <;> rfl
    have le : Local.nanos { floorLocal u l with ns := l.ns } ≤ l.nanos := by
      rw [e]; simp only [Local.nanos] at *; omega
    refine ⟨hv, same_of_between h hv ?_ (by omega), rfl, le, ?_⟩
    · rw [e]; simp only [Local.nanos] at *; omega
    · intro x hx hs
      have := (between_of_same h hx hs).1
      have nx := hx.2.2.2.2.2.2.2
      change (floorLocal u l).secs ≤ x.secs
      simp only [Local.nanos] at this; omega

theorem Cal.naiveEnd_eq {u : DUnit} (hu : u ≠ .quarter) (hy : u ≠ .year) {l : Local} (h : l.Valid) :
    naiveEndOf u l = some (if u = .second then l else { ceilLocal u l with ns := l.ns }) := by
  have h2 : Date.Valid ⟨l.date.y, l.date.m, monthDays l.date.y l.date.m⟩ := last_valid h.1.1 h.1.2.1
  cases u
  case quarter => exact absurd rfl hu
  case year => exact absurd rfl hy
  all_goals simp [naiveEndOf, Local.withSecond, Local.withMinute, Local.withHour, Local.withDay,
    Local.withDate, ceilLocal, ceilDate, h2]

/-- The deprecated end of a unit other than the year always succeeds and lies in the last second of the
unit, keeping the nanoseconds. -/
theorem C23_naive_end {u : DUnit} (hu : u ≠ .quarter) (hy : u ≠ .year) {l : Local} (h : l.Valid) :
    ∃ f, naiveEndOf u l = some f ∧ f.Valid ∧ SameUnit u l f ∧ f.ns = l.ns ∧ l.nanos ≤ f.nanos ∧
      ∀ x : Local, x.Valid → SameUnit u l x → x.secs ≤ f.secs := by
  refine ⟨_, naiveEnd_eq hu hy h, ?_⟩
  have hf := ceil_valid u h
  have n := h.2.2.2.2.2.2.2
  have nf := hf.2.2.2.2.2.2.2
  have bl := between_of_same h h (sameUnit_refl u h)
  split_ifs with hs
  · subst hs
    refine ⟨h, sameUnit_refl _ h, rfl, le_refl _, ?_⟩
    rintro x hx ⟨e1, e2, e3, e4⟩
    simp only [Local.secs, e1, e2, e3, e4, le_refl]
  · have hv : Local.Valid { ceilLocal u l with ns := l.ns } := by
      obtain ⟨a, b, c, d, e, f, g, -, -⟩ := hf
      exact ⟨a, b, c, d, e, f, g, n.1, n.2⟩
    have e : Local.nanos { ceilLocal u l with ns := l.ns } = (ceilLocal u l).secs * 1000000000 + l.ns := rfl
    have e0 : (ceilLocal u l).ns = 999999999 := by cases u <;> rfl
    have le : l.nanos ≤ Local.nanos { ceilLocal u l with ns := l.ns } := by
      rw [e]; simp only [Local.nanos] at *; omega
    refine ⟨hv, same_of_between h hv (by omega) ?_, rfl, le, ?_⟩
    · rw [e]; simp only [Local.nanos] at *; omega
    · intro x hx hs
      have := (between_of_same h hx hs).2
      have nx := hx.2.2.2.2.2.2.2
      change x.secs ≤ (ceilLocal u l).secs
      simp only [Local.nanos] at this; omega

/-- The deprecated end of the year: in December, on the day with the number of days of the *current*
month. It is the last day of the year only in months of 31 days, and can be earlier than the date. -/
theorem C23_naive_end_of_year {l : Local} (h : l.Valid) :
    naiveEndOf .year l = some ⟨⟨l.date.y, 12, monthDays l.date.y l.date.m⟩, 23, 59, 59, l.ns⟩ := by
  have h2 : Date.Valid ⟨l.date.y, l.date.m, monthDays l.date.y l.date.m⟩ := last_valid h.1.1 h.1.2.1
  have hm := monthDays_bounds l.date.y l.date.m
  have h3 : Date.Valid ⟨l.date.y, 12, monthDays l.date.y l.date.m⟩ :=
    ⟨by simp, by simp, by simp only; omega, by simp only [monthDays] at *; norm_num at *; omega⟩
  simp [naiveEndOf, Local.withSecond, Local.withMinute, Local.withHour, Local.withDay, Local.withMonth,
    Local.withDate, h2, h3]

/-- so it is the end of the year only in the months of 31 days, and elsewhere it is not idempotent -/
theorem C23_naive_end_of_year_wrong {l : Local} (h : l.Valid) {e : Local} (he : naiveEndOf .year l = some e) :
    ((∀ x : Local, x.Valid → SameUnit .year l x → x.secs ≤ e.secs) ↔ monthDays l.date.y l.date.m = 31) ∧
    (naiveEndOf .year e = some e ↔ monthDays l.date.y l.date.m = 31) := by
  have hm := monthDays_bounds l.date.y l.date.m
  rw [C23_naive_end_of_year h] at he
  cases he
  have hv : Date.Valid ⟨l.date.y, 12, monthDays l.date.y l.date.m⟩ :=
    ⟨by simp, by simp, by simp only; omega, by simp only [monthDays] at *; norm_num at *; omega⟩
  have n := h.2.2.2.2.2.2.2
  have hve : Local.Valid ⟨⟨l.date.y, 12, monthDays l.date.y l.date.m⟩, 23, 59, 59, l.ns⟩ :=
    ⟨hv, by simp, by simp, by simp, by simp, by simp, by simp, n.1, n.2⟩
  constructor
  · constructor
    · intro hx
      have := hx _ (ceil_valid .year h) (same_ceil .year h)
      simp only [ceilLocal, ceilDate, Local.secs, Date.dayNo] at this
      omega
    · intro e x hx hs
      have := (between_of_same h hx hs).2
      have nx := hx.2.2.2.2.2.2.2
      rw [e]
      simp only [ceilLocal, ceilDate, Local.nanos, Local.secs] at *
      omega
  · rw [C23_naive_end_of_year hve]
    simp only [Option.some.injEq, Local.mk.injEq, Date.mk.injEq, true_and, and_true]
    have : monthDays l.date.y 12 = 31 := by simp [monthDays]
    rw [this]
    omega

/-! ### cases -/

namespace Cal

set_option maxRecDepth 20000

def anyZone (o : Int) : Zone := Zone.fixed o (fun _ => true)

/-- an instant given by its date and time in universal time -/
def utc (y m d h mi s ns : Int) : Inst := ⟨Local.secs ⟨⟨y, m, d⟩, h, mi, s, ns⟩, ns⟩

-- 29 February 2024, a Thursday
example : startOf (anyZone 0) .week (utc 2024 2 29 12 34 56 789) = some (utc 2024 2 26 0 0 0 0) := by decide
example : endOf (anyZone 0) .week (utc 2024 2 29 12 34 56 789) = some (utc 2024 3 3 23 59 59 999999999) := by decide
example : endOf (anyZone 0) .month (utc 2024 2 29 12 34 56 789) = some (utc 2024 2 29 23 59 59 999999999) := by decide
example : startOf (anyZone 0) .quarter (utc 2024 2 29 12 34 56 789) = some (utc 2024 1 1 0 0 0 0) := by decide
example : endOf (anyZone 0) .quarter (utc 2024 2 29 12 34 56 789) = some (utc 2024 3 31 23 59 59 999999999) := by decide
-- the zone matters: two hours further east it is already March
example : startOf (anyZone 7200) .month (utc 2024 2 29 23 0 0 0) = some (utc 2024 2 29 22 0 0 0) := by decide
-- the 31st of May
example : startOf (anyZone 0) .quarter (utc 2024 5 31 0 0 0 0) = none := by decide
example : startOf (anyZone 0) .quarter (utc 2024 5 30 0 0 0 0) = some (utc 2024 4 1 0 0 0 0) := by decide
example : endOf (anyZone 0) .quarter (utc 2024 7 31 0 0 0 0) = none := by decide
example : startOf (anyZone 0) .quarter (utc 2024 7 31 0 0 0 0) = some (utc 2024 7 1 0 0 0 0) := by decide
-- a zone in which the clock goes back from 03:00 to 02:00 on 27 October 2024: adding an hour to 02:00 summer
-- time gives the second 02:00, whose local time occurs twice: no date
example : addDuration (Zone.change (utc 2024 10 27 1 0 0 0).utc 7200 3600 (fun _ => true))
    (utc 2024 10 27 0 0 0 0) ⟨3600, 0, 0⟩ = none := by decide
example : addDuration (Zone.change (utc 2024 10 27 1 0 0 0).utc 7200 3600 (fun _ => true))
    (utc 2024 10 27 0 0 0 0) ⟨7200, 0, 0⟩ = some (utc 2024 10 27 2 0 0 0) := by decide
-- the start of the day of the change is fine, of the hour not
example : startOf (Zone.change (utc 2024 10 27 1 0 0 0).utc 7200 3600 (fun _ => true)) .day (utc 2024 10 27 12 0 0 0) =
    some (utc 2024 10 26 22 0 0 0) := by decide
example : startOf (Zone.change (utc 2024 10 27 1 0 0 0).utc 7200 3600 (fun _ => true)) .hour (utc 2024 10 27 0 30 0 0) =
    none := by decide
-- 31 January and a month; 29 February and a year
example : addDuration (anyZone 0) (utc 2024 1 31 10 0 0 0) ⟨0, 1, 0⟩ = some (utc 2024 2 29 10 0 0 0) := by decide
example : addDuration (anyZone 0) (utc 2024 2 29 10 0 0 0) ⟨0, 0, 1⟩ = none := by decide
example : addDuration (anyZone 0) (utc 2024 2 29 10 0 0 0) ⟨0, 12, 0⟩ = some (utc 2025 2 28 10 0 0 0) := by decide
-- set
example : set (anyZone 0) .day 31 (utc 2024 4 15 0 0 0 0) = none := by decide
example : set (anyZone 0) .month 2 (utc 2024 4 15 0 0 0 0) = some (utc 2024 2 15 0 0 0 0) := by decide
-- same, before, after
example : isSame (anyZone 0) (utc 2024 2 29 12 0 0 0) (utc 2024 2 1 0 0 0 0) (some .month) = some true := by decide
example : isSame (anyZone 0) (utc 2024 5 31 12 0 0 0) (utc 2024 5 31 12 0 0 0) (some .quarter) = none := by decide
example : isBefore (anyZone 0) (utc 2024 2 29 12 0 0 0) (utc 2024 3 1 0 0 0 0) (some .month) = some true := by decide
-- without a unit a date can be the same as and before another
example : isSame (anyZone 0) (utc 2024 1 1 0 0 0 0) (utc 2024 1 1 0 0 0 1) none = some true ∧
    isBefore (anyZone 0) (utc 2024 1 1 0 0 0 0) (utc 2024 1 1 0 0 0 1) none = some true := by decide
-- differences
example : diff (anyZone 0) (utc 2024 3 31 0 0 0 0) (anyZone 0) (utc 2024 2 29 0 0 0 0) (some .month) = 1 := by
  have h : addDuration (anyZone 0) (utc 2024 3 31 0 0 0 0) ⟨0, -1, 0⟩ = some (utc 2024 2 29 0 0 0 0) := by decide
  have := C23_diff_add_months (z := anyZone 0) (by refine ⟨⟨by decide, by decide⟩, by decide, by decide⟩) (-1) h
  have h2 := C23_diff_antisymm (z := anyZone 0) rfl (lo := 0) (hi := 3000) (fun _ _ _ _ => rfl)
    (a := utc 2024 2 29 0 0 0 0) (b := utc 2024 3 31 0 0 0 0) ⟨by decide, by decide⟩ ⟨by decide, by decide⟩
    (by decide) (by decide) (some .month)
  rw [h2, this]; rfl
-- the deprecated end of the year of a day in February
example : naiveEndOf .year ⟨⟨2023, 2, 10⟩, 0, 0, 0, 0⟩ = some ⟨⟨2023, 12, 28⟩, 23, 59, 59, 0⟩ := by decide

end Cal

end Zen
