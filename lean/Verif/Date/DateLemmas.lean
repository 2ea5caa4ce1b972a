import Verif.Date.DateTime
/-
Lemmas about local times, zones, and chains of local changes.
-/
namespace Zen.Cal

open Dur

/-! ### local times and seconds -/

theorem secs_ofSecs (n ns : Int) : (Local.ofSecs n ns).secs = n := by
  simp only [Local.secs, Local.ofSecs, dayNo_ofDay]; omega

theorem ofSecs_valid {n ns : Int} (h0 : 0 ≤ ns) (h1 : ns < 1000000000) : (Local.ofSecs n ns).Valid := by
  refine ⟨ofDay_valid _, ?_, ?_, ?_, ?_, ?_, ?_, h0, h1⟩ <;> simp only [Local.ofSecs] <;> omega

theorem ofSecs_secs {l : Local} (h : l.Valid) : Local.ofSecs l.secs l.ns = l := by
  obtain ⟨hd, h1, h2, h3, h4, h5, h6, -, -⟩ := h
  obtain ⟨date, hh, mi, s, ns⟩ := l
  simp only [Local.secs, Local.ofSecs, Local.mk.injEq] at *
  refine ⟨?_, by omega, by omega, by omega, trivial⟩
  have e : ((date.dayNo - 719162) * 86400 + hh * 3600 + mi * 60 + s) / 86400 + 719162 = date.dayNo := by omega
  rw [e, ofDay_dayNo hd]

theorem secs_inj {a b : Local} (ha : a.Valid) (hb : b.Valid) (h : a.secs = b.secs) (hn : a.ns = b.ns) : a = b := by
  rw [← ofSecs_secs ha, ← ofSecs_secs hb, h, hn]

theorem secs_lt_day {a : Local} (ha : a.Valid) :
    (a.date.dayNo - 719162) * 86400 ≤ a.secs ∧ a.secs < (a.date.dayNo - 719162 + 1) * 86400 := by
  obtain ⟨-, h1, h2, h3, h4, h5, h6, -, -⟩ := ha
  simp only [Local.secs]; omega

theorem toLocal_valid (z : Zone) {t : Inst} (h : t.Valid) : (z.toLocal t).Valid := ofSecs_valid h.1 h.2

theorem toLocal_secs (z : Zone) (t : Inst) : (z.toLocal t).secs = t.utc + z.offset t.utc := secs_ofSecs _ _

theorem toLocal_ns (z : Zone) (t : Inst) : (z.toLocal t).ns = t.ns := rfl

/-! ### resolution -/

/-- an instant in range that is the only one with its local time -/
def Zone.Good (z : Zone) (t : Inst) : Prop :=
  t.Valid ∧ z.single (t.utc + z.offset t.utc) = some t.utc ∧ z.ok t.utc = true

theorem resolve_some {z : Zone} {l : Local} {t : Inst} (hl : l.Valid) (h : z.resolve l = some t) :
    z.toLocal t = l ∧ z.Good t := by
  simp only [Zone.resolve, Option.bind_eq_some_iff] at h
  obtain ⟨u, hu, h⟩ := h
  split_ifs at h with hok
  cases h
  have hs := (z.single_iff _ _).1 hu
  refine ⟨?_, ⟨hl.2.2.2.2.2.2.2.1, hl.2.2.2.2.2.2.2.2⟩, ?_, hok⟩
  · simp only [Zone.toLocal, hs.1]
    exact ofSecs_secs hl
  · show z.single (u + z.offset u) = some u
    rw [hs.1]; exact hu

theorem resolve_good {z : Zone} {t : Inst} (h : z.Good t) : z.resolve (z.toLocal t) = some t := by
  simp only [Zone.resolve, toLocal_secs, toLocal_ns, h.2.1, Option.bind_some, h.2.2, if_true]

/-- a change of local times that keeps them valid -/
def Keeps (f : Local → Option Local) : Prop := ∀ l l', l.Valid → f l = some l' → l'.Valid

theorem mapLocal_some {z : Zone} {f} {t t' : Inst} (hf : Keeps f) (ht : t.Valid) (h : z.mapLocal f t = some t') :
    f (z.toLocal t) = some (z.toLocal t') ∧ z.Good t' := by
  simp only [Zone.mapLocal, Option.bind_eq_some_iff] at h
  obtain ⟨l, hl, h⟩ := h
  obtain ⟨h1, h2⟩ := resolve_some (hf _ _ (toLocal_valid z ht) hl) h
  exact ⟨by rw [h1]; exact hl, h2⟩

theorem keeps_nano (n : Int) : Keeps (Local.withNano n) := by
  intro l l' hl h
  unfold Local.withNano at h
  split_ifs at h with hn
  cases h
  obtain ⟨a, b, c, d, e, f, g, -, -⟩ := hl
  exact ⟨a, b, c, d, e, f, g, hn.1, hn.2⟩

theorem keeps_second (n : Int) : Keeps (Local.withSecond n) := by
  intro l l' hl h
  unfold Local.withSecond at h
  split_ifs at h with hn
  cases h
  obtain ⟨a, b, c, d, e, -, -, f, g⟩ := hl
  exact ⟨a, b, c, d, e, hn.1, hn.2, f, g⟩

theorem keeps_minute (n : Int) : Keeps (Local.withMinute n) := by
  intro l l' hl h
  unfold Local.withMinute at h
  split_ifs at h with hn
  cases h
  obtain ⟨a, b, c, -, -, d, e, f, g⟩ := hl
  exact ⟨a, b, c, hn.1, hn.2, d, e, f, g⟩

theorem keeps_hour (n : Int) : Keeps (Local.withHour n) := by
  intro l l' hl h
  unfold Local.withHour at h
  split_ifs at h with hn
  cases h
  obtain ⟨a, -, -, b, c, d, e, f, g⟩ := hl
  exact ⟨a, hn.1, hn.2, b, c, d, e, f, g⟩

theorem keeps_date {g : Local → Date} : Keeps (fun l => l.withDate (g l)) := by
  intro l l' hl h
  simp only [Local.withDate] at h
  split_ifs at h with hn
  cases h
  exact ⟨hn, hl.2⟩

theorem keeps_day (n : Int) : Keeps (Local.withDay n) := keeps_date
theorem keeps_month (n : Int) : Keeps (Local.withMonth n) := keeps_date
theorem keeps_year (n : Int) : Keeps (Local.withYear n) := keeps_date

theorem keeps_addDays (n : Int) : Keeps (fun l => some { l with date := l.date.addDays n }) := by
  intro l l' hl h
  cases h
  exact ⟨ofDay_valid _, hl.2⟩

theorem addMonths_valid {a : Date} (h : a.Valid) (n : Int) : (a.addMonths n).Valid := by
  have := monthDays_bounds ((a.y * 12 + (a.m - 1) + n) / 12) ((a.y * 12 + (a.m - 1) + n) % 12 + 1)
  have h3 := h.2.2.1
  refine ⟨?_, ?_, ?_, ?_⟩ <;> simp only [Date.addMonths] <;> omega

theorem keeps_addMonths (n : Int) : Keeps (fun l => some { l with date := l.date.addMonths n }) := by
  intro l l' hl h
  cases h
  exact ⟨addMonths_valid hl.1 n, hl.2⟩

/-! ### chains of changes -/

/-- local changes one after the other, each resolved in the zone -/
def Zone.chain (z : Zone) : List (Local → Option Local) → Inst → Option Inst
  | [], t => some t
  | f :: fs, t => (z.mapLocal f t).bind (z.chain fs)

/-- local changes one after the other -/
def localChain : List (Local → Option Local) → Local → Option Local
  | [], l => some l
  | f :: fs, l => (f l).bind (localChain fs)

theorem chain_some {z : Zone} {fs} (hf : ∀ f ∈ fs, Keeps f) {t s : Inst} (ht : t.Valid) (h : z.chain fs t = some s) :
    localChain fs (z.toLocal t) = some (z.toLocal s) ∧ s.Valid ∧ (fs ≠ [] → z.Good s) := by
  induction fs generalizing t with
  | nil => cases h; exact ⟨rfl, ht, fun h => absurd rfl h⟩
  | cons f fs ih =>
    simp only [Zone.chain, Option.bind_eq_some_iff] at h
    obtain ⟨t1, h1, h⟩ := h
    obtain ⟨h2, h3⟩ := mapLocal_some (hf f (by simp)) ht h1
    obtain ⟨h4, h5, h6⟩ := ih (fun g hg => hf g (by simp [hg])) h3.1 h
    refine ⟨by simp only [localChain, h2, Option.bind_some, h4], h5, fun _ => ?_⟩
    cases fs with
    | nil => cases h; exact h3
    | cons g gs => exact h6 (by simp)

/-- a chain of changes that change nothing -/
theorem chain_id {z : Zone} {fs} {t : Inst} (ht : z.Good t) (hf : ∀ f ∈ fs, f (z.toLocal t) = some (z.toLocal t)) :
    z.chain fs t = some t := by
  induction fs with
  | nil => rfl
  | cons f fs ih =>
    simp only [Zone.chain, Zone.mapLocal, hf f (by simp), Option.bind_some, resolve_good ht]
    exact ih (fun g hg => hf g (by simp [hg]))

/-- all local times on the way are in `C` -/
def ChainIn (C : Local → Prop) : List (Local → Option Local) → Local → Prop
  | [], _ => True
  | f :: fs, l => ∀ l', f l = some l' → C l' ∧ ChainIn C fs l'

/-- a chain of changes succeeds if all local times on the way can be resolved -/
theorem chain_ok {z : Zone} {C : Local → Prop} (hC : ∀ l, l.Valid → C l → ∃ t, z.resolve l = some t)
    {fs} (hf : ∀ f ∈ fs, Keeps f) {t : Inst} {l' : Local} (ht : t.Valid) (hs : ChainIn C fs (z.toLocal t))
    (h : localChain fs (z.toLocal t) = some l') : ∃ s, z.chain fs t = some s := by
  induction fs generalizing t with
  | nil => exact ⟨t, rfl⟩
  | cons f fs ih =>
    simp only [localChain, Option.bind_eq_some_iff] at h
    obtain ⟨l1, h1, h⟩ := h
    have hv := hf f (by simp) _ _ (toLocal_valid z ht) h1
    obtain ⟨hc1, hs⟩ := hs _ h1
    obtain ⟨t1, h2⟩ := hC _ hv hc1
    obtain ⟨h3, h4⟩ := resolve_some hv h2
    obtain ⟨s, h5⟩ := ih (t := t1) (fun g hg => hf g (by simp [hg])) h4.1 (by rw [h3]; exact hs) (by rw [h3]; exact h)
    exact ⟨s, by simp only [Zone.chain, Zone.mapLocal, h1, Option.bind_some, h2, h5]⟩

def clock0 : List (Local → Option Local) :=
  [Local.withHour 0, Local.withMinute 0, Local.withSecond 0, Local.withNano 0]

/-- the changes `start_of` makes -/
def startSteps (u : DUnit) (d : Date) : List (Local → Option Local) :=
  match u with
  | .second => [Local.withNano 0]
  | .minute => [Local.withSecond 0, Local.withNano 0]
  | .hour => [Local.withMinute 0, Local.withSecond 0, Local.withNano 0]
  | .day => clock0
  | .week => (if d.weekday = 0 then [] else [fun l : Local => some { l with date := l.date.addDays (-d.weekday) }]) ++ clock0
  | .month => Local.withDay 1 :: clock0
  | .quarter => Local.withMonth ((d.quarter - 1) * 3 + 1) :: Local.withDay 1 :: clock0
  | .year => Local.withMonth 1 :: Local.withDay 1 :: clock0

def clock59 : List (Local → Option Local) := [Local.withHour 23, Local.withMinute 59, Local.withSecond 59]

/-- the changes `end_of` makes -/
def endSteps (u : DUnit) (d : Date) : List (Local → Option Local) :=
  Local.withNano 999999999 :: match u with
  | .second => []
  | .minute => [Local.withSecond 59]
  | .hour => [Local.withMinute 59, Local.withSecond 59]
  | .day => clock59
  | .week => (if d.weekday = 6 then [] else [fun l : Local => some { l with date := l.date.addDays (6 - d.weekday) }]) ++ clock59
  | .month => Local.withDay (monthDays d.y d.m) :: clock59
  | .quarter => Local.withMonth (d.quarter * 3) :: Local.withDay (monthDays d.y (d.quarter * 3)) :: clock59
  | .year => Local.withMonth 12 :: Local.withDay (monthDays d.y 12) :: clock59

theorem startOf_eq (z : Zone) (u : DUnit) (t : Inst) :
    startOf z u t = z.chain (startSteps u (z.toLocal t).date) t := by
  cases u
  case week =>
    simp only [startOf, startSteps, Zone.addDays, Int.neg_eq_zero]
    split_ifs with h <;> simp [clock0, Zone.chain]
  all_goals simp [startOf, startSteps, clock0, Zone.chain]

theorem endOf_eq (z : Zone) (u : DUnit) {t : Inst} (ht : t.Valid) :
    endOf z u t = z.chain (endSteps u (z.toLocal t).date) t := by
  have hd : ∀ t1, z.mapLocal (Local.withNano 999999999) t = some t1 → (z.toLocal t1).date = (z.toLocal t).date := by
    intro t1 h1
    have := (mapLocal_some (keeps_nano _) ht h1).1
    simp only [Local.withNano] at this
    split_ifs at this
    simp only [Option.some.injEq] at this
    rw [← this]
  cases h : z.mapLocal (Local.withNano 999999999) t with
  | none => simp [endOf, endSteps, Zone.chain, h]
  | some t1 =>
    have hd := hd t1 h
    simp only [endOf, endSteps, Zone.chain, h, Option.bind_some, Option.bind_eq_bind]
    cases u
    case week =>
      simp only [hd, Zone.addDays]
      by_cases h6 : (z.toLocal t).date.weekday = 6
      · rw [if_pos (by omega), if_pos h6]; simp [clock59, Zone.chain]
      · rw [if_neg (by omega), if_neg h6]; simp [clock59, Zone.chain]
    all_goals simp [hd, clock59, Zone.chain]

theorem keeps_clock0 : ∀ f ∈ clock0, Keeps f := by
  simp only [clock0, List.mem_cons, List.not_mem_nil, or_false]
  rintro f (rfl | rfl | rfl | rfl)
  exacts [keeps_hour _, keeps_minute _, keeps_second _, keeps_nano _]

theorem keeps_clock59 : ∀ f ∈ clock59, Keeps f := by
  simp only [clock59, List.mem_cons, List.not_mem_nil, or_false]
  rintro f (rfl | rfl | rfl)
  exacts [keeps_hour _, keeps_minute _, keeps_second _]

theorem keeps_start (u : DUnit) (d : Date) : ∀ f ∈ startSteps u d, Keeps f := by
  intro f hf
  cases u <;> simp only [startSteps, List.mem_cons, List.mem_append, List.not_mem_nil, or_false] at hf
  · subst hf; exact keeps_nano _
  · rcases hf with rfl | rfl; exacts [keeps_second _, keeps_nano _]
  · rcases hf with rfl | rfl | rfl; exacts [keeps_minute _, keeps_second _, keeps_nano _]
  · exact keeps_clock0 _ hf
  · rcases hf with hf | hf
    · split_ifs at hf
      · simp at hf
      · simp only [List.mem_cons, List.not_mem_nil, or_false] at hf; subst hf; exact keeps_addDays _
    · exact keeps_clock0 _ hf
  · rcases hf with rfl | hf; exacts [keeps_day _, keeps_clock0 _ hf]
  · rcases hf with rfl | rfl | hf; exacts [keeps_month _, keeps_day _, keeps_clock0 _ hf]
  · rcases hf with rfl | rfl | hf; exacts [keeps_month _, keeps_day _, keeps_clock0 _ hf]

theorem keeps_end (u : DUnit) (d : Date) : ∀ f ∈ endSteps u d, Keeps f := by
  intro f hf
  simp only [endSteps, List.mem_cons] at hf
  rcases hf with rfl | hf
  · exact keeps_nano _
  cases u <;> simp only [List.mem_cons, List.mem_append, List.not_mem_nil, or_false] at hf
  · subst hf; exact keeps_second _
  · rcases hf with rfl | rfl; exacts [keeps_minute _, keeps_second _]
  · exact keeps_clock59 _ hf
  · rcases hf with hf | hf
    · split_ifs at hf
      · simp at hf
      · simp only [List.mem_cons, List.not_mem_nil, or_false] at hf; subst hf; exact keeps_addDays _
    · exact keeps_clock59 _ hf
  · rcases hf with rfl | hf; exacts [keeps_day _, keeps_clock59 _ hf]
  · rcases hf with rfl | rfl | hf; exacts [keeps_month _, keeps_day _, keeps_clock59 _ hf]
  · rcases hf with rfl | rfl | hf; exacts [keeps_month _, keeps_day _, keeps_clock59 _ hf]

end Zen.Cal
