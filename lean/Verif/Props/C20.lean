import Verif.Builtins.Funcs
import Mathlib.Data.List.Count
import Mathlib.Tactic.IntervalCases
/-
C20  Aggregates over number arrays.
-/
namespace Zen
open Fn

/-- the value of an array of numbers -/
def nums (ns : List Rat) : Val := .arr (ns.map .num)

/-- the value of an array of dates -/
def dates (ds : List (Option Int)) : Val := .arr (ds.map fun d => .dyn (.date d))

namespace Agg

theorem allNums_map (ns : List Rat) : allNums (ns.map .num) = some ns := by
  induction ns with
  | nil => rfl
  | cons n r ih => simp [allNums, ih]

theorem allNums_some {xs : List Val} {ns : List Rat} (h : allNums xs = some ns) : xs = ns.map .num := by
  induction xs generalizing ns with
  | nil => cases h; rfl
  | cons x r ih =>
    cases x <;> simp only [allNums] at h <;> try cases h
    next n =>
      cases hr : allNums r with
      | none => rw [hr] at h; cases h
      | some m => rw [hr] at h; cases h; rw [ih hr]; rfl

theorem allDates_map (ds : List (Option Int)) :
    allDates (ds.map fun d => Val.dyn (.date d)) = some ds := by
  induction ds with
  | nil => rfl
  | cons n r ih => simp [allDates, ih]

theorem allDates_some {xs : List Val} {ds : List (Option Int)} (h : allDates xs = some ds) :
    xs = ds.map fun d => Val.dyn (.date d) := by
  induction xs generalizing ds with
  | nil => cases h; rfl
  | cons x r ih =>
    unfold allDates at h
    split at h
    · next e => cases e
    · next e =>
      cases e
      cases hr : allDates r with
      | none => rw [hr] at h; cases h
      | some m => rw [hr] at h; cases h; rw [ih hr]; rfl
    · cases h

theorem numArray_nums (ns : List Rat) : numArray [nums ns] 0 = .ok ns := by
  simp [numArray, argArr, nums, allNums_map, bind, Except.bind, pure, Except.pure]

theorem min_nums (ns : List Rat) : Fn.min [nums ns] = match minNum ns with
    | some m => .ok (.num m) | none => .error (.err "Empty array") := by
  cases ns with
  | nil => rfl
  | cons n r =>
    have := allNums_map (n :: r)
    simp only [List.map_cons] at this
    simp [Fn.min, numOrDateArray, argArr, nums, this, bind, Except.bind, pure, Except.pure, minNum]

theorem max_nums (ns : List Rat) : Fn.max [nums ns] = match maxNum ns with
    | some m => .ok (.num m) | none => .error (.err "Empty array") := by
  cases ns with
  | nil => rfl
  | cons n r =>
    have := allNums_map (n :: r)
    simp only [List.map_cons] at this
    simp [Fn.max, numOrDateArray, argArr, nums, this, bind, Except.bind, pure, Except.pure, maxNum]

theorem min_dates (ds : List (Option Int)) : Fn.min [dates ds] = match minDate ds with
    | some m => .ok (.dyn (.date m)) | none => .error (.err "Empty array") := by
  cases ds with
  | nil => rfl
  | cons n r =>
    have := allDates_map (n :: r)
    simp only [List.map_cons] at this
    simp [Fn.min, numOrDateArray, argArr, dates, this, bind, Except.bind, pure, Except.pure, minDate]

theorem max_dates (ds : List (Option Int)) : Fn.max [dates ds] = match maxDate ds with
    | some m => .ok (.dyn (.date m)) | none => .error (.err "Empty array") := by
  cases ds with
  | nil => rfl
  | cons n r =>
    have := allDates_map (n :: r)
    simp only [List.map_cons] at this
    simp [Fn.max, numOrDateArray, argArr, dates, this, bind, Except.bind, pure, Except.pure, maxDate]

/-! a fold that keeps the better of two elements finds the best -/

theorem best_fold {α : Type} (le : α → α → Prop) (refl : ∀ a, le a a)
    (trans : ∀ a b c, le a b → le b c → le a c) (pick : α → α → α)
    (mem : ∀ a b, pick a b = a ∨ pick a b = b) (lo : ∀ a b, le (pick a b) a ∧ le (pick a b) b)
    (r : List α) (x : α) :
    r.foldl pick x ∈ x :: r ∧ ∀ y ∈ x :: r, le (r.foldl pick x) y := by
  induction r generalizing x with
  | nil => simp [refl]
  | cons z r ih =>
    obtain ⟨h1, h2⟩ := ih (pick x z)
    refine ⟨?_, ?_⟩
    · simp only [List.foldl_cons]
      rcases List.mem_cons.1 h1 with h | h
      · rw [h]; rcases mem x z with e | e <;> rw [e] <;> simp
      · exact List.mem_cons_of_mem _ (List.mem_cons_of_mem _ h)
    · intro y hy
      simp only [List.foldl_cons]
      have hp := h2 (pick x z) (by simp)
      rcases List.mem_cons.1 hy with h | h
      · subst h; exact trans _ _ _ hp (lo _ _).1
      · rcases List.mem_cons.1 h with h | h
        · subst h; exact trans _ _ _ hp (lo _ _).2
        · exact h2 y (List.mem_cons_of_mem _ h)

theorem minNum_spec {ns : List Rat} {m : Rat} (h : minNum ns = some m) :
    m ∈ ns ∧ ∀ x ∈ ns, m ≤ x := by
  cases ns with
  | nil => cases h
  | cons x r =>
    cases h
    refine best_fold (· ≤ ·) (fun a => le_refl a) (fun a b c => le_trans) _ ?_ ?_ r x
    · intro a b; split <;> simp
    · intro a b; split <;> constructor <;> linarith

theorem maxNum_spec {ns : List Rat} {m : Rat} (h : maxNum ns = some m) :
    m ∈ ns ∧ ∀ x ∈ ns, x ≤ m := by
  cases ns with
  | nil => cases h
  | cons x r =>
    cases h
    refine best_fold (fun a b => b ≤ a) (fun a => le_refl a) (fun a b c h h' => le_trans h' h) _ ?_ ?_ r x
    · intro a b; split <;> simp
    · intro a b; split <;> constructor <;> linarith

theorem dateLt_irrefl (a : Option Int) : dateLt a a = false := by cases a <;> simp [dateLt]

theorem dateLe_trans {a b c : Option Int} (h : dateLt b a = false) (h' : dateLt c b = false) :
    dateLt c a = false := by
  cases a <;> cases b <;> cases c <;> simp_all [dateLt]; omega

theorem dateLt_asymm {a b : Option Int} (h : dateLt a b = true) : dateLt b a = false := by
  cases a <;> cases b <;> simp_all [dateLt]; omega

theorem dateLe_antisymm {a b : Option Int} (h : dateLt b a = false) (h' : dateLt a b = false) : a = b := by
  cases a <;> cases b <;> simp_all [dateLt]; omega

theorem minDate_spec {ds : List (Option Int)} {m : Option Int} (h : minDate ds = some m) :
    m ∈ ds ∧ ∀ x ∈ ds, dateLt x m = false := by
  cases ds with
  | nil => cases h
  | cons x r =>
    cases h
    refine best_fold (fun a b => dateLt b a = false) dateLt_irrefl (fun a b c => dateLe_trans) _ ?_ ?_ r x
    · intro a b; split <;> simp
    · intro a b; split
      · next h => exact ⟨dateLt_asymm h, dateLt_irrefl b⟩
      · next h => exact ⟨dateLt_irrefl a, by simpa using h⟩

theorem maxDate_spec {ds : List (Option Int)} {m : Option Int} (h : maxDate ds = some m) :
    m ∈ ds ∧ ∀ x ∈ ds, dateLt m x = false := by
  cases ds with
  | nil => cases h
  | cons x r =>
    cases h
    refine best_fold (fun a b => dateLt a b = false) dateLt_irrefl
      (fun a b c h h' => dateLe_trans h' h) _ ?_ ?_ r x
    · intro a b; split <;> simp
    · intro a b; split
      · next h => exact ⟨dateLt_irrefl a, dateLt_asymm h⟩
      · next h => exact ⟨by simpa using h, dateLt_irrefl b⟩

end Agg
open Agg

/-! ### min and max -/

/-- `min` of numbers returns exactly the element that bounds all others from below. -/
theorem C20_min (ns : List Rat) (v : Val) :
    Fn.min [nums ns] = .ok v ↔ ∃ m ∈ ns, v = .num m ∧ ∀ x ∈ ns, m ≤ x := by
  rw [min_nums]
  cases h : minNum ns with
  | none =>
    cases ns with
    | nil => simp
    | cons x r => cases h
  | some m =>
    have hs := minNum_spec h
    constructor
    · intro e; cases e; exact ⟨m, hs.1, rfl, hs.2⟩
    · rintro ⟨m', hm, rfl, hb⟩
      have : m = m' := le_antisymm (hs.2 _ hm) (hb _ hs.1)
      simp [this]

/-- `max` of numbers returns exactly the element that bounds all others from above. -/
theorem C20_max (ns : List Rat) (v : Val) :
    Fn.max [nums ns] = .ok v ↔ ∃ m ∈ ns, v = .num m ∧ ∀ x ∈ ns, x ≤ m := by
  rw [max_nums]
  cases h : maxNum ns with
  | none =>
    cases ns with
    | nil => simp
    | cons x r => cases h
  | some m =>
    have hs := maxNum_spec h
    constructor
    · intro e; cases e; exact ⟨m, hs.1, rfl, hs.2⟩
    · rintro ⟨m', hm, rfl, hb⟩
      have : m' = m := le_antisymm (hs.2 _ hm) (hb _ hs.1)
      simp [this]

/-- The same for dates: the earliest one. An invalid date counts as earlier than any other. -/
theorem C20_min_dates (ds : List (Option Int)) (v : Val) :
    Fn.min [dates ds] = .ok v ↔
      ∃ m ∈ ds, v = .dyn (.date m) ∧ ∀ x ∈ ds, dateLt x m = false := by
  rw [min_dates]
  cases h : minDate ds with
  | none =>
    cases ds with
    | nil => simp
    | cons x r => cases h
  | some m =>
    have hs := minDate_spec h
    constructor
    · intro e; cases e; exact ⟨m, hs.1, rfl, hs.2⟩
    · rintro ⟨m', hm, rfl, hb⟩
      have : m = m' := dateLe_antisymm (hs.2 _ hm) (hb _ hs.1)
      simp [this]

/-- … and the latest one. -/
theorem C20_max_dates (ds : List (Option Int)) (v : Val) :
    Fn.max [dates ds] = .ok v ↔
      ∃ m ∈ ds, v = .dyn (.date m) ∧ ∀ x ∈ ds, dateLt m x = false := by
  rw [max_dates]
  cases h : maxDate ds with
  | none =>
    cases ds with
    | nil => simp
    | cons x r => cases h
  | some m =>
    have hs := maxDate_spec h
    constructor
    · intro e; cases e; exact ⟨m, hs.1, rfl, hs.2⟩
    · rintro ⟨m', hm, rfl, hb⟩
      have : m = m' := dateLe_antisymm (hb _ hs.1) (hs.2 _ hm)
      simp [this]

example : Fn.min [nums [3, -2, 5]] = .ok (.num (-2)) ∧ Fn.max [nums [3, -2, 5]] = .ok (.num 5) := by
  constructor
  · exact (C20_min _ _).2 ⟨-2, by simp, rfl, by simp; norm_num⟩
  · exact (C20_max _ _).2 ⟨5, by simp, rfl, by simp; norm_num⟩

/-! ### Anything but a non-empty array of numbers (or of dates) is an error -/

/-- The array functions on an array: an error unless every element is a number. -/
theorem C20_numbers_only (D : Dec.Rounding) (checks : Bool) (xs : List Val)
    (h : ¬ ∃ ns : List Rat, xs = ns.map .num) :
    (∃ e, sum D [.arr xs] = .error (.err e)) ∧ (∃ e, avg D [.arr xs] = .error (.err e)) ∧
    (∃ e, median D checks [.arr xs] = .error (.err e)) ∧ (∃ e, mode [.arr xs] = .error (.err e)) := by
  have hn : allNums xs = none := by
    cases hx : allNums xs with
    | none => rfl
    | some ns => exact absurd ⟨ns, allNums_some hx⟩ h
  have ha : numArray [.arr xs] 0 = .error (.err "Expected a number array") := by
    simp [numArray, argArr, hn, bind, Except.bind]
  simp [sum, avg, median, mode, ha, bind, Except.bind]

/-- `min` and `max` of an array that is neither all numbers nor all dates is an error. -/
theorem C20_min_max_numbers_or_dates (xs : List Val)
    (h : ¬ ∃ ns : List Rat, xs = ns.map .num)
    (h' : ¬ ∃ ds : List (Option Int), xs = ds.map fun d => .dyn (.date d)) :
    (∃ e, Fn.min [.arr xs] = .error (.err e)) ∧ (∃ e, Fn.max [.arr xs] = .error (.err e)) := by
  have hn : allNums xs = none := by
    cases hx : allNums xs with
    | none => rfl
    | some ns => exact absurd ⟨ns, allNums_some hx⟩ h
  have hd : allDates xs = none := by
    cases hx : allDates xs with
    | none => rfl
    | some ns => exact absurd ⟨ns, allDates_some hx⟩ h'
  have : numOrDateArray [.arr xs] 0 = .error (.err "Expected a number array") := by
    simp only [numOrDateArray, argArr, bind, Except.bind, List.getElem?_cons_zero]
    split
    · rw [hn]
    · rw [hd]
  simp [Fn.min, Fn.max, this, bind, Except.bind]

/-- the hypotheses hold for a mixed array -/
example : (¬ ∃ ns : List Rat, [Val.num 1, .dyn (.date none)] = ns.map .num) ∧
    ¬ ∃ ds : List (Option Int), [Val.num 1, .dyn (.date none)] = ds.map fun d => .dyn (.date d) := by
  constructor
  · rintro ⟨ns, h⟩
    match ns, h with
    | [a, b], h => simp at h
  · rintro ⟨ns, h⟩
    match ns, h with
    | [a, b], h => simp at h

/-- Empty arrays: `min`, `max`, `avg`, `mode` are errors, and so is `median` in a release build.
The sum is zero. -/
theorem C20_empty (D : Dec.Rounding) :
    Fn.min [.arr []] = .error (.err "Empty array") ∧ Fn.max [.arr []] = .error (.err "Empty array") ∧
    avg D [.arr []] = .error (.err "Empty array") ∧ mode [.arr []] = .error (.err "Empty array") ∧
    median D false [.arr []] = .error (.err "Index out of bounds") ∧
    sum D [.arr []] = .ok (.num 0) := by
  refine ⟨rfl, rfl, ?_, rfl, rfl, rfl⟩
  simp [avg, numArray, argArr, allNums, sumFrom, Dec.Rounding.div, bind, Except.bind, pure, Except.pure]

/-- NEGATIVE. With overflow checks (a debug build) the median of an empty array crashes:
`center - 1` underflows (internal.rs:693). -/
theorem C20_median_empty_debug (D : Dec.Rounding) : median D true [.arr []] = .error .panic := rfl

/-! ### Independence of the order -/

namespace Agg

theorem numArray_perm {xs ys : List Val} (h : xs.Perm ys) :
    (∃ ns ms : List Rat, ns.Perm ms ∧ xs = ns.map .num ∧ ys = ms.map .num) ∨
    (numArray [.arr xs] 0 = .error (.err "Expected a number array") ∧
      numArray [.arr ys] 0 = .error (.err "Expected a number array")) := by
  cases hx : allNums xs with
  | some ns =>
    left
    have e := allNums_some hx
    subst e
    have : ∃ ms : List Rat, ys = ms.map .num := by
      cases hy : allNums ys with
      | some ms => exact ⟨ms, allNums_some hy⟩
      | none =>
        exfalso
        have : ∀ l : List Val, (∀ y ∈ l, ∃ n, y = .num n) → allNums l ≠ none := by
          intro l
          induction l with
          | nil => intro _ h; cases h
          | cons y r ih =>
            intro h
            obtain ⟨n, rfl⟩ := h y (by simp)
            have := ih (fun y hy => h y (by simp [hy]))
            cases hr : allNums r with
            | none => exact absurd hr this
            | some m => simp [allNums, hr]
        refine this ys ?_ hy
        intro y hy
        have := h.symm.subset hy
        obtain ⟨n, _, rfl⟩ := List.mem_map.1 this
        exact ⟨n, rfl⟩
    obtain ⟨ms, rfl⟩ := this
    refine ⟨ns, ms, ?_, rfl, rfl⟩
    have hf : Function.Injective (Val.num) := fun a b h => by cases h; rfl
    exact (List.map_perm_map_iff hf).1 h
  | none =>
    right
    have hy : allNums ys = none := by
      cases hy : allNums ys with
      | none => rfl
      | some ms =>
        exfalso
        have e := allNums_some hy
        subst e
        have : ∀ l : List Val, (∀ y ∈ l, ∃ n, y = .num n) → allNums l ≠ none := by
          intro l
          induction l with
          | nil => intro _ h; cases h
          | cons y r ih =>
            intro h
            obtain ⟨n, rfl⟩ := h y (by simp)
            have := ih (fun y hy => h y (by simp [hy]))
            cases hr : allNums r with
            | none => exact absurd hr this
            | some m => simp [allNums, hr]
        refine this xs ?_ hx
        intro y hy
        have := h.subset hy
        obtain ⟨n, _, rfl⟩ := List.mem_map.1 this
        exact ⟨n, rfl⟩
    simp [numArray, argArr, hx, hy, bind, Except.bind]

theorem sort_perm {ns ms : List Rat} (h : ns.Perm ms) :
    ns.insertionSort (· ≤ ·) = ms.insertionSort (· ≤ ·) := by
  apply List.Perm.eq_of_pairwise (le := (· ≤ ·))
  · intro a b _ _ h1 h2; exact le_antisymm h1 h2
  · exact List.pairwise_insertionSort _ _
  · exact List.pairwise_insertionSort _ _
  · exact ((List.perm_insertionSort _ ns).trans h).trans (List.perm_insertionSort _ ms).symm

theorem sort_eq {ns s : List Rat} (hp : s.Perm ns) (hs : s.Pairwise (· ≤ ·)) :
    ns.insertionSort (· ≤ ·) = s := by
  apply List.Perm.eq_of_pairwise (le := (· ≤ ·))
  · intro a b _ _ h1 h2; exact le_antisymm h1 h2
  · exact List.pairwise_insertionSort _ _
  · exact hs
  · exact (List.perm_insertionSort _ ns).trans hp.symm

theorem median_nums (D : Dec.Rounding) (checks : Bool) (ns : List Rat) :
    median D checks [nums ns] = medianOf D checks (ns.insertionSort (· ≤ ·)) := by
  simp [median, numArray_nums, bind, Except.bind]

theorem mode_nums (ns : List Rat) : mode [nums ns] = match maxByCount (ns.foldl bump []) with
    | some (n, _) => .ok (.num n) | none => .error (.err "Empty array") := by
  simp [mode, numArray_nums, bind, Except.bind, pure, Except.pure]
  cases maxByCount (ns.foldl bump []) <;> rfl

/-- entries in increasing key order, with the number of times each key was seen -/
def Counts (es : List (Rat × Nat)) (seen : List Rat) : Prop :=
  es.Pairwise (fun a b => a.1 < b.1) ∧ (∀ e ∈ es, e.2 = seen.count e.1 ∧ e.1 ∈ seen) ∧
  ∀ n ∈ seen, ∃ e ∈ es, e.1 = n

theorem bump_keys (es : List (Rat × Nat)) (n : Rat) :
    ∀ e ∈ bump es n, e.1 = n ∨ ∃ e' ∈ es, e'.1 = e.1 := by
  induction es with
  | nil => intro e he; simp [bump] at he; simp [he]
  | cons x r ih =>
    obtain ⟨k, c⟩ := x
    intro e he
    simp only [bump] at he
    split_ifs at he with h1 h2
    · rcases List.mem_cons.1 he with h | h
      · simp [h]
      · right; exact ⟨e, h, rfl⟩
    · rcases List.mem_cons.1 he with h | h
      · left; rw [h]; exact h2.symm
      · right; exact ⟨e, List.mem_cons_of_mem _ h, rfl⟩
    · rcases List.mem_cons.1 he with h | h
      · right; exact ⟨(k, c), by simp, by simp [h]⟩
      · rcases ih e h with h | ⟨e', h, h'⟩
        · exact Or.inl h
        · right; exact ⟨e', List.mem_cons_of_mem _ h, h'⟩

theorem bump_sorted (es : List (Rat × Nat)) (n : Rat) (h : es.Pairwise (fun a b => a.1 < b.1)) :
    (bump es n).Pairwise (fun a b => a.1 < b.1) := by
  induction es with
  | nil => simp [bump]
  | cons x r ih =>
    obtain ⟨k, c⟩ := x
    obtain ⟨hx, hr⟩ := List.pairwise_cons.1 h
    simp only [bump]
    split_ifs with h1 h2
    · refine List.pairwise_cons.2 ⟨?_, h⟩
      intro e he
      rcases List.mem_cons.1 he with e' | e'
      · rw [e']; exact h1
      · exact lt_trans h1 (hx e e')
    · exact List.pairwise_cons.2 ⟨hx, hr⟩
    · refine List.pairwise_cons.2 ⟨?_, ih hr⟩
      intro e he
      rcases bump_keys r n e he with e' | ⟨e', he', hk⟩
      · rw [e']; exact lt_of_le_of_ne (not_lt.1 h1) (fun q => h2 q.symm)
      · rw [← hk]; exact hx e' he'

/-- lookup of a count in the entries -/
theorem bump_count (es : List (Rat × Nat)) (n : Rat) (h : es.Pairwise (fun a b => a.1 < b.1)) :
    ∀ k c, (k, c) ∈ bump es n ↔
      (k = n ∧ ((∃ c', (n, c') ∈ es ∧ c = c' + 1) ∨ ((∀ e ∈ es, e.1 ≠ n) ∧ c = 1))) ∨
      (k ≠ n ∧ (k, c) ∈ es) := by
  induction es with
  | nil => intro k c; simp [bump]
  | cons x r ih =>
    obtain ⟨k', c'⟩ := x
    obtain ⟨hx, hr⟩ := List.pairwise_cons.1 h
    intro k c
    simp only [bump]
    split_ifs with h1 h2
    · have hne : ∀ e ∈ (k', c') :: r, e.1 ≠ n := by
        intro e he q
        rcases List.mem_cons.1 he with e' | e'
        · rw [e'] at q; simp at q; linarith
        · have := hx e e'; simp at this; linarith
      constructor
      · intro hm
        rcases List.mem_cons.1 hm with e | e
        · cases e; left; exact ⟨rfl, Or.inr ⟨hne, rfl⟩⟩
        · right; exact ⟨hne _ e, e⟩
      · rintro (⟨rfl, ⟨c₁, hm, _⟩ | ⟨_, rfl⟩⟩ | ⟨_, hm⟩)
        · exact absurd rfl (hne _ hm)
        · simp
        · exact List.mem_cons_of_mem _ hm
    · subst h2
      have hne : ∀ e ∈ r, e.1 ≠ n := by
        intro e he q; have := hx e he; simp at this; linarith
      constructor
      · intro hm
        rcases List.mem_cons.1 hm with e | e
        · cases e; left; exact ⟨rfl, Or.inl ⟨c', by simp, rfl⟩⟩
        · right; exact ⟨hne _ e, List.mem_cons_of_mem _ e⟩
      · rintro (⟨rfl, ⟨c₁, hm, rfl⟩ | ⟨ha, rfl⟩⟩ | ⟨hk, hm⟩)
        · rcases List.mem_cons.1 hm with e | e
          · cases e; simp
          · exact absurd rfl (hne _ e)
        · exact absurd rfl (ha (k, c') (by simp))
        · rcases List.mem_cons.1 hm with e | e
          · cases e; exact absurd rfl hk
          · exact List.mem_cons_of_mem _ e
    · have hk' : k' ≠ n := fun q => h2 q.symm
      rw [List.mem_cons, ih hr]
      constructor
      · rintro (e | ⟨rfl, ⟨c₁, hm, rfl⟩ | ⟨ha, rfl⟩⟩ | ⟨hk, hm⟩)
        · cases e; right; exact ⟨hk', by simp⟩
        · left; exact ⟨rfl, Or.inl ⟨c₁, List.mem_cons_of_mem _ hm, rfl⟩⟩
        · left
          refine ⟨rfl, Or.inr ⟨?_, rfl⟩⟩
          intro e he
          rcases List.mem_cons.1 he with q | q
          · rw [q]; exact hk'
          · exact ha e q
        · right; exact ⟨hk, List.mem_cons_of_mem _ hm⟩
      · rintro (⟨rfl, ⟨c₁, hm, rfl⟩ | ⟨ha, rfl⟩⟩ | ⟨hk, hm⟩)
        · rcases List.mem_cons.1 hm with e | e
          · cases e; exact absurd rfl hk'
          · right; left; exact ⟨rfl, Or.inl ⟨c₁, e, rfl⟩⟩
        · right; left
          exact ⟨rfl, Or.inr ⟨fun e he => ha e (List.mem_cons_of_mem _ he), rfl⟩⟩
        · rcases List.mem_cons.1 hm with e | e
          · left; exact e
          · right; right; exact ⟨hk, e⟩

theorem counts_bump {es : List (Rat × Nat)} {seen : List Rat} (h : Counts es seen) (n : Rat) :
    Counts (bump es n) (seen ++ [n]) := by
  obtain ⟨hp, hc, hs⟩ := h
  have hb := bump_count es n hp
  refine ⟨bump_sorted es n hp, ?_, ?_⟩
  · rintro ⟨k, c⟩ he
    rw [List.count_append]
    rcases (hb k c).1 he with ⟨rfl, ⟨c', hm, rfl⟩ | ⟨ha, rfl⟩⟩ | ⟨hk, hm⟩
    · have := (hc _ hm).1
      simp at this
      simp [this]
    · have : k ∉ seen := fun hk => by
        obtain ⟨e, he2, rfl⟩ := hs k hk
        exact ha e he2 rfl
      simp [List.count_eq_zero_of_not_mem this]
    · have := hc _ hm
      simp at this
      have hk2 : ¬ n = k := fun q => hk q.symm
      simp [this.1, this.2, hk2]
  · intro x hx
    by_cases hxn : x = n
    · subst hxn
      by_cases hm : ∃ c, (x, c) ∈ es
      · obtain ⟨c, hm⟩ := hm
        exact ⟨(x, c + 1), (hb _ _).2 (Or.inl ⟨rfl, Or.inl ⟨c, hm, rfl⟩⟩), rfl⟩
      · refine ⟨(x, 1), (hb _ _).2 (Or.inl ⟨rfl, Or.inr ⟨?_, rfl⟩⟩), rfl⟩
        rintro ⟨a, b⟩ he rfl
        exact hm ⟨b, he⟩
    · have : x ∈ seen := by simpa [hxn] using hx
      obtain ⟨⟨a, b⟩, he, rfl⟩ := hs x this
      exact ⟨(a, b), (hb _ _).2 (Or.inr ⟨hxn, he⟩), rfl⟩

theorem counts_fold (ns : List Rat) : Counts (ns.foldl bump []) ns := by
  have : ∀ (ns seen : List Rat) es, Counts es seen → Counts (ns.foldl bump es) (seen ++ ns) := by
    intro ns
    induction ns with
    | nil => intro seen es h; simpa using h
    | cons n r ih =>
      intro seen es h
      have := ih (seen ++ [n]) (bump es n) (counts_bump h n)
      simpa using this
  simpa using this ns [] [] ⟨by simp, by simp, by simp⟩

theorem maxByCount_spec {es : List (Rat × Nat)} (hs : es.Pairwise (fun a b => a.1 < b.1))
    {m : Rat × Nat} (h : maxByCount es = some m) :
    m ∈ es ∧ ∀ e ∈ es, e.2 ≤ m.2 ∧ (e.2 = m.2 → e.1 ≤ m.1) := by
  cases es with
  | nil => cases h
  | cons x r =>
    cases h
    have gen : ∀ (r : List (Rat × Nat)) (x : Rat × Nat),
        (x :: r).Pairwise (fun a b => a.1 < b.1) →
        let m := r.foldl (fun m y => if y.2 < m.2 then m else y) x
        m ∈ x :: r ∧ ∀ e ∈ x :: r, e.2 ≤ m.2 ∧ (e.2 = m.2 → e.1 ≤ m.1) := by
      intro r
      induction r with
      | nil => intro x _; simp
      | cons y r ih =>
        intro x hx
        obtain ⟨h1, h2⟩ := List.pairwise_cons.1 hx
        obtain ⟨h3, h4⟩ := List.pairwise_cons.1 h2
        simp only [List.foldl_cons]
        split_ifs with hc
        · obtain ⟨a, b⟩ := ih x (List.pairwise_cons.2 ⟨fun e he => h1 e (List.mem_cons_of_mem _ he), h4⟩)
          refine ⟨?_, ?_⟩
          · rcases List.mem_cons.1 a with q | q
            · rw [q]; simp
            · exact List.mem_cons_of_mem _ (List.mem_cons_of_mem _ q)
          · intro e he
            rcases List.mem_cons.1 he with q | q
            · exact b e (by simp [q])
            · rcases List.mem_cons.1 q with q | q
              · have := (b x (by simp)).1
                rw [q]
                exact ⟨by omega, fun h => by omega⟩
              · exact b e (List.mem_cons_of_mem _ q)
        · obtain ⟨a, b⟩ := ih y h2
          refine ⟨List.mem_cons_of_mem _ a, ?_⟩
          intro e he
          rcases List.mem_cons.1 he with q | q
          · have hb := b y (by simp)
            have hxy := h1 y (by simp)
            rw [q]
            refine ⟨by omega, fun h => ?_⟩
            have : y.2 = (r.foldl (fun m y => if y.2 < m.2 then m else y) y).2 := by omega
            exact le_trans hxy.le (hb.2 this)
          · exact b e q
    exact gen r x hs

end Agg

/-- `mode` returns exactly the most frequent element, and of several equally frequent ones the largest. -/
theorem C20_mode (ns : List Rat) (v : Val) :
    mode [nums ns] = .ok v ↔
      ∃ m ∈ ns, v = .num m ∧ ∀ x ∈ ns, ns.count x ≤ ns.count m ∧ (ns.count x = ns.count m → x ≤ m) := by
  rw [mode_nums]
  obtain ⟨hp, hc, hs⟩ := counts_fold ns
  cases h : maxByCount (ns.foldl bump []) with
  | none =>
    have he : ns.foldl bump [] = [] := by
      cases hf : ns.foldl bump [] with
      | nil => rfl
      | cons a b => rw [hf] at h; cases h
    constructor
    · intro h; cases h
    · rintro ⟨m, hm, _⟩
      obtain ⟨e, he', _⟩ := hs m hm
      rw [he] at he'; cases he'
  | some m =>
    obtain ⟨k, c⟩ := m
    obtain ⟨hm, hb⟩ := maxByCount_spec hp h
    have hkc := hc _ hm
    simp at hkc
    have key : ∀ x ∈ ns, ns.count x ≤ ns.count k ∧ (ns.count x = ns.count k → x ≤ k) := by
      intro x hx
      obtain ⟨e, he, rfl⟩ := hs x hx
      have := hb e he
      have hce := (hc e he).1
      simp only at this
      rw [← hce, ← hkc.1]
      exact this
    constructor
    · intro e; cases e
      exact ⟨k, hkc.2, rfl, key⟩
    · rintro ⟨m', hm', rfl, hb'⟩
      have a := key m' hm'
      have b := hb' k hkc.2
      have hcnt : ns.count k = ns.count m' := le_antisymm b.1 a.1
      have : k = m' := le_antisymm (b.2 hcnt) (a.2 hcnt.symm)
      simp [this]

example : mode [nums [1, 2, 2, 3, 3]] = .ok (.num 3) :=
  (C20_mode _ _).2 ⟨3, by simp, rfl, by decide⟩

/-- `min` and `max` of numbers do not depend on the order of the elements, whether they succeed or not. -/
theorem C20_min_max_order (ns ms : List Rat) (h : ns.Perm ms) :
    Fn.min [nums ns] = Fn.min [nums ms] ∧ Fn.max [nums ns] = Fn.max [nums ms] := by
  have one : ∀ f : List Rat → Res Val,
      (∀ l, (∃ v, f l = .ok v) ∨ (l = [] ∧ f l = .error (.err "Empty array"))) →
      (∀ v, f ns = .ok v ↔ f ms = .ok v) → f ns = f ms := by
    intro f ht hiff
    rcases ht ns with ⟨v, hv⟩ | ⟨rfl, hv⟩
    · rw [hv, (hiff v).1 hv]
    · rw [List.nil_perm.1 h]
  refine ⟨one (fun l => Fn.min [nums l]) ?_ ?_, one (fun l => Fn.max [nums l]) ?_ ?_⟩
  · intro l
    simp only [min_nums]
    cases l with
    | nil => right; exact ⟨rfl, rfl⟩
    | cons a b => left; exact ⟨_, rfl⟩
  · intro v
    simp only [C20_min]
    simp [h.mem_iff]
  · intro l
    simp only [max_nums]
    cases l with
    | nil => right; exact ⟨rfl, rfl⟩
    | cons a b => left; exact ⟨_, rfl⟩
  · intro v
    simp only [C20_max]
    simp [h.mem_iff]

/-- `median` does not depend on the order of the elements, of whatever values the array consists. -/
theorem C20_median_order (D : Dec.Rounding) (checks : Bool) (xs ys : List Val) (h : xs.Perm ys) :
    median D checks [.arr xs] = median D checks [.arr ys] := by
  rcases numArray_perm h with ⟨ns, ms, hp, rfl, rfl⟩ | ⟨h1, h2⟩
  · have := median_nums D checks
    unfold nums at this
    rw [this, this, sort_perm hp]
  · simp [median, h1, h2, bind, Except.bind]

/-- `mode` does not depend on the order of the elements, of whatever values the array consists. -/
theorem C20_mode_order (xs ys : List Val) (h : xs.Perm ys) : mode [.arr xs] = mode [.arr ys] := by
  rcases numArray_perm h with ⟨ns, ms, hp, rfl, rfl⟩ | ⟨h1, h2⟩
  · change mode [nums ns] = mode [nums ms]
    have hiff : ∀ v, mode [nums ns] = .ok v ↔ mode [nums ms] = .ok v := by
      intro v
      rw [C20_mode, C20_mode]
      simp [hp.mem_iff, hp.count_eq]
    cases hn : mode [nums ns] with
    | ok v => rw [(hiff v).1 hn]
    | error e =>
      cases hm : mode [nums ms] with
      | ok v => rw [(hiff v).2 hm] at hn; cases hn
      | error e' =>
        rw [mode_nums] at hn hm
        cases ha : maxByCount (ns.foldl bump []) with
        | some p => rw [ha] at hn; cases hn
        | none =>
          cases hb : maxByCount (ms.foldl bump []) with
          | some p => rw [hb] at hm; cases hm
          | none => rw [ha] at hn; rw [hb] at hm; cases hn; cases hm; rfl
  · simp [mode, h1, h2, bind, Except.bind]

/-! ### Sum and average -/

/-- numbers with at most `k` decimals whose absolute values together stay within 96 bits -/
def SmallSum (ns : List Rat) : Prop :=
  ∃ k ≤ 28, ∃ ms : List Int, ns = ms.map (fun m : Int => (m : Rat) / 10 ^ k) ∧
    (ms.map Int.natAbs).sum < 2 ^ 96

theorem Agg.sumFrom_exact (D : Dec.Rounding) (k : Nat) (hk : k ≤ 28) (ms : List Int) (a : Int)
    (h : a.natAbs + (ms.map Int.natAbs).sum < 2 ^ 96) :
    sumFrom D ((a : Rat) / 10 ^ k) (ms.map (fun m : Int => (m : Rat) / 10 ^ k)) =
      some ((a : Rat) / 10 ^ k + (ms.map (fun m : Int => (m : Rat) / 10 ^ k)).sum) := by
  induction ms generalizing a with
  | nil => simp [sumFrom]
  | cons m r ih =>
    simp only [List.map_cons, List.sum_cons] at h ⊢
    have hab : (a + m).natAbs ≤ a.natAbs + m.natAbs := Int.natAbs_add_le a m
    have e : (a : Rat) / 10 ^ k + (m : Rat) / 10 ^ k = ((a + m : Int) : Rat) / 10 ^ k := by
      push_cast; ring
    have hr : Dec.Rep ((a : Rat) / 10 ^ k + (m : Rat) / 10 ^ k) := by
      rw [e]; exact ⟨a + m, k, by omega, hk, rfl⟩
    simp only [sumFrom, Dec.Rounding.add, D.exact _ hr, Option.bind_some]
    rw [e, ih (a + m) (by omega), ← e]
    congr 1
    ring

/-- As long as the absolute values add up to at most 96 bits, the sum is exact … -/
theorem C20_sum_exact (D : Dec.Rounding) (ns : List Rat) (h : SmallSum ns) :
    sum D [nums ns] = .ok (.num ns.sum) := by
  obtain ⟨k, hk, ms, rfl, hs⟩ := h
  have := Agg.sumFrom_exact D k hk ms 0 (by simpa using hs)
  simp at this
  simp [sum, numArray_nums, bind, Except.bind, pure, Except.pure, this]

/-- … the average is the exact sum divided by the length, rounded once … -/
theorem C20_avg_exact (D : Dec.Rounding) (ns : List Rat) (h : SmallSum ns) (hne : ns ≠ [])
    {q : Rat} (hq : D.round (ns.sum / ns.length) = some q) :
    avg D [nums ns] = .ok (.num q) := by
  obtain ⟨k, hk, ms, rfl, hs⟩ := h
  have := Agg.sumFrom_exact D k hk ms 0 (by simpa using hs)
  simp at this
  have hl : ¬ ms = [] := fun e => hne (by simp [e])
  simp only [List.length_map] at hq
  simp [avg, numArray_nums, bind, Except.bind, pure, Except.pure, this, Dec.Rounding.div, hl, hq]

theorem Agg.smallSum_perm {ns ms : List Rat} (h : ns.Perm ms) (hs : SmallSum ns) : SmallSum ms := by
  obtain ⟨k, hk, is, rfl, hb⟩ := hs
  have hinj : Function.Injective (fun m : Int => (m : Rat) / 10 ^ k) := by
    intro a b hab
    have p : (10 : Rat) ^ k ≠ 0 := by positivity
    simp only at hab
    field_simp at hab
    exact_mod_cast hab
  have : ∃ js : List Int, ms = js.map (fun m : Int => (m : Rat) / 10 ^ k) := by
    refine ⟨ms.map (fun q => (q * 10 ^ k).num), ?_⟩
    rw [List.map_map]
    conv_lhs => rw [← List.map_id ms]
    apply List.map_congr_left
    intro q hq
    obtain ⟨i, _, rfl⟩ := List.mem_map.1 (h.symm.subset hq)
    have p : (10 : Rat) ^ k ≠ 0 := by positivity
    simp [p]
  obtain ⟨js, rfl⟩ := this
  have hp := (List.map_perm_map_iff hinj).1 h
  refine ⟨k, hk, js, rfl, ?_⟩
  rwa [← (hp.map Int.natAbs).sum_eq]

/-- … and so neither depends on the order of the elements. -/
theorem C20_sum_avg_order (D : Dec.Rounding) (ns ms : List Rat) (h : ns.Perm ms) (hs : SmallSum ns) :
    sum D [nums ns] = sum D [nums ms] ∧ avg D [nums ns] = avg D [nums ms] := by
  have hs' := Agg.smallSum_perm h hs
  refine ⟨by rw [C20_sum_exact D ns hs, C20_sum_exact D ms hs', h.sum_eq], ?_⟩
  have hl := h.length_eq
  have key : ∀ l : List Rat, SmallSum l →
      avg D [nums l] = match D.div l.sum l.length with
        | some q => .ok (.num q) | none => .error (.err "Empty array") := by
    intro l hl
    obtain ⟨k, hk, ms, rfl, hb⟩ := hl
    have := Agg.sumFrom_exact D k hk ms 0 (by simpa using hb)
    simp at this
    simp only [avg, numArray_nums, bind, Except.bind, pure, Except.pure, this]
    cases D.div _ _ <;> rfl
  rw [key ns hs, key ms hs', h.sum_eq, hl]

/-- the hypothesis holds for ordinary amounts -/
example : SmallSum [1999 / 100, -5 / 4, 1000000] := by
  refine ⟨2, by norm_num, [1999, -125, 100000000], ?_, by decide⟩
  simp; norm_num

theorem Agg.rep_int (m : Int) (h : m.natAbs < 2 ^ 96) : Dec.Rep (m : Rat) :=
  ⟨m, 0, h, by omega, by simp⟩

/-- NEGATIVE. In general the order matters: an intermediate result may overflow in one order and not in
the other. -/
theorem C20_sum_depends_on_order (D : Dec.Rounding) :
    ∃ ns ms : List Rat, ns.Perm ms ∧ (∀ x ∈ ns, Dec.Rep x) ∧
      sum D [nums ns] = .error (.err "Number overflow") ∧
      sum D [nums ms] = .ok (.num (2 ^ 96 - 1)) ∧
      avg D [nums ns] = .error (.err "Number overflow") ∧ ∃ q, avg D [nums ms] = .ok (.num q) := by
  have hM : Dec.Rep (2 ^ 96 - 1) := by
    have := Agg.rep_int (2 ^ 96 - 1) (by decide)
    norm_num at this ⊢; exact this
  have hM2 : Dec.Rep (2 ^ 96 - 2) := by
    have := Agg.rep_int (2 ^ 96 - 2) (by decide)
    norm_num at this ⊢; exact this
  have h1 : Dec.Rep 1 := by have := Agg.rep_int 1 (by decide); simpa using this
  have hn1 : Dec.Rep (-1) := by have := Agg.rep_int (-1) (by decide); simpa using this
  have a0 : D.add 0 (2 ^ 96 - 1) = some (2 ^ 96 - 1) := by
    simp only [Dec.Rounding.add, zero_add]; exact D.exact _ hM
  have a1 : D.add (2 ^ 96 - 1) 1 = none := by
    simp only [Dec.Rounding.add]; apply D.over; norm_num
  have a2 : D.add (2 ^ 96 - 1) (-1) = some (2 ^ 96 - 2) := by
    simp only [Dec.Rounding.add]
    rw [show (2 ^ 96 - 1 + -1 : Rat) = 2 ^ 96 - 2 by norm_num]; exact D.exact _ hM2
  have a3 : D.add (2 ^ 96 - 2) 1 = some (2 ^ 96 - 1) := by
    simp only [Dec.Rounding.add]
    rw [show (2 ^ 96 - 2 + 1 : Rat) = 2 ^ 96 - 1 by norm_num]; exact D.exact _ hM
  have f1 : sumFrom D 0 [2 ^ 96 - 1, 1, -1] = none := by simp only [sumFrom, a0, a1, Option.bind_some, Option.bind_none]
  have f2 : sumFrom D 0 [2 ^ 96 - 1, -1, 1] = some (2 ^ 96 - 1) := by
    simp only [sumFrom, a0, a2, a3, Option.bind_some]
  refine ⟨[2 ^ 96 - 1, 1, -1], [2 ^ 96 - 1, -1, 1], List.Perm.cons _ (List.Perm.swap _ _ _), ?_, ?_, ?_, ?_, ?_⟩
  · intro x hx
    simp only [List.mem_cons, List.not_mem_nil, or_false] at hx
    rcases hx with rfl | rfl | rfl
    · exact hM
    · exact h1
    · exact hn1
  · simp only [sum, numArray_nums, bind, Except.bind, f1]
  · simp only [sum, numArray_nums, bind, Except.bind, f2, pure, Except.pure]
  · simp only [avg, numArray_nums, bind, Except.bind, f1]
  · cases hq : D.round ((2 ^ 96 - 1) / 3) with
    | none => exact absurd hq (D.inRange _ (by unfold Dec.maxDec; rw [abs_of_nonneg] <;> norm_num))
    | some q =>
      refine ⟨q, ?_⟩
      simp only [avg, numArray_nums, bind, Except.bind, f2, Dec.Rounding.div, List.length_cons,
        List.length_nil, pure, Except.pure]
      norm_num at hq ⊢
      rw [hq]

/-! ### Median -/

/-- With an odd number of elements the median is the middle one of the elements in order. -/
theorem C20_median_odd (D : Dec.Rounding) (checks : Bool) (ns s : List Rat) (hp : s.Perm ns)
    (hs : s.Pairwise (· ≤ ·)) (hl : ns.length % 2 = 1) :
    ∃ h : ns.length / 2 < s.length, median D checks [nums ns] = .ok (.num (s[ns.length / 2]'h)) := by
  have hlen := hp.length_eq
  have hlt : ns.length / 2 < s.length := by omega
  refine ⟨hlt, ?_⟩
  rw [median_nums, sort_eq hp hs]
  simp only [medianOf, hlen, hl, if_true]
  rw [List.getElem?_eq_getElem hlt]

/-- With an even number of elements it is half the sum of the two middle ones, each step rounded; it
fails only if that sum overflows. -/
theorem C20_median_even (D : Dec.Rounding) (checks : Bool) (ns s : List Rat) (hp : s.Perm ns)
    (hs : s.Pairwise (· ≤ ·)) (hne : ns ≠ []) (hl : ns.length % 2 = 0) :
    ∃ (h1 : ns.length / 2 - 1 < s.length) (h2 : ns.length / 2 < s.length),
      median D checks [nums ns] =
        match D.round (s[ns.length / 2 - 1]'h1 + s[ns.length / 2]'h2) with
        | none => .error (.err "Number overflow")
        | some t => match D.round (t / 2) with
          | some q => .ok (.num q)
          | none => .error .panic := by
  have hlen := hp.length_eq
  have hpos : 0 < ns.length := List.length_pos_iff.2 hne
  have h1 : ns.length / 2 - 1 < s.length := by omega
  have h2 : ns.length / 2 < s.length := by omega
  refine ⟨h1, h2, ?_⟩
  rw [median_nums, sort_eq hp hs]
  have hc : ¬ ns.length / 2 = 0 := by omega
  have hm : ¬ ns.length % 2 = 1 := by omega
  simp only [medianOf, hlen, hm, if_false, hc]
  rw [List.getElem?_eq_getElem h1, List.getElem?_eq_getElem h2]
  have h2 : ¬ (2 : Rat) = 0 := by norm_num
  simp only [Dec.Rounding.add, Dec.Rounding.div, if_neg h2]
  cases D.round (s[ns.length / 2 - 1] + s[ns.length / 2]) with
  | none => rfl
  | some t => cases D.round (t / 2) <;> rfl

theorem Agg.half_rounds (D : Dec.Rounding) {t : Rat} (h : Dec.Rep t) : D.round (t / 2) ≠ none := by
  apply D.inRange
  obtain ⟨m, s, hm, hs, rfl⟩ := h
  have hm1 : (|m| : Int) ≤ 2 ^ 96 - 1 := by rw [Int.abs_eq_natAbs]; omega
  have hm2 : |(m : Rat)| ≤ 2 ^ 96 - 1 := by
    have : ((|m| : Int) : Rat) ≤ ((2 ^ 96 - 1 : Int) : Rat) := by exact_mod_cast hm1
    norm_num at this ⊢; exact this
  have p1 : (1 : Rat) ≤ 10 ^ s := one_le_pow₀ (by norm_num)
  rw [abs_div, abs_div, abs_of_pos (show (0 : Rat) < 10 ^ s by positivity), abs_of_pos (show (0 : Rat) < 2 by norm_num)]
  unfold Dec.maxDec
  rw [div_div, div_le_iff₀ (by positivity)]
  have hb : (0 : Rat) ≤ 2 ^ 96 - 1 := by norm_num
  calc |(m : Rat)| ≤ (2 ^ 96 - 1) * 1 := by linarith
    _ ≤ (2 ^ 96 - 1) * (10 ^ s * 2) := mul_le_mul_of_nonneg_left (by linarith) hb

/-- The division by two of the median never crashes. -/
theorem C20_median_no_panic (D : Dec.Rounding) (ns : List Rat) :
    median D false [nums ns] ≠ .error .panic := by
  rw [median_nums]
  unfold medianOf
  intro h
  simp only [Bool.false_eq_true, if_false] at h
  split_ifs at h
  · split at h <;> cases h
  · cases h
  · split at h
    · cases h
    · split at h
      · cases h
      · split at h
        · cases h
        · next t ht =>
          split at h
          · cases h
          · next hd =>
            rw [Dec.Rounding.div, if_neg (by norm_num)] at hd
            exact Agg.half_rounds D (D.rep _ _ ht) hd

/-- The median lies between the smallest and the largest element whenever the sums of pairs of elements
are representable. -/
theorem C20_median_between_partial (D : Dec.Rounding) (checks : Bool) (ns : List Rat) (hne : ns ≠ [])
    (hr : ∀ x ∈ ns, Dec.Rep x) (hsum : ∀ x ∈ ns, ∀ y ∈ ns, Dec.Rep (x + y)) :
    ∃ m, median D checks [nums ns] = .ok (.num m) ∧ (∃ x ∈ ns, x ≤ m) ∧ ∃ y ∈ ns, m ≤ y := by
  have hp := List.perm_insertionSort (· ≤ ·) ns
  have hs := List.pairwise_insertionSort (· ≤ ·) ns
  by_cases hl : ns.length % 2 = 1
  · obtain ⟨h, hm⟩ := C20_median_odd D checks ns _ hp hs hl
    have hmem := hp.subset (List.getElem_mem h)
    exact ⟨_, hm, ⟨_, hmem, le_refl _⟩, ⟨_, hmem, le_refl _⟩⟩
  · obtain ⟨h1, h2, hm⟩ := C20_median_even D checks ns _ hp hs hne (by omega)
    generalize hla : (ns.insertionSort (· ≤ ·))[ns.length / 2 - 1] = l at hm
    generalize hrb : (ns.insertionSort (· ≤ ·))[ns.length / 2] = r at hm
    have hlm : l ∈ ns := hp.subset (hla ▸ List.getElem_mem h1)
    have hrm : r ∈ ns := hp.subset (hrb ▸ List.getElem_mem h2)
    have hpos : 0 < ns.length := List.length_pos_iff.2 hne
    have hle : l ≤ r := by
      rw [← hla, ← hrb]
      exact List.pairwise_iff_getElem.1 hs _ _ h1 h2 (by omega)
    rw [D.exact _ (hsum l hlm r hrm)] at hm
    cases hq : D.round ((l + r) / 2) with
    | none => exact absurd hq (Agg.half_rounds D (hsum l hlm r hrm))
    | some q =>
      simp only [hq] at hm
      refine ⟨q, hm, ⟨l, hlm, ?_⟩, ⟨r, hrm, ?_⟩⟩
      · exact D.mono l ((l + r) / 2) l q (by linarith) (D.exact _ (hr l hlm)) hq
      · exact D.mono ((l + r) / 2) r q r (by linarith) hq (D.exact _ (hr r hrm))

/-- hypotheses hold for ordinary amounts -/
example : let ns : List Rat := [3 / 2, 7, 10, 1 / 4]
    (∀ x ∈ ns, Dec.Rep x) ∧ ∀ x ∈ ns, ∀ y ∈ ns, Dec.Rep (x + y) := by
  have hint : ∀ m : Int, m.natAbs < 10000 → Dec.Rep ((m : Rat) / 10 ^ 2) := fun m h =>
    ⟨m, 2, lt_trans h (by norm_num), by norm_num, rfl⟩
  have h4 : ∀ x ∈ ([3 / 2, 7, 10, 1 / 4] : List Rat), ∃ m : Int, m.natAbs < 5000 ∧ x = (m : Rat) / 10 ^ 2 := by
    intro x hx
    simp only [List.mem_cons, List.not_mem_nil, or_false] at hx
    rcases hx with rfl | rfl | rfl | rfl
    · exact ⟨150, by decide, by norm_num⟩
    · exact ⟨700, by decide, by norm_num⟩
    · exact ⟨1000, by decide, by norm_num⟩
    · exact ⟨25, by decide, by norm_num⟩
  refine ⟨fun x hx => ?_, fun x hx y hy => ?_⟩
  · obtain ⟨m, h, rfl⟩ := h4 x hx; exact hint m (by omega)
  · obtain ⟨m, h, rfl⟩ := h4 x hx
    obtain ⟨m', h', rfl⟩ := h4 y hy
    have := hint (m + m') (by omega)
    push_cast at this
    rwa [add_div] at this

/-- NEGATIVE. Without that the median can leave the range of the elements, even when all of them are equal:
the sum of the two middle elements is rounded before it is halved. -/
theorem C20_median_outside :
    ∃ a : Rat, Dec.Rep a ∧ ∃ m, median Dec.decimal false [nums [a, a]] = .ok (.num m) ∧ a < m := by
  refine ⟨79228162514264337593543950333 / 10 ^ 28, ?_, 79228162514264337593543950335 / 10 ^ 28, ?_, by norm_num⟩
  · exact ⟨79228162514264337593543950333, 28, by decide, by decide, by norm_num⟩
  · have r1 : Dec.decRound (79228162514264337593543950333 / 10 ^ 28 + 79228162514264337593543950333 / 10 ^ 28) =
        some (15845632502852867518708790067 / 10 ^ 27) := by
      have e28 : Dec.halfEven ((79228162514264337593543950333 / 10 ^ 28 + 79228162514264337593543950333 / 10 ^ 28 : Rat)
          * 10 ^ (27 + 1)) = 158456325028528675187087900666 := by
        have : ((79228162514264337593543950333 / 10 ^ 28 + 79228162514264337593543950333 / 10 ^ 28 : Rat)
          * 10 ^ (27 + 1)) = ((158456325028528675187087900666 : Int) : Rat) := by norm_num
        rw [this, Dec.halfEven_int]
      have e27 : Dec.halfEven ((79228162514264337593543950333 / 10 ^ 28 + 79228162514264337593543950333 / 10 ^ 28 : Rat)
          * 10 ^ (26 + 1)) = 15845632502852867518708790067 := by
        have : ((79228162514264337593543950333 / 10 ^ 28 + 79228162514264337593543950333 / 10 ^ 28 : Rat)
          * 10 ^ (26 + 1)) = 158456325028528675187087900666 / 10 := by norm_num
        rw [this]
        have hf : ⌊(158456325028528675187087900666 / 10 : Rat)⌋ = 15845632502852867518708790066 := by
          rw [Int.floor_eq_iff]; norm_num
        unfold Dec.halfEven; rw [hf]; norm_num
      unfold Dec.decRound
      rw [Dec.roundFrom, e28, if_neg (by decide), Dec.roundFrom, e27, if_pos (by decide)]
      norm_num
    have r2 : Dec.decRound (15845632502852867518708790067 / 10 ^ 27 / 2) =
        some (79228162514264337593543950335 / 10 ^ 28) := by
      rw [show (15845632502852867518708790067 / 10 ^ 27 / 2 : Rat) = 79228162514264337593543950335 / 10 ^ 28 by norm_num]
      exact Dec.decRound_exact ⟨79228162514264337593543950335, 28, by decide, by decide, by norm_num⟩
    obtain ⟨h1, h2, hm⟩ := C20_median_even Dec.decimal false
      [79228162514264337593543950333 / 10 ^ 28, 79228162514264337593543950333 / 10 ^ 28]
      [79228162514264337593543950333 / 10 ^ 28, 79228162514264337593543950333 / 10 ^ 28]
      (List.Perm.refl _) (by simp) (by simp) (by simp)
    rw [hm]
    simp only [Dec.decimal, List.length_cons, List.length_nil, List.getElem_cons_zero, List.getElem_cons_succ,
      Nat.reduceAdd, Nat.reduceDiv, Nat.reduceSub, r1, r2]

end Zen
