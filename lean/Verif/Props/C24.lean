import Verif.Analysis.Discriminant
/-
C24  Numeric range coverage is decided exactly.
-/
namespace Zen

/-- `x` is on the inner side of a lower end -/
def Bnd.Above (x : Rat) : Bnd → Prop
  | .unbounded => True
  | .incl n => n ≤ x
  | .excl n => n < x
/-- `x` is on the inner side of an upper end -/
def Bnd.Below (x : Rat) : Bnd → Prop
  | .unbounded => True
  | .incl n => x ≤ n
  | .excl n => x < n
/-- `x` lies in the segment -/
def Seg.Has (s : Seg) (x : Rat) : Prop := s.lo.Above x ∧ s.hi.Below x
/-- `x` lies in one of the segments -/
def Cover.Has (c : Cover) (x : Rat) : Prop := ∃ s ∈ c, s.Has x

theorem Bnd.above_of_rank {a b : Bnd} {x : Rat} (h : Bnd.rank3Le a.loRank b.loRank = true)
    (hb : b.Above x) : a.Above x := by
  cases a <;> cases b <;> simp [Bnd.loRank, Bnd.rank3Le, Bnd.Above] at * <;> grind

theorem Bnd.below_wider {a b : Bnd} {x : Rat} :
    (Bnd.widerHi a b).Below x ↔ a.Below x ∨ b.Below x := by
  cases a <;> cases b <;> simp only [Bnd.widerHi, Bnd.Below, true_or, or_true] <;>
    split <;> simp [Bnd.hiRank, Bnd.rank2Le] at * <;> grind

theorem Bnd.below_tighter {a b : Bnd} {x : Rat} :
    (Bnd.tighterHi a b).Below x ↔ a.Below x ∧ b.Below x := by
  cases a <;> cases b <;> simp only [Bnd.tighterHi, Bnd.Below, true_and, and_true] <;>
    split <;> simp [Bnd.hiRank, Bnd.rank2Le] at * <;> grind

theorem Bnd.above_tighter {a b : Bnd} {x : Rat} :
    (Bnd.tighterLo a b).Above x ↔ a.Above x ∧ b.Above x := by
  cases a <;> cases b <;> simp only [Bnd.tighterLo, Bnd.Above, true_and, and_true] <;>
    split <;> simp [Bnd.loRank, Bnd.rank3Le] at * <;> grind

theorem Bnd.connects_spec {f l : Bnd} (h : Bnd.connects f l = true) (x : Rat) (hx : ¬ f.Below x) :
    l.Above x := by
  cases f <;> cases l <;> simp [Bnd.connects, Bnd.value?, Bnd.isExcl, Bnd.Above, Bnd.Below] at * <;>
    grind

theorem Bnd.gap_spec {f l : Bnd} (h : Bnd.connects f l = false) :
    ∃ x, ¬ f.Below x ∧ ¬ l.Above x := by
  have mid : ∀ a b : Rat, a < b → a < (a + b) / 2 ∧ (a + b) / 2 < b := by
    intro a b h; constructor <;> grind
  cases f with
  | unbounded => simp [Bnd.connects, Bnd.value?] at h
  | incl f =>
    cases l with
    | unbounded => simp [Bnd.connects, Bnd.value?] at h
    | incl l =>
      have : f < l := by simp [Bnd.connects, Bnd.value?, Bnd.isExcl] at h; grind
      refine ⟨(f + l) / 2, ?_, ?_⟩ <;> have := mid f l this <;> simp only [Bnd.Above, Bnd.Below] <;> grind
    | excl l =>
      have : f < l := by simp [Bnd.connects, Bnd.value?, Bnd.isExcl] at h; grind
      refine ⟨(f + l) / 2, ?_, ?_⟩ <;> have := mid f l this <;> simp only [Bnd.Above, Bnd.Below] <;> grind
  | excl f =>
    cases l with
    | unbounded => simp [Bnd.connects, Bnd.value?] at h
    | incl l =>
      have : f < l := by simp [Bnd.connects, Bnd.value?, Bnd.isExcl] at h; grind
      refine ⟨(f + l) / 2, ?_, ?_⟩ <;> have := mid f l this <;> simp only [Bnd.Above, Bnd.Below] <;> grind
    | excl l =>
      have : f ≤ l := by simp [Bnd.connects, Bnd.value?, Bnd.isExcl] at h; grind
      refine ⟨f, ?_, ?_⟩ <;> simp only [Bnd.Above, Bnd.Below] <;> grind

theorem Cover.sweep_iff (f : Bnd) (rest : List Seg) (hs : rest.Pairwise fun a b => segLe a b = true) :
    sweep f rest = true ↔ ∀ x, ¬ f.Below x → Cover.Has rest x := by
  induction rest generalizing f with
  | nil =>
    simp only [sweep, decide_eq_true_eq]
    constructor
    · intro h x hx; subst h; exact absurd trivial hx
    · intro h
      cases f with
      | unbounded => rfl
      | incl n =>
        obtain ⟨s, hs, _⟩ := h (n + 1) (by simp only [Bnd.Below]; grind)
        cases hs
      | excl n =>
        obtain ⟨s, hs, _⟩ := h (n + 1) (by simp only [Bnd.Below]; grind)
        cases hs
  | cons s rest ih =>
    have ⟨hle, hs⟩ := List.pairwise_cons.1 hs
    unfold sweep
    split
    · rename_i h; subst h
      simp only [true_iff]
      intro x hx; exact absurd trivial hx
    · split
      · rename_i h
        have h : Bnd.connects f s.lo = false := by simpa using h
        simp only [Bool.false_eq_true, false_iff]
        intro hall
        obtain ⟨x, h1, h2⟩ := Bnd.gap_spec h
        obtain ⟨t, ht, hta, _⟩ := hall x h1
        rcases List.mem_cons.1 ht with e | ht
        · exact h2 (e ▸ hta)
        · exact h2 (Bnd.above_of_rank (hle t ht) hta)
      · rename_i h
        have h : Bnd.connects f s.lo = true := by simpa using h
        rw [ih _ hs]
        constructor
        · intro hall x hx
          by_cases hhi : s.hi.Below x
          · exact ⟨s, by simp, Bnd.connects_spec h x hx, hhi⟩
          · obtain ⟨t, ht, h⟩ := hall x (by rw [Bnd.below_wider]; simp [hx, hhi])
            exact ⟨t, by simp [ht], h⟩
        · intro hall x hx
          rw [Bnd.below_wider, not_or] at hx
          obtain ⟨t, ht, h⟩ := hall x hx.1
          rcases List.mem_cons.1 ht with e | ht
          · exact absurd (e ▸ h.2) hx.2
          · exact ⟨t, ht, h⟩

theorem Cover.segLe_trans (a b c : Seg) (h1 : segLe a b = true) (h2 : segLe b c = true) :
    segLe a c = true := by
  unfold segLe Bnd.rank3Le at *; grind
theorem Cover.segLe_total (a b : Seg) : (segLe a b || segLe b a) = true := by
  unfold segLe Bnd.rank3Le; grind

theorem exists_below_all (c : Cover) (h : ∀ s ∈ c, s.lo ≠ .unbounded) :
    ∃ x, ∀ s ∈ c, ¬ s.lo.Above x := by
  have : ∃ x, ∀ y, y ≤ x → ∀ s ∈ c, ¬ s.lo.Above y := by
    induction c with
    | nil => exact ⟨0, by simp⟩
    | cons s c ih =>
      obtain ⟨x, hx⟩ := ih fun t ht => h t (by simp [ht])
      have : ∃ z, ∀ y, y ≤ z → ¬ s.lo.Above y := by
        have := h s (by simp)
        cases hl : s.lo with
        | unbounded => exact absurd hl this
        | incl n => exact ⟨n - 1, fun y hy => by simp only [Bnd.Above]; grind⟩
        | excl n => exact ⟨n, fun y hy => by simp only [Bnd.Above]; grind⟩
      obtain ⟨z, hz⟩ := this
      by_cases hxz : x ≤ z
      · refine ⟨x, fun y hy t ht => ?_⟩
        rcases List.mem_cons.1 ht with e | ht
        · subst e; exact hz y (by grind)
        · exact hx y hy t ht
      · refine ⟨z, fun y hy t ht => ?_⟩
        rcases List.mem_cons.1 ht with e | ht
        · subst e; exact hz y hy
        · exact hx y (by grind) t ht
  obtain ⟨x, hx⟩ := this
  exact ⟨x, hx x (by grind)⟩

/-- The analysis answers "total" exactly when every number lies in one of the segments. -/
theorem C24_total_iff_covers (c : Cover) : c.isTotal = true ↔ ∀ x : Rat, c.Has x := by
  have hperm : (c.mergeSort Cover.segLe).Perm c := List.mergeSort_perm c _
  have hsort := List.pairwise_mergeSort (le := Cover.segLe) Cover.segLe_trans Cover.segLe_total c
  have hmem : ∀ s, s ∈ c ↔ s ∈ c.mergeSort Cover.segLe := fun s => hperm.mem_iff.symm
  unfold Cover.isTotal
  cases hc : c.mergeSort Cover.segLe with
  | nil =>
    simp only [Bool.false_eq_true, false_iff]
    intro h
    obtain ⟨s, hs, _⟩ := h 0
    rw [hmem, hc] at hs; cases hs
  | cons first rest =>
    rw [hc] at hsort
    have ⟨hle, hsort⟩ := List.pairwise_cons.1 hsort
    have hmem : ∀ s, s ∈ c ↔ s = first ∨ s ∈ rest := fun s => by rw [hmem, hc, List.mem_cons]
    dsimp only
    split
    · rename_i h
      simp only [Bool.false_eq_true, false_iff]
      intro hall
      obtain ⟨x, hx⟩ := exists_below_all [first] (by simpa using h)
      obtain ⟨s, hs, ha, _⟩ := hall x
      rcases (hmem s).1 hs with e | hs
      · exact hx s (by simp [e]) ha
      · exact hx first (by simp) (Bnd.above_of_rank (hle s hs) ha)
    · rename_i h
      have h : first.lo = .unbounded := by simpa using h
      rw [Cover.sweep_iff _ _ hsort]
      constructor
      · intro hall x
        by_cases hb : first.hi.Below x
        · exact ⟨first, (hmem _).2 (.inl rfl), by rw [h]; trivial, hb⟩
        · obtain ⟨s, hs, h⟩ := hall x hb
          exact ⟨s, (hmem _).2 (.inr hs), h⟩
      · intro hall x hb
        obtain ⟨s, hs, h⟩ := hall x
        rcases (hmem s).1 hs with e | hs
        · exact absurd (e ▸ h.2) hb
        · exact ⟨s, hs, h⟩

/-- Combining two covers denotes their union, intersecting two single segments their
intersection, and a cover that is a list of points holds exactly those points. -/
theorem C24_cover_algebra (a b : Cover) (x : Rat) :
    ((Cover.mergedWith a b).Has x ↔ a.Has x ∨ b.Has x) ∧
    (∀ c, Cover.intersect a b = some c → (Cover.Has c x ↔ a.Has x ∧ b.Has x)) ∧
    (∀ ps, a.points = some ps → (a.Has x ↔ x ∈ ps)) := by
  refine ⟨?_, ?_, ?_⟩
  · constructor
    · rintro ⟨s, hs, h⟩
      rcases List.mem_append.1 hs with hs | hs
      · exact .inl ⟨s, hs, h⟩
      · exact .inr ⟨s, hs, h⟩
    · rintro (⟨s, hs, h⟩ | ⟨s, hs, h⟩)
      · exact ⟨s, List.mem_append.2 (.inl hs), h⟩
      · exact ⟨s, List.mem_append.2 (.inr hs), h⟩
  · intro c hc
    unfold Cover.intersect at hc
    split at hc
    · cases hc
      simp only [Cover.Has, List.mem_singleton, exists_eq_left, Seg.Has, Bnd.above_tighter,
        Bnd.below_tighter]
      constructor
      · rintro ⟨⟨h1, h2⟩, h3, h4⟩; exact ⟨⟨h1, h3⟩, h2, h4⟩
      · rintro ⟨⟨h1, h3⟩, h2, h4⟩; exact ⟨⟨h1, h2⟩, h3, h4⟩
    · cases hc
  · intro ps hps
    induction a generalizing ps with
    | nil => cases hps; simp [Cover.Has]
    | cons s a ih =>
      unfold Cover.points at hps
      split at hps
      · cases hps
      · rename_i p hp
        cases hr : Cover.points a with
        | none => rw [hr] at hps; cases hps
        | some qs =>
          rw [hr] at hps; cases hps
          have hs : s.Has x ↔ x = p := by
            unfold Cover.segPoint at hp
            split at hp
            · rename_i lo hi hlo hhi
              split at hp
              · cases hp; rename_i e; subst e
                simp only [Seg.Has, hlo, hhi, Bnd.Above, Bnd.Below]; grind
              · cases hp
            · cases hp
          have : Cover.Has (s :: a) x ↔ s.Has x ∨ Cover.Has a x := by simp [Cover.Has]
          rw [this, hs, ih _ hr]
          simp

/-- the numbers a `rust_decimal::Decimal` can represent: a 96 bit mantissa and at most 28 decimal
places -/
def IsDecimal (x : Rat) : Prop :=
  ∃ (m : Int) (s : Nat), x = (m : Rat) / (10 ^ s : Nat) ∧ m.natAbs < 2 ^ 96 ∧ s ≤ 28

/-- "Every number" is every rational, not every representable decimal: a range reaching up to
the largest decimal holds every decimal and is still reported as not total. A "yes" is right
for decimals as well. -/
theorem C24_decimal_edge :
    Cover.isTotal [⟨.unbounded, .incl ((2 ^ 96 - 1 : Int) : Rat)⟩] = false ∧
    ∀ x, IsDecimal x → Cover.Has [⟨.unbounded, .incl ((2 ^ 96 - 1 : Int) : Rat)⟩] x := by
  constructor
  · rw [← Bool.not_eq_true, C24_total_iff_covers]
    intro h
    obtain ⟨s, hs, h⟩ := h (((2 ^ 96 - 1 : Int) : Rat) + 1)
    simp only [List.mem_singleton] at hs
    subst hs
    have := h.2
    simp only [Bnd.Below] at this
    grind
  · rintro x ⟨m, s, rfl, hm, _⟩
    refine ⟨_, List.mem_singleton.2 rfl, trivial, ?_⟩
    simp only [Bnd.Below]
    have h1 : (m : Rat) ≤ ((2 ^ 96 - 1 : Int) : Rat) := by
      rw [Rat.intCast_le_intCast]; omega
    have h0 : (0 : Rat) ≤ ((2 ^ 96 - 1 : Int) : Rat) := by
      rw [← Rat.intCast_zero, Rat.intCast_le_intCast]; omega
    have hp : 1 ≤ 10 ^ s := Nat.one_le_pow _ _ (by omega)
    have hp' : (1 : Rat) ≤ ((10 ^ s : Nat) : Rat) := by exact_mod_cast hp
    have hpos : (0 : Rat) < ((10 ^ s : Nat) : Rat) := by grind
    rw [← Rat.not_lt, Rat.lt_div_iff hpos, Rat.not_lt]
    calc (m : Rat) ≤ ((2 ^ 96 - 1 : Int) : Rat) := h1
      _ = ((2 ^ 96 - 1 : Int) : Rat) * 1 := by rw [Rat.mul_one]
      _ ≤ _ := Rat.mul_le_mul_of_nonneg_left hp' h0

/-! ### Instances -/
/-- `x < 18 or x == 18 or x > 18` covers everything, `x < 18 or x > 18` does not -/
example : Cover.isTotal [⟨.excl 18, .unbounded⟩, ⟨.incl 18, .incl 18⟩, ⟨.unbounded, .excl 18⟩] = true ∧
    Cover.isTotal [⟨.excl 18, .unbounded⟩, ⟨.unbounded, .excl 18⟩] = false := by
  constructor
  · rw [C24_total_iff_covers]
    intro x
    by_cases h : x < 18
    · exact ⟨⟨.unbounded, .excl 18⟩, by simp, trivial, h⟩
    · by_cases e : x = 18
      · exact ⟨⟨.incl 18, .incl 18⟩, by simp, by simp only [Bnd.Above]; grind, by simp only [Bnd.Below]; grind⟩
      · exact ⟨⟨.excl 18, .unbounded⟩, by simp, by simp only [Bnd.Above]; grind, trivial⟩
  · rw [← Bool.not_eq_true, C24_total_iff_covers]
    intro h
    obtain ⟨s, hs, h⟩ := h 18
    simp only [List.mem_cons, List.not_mem_nil, or_false] at hs
    rcases hs with rfl | rfl <;> simp [Seg.Has, Bnd.Above, Bnd.Below] at h <;> grind
example : Cover.intersect [⟨.incl 1, .unbounded⟩] [⟨.unbounded, .excl 5⟩] = some [⟨.incl 1, .excl 5⟩] := rfl
example : Cover.points [⟨.incl 1, .incl 1⟩, ⟨.incl 5, .incl 5⟩] = some [1, 5] := rfl

end Zen
