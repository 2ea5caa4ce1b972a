import Verif.Policy.BlocksLemmas
/-
What a policy table selects, without evaluator, index or trace; helper lemmas on the loop over the rows.
-/
namespace Zen.Policy
open Zen
section
variable (F : FrontEnd) (B : Builtins)

/-- row `i` exists and all its non-empty input cells hold -/
def RowAt (s : Scope) (t : PTable) (i : Nat) (rule : Rule) : Prop :=
  t.rules[i]? = some rule ∧ RowHolds F B s t.asTable rule

/-- column `id` has a value in a matching row before `k` -/
def Served (s : Scope) (t : PTable) (k : Nat) (id : String) : Prop :=
  ∃ j rule, j < k ∧ RowAt F B s t j rule ∧ cellOf rule id ≠ none

/-- nothing is left to look for at row `k`: no column collects, a row has matched, and every column has its
value -/
def Done (s : Scope) (t : PTable) (k : Nat) : Prop :=
  (∀ c ∈ t.active, c.collect = false) ∧ (∃ j rule, j < k ∧ RowAt F B s t j rule) ∧
    ∀ c ∈ t.active, Served F B s t k c.id

/-- the cell of row `i` and column `c` gives a value: the row matches, the cell is not empty, and the column
either collects or has no value from an earlier matching row -/
def Uses (s : Scope) (t : PTable) (i : Nat) (c : OCol) : Prop :=
  ∃ rule, RowAt F B s t i rule ∧ cellOf rule c.id ≠ none ∧ (c.collect = true ∨ ¬ Served F B s t i c.id)

/-- what a selection has to be -/
structure SelSpec (s : Scope) (t : PTable) (sel : TSel) : Prop where
  sorted : sel.matched.Pairwise (· < ·)
  matched : ∀ i, i ∈ sel.matched ↔ (∃ rule, RowAt F B s t i rule) ∧ ¬ Done F B s t i
  used : ∀ i id, (i, id) ∈ sel.used ↔ ∃ c ∈ t.active, c.id = id ∧ Uses F B s t i c

end
variable {F : FrontEnd} {B : Builtins} {s : Scope} {t : PTable}

theorem Served.mono {k k' : Nat} {id : String} (h : Served F B s t k id) (hk : k ≤ k') : Served F B s t k' id := by
  obtain ⟨j, rule, hj, h⟩ := h
  exact ⟨j, rule, Nat.lt_of_lt_of_le hj hk, h⟩

theorem Done.mono {k k' : Nat} (h : Done F B s t k) (hk : k ≤ k') : Done F B s t k' := by
  obtain ⟨h1, ⟨j, rule, hj, h2⟩, h3⟩ := h
  exact ⟨h1, ⟨j, rule, Nat.lt_of_lt_of_le hj hk, h2⟩, fun c hc => (h3 c hc).mono hk⟩

/-- columns still waiting for a value -/
def waiting : List OCol → List Bool → Nat
  | c :: cs, tk :: tks => (if !c.collect && !tk then 1 else 0) + waiting cs tks
  | _, _ => 0

theorem takeCells_spec (rule : Rule) (row : Nat) (cs : List OCol) : ∀ (tks : List Bool) (P : OCol → Prop),
    List.Forall₂ (fun c tk => tk = true ↔ c.collect = false ∧ P c) cs tks →
    List.Forall₂ (fun c tk => tk = true ↔ c.collect = false ∧ (P c ∨ cellOf rule c.id ≠ none)) cs
      (takeCells rule row cs tks).1 ∧
    (∀ i id, (i, id) ∈ (takeCells rule row cs tks).2.1 ↔ i = row ∧ ∃ c ∈ cs, c.id = id ∧
      cellOf rule c.id ≠ none ∧ (c.collect = true ∨ ¬ P c)) ∧
    waiting cs tks = waiting cs (takeCells rule row cs tks).1 + (takeCells rule row cs tks).2.2 := by
  induction cs with
  | nil => intro tks P h; cases h; simp [takeCells, waiting]
  | cons c cs ih =>
    intro tks P h
    cases h with
    | cons hc hrest =>
      rename_i tk tks
      obtain ⟨g1, g2, g3⟩ := ih tks P hrest
      simp only [takeCells]
      cases hcell : cellOf rule c.id with
      | none =>
        refine ⟨.cons (by simp [hc, hcell]) g1, ?_, ?_⟩
        · intro i id
          simp only [g2, List.mem_cons, exists_eq_or_imp]
          simp [hcell]
        · simp only [waiting, g3]; omega
      | some cell =>
        dsimp only
        cases hco : c.collect with
        | true =>
          simp only [if_true]
          refine ⟨.cons (by rw [hc]; simp [hco]) g1, ?_, ?_⟩
          · intro i id
            simp only [List.mem_cons, g2, exists_eq_or_imp, Prod.mk.injEq]
            simp only [hcell, hco]
            constructor
            · rintro (⟨rfl, rfl⟩ | ⟨rfl, h⟩)
              · exact ⟨rfl, .inl ⟨rfl, by simp, by simp⟩⟩
              · exact ⟨rfl, .inr h⟩
            · rintro ⟨rfl, ⟨h, -, -⟩ | h⟩
              · exact .inl ⟨rfl, h.symm⟩
              · exact .inr ⟨rfl, h⟩
          · simp only [waiting, g3, hco]; simp
        | false =>
          simp only [Bool.false_eq_true, if_false]
          cases tk with
          | true =>
            simp only [if_true]
            have hP : P c := (hc.1 rfl).2
            refine ⟨.cons (by simp [hco, hP]) g1, ?_, ?_⟩
            · intro i id
              simp only [g2, List.mem_cons, exists_eq_or_imp]
              simp [hco, hP]
            · simp only [waiting, g3]; simp
          | false =>
            simp only [Bool.false_eq_true, if_false]
            have hP : ¬ P c := fun h => by have := hc.2 ⟨hco, h⟩; cases this
            refine ⟨.cons (by simp [hco, hcell]) g1, ?_, ?_⟩
            · intro i id
              simp only [List.mem_cons, g2, exists_eq_or_imp, Prod.mk.injEq]
              simp only [hcell, hco]
              constructor
              · rintro (⟨rfl, rfl⟩ | ⟨rfl, h⟩)
                · exact ⟨rfl, .inl ⟨rfl, by simp, .inr hP⟩⟩
                · exact ⟨rfl, .inr h⟩
              · rintro ⟨rfl, ⟨h, -, -⟩ | h⟩
                · exact .inl ⟨rfl, h.symm⟩
                · exact .inr ⟨rfl, h⟩
            · simp only [waiting, g3, hco]; simp; omega

theorem waiting_zero (cs : List OCol) : ∀ (tks : List Bool) (P : OCol → Prop),
    List.Forall₂ (fun c tk => tk = true ↔ c.collect = false ∧ P c) cs tks → (∀ c ∈ cs, c.collect = false) →
    (waiting cs tks = 0 ↔ ∀ c ∈ cs, P c) := by
  induction cs with
  | nil => intro tks P h _; cases h; simp [waiting]
  | cons c cs ih =>
    intro tks P h hco
    cases h with
    | cons hc hrest =>
      rename_i tk tks
      have := ih tks P hrest (fun c hc => hco c (List.mem_cons_of_mem _ hc))
      have hcc := hco c (List.mem_cons_self ..)
      simp only [waiting, Nat.add_eq_zero_iff, this, List.mem_cons, forall_eq_or_imp, hcc]
      cases tk with
      | true => simp [(hc.1 rfl).2]
      | false =>
        have hP : ¬ P c := fun h => by have := hc.2 ⟨hcc, h⟩; cases this
        simp [hP]

/-- the loop invariant: rows before `k` have been dealt with -/
structure SelInv (F : FrontEnd) (B : Builtins) (s : Scope) (t : PTable) (k : Nat) (sel : TSel) : Prop where
  sorted : sel.matched.Pairwise (· < ·)
  matched : ∀ i, i ∈ sel.matched ↔ i < k ∧ (∃ rule, RowAt F B s t i rule) ∧ ¬ Done F B s t i
  used : ∀ i id, (i, id) ∈ sel.used ↔ i < k ∧ ∃ c ∈ t.active, c.id = id ∧ Uses F B s t i c
  taken : List.Forall₂ (fun c tk => tk = true ↔ c.collect = false ∧ Served F B s t k c.id) t.active sel.taken
  pending : sel.pending = waiting t.active sel.taken

theorem SelInv.start : SelInv F B s t 0 (.start t) := by
  refine ⟨List.Pairwise.nil, fun i => ?_, fun i id => ?_, ?_, ?_⟩
  · simp [TSel.start]
  · simp [TSel.start]
  · unfold TSel.start
    dsimp only
    induction t.active with
    | nil => exact .nil
    | cons c cs ih => exact .cons (by simp [Served]) ih
  · unfold TSel.start
    dsimp only
    induction t.active with
    | nil => rfl
    | cons c cs ih =>
      simp only [List.filter_cons, List.map_cons, waiting]
      cases c.collect
      · simp [ih]; omega
      · simp [ih]

/-- some matching row comes before `k` exactly when one has been recorded -/
theorem SelInv.nonempty {k : Nat} {sel : TSel} (h : SelInv F B s t k sel) :
    sel.matched ≠ [] ↔ ∃ j rule, j < k ∧ RowAt F B s t j rule := by
  constructor
  · intro hne
    cases hm : sel.matched with
    | nil => exact absurd hm hne
    | cons i is =>
      obtain ⟨h1, ⟨rule, h2⟩, -⟩ := (h.matched i).1 (by rw [hm]; exact List.mem_cons_self ..)
      exact ⟨i, rule, h1, h2⟩
  · rintro ⟨j, rule, hj, hr⟩
    induction j using Nat.strongRecOn generalizing rule with
    | _ j ih =>
      by_cases hd : Done F B s t j
      · obtain ⟨-, ⟨j', rule', hj', hr'⟩, -⟩ := hd
        exact ih j' hj' rule' (by omega) hr'
      · intro hnil
        have := (h.matched j).2 ⟨hj, ⟨rule, hr⟩, hd⟩
        rw [hnil] at this; cases this

theorem SelInv.satisfied {k : Nat} {sel : TSel} (h : SelInv F B s t k sel) :
    sel.satisfied t = true ↔ Done F B s t k := by
  unfold TSel.satisfied Done
  simp only [Bool.and_eq_true, Bool.not_eq_true', List.any_eq_false, beq_iff_eq]
  have hne : sel.matched.isEmpty = false ↔ ∃ j rule, j < k ∧ RowAt F B s t j rule := by
    rw [← h.nonempty]; cases sel.matched <;> simp
  rw [hne, h.pending]
  have hb : (∀ x ∈ t.active, ¬ x.collect = true) ↔ ∀ c ∈ t.active, c.collect = false := by simp
  rw [hb]
  constructor
  · rintro ⟨⟨h1, h2⟩, h3⟩
    exact ⟨h1, h3, (waiting_zero _ _ _ h.taken h1).1 h2⟩
  · rintro ⟨h1, h3, h2⟩
    exact ⟨⟨h1, (waiting_zero _ _ _ h.taken h1).2 h2⟩, h3⟩

theorem Uses.notDone {k : Nat} {c : OCol} (hc : c ∈ t.active) (h : Uses F B s t k c) : ¬ Done F B s t k := by
  rintro ⟨h1, -, h3⟩
  obtain ⟨rule, -, -, h | h⟩ := h
  · rw [h1 c hc] at h; cases h
  · exact h (h3 c hc)

theorem forall₂_mem {α β : Type} {R S : α → β → Prop} {l : List α} {m : List β} (h : List.Forall₂ R l m)
    (f : ∀ a b, a ∈ l → R a b → S a b) : List.Forall₂ S l m := by
  induction h with
  | nil => exact .nil
  | cons hr _ ih => exact .cons (f _ _ (List.mem_cons_self ..) hr) (ih fun a b ha => f a b (List.mem_cons_of_mem _ ha))

/-- a row that is passed over -/
theorem SelInv.skip {k : Nat} {sel : TSel} (h : SelInv F B s t k sel)
    (hr : (¬ ∃ rule, RowAt F B s t k rule) ∨ Done F B s t k) : SelInv F B s t (k + 1) sel := by
  refine ⟨h.sorted, fun i => ?_, fun i id => ?_, ?_, h.pending⟩
  · rw [h.matched]
    constructor
    · rintro ⟨h1, h2⟩; exact ⟨by omega, h2⟩
    · rintro ⟨h1, h2⟩
      refine ⟨?_, h2⟩
      rcases Nat.lt_or_ge i k with hh | hh
      · exact hh
      · have : i = k := by omega
        subst this
        rcases hr with hr | hr
        · exact absurd h2.1 hr
        · exact absurd hr h2.2
  · rw [h.used]
    constructor
    · rintro ⟨h1, h2⟩; exact ⟨by omega, h2⟩
    · rintro ⟨h1, c, hc, hid, hu⟩
      refine ⟨?_, c, hc, hid, hu⟩
      rcases Nat.lt_or_ge i k with hh | hh
      · exact hh
      · have : i = k := by omega
        subst this
        rcases hr with hr | hr
        · obtain ⟨rule, h1, -⟩ := hu; exact absurd ⟨rule, h1⟩ hr
        · exact absurd hr (hu.notDone hc)
  · refine forall₂_mem h.taken ?_
    intro c tk hc hh
    rw [hh]
    refine and_congr_right fun _ => ⟨fun hs => hs.mono (by omega), ?_⟩
    rintro ⟨j, rule, hj, hrow, hcell⟩
    rcases Nat.lt_or_ge j k with hjk | hjk
    · exact ⟨j, rule, hjk, hrow, hcell⟩
    · have : j = k := by omega
      subst this
      rcases hr with hr | hr
      · exact absurd ⟨rule, hrow⟩ hr
      · exact hr.2.2 c hc

/-- a matching row is recorded -/
theorem SelInv.hit {k : Nat} {sel : TSel} (h : SelInv F B s t k sel) {rule : Rule}
    (hr : RowAt F B s t k rule) (hd : ¬ Done F B s t k) : SelInv F B s t (k + 1) (sel.hit t k rule) := by
  obtain ⟨g1, g2, g3⟩ := takeCells_spec rule k t.active sel.taken (fun c => Served F B s t k c.id) h.taken
  have huniq : ∀ r, RowAt F B s t k r → r = rule := by
    intro r hr'
    have := hr'.1.symm.trans hr.1
    cases this; rfl
  refine ⟨?_, fun i => ?_, fun i id => ?_, ?_, ?_⟩
  · simp only [TSel.hit, List.pairwise_append]
    refine ⟨h.sorted, List.pairwise_singleton .., ?_⟩
    intro a ha b hb
    rw [List.mem_singleton] at hb
    subst hb
    exact ((h.matched a).1 ha).1
  · simp only [TSel.hit, List.mem_append, List.mem_singleton, h.matched]
    constructor
    · rintro (⟨h1, h2⟩ | rfl)
      · exact ⟨by omega, h2⟩
      · exact ⟨by omega, ⟨rule, hr⟩, hd⟩
    · rintro ⟨h1, h2⟩
      rcases Nat.lt_or_ge i k with hh | hh
      · exact .inl ⟨hh, h2⟩
      · exact .inr (by omega)
  · simp only [TSel.hit, List.mem_append, h.used, g2]
    constructor
    · rintro (⟨h1, h2⟩ | ⟨rfl, c, hc, hid, hcell, hh⟩)
      · exact ⟨by omega, h2⟩
      · exact ⟨by omega, c, hc, hid, rule, hr, hcell, hh⟩
    · rintro ⟨h1, c, hc, hid, hu⟩
      rcases Nat.lt_or_ge i k with hh | hh
      · exact .inl ⟨hh, c, hc, hid, hu⟩
      · have : i = k := by omega
        subst this
        obtain ⟨r, hrow, hcell, hs⟩ := hu
        rw [huniq r hrow] at hcell
        exact .inr ⟨rfl, c, hc, hid, hcell, hs⟩
  · refine g1.imp ?_
    intro c tk hh
    rw [hh]
    refine and_congr_right fun _ => ?_
    constructor
    · rintro (hs | hcell)
      · exact hs.mono (by omega)
      · exact ⟨k, rule, by omega, hr, hcell⟩
    · rintro ⟨j, r, hj, hrow, hcell⟩
      rcases Nat.lt_or_ge j k with hjk | hjk
      · exact .inl ⟨j, r, hjk, hrow, hcell⟩
      · have : j = k := by omega
        subst this
        rw [huniq r hrow] at hcell
        exact .inr hcell
  · simp only [TSel.hit, h.pending]
    omega

/-- The same selection, up to the bits for the trace. -/
def Same (a b : TSel) : Prop :=
  a.matched = b.matched ∧ a.used = b.used ∧ a.pending = b.pending ∧ a.taken = b.taken

theorem Same.satisfied {a b : TSel} (h : Same a b) (t : PTable) : a.satisfied t = b.satisfied t := by
  obtain ⟨h1, _, h3, _⟩ := h
  simp [TSel.satisfied, h1, h3]

theorem Same.hit {a b : TSel} (h : Same a b) (t : PTable) (row : Nat) (rule : Rule) :
    Same (a.hit t row rule) (b.hit t row rule) := by
  obtain ⟨h1, h2, h3, h4⟩ := h
  simp [Same, TSel.hit, h1, h2, h3, h4]

theorem SelInv.congr {k : Nat} {a b : TSel} (h : SelInv F B s t k a) (hs : Same a b) : SelInv F B s t k b := by
  obtain ⟨h1, h2, h3, h4⟩ := hs
  exact ⟨h1 ▸ h.sorted, h1 ▸ h.matched, h2 ▸ h.used, h4 ▸ h.taken, by rw [← h3, ← h4]; exact h.pending⟩

theorem at_drop {row : Nat} {rule : Rule} {rest : List Rule} (h : t.rules.drop row = rule :: rest) :
    t.rules[row]? = some rule ∧ t.rules.drop (row + 1) = rest := by
  constructor
  · have : (t.rules.drop row)[0]? = some rule := by rw [h]; rfl
    rwa [List.getElem?_drop, Nat.add_zero] at this
  · have : (t.rules.drop row).drop 1 = rest := by rw [h]; rfl
    rwa [List.drop_drop] at this

theorem no_row_after {row : Nat} (h : t.rules.drop row = []) {i : Nat} (hi : row ≤ i) :
    ¬ ∃ rule, RowAt F B s t i rule := by
  rintro ⟨rule, h1, -⟩
  have : t.rules.length ≤ row := List.drop_eq_nil_iff.1 h
  rw [List.getElem?_eq_none (by omega)] at h1
  cases h1

/-- at the end, or once nothing is left to look for, the invariant is the specification -/
theorem SelInv.finish {k : Nat} {sel : TSel} (h : SelInv F B s t k sel)
    (hend : t.rules.drop k = [] ∨ Done F B s t k) : SelSpec F B s t sel := by
  have key : ∀ i, k ≤ i → (∃ rule, RowAt F B s t i rule) → Done F B s t i := by
    intro i hi hrow
    rcases hend with hh | hh
    · exact absurd hrow (no_row_after hh hi)
    · exact hh.mono hi
  refine ⟨h.sorted, fun i => ?_, fun i id => ?_⟩
  · rw [h.matched]
    constructor
    · rintro ⟨-, hh⟩; exact hh
    · intro hh
      refine ⟨?_, hh⟩
      rcases Nat.lt_or_ge i k with hik | hik
      · exact hik
      · exact absurd (key i hik hh.1) hh.2
  · rw [h.used]
    constructor
    · rintro ⟨-, hh⟩; exact hh
    · rintro ⟨c, hc, hid, hu⟩
      refine ⟨?_, c, hc, hid, hu⟩
      rcases Nat.lt_or_ge i k with hik | hik
      · exact hik
      · have hu' := hu
        obtain ⟨rule, hrow, -⟩ := hu'
        exact absurd (key i hik ⟨rule, hrow⟩) (hu.notDone hc)

theorem selectRows_spec (ht : Tidy F t.asTable) {extras : Bool} {ix : Option TableIx} {cand : Option Bits}
    (hp : PPrune F B s t ix cand) (rest : List Rule) : ∀ (row : Nat) (sel : TSel) (st : TSt),
    t.rules.drop row = rest → SelInv F B s t row sel → TOk F B s t st →
    ∀ sel', selectRows F B t extras ix cand row rest sel st = .ok sel' → SelSpec F B s t sel' := by
  induction rest with
  | nil =>
    intro row sel st hd h _ sel' hs
    simp only [selectRows, Except.ok.injEq] at hs
    subst hs
    exact h.finish (.inl hd)
  | cons rule rest ih =>
    intro row sel st hd h hst sel' hs
    obtain ⟨hrow, hd'⟩ := at_drop hd
    simp only [selectRows] at hs
    split at hs
    · rename_i hsat
      cases hs
      rw [Bool.and_eq_true] at hsat
      exact h.finish (.inr (h.satisfied.1 hsat.1))
    · rename_i hsat
      have hu : extras = false → sel.satisfied t = false := by
        intro he; subst he; simpa using hsat
      obtain ⟨e1, -, e3, -, -⟩ := evalRow_spec (unreached := sel.satisfied t) ht hp hrow hst hu
      rcases hev : evalRow F B t extras ix cand (sel.satisfied t) row rule st with ⟨r, st'⟩
      rw [hev] at hs e1 e3
      dsimp only at hs e1 e3
      cases r with
      | error e => cases hs
      | ok bb =>
        obtain ⟨b, bs⟩ := bb
        dsimp only at hs
        have hsame : Same sel { sel with bits := sel.bits ++ [bs] } := ⟨rfl, rfl, rfl, rfl⟩
        split at hs
        · rename_i hb
          refine ih (row + 1) _ st' hd' (SelInv.congr (h.skip ?_) hsame) e1 sel' hs
          by_cases hd2 : sel.satisfied t = true
          · exact .inr (h.satisfied.1 hd2)
          · rw [Bool.not_eq_true] at hd2
            rw [hd2] at hb
            refine .inl ?_
            rintro ⟨r2, hr2, hr3⟩
            rw [hrow] at hr2; cases hr2
            have := (e3 hd2 b bs rfl).2 hr3
            subst this
            cases hb
        · rename_i hb
          simp only [Bool.or_eq_true, Bool.not_eq_true', not_or, Bool.not_eq_false, Bool.not_eq_true] at hb
          have hrule : RowAt F B s t row rule := ⟨hrow, (e3 hb.2 b bs rfl).1 hb.1⟩
          have hnd : ¬ Done F B s t row := fun hh => by
            have := h.satisfied.2 hh; rw [hb.2] at this; cases this
          exact ih (row + 1) _ st' hd' (SelInv.congr (h.hit hrule hnd) (hsame.hit t row rule)) e1 sel' hs

/-- once nothing is left to look for, the extra rows change nothing and raise no error -/
theorem selectRows_done (ht : Tidy F t.asTable) {ix : Option TableIx} (rest : List Rule) :
    ∀ (row : Nat) (sel : TSel) (st : TSt), t.rules.drop row = rest → TOk F B s t st →
    sel.satisfied t = true →
    ∃ sel', selectRows F B t true ix none row rest sel st = .ok sel' ∧ Same sel sel' := by
  induction rest with
  | nil => intro row sel st _ _ _; exact ⟨sel, rfl, rfl, rfl, rfl, rfl⟩
  | cons rule rest ih =>
    intro row sel st hd hst hsat
    obtain ⟨hrow, hd'⟩ := at_drop hd
    simp only [selectRows, hsat, Bool.not_true, Bool.and_false, Bool.false_eq_true, if_false]
    obtain ⟨e1, e2, -⟩ := evalRow_spec (extras := true) (unreached := true) ht (pprune_none ix) hrow hst
      (fun hh => by cases hh)
    obtain ⟨b, bs, hb⟩ := e2 rfl
    rcases hev : evalRow F B t true ix none true row rule st with ⟨r, st'⟩
    rw [hev] at hb e1
    dsimp only at hb e1
    subst hb
    simp only [Bool.or_true, if_true]
    obtain ⟨sel', h1, h2⟩ := ih (row + 1) { sel with bits := sel.bits ++ [bs] } st' hd' e1 hsat
    exact ⟨sel', h1, h2⟩

/-- two results: the same error, or the same selection -/
def SameRes : Except XErr TSel → Except XErr TSel → Prop
  | .ok a, .ok b => Same a b
  | .error e, .error e' => e = e'
  | _, _ => False

theorem selectRows_extras (ht : Tidy F t.asTable) {ix ix' : Option TableIx} (rest : List Rule) :
    ∀ (row : Nat) (sel sel' : TSel) (st st' : TSt), t.rules.drop row = rest → Same sel sel' →
    TOk F B s t st → TOk F B s t st' →
    SameRes (selectRows F B t false ix none row rest sel st) (selectRows F B t true ix' none row rest sel' st') := by
  induction rest with
  | nil => intro row sel sel' st st' _ h _ _; exact h
  | cons rule rest ih =>
    intro row sel sel' st st' hd hsame hst hst'
    obtain ⟨hrow, hd'⟩ := at_drop hd
    cases hsat : sel.satisfied t with
    | true =>
      have hsat' := hsame.satisfied t ▸ hsat
      obtain ⟨sel'', h1, h2⟩ := selectRows_done (ix := ix') ht (rule :: rest) row sel' st' hd hst' hsat'
      rw [h1]
      simp only [selectRows, hsat, Bool.not_false, Bool.and_self, if_true]
      obtain ⟨a1, a2, a3, a4⟩ := hsame
      obtain ⟨b1, b2, b3, b4⟩ := h2
      exact ⟨a1.trans b1, a2.trans b2, a3.trans b3, a4.trans b4⟩
    | false =>
      have hsat' := hsame.satisfied t ▸ hsat
      simp only [selectRows, hsat, hsat', Bool.false_and, Bool.false_eq_true, if_false]
      obtain ⟨e1, -, -, e4, e5⟩ := evalRow_spec (extras := false) (unreached := false) ht (pprune_none ix) hrow
        hst (fun _ => rfl)
      obtain ⟨f1, -, -, f4, f5⟩ := evalRow_spec (extras := true) (unreached := false) ht (pprune_none ix') hrow
        hst' (fun _ => rfl)
      rcases hev : evalRow F B t false ix none false row rule st with ⟨r, st1⟩
      rcases hev' : evalRow F B t true ix' none false row rule st' with ⟨r', st1'⟩
      rw [hev] at e1 e4 e5
      rw [hev'] at f1 f4 f5
      dsimp only at e1 e4 e5 f1 f4 f5
      cases hres : rowRes F B s rule t.inputs with
      | error e =>
        have h1 := e4 rfl (.inr rfl) e hres
        have h2 := f4 rfl (.inl rfl) e hres
        subst h1; subst h2; exact rfl
      | ok b =>
        obtain ⟨bs, h1⟩ := e5 rfl b hres
        obtain ⟨bs', h2⟩ := f5 rfl b hres
        subst h1; subst h2
        dsimp only
        have hs2 : Same { sel with bits := sel.bits ++ [bs] } { sel' with bits := sel'.bits ++ [bs'] } := hsame
        cases b with
        | true => exact ih (row + 1) _ _ st1 st1' hd' (hs2.hit t row rule) e1 f1
        | false => exact ih (row + 1) _ _ st1 st1' hd' hs2 e1 f1

/-- pruning does not turn a success into an error, nor change the selection -/
theorem selectRows_prune (ht : Tidy F t.asTable) {ix : Option TableIx} {cand : Option Bits}
    (hp : PPrune F B s t ix cand) (rest : List Rule) :
    ∀ (row : Nat) (sel sel' : TSel) (st st' : TSt), t.rules.drop row = rest → Same sel sel' →
    TOk F B s t st → TOk F B s t st' →
    ∀ a, selectRows F B t false none none row rest sel st = .ok a →
      ∃ b, selectRows F B t false ix cand row rest sel' st' = .ok b ∧ Same a b := by
  induction rest with
  | nil => intro row sel sel' st st' _ h _ _ a ha; cases ha; exact ⟨sel', rfl, h⟩
  | cons rule rest ih =>
    intro row sel sel' st st' hd hsame hst hst' a ha
    obtain ⟨hrow, hd'⟩ := at_drop hd
    have hs' := hsame.satisfied t
    simp only [selectRows, ← hs', Bool.not_false, Bool.and_true] at ha ⊢
    cases hsat : sel.satisfied t with
    | true => rw [hsat] at ha; cases ha; exact ⟨sel', rfl, hsame⟩
    | false =>
      simp only [hsat, Bool.false_eq_true, if_false] at ha ⊢
      obtain ⟨e1, -, -, e4, e5⟩ := evalRow_spec (extras := false) (unreached := false) ht (pprune_none none)
        hrow hst (fun _ => rfl)
      obtain ⟨f1, -, -, -, f5⟩ := evalRow_spec (extras := false) (unreached := false) ht hp hrow
        hst' (fun _ => rfl)
      rcases hev : evalRow F B t false none none false row rule st with ⟨r, st1⟩
      rcases hev' : evalRow F B t false ix cand false row rule st' with ⟨r', st1'⟩
      rw [hev] at e1 e4 e5 ha
      rw [hev'] at f1 f5
      dsimp only at e1 e4 e5 f1 f5
      cases hres : rowRes F B s rule t.inputs with
      | error e =>
        have h1 := e4 rfl (.inr rfl) e hres
        subst h1; cases ha
      | ok b =>
        obtain ⟨bs, h1⟩ := e5 rfl b hres
        obtain ⟨bs', h2⟩ := f5 rfl b hres
        subst h1; subst h2
        dsimp only at ha ⊢
        have hs2 : Same { sel with bits := sel.bits ++ [bs] } { sel' with bits := sel'.bits ++ [bs'] } := hsame
        cases b with
        | true =>
          simp only [Bool.not_true, Bool.or_false, Bool.false_eq_true, if_false] at ha ⊢
          exact ih (row + 1) _ _ st1 st1' hd' (hs2.hit t row rule) e1 f1 a ha
        | false =>
          simp only [Bool.not_false, Bool.true_or, if_true] at ha ⊢
          exact ih (row + 1) _ _ st1 st1' hd' hs2 e1 f1 a ha

end Zen.Policy
