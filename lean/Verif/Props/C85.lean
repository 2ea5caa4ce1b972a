import Verif.Policy.AnyCheck
import Verif.Props.C37
import Mathlib.Data.List.Basic
import Batteries.Data.List.Perm
/-
C85: the search for `any` in a type ends, also where a type contains itself, and finds `any`
exactly when some part of the type is `any`.
-/
namespace Zen.AnyC.C85
open Zen.AnyC Zen.Policy

/-- specification: `any` is a part of the type, reached in some number of steps -/
inductive Part (H : Cells) : CTy → Prop where
  | any : Part H .any
  | array {t} : Part H t → Part H (.array t)
  | nullable {t} : Part H t → Part H (.nullable t)
  | field {a t} : t ∈ H.fields a → Part H t → Part H (.object a)

/-- the same without entering the cells of `V` -/
inductive PartOff (H : Cells) (V : List Nat) : CTy → Prop where
  | any : PartOff H V .any
  | array {t} : PartOff H V t → PartOff H V (.array t)
  | nullable {t} : PartOff H V t → PartOff H V (.nullable t)
  | field {a t} : a ∉ V → t ∈ H.fields a → PartOff H V t → PartOff H V (.object a)

theorem Part.off {H : Cells} {t : CTy} (h : Part H t) : PartOff H [] t := by
  induction h with
  | any => exact .any
  | array _ ih => exact .array ih
  | nullable _ ih => exact .nullable ih
  | field hm _ ih => exact .field (by simp) hm ih

/-- a way that enters `a` can be cut at the last entry -/
theorem PartOff.cut {H : Cells} {V : List Nat} {t : CTy} (a : Nat) (h : PartOff H V t) :
    PartOff H (a :: V) t ∨ ∃ v ∈ H.fields a, PartOff H (a :: V) v := by
  induction h with
  | any => exact .inl .any
  | array _ ih => exact ih.imp .array id
  | nullable _ ih => exact ih.imp .nullable id
  | @field b t hb hm _ ih =>
    rcases ih with h | h
    · by_cases hab : b = a
      · subst hab; exact .inr ⟨t, hm, h⟩
      · exact .inl (.field (by simp [hab, hb]) hm h)
    · exact .inr h

mutual
theorem rec_restores (H : Cells) : ∀ (n : Nat) (t : CTy) (vis : List Nat), (containsAnyRec H n t vis).2 = vis
  | _, .any, _ => by simp [containsAnyRec]
  | _, .other, _ => by simp [containsAnyRec]
  | n, .array t, vis => by simpa [containsAnyRec] using rec_restores H n t vis
  | n, .nullable t, vis => by simpa [containsAnyRec] using rec_restores H n t vis
  | 0, .object _, _ => by simp [containsAnyRec]
  | n + 1, .object a, vis => by
    rw [containsAnyRec]
    split
    · rfl
    · simp [any_restores H n (H.fields a) (a :: vis)]
termination_by n t => (n, sizeOf t)
theorem any_restores (H : Cells) : ∀ (n : Nat) (l : List CTy) (vis : List Nat), (anyField H n l vis).2 = vis
  | _, [], _ => by simp [anyField]
  | n, t :: l, vis => by
    have h := rec_restores H n t vis
    rw [anyField]
    split
    · exact h
    · rw [h]; exact any_restores H n l vis
termination_by n l => (n, sizeOf l)
end

theorem any_iff (H : Cells) (n : Nat) (vis : List Nat) : ∀ l : List CTy,
    (anyField H n l vis).1 = true ↔ ∃ t ∈ l, (containsAnyRec H n t vis).1 = true
  | [] => by simp [anyField]
  | t :: l => by
    rw [anyField]
    split
    · rename_i h; simp [h]
    · rename_i h
      rw [rec_restores, any_iff H n vis l]
      simp [h]

theorem sound (H : Cells) (n : Nat) (t : CTy) (vis : List Nat) : (containsAnyRec H n t vis).1 = true → Part H t := by
  match n, t with
  | _, .any => intro _; exact .any
  | _, .other => simp [containsAnyRec]
  | n, .array t => rw [containsAnyRec]; exact fun h => .array (sound H n t vis h)
  | n, .nullable t => rw [containsAnyRec]; exact fun h => .nullable (sound H n t vis h)
  | 0, .object _ => simp [containsAnyRec]
  | n + 1, .object a =>
    rw [containsAnyRec]
    split
    · simp
    · dsimp only
      rw [any_iff]
      rintro ⟨v, hv, h⟩
      exact .field hv (sound H n v _ h)
termination_by (n, sizeOf t)

theorem field_lt {H : Cells} {a : Nat} {t : CTy} (h : t ∈ H.fields a) : a < H.length := by
  rcases Nat.lt_or_ge a H.length with h' | h'
  · exact h'
  · simp [Cells.fields, List.getD, List.getElem?_eq_none h'] at h

theorem complete (H : Cells) (n : Nat) (t : CTy) (vis : List Nat) (hn : vis.Nodup) (hr : ∀ a ∈ vis, a < H.length)
    (hf : H.length < vis.length + n) : PartOff H vis t → (containsAnyRec H n t vis).1 = true := by
  intro h
  match n, t, h with
  | _, .any, _ => simp [containsAnyRec]
  | n, .array t, .array h => rw [containsAnyRec]; exact complete H n t vis hn hr hf h
  | n, .nullable t, .nullable h => rw [containsAnyRec]; exact complete H n t vis hn hr hf h
  | 0, .object a, _ =>
    exfalso
    have := (List.subperm_of_subset (l₂ := List.range H.length) hn (fun a ha => List.mem_range.2 (hr a ha))).length_le
    simp at this
    omega
  | n + 1, .object a, .field ha hm h =>
    rw [containsAnyRec, if_neg ha]
    dsimp only
    rw [any_iff]
    have ⟨v, hv, hv'⟩ : ∃ v ∈ H.fields a, PartOff H (a :: vis) v := by
      rcases h.cut a with h | h
      · exact ⟨_, hm, h⟩
      · exact h
    refine ⟨v, hv, complete H n v (a :: vis) (List.nodup_cons.2 ⟨ha, hn⟩) ?_ (by simp; omega) hv'⟩
    intro b hb
    rcases List.mem_cons.1 hb with rfl | hb
    · exact field_lt hm
    · exact hr b hb
termination_by (n, sizeOf t)

/-- **C85.** The search says yes exactly when some part of the type is `any`, whatever the cells
contain – also themselves. -/
theorem C85_contains (H : Cells) (t : CTy) : typeContainsAny H t = true ↔ Part H t :=
  ⟨sound H _ t [], fun h => complete H _ t [] (by simp) (by simp) (by simp) h.off⟩

/-- the set of cells is afterwards what it was, so one field does not hide cells from the next -/
theorem C85_restores (H : Cells) (n : Nat) (t : CTy) (vis : List Nat) : (containsAnyRec H n t vis).2 = vis :=
  rec_restores H n t vis

/-- **C85.** The number of cells bounds how deep objects are entered: any larger bound gives the
same answer, so the search of the code, which has none, ends with this answer. -/
theorem C85_ends (H : Cells) (t : CTy) (n : Nat) (hn : H.length < n) :
    (containsAnyRec H n t []).1 = typeContainsAny H t := by
  have h : (containsAnyRec H n t []).1 = true ↔ Part H t :=
    ⟨sound H _ t [], fun h => complete H _ t [] (by simp) (by simp) (by simpa using hn) h.off⟩
  rw [Bool.eq_iff_iff, h, C85_contains]

/-- two cells that contain each other; the second has a list of `any` behind the reference back -/
def knot : Cells := [[.other, .nullable (.object 1)], [.object 0, .array .any]]

example : typeContainsAny knot (.array (.object 0)) = true :=
  (C85_contains _ _).2 (.array (.field (t := .nullable (.object 1)) (by simp [Cells.fields, knot])
    (.nullable (.field (t := .array .any) (by simp [Cells.fields, knot]) (.array .any)))))

/-- a cell that contains only itself has no `any` -/
example : typeContainsAny [[.object 0, .other]] (.object 0) = false := by
  rw [Bool.eq_false_iff, Ne, C85_contains]
  suffices ∀ t, Part [[.object 0, .other]] t → t ≠ .object 0 ∧ t ≠ .other from fun h => (this _ h).1 rfl
  intro t h
  induction h with
  | any => simp
  | array => simp
  | nullable => simp
  | @field a t hm _ ih =>
    match a with
    | 0 => simp [Cells.fields] at hm; rcases hm with h | h <;> simp [h] at ih
    | a + 1 => simp [Cells.fields] at hm

/-! ## Reports -/

/-- specification: an error that is already known explains the `any` -/
def Explained (cx : Cx) (expr : Option String) : Prop :=
  (∃ d ∈ cx.diags, d.error = true ∧ (expr = none ∨ d.expr = expr)) ∨
    ∃ r ∈ cx.reads, ∃ p ∈ cx.poisoned, SegPrefix p r ∨ SegPrefix r p

theorem consequence_iff (cx : Cx) (expr : Option String) : anyIsConsequence cx expr = true ↔ Explained cx expr := by
  unfold anyIsConsequence Explained
  simp only [← C37_extends]
  cases hp : cx.poisoned <;> cases expr <;> simp

/-- **C85.** A write adds exactly one error, of its expression, when its type has `any` in it and
nothing explains that; else no diagnostic. -/
theorem C85_report (H : Cells) (cx : Cx) (path : String) (ty : CTy) (expr : Option String) :
    (Part H ty ∧ ¬ Explained cx expr → (recordWrite H cx path ty expr).diags = cx.diags ++ [⟨true, expr⟩]) ∧
    (¬ (Part H ty ∧ ¬ Explained cx expr) → (recordWrite H cx path ty expr).diags = cx.diags) := by
  rw [← C85_contains, ← consequence_iff]
  unfold recordWrite reportAny
  cases typeContainsAny H ty <;> cases anyIsConsequence cx expr <;> simp

/-- the paths that are poisoned are those written with `any`, reported or not; reads are kept -/
theorem C85_poisoned (H : Cells) (cx : Cx) (path : String) (ty : CTy) (expr : Option String) (p : String) :
    (p ∈ (recordWrite H cx path ty expr).poisoned ↔ p ∈ cx.poisoned ∨ (p = path ∧ Part H ty)) ∧
    (recordWrite H cx path ty expr).reads = cx.reads := by
  rw [← C85_contains]
  unfold recordWrite reportAny
  cases typeContainsAny H ty <;> cases anyIsConsequence cx expr <;> simp [or_comm]

/-- an error among the diagnostics, or nothing poisoned beyond what was -/
theorem step_keeps (H : Cells) (E : Prop) (cx : Cx) (ev : Ev)
    (h : cx.poisoned ≠ [] → E ∨ ∃ d ∈ cx.diags, d.error = true) :
    (step H cx ev).poisoned ≠ [] → E ∨ ∃ d ∈ (step H cx ev).diags, d.error = true := by
  cases ev with
  | read p => exact h
  | diag d => exact fun hp => (h hp).imp id fun ⟨d, hd, he⟩ => ⟨d, by simp [step, hd], he⟩
  | write path ty expr =>
    intro hp
    show E ∨ ∃ d ∈ (recordWrite H cx path ty expr).diags, d.error = true
    have ⟨h1, h2⟩ := C85_report H cx path ty expr
    by_cases hc : Part H ty ∧ ¬ Explained cx expr
    · exact .inr ⟨⟨true, expr⟩, by simp [h1 hc], rfl⟩
    · rw [h2 hc]
      by_cases ht : Part H ty
      · have : Explained cx expr := Classical.byContradiction fun hn => hc ⟨ht, hn⟩
        rcases this with ⟨d, hd, he, _⟩ | ⟨_, _, p, hp', _⟩
        · exact .inr ⟨d, hd, he⟩
        · exact h (List.ne_nil_of_mem hp')
      · obtain ⟨p, hp'⟩ := List.exists_mem_of_ne_nil _ hp
        rcases (C85_poisoned H cx path ty expr p).1.1 hp' with h' | h'
        · exact h (List.ne_nil_of_mem h')
        · exact absurd h'.2 ht

theorem block_keeps (H : Cells) (E : Prop) : ∀ (evs : List Ev) (cx : Cx),
    (cx.poisoned ≠ [] → E ∨ ∃ d ∈ cx.diags, d.error = true) →
    (evs.foldl (step H) cx).poisoned ≠ [] → E ∨ ∃ d ∈ (evs.foldl (step H) cx).diags, d.error = true
  | [], _, h => h
  | ev :: evs, cx, h => block_keeps H E evs (step H cx ev) (step_keeps H E cx ev h)

theorem step_grows (H : Cells) (cx : Cx) (ev : Ev) (p : String) (h : p ∈ cx.poisoned) : p ∈ (step H cx ev).poisoned := by
  cases ev with
  | read => exact h
  | diag => exact h
  | write path ty expr => exact (C85_poisoned H cx path ty expr p).1.2 (.inl h)

theorem block_grows (H : Cells) (p : String) : ∀ (evs : List Ev) (cx : Cx), p ∈ cx.poisoned →
    p ∈ (evs.foldl (step H) cx).poisoned
  | [], _, h => h
  | ev :: evs, cx, h => block_grows H p evs _ (step_grows H cx ev p h)

theorem block_poisons (H : Cells) {path : String} {ty : CTy} {expr : Option String} (ht : Part H ty) :
    ∀ (evs : List Ev) (cx : Cx), Ev.write path ty expr ∈ evs → path ∈ (evs.foldl (step H) cx).poisoned
  | ev :: evs, cx, h => by
    rcases List.mem_cons.1 h with rfl | h
    · exact block_grows H path evs _ ((C85_poisoned H cx path ty expr path).1.2 (.inr ⟨rfl, ht⟩))
    · exact block_poisons H ht evs _ h

theorem told_aux (H : Cells) {path : String} {ty : CTy} {expr : Option String} (ht : Part H ty) (E : Prop) :
    ∀ (bs : List (List Ev)) (poisoned : List String), (poisoned ≠ [] → E) → (∃ b ∈ bs, Ev.write path ty expr ∈ b) →
    E ∨ ∃ ds ∈ enriched H bs poisoned, ∃ d ∈ ds, d.error = true
  | b :: bs, poisoned, hE, ⟨b', hb, hw⟩ => by
    have hk := block_keeps H E b { poisoned := poisoned } (fun h => .inl (hE h))
    rw [enriched]
    dsimp only [analyzeBlock]
    rcases List.mem_cons.1 hb with rfl | hb
    · rcases hk (List.ne_nil_of_mem (block_poisons H ht b' _ hw)) with h | h
      · exact .inl h
      · exact .inr ⟨_, List.mem_cons_self, h⟩
    · have := told_aux H ht (E ∨ ∃ d ∈ (b.foldl (step H) { poisoned := poisoned }).diags, d.error = true) bs _ hk ⟨b', hb, hw⟩
      rcases this with (h | h) | ⟨ds, hds, h⟩
      · exact .inl h
      · exact .inr ⟨_, List.mem_cons_self, h⟩
      · exact .inr ⟨ds, List.mem_cons_of_mem _ hds, h⟩

/-- **C85.** No `any` goes through in silence: when some block writes a type with `any` in it, the
analysis gives an error. -/
theorem C85_told (H : Cells) (bs : List (List Ev)) {path : String} {ty : CTy} {expr : Option String} (ht : Part H ty)
    (hw : ∃ b ∈ bs, Ev.write path ty expr ∈ b) : ∃ ds ∈ enriched H bs [], ∃ d ∈ ds, d.error = true :=
  (told_aux H ht False bs [] (by simp) hw).resolve_left id

example : ∃ ds ∈ enriched knot [[.read "a"], [.read "x.y", .write "x" (.object 1) (some "e1")]] [], ∃ d ∈ ds, d.error = true :=
  C85_told knot _ (path := "x") (ty := .object 1) (expr := some "e1")
    (.field (t := .array .any) (by simp [Cells.fields, knot]) (.array .any)) ⟨[.read "x.y", .write "x" (.object 1) (some "e1")], by simp, by simp⟩

/-- **Negative.** What explains an `any` is looked for among all reads of the block so far, not among
those of the expression: a block that has read a poisoned path in one expression may write an
unrelated `any` in another without a report. -/
theorem C85_other_expression (H : Cells) (ds : List Dg) :
    (([.read "bad.x", .write "other" .any (some "e2")] : List Ev).foldl (step H) { poisoned := ["bad"], diags := ds }).diags = ds := by
  show (recordWrite H _ "other" .any (some "e2")).diags = ds
  refine (C85_report H _ "other" .any (some "e2")).2 fun h => h.2 (.inr ⟨"bad.x", ?_, "bad", ?_, .inl ((C37_extends _ _).1 ?_)⟩)
  · simp [step]
  · simp [step]
  · decide

end Zen.AnyC.C85
