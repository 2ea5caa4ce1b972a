import Verif.Policy.ParseModel
/-
C81: a data model keeps of its properties exactly the first one of every proper name, in order, and an enumeration the first of every
value that is not blank; without diagnostics nothing but blank values is lost, and a model that was written from what was kept is kept
as it is. Dictionaries alike.
-/
namespace Zen.Doc.C81
open Zen Zen.Doc

/-- a name that can be used in a path: not empty, not starting with a digit, without dots, brackets and white space -/
def Ident (s : Str) : Prop :=
  s ≠ [] ∧ (∀ c, s.head? = some c → c.isDigit = false) ∧ ∀ c ∈ s, c ≠ '.' ∧ c ≠ '[' ∧ c ≠ ']' ∧ isWs c = false

theorem scan_none (s : Str) : scanName s = none ↔ ∀ c ∈ s, c ≠ '.' ∧ c ≠ '[' ∧ c ≠ ']' ∧ isWs c = false := by
  induction s with
  | nil => simp [scanName]
  | cons c r ih =>
    simp only [scanName, List.forall_mem_cons, ← ih]
    split
    · simp [*]
    · split
      · rename_i h1 h2
        constructor
        · simp
        · rintro ⟨⟨-, h3, h4, -⟩, -⟩
          rcases h2 with h2 | h2
          · exact absurd h2 h3
          · exact absurd h2 h4
      · rename_i h1 h2
        simp only [not_or] at h2
        split
        · rename_i h3
          simp [h3]
        · rename_i h3
          simp [h1, h2.1, h2.2, h3]

/-- **Which names are proper.** -/
theorem C81_identifier (s : Str) : validateIdentifier s = none ↔ Ident s := by
  cases s with
  | nil => simp [validateIdentifier, Ident]
  | cons c r =>
    simp only [validateIdentifier, Ident]
    split
    · rename_i h
      simp [h]
    · rename_i h
      rw [scan_none]
      simp [h]

/-! ### Trimming -/

theorem dropWhile_head {p : Char → Bool} {s : Str} {c : Char} (h : (s.dropWhile p).head? = some c) : p c = false := by
  induction s with
  | nil => simp at h
  | cons a r ih =>
    rw [List.dropWhile_cons] at h
    split at h
    · exact ih h
    · rename_i hp
      simp only [List.head?_cons, Option.some.injEq] at h
      subst h
      simpa using hp

theorem dropWhile_eq {p : Char → Bool} {s : Str} (h : ∀ c, s.head? = some c → p c = false) : s.dropWhile p = s := by
  cases s with
  | nil => rfl
  | cons c r => rw [List.dropWhile_cons, h c rfl]; simp

theorem trimEnd_last {s : Str} {c : Char} (h : (trimEndC s).getLast? = some c) : isWs c = false := by
  rw [trimEndC, List.getLast?_reverse] at h
  exact dropWhile_head h

theorem trimEnd_prefix (s : Str) : trimEndC s <+: s := by
  rw [trimEndC]
  have := List.dropWhile_suffix (l := s.reverse) (p := isWs)
  have := List.reverse_prefix.2 this
  simpa using this

theorem trim_head {s : Str} {c : Char} (h : (trimC s).head? = some c) : isWs c = false := by
  obtain ⟨t, ht⟩ := trimEnd_prefix (s.dropWhile isWs)
  rw [trimC] at h
  refine dropWhile_head (s := s) (p := isWs) ?_
  rw [← ht, List.head?_append, h]
  rfl

theorem trim_last {s : Str} {c : Char} (h : (trimC s).getLast? = some c) : isWs c = false := trimEnd_last h

theorem trim_fix {s : Str} (h1 : ∀ c, s.head? = some c → isWs c = false) (h2 : ∀ c, s.getLast? = some c → isWs c = false) :
    trimC s = s := by
  rw [trimC, dropWhile_eq h1, trimEndC, dropWhile_eq, List.reverse_reverse]
  intro c hc
  rw [List.head?_reverse] at hc
  exact h2 c hc

theorem trim_trim (s : Str) : trimC (trimC s) = trimC s := trim_fix (fun _ => trim_head) (fun _ => trim_last)

theorem ident_trim {s : Str} (h : Ident s) : trimC s = s :=
  trim_fix (fun c hc => (h.2.2 c (List.mem_of_mem_head? hc)).2.2.2) (fun c hc => (h.2.2 c (List.mem_of_getLast? hc)).2.2.2)

/-! ### First ones -/

/-- of every key the first element that has it, except for the keys in `seen` -/
def firsts {α : Type} (key : α → Option Str) : List Str → List α → List α
  | _, [] => []
  | seen, a :: r =>
    match key a with
    | none => firsts key seen r
    | some k => if k ∈ seen then firsts key seen r else a :: firsts key (k :: seen) r

/-- `a` is the first in `l` with its key -/
def First {α : Type} (key : α → Option Str) (l : List α) (a : α) : Prop :=
  ∃ pre post, l = pre ++ a :: post ∧ ∃ k, key a = some k ∧ ∀ b ∈ pre, key b ≠ some k

theorem firsts_sublist {α : Type} (key : α → Option Str) (seen : List Str) (l : List α) : (firsts key seen l).Sublist l := by
  induction l generalizing seen with
  | nil => exact List.Sublist.slnil
  | cons a r ih =>
    simp only [firsts]
    split
    · exact (ih _).cons _
    · split
      · exact (ih _).cons _
      · exact (ih _).cons_cons _

theorem mem_firsts {α : Type} (key : α → Option Str) (seen : List Str) (l : List α) (a : α) :
    a ∈ firsts key seen l ↔ ∃ pre post, l = pre ++ a :: post ∧ ∃ k, key a = some k ∧ k ∉ seen ∧ ∀ b ∈ pre, key b ≠ some k := by
  induction l generalizing seen with
  | nil => simp [firsts]
  | cons x r ih =>
    simp only [firsts]
    split
    · rename_i hx
      rw [ih]
      constructor
      · rintro ⟨pre, post, rfl, k, h1, h2, h3⟩
        exact ⟨x :: pre, post, rfl, k, h1, h2, by simpa [hx] using h3⟩
      · rintro ⟨pre, post, h, k, h1, h2, h3⟩
        cases pre with
        | nil =>
          simp only [List.nil_append, List.cons.injEq] at h
          rw [h.1] at hx
          simp [hx] at h1
        | cons p pre =>
          simp only [List.cons_append, List.cons.injEq] at h
          exact ⟨pre, post, h.2, k, h1, h2, fun b hb => h3 b (by simp [hb])⟩
    · rename_i k hx
      split
      · rename_i hs
        rw [ih]
        constructor
        · rintro ⟨pre, post, rfl, k', h1, h2, h3⟩
          refine ⟨x :: pre, post, rfl, k', h1, h2, ?_⟩
          intro b hb
          rcases List.mem_cons.1 hb with rfl | hb
          · rw [hx]
            rintro ⟨rfl⟩
            exact h2 hs
          · exact h3 b hb
        · rintro ⟨pre, post, h, k', h1, h2, h3⟩
          cases pre with
          | nil =>
            simp only [List.nil_append, List.cons.injEq] at h
            rw [h.1, h1] at hx
            simp only [Option.some.injEq] at hx
            exact absurd hs (hx ▸ h2)
          | cons p pre =>
            simp only [List.cons_append, List.cons.injEq] at h
            exact ⟨pre, post, h.2, k', h1, h2, fun b hb => h3 b (by simp [hb])⟩
      · rename_i hs
        rw [List.mem_cons, ih]
        constructor
        · rintro (rfl | ⟨pre, post, rfl, k', h1, h2, h3⟩)
          · exact ⟨[], r, rfl, k, hx, hs, by simp⟩
          · simp only [List.mem_cons, not_or] at h2
            refine ⟨x :: pre, post, rfl, k', h1, h2.2, ?_⟩
            intro b hb
            rcases List.mem_cons.1 hb with rfl | hb
            · rw [hx]
              rintro ⟨rfl⟩
              exact h2.1 rfl
            · exact h3 b hb
        · rintro ⟨pre, post, h, k', h1, h2, h3⟩
          cases pre with
          | nil =>
            simp only [List.nil_append, List.cons.injEq] at h
            exact .inl h.1.symm
          | cons p pre =>
            simp only [List.cons_append, List.cons.injEq] at h
            refine .inr ⟨pre, post, h.2, k', h1, ?_, fun b hb => h3 b (by simp [hb])⟩
            simp only [List.mem_cons, not_or]
            refine ⟨?_, h2⟩
            rintro rfl
            exact h3 p (by simp) (h.1 ▸ hx)

theorem mem_firsts_nil {α : Type} (key : α → Option Str) (l : List α) (a : α) : a ∈ firsts key [] l ↔ First key l a := by
  simp [mem_firsts, First]

theorem firsts_keys {α : Type} (key : α → Option Str) (seen : List Str) (l : List α) :
    ((firsts key seen l).filterMap key).Nodup ∧ (∀ k ∈ (firsts key seen l).filterMap key, k ∉ seen) ∧
      ∀ a ∈ firsts key seen l, (key a).isSome = true := by
  induction l generalizing seen with
  | nil => simp [firsts]
  | cons x r ih =>
    simp only [firsts]
    split
    · exact ih seen
    · rename_i k hx
      split
      · exact ih seen
      · rename_i hs
        obtain ⟨h1, h2, h3⟩ := ih (k :: seen)
        refine ⟨?_, ?_, ?_⟩
        · rw [List.filterMap_cons, hx]
          exact List.nodup_cons.2 ⟨fun hm => h2 k hm (by simp), h1⟩
        · rw [List.filterMap_cons, hx]
          intro k' hk'
          rcases List.mem_cons.1 hk' with rfl | hk'
          · exact hs
          · exact fun hm => h2 k' hk' (by simp [hm])
        · intro a ha
          rcases List.mem_cons.1 ha with rfl | ha
          · simp [hx]
          · exact h3 a ha

/-- nothing is left out exactly when all have keys, which are different and not in `seen` -/
theorem firsts_all {α : Type} (key : α → Option Str) (seen : List Str) (l : List α) :
    firsts key seen l = l ↔ (∀ a ∈ l, (key a).isSome = true) ∧ (l.filterMap key).Nodup ∧ ∀ k ∈ l.filterMap key, k ∉ seen := by
  constructor
  · intro h
    have := firsts_keys key seen l
    rw [h] at this
    exact ⟨this.2.2, this.1, this.2.1⟩
  · induction l generalizing seen with
    | nil => intro _; rfl
    | cons x r ih =>
      rintro ⟨h1, h2, h3⟩
      obtain ⟨k, hx⟩ := Option.isSome_iff_exists.1 (h1 x (by simp))
      rw [List.filterMap_cons, hx] at h2 h3
      simp only [firsts, hx]
      rw [if_neg (h3 k (by simp)), ih (k :: seen)]
      refine ⟨fun a ha => h1 a (by simp [ha]), (List.nodup_cons.1 h2).2, ?_⟩
      intro k' hk' hm
      rcases List.mem_cons.1 hm with rfl | hm
      · exact (List.nodup_cons.1 h2).1 hk'
      · exact h3 k' (by simp [hk']) hm

theorem firsts_congr {α : Type} (key : α → Option Str) {s s' : List Str} (h : ∀ k, k ∈ s ↔ k ∈ s') (l : List α) :
    firsts key s l = firsts key s' l := by
  induction l generalizing s s' with
  | nil => rfl
  | cons x r ih =>
    simp only [firsts]
    split
    · exact ih h
    · rename_i k _
      simp only [h k]
      split
      · exact ih h
      · rw [ih (s := k :: s) (s' := k :: s')]
        intro k'
        simp [h k']

theorem fm_congr {α β : Type} {f g : α → Option β} {l : List α} (h : ∀ x ∈ l, f x = g x) : l.filterMap f = l.filterMap g := by
  induction l with
  | nil => rfl
  | cons x r ih => rw [List.filterMap_cons, List.filterMap_cons, h x (by simp), ih fun y hy => h y (by simp [hy])]

/-! ### Enumerations -/

/-- the value that is written, `none` for a blank one -/
def written (v : Str) : Option Str := if trimC v = [] then none else some (trimC v)

theorem written_some {v k : Str} : written v = some k ↔ trimC v = k ∧ k ≠ [] := by
  unfold written
  split
  · rename_i h
    constructor
    · simp
    · rintro ⟨rfl, h2⟩
      exact absurd h h2
  · rename_i h
    constructor
    · rintro ⟨rfl⟩
      exact ⟨rfl, h⟩
    · rintro ⟨rfl, -⟩
      rfl

theorem values_fold (vs : List Str) (t ds : List Str) :
    (vs.foldl valueStep (t, ds)).1 = t ++ (firsts written t vs).map trimC ∧
      ((vs.foldl valueStep (t, ds)).2 = [] ↔ ds = [] ∧ (vs.filterMap written).Nodup ∧ ∀ k ∈ vs.filterMap written, k ∉ t) := by
  induction vs generalizing t ds with
  | nil => simp [firsts]
  | cons v r ih =>
    rw [List.foldl_cons]
    by_cases hv : trimC v = []
    · have hw : written v = none := by simp [written, hv]
      have hs : valueStep (t, ds) v = (t, ds) := by simp [valueStep, hv]
      rw [hs]
      simpa [firsts, hw] using ih t ds
    · have hw : written v = some (trimC v) := by simp [written, hv]
      by_cases ht : trimC v ∈ t
      · have hs : ∃ ds', valueStep (t, ds) v = (t, ds') ∧ ds' ≠ [] := by
          have : (t.any fun prev => prev == trimC v) = true := by simpa using ht
          simp only [valueStep, hv, if_false, this, if_true]
          split
          · rename_i h
            exact ⟨ds, rfl, by rintro rfl; simp at h⟩
          · exact ⟨_, rfl, by simp⟩
        obtain ⟨ds', hs, hne⟩ := hs
        rw [hs]
        refine ⟨by simpa [firsts, hw, ht] using (ih t ds').1, ?_⟩
        rw [(ih t ds').2]
        simp only [hne, false_and, false_iff, not_and, List.filterMap_cons, hw]
        intro _ _ h
        exact h (trimC v) (by simp) ht
      · have hs : valueStep (t, ds) v = (t ++ [trimC v], ds) := by
          have : ¬ (t.any fun prev => prev == trimC v) = true := by simpa using ht
          simp only [valueStep, hv, if_false, this]
          rfl
        rw [hs, (ih _ _).1, (ih _ _).2]
        refine ⟨?_, ?_⟩
        · simp only [firsts, hw, ht, if_false, List.map_cons, List.append_assoc, List.singleton_append]
          rw [firsts_congr written (s := t ++ [trimC v]) (s' := trimC v :: t) (by simp [or_comm])]
        · simp only [List.filterMap_cons, hw, List.nodup_cons, List.mem_append, List.mem_cons, List.not_mem_nil,
            or_false]
          constructor
          · rintro ⟨h1, h2, h3⟩
            refine ⟨h1, ⟨fun hm => h3 _ hm (.inr rfl), h2⟩, ?_⟩
            rintro k (rfl | hk) hm
            · exact ht hm
            · exact h3 k hk (.inl hm)
          · rintro ⟨h1, ⟨h2, h2'⟩, h3⟩
            refine ⟨h1, h2', ?_⟩
            rintro k hk (hm | rfl)
            · exact h3 k (.inr hk) hm
            · exact h2 hk

/-- **The values of an enumeration** are the first ones of every trimmed value that is not empty, in order. -/
theorem C81_values (vs : List Str) :
    ∃ kept : List Str, kept.Sublist vs ∧ (values (some vs)).1 = kept.map trimC ∧ (values (some vs)).1.Nodup ∧
      (∀ k, k ∈ (values (some vs)).1 ↔ k ≠ [] ∧ ∃ v ∈ vs, trimC v = k) ∧
      ∀ v, v ∈ kept ↔ ∃ pre post, vs = pre ++ v :: post ∧ trimC v ≠ [] ∧ ∀ u ∈ pre, trimC u ≠ trimC v := by
  have h := (values_fold vs [] []).1
  rw [List.nil_append] at h
  have hv : (values (some vs)).1 = (firsts written [] vs).map trimC := h
  have hf : ∀ v, v ∈ firsts written [] vs ↔ ∃ pre post, vs = pre ++ v :: post ∧ trimC v ≠ [] ∧ ∀ u ∈ pre, trimC u ≠ trimC v := by
    intro v
    rw [mem_firsts_nil]
    constructor
    · rintro ⟨pre, post, h1, k, h2, h3⟩
      obtain ⟨rfl, h4⟩ := written_some.1 h2
      exact ⟨pre, post, h1, h4, fun u hu he => h3 u hu (written_some.2 ⟨he, h4⟩)⟩
    · rintro ⟨pre, post, h1, h4, h3⟩
      exact ⟨pre, post, h1, trimC v, written_some.2 ⟨rfl, h4⟩, fun u hu he => h3 u hu (written_some.1 he).1⟩
  have hk := firsts_keys written [] vs
  have hmap : (firsts written [] vs).filterMap written = (firsts written [] vs).map trimC := by
    rw [← List.filterMap_eq_map]
    apply fm_congr
    intro v hm
    have := hk.2.2 v hm
    obtain ⟨k, hk⟩ := Option.isSome_iff_exists.1 this
    rw [hk, ← (written_some.1 hk).1]
    rfl
  refine ⟨firsts written [] vs, firsts_sublist _ _ _, hv, ?_, ?_, hf⟩
  · rw [hv, ← hmap]
    exact hk.1
  · intro k
    rw [hv]
    constructor
    · intro hm
      obtain ⟨v, h1, rfl⟩ := List.mem_map.1 hm
      obtain ⟨pre, post, rfl, h2, -⟩ := (hf v).1 h1
      exact ⟨h2, v, by simp, rfl⟩
    · rintro ⟨hne, v, hm, rfl⟩
      -- the first with this value
      have : ∀ l : List Str, v ∈ l → ∃ pre u post, l = pre ++ u :: post ∧ trimC u = trimC v ∧ ∀ x ∈ pre, trimC x ≠ trimC v := by
        intro l hl
        induction l with
        | nil => simp at hl
        | cons a r ih =>
          by_cases ha : trimC a = trimC v
          · exact ⟨[], a, r, rfl, ha, by simp⟩
          · rcases List.mem_cons.1 hl with rfl | hl
            · exact absurd rfl ha
            · obtain ⟨pre, u, post, rfl, h1, h2⟩ := ih hl
              exact ⟨a :: pre, u, post, rfl, h1, by simpa [ha] using h2⟩
      obtain ⟨pre, u, post, h1, h2, h3⟩ := this vs hm
      refine List.mem_map.2 ⟨u, (hf u).2 ⟨pre, post, h1, by rwa [h2], ?_⟩, h2⟩
      intro x hx
      rw [h2]
      exact h3 x hx

/-- an enumeration with a value that is not blank -/
def HasValue (vs : List Str) : Prop := ∃ v ∈ vs, trimC v ≠ []

/-- **What a property holds.** An enumeration without a value that is not blank is a text: it lets every text pass. -/
theorem C81_kind (vs : List Str) :
    (HasValue vs → (kindOf (.string (some vs))).1 = .enum (values (some vs)).1) ∧
    (¬ HasValue vs → (kindOf (.string (some vs))).1 = .string) := by
  obtain ⟨_, -, -, -, hm, -⟩ := C81_values vs
  constructor
  · rintro ⟨v, hv, hne⟩
    have : (values (some vs)).1 ≠ [] := by
      intro h
      have := (hm (trimC v)).2 ⟨hne, v, hv, rfl⟩
      rw [h] at this
      simp at this
    simp [kindOf, this]
  · intro h
    have : (values (some vs)).1 = [] := by
      apply List.eq_nil_iff_forall_not_mem.2
      intro k hk
      obtain ⟨h1, v, h2, rfl⟩ := (hm k).1 hk
      exact h ⟨v, h2, h1⟩
    simp [kindOf, this]

/-- **Which values are reported**: every value that is not blank and is written twice or more, once each. -/
theorem C81_repeated (vs : List Str) :
    (values (some vs)).2.Nodup ∧ ∀ k, k ∈ (values (some vs)).2 ↔
      k ≠ [] ∧ ∃ pre v post, vs = pre ++ v :: post ∧ trimC v = k ∧ ∃ u ∈ pre, trimC u = k := by
  have key : ∀ (vs t ds : List Str), ds.Nodup → (vs.foldl valueStep (t, ds)).2.Nodup ∧
      ∀ k, k ∈ (vs.foldl valueStep (t, ds)).2 ↔ k ∈ ds ∨
        (k ≠ [] ∧ ∃ pre v post, vs = pre ++ v :: post ∧ trimC v = k ∧ (k ∈ t ∨ ∃ u ∈ pre, trimC u = k)) := by
    intro vs
    induction vs with
    | nil => intro t ds h; simp [h]
    | cons v r ih =>
      intro t ds h
      rw [List.foldl_cons]
      -- what the rest reports, when `v` is put before it
      have shift : ∀ (t' : List Str) (k : Str), (∀ x, x ∈ t' ↔ x ∈ t ∨ (x = trimC v ∧ x ≠ [])) →
          ((k ≠ [] ∧ ∃ pre w post, v :: r = pre ++ w :: post ∧ trimC w = k ∧ (k ∈ t ∨ ∃ u ∈ pre, trimC u = k)) ↔
            (k ≠ [] ∧ k = trimC v ∧ k ∈ t) ∨
            (k ≠ [] ∧ ∃ pre w post, r = pre ++ w :: post ∧ trimC w = k ∧ (k ∈ t' ∨ ∃ u ∈ pre, trimC u = k))) := by
        intro t' k ht'
        constructor
        · rintro ⟨hk, pre, w, post, h1, h2, h3⟩
          cases pre with
          | nil =>
            simp only [List.nil_append, List.cons.injEq] at h1
            rcases h3 with h3 | ⟨u, hu, -⟩
            · exact .inl ⟨hk, by rw [← h2, h1.1], h3⟩
            · simp at hu
          | cons p pre =>
            simp only [List.cons_append, List.cons.injEq] at h1
            refine .inr ⟨hk, pre, w, post, h1.2, h2, ?_⟩
            rcases h3 with h3 | ⟨u, hu, h3⟩
            · exact .inl ((ht' k).2 (.inl h3))
            · rcases List.mem_cons.1 hu with rfl | hu
              · exact .inl ((ht' k).2 (.inr ⟨by rw [h1.1, h3], hk⟩))
              · exact .inr ⟨u, hu, h3⟩
        · rintro (⟨hk, h2, h3⟩ | ⟨hk, pre, w, post, rfl, h2, h3⟩)
          · exact ⟨hk, [], v, r, rfl, h2.symm, .inl h3⟩
          · refine ⟨hk, v :: pre, w, post, rfl, h2, ?_⟩
            rcases h3 with h3 | ⟨u, hu, h3⟩
            · rcases (ht' k).1 h3 with h3 | ⟨h3, -⟩
              · exact .inl h3
              · exact .inr ⟨v, by simp, h3.symm⟩
            · exact .inr ⟨u, by simp [hu], h3⟩
      by_cases hv : trimC v = []
      · have hs : valueStep (t, ds) v = (t, ds) := by simp [valueStep, hv]
        rw [hs]
        refine ⟨(ih t ds h).1, fun k => ?_⟩
        rw [(ih t ds h).2 k, shift t k (fun x => ?_)]
        · constructor
          · rintro (h | h)
            · exact .inl h
            · exact .inr (.inr h)
          · rintro (h | ⟨h1, h2, -⟩ | h)
            · exact .inl h
            · exact absurd (h2.trans hv) h1
            · exact .inr h
        · constructor
          · exact .inl
          · rintro (h | ⟨h1, h2⟩)
            · exact h
            · exact absurd (h1.trans hv) h2
      · by_cases ht : trimC v ∈ t
        · have hany : (t.any fun prev => prev == trimC v) = true := by simpa using ht
          have hs : ∃ ds', valueStep (t, ds) v = (t, ds') ∧ ds'.Nodup ∧ ∀ k, k ∈ ds' ↔ k ∈ ds ∨ k = trimC v := by
            simp only [valueStep, hv, if_false, hany, if_true]
            split
            · rename_i hd
              have hd : trimC v ∈ ds := by simpa using hd
              refine ⟨ds, rfl, h, fun k => ⟨.inl, ?_⟩⟩
              rintro (h | rfl)
              · exact h
              · exact hd
            · rename_i hd
              have hd : trimC v ∉ ds := by simpa using hd
              refine ⟨_, rfl, ?_, by simp⟩
              refine List.nodup_append.2 ⟨h, by simp, ?_⟩
              intro a ha b hb hab
              rw [List.mem_singleton.1 hb] at hab
              exact hd (hab ▸ ha)
          obtain ⟨ds', hs, hn, hm⟩ := hs
          rw [hs]
          refine ⟨(ih t ds' hn).1, fun k => ?_⟩
          rw [(ih t ds' hn).2 k, hm, shift t k (fun x => ?_)]
          · constructor
            · rintro ((h | rfl) | h)
              · exact .inl h
              · exact .inr (.inl ⟨hv, rfl, ht⟩)
              · exact .inr (.inr h)
            · rintro (h | ⟨-, rfl, -⟩ | h)
              · exact .inl (.inl h)
              · exact .inl (.inr rfl)
              · exact .inr h
          · constructor
            · exact .inl
            · rintro (h | ⟨rfl, -⟩)
              · exact h
              · exact ht
        · have hs : valueStep (t, ds) v = (t ++ [trimC v], ds) := by
            have : ¬ (t.any fun prev => prev == trimC v) = true := by simpa using ht
            simp only [valueStep, hv, if_false, this]
            rfl
          rw [hs]
          refine ⟨(ih _ ds h).1, fun k => ?_⟩
          rw [(ih _ ds h).2 k, shift (t ++ [trimC v]) k (fun x => ?_)]
          · constructor
            · rintro (h | h)
              · exact .inl h
              · exact .inr (.inr h)
            · rintro (h | ⟨-, rfl, h⟩ | h)
              · exact .inl h
              · exact absurd h ht
              · exact .inr h
          · rw [List.mem_append, List.mem_singleton]
            constructor
            · rintro (h | rfl)
              · exact .inl h
              · exact .inr ⟨rfl, hv⟩
            · rintro (h | ⟨h, -⟩)
              · exact .inl h
              · exact .inr h
  have := key vs [] [] (by simp)
  refine ⟨this.1, fun k => ?_⟩
  have := this.2 k
  simpa [values] using this

/-! ### Properties -/

/-- the name of a property, if it is proper -/
def nameKey (d : PropDoc) : Option Str :=
  if validateIdentifier (trimC d.name) = none then some (trimC d.name) else none

theorem nameKey_some {d : PropDoc} {k : Str} : nameKey d = some k ↔ trimC d.name = k ∧ Ident k := by
  unfold nameKey
  split
  · rename_i h
    rw [C81_identifier] at h
    constructor
    · rintro ⟨rfl⟩
      exact ⟨rfl, h⟩
    · rintro ⟨rfl, -⟩
      rfl
  · rename_i h
    rw [C81_identifier] at h
    constructor
    · simp
    · rintro ⟨rfl, h2⟩
      exact absurd h2 h

/-- what is kept of a property -/
def conv (d : PropDoc) : Prop' := ⟨d.id, trimC d.name, (kindOf d.kind).1, d.array, d.optional⟩

/-- the diagnostics about properties that are lost -/
def Diag.lost : Diag → Bool
  | .propMissing _ | .propInvalid _ _ | .propTwice _ _ => true
  | _ => false

theorem step_cases (st : PSt) (d : PropDoc) :
    (nameKey d = none ∧ ∃ x, Diag.lost x = true ∧ (∀ i n, x ≠ .propTwice i n) ∧ propStep st d = { st with diags := st.diags ++ [x] }) ∨
    (∃ k i, nameKey d = some k ∧ st.seen.lookup k = some i ∧
      propStep st d = { st with diags := st.diags ++ [.propTwice i k] }) ∨
    (∃ k, nameKey d = some k ∧ st.seen.lookup k = none ∧
      propStep st d = ⟨(k, d.id) :: st.seen, st.props ++ [conv d], st.diags ++ (kindOf d.kind).2.map (.valueTwice d.id)⟩) := by
  by_cases h0 : trimC d.name = []
  · refine .inl ⟨?_, .propMissing d.id, rfl, by simp, by simp [propStep, h0]⟩
    simp [nameKey, h0, validateIdentifier]
  · cases hv : validateIdentifier (trimC d.name) with
    | some r => exact .inl ⟨by simp [nameKey, hv], .propInvalid d.id r, rfl, by simp, by simp [propStep, h0, hv]⟩
    | none =>
      have hk : nameKey d = some (trimC d.name) := by simp [nameKey, hv]
      cases hl : st.seen.lookup (trimC d.name) with
      | some i => exact .inr (.inl ⟨_, i, hk, hl, by simp [propStep, h0, hv, hl]⟩)
      | none => exact .inr (.inr ⟨_, hk, hl, by simp [propStep, h0, hv, hl, conv]⟩)

theorem lookup_none {l : List (Str × Str)} {k : Str} : l.lookup k = none ↔ k ∉ l.map Prod.fst := by
  induction l with
  | nil => simp
  | cons e r ih =>
    obtain ⟨a, b⟩ := e
    by_cases h : k = a
    · simp [h]
    · have : (k == a) = false := by simpa using h
      simp [List.lookup_cons, this, ih, h]

theorem lookup_mem {l : List (Str × Str)} {k i : Str} (h : l.lookup k = some i) : (k, i) ∈ l := by
  induction l with
  | nil => simp at h
  | cons e r ih =>
    obtain ⟨a, b⟩ := e
    by_cases hk : k = a
    · simp [hk] at h
      simp [hk, h]
    · have : (k == a) = false := by simpa using hk
      simp only [List.lookup_cons, this] at h
      exact List.mem_cons_of_mem _ (ih h)

theorem props_fold (ds : List PropDoc) (st : PSt) :
    (ds.foldl propStep st).props = st.props ++ (firsts nameKey (st.seen.map Prod.fst) ds).map conv ∧
    ((ds.foldl propStep st).diags = [] ↔
      st.diags = [] ∧ firsts nameKey (st.seen.map Prod.fst) ds = ds ∧ ∀ d ∈ ds, (kindOf d.kind).2 = []) ∧
    ((ds.foldl propStep st).diags.filter Diag.lost).length + (ds.foldl propStep st).props.length =
      (st.diags.filter Diag.lost).length + st.props.length + ds.length := by
  induction ds generalizing st with
  | nil => simp [firsts]
  | cons d r ih =>
    rw [List.foldl_cons]
    rcases step_cases st d with ⟨hk, x, hx, -, hs⟩ | ⟨k, i, hk, hl, hs⟩ | ⟨k, hk, hl, hs⟩
    · obtain ⟨i1, i2, i3⟩ := ih { st with diags := st.diags ++ [x] }
      rw [hs]
      refine ⟨by simpa [firsts, hk] using i1, ?_, ?_⟩
      · rw [i2]
        simp only [firsts, hk, List.append_eq_nil_iff, List.cons_ne_self, and_false, false_and, false_iff, not_and]
        intro _ h
        exact absurd (h ▸ (firsts_sublist nameKey _ r).length_le) (by simp)
      · rw [i3]
        simp [hx]
        omega
    · have hm : k ∈ st.seen.map Prod.fst := by
        have : ¬ st.seen.lookup k = none := by simp [hl]
        rw [lookup_none] at this
        simpa using this
      obtain ⟨i1, i2, i3⟩ := ih { st with diags := st.diags ++ [.propTwice i k] }
      rw [hs]
      refine ⟨?_, ?_, ?_⟩
      · rw [i1]
        simp only [firsts, hk, if_pos hm]
      · rw [i2]
        simp only [firsts, hk, if_pos hm, List.append_eq_nil_iff, and_false, false_and, false_iff, not_and, reduceCtorEq]
        intro _ h
        exact absurd (h ▸ (firsts_sublist nameKey _ r).length_le) (by simp)
      · rw [i3]
        have hx : Diag.lost (.propTwice i k) = true := rfl
        simp [hx]
        omega
    · have hm : k ∉ st.seen.map Prod.fst := lookup_none.1 hl
      obtain ⟨i1, i2, i3⟩ := ih ⟨(k, d.id) :: st.seen, st.props ++ [conv d], st.diags ++ (kindOf d.kind).2.map (.valueTwice d.id)⟩
      rw [hs]
      refine ⟨?_, ?_, ?_⟩
      · rw [i1]
        simp only [firsts, hk, if_neg hm, List.map_cons, List.append_assoc, List.singleton_append]
      · rw [i2]
        simp only [firsts, hk, if_neg hm, List.map_cons, List.append_eq_nil_iff, List.map_eq_nil_iff, List.cons.injEq, true_and,
          List.forall_mem_cons]
        constructor
        · rintro ⟨⟨h1, h2⟩, h3, h4⟩
          exact ⟨h1, h3, h2, h4⟩
        · rintro ⟨h1, h3, h2, h4⟩
          exact ⟨⟨h1, h2⟩, h3, h4⟩
      · rw [i3]
        have : ((kindOf d.kind).2.map (Diag.valueTwice d.id)).filter Diag.lost = [] := by
          apply List.filter_eq_nil_iff.2
          intro x hx
          obtain ⟨v, -, rfl⟩ := List.mem_map.1 hx
          simp [Diag.lost]
        simp [List.filter_append, this]
        omega

/-- `d` is the first property of its name, which is proper -/
def FirstNamed (ds : List PropDoc) (d : PropDoc) : Prop :=
  ∃ pre post, ds = pre ++ d :: post ∧ Ident (trimC d.name) ∧ ∀ b ∈ pre, trimC b.name ≠ trimC d.name

theorem firstNamed_iff (ds : List PropDoc) (d : PropDoc) : d ∈ firsts nameKey [] ds ↔ FirstNamed ds d := by
  rw [mem_firsts_nil]
  constructor
  · rintro ⟨pre, post, h1, k, h2, h3⟩
    obtain ⟨rfl, h4⟩ := nameKey_some.1 h2
    exact ⟨pre, post, h1, h4, fun u hu he => h3 u hu (nameKey_some.2 ⟨he, h4⟩)⟩
  · rintro ⟨pre, post, h1, h4, h3⟩
    exact ⟨pre, post, h1, _, nameKey_some.2 ⟨rfl, h4⟩, fun u hu he => h3 u hu (nameKey_some.1 he).1⟩

/-- the name of a model is accepted -/
def GoodName (doc : ModelDoc) : Prop := Ident (trimC doc.name) ∨ (trimC doc.name = [] ∧ doc.global = true)

theorem parse_good {doc : ModelDoc} (h : GoodName doc) :
    parseModel doc = (some ⟨trimC doc.name, doc.global, (firsts nameKey [] doc.props).map conv⟩,
      (doc.props.foldl propStep ⟨[], [], []⟩).diags) := by
  have hp := (props_fold doc.props ⟨[], [], []⟩).1
  simp only [List.map_nil, List.nil_append] at hp
  rcases h with h | ⟨h1, h2⟩
  · have h3 := (C81_identifier _).2 h
    simp [parseModel, h.1, h3, hp]
  · simp [parseModel, h1, h2, hp]

/-- **When a data model is dropped**: exactly when its name is not proper, where the name of a global one may be blank; then there is
one diagnostic. -/
theorem C81_dropped (doc : ModelDoc) :
    ((parseModel doc).1 = none ↔ ¬ GoodName doc) ∧ (¬ GoodName doc → (parseModel doc).2.length = 1) := by
  by_cases h : GoodName doc
  · simp [parse_good h, h]
  · have : (parseModel doc).1 = none ∧ (parseModel doc).2.length = 1 := by
      unfold parseModel
      by_cases h0 : trimC doc.name = []
      · have : doc.global = false := by
          cases hg : doc.global with
          | false => rfl
          | true => exact absurd (.inr ⟨h0, hg⟩) h
        simp [h0, this]
      · have hv : validateIdentifier (trimC doc.name) ≠ none := fun hv => h (.inl ((C81_identifier _).1 hv))
        obtain ⟨r, hr⟩ := Option.ne_none_iff_exists'.1 hv
        simp [h0, hr]
    simp [h, this]

/-- **What is kept of a data model**: of every proper name the first property, in order, and no name twice. -/
theorem C81_kept {doc : ModelDoc} {m : Model} {ds : List Diag} (h : parseModel doc = (some m, ds)) :
    m.name = trimC doc.name ∧ m.global = doc.global ∧
    (∃ kept : List PropDoc, kept.Sublist doc.props ∧ m.props = kept.map conv ∧ ∀ d, d ∈ kept ↔ FirstNamed doc.props d) ∧
    (m.props.map Prop'.name).Nodup ∧
    ∀ n, n ∈ m.props.map Prop'.name ↔ Ident n ∧ ∃ d ∈ doc.props, trimC d.name = n := by
  have hg : GoodName doc := by
    refine Classical.byContradiction fun hg => ?_
    have := (C81_dropped doc).1.2 hg
    rw [h] at this
    simp at this
  rw [parse_good hg] at h
  simp only [Prod.mk.injEq, Option.some.injEq] at h
  obtain ⟨rfl, -⟩ := h
  have hk := firsts_keys nameKey [] doc.props
  have hmap : (firsts nameKey [] doc.props).filterMap nameKey = ((firsts nameKey [] doc.props).map conv).map Prop'.name := by
    rw [List.map_map, ← List.filterMap_eq_map]
    apply fm_congr
    intro v hm
    obtain ⟨k, hk⟩ := Option.isSome_iff_exists.1 (hk.2.2 v hm)
    rw [hk, ← (nameKey_some.1 hk).1]
    rfl
  refine ⟨rfl, rfl, ⟨_, firsts_sublist _ _ _, rfl, firstNamed_iff _⟩, ?_, ?_⟩
  · show (((firsts nameKey [] doc.props).map conv).map Prop'.name).Nodup
    rw [← hmap]
    exact hk.1
  · intro n
    show n ∈ ((firsts nameKey [] doc.props).map conv).map Prop'.name ↔ _
    simp only [List.map_map, List.mem_map, Function.comp]
    constructor
    · rintro ⟨d, hd, rfl⟩
      obtain ⟨pre, post, h1, h2, -⟩ := (firstNamed_iff _ _).1 hd
      exact ⟨h2, d, by simp [h1], rfl⟩
    · rintro ⟨hi, d, hd, rfl⟩
      have : ∀ l : List PropDoc, d ∈ l → ∃ pre u post, l = pre ++ u :: post ∧ trimC u.name = trimC d.name ∧
          ∀ x ∈ pre, trimC x.name ≠ trimC d.name := by
        intro l hl
        induction l with
        | nil => simp at hl
        | cons a r ih =>
          by_cases ha : trimC a.name = trimC d.name
          · exact ⟨[], a, r, rfl, ha, by simp⟩
          · rcases List.mem_cons.1 hl with rfl | hl
            · exact absurd rfl ha
            · obtain ⟨pre, u, post, rfl, h1, h2⟩ := ih hl
              exact ⟨a :: pre, u, post, rfl, h1, by simpa [ha] using h2⟩
      obtain ⟨pre, u, post, h1, h2, h3⟩ := this _ hd
      refine ⟨u, (firstNamed_iff _ _).2 ⟨pre, post, h1, by rwa [h2], ?_⟩, h2⟩
      intro x hx
      rw [h2]
      exact h3 x hx

/-- **Nothing is lost silently**: there are as many diagnostics about lost properties as properties that are lost. -/
theorem C81_lost {doc : ModelDoc} {m : Model} {ds : List Diag} (h : parseModel doc = (some m, ds)) :
    (ds.filter Diag.lost).length + m.props.length = doc.props.length := by
  have hg : GoodName doc := by
    refine Classical.byContradiction fun hg => ?_
    have := (C81_dropped doc).1.2 hg
    rw [h] at this
    simp at this
  rw [parse_good hg] at h
  simp only [Prod.mk.injEq, Option.some.injEq] at h
  obtain ⟨rfl, rfl⟩ := h
  have hp := props_fold doc.props ⟨[], [], []⟩
  have h3 := hp.2.2
  rw [hp.1] at h3
  simpa using h3

/-- the values of an enumeration that are not blank are different -/
def DistinctValues (d : PropDoc) : Prop :=
  ∀ vs, d.kind = .string (some vs) → ((vs.map trimC).filter (· ≠ [])).Nodup

theorem written_filter (vs : List Str) : vs.filterMap written = (vs.map trimC).filter (· ≠ []) := by
  induction vs with
  | nil => rfl
  | cons v r ih =>
    by_cases hv : trimC v = []
    · simp [written, hv, ih]
    · simp [written, hv, ih]

theorem distinct_iff (d : PropDoc) : (kindOf d.kind).2 = [] ↔ DistinctValues d := by
  unfold DistinctValues
  cases hk : d.kind with
  | string vs =>
    cases vs with
    | none => simp [kindOf, values]
    | some vs =>
      have := (values_fold vs [] []).2
      simp only [written_filter, true_and, List.not_mem_nil, not_false_eq_true, implies_true, and_true] at this
      simp only [kindOf, values, Option.getD_some, KindDoc.string.injEq, Option.some.injEq, forall_eq']
      exact this
  | _ => simp [kindOf]

/-- **When there are no diagnostics**: exactly when all names are proper and different and no enumeration has a value twice. -/
theorem C81_clean {doc : ModelDoc} (hg : GoodName doc) :
    (parseModel doc).2 = [] ↔ (∀ d ∈ doc.props, Ident (trimC d.name)) ∧ (doc.props.map fun d => trimC d.name).Nodup ∧
      ∀ d ∈ doc.props, DistinctValues d := by
  rw [parse_good hg]
  have := (props_fold doc.props ⟨[], [], []⟩).2.1
  simp only [List.map_nil, true_and] at this
  rw [this, firsts_all]
  have e1 : ∀ d, (nameKey d).isSome = true ↔ Ident (trimC d.name) := by
    intro d
    rw [Option.isSome_iff_exists]
    constructor
    · rintro ⟨k, hk⟩
      obtain ⟨rfl, h⟩ := nameKey_some.1 hk
      exact h
    · exact fun h => ⟨_, nameKey_some.2 ⟨rfl, h⟩⟩
  have e2 : (∀ d ∈ doc.props, Ident (trimC d.name)) → doc.props.filterMap nameKey = doc.props.map fun d => trimC d.name := by
    intro h
    rw [← List.filterMap_eq_map]
    apply fm_congr
    intro d hd
    exact nameKey_some.2 ⟨rfl, h d hd⟩
  simp only [e1, distinct_iff, List.not_mem_nil, not_false_eq_true, implies_true, and_true]
  constructor
  · rintro ⟨⟨h1, h2⟩, h3⟩
    exact ⟨h1, e2 h1 ▸ h2, h3⟩
  · rintro ⟨h1, h2, h3⟩
    exact ⟨⟨h1, e2 h1 ▸ h2⟩, h3⟩

/-- **Where a repeated name is reported (as it should not be)**: at the property that is kept, not at the one that is lost. -/
theorem C81_twice {doc : ModelDoc} {m : Model} {ds : List Diag} (h : parseModel doc = (some m, ds)) {i n : Str}
    (hd : .propTwice i n ∈ ds) : ∃ p ∈ m.props, p.name = n ∧ p.id = i := by
  have key : ∀ (l : List PropDoc) (st : PSt), (∀ e ∈ st.seen, ∃ p ∈ st.props, p.name = e.1 ∧ p.id = e.2) →
      (∀ i n, .propTwice i n ∈ st.diags → ∃ p ∈ st.props, p.name = n ∧ p.id = i) →
      .propTwice i n ∈ (l.foldl propStep st).diags → ∃ p ∈ (l.foldl propStep st).props, p.name = n ∧ p.id = i := by
    intro l
    induction l with
    | nil => intro st _ h2 h3; exact h2 i n h3
    | cons d r ih =>
      intro st h1 h2
      rw [List.foldl_cons]
      rcases step_cases st d with ⟨hk, x, hx, hne, hs⟩ | ⟨k, j, hk, hl, hs⟩ | ⟨k, hk, hl, hs⟩
      · rw [hs]
        refine ih _ h1 ?_
        intro i' n' hm
        rcases List.mem_append.1 hm with hm | hm
        · exact h2 i' n' hm
        · exact absurd (List.mem_singleton.1 hm).symm (hne i' n')
      · rw [hs]
        refine ih _ h1 ?_
        intro i' n' hm
        rcases List.mem_append.1 hm with hm | hm
        · exact h2 i' n' hm
        · have := List.mem_singleton.1 hm
          simp only [Diag.propTwice.injEq] at this
          obtain ⟨rfl, rfl⟩ := this
          exact h1 _ (lookup_mem hl)
      · rw [hs]
        refine ih _ ?_ ?_
        · intro e he
          rcases List.mem_cons.1 he with rfl | he
          · exact ⟨conv d, by simp, (nameKey_some.1 hk).1, rfl⟩
          · obtain ⟨p, hp, h⟩ := h1 e he
            exact ⟨p, by simp [hp], h⟩
        · intro i' n' hm
          rcases List.mem_append.1 hm with hm | hm
          · obtain ⟨p, hp, h⟩ := h2 i' n' hm
            exact ⟨p, by simp [hp], h⟩
          · simp at hm
  have hg : GoodName doc := by
    refine Classical.byContradiction fun hg => ?_
    have := (C81_dropped doc).1.2 hg
    rw [h] at this
    simp at this
  rw [parse_good hg] at h
  simp only [Prod.mk.injEq, Option.some.injEq] at h
  obtain ⟨rfl, rfl⟩ := h
  have hp := (props_fold doc.props ⟨[], [], []⟩).1
  have := key doc.props ⟨[], [], []⟩ (by simp) (by simp) hd
  rw [hp] at this
  simpa using this

/-! ### Writing it back -/

def kindDoc : Kind → KindDoc
  | .string => .string none
  | .enum vs => .string (some vs)
  | .number => .number
  | .boolean => .boolean
  | .date => .date
  | .relationship t => .relationship t
  | .reference t => .reference t

def propDoc (p : Prop') : PropDoc := ⟨p.id, p.name, kindDoc p.kind, p.array, p.optional⟩

/-- the document of a data model -/
def toDoc (m : Model) : ModelDoc := ⟨m.name, m.global, m.props.map propDoc⟩

theorem kind_again (k : KindDoc) : kindOf (kindDoc (kindOf k).1) = ((kindOf k).1, []) := by
  cases k with
  | string vs =>
    cases vs with
    | none => rfl
    | some vs =>
      obtain ⟨_, -, -, hn, hm, -⟩ := C81_values vs
      by_cases he : (values (some vs)).1 = []
      · simp only [kindOf, he, if_true, kindDoc]
        rfl
      · simp only [kindOf, he, if_false, kindDoc]
        have hall : ∀ v ∈ (values (some vs)).1, written v = some v := by
          intro v hv
          obtain ⟨h1, u, -, rfl⟩ := (hm v).1 hv
          exact written_some.2 ⟨trim_trim u, h1⟩
        have hfm : (values (some vs)).1.filterMap written = (values (some vs)).1 := by
          rw [fm_congr (g := some) hall, List.filterMap_some]
        have hfold := values_fold (values (some vs)).1 [] []
        have hfirst : firsts written [] (values (some vs)).1 = (values (some vs)).1 := by
          rw [firsts_all, hfm]
          exact ⟨fun v hv => by simp [hall v hv], hn, by simp⟩
        have e1 : (values (some (values (some vs)).1)).1 = (values (some vs)).1 := by
          have := hfold.1
          rw [hfirst, List.nil_append] at this
          rw [values, Option.getD_some, this]
          conv => rhs; rw [← List.map_id (values (some vs)).1]
          apply List.map_congr_left
          intro v hv
          exact (written_some.1 (hall v hv)).1
        have e2 : (values (some (values (some vs)).1)).2 = [] := by
          rw [values, Option.getD_some, hfold.2, hfm]
          exact ⟨rfl, hn, by simp⟩
        rw [e1, e2, if_neg he]
  | relationship t => simp [kindOf, kindDoc, trim_trim]
  | reference t => simp [kindOf, kindDoc, trim_trim]
  | number => rfl
  | boolean => rfl
  | date => rfl

/-- **What was kept is kept**: the document of a data model that came from a document gives it again, without diagnostics. -/
theorem C81_stable {doc : ModelDoc} {m : Model} {ds : List Diag} (h : parseModel doc = (some m, ds)) :
    parseModel (toDoc m) = (some m, []) := by
  obtain ⟨h1, h2, ⟨kept, -, h3, h4⟩, h5, h6⟩ := C81_kept h
  have hg : GoodName doc := by
    refine Classical.byContradiction fun hg => ?_
    have := (C81_dropped doc).1.2 hg
    rw [h] at this
    simp at this
  have hname : trimC m.name = m.name := by rw [h1, trim_trim]
  have hg' : GoodName (toDoc m) := by
    simp only [GoodName, toDoc, hname]
    rw [h1, h2]
    exact hg
  have hid : ∀ p ∈ m.props, Ident p.name := fun p hp => ((h6 p.name).1 (List.mem_map_of_mem (f := Prop'.name) hp)).1
  have hconv : ∀ p ∈ m.props, conv (propDoc p) = p ∧ (kindOf (propDoc p).kind).2 = [] := by
    intro p hp
    have ht := ident_trim (hid p hp)
    rw [h3] at hp
    obtain ⟨d, -, rfl⟩ := List.mem_map.1 hp
    simp only [conv, propDoc, kind_again] at ht ⊢
    simp [ht]
  have hclean : (parseModel (toDoc m)).2 = [] := by
    rw [C81_clean hg']
    refine ⟨?_, ?_, ?_⟩
    · intro d hd
      obtain ⟨p, hp, rfl⟩ := List.mem_map.1 hd
      show Ident (trimC p.name)
      rw [ident_trim (hid p hp)]
      exact hid p hp
    · have : ((toDoc m).props.map fun d => trimC d.name) = m.props.map Prop'.name := by
        simp only [toDoc, List.map_map]
        apply List.map_congr_left
        intro p hp
        exact ident_trim (hid p hp)
      rw [this]
      exact h5
    · intro d hd
      obtain ⟨p, hp, rfl⟩ := List.mem_map.1 hd
      exact (distinct_iff _).1 (hconv p hp).2
  have hpg := parse_good hg'
  have hfirst : firsts nameKey [] (toDoc m).props = (toDoc m).props := by
    have := (props_fold (toDoc m).props ⟨[], [], []⟩).2.1
    rw [hpg] at hclean
    exact (this.1 hclean).2.1
  rw [← hclean, hpg, hfirst]
  simp only [toDoc, hname, List.map_map, Prod.mk.injEq, Option.some.injEq, and_true]
  have : m.props.map (conv ∘ propDoc) = m.props := by
    conv => rhs; rw [← List.map_id m.props]
    apply List.map_congr_left
    intro p hp
    exact (hconv p hp).1
  rw [this]

/-! ### Dictionaries -/

def entryKey (e : EntryDoc) : Option Str := written e.value

theorem dict_fold (es : List EntryDoc) (t : List Entry) (ds : List Diag) :
    (es.foldl entryStep (t, ds)).1 = t ++ (firsts entryKey (t.map Entry.value) es).map (fun e => ⟨trimC e.value, trimC e.label⟩) ∧
    ((es.foldl entryStep (t, ds)).2 = [] ↔
      ds = [] ∧ (es.filterMap entryKey).Nodup ∧ ∀ k ∈ es.filterMap entryKey, k ∉ t.map Entry.value) := by
  induction es generalizing t ds with
  | nil => simp [firsts]
  | cons e r ih =>
    rw [List.foldl_cons]
    by_cases hv : trimC e.value = []
    · have hw : entryKey e = none := by simp [entryKey, written, hv]
      have hs : entryStep (t, ds) e = (t, ds) := by simp [entryStep, hv]
      rw [hs]
      simpa [firsts, hw] using ih t ds
    · have hw : entryKey e = some (trimC e.value) := by simp [entryKey, written, hv]
      by_cases ht : trimC e.value ∈ t.map Entry.value
      · have hs : entryStep (t, ds) e = (t, ds ++ [.valueTwice e.id (trimC e.value)]) := by
          have : (t.any fun p => p.value == trimC e.value) = true := by simpa using ht
          simp [entryStep, hv, this]
        rw [hs]
        refine ⟨by rw [(ih _ _).1]; simp only [firsts, hw, if_pos ht], ?_⟩
        rw [(ih _ _).2]
        simp only [List.append_eq_nil_iff, reduceCtorEq, and_false, false_and, false_iff, not_and, List.filterMap_cons, hw]
        intro _ _ h
        exact h _ (by simp) ht
      · have hs : entryStep (t, ds) e = (t ++ [⟨trimC e.value, trimC e.label⟩], ds) := by
          have : ¬ (t.any fun p => p.value == trimC e.value) = true := by simpa using ht
          simp only [entryStep, hv, if_false, this]
          rfl
        rw [hs, (ih _ _).1, (ih _ _).2]
        refine ⟨?_, ?_⟩
        · simp only [firsts, hw, if_neg ht, List.map_cons, List.append_assoc, List.singleton_append, List.map_append, List.map_nil]
          rw [firsts_congr entryKey (s := t.map Entry.value ++ [trimC e.value]) (s' := trimC e.value :: t.map Entry.value)
            (by simp [or_comm])]
        · simp only [List.filterMap_cons, hw, List.nodup_cons, List.mem_append, List.mem_cons, List.map_append, List.map_cons,
            List.map_nil, List.not_mem_nil, or_false]
          constructor
          · rintro ⟨h1, h2, h3⟩
            refine ⟨h1, ⟨fun hm => h3 _ hm (.inr rfl), h2⟩, ?_⟩
            rintro k (rfl | hk) hm
            · exact ht hm
            · exact h3 k hk (.inl hm)
          · rintro ⟨h1, ⟨h2, h2'⟩, h3⟩
            refine ⟨h1, h2', ?_⟩
            rintro k hk (hm | rfl)
            · exact h3 k (.inr hk) hm
            · exact h2 hk

/-- **What is kept of a dictionary**: it is kept exactly when its name is proper, with the first entry of every value that is not
blank, in order, with its label; there are no diagnostics exactly when no value that is not blank is repeated. -/
theorem C81_dictionary (name : Str) (es : List EntryDoc) :
    (¬ Ident (trimC name) → (parseDict name es).1 = none ∧ (parseDict name es).2.length = 1) ∧
    (Ident (trimC name) → ∃ kept : List EntryDoc, kept.Sublist es ∧
      (parseDict name es).1 = some (trimC name, kept.map fun e => ⟨trimC e.value, trimC e.label⟩) ∧
      (∀ e, e ∈ kept ↔ ∃ pre post, es = pre ++ e :: post ∧ trimC e.value ≠ [] ∧ ∀ u ∈ pre, trimC u.value ≠ trimC e.value) ∧
      ((parseDict name es).2 = [] ↔ ((es.map fun e => trimC e.value).filter (· ≠ [])).Nodup)) := by
  constructor
  · intro h
    rw [← C81_identifier] at h
    unfold parseDict
    by_cases h0 : trimC name = []
    · simp [h0]
    · obtain ⟨r, hr⟩ := Option.ne_none_iff_exists'.1 h
      simp [h0, hr]
  · intro h
    have h3 := (C81_identifier _).2 h
    have hf := dict_fold es [] []
    simp only [List.map_nil, List.nil_append, true_and, List.not_mem_nil, not_false_eq_true, implies_true, and_true] at hf
    refine ⟨firsts entryKey [] es, firsts_sublist _ _ _, ?_, ?_, ?_⟩
    · simp [parseDict, h.1, h3, hf.1]
    · intro e
      rw [mem_firsts_nil]
      constructor
      · rintro ⟨pre, post, h1, k, h2, h3⟩
        obtain ⟨rfl, h4⟩ := written_some.1 h2
        exact ⟨pre, post, h1, h4, fun u hu he => h3 u hu (written_some.2 ⟨he, h4⟩)⟩
      · rintro ⟨pre, post, h1, h4, h3⟩
        exact ⟨pre, post, h1, _, written_some.2 ⟨rfl, h4⟩, fun u hu he => h3 u hu (written_some.1 he).1⟩
    · have : (parseDict name es).2 = (es.foldl entryStep ([], [])).2 := by simp [parseDict, h.1, h3]
      rw [this, hf.2]
      have : es.filterMap entryKey = (es.map fun e => trimC e.value).filter (· ≠ []) := by
        have := written_filter (es.map EntryDoc.value)
        rw [List.filterMap_map, List.map_map] at this
        exact this
      rw [this]

/-! ### Cases -/

def person : ModelDoc := ⟨" Person ".toList, false, [
  ⟨"1".toList, "age".toList, .number, false, false⟩,
  ⟨"2".toList, " tier ".toList, .string (some [" gold".toList, "".toList, "silver".toList, "gold".toList]), false, true⟩,
  ⟨"3".toList, "a.b".toList, .date, false, false⟩,
  ⟨"4".toList, "age ".toList, .boolean, false, false⟩,
  ⟨"5".toList, "note".toList, .string (some ["  ".toList]), true, false⟩]⟩

/-- what is kept of `person`: the property with a dot and the second `age` are lost, the repeated value as well; `note` is a text -/
example : parseModel person = (some ⟨"Person".toList, false, [
    ⟨"1".toList, "age".toList, .number, false, false⟩,
    ⟨"2".toList, "tier".toList, .enum ["gold".toList, "silver".toList], false, true⟩,
    ⟨"5".toList, "note".toList, .string, true, false⟩]⟩,
  [.valueTwice "2".toList "gold".toList, .propInvalid "3".toList .dot, .propTwice "1".toList "age".toList]) := by decide

example : GoodName person := .inl ((C81_identifier _).1 (by decide))

example : parseDict " Tier".toList [⟨"1".toList, "gold ".toList, "Gold".toList⟩, ⟨"2".toList, " gold".toList, "Other".toList⟩] =
    (some ("Tier".toList, [⟨"gold".toList, "Gold".toList⟩]), [.valueTwice "2".toList "gold".toList]) := by decide

example : parseModel ⟨"".toList, true, []⟩ = (some ⟨[], true, []⟩, []) := by decide

example : validateIdentifier "a-b and".toList = some .space ∧ validateIdentifier "a-b".toList = none := by decide

end Zen.Doc.C81
