import Mathlib.Data.List.Nodup
import Verif.Policy.Coverage
import Verif.Types.Inhabits
import Verif.Props.C25
import Verif.Props.C43
/-
C42: when the analysis reports a match block or a table column as exhaustive, some arm or row is selected for
every well-typed value of the discriminant.
-/
namespace Zen.Policy
open Zen VT

variable {F : FrontEnd} {B : Builtins} {s : Scope}

/-! ### Tests that cover a type -/

theorem collectEnum_spec (tests : List ArmTest) : ∀ vs, collectEnum tests = some vs →
    (∀ t ∈ tests, ∃ p ws, t = .enum p ws) ∧ ∀ x ∈ vs, ∃ p ws, ArmTest.enum p ws ∈ tests ∧ x ∈ ws := by
  induction tests with
  | nil => intro vs h; cases h; exact ⟨fun _ h => (nomatch h), fun _ h => (nomatch h)⟩
  | cons t ts ih =>
    intro vs h
    cases t with
    | enum p ws =>
      simp only [collectEnum, Option.map_eq_some_iff] at h
      obtain ⟨us, hus, rfl⟩ := h
      obtain ⟨h1, h2⟩ := ih us hus
      refine ⟨fun t ht => ?_, fun x hx => ?_⟩
      · rcases List.mem_cons.1 ht with rfl | ht
        · exact ⟨p, ws, rfl⟩
        · exact h1 t ht
      · rcases List.mem_append.1 hx with hx | hx
        · exact ⟨p, ws, List.mem_cons_self, hx⟩
        · obtain ⟨p', ws', hm, hx⟩ := h2 x hx
          exact ⟨p', ws', List.mem_cons_of_mem _ hm, hx⟩
    | _ => cases h

theorem seen_spec (vs : List Bool) : ∀ seen : Bool × Bool,
    let r := vs.foldl (fun s b => (s.1 || b, s.2 || !b)) seen
    (r.1 = true → seen.1 = true ∨ true ∈ vs) ∧ (r.2 = true → seen.2 = true ∨ false ∈ vs) := by
  induction vs with
  | nil => intro seen; exact ⟨.inl, .inl⟩
  | cons v vs ih =>
    intro seen
    obtain ⟨h1, h2⟩ := ih (seen.1 || v, seen.2 || !v)
    refine ⟨fun h => ?_, fun h => ?_⟩
    · rcases h1 h with h | h
      · cases v
        · left; simpa using h
        · right; simp
      · right; simp [h]
    · rcases h2 h with h | h
      · cases v
        · right; simp
        · left; simpa using h
      · right; simp [h]

theorem collectBool_spec (tests : List ArmTest) : ∀ seen r, collectBool tests seen = some r →
    (∀ t ∈ tests, ∃ p ws, t = .bool p ws) ∧
    (r.1 = true → seen.1 = true ∨ ∃ p ws, ArmTest.bool p ws ∈ tests ∧ true ∈ ws) ∧
    (r.2 = true → seen.2 = true ∨ ∃ p ws, ArmTest.bool p ws ∈ tests ∧ false ∈ ws) := by
  induction tests with
  | nil => intro seen r h; cases h; exact ⟨fun _ h => (nomatch h), .inl, .inl⟩
  | cons t ts ih =>
    intro seen r h
    cases t with
    | bool p ws =>
      simp only [collectBool] at h
      obtain ⟨h1, h2, h3⟩ := ih _ r h
      obtain ⟨s1, s2⟩ := seen_spec ws seen
      refine ⟨fun t ht => ?_, fun hr => ?_, fun hr => ?_⟩
      · rcases List.mem_cons.1 ht with rfl | ht
        · exact ⟨p, ws, rfl⟩
        · exact h1 t ht
      · rcases h2 hr with h | ⟨p', ws', hm, hx⟩
        · exact (s1 h).imp id fun h => ⟨p, ws, List.mem_cons_self, h⟩
        · exact .inr ⟨p', ws', List.mem_cons_of_mem _ hm, hx⟩
      · rcases h3 hr with h | ⟨p', ws', hm, hx⟩
        · exact (s2 h).imp id fun h => ⟨p, ws, List.mem_cons_self, h⟩
        · exact .inr ⟨p', ws', List.mem_cons_of_mem _ hm, hx⟩
    | _ => cases h

theorem collectNum_spec (tests : List ArmTest) : ∀ acc r, collectNum tests acc = some r →
    (∀ t ∈ tests, ∃ p c, t = .number p c) ∧
    ∀ c, r = some c → ∀ x, c.Has x → (∃ a, acc = some a ∧ a.Has x) ∨ ∃ p d, ArmTest.number p d ∈ tests ∧ d.Has x := by
  induction tests with
  | nil => intro acc r h; cases h; exact ⟨fun _ h => (nomatch h), fun c hc x hx => .inl ⟨c, hc, hx⟩⟩
  | cons t ts ih =>
    intro acc r h
    cases t with
    | number p d =>
      simp only [collectNum] at h
      obtain ⟨h1, h2⟩ := ih _ r h
      refine ⟨fun t ht => ?_, fun c hc x hx => ?_⟩
      · rcases List.mem_cons.1 ht with rfl | ht
        · exact ⟨p, d, rfl⟩
        · exact h1 t ht
      · rcases h2 c hc x hx with ⟨a, ha, hx⟩ | ⟨p', d', hm, hx⟩
        · cases acc with
          | none => cases ha; exact .inr ⟨p, d, List.mem_cons_self, hx⟩
          | some b =>
            cases ha
            obtain ⟨sg, hs, hx⟩ := hx
            rcases List.mem_append.1 hs with hs | hs
            · exact .inl ⟨b, rfl, sg, hs, hx⟩
            · exact .inr ⟨p, d, List.mem_cons_self, sg, hs, hx⟩
        · exact .inr ⟨p', d', List.mem_cons_of_mem _ hm, hx⟩
    | _ => cases h

/-- Tests that cover a type: for every value of the type all tests are about its kind of value, and one holds. -/
theorem C42_cover (tests : List ArmTest) (ty : VT) (h : cellsCover tests ty = true) (v : Val) (hv : Inh ty v) :
    (∀ t ∈ tests, t.Fits v) ∧ ∃ t ∈ tests, t.Holds v := by
  unfold cellsCover at h
  cases ty with
  | enum n declared =>
    simp only [unwrap, Bool.false_eq_true, if_false] at h
    simp only [Inh] at hv
    obtain ⟨x, hx, rfl⟩ := hv
    cases hc : collectEnum tests with
    | none => rw [hc] at h; cases h
    | some vs =>
      rw [hc] at h
      obtain ⟨h1, h2⟩ := collectEnum_spec tests vs hc
      refine ⟨fun t ht => ?_, ?_⟩
      · obtain ⟨p, ws, rfl⟩ := h1 t ht
        exact ⟨x, rfl⟩
      · obtain ⟨p, ws, hm, hw⟩ := h2 x (by simpa using List.all_eq_true.1 h x hx)
        exact ⟨_, hm, x, hw, rfl⟩
  | bool =>
    simp only [unwrap, Bool.false_eq_true, if_false] at h
    simp only [Inh] at hv
    obtain ⟨b, rfl⟩ := hv
    cases hc : collectBool tests (false, false) with
    | none => rw [hc] at h; cases h
    | some r =>
      rw [hc] at h
      rw [Bool.and_eq_true] at h
      obtain ⟨h1, h2, h3⟩ := collectBool_spec tests _ r hc
      refine ⟨fun t ht => ?_, ?_⟩
      · obtain ⟨p, ws, rfl⟩ := h1 t ht
        exact ⟨b, rfl⟩
      · cases b with
        | true =>
          rcases h2 h.1 with h | ⟨p, ws, hm, hw⟩
          · cases h
          · exact ⟨_, hm, true, hw, rfl⟩
        | false =>
          rcases h3 h.2 with h | ⟨p, ws, hm, hw⟩
          · cases h
          · exact ⟨_, hm, false, hw, rfl⟩
  | number =>
    simp only [unwrap, Bool.false_eq_true, if_false] at h
    simp only [Inh] at hv
    obtain ⟨q, rfl⟩ := hv
    cases hc : collectNum tests none with
    | none => rw [hc] at h; cases h
    | some r =>
      cases r with
      | none => rw [hc] at h; cases h
      | some c =>
        rw [hc] at h
        obtain ⟨h1, h2⟩ := collectNum_spec tests _ _ hc
        refine ⟨fun t ht => ?_, ?_⟩
        · obtain ⟨p, ws, rfl⟩ := h1 t ht
          exact ⟨q, rfl⟩
        · rcases h2 c rfl q ((C24_total_iff_covers c).1 h q) with ⟨a, ha, _⟩ | ⟨p, d, hm, hd⟩
          · cases ha
          · exact ⟨_, hm, q, rfl, hd⟩
  | nullable t => cases h
  | _ => cases h

/-- tests of one kind -/
def Uniform (tests : List ArmTest) : VT → Prop
  | .enum _ _ => ∀ t ∈ tests, ∃ p ws, t = .enum p ws
  | .bool => ∀ t ∈ tests, ∃ p ws, t = .bool p ws
  | .number => ∀ t ∈ tests, ∃ p c, t = .number p c
  | _ => False

theorem collectEnum_complete (tests : List ArmTest) (h : ∀ t ∈ tests, ∃ p ws, t = .enum p ws) :
    ∃ vs, collectEnum tests = some vs ∧ ∀ p ws, ArmTest.enum p ws ∈ tests → ∀ x ∈ ws, x ∈ vs := by
  induction tests with
  | nil => exact ⟨[], rfl, fun _ _ h => (nomatch h)⟩
  | cons t ts ih =>
    obtain ⟨p, ws, rfl⟩ := h t List.mem_cons_self
    obtain ⟨vs, h1, h2⟩ := ih fun t ht => h t (List.mem_cons_of_mem _ ht)
    refine ⟨ws ++ vs, by simp [collectEnum, h1], fun p' ws' hm x hx => ?_⟩
    rcases List.mem_cons.1 hm with e | hm
    · cases e; exact List.mem_append_left _ hx
    · exact List.mem_append_right _ (h2 p' ws' hm x hx)

theorem seen_complete (vs : List Bool) : ∀ seen : Bool × Bool,
    let r := vs.foldl (fun s b => (s.1 || b, s.2 || !b)) seen
    (seen.1 = true ∨ true ∈ vs → r.1 = true) ∧ (seen.2 = true ∨ false ∈ vs → r.2 = true) := by
  induction vs with
  | nil => intro seen; simp
  | cons v vs ih =>
    intro seen
    obtain ⟨h1, h2⟩ := ih (seen.1 || v, seen.2 || !v)
    refine ⟨fun h => h1 ?_, fun h => h2 ?_⟩ <;> cases v <;> simp_all

theorem collectBool_complete (tests : List ArmTest) (h : ∀ t ∈ tests, ∃ p ws, t = .bool p ws) : ∀ seen,
    ∃ r, collectBool tests seen = some r ∧
      ((seen.1 = true ∨ ∃ p ws, ArmTest.bool p ws ∈ tests ∧ true ∈ ws) → r.1 = true) ∧
      ((seen.2 = true ∨ ∃ p ws, ArmTest.bool p ws ∈ tests ∧ false ∈ ws) → r.2 = true) := by
  induction tests with
  | nil => intro seen; exact ⟨seen, rfl, by simp, by simp⟩
  | cons t ts ih =>
    intro seen
    obtain ⟨p, ws, rfl⟩ := h t List.mem_cons_self
    obtain ⟨r, h1, h2, h3⟩ := ih (fun t ht => h t (List.mem_cons_of_mem _ ht))
      (ws.foldl (fun s b => (s.1 || b, s.2 || !b)) seen)
    obtain ⟨s1, s2⟩ := seen_complete ws seen
    refine ⟨r, h1, fun hh => h2 ?_, fun hh => h3 ?_⟩
    · rcases hh with hh | ⟨p', ws', hm, hx⟩
      · exact .inl (s1 (.inl hh))
      · rcases List.mem_cons.1 hm with e | hm
        · cases e; exact .inl (s1 (.inr hx))
        · exact .inr ⟨p', ws', hm, hx⟩
    · rcases hh with hh | ⟨p', ws', hm, hx⟩
      · exact .inl (s2 (.inl hh))
      · rcases List.mem_cons.1 hm with e | hm
        · cases e; exact .inl (s2 (.inr hx))
        · exact .inr ⟨p', ws', hm, hx⟩

theorem collectNum_complete (tests : List ArmTest) (h : ∀ t ∈ tests, ∃ p c, t = .number p c) : ∀ acc,
    ∃ r, collectNum tests acc = some r ∧ ∀ x,
      ((∃ a, acc = some a ∧ a.Has x) ∨ ∃ p d, ArmTest.number p d ∈ tests ∧ d.Has x) → ∃ c, r = some c ∧ c.Has x := by
  induction tests with
  | nil =>
    intro acc
    refine ⟨acc, rfl, fun x hx => ?_⟩
    rcases hx with hx | ⟨_, _, hm, _⟩
    · exact hx
    · cases hm
  | cons t ts ih =>
    intro acc
    obtain ⟨p, d, rfl⟩ := h t List.mem_cons_self
    obtain ⟨r, h1, h2⟩ := ih (fun t ht => h t (List.mem_cons_of_mem _ ht))
      (some (match acc with | some a => Cover.mergedWith a d | none => d))
    refine ⟨r, h1, fun x hx => h2 x ?_⟩
    rcases hx with ⟨a, rfl, sg, hs, hx⟩ | ⟨p', d', hm, hx⟩
    · exact .inl ⟨_, rfl, sg, List.mem_append_left _ hs, hx⟩
    · rcases List.mem_cons.1 hm with e | hm
      · cases e
        left
        cases acc with
        | none => exact ⟨_, rfl, hx⟩
        | some a =>
          obtain ⟨sg, hs, hx⟩ := hx
          exact ⟨_, rfl, sg, List.mem_append_right _ hs, hx⟩
      · exact .inr ⟨p', d', hm, hx⟩

/-- Nothing is missed either: tests cover a type exactly when it is an enumeration, the booleans or the numbers,
all tests are of its kind, and every value of the type passes one of them. -/
theorem C42_cover_iff (tests : List ArmTest) (ty : VT) :
    cellsCover tests ty = true ↔ Uniform tests ty ∧ ∀ v, Inh ty v → ∃ t ∈ tests, t.Holds v := by
  constructor
  · intro h
    refine ⟨?_, fun v hv => (C42_cover tests ty h v hv).2⟩
    unfold cellsCover at h
    cases ty with
    | enum n declared =>
      simp only [unwrap, Bool.false_eq_true, if_false] at h
      cases hc : collectEnum tests with
      | none => rw [hc] at h; cases h
      | some vs => exact (collectEnum_spec tests vs hc).1
    | bool =>
      simp only [unwrap, Bool.false_eq_true, if_false] at h
      cases hc : collectBool tests (false, false) with
      | none => rw [hc] at h; cases h
      | some vs => exact (collectBool_spec tests _ vs hc).1
    | number =>
      simp only [unwrap, Bool.false_eq_true, if_false] at h
      cases hc : collectNum tests none with
      | none => rw [hc] at h; cases h
      | some vs => exact (collectNum_spec tests _ vs hc).1
    | nullable t => cases h
    | _ => cases h
  · rintro ⟨hu, h⟩
    unfold cellsCover
    cases ty with
    | enum n declared =>
      obtain ⟨vs, hvs, hin⟩ := collectEnum_complete tests hu
      simp only [unwrap, Bool.false_eq_true, if_false, hvs, List.all_eq_true, List.contains_iff_mem]
      intro x hx
      obtain ⟨t, ht, hh⟩ := h (.str x) (by simp only [Inh]; exact ⟨x, hx, rfl⟩)
      obtain ⟨p, ws, rfl⟩ := hu t ht
      obtain ⟨y, hy, e⟩ := hh
      cases e
      exact hin p ws ht x hy
    | bool =>
      obtain ⟨r, hr, h1, h2⟩ := collectBool_complete tests hu (false, false)
      simp only [unwrap, Bool.false_eq_true, if_false, hr, Bool.and_eq_true]
      have key : ∀ b, ∃ p ws, ArmTest.bool p ws ∈ tests ∧ b ∈ ws := by
        intro b
        obtain ⟨t, ht, hh⟩ := h (.bool b) (by simp [Inh])
        obtain ⟨p, ws, rfl⟩ := hu t ht
        obtain ⟨y, hy, e⟩ := hh
        cases e
        exact ⟨p, ws, ht, hy⟩
      exact ⟨h1 (.inr (key true)), h2 (.inr (key false))⟩
    | number =>
      obtain ⟨r, hr, h1⟩ := collectNum_complete tests hu none
      simp only [unwrap, Bool.false_eq_true, if_false, hr]
      have key : ∀ x, ∃ c, r = some c ∧ c.Has x := by
        intro x
        obtain ⟨t, ht, hh⟩ := h (.num x) (by simp [Inh])
        obtain ⟨p, ws, rfl⟩ := hu t ht
        obtain ⟨y, e, hy⟩ := hh
        cases e
        exact h1 x (.inr ⟨p, ws, ht, hy⟩)
      obtain ⟨c, rfl, -⟩ := key 0
      dsimp only
      rw [C24_total_iff_covers]
      intro x
      obtain ⟨c', e, hx⟩ := key x
      cases e
      exact hx
    | _ => exact hu.elim

/-! ### Match blocks -/

theorem sharedPath_spec (tests : List ArmTest) : ∀ shared p, sharedPath tests shared = some p →
    (shared = none ∨ shared = some p) ∧ ∀ t ∈ tests, testPath t = some p := by
  induction tests with
  | nil => intro shared p h; exact ⟨.inr h, fun _ h => (nomatch h)⟩
  | cons t ts ih =>
    intro shared p h
    rw [sharedPath] at h
    cases ht : testPath t with
    | none => rw [ht] at h; cases h
    | some q =>
      rw [ht] at h
      cases shared with
      | none =>
        obtain ⟨h1, h2⟩ := ih _ p h
        rcases h1 with h1 | h1
        · cases h1
        · cases h1
          refine ⟨.inl rfl, fun t' hm => ?_⟩
          rcases List.mem_cons.1 hm with rfl | hm
          · exact ht
          · exact h2 t' hm
      | some p' =>
        dsimp only at h
        split at h
        next e =>
          subst e
          obtain ⟨h1, h2⟩ := ih _ p h
          rcases h1 with h1 | h1
          · cases h1
          · cases h1
            refine ⟨.inr rfl, fun t' hm => ?_⟩
            rcases List.mem_cons.1 hm with rfl | hm
            · exact ht
            · exact h2 t' hm
        next => cases h

theorem sharedPath_complete (tests : List ArmTest) (p : List String) (h : ∀ t ∈ tests, testPath t = some p) :
    sharedPath tests (some p) = some p := by
  induction tests with
  | nil => rfl
  | cons t ts ih =>
    rw [sharedPath, h t List.mem_cons_self]
    simp only [if_true]
    exact ih fun t ht => h t (List.mem_cons_of_mem _ ht)

/-- A match block without a default arm is reported as exhaustive exactly when it has arms, all their conditions
are recognised tests of one property, and these cover the type of that property. -/
theorem C42_match_iff (m : MatchB) (scope : VT) (hdef : hasDefault m.arms = false) :
    exhaustive F m scope = true ↔ m.arms ≠ [] ∧ ∃ path, (∀ a ∈ m.arms, testPath (recogniseArm F a.cond) = some path) ∧
      cellsCover (m.arms.map fun a => recogniseArm F a.cond) (resolveAt scope (dotted path)) = true := by
  have htests : armTests F m.arms = m.arms.map fun a => recogniseArm F a.cond := by
    unfold armTests
    rw [List.filter_eq_self.2]
    intro a ha
    by_cases he : a.cond.isEmpty = true
    · have : hasDefault m.arms = true := List.any_eq_true.2 ⟨a, ha, he⟩
      rw [hdef] at this
      cases this
    · simpa using he
  unfold exhaustive
  rw [hdef, Bool.false_or, discriminantCovered, htests]
  constructor
  · intro h
    cases hp : sharedPath (m.arms.map fun a => recogniseArm F a.cond) none with
    | none => rw [hp] at h; cases h
    | some path =>
      rw [hp] at h
      refine ⟨fun e => ?_, path, fun a ha => (sharedPath_spec _ _ _ hp).2 _ (List.mem_map_of_mem ha), h⟩
      rw [e] at hp
      cases hp
  · rintro ⟨hne, path, hpath, hc⟩
    cases hm : m.arms with
    | nil => exact absurd hm hne
    | cons a as =>
      rw [hm] at hpath hc
      have : sharedPath ((a :: as).map fun a => recogniseArm F a.cond) none = some path := by
        rw [List.map_cons, sharedPath, hpath a List.mem_cons_self]
        exact sharedPath_complete _ _ fun t ht => by
          obtain ⟨x, hx, rfl⟩ := List.mem_map.1 ht
          exact hpath x (List.mem_cons_of_mem _ hx)
      rw [this]
      exact hc

theorem testPath_path {t : ArmTest} {p : List String} (h : testPath t = some p) : t.path = p := by
  cases t <;> simp_all [testPath, ArmTest.path]

/-- an arm with a recognised test on a value of the right kind evaluates to what the test says -/
theorem arm_decides {a : Arm} (hne : a.cond ≠ "") {p : List String} (hp : testPath (recogniseArm F a.cond) = some p)
    (hfit : (recogniseArm F a.cond).Fits (valueAt s p)) :
    ((recogniseArm F a.cond).Holds (valueAt s p) → ArmTrue F B s a) ∧
    (¬ (recogniseArm F a.cond).Holds (valueAt s p) → ArmFalse F B s a) := by
  have hpath := testPath_path hp
  unfold recogniseArm at *
  split at hp
  next => cases hp
  next hb =>
    rw [if_neg hb] at hfit hpath ⊢
    cases hf : F .standard a.cond with
    | error e => rw [hf] at hp; cases hp
    | ok n =>
      rw [hf] at hp hfit hpath
      dsimp only at hp hfit hpath ⊢
      have hrec : ArmTest.fromNode n ≠ .unrecognized := by intro h; rw [h] at hp; cases hp
      rw [← hpath] at hfit
      obtain ⟨b, hy, hb⟩ := C25_recognised_decides B s n hrec hfit
      obtain ⟨hc, he⟩ := yields_iff.1 hy
      obtain ⟨code, hc⟩ := hc
      have hrun : freshRun F B s .standard a.cond = .ok (.bool b) := by
        unfold freshRun
        rw [hf]
        dsimp only
        rw [hc]
        dsimp only
        rw [← he]
      rw [hpath] at hb
      refine ⟨fun h => ?_, fun h => ?_⟩
      · rw [hb.2 h] at hrun; exact .inr hrun
      · refine ⟨hne, _, hrun, ?_⟩
        cases b
        · simp
        · exact absurd (hb.1 rfl) h

theorem split_first {α : Type} (P Q : α → Prop) (l : List α) (h : ∀ x ∈ l, P x ∨ Q x) (hex : ∃ x ∈ l, P x) :
    ∃ pre a post, l = pre ++ a :: post ∧ (∀ x ∈ pre, Q x) ∧ P a := by
  induction l with
  | nil => obtain ⟨x, hx, _⟩ := hex; cases hx
  | cons x xs ih =>
    rcases h x List.mem_cons_self with hp | hq
    · exact ⟨[], x, xs, rfl, fun _ h => (nomatch h), hp⟩
    · by_cases hx : P x
      · exact ⟨[], x, xs, rfl, fun _ h => (nomatch h), hx⟩
      · obtain ⟨y, hy, hpy⟩ := hex
        rcases List.mem_cons.1 hy with rfl | hy
        · exact absurd hpy hx
        · obtain ⟨pre, a, post, rfl, h1, h2⟩ := ih (fun y hy => h y (List.mem_cons_of_mem _ hy)) ⟨y, hy, hpy⟩
          refine ⟨x :: pre, a, post, rfl, fun y hy => ?_, h2⟩
          rcases List.mem_cons.1 hy with rfl | hy
          · exact hq
          · exact h1 y hy

/-- A match block without a default arm that is reported as exhaustive: for every value of the discriminant that
has the discriminant's type, the arms up to the first one that holds evaluate without error, that arm is the one
selected, and the block writes the value of that arm. -/
theorem C42_match (m : MatchB) (scope : VT) (hdef : hasDefault m.arms = false) (h : exhaustive F m scope = true)
    (hids : (m.arms.map Arm.id).Nodup) :
    ∃ path, (∀ a ∈ m.arms, (recogniseArm F a.cond).path = path) ∧
      ∀ s : Scope, Inh (resolveAt scope (dotted path)) (valueAt s path) →
        ∃ a ∈ m.arms, ArmTrue F B s a ∧ ∀ extras trace, ∃ sel, m.select F B extras s = .ok sel ∧
          sel.matched = some a.id ∧ ∀ cx r, ArmGives F B cx.scope a r →
            (m.commit F B trace sel cx).map Prod.fst = r.map fun v => if m.key = "" then cx else cx.write m.key v := by
  unfold exhaustive at h
  rw [hdef, Bool.false_or] at h
  have hall : ∀ a ∈ m.arms, a.cond ≠ "" := by
    intro a ha e
    have : hasDefault m.arms = true := List.any_eq_true.2 ⟨a, ha, by simp [e]⟩
    rw [hdef] at this
    cases this
  have htests : armTests F m.arms = m.arms.map fun a => recogniseArm F a.cond := by
    unfold armTests
    rw [List.filter_eq_self.2]
    intro a ha
    simpa using hall a ha
  unfold discriminantCovered at h
  cases hp : sharedPath (armTests F m.arms) none with
  | none => rw [hp] at h; cases h
  | some path =>
    rw [hp] at h
    dsimp only at h
    have hpath := (sharedPath_spec _ _ _ hp).2
    rw [htests] at hpath h
    have hpath : ∀ a ∈ m.arms, testPath (recogniseArm F a.cond) = some path := fun a ha =>
      hpath _ (List.mem_map_of_mem ha)
    refine ⟨path, fun a ha => testPath_path (hpath a ha), fun s hv => ?_⟩
    obtain ⟨hfits, t, ht, hholds⟩ := C42_cover _ _ h _ hv
    obtain ⟨a0, ha0, rfl⟩ := List.mem_map.1 ht
    have hdec := fun a ha => arm_decides (B := B) (s := s) (hall a ha) (hpath a ha) (hfits _ (List.mem_map_of_mem ha))
    obtain ⟨pre, a, post, harms, hpre, ha⟩ := split_first (ArmTrue F B s) (ArmFalse F B s) m.arms
      (fun a ha => by
        by_cases hh : (recogniseArm F a.cond).Holds (valueAt s path)
        · exact .inl ((hdec a ha).1 hh)
        · exact .inr ((hdec a ha).2 hh))
      ⟨a0, ha0, (hdec a0 ha0).1 hholds⟩
    refine ⟨a, by rw [harms]; simp, ha, fun extras trace => ?_⟩
    exact C43_match_first m extras trace pre post a harms hids hpre ha

theorem select_default {extras : Bool} (as : List Arm) : ∀ (sel : MSel),
    (sel.matched ≠ none ∨ hasDefault as = true) → ∀ sel', selectArms F B s extras as sel = .ok sel' →
    sel'.matched ≠ none := by
  induction as with
  | nil =>
    intro sel h sel' hs
    simp only [selectArms, Except.ok.injEq] at hs
    subst hs
    rcases h with h | h
    · exact h
    · cases h
  | cons a as ih =>
    intro sel h sel' hs
    rw [selectArms] at hs
    split at hs
    next hc =>
      cases hs
      rw [Bool.and_eq_true] at hc
      intro e
      rw [e] at hc
      exact absurd hc.1 (by simp)
    next =>
      cases ht : armTest F B s (extras && sel.matched.isSome) a with
      | error e => rw [ht] at hs; cases hs
      | ok b =>
        rw [ht] at hs
        refine ih _ ?_ sel' hs
        by_cases hn : sel.matched = none
        · rcases h with h | h
          · exact absurd hn h
          · by_cases he : a.cond.isEmpty = true
            · unfold armTest at ht
              rw [if_pos he] at ht
              cases ht
              left
              simp [hn]
            · right
              unfold hasDefault at h ⊢
              rw [List.any_cons] at h
              simpa [he] using h
        · left
          simp only [Option.isNone_iff_eq_none, hn, Bool.and_eq_true, and_false, if_false]
          exact hn

/-- With a default arm no condition on the discriminant is needed: a selection never comes out empty. -/
theorem C42_default (m : MatchB) (hdef : hasDefault m.arms = true) (extras : Bool) (s : Scope) (sel : MSel)
    (h : m.select F B extras s = .ok sel) : sel.matched ≠ none :=
  select_default m.arms _ (.inr hdef) sel h

/-! ### From the type of the scope to the type of the discriminant -/

/-- The path leads through object types only (and so does not enter an array or a nullable part). -/
inductive Direct : VT → List String → Prop
  | nil {t} : Direct t []
  | cons {o k t ks} : aGet o k = some t → Direct t ks → Direct (.obj o) (k :: ks)

theorem resolve_direct {t : VT} {ks : List String} (h : Direct t ks) : ∀ v, Inh t v →
    Inh (resolveSegs t ks) (ks.foldl (fun v k => property k v) v) := by
  induction h with
  | nil => intro v hv; exact hv
  | @cons o k t ks hk _ ih =>
    intro v hv
    simp only [Inh] at hv
    obtain ⟨fs, rfl, hf⟩ := hv
    have := (inhFields_iff _ _).1 hf k t (aGet_mem hk)
    have hp : property k (.obj fs) = (aGet fs k).getD .null := rfl
    rw [List.foldl_cons, hp]
    have : resolveSegs (.obj o) (k :: ks) = resolveSegs t ks := by
      show resolveSegs (VT.get (.obj o) k) ks = _
      rw [VT.get, hk]
      rfl
    rw [this]
    exact ih _ (by assumption)

theorem splitDotC_plain (cs : List Char) (h : '.' ∉ cs) : splitDotC cs = [cs] := by
  induction cs with
  | nil => rfl
  | cons c r ih =>
    rw [List.mem_cons, not_or] at h
    have hc : ¬ c = '.' := fun e => h.1 e.symm
    rw [splitDotC, if_neg hc, ih h.2]

theorem splitDotC_join (cs : List Char) (rest : List Char) (h : '.' ∉ cs) :
    splitDotC (cs ++ '.' :: rest) = cs :: splitDotC rest := by
  induction cs with
  | nil => simp [splitDotC]
  | cons c r ih =>
    rw [List.mem_cons, not_or] at h
    have hc : ¬ c = '.' := fun e => h.1 e.symm
    rw [List.cons_append, splitDotC, if_neg hc, ih h.2]

theorem splitDot_dotted (path : List String) (hne : path ≠ []) (h : ∀ k ∈ path, '.' ∉ k.toList) :
    splitDot (dotted path) = path := by
  have key : ∀ l : List (List Char), l ≠ [] → (∀ k ∈ l, '.' ∉ k) → splitDotC (List.intercalate ['.'] l) = l := by
    intro l
    induction l with
    | nil => intro h; exact absurd rfl h
    | cons k ks ih =>
      intro _ h
      cases ks with
      | nil => simpa [List.intercalate] using splitDotC_plain k (h k (by simp))
      | cons k' ks =>
        have : List.intercalate ['.'] (k :: k' :: ks) = k ++ '.' :: List.intercalate ['.'] (k' :: ks) := by
          simp [List.intercalate]
        rw [this, splitDotC_join k _ (h k (by simp)), ih (by simp) fun x hx => h x (List.mem_cons_of_mem _ hx)]
  unfold splitDot dotted
  rw [String.toList_ofList, key _ (by simpa using hne) (by simpa using h), List.map_map]
  simp [Function.comp_def]

/-- The value at a path that leads through object types has the type the analysis gives it, in a scope whose
value has the scope's type. -/
theorem C42_typed (scope : VT) (path : List String) (hne : path ≠ []) (hdots : ∀ k ∈ path, '.' ∉ k.toList)
    (hdir : Direct scope path) (s : Scope) (hloc : ∀ k ∈ path.head?, s.local_ k = none) (hs : Inh scope s.base) :
    Inh (resolveAt scope (dotted path)) (valueAt s path) := by
  rw [resolveAt, splitDot_dotted path hne hdots]
  cases hdir with
  | nil => exact absurd rfl hne
  | @cons o k t ks hk hd =>
    have hr := resolve_direct (.cons hk hd) _ hs
    have : valueAt s (k :: ks) = (k :: ks).foldl (fun v k => property k v) s.base := by
      simp only [Inh] at hs
      obtain ⟨fs, hb, _⟩ := hs
      rw [valueAt, List.foldl_cons, Scope.get, hloc k (by simp), hb]
      rfl
    rw [this]
    exact hr

/-- So a block reported as exhaustive whose discriminant is reached through required objects always selects an
arm, on every input of the declared type. -/
theorem C42_well_typed (m : MatchB) (scope : VT) (h : exhaustive F m scope = true)
    (hids : (m.arms.map Arm.id).Nodup) (extras : Bool) (s : Scope) (hs : Inh scope s.base)
    (hpath : ∀ a ∈ m.arms, ∀ p, testPath (recogniseArm F a.cond) = some p → p ≠ [] ∧ (∀ k ∈ p, '.' ∉ k.toList) ∧
      Direct scope p ∧ ∀ k ∈ p.head?, s.local_ k = none)
    (sel : MSel) (hsel : m.select F B extras s = .ok sel) : ∃ a ∈ m.arms, sel.matched = some a.id := by
  cases hdef : hasDefault m.arms with
  | true =>
    cases hm : sel.matched with
    | none => exact absurd hm (C42_default m hdef extras s sel hsel)
    | some id =>
      have key : ∀ (as : List Arm) (sl sl' : MSel), selectArms F B s extras as sl = .ok sl' →
          sl'.matched = some id → sl.matched = some id ∨ ∃ a ∈ as, a.id = id := by
        intro as
        induction as with
        | nil => intro sl sl' h h'; simp only [selectArms, Except.ok.injEq] at h; subst h; exact .inl h'
        | cons a as ih =>
          intro sl sl' h h'
          rw [selectArms] at h
          split at h
          next => cases h; exact .inl h'
          next =>
            cases ht : armTest F B s (extras && sl.matched.isSome) a with
            | error e => rw [ht] at h; cases h
            | ok b =>
              rw [ht] at h
              rcases ih _ _ h h' with h | ⟨x, hx, e⟩
              · dsimp only at h
                split at h
                next => cases h; exact .inr ⟨a, List.mem_cons_self, rfl⟩
                next => exact .inl h
              · exact .inr ⟨x, List.mem_cons_of_mem _ hx, e⟩
      rcases key m.arms _ sel hsel hm with h | ⟨a, ha, e⟩
      · cases h
      · exact ⟨a, ha, by rw [e]⟩
  | false =>
    obtain ⟨path, hp, hall⟩ := C42_match (B := B) m scope hdef h hids
    have hdirect : Inh (resolveAt scope (dotted path)) (valueAt s path) := by
      have h' := h
      unfold exhaustive at h'
      rw [hdef, Bool.false_or] at h'
      unfold discriminantCovered at h'
      cases hsp : sharedPath (armTests F m.arms) none with
      | none => rw [hsp] at h'; cases h'
      | some q =>
        cases hm : m.arms with
        | nil => rw [hm] at hsp; cases hsp
        | cons a as =>
          have ha : a ∈ m.arms := by rw [hm]; simp
          have hc : a.cond ≠ "" := by
            intro e
            have : hasDefault m.arms = true := List.any_eq_true.2 ⟨a, ha, by simp [e]⟩
            rw [hdef] at this
            cases this
          have hmem : recogniseArm F a.cond ∈ armTests F m.arms := by
            unfold armTests
            exact List.mem_map.2 ⟨a, List.mem_filter.2 ⟨ha, by simpa using hc⟩, rfl⟩
          have htp := (sharedPath_spec _ _ _ hsp).2 _ hmem
          have : q = path := by rw [← testPath_path htp, hp a ha]
          subst this
          obtain ⟨g1, g2, g3, g4⟩ := hpath a ha q htp
          exact C42_typed scope q g1 g2 g3 s g4 hs
    obtain ⟨a, ha, _, hsel'⟩ := hall s hdirect
    obtain ⟨sel', h1, h2, _⟩ := hsel' extras false
    rw [hsel] at h1
    cases h1
    exact ⟨a, ha, h2⟩

/-- The path leads to a part whose type is not known: a property that is not declared, or anything below `any`. -/
inductive Unknown : VT → List String → Prop
  | any {ks} : Unknown .any ks
  | missing {o k ks} : aGet o k = none → Unknown (.obj o) (k :: ks)
  | field {o k t ks} : aGet o k = some t → Unknown t ks → Unknown (.obj o) (k :: ks)

theorem resolve_any : ∀ ks, resolveSegs .any ks = .any
  | [] => rfl
  | _ :: _ => rfl

theorem resolve_unknown {t : VT} {ks : List String} (h : Unknown t ks) : resolveSegs t ks = .any := by
  induction h with
  | any => exact resolve_any _
  | @missing o k ks hk =>
    show resolveSegs ((VT.obj o).get k) ks = .any
    rw [VT.get, hk]
    exact resolve_any _
  | @field o k t ks hk _ ih =>
    show resolveSegs ((VT.obj o).get k) ks = .any
    rw [VT.get, hk]
    exact ih

/-- Arms on a property that is not declared never count as exhaustive. -/
theorem C42_unknown (m : MatchB) (scope : VT) (hdef : hasDefault m.arms = false)
    (a : Arm) (ha : a ∈ m.arms) (path : List String) (hp : testPath (recogniseArm F a.cond) = some path)
    (hne : path ≠ []) (hdots : ∀ k ∈ path, '.' ∉ k.toList) (hu : Unknown scope path) :
    exhaustive F m scope = false := by
  cases h : exhaustive F m scope with
  | false => rfl
  | true =>
    obtain ⟨_, p, h1, h2⟩ := (C42_match_iff m scope hdef).1 h
    have := h1 a ha
    rw [hp] at this
    cases this
    rw [resolveAt, splitDot_dotted path hne hdots, resolve_unknown hu] at h2
    cases h2

/-! ### Tables -/

theorem mem_aReplace_cases {V : Type} {l : List (String × V)} {k : String} {v : V} {x : String × V}
    (h : x ∈ aReplace l k v) : x ∈ l ∨ x = (k, v) := by
  induction l with
  | nil => exact .inl h
  | cons y l ih =>
    simp only [aReplace] at h
    split at h
    next e =>
      rcases List.mem_cons.1 h with rfl | h
      · exact .inr (by simp [← e])
      · exact .inl (List.mem_cons_of_mem _ h)
    next =>
      rcases List.mem_cons.1 h with rfl | h
      · exact .inl List.mem_cons_self
      · exact (ih h).imp (List.mem_cons_of_mem _) id

theorem mem_aSet_cases {V : Type} {l : List (String × V)} {k : String} {v : V} {x : String × V} (h : x ∈ aSet l k v) :
    x ∈ l ∨ x = (k, v) := by
  unfold aSet at h
  split at h
  · exact mem_aReplace_cases h
  · rcases List.mem_append.1 h with h | h
    · exact .inl h
    · exact .inr (List.mem_singleton.1 h)

theorem cellGroups_spec (t : PTable) (rows : List Rule) : ∀ (g : List (String × List ArmTest)) (P : Rule → Prop),
    (∀ r ∈ rows, P r) →
    (∀ id tests, (id, tests) ∈ g → ∀ x ∈ tests, ∃ rule ic f cell, P rule ∧ constrained t rule = [ic] ∧ ic.id = id ∧
      fieldOf ic = some f ∧ cellOf rule ic.id = some cell ∧ x = recogniseCell F cell) →
    (aKeys g).Nodup →
    ∀ id tests, (id, tests) ∈ cellGroups F t rows g → ∀ x ∈ tests, ∃ rule ic f cell, P rule ∧
      constrained t rule = [ic] ∧ ic.id = id ∧ fieldOf ic = some f ∧ cellOf rule ic.id = some cell ∧
      x = recogniseCell F cell := by
  induction rows with
  | nil => intro g P _ hg _; exact hg
  | cons rule rows ih =>
    intro g P hP hg nd
    have hP' : ∀ r ∈ rows, P r := fun r hr => hP r (List.mem_cons_of_mem _ hr)
    rw [cellGroups]
    split
    next ic hc =>
      split
      next f cell hf hcell =>
        refine ih _ P hP' ?_ (aKeys_aSet_nodup _ _ nd)
        intro id tests hm x hx
        have hget := aGet_of_mem (aKeys_aSet_nodup _ _ nd) hm
        rw [aGet_aSet] at hget
        split at hget
        next e =>
          cases hget
          rcases List.mem_append.1 hx with hx | hx
          · cases hgg : aGet g ic.id with
            | none => rw [hgg] at hx; cases hx
            | some ts =>
              rw [hgg] at hx
              obtain ⟨r, i, f', c', h⟩ := hg ic.id ts (aGet_mem hgg) x hx
              exact ⟨r, i, f', c', h.1, h.2.1, h.2.2.1.trans e.symm, h.2.2.2⟩
          · rw [List.mem_singleton] at hx
            exact ⟨rule, ic, f, cell, hP rule List.mem_cons_self, hc, e.symm, hf, hcell, hx⟩
        next => exact hg id tests (aGet_mem hget) x hx
      next => exact ih _ P hP' hg nd
    next => exact ih _ P hP' hg nd

theorem cellGroups_ne (t : PTable) : ∀ (rows : List Rule) (g : List (String × List ArmTest)),
    (∀ x ∈ g, x.2 ≠ []) → ∀ x ∈ cellGroups F t rows g, x.2 ≠ [] := by
  intro rows
  induction rows with
  | nil => intro g hg; exact hg
  | cons rule rows ih =>
    intro g hg
    rw [cellGroups]
    split
    next ic _ =>
      split
      next f cell _ _ =>
        refine ih _ fun x hx => ?_
        have : x ∈ g ∨ x = (ic.id, (aGet g ic.id).getD [] ++ [recogniseCell F cell]) := mem_aSet_cases hx
        rcases this with h | rfl
        · exact hg x h
        · simp
      next => exact ih _ hg
    next => exact ih _ hg

theorem cell_decides {cell : String} {v : Val} (hne : recogniseCell F cell ≠ .dflt)
    (hh : (recogniseCell F cell).Holds v) :
    freshRun F B (s.setLocal "$" v) .unary cell = .ok (.bool true) := by
  unfold recogniseCell at hh hne
  split at hh
  next hb => rw [if_pos hb] at hne; exact absurd rfl hne
  next =>
    cases hf : F .unary cell with
    | error e => rw [hf] at hh; exact hh.elim
    | ok n =>
      rw [hf] at hh
      dsimp only at hh
      split at hh
      next hr =>
        have hrec : ArmTest.fromNode n ≠ .unrecognized := by intro h; rw [h] at hh; exact hh
        have hpath : (ArmTest.fromNode n).path = ["$"] := by
          revert hr hh
          cases ArmTest.fromNode n <;> simp +contextual [onReference, ArmTest.path, ArmTest.Holds]
        have hval : valueAt (s.setLocal "$" v) (ArmTest.fromNode n).path = v := by
          rw [hpath]
          simp [valueAt, Scope.get, Scope.local_, Scope.setLocal, aGet_aSet]
        obtain ⟨hc, hi⟩ := C25_recognised_true_iff B (s.setLocal "$" v) n hrec
        rw [hval] at hi
        obtain ⟨⟨code, hc⟩, he⟩ := yields_iff.1 (hi.2 hh)
        unfold freshRun
        rw [hf]
        dsimp only
        rw [hc]
        dsimp only
        rw [← he]
      next => exact hh.elim

/-- A table column that is reported as exhaustive: when the input columns evaluate to values of their types, some
row with a cell in that column matches. -/
theorem C42_column (t : PTable) (col : OCol) (types : List (String × VT)) (h : columnCovered F t col types = true)
    (s : Scope) (htyped : ∀ ic ∈ t.inputs, ∀ f, fieldOf ic = some f → ∀ ty, aGet types ic.id = some ty →
      ∃ v, freshRun F B s .standard f = .ok v ∧ Inh ty v) :
    ∃ i rule cell, RowAt F B s t i rule ∧ cellOf rule col.id = some cell := by
  have finish : ∀ rule ∈ t.rules, (cellOf rule col.id).isSome = true → RowHolds F B s t.asTable rule →
      ∃ i rule cell, RowAt F B s t i rule ∧ cellOf rule col.id = some cell := by
    intro rule hr hc hh
    obtain ⟨i, hi⟩ := List.mem_iff_getElem?.1 hr
    obtain ⟨cell, hcell⟩ := Option.isSome_iff_exists.1 hc
    exact ⟨i, rule, cell, ⟨hi, hh⟩, hcell⟩
  unfold columnCovered at h
  dsimp only at h
  split at h
  next => cases h
  next =>
    split at h
    next hany =>
      obtain ⟨rule, hr, hall⟩ := List.any_eq_true.1 hany
      rw [List.mem_filter] at hr
      refine finish rule hr.1 hr.2 ?_
      intro inp hinp cell hcell
      obtain ⟨ic, hic, rfl⟩ := List.mem_map.1 hinp
      have := List.all_eq_true.1 hall ic hic
      have hid : (normIn ic).id = ic.id := rfl
      rw [hid] at hcell
      rw [hcell] at this
      cases this
    next =>
      obtain ⟨⟨id, tests⟩, hg, hcov⟩ := List.any_eq_true.1 h
      dsimp only at hcov
      cases hty : aGet types id with
      | none => rw [hty] at hcov; cases hcov
      | some ty =>
        rw [hty] at hcov
        dsimp only at hcov
        have hspec := cellGroups_spec (F := F) t _ []
          (fun rule => rule ∈ t.rules ∧ (cellOf rule col.id).isSome = true)
          (fun r hr => List.mem_filter.1 hr) (fun _ _ h => (nomatch h)) (by simp) id tests hg
        -- the column the tests are about
        have hne : tests ≠ [] := cellGroups_ne t _ [] (fun _ h => (nomatch h)) _ hg
        obtain ⟨x0, xs, rfl⟩ := List.exists_cons_of_ne_nil hne
        obtain ⟨rule0, ic0, f0, cell0, -, hc0, hid0, hf0, -, -⟩ := hspec x0 List.mem_cons_self
        have hic0 : ic0 ∈ t.inputs := by
          have : ic0 ∈ constrained t rule0 := by rw [hc0]; simp
          exact (List.mem_filter.1 this).1
        obtain ⟨v, hv, hinh⟩ := htyped ic0 hic0 f0 hf0 ty (by rw [hid0]; exact hty)
        obtain ⟨hfits, x, hx, hholds⟩ := C42_cover _ _ hcov v hinh
        obtain ⟨rule, ic, f, cell, ⟨hr, hcol⟩, hc, hid, hf, hcell, rfl⟩ := hspec x hx
        refine finish rule hr hcol ?_
        intro inp hinp cell' hcell'
        obtain ⟨ic', hic', rfl⟩ := List.mem_map.1 hinp
        have hid' : (normIn ic').id = ic'.id := rfl
        rw [hid'] at hcell'
        have hmem : ic' ∈ constrained t rule := List.mem_filter.2 ⟨hic', by rw [hcell']; rfl⟩
        rw [hc, List.mem_singleton] at hmem
        subst hmem
        rw [hcell] at hcell'
        cases hcell'
        have hic : ic' = ic0 := by
          have h0 : ic0 ∈ constrained t rule := List.mem_filter.2 ⟨hic0, by rw [hid0, ← hid, hcell]; rfl⟩
          rw [hc, List.mem_singleton] at h0
          exact h0.symm
        subst hic
        rw [hf] at hf0
        have hf0 := Option.some.inj hf0
        subst hf0
        have hnf : (normIn ic').field = some f := hf
        unfold CellHolds
        rw [hnf]
        refine ⟨v, hv, cell_decides ?_ hholds⟩
        intro e
        rw [e] at hholds
        exact hholds

/-- The tests in the cells of a column, from the rows that have a cell in no other input column. -/
def soleTests (F : FrontEnd) (t : PTable) (ic : TInput) (rows : List Rule) : List ArmTest :=
  rows.filterMap fun rule => match cellOf rule ic.id with
    | some cell =>
      if ∀ ic' ∈ t.inputs, ic'.id ≠ ic.id → cellOf rule ic'.id = none then some (recogniseCell F cell) else none
    | none => none

theorem constrained_sole (t : PTable) (hids : (t.inputs.map TInput.id).Nodup) (ic : TInput) (hic : ic ∈ t.inputs)
    (rule : Rule) : constrained t rule = [ic] ↔
      (∃ cell, cellOf rule ic.id = some cell) ∧ ∀ ic' ∈ t.inputs, ic'.id ≠ ic.id → cellOf rule ic'.id = none := by
  have hinj : ∀ x ∈ t.inputs, ∀ y ∈ t.inputs, x.id = y.id → x = y := by
    intro x hx y hy e
    exact List.inj_on_of_nodup_map hids hx hy e
  have hnd : t.inputs.Nodup := List.Nodup.of_map _ hids
  constructor
  · intro h
    constructor
    · have : ic ∈ constrained t rule := by rw [h]; simp
      exact Option.isSome_iff_exists.1 (List.mem_filter.1 this).2
    · intro ic' h1 h2
      cases hc : cellOf rule ic'.id with
      | none => rfl
      | some c =>
        have : ic' ∈ constrained t rule := List.mem_filter.2 ⟨h1, by rw [hc]; rfl⟩
        rw [h, List.mem_singleton] at this
        exact absurd (congrArg TInput.id this) h2
  · rintro ⟨⟨cell, hc⟩, h⟩
    have hm : ∀ x, x ∈ constrained t rule ↔ x = ic := by
      intro x
      constructor
      · intro hx
        obtain ⟨h1, h2⟩ := List.mem_filter.1 hx
        by_contra hne
        rw [h x h1 (fun e => hne (hinj x h1 ic hic e))] at h2
        cases h2
      · rintro rfl
        exact List.mem_filter.2 ⟨hic, by rw [hc]; rfl⟩
    have hn : (constrained t rule).Nodup := hnd.filter _
    generalize constrained t rule = l at hm hn
    match l, hm, hn with
    | [], hm, _ => exact absurd ((hm ic).2 rfl) (by simp)
    | [x], hm, _ => rw [(hm x).1 (by simp)]
    | x :: y :: r, hm, hn =>
      rw [(hm x).1 (by simp), (hm y).1 (by simp)] at hn
      simp at hn

open Classical in
theorem soleTests_cons (t : PTable) (hids : (t.inputs.map TInput.id).Nodup) (ic : TInput) (hic : ic ∈ t.inputs)
    (rule : Rule) (rows : List Rule) : soleTests F t ic (rule :: rows) =
      (if constrained t rule = [ic] then ((cellOf rule ic.id).map (recogniseCell F)).toList else []) ++
        soleTests F t ic rows := by
  have hs := constrained_sole t hids ic hic rule
  unfold soleTests
  rw [List.filterMap_cons]
  cases hc : cellOf rule ic.id with
  | none =>
    rw [if_neg]
    · rfl
    · rw [hs]; rintro ⟨⟨c, h⟩, _⟩; rw [hc] at h; cases h
  | some cell =>
    by_cases h : ∀ ic' ∈ t.inputs, ic'.id ≠ ic.id → cellOf rule ic'.id = none
    · rw [if_pos (hs.2 ⟨⟨cell, hc⟩, h⟩)]
      simp only [if_pos h]
      rfl
    · rw [if_neg (fun h' => h (hs.1 h').2)]
      simp only [if_neg h]
      rfl

theorem cellGroups_nodup (t : PTable) (rows : List Rule) : ∀ (g : List (String × List ArmTest)), (aKeys g).Nodup →
    (aKeys (cellGroups F t rows g)).Nodup := by
  induction rows with
  | nil => intro g h; exact h
  | cons rule rows ih =>
    intro g h
    rw [cellGroups]
    split
    next =>
      split
      next => exact ih _ (aKeys_aSet_nodup _ _ h)
      next => exact ih _ h
    next => exact ih _ h

/-- the groups are, for each input column with a field, the tests of the rows that constrain it alone -/
theorem cellGroups_get (t : PTable) (hids : (t.inputs.map TInput.id).Nodup) (ic : TInput) (hic : ic ∈ t.inputs)
    (hf : fieldOf ic ≠ none) (rows : List Rule) : ∀ (g : List (String × List ArmTest)),
    (aGet (cellGroups F t rows g) ic.id).getD [] = (aGet g ic.id).getD [] ++ soleTests F t ic rows := by
  induction rows with
  | nil => intro g; simp [cellGroups, soleTests]
  | cons rule rows ih =>
    classical
    intro g
    rw [soleTests_cons t hids ic hic, cellGroups]
    split
    next ic' hc' =>
      by_cases he : ic' = ic
      · subst he
        rw [if_pos hc']
        obtain ⟨f, hf⟩ := Option.ne_none_iff_exists'.1 hf
        obtain ⟨⟨cell, hcell⟩, _⟩ := (constrained_sole t hids ic' hic rule).1 hc'
        rw [hf, hcell]
        simp only
        rw [ih, aGet_aSet, if_pos rfl]
        simp
      · rw [if_neg (by rw [hc']; simpa using he), List.nil_append]
        have hin : ic' ∈ t.inputs := by
          have : ic' ∈ constrained t rule := by rw [hc']; simp
          exact (List.mem_filter.1 this).1
        have hid : ic.id ≠ ic'.id := fun e => he (List.inj_on_of_nodup_map hids hic hin e).symm
        split
        next => rw [ih, aGet_aSet, if_neg hid]
        next => exact ih g
    next h =>
      rw [if_neg (fun e => h ic e), List.nil_append]
      exact ih g

/-- A table column is reported as exhaustive exactly when a row with a cell in it has no conditions, or the rows
with a cell in it that have a condition in one input column only cover the type of that column. -/
theorem C42_column_iff (t : PTable) (hids : (t.inputs.map TInput.id).Nodup) (col : OCol) (types : List (String × VT)) :
    columnCovered F t col types = true ↔
      (∃ rule ∈ t.rules, cellOf rule col.id ≠ none ∧ ∀ ic ∈ t.inputs, cellOf rule ic.id = none) ∨
      ∃ ic ∈ t.inputs, ∃ ty, fieldOf ic ≠ none ∧ aGet types ic.id = some ty ∧
        soleTests F t ic (t.rules.filter fun r => (cellOf r col.id).isSome) ≠ [] ∧
        cellsCover (soleTests F t ic (t.rules.filter fun r => (cellOf r col.id).isSome)) ty = true := by
  unfold columnCovered
  dsimp only
  generalize hrows : (t.rules.filter fun r => (cellOf r col.id).isSome) = rows
  have hmem : ∀ r, r ∈ rows ↔ r ∈ t.rules ∧ cellOf r col.id ≠ none := by
    intro r; rw [← hrows, List.mem_filter, Option.isSome_iff_ne_none]
  have hcatch : (∃ rule ∈ t.rules, cellOf rule col.id ≠ none ∧ ∀ ic ∈ t.inputs, cellOf rule ic.id = none) ↔
      (rows.any fun rule => t.inputs.all fun ic => (cellOf rule ic.id).isNone) = true := by
    rw [List.any_eq_true]
    constructor
    · rintro ⟨r, h1, h2, h3⟩
      exact ⟨r, (hmem r).2 ⟨h1, h2⟩, List.all_eq_true.2 fun ic hic => by rw [h3 ic hic]; rfl⟩
    · rintro ⟨r, h1, h2⟩
      refine ⟨r, ((hmem r).1 h1).1, ((hmem r).1 h1).2, fun ic hic => ?_⟩
      have := List.all_eq_true.1 h2 ic hic
      exact Option.isNone_iff_eq_none.1 this
  rw [hcatch]
  cases rows with
  | nil => simp [soleTests]
  | cons r0 rs =>
    rw [show (r0 :: rs).isEmpty = false from rfl, if_neg (by simp)]
    split
    next h => simp [h]
    next h =>
      rw [or_iff_right h]
      constructor
      · intro hany
        obtain ⟨⟨id, tests⟩, hg, hcov⟩ := List.any_eq_true.1 hany
        dsimp only at hcov
        cases hty : aGet types id with
        | none => rw [hty] at hcov; cases hcov
        | some ty =>
          rw [hty] at hcov
          have hne : tests ≠ [] := cellGroups_ne t _ [] (fun _ h => (nomatch h)) _ hg
          have hspec := cellGroups_spec (F := F) t (r0 :: rs) [] (fun _ => True) (fun _ _ => trivial)
            (fun _ _ h => (nomatch h)) (by simp) id tests hg
          obtain ⟨x0, xs, hx⟩ := List.exists_cons_of_ne_nil hne
          obtain ⟨rule, ic, f, cell, _, hc, hid, hf, _⟩ := hspec x0 (by rw [hx]; simp)
          have hic : ic ∈ t.inputs := by
            have : ic ∈ constrained t rule := by rw [hc]; simp
            exact (List.mem_filter.1 this).1
          have hfn : fieldOf ic ≠ none := by rw [hf]; simp
          have hget := cellGroups_get (F := F) t hids ic hic hfn (r0 :: rs) []
          have hg' := aGet_of_mem (cellGroups_nodup (F := F) t (r0 :: rs) [] (by simp)) hg
          simp only [aGet, Option.getD_none, List.nil_append] at hget
          rw [hid, hg', Option.getD_some] at hget
          exact ⟨ic, hic, ty, hfn, by rw [hid]; exact hty, by rw [← hget]; exact hne, by rw [← hget]; exact hcov⟩
      · rintro ⟨ic, hic, ty, hf, hty, hne, hcov⟩
        have hget := cellGroups_get (F := F) t hids ic hic hf (r0 :: rs) []
        simp only [aGet, Option.getD_none, List.nil_append] at hget
        cases hg : aGet (cellGroups F t (r0 :: rs) []) ic.id with
        | none => rw [hg] at hget; exact absurd hget.symm hne
        | some ts =>
          rw [hg] at hget
          have : ts = _ := hget
          refine List.any_eq_true.2 ⟨(ic.id, ts), aGet_mem hg, ?_⟩
          dsimp only
          rw [hty, this]
          exact hcov

/-- So in every selection the column has a cell to take its value from, and is never set to null for want of a
row. -/
theorem C42_column_value (t : PTable) (col : OCol) (hcol : col ∈ t.active) (types : List (String × VT))
    (h : columnCovered F t col types = true) (s : Scope)
    (htyped : ∀ ic ∈ t.inputs, ∀ f, fieldOf ic = some f → ∀ ty, aGet types ic.id = some ty →
      ∃ v, freshRun F B s .standard f = .ok v ∧ Inh ty v) (ht : Tidy F t.asTable) (extras indexed : Bool) (sel : TSel)
    (hsel : t.select F B extras (ixOf F t indexed) s = .ok sel) :
    (∃ i, (i, col.id) ∈ sel.used) ∧ ∀ s2 v, ScalarIs F B s s2 t col v →
      ∃ i rule cell, RowAt F B s t i rule ∧ cellOf rule col.id = some cell ∧ freshRun F B s2 .standard cell = .ok v := by
  obtain ⟨i, rule, cell, hrow, hcell⟩ := C42_column (B := B) t col types h s htyped
  have hspec := C43_table_select ht extras indexed sel hsel
  constructor
  · have hex : ∃ j, ∃ rule, RowAt F B s t j rule ∧ cellOf rule col.id ≠ none := ⟨i, rule, hrow, by rw [hcell]; simp⟩
    classical
    obtain ⟨r, h1, h2⟩ := Nat.find_spec hex
    refine ⟨Nat.find hex, (hspec.used _ _).2 ⟨col, hcol, rfl, r, h1, h2, .inr ?_⟩⟩
    rintro ⟨j, rule', hj, hr', hc'⟩
    exact Nat.find_min hex hj ⟨rule', hr', hc'⟩
  · rintro s2 v (⟨i, rule, cell, h1, h2, h3, _⟩ | ⟨_, hnone⟩)
    · exact ⟨i, rule, cell, h1, h2, h3⟩
    · rw [hnone i rule hrow] at hcell; cases hcell

/-! ### Where the report is wrong -/

/-- `c == true` and `c == false` for the path `c` -/
def isTrue (c : Node) : Node := .binary (.cmp .eq) c (.bool true)
def isFalse (c : Node) : Node := .binary (.cmp .eq) c (.bool false)

/-- expressions on `a.b` and on `a["b.c"]` -/
def covFront : FrontEnd := fun _ src =>
  if src = "a.b == true" then .ok (isTrue (.member (.ident "a") (.str "b")))
  else if src = "a.b == false" then .ok (isFalse (.member (.ident "a") (.str "b")))
  else if src = "a['b.c'] == true" then .ok (isTrue (.member (.ident "a") (.str "b.c")))
  else if src = "a['b.c'] == false" then .ok (isFalse (.member (.ident "a") (.str "b.c")))
  else .error (.front "unexpected")

def covMatch : MatchB :=
  { key := "out", arms := [⟨"1", "a.b == true", "'yes'"⟩, ⟨"2", "a.b == false", "'no'"⟩] }

/-- Negative: with an optional parent the arms on a required property of it count as exhaustive, although the
block falls through when the parent is null. -/
theorem C42_nullable_parent :
    let scope : VT := .obj [("a", .nullable (.obj [("b", .bool)]))]
    let input : Val := .obj [("a", .null)]
    exhaustive covFront covMatch scope = true ∧ Inh scope input ∧
      ∃ sel, covMatch.select covFront demoB false { base := input } = .ok sel ∧ sel.matched = none := by
  refine ⟨by decide, ?_, _, rfl, rfl⟩
  simp [Inh, InhFields, aGet]

/-- Negative: a path into an array is given the type of the elements, although at run time a property of an array
is null. -/
theorem C42_array_parent :
    let scope : VT := .obj [("a", .arr (.obj [("b", .bool)]))]
    let input : Val := .obj [("a", .arr [.obj [("b", .bool true)]])]
    exhaustive covFront covMatch scope = true ∧ Inh scope input ∧
      ∃ sel, covMatch.select covFront demoB false { base := input } = .ok sel ∧ sel.matched = none := by
  refine ⟨by decide, ?_, _, rfl, rfl⟩
  simp [Inh, InhFields, aGet]

/-- Negative: and so is a path into arrays of arrays. -/
theorem C42_nested_array_parent :
    let scope : VT := .obj [("a", .arr (.nullable (.arr (.arr (.obj [("b", .bool)])))))]
    let input : Val := .obj [("a", .arr [])]
    exhaustive covFront covMatch scope = true ∧ Inh scope input ∧
      ∃ sel, covMatch.select covFront demoB false { base := input } = .ok sel ∧ sel.matched = none := by
  refine ⟨by decide, ?_, _, rfl, rfl⟩
  simp [Inh, InhFields, aGet]

/-- Negative: the path is written out with dots and split again, so `a["b.c"]` is given the type of `a.b.c`. -/
theorem C42_dotted_key :
    let m : MatchB := { key := "out", arms := [⟨"1", "a['b.c'] == true", "'yes'"⟩, ⟨"2", "a['b.c'] == false", "'no'"⟩] }
    let scope : VT := .obj [("a", .obj [("b", .obj [("c", .bool)])])]
    let input : Val := .obj [("a", .obj [("b", .obj [("c", .bool true)])])]
    exhaustive covFront m scope = true ∧ Inh scope input ∧
      ∃ sel, m.select covFront demoB false { base := input } = .ok sel ∧ sel.matched = none := by
  refine ⟨by decide, ?_, _, rfl, rfl⟩
  simp [Inh, InhFields, aGet]

/-! ### Concrete cases -/

/-- a required parent: the report is right -/
example : let scope : VT := .obj [("a", .obj [("b", .bool)])]
    ∀ input, Inh scope input → ∀ sel, covMatch.select covFront demoB false { base := input } = .ok sel →
      ∃ a ∈ covMatch.arms, sel.matched = some a.id := by
  intro scope input h sel hsel
  refine C42_well_typed covMatch scope (by decide) (by decide) false { base := input } h ?_ sel hsel
  intro a ha p hp
  have : p = ["a", "b"] := by
    simp only [covMatch, List.mem_cons, List.not_mem_nil, or_false] at ha
    rcases ha with rfl | rfl <;> revert hp <;> decide +revert
  subst this
  refine ⟨by simp, by decide, .cons (t := .obj [("b", .bool)]) rfl (.cons rfl .nil), fun _ _ => rfl⟩

/-- enumerations and number ranges -/
example : cellsCover [.enum ["x"] ["a", "b"], .enum ["x"] ["c"]] (.enum none ["c", "a"]) = true ∧
    cellsCover [.enum ["x"] ["a", "b"], .enum ["x"] ["c"]] (.nullable (.enum none ["c", "a"])) = false ∧
    cellsCover [.bool ["x"] [true], .bool ["x"] [true]] .bool = false := by decide

example : cellsCover [.number ["x"] [⟨.unbounded, .excl 18⟩], .number ["x"] [⟨.incl 18, .unbounded⟩]] .number = true := by
  show Cover.isTotal _ = true
  rw [C24_total_iff_covers]
  intro x
  by_cases h : x < 18
  · exact ⟨⟨.unbounded, .excl 18⟩, by simp [Cover.mergedWith], by simpa [Seg.Has, Bnd.Above, Bnd.Below] using h⟩
  · exact ⟨⟨.incl 18, .unbounded⟩, by simp [Cover.mergedWith], by
      simpa [Seg.Has, Bnd.Above, Bnd.Below] using Rat.not_lt.1 h⟩

/-- a table with one boolean input column -/
def covTable : PTable :=
  { inputs := [⟨"i", some "a.b"⟩]
    outputs := [⟨"o", "out", false⟩]
    rules := [[("i", "true"), ("o", "1")], [("i", "false"), ("o", "2")]] }
def covTableFront : FrontEnd := fun k src => match k with
  | .unary =>
    if src = "true" then .ok (isTrue (.ident "$"))
    else if src = "false" then .ok (isFalse (.ident "$"))
    else .error (.front "unexpected")
  | .standard =>
    if src = "a.b" then .ok (.member (.ident "a") (.str "b"))
    else if src = "1" then .ok (.num 1)
    else if src = "2" then .ok (.num 2)
    else .error (.front "unexpected")

example : columnCovered covTableFront covTable ⟨"o", "out", false⟩ [("i", .bool)] = true := by decide

example (b : Bool) : ∃ i rule cell, RowAt covTableFront demoB { base := .obj [("a", .obj [("b", .bool b)])] } covTable i rule ∧
    cellOf rule "o" = some cell := by
  refine C42_column (B := demoB) covTable ⟨"o", "out", false⟩ [("i", .bool)] (by decide) _ ?_
  intro ic hic f hf ty hty
  simp only [covTable, List.mem_singleton] at hic
  subst hic
  have hf : some "a.b" = some f := hf
  have hty : some VT.bool = some ty := hty
  cases hf
  cases hty
  exact ⟨.bool b, rfl, by simp [Inh]⟩

end Zen.Policy
