import Verif.Workspace.Search
import Mathlib.Data.Nat.Find
import Mathlib.Order.Lattice

/-! # Lemmas on the search of texts -/

namespace Zen
namespace Search

open scoped List

/-- `tok` stands in `hay` at position `i` -/
def At (hay tok : Text) (i : Nat) : Prop := tok <+: hay.drop i

theorem at_take {hay tok : Text} {i : Nat} : (hay.drop i).take tok.length = tok ↔ At hay tok i := by
  unfold At
  rw [List.prefix_iff_eq_take]
  exact eq_comm

theorem At.bound {hay tok : Text} {i : Nat} (h : At hay tok i) (hne : tok ≠ []) : i + tok.length ≤ hay.length := by
  have h1 := h.length_le
  have h2 : 0 < tok.length := List.length_pos_iff.2 hne
  simp at h1
  omega

theorem findSub_some {hay tok : Text} {i : Nat} :
    findSub hay tok = some i ↔ tok ≠ [] ∧ At hay tok i ∧ ∀ j < i, ¬ At hay tok j := by
  unfold findSub
  split
  · rename_i h
    constructor
    · intro h'; cases h'
    · rintro ⟨h1, h2, _⟩
      rcases h with h | h
      · exact absurd h h1
      · have := h2.bound h1; omega
  · rename_i h
    rw [List.find?_range_eq_some]
    have hne : tok ≠ [] := fun e => h (Or.inl e)
    constructor
    · rintro ⟨h1, h2, h3⟩
      refine ⟨hne, at_take.1 (by simpa using h1), fun j hj ha => ?_⟩
      have := h3 j hj
      rw [at_take.2 ha] at this
      simp at this
    · rintro ⟨_, h2, h3⟩
      refine ⟨by simpa using at_take.2 h2, ?_, fun j hj => ?_⟩
      · have := h2.bound hne
        rw [List.mem_range]; omega
      · have := h3 j hj
        rw [← at_take] at this
        simpa using this

theorem findSub_none {hay tok : Text} (hne : tok ≠ []) : findSub hay tok = none ↔ ∀ i, ¬ At hay tok i := by
  constructor
  · intro h i hi
    have : ∃ j, At hay tok j ∧ ∀ k < j, ¬ At hay tok k := by
      classical
      exact ⟨Nat.find ⟨i, hi⟩, Nat.find_spec ⟨i, hi⟩, fun k hk => Nat.find_min ⟨i, hi⟩ hk⟩
    obtain ⟨j, h1, h2⟩ := this
    rw [findSub_some.2 ⟨hne, h1, h2⟩] at h
    cases h
  · intro h
    cases e : findSub hay tok with
    | none => rfl
    | some i => exact absurd (findSub_some.1 e).2.1 (h i)

theorem cons_sublist_ne {c t : Char} {ts r : Text} (h : c ≠ t) : (t :: ts) <+ (c :: r) ↔ (t :: ts) <+ r := by
  constructor
  · intro h'
    cases h' with
    | cons _ h' => exact h'
    | cons_cons _ h' => exact absurd rfl h
  · exact fun h' => h'.cons _

theorem scan_some : ∀ (hay : Text) (t : Char) (ts : Text) (i : Nat) (f : Option Nat) (l : Nat) (f' : Option Nat) (l' : Nat),
    scan i f l (t :: ts) hay = (f', l', []) →
    ∃ a b, f' = f.or (some (i + a)) ∧ l' + 1 = i + b ∧ hay[a]? = some t ∧ (∀ j < a, hay[j]? ≠ some t) ∧
      (t :: ts) <+ hay.take b ∧ (∀ j < b, ¬ (t :: ts) <+ hay.take j)
  | [], t, ts, i, f, l, f', l', h => by rw [scan] at h; cases h
  | c :: r, t, ts, i, f, l, f', l', h => by
    rw [scan] at h
    split at h
    · rename_i hc
      subst hc
      cases ts with
      | nil =>
        rw [scan] at h
        cases h
        refine ⟨0, 1, rfl, rfl, rfl, by intro j hj; omega, by simp, ?_⟩
        intro j hj
        have : j = 0 := by omega
        subst this
        simp
      | cons t' ts =>
        obtain ⟨a, b, h1, h2, _, _, h5, h6⟩ := scan_some r t' ts _ _ _ _ _ h
        refine ⟨0, b + 1, ?_, by omega, rfl, by intro j hj; omega, ?_, ?_⟩
        · rw [h1]; cases f <;> rfl
        · simpa using h5
        · intro j hj
          cases j with
          | zero => simp
          | succ j =>
            have := h6 j (by omega)
            simpa using this
    · rename_i hc
      obtain ⟨a, b, h1, h2, h3, h4, h5, h6⟩ := scan_some r t ts _ _ _ _ _ h
      refine ⟨a + 1, b + 1, ?_, by omega, by simpa using h3, ?_, ?_, ?_⟩
      · rw [h1]; congr 2; omega
      · intro j hj
        cases j with
        | zero => simpa using hc
        | succ j => simpa using h4 j (by omega)
      · rw [List.take_succ_cons, cons_sublist_ne hc]; exact h5
      · intro j hj
        cases j with
        | zero => simp
        | succ j => rw [List.take_succ_cons, cons_sublist_ne hc]; exact h6 j (by omega)

theorem scan_none : ∀ (hay : Text) (t : Char) (ts : Text) (i : Nat) (f : Option Nat) (l : Nat) (f' : Option Nat) (l' : Nat)
    (x : Char) (r : Text), scan i f l (t :: ts) hay = (f', l', x :: r) → ¬ (t :: ts) <+ hay
  | [], t, ts, i, f, l, f', l', x, s, _ => by simp
  | c :: r, t, ts, i, f, l, f', l', x, s, h => by
    rw [scan] at h
    split at h
    · rename_i hc
      subst hc
      cases ts with
      | nil => rw [scan] at h; cases h
      | cons t' ts =>
        rw [List.cons_sublist_cons]
        exact scan_none r t' ts _ _ _ _ _ _ _ h
    · rename_i hc
      rw [cons_sublist_ne hc]
      exact scan_none r t ts _ _ _ _ _ _ _ h

/-- what is left of a text after the first of the places where it must begin -/
theorem sublist_drop_first : ∀ (hay : Text) (t : Char) (ts : Text) (a : Nat), (∀ j < a, hay[j]? ≠ some t) →
    (t :: ts) <+ hay → (t :: ts) <+ hay.drop a
  | _, _, _, 0, _, h => by simpa using h
  | [], _, _, _ + 1, _, h => by simp at h
  | c :: r, t, ts, a + 1, hf, h => by
    have hc : c ≠ t := by simpa using hf 0 (by omega)
    rw [cons_sublist_ne hc] at h
    exact sublist_drop_first r t ts a (fun j hj => by simpa using hf (j + 1) (by omega)) h

theorem first_unique {hay : Text} {t : Char} {a a' : Nat} (h : hay[a]? = some t) (hf : ∀ j < a, hay[j]? ≠ some t)
    (h' : hay[a']? = some t) (hf' : ∀ j < a', hay[j]? ≠ some t) : a = a' := by
  rcases Nat.lt_trichotomy a a' with hl | hl | hl
  · exact absurd h (hf' a hl)
  · exact hl
  · exact absurd h' (hf a' hl)

end Search
end Zen
