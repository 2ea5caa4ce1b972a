import Verif.Heap.JsConvert
import Mathlib.Data.List.Forall2
/-
C88: what is handed to JavaScript is the same graph of lists and objects: equal parts, and two places
share a list or object in JavaScript exactly when they share it in the engine.
-/
namespace Zen.Js.C88
open Zen.Js

set_option linter.unusedSectionVars false

variable {L M : Type}

/-! ## Specification -/

/-- a value and what it became, where `φ` says which cell became which -/
def Rel (f : L → M) (φ : Nat → Option Nat) : RV L → RV M → Prop
  | .leaf x, .leaf y => y = f x
  | .ref a, .ref b => φ a = some b
  | _, _ => False

def CellRel (f : L → M) (φ : Nat → Option Nat) : Cell L → Cell M → Prop
  | .arr xs, .arr ys => List.Forall₂ (Rel f φ) xs ys
  | .obj fs, .obj gs => List.Forall₂ (fun p q => p.1 = q.1 ∧ Rel f φ p.2 q.2) fs gs
  | _, _ => False

/-- `φ` carries cells over, part by part and in order, and no two to the same -/
structure Iso (H : Cells L) (f : L → M) (φ : Nat → Option Nat) (J : Cells M) : Prop where
  cell : ∀ a b, φ a = some b → ∃ c d, H[a]? = some c ∧ J[b]? = some d ∧ CellRel f φ c d
  inj : ∀ a a' b, φ a = some b → φ a' = some b → a = a'

/-- the addresses in a cell -/
def Cell.refs : Cell L → List (RV L)
  | .arr xs => xs
  | .obj fs => fs.map Prod.snd

/-- values are finite: what is in a cell is lower than the cell -/
def Ranked (H : Cells L) (rank : Nat → Nat) : Prop := ∀ a c, H[a]? = some c → ∀ b, RV.ref b ∈ Cell.refs c → rank b < rank a

/-! ## The cache -/

theorem find_put (st : St M) (a : Nat) (c : Cell M) (x : Nat) :
    (st.put a c).2.find x = if x = a then some st.cells.length else st.find x := by
  unfold St.put St.find
  by_cases h : x = a
  · subst h; simp
  · simp [h, Ne.symm h]

theorem rel_mono {f : L → M} {φ ψ : Nat → Option Nat} (h : ∀ a b, φ a = some b → ψ a = some b) : ∀ {v : RV L} {w : RV M}, Rel f φ v w → Rel f ψ v w
  | .leaf _, .leaf _, hr => hr
  | .ref _, .ref _, hr => h _ _ hr
  | .leaf _, .ref _, hr => hr.elim
  | .ref _, .leaf _, hr => hr.elim

theorem cellRel_mono {f : L → M} {φ ψ : Nat → Option Nat} (h : ∀ a b, φ a = some b → ψ a = some b) : ∀ {c : Cell L} {d : Cell M},
    CellRel f φ c d → CellRel f ψ c d
  | .arr _, .arr _, hr => List.Forall₂.imp (fun _ _ => rel_mono h) hr
  | .obj _, .obj _, hr => List.Forall₂.imp (fun _ _ hx => ⟨hx.1, rel_mono h hx.2⟩) hr
  | .arr _, .obj _, hr => hr.elim
  | .obj _, .arr _, hr => hr.elim

/-- the cells of the cache are there -/
structure Good (H : Cells L) (f : L → M) (st : St M) : Prop where
  iso : Iso H f st.find st.cells
  lt : ∀ a b, st.find a = some b → b < st.cells.length

/-- from `st` to `st'`: nothing changes besides new cells for addresses lower than `r` -/
structure Step (rank : Nat → Nat) (r : Nat) (st st' : St M) : Prop where
  pre : st.cells <+: st'.cells
  mono : ∀ a b, st.find a = some b → st'.find a = some b
  high : ∀ a, r ≤ rank a → st'.find a = st.find a

theorem Step.refl (rank : Nat → Nat) (r : Nat) (st : St M) : Step rank r st st := ⟨List.prefix_rfl, fun _ _ h => h, fun _ _ => rfl⟩

theorem Step.trans {rank : Nat → Nat} {r : Nat} {a b c : St M} (h : Step rank r a b) (h' : Step rank r b c) : Step rank r a c :=
  ⟨h.pre.trans h'.pre, fun x y hx => h'.mono x y (h.mono x y hx), fun x hx => (h'.high x hx).trans (h.high x hx)⟩

theorem Step.weaken {rank : Nat → Nat} {r r' : Nat} {a b : St M} (hr : r ≤ r') (h : Step rank r a b) : Step rank r' a b :=
  ⟨h.pre, h.mono, fun x hx => h.high x (Nat.le_trans hr hx)⟩

theorem put_step {H : Cells L} {f : L → M} {rank : Nat → Nat} {st : St M} (g : Good H f st) {a : Nat} {c : Cell L} {d : Cell M}
    (hf : st.find a = none) (hc : H[a]? = some c) (hd : CellRel f st.find c d) :
    Good H f (st.put a d).2 ∧ Step rank (rank a + 1) st (st.put a d).2 ∧ (st.put a d).2.find a = some st.cells.length := by
  have hmono : ∀ x y, st.find x = some y → (st.put a d).2.find x = some y := by
    intro x y h
    rw [find_put, if_neg]
    · exact h
    · rintro rfl; rw [hf] at h; cases h
  have hcells : (st.put a d).2.cells = st.cells ++ [d] := rfl
  refine ⟨⟨⟨?_, ?_⟩, ?_⟩, ⟨⟨[d], hcells.symm⟩, hmono, ?_⟩, by rw [find_put, if_pos rfl]⟩
  · intro x y h
    rw [find_put] at h
    split at h
    · rename_i e
      subst e
      injection h with h
      subst h
      exact ⟨c, d, hc, by rw [hcells]; simp, cellRel_mono hmono hd⟩
    · obtain ⟨c', d', h1, h2, h3⟩ := g.iso.cell x y h
      refine ⟨c', d', h1, ?_, cellRel_mono hmono h3⟩
      rw [hcells, List.getElem?_append_left (g.lt x y h)]
      exact h2
  · intro x x' y h h'
    rw [find_put] at h h'
    split at h <;> split at h'
    · rename_i e e'; rw [e, e']
    · injection h with h; subst h; exact absurd (g.lt _ _ h') (Nat.lt_irrefl _)
    · injection h' with h'; subst h'; exact absurd (g.lt _ _ h) (Nat.lt_irrefl _)
    · exact g.iso.inj _ _ _ h h'
  · intro x y h
    rw [find_put] at h
    rw [hcells, List.length_append]
    split at h
    · injection h with h; subst h; simp
    · have := g.lt x y h; simp; omega
  · intro x hx
    rw [find_put, if_neg]
    rintro rfl
    omega

section
variable {H : Cells L} {f : L → M} {rank : Nat → Nat} (hR : Ranked H rank)
include hR

mutual
theorem convert_ok (n : Nat) (v : RV L) (r : Nat) (hv : ∀ a, v = .ref a → rank a < r) (st : St M) (g : Good H f st) (w : RV M) (st' : St M)
    (h : convert H f n v st = some (w, st')) : Good H f st' ∧ Step rank r st st' ∧ Rel f st'.find v w := by
  match n, v with
  | n, .leaf x =>
    rw [convert] at h
    injection h with h
    injection h with h1 h2
    subst h1 h2
    exact ⟨g, .refl _ _ _, rfl⟩
  | 0, .ref a => rw [convert] at h; cases h
  | n + 1, .ref a =>
    have ha := hv a rfl
    rw [convert] at h
    split at h
    · rename_i b hb
      injection h with h
      injection h with h1 h2
      subst h1 h2
      exact ⟨g, .refl _ _ _, hb⟩
    · rename_i hnone
      split at h
      · cases h
      · rename_i xs hc
        split at h
        · cases h
        · rename_i ys st1 hl
          injection h with h
          have ⟨g1, s1, r1⟩ := convertL_ok n xs (rank a) (fun b hb => hR a _ hc b hb) st g ys st1 hl
          have hf : st1.find a = none := (s1.high a (Nat.le_refl _)).trans hnone
          have ⟨g2, s2, r2⟩ := put_step (rank := rank) g1 hf hc (d := .arr ys) r1
          have e1 : (st1.put a (.arr ys)).2 = st' := by rw [h]
          have e2 : (st1.put a (.arr ys)).1 = w := by rw [h]
          rw [e1] at g2 s2 r2
          refine ⟨g2, (s1.weaken (by omega)).trans (s2.weaken (by omega)), ?_⟩
          rw [← e2]
          exact r2
      · rename_i fs hc
        split at h
        · cases h
        · rename_i ys st1 hl
          injection h with h
          have ⟨g1, s1, r1⟩ := convertF_ok n fs (rank a) (fun b k hb => hR a _ hc b (List.mem_map.2 ⟨(k, .ref b), hb, rfl⟩)) st g ys st1 hl
          have hf : st1.find a = none := (s1.high a (Nat.le_refl _)).trans hnone
          have ⟨g2, s2, r2⟩ := put_step (rank := rank) g1 hf hc (d := .obj ys) r1
          have e1 : (st1.put a (.obj ys)).2 = st' := by rw [h]
          have e2 : (st1.put a (.obj ys)).1 = w := by rw [h]
          rw [e1] at g2 s2 r2
          refine ⟨g2, (s1.weaken (by omega)).trans (s2.weaken (by omega)), ?_⟩
          rw [← e2]
          exact r2
termination_by (n, 0)
theorem convertL_ok (n : Nat) (xs : List (RV L)) (r : Nat) (hv : ∀ a, RV.ref a ∈ xs → rank a < r) (st : St M) (g : Good H f st)
    (ys : List (RV M)) (st' : St M) (h : convertL H f n xs st = some (ys, st')) :
    Good H f st' ∧ Step rank r st st' ∧ List.Forall₂ (Rel f st'.find) xs ys := by
  match xs with
  | [] =>
    rw [convertL] at h
    injection h with h
    injection h with h1 h2
    subst h1 h2
    exact ⟨g, .refl _ _ _, .nil⟩
  | x :: xs =>
    rw [convertL] at h
    split at h
    · cases h
    · rename_i y st1 h1
      split at h
      · cases h
      · rename_i ys' st2 h2
        injection h with h
        injection h with e1 e2
        subst e1 e2
        have ⟨g1, s1, r1⟩ := convert_ok n x r (fun a e => hv a (by simp [e])) st g y st1 h1
        have ⟨g2, s2, r2⟩ := convertL_ok n xs r (fun a e => hv a (List.mem_cons_of_mem _ e)) st1 g1 ys' st2 h2
        exact ⟨g2, s1.trans s2, .cons (rel_mono s2.mono r1) r2⟩
termination_by (n, xs.length + 1)
theorem convertF_ok (n : Nat) (xs : List (String × RV L)) (r : Nat) (hv : ∀ a k, (k, RV.ref a) ∈ xs → rank a < r) (st : St M) (g : Good H f st)
    (ys : List (String × RV M)) (st' : St M) (h : convertF H f n xs st = some (ys, st')) :
    Good H f st' ∧ Step rank r st st' ∧ List.Forall₂ (fun p q => p.1 = q.1 ∧ Rel f st'.find p.2 q.2) xs ys := by
  match xs with
  | [] =>
    rw [convertF] at h
    injection h with h
    injection h with h1 h2
    subst h1 h2
    exact ⟨g, .refl _ _ _, .nil⟩
  | (k, x) :: xs =>
    rw [convertF] at h
    split at h
    · cases h
    · rename_i y st1 h1
      split at h
      · cases h
      · rename_i ys' st2 h2
        injection h with h
        injection h with e1 e2
        subst e1 e2
        have ⟨g1, s1, r1⟩ := convert_ok n x r (fun a e => hv a k (by simp [e])) st g y st1 h1
        have ⟨g2, s2, r2⟩ := convertF_ok n xs r (fun a k' e => hv a k' (List.mem_cons_of_mem _ e)) st1 g1 ys' st2 h2
        exact ⟨g2, s1.trans s2, .cons ⟨rfl, rel_mono s2.mono r1⟩ r2⟩
termination_by (n, xs.length + 1)
end

/-- **C88.** What comes out is the same graph: some correspondence of cells, which carries every cell
over part by part and in order and no two to the same, relates the value and the result. -/
theorem C88_graph (n : Nat) (v : RV L) (w : RV M) (st : St M) (h : convert H f n v {} = some (w, st)) :
    Iso H f st.find st.cells ∧ Rel f st.find v w := by
  have g : Good H f ({} : St M) := by
    have : ∀ a, ({} : St M).find a = none := fun a => rfl
    exact ⟨⟨fun a b h => (by rw [this] at h; cases h), fun a a' b h => (by rw [this] at h; cases h)⟩, fun a b h => (by rw [this] at h; cases h)⟩
  have ⟨r, hr⟩ : ∃ r, ∀ a, v = .ref a → rank a < r := by
    cases v with
    | leaf x => exact ⟨0, fun a e => by cases e⟩
    | ref a => exact ⟨rank a + 1, fun b e => by cases e; omega⟩
  have ⟨g', _, hw⟩ := convert_ok hR n v r hr {} g w st h
  exact ⟨g'.iso, hw⟩

end

/-! ## It ends -/

section
variable {H : Cells L} (f : L → M) {rank : Nat → Nat} (hR : Ranked H rank) (hC : ∀ (a : Nat) (c : Cell L), H[a]? = some c → ∀ b, RV.ref b ∈ Cell.refs c → b < H.length)
include hR hC

mutual
theorem convert_total (n : Nat) (v : RV L) (hv : ∀ a, v = .ref a → rank a < n ∧ a < H.length) (st : St M) :
    ∃ r, convert H f n v st = some r := by
  match n, v with
  | n, .leaf x => exact ⟨_, by rw [convert]⟩
  | 0, .ref a => exact absurd (hv a rfl).1 (Nat.not_lt_zero _)
  | n + 1, .ref a =>
    obtain ⟨h1, h2⟩ := hv a rfl
    rw [convert]
    cases hf : st.find a with
    | some b => exact ⟨_, rfl⟩
    | none =>
      cases hc : H[a]? with
      | none => rw [List.getElem?_eq_none_iff] at hc; omega
      | some c =>
        cases c with
        | arr xs =>
          obtain ⟨r, hr⟩ := convertL_total n xs (fun b hb => ⟨by have := hR a _ hc b hb; omega, hC a _ hc b hb⟩) st
          exact ⟨r.2.put a (.arr r.1), by simp only [hr]⟩
        | obj fs =>
          obtain ⟨r, hr⟩ := convertF_total n fs (fun b k hb => by
            have hm : RV.ref b ∈ Cell.refs (.obj fs) := List.mem_map.2 ⟨(k, .ref b), hb, rfl⟩
            exact ⟨by have := hR a _ hc b hm; omega, hC a _ hc b hm⟩) st
          exact ⟨r.2.put a (.obj r.1), by simp only [hr]⟩
termination_by (n, 0)
theorem convertL_total (n : Nat) (xs : List (RV L)) (hv : ∀ a, RV.ref a ∈ xs → rank a < n ∧ a < H.length) (st : St M) :
    ∃ r, convertL H f n xs st = some r := by
  match xs with
  | [] => exact ⟨_, by rw [convertL]⟩
  | x :: xs =>
    obtain ⟨⟨y, st1⟩, h1⟩ := convert_total n x (fun a e => hv a (by simp [e])) st
    obtain ⟨⟨ys, st2⟩, h2⟩ := convertL_total n xs (fun a e => hv a (List.mem_cons_of_mem _ e)) st1
    exact ⟨(y :: ys, st2), by rw [convertL, h1]; simp only [h2]⟩
termination_by (n, xs.length + 1)
theorem convertF_total (n : Nat) (xs : List (String × RV L)) (hv : ∀ a k, (k, RV.ref a) ∈ xs → rank a < n ∧ a < H.length) (st : St M) :
    ∃ r, convertF H f n xs st = some r := by
  match xs with
  | [] => exact ⟨_, by rw [convertF]⟩
  | (k, x) :: xs =>
    obtain ⟨⟨y, st1⟩, h1⟩ := convert_total n x (fun a e => hv a k (by simp [e])) st
    obtain ⟨⟨ys, st2⟩, h2⟩ := convertF_total n xs (fun a k' e => hv a k' (List.mem_cons_of_mem _ e)) st1
    exact ⟨((k, y) :: ys, st2), by rw [convertF, h1]; simp only [h2]⟩
termination_by (n, xs.length + 1)
end

/-- **C88.** A finite value is converted: the depth of its cells bounds the recursion. -/
theorem C88_ends (a : Nat) (ha : a < H.length) (n : Nat) (hn : rank a < n) (st : St M) : ∃ r, convert H f n (.ref a) st = some r :=
  convert_total f hR hC n (.ref a) (fun b e => by cases e; exact ⟨hn, ha⟩) st
end

/-- **Negative.** A list that contains itself is never finished: the cache gets a cell only when its
parts are done. -/
theorem C88_cycle (f : L → M) : ∀ n : Nat, convert [Cell.arr [.ref 0]] f n (.ref 0) {} = none
  | 0 => by rw [convert]
  | n + 1 => by
    have h : ({} : St M).find 0 = none := rfl
    rw [convert, h]
    simp only [List.length_cons, List.length_nil, Nat.zero_add, Nat.lt_add_one, getElem?_pos, List.getElem_cons_zero, convertL,
      C88_cycle f n]

/-- **Negative.** Sharing is kept, so a script that changes `input.a` changes `input.b` too when the
engine holds one list for both. -/
theorem C88_shared (f : L → M) : ∃ st : St M,
    convert [Cell.obj [("a", .ref 1), ("b", .ref 1)], .arr []] f 3 (.ref 0) {} = some (.ref 1, st) ∧
    st.cells[1]? = some (.obj [("a", .ref 0), ("b", .ref 0)]) := by
  refine ⟨⟨[.arr [], .obj [("a", .ref 0), ("b", .ref 0)]], [(0, 1), (1, 0)]⟩, ?_, rfl⟩
  simp [convert, convertF, convertL, St.find, St.put]

/-- two empty lists stay two -/
example : convert [Cell.obj [("a", .ref 1), ("b", .ref 2)], .arr [], .arr [.leaf 7]] (fun x : Nat => x + 1) 2 (.ref 0) {} =
    some (.ref 2, ⟨[.arr [], .arr [.leaf 8], .obj [("a", .ref 0), ("b", .ref 1)]], [(0, 2), (2, 1), (1, 0)]⟩) := by
  simp [convert, convertF, convertL, St.find, St.put]

/-- the heap of the example is ranked -/
example : Ranked [Cell.obj [("a", .ref 1), ("b", .ref 2)], .arr [], .arr [.leaf 7]] (fun a => if a = 0 then 1 else 0) := by
  intro a c h b hb
  match a with
  | 0 => simp at h; subst h; simp [Cell.refs] at hb; rcases hb with rfl | rfl <;> simp
  | 1 => simp at h; subst h; simp [Cell.refs] at hb
  | 2 => simp at h; subst h; simp [Cell.refs] at hb
  | a + 3 => simp at h

end Zen.Js.C88
