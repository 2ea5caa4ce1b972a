import Verif.Policy.DepTree
import Verif.Policy.DepGraphProof
import Mathlib.Logic.Relation
/-
The tree of what a property is derived from: remembering nodes changes nothing.
-/
namespace Zen.Policy
open Zen

def DNode.property : DNode → String
  | .mk p _ _ _ => p

namespace DepEnv
variable (E : DepEnv)

/-- a property that has a writer is derived from what its writer reads for it -/
def From (p q : String) : Prop := ∃ b, E.writer p = some b ∧ ∃ r ∈ E.direct b p, E.name r.1 = q

/-- the tree of a property below some others: what is written is followed by what it is derived from, unless it is among those
above it; what is not written is marked as the marks allow -/
inductive Unfolds (mark : String → Bool → Prop) : List String → String → DNode → Prop
  | leaf {V p u} : E.writer p = none → mark p u → Unfolds mark V p (.mk p none u [])
  | again {V p b} : E.writer p = some b → p ∈ V → Unfolds mark V p (.mk p (some b) false [])
  | node {V p b deps} : E.writer p = some b → p ∉ V → (E.direct b p).length = deps.length →
      (∀ (i : Nat) (r : String × Bool) (T : DNode), (E.direct b p)[i]? = some r → deps[i]? = some T → Unfolds mark (p :: V) (E.name r.1) T) →
      Unfolds mark V p (.mk p (some b) false deps)

/-- the same without cutting anything off -/
inductive Full (mark : String → Bool → Prop) : String → DNode → Prop
  | leaf {p u} : E.writer p = none → mark p u → Full mark p (.mk p none u [])
  | node {p b deps} : E.writer p = some b → (E.direct b p).length = deps.length →
      (∀ (i : Nat) (r : String × Bool) (T : DNode), (E.direct b p)[i]? = some r → deps[i]? = some T → Full mark (E.name r.1) T) → Full mark p (.mk p (some b) false deps)

variable {E} {mark : String → Bool → Prop}

/-- every element of a list has its counterpart in one of the same length -/
theorem beside {α β : Type} {l : List α} {l' : List β} (h : l.length = l'.length) {a : α} (ha : a ∈ l) : ∃ (i : Nat) (b : β), l[i]? = some a ∧ l'[i]? = some b := by
  obtain ⟨i, hi, e⟩ := List.mem_iff_getElem.1 ha
  exact ⟨i, l'[i]'(h ▸ hi), by rw [List.getElem?_eq_getElem hi, e], List.getElem?_eq_getElem _⟩

/-- nothing that is completely unfolded is derived from itself -/
theorem Full.acc {p : String} {T : DNode} (h : Full E mark p T) : Acc (fun q p => E.From p q) p := by
  induction h with
  | leaf hw _ => exact ⟨_, fun q ⟨b, hb, _⟩ => by rw [hw] at hb; cases hb⟩
  | node hw hl _ ih =>
    refine ⟨_, fun q ⟨b', hb', r, hr, e⟩ => ?_⟩
    rw [hw] at hb'
    cases hb'
    obtain ⟨i, T, h1, h2⟩ := beside hl hr
    exact e ▸ ih i r T h1 h2

theorem Full.not_self {p : String} {T : DNode} (h : Full E mark p T) : ¬ Relation.TransGen E.From p p := by
  have ha := h.acc
  clear h
  have key : ∀ p, Acc (fun q p => E.From p q) p → ∀ q, Relation.TransGen E.From p q → Relation.TransGen E.From q p → False := by
    intro p ha
    induction ha with
    | intro p _ ih =>
      intro q h h'
      obtain ⟨x, hx, hxq⟩ := Relation.TransGen.head'_iff.1 h
      have hxp : Relation.TransGen E.From x p := Relation.TransGen.trans_right hxq h'
      exact ih x hx p hxp (.single hx)
  exact fun hc => key p ha p hc hc

/-- what is completely unfolded is the tree below anything it may be derived for -/
theorem Full.unfolds {p : String} {T : DNode} (h : Full E mark p T) : ∀ {V : List String}, (∀ v ∈ V, Relation.TransGen E.From v p) → Unfolds E mark V p T := by
  induction h with
  | leaf hw hm => exact fun _ => .leaf hw hm
  | @node p b deps hw hl hd ih =>
    intro V hV
    refine .node hw (fun hp => (Full.node hw hl hd).not_self (hV p hp)) hl (fun i r T hr hT => ih i r T hr hT fun v hv => ?_)
    have hf : E.From p (E.name r.1) := ⟨b, hw, r, List.mem_of_getElem? hr, rfl⟩
    rcases List.mem_cons.1 hv with rfl | hv
    · exact .single hf
    · exact .tail (hV v hv) hf

/-- what is remembered is completely unfolded -/
def Kept (E : DepEnv) (mark : String → Bool → Prop) (c : DCache) : Prop := ∀ p T, aGet c p = some T → Full E mark p T

theorem name_name (t : String) (h : (E.writer (E.name t)).isSome = false) : E.name t = t := by
  unfold name at h ⊢
  split
  · rfl
  · rename_i h1
    split
    · split
      · rename_i h2 h3
        simp only [h1, h2, h3] at h
        simp [h3] at h
      · rfl
    · rfl

/-- a property that is written has not been opened so often as there are written properties -/
def room (W V : List String) : Nat := (W.filter fun w => !V.contains w).length

theorem room_lt {W V : List String} {p : String} (hW : p ∈ W) (hV : p ∉ V) : room W (p :: V) < room W V := by
  unfold room
  induction W with
  | nil => cases hW
  | cons w W ih =>
    have mono : ∀ l : List String, (l.filter fun w => !(p :: V).contains w).length ≤ (l.filter fun w => !V.contains w).length := by
      intro l
      induction l with
      | nil => simp
      | cons x l ihl =>
        rw [List.filter_cons, List.filter_cons]
        by_cases hx : x ∈ V
        · simpa [hx] using ihl
        · by_cases hxp : x = p
          · subst hxp
            simp [hx] at ihl ⊢
            omega
          · simpa [hx, hxp] using ihl
    by_cases hwp : w = p
    · subst hwp
      rw [List.filter_cons, List.filter_cons]
      have := mono W
      simp [hV] at this ⊢
      omega
    · have ih := ih ((List.mem_cons.1 hW).resolve_left fun e => hwp e.symm)
      rw [List.filter_cons, List.filter_cons]
      by_cases hx : w ∈ V
      · simpa [hx] using ih
      · simp [hx, hwp] at ih ⊢
        omega

/-- the search gives the tree, whatever is remembered -/
theorem build_spec (W : List String) (hW : ∀ p, (E.writer p).isSome → p ∈ W)
    (hmark : ∀ p b r, E.writer p = some b → r ∈ E.direct b p → mark (E.name r.1) r.2) :
    ∀ (fuel : Nat) (V : List String) (c : DCache) (t : String) (u : Bool), room W V < fuel → Kept E mark c →
      (∀ v ∈ V, (E.writer v).isSome ∧ Relation.TransGen E.From v (E.name t)) → mark (E.name t) u →
      ∃ T tainted c', E.build fuel V c t u = some ((T, tainted), c') ∧ Unfolds E mark V (E.name t) T ∧
        (tainted = false → Full E mark (E.name t) T) ∧ Kept E mark c'
  | 0, _, _, _, _, hf, _, _, _ => by omega
  | fuel + 1, V, c, t, u, hf, hc, hV, hu => by
    unfold build
    simp only
    cases hg : aGet c (E.name t) with
    | some T =>
      have hF := hc _ _ hg
      exact ⟨T, false, c, rfl, hF.unfolds fun v hv => (hV v hv).2, fun _ => hF, hc⟩
    | none =>
      simp only
      by_cases hv : E.name t ∈ V
      · rw [if_pos (List.contains_iff_mem.2 hv)]
        obtain ⟨b, hb⟩ := Option.isSome_iff_exists.1 (hV _ hv).1
        rw [hb]
        exact ⟨_, true, c, rfl, .again hb hv, fun h => (by cases h), hc⟩
      · rw [if_neg (by simpa using hv)]
        have put : ∀ (c : DCache) (T : DNode), Kept E mark c → Full E mark (E.name t) T → Kept E mark (aSet c (E.name t) T) := by
          intro c T hc hT p T' h
          rw [aGet_aSet] at h
          split at h
          · rename_i hp
            cases h
            exact hp ▸ hT
          · exact hc p T' h
        cases hw : E.writer (E.name t) with
        | none =>
          have hF : Full E mark (E.name t) (.mk (E.name t) none u []) := .leaf hw hu
          refine ⟨_, false, _, rfl, .leaf hw ?_, fun _ => ?_, put _ _ hc ?_⟩ <;> simpa using by first | exact hu | exact hF
        | some b =>
          have hroom := room_lt (hW (E.name t) (by rw [hw]; rfl)) hv
          have ch : ∀ (l : List (String × Bool)) (c : DCache), (∀ r ∈ l, r ∈ E.direct b (E.name t)) → Kept E mark c →
              ∃ deps tainted c', build.children (fun c q u => E.build fuel (E.name t :: V) c q u) c l = some ((deps, tainted), c') ∧
                l.length = deps.length ∧ (∀ (i : Nat) (r : String × Bool) (T : DNode), l[i]? = some r → deps[i]? = some T → Unfolds E mark (E.name t :: V) (E.name r.1) T) ∧
                (tainted = false → ∀ (i : Nat) (r : String × Bool) (T : DNode), l[i]? = some r → deps[i]? = some T → Full E mark (E.name r.1) T) ∧ Kept E mark c' := by
            intro l
            induction l with
            | nil => exact fun c _ hc => ⟨[], false, c, rfl, rfl, by simp, by simp, hc⟩
            | cons r l ih =>
              intro c hl hc
              have hr := hl r List.mem_cons_self
              have hf' : E.From (E.name t) (E.name r.1) := ⟨b, hw, r, hr, rfl⟩
              obtain ⟨T, tn, c1, h1, h2, h3, h4⟩ := build_spec W hW hmark fuel (E.name t :: V) c r.1 r.2 (by omega) hc
                (by
                  intro v hv
                  rcases List.mem_cons.1 hv with rfl | hv
                  · exact ⟨by rw [hw]; rfl, .single hf'⟩
                  · exact ⟨(hV v hv).1, .tail (hV v hv).2 hf'⟩) (hmark _ _ _ hw hr)
              obtain ⟨deps, tn', c2, g1, gl, g2, g3, g4⟩ := ih c1 (fun r hr => hl r (List.mem_cons_of_mem _ hr)) h4
              refine ⟨T :: deps, tn || tn', c2, ?_, by simp [gl], fun i r' T' hr' hT' => ?_, fun h i r' T' hr' hT' => ?_, g4⟩
              · obtain ⟨q, u⟩ := r
                unfold build.children
                simp only at h1
                rw [h1]
                simp only
                rw [g1]
              · cases i with
                | zero =>
                  simp only [List.getElem?_cons_zero, Option.some.injEq] at hr' hT'
                  subst hr' hT'
                  exact h2
                | succ i => exact g2 i r' T' (by simpa using hr') (by simpa using hT')
              · have := Bool.or_eq_false_iff.1 h
                cases i with
                | zero =>
                  simp only [List.getElem?_cons_zero, Option.some.injEq] at hr' hT'
                  subst hr' hT'
                  exact h3 this.1
                | succ i => exact g3 this.2 i r' T' (by simpa using hr') (by simpa using hT')
          obtain ⟨deps, tn, c', h1, hl, h2, h3, h4⟩ := ch (E.direct b (E.name t)) c (fun _ h => h) hc
          simp only
          rw [h1]
          simp only [Option.isNone_some, Bool.false_and]
          refine ⟨_, tn, _, rfl, .node hw hv hl h2, fun h => .node hw hl (h3 h), ?_⟩
          cases tn with
          | true => simpa using h4
          | false => simpa using put _ _ h4 (.node hw hl (h3 rfl))

/-! ### What is in the tree -/

mutual
/-- the properties of a tree -/
def _root_.Zen.Policy.DNode.names : DNode → List String
  | .mk p _ _ deps => p :: namesAll deps
def _root_.Zen.Policy.DNode.namesAll : List DNode → List String
  | [] => []
  | T :: Ts => T.names ++ namesAll Ts
end

theorem mem_namesAll {x : String} : ∀ {Ts : List DNode}, x ∈ DNode.namesAll Ts ↔ ∃ T ∈ Ts, x ∈ T.names
  | [] => by simp [DNode.namesAll]
  | T :: Ts => by
    rw [DNode.namesAll, List.mem_append, mem_namesAll (Ts := Ts)]
    simp

/-- the way from one property to another; the last is not in the list -/
inductive Walk (E : DepEnv) : String → String → List String → Prop
  | nil {p} : Walk E p p []
  | cons {p x q l} : E.From p x → Walk E x q l → Walk E p q (p :: l)

theorem Walk.suffix {p q x : String} {l : List String} (h : Walk E x q l) (hp : p ∈ l) : ∃ l', Walk E p q l' ∧ l' <:+ l := by
  induction h with
  | nil => cases hp
  | @cons p' x q l hf hw ih =>
    by_cases e : p = p'
    · subst e
      exact ⟨_, .cons hf hw, List.suffix_refl _⟩
    · obtain ⟨l', h1, h2⟩ := ih ((List.mem_cons.1 hp).resolve_left e)
      exact ⟨l', h1, h2.trans (List.suffix_cons _ _)⟩

theorem walk_iff {p q : String} : (∃ l, Walk E p q l) ↔ Relation.ReflTransGen E.From p q := by
  constructor
  · rintro ⟨l, h⟩
    induction h with
    | nil => exact .refl
    | cons hf _ ih => exact .head hf ih
  · intro h
    induction h using Relation.ReflTransGen.head_induction_on with
    | refl => exact ⟨[], .nil⟩
    | head hf _ ih =>
      obtain ⟨l, h⟩ := ih
      exact ⟨_, .cons hf h⟩

theorem Unfolds.sound {V : List String} {p : String} {T : DNode} (h : Unfolds E mark V p T) : ∀ x ∈ T.names, Relation.ReflTransGen E.From p x := by
  induction h with
  | leaf => intro x hx; simp [DNode.names, DNode.namesAll] at hx; exact hx ▸ .refl
  | again => intro x hx; simp [DNode.names, DNode.namesAll] at hx; exact hx ▸ .refl
  | @node V p b deps hw _ hl _ ih =>
    intro x hx
    rw [DNode.names] at hx
    rcases List.mem_cons.1 hx with rfl | hx
    · exact .refl
    · obtain ⟨T, hT, hx⟩ := mem_namesAll.1 hx
      obtain ⟨i, r, h1, h2⟩ := beside hl.symm hT
      exact .head ⟨b, hw, r, List.mem_of_getElem? h2, rfl⟩ (ih i r T h2 h1 x hx)

theorem Unfolds.root {V : List String} {p : String} {T : DNode} (h : Unfolds E mark V p T) : p ∈ T.names := by
  cases h <;> simp [DNode.names]

theorem Unfolds.complete {q : String} : ∀ (n : Nat) {V : List String} {p : String} {T : DNode} {l : List String}, l.length ≤ n → Unfolds E mark V p T → Walk E p q l →
    (∀ v ∈ l, v ∉ V) → q ∈ T.names
  | 0, V, p, T, l, hn, h, hw, _ => by
    cases hw with
    | nil => exact h.root
    | cons => simp at hn
  | n + 1, V, p, T, l, hn, h, hw, hV => by
    cases hw with
    | nil => exact h.root
    | @cons _ x _ l hf hw =>
      by_cases hp : p ∈ l
      · obtain ⟨l', h1, h2⟩ := hw.suffix hp
        exact Unfolds.complete n (by have := h2.length_le; simp at hn; omega) h h1 fun v hv => hV v (List.mem_cons_of_mem _ (h2.subset hv))
      · have hpV := hV p List.mem_cons_self
        obtain ⟨b, hb, r, hr, e⟩ := hf
        cases h with
        | leaf h0 => rw [h0] at hb; cases hb
        | again _ h0 => exact absurd h0 hpV
        | node hb' _ hl hd =>
          rw [hb'] at hb
          cases hb
          obtain ⟨i, T, h1, h2⟩ := beside hl hr
          rw [DNode.names]
          refine List.mem_cons_of_mem _ (mem_namesAll.2 ⟨T, List.mem_of_getElem? h2, ?_⟩)
          refine Unfolds.complete n (by simp at hn; omega) (hd i r T h1 h2) (e ▸ hw) fun v hv => ?_
          intro h
          rcases List.mem_cons.1 h with rfl | h
          · exact hp hv
          · exact hV v (List.mem_cons_of_mem _ hv) h

/-- the tree has exactly what the property is derived from -/
theorem Unfolds.mem_names {p : String} {T : DNode} (h : Unfolds E mark [] p T) (q : String) : q ∈ T.names ↔ Relation.ReflTransGen E.From p q := by
  refine ⟨h.sound q, fun hr => ?_⟩
  obtain ⟨l, hw⟩ := walk_iff.2 hr
  exact h.complete l.length (Nat.le_refl _) hw (by simp)

end DepEnv
end Zen.Policy
