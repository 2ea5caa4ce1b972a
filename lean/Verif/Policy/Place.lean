import Verif.Props.C37
import Verif.Analysis.ReadsSpec
/-
What there is at a path of the store, and how writing changes it.
-/
namespace Zen.Policy
open Zen Zen.Val

/-- what there is at a path: a value; nothing, but an object in which it could be put; or a value on the way that is
not an object -/
inductive Look where
  | found (v : Val)
  | missing
  | blocked

def look : Val → List String → Look
  | v, [] => .found v
  | .obj m, k :: ks => match aGet m k with
    | some x => look x ks
    | none => .missing
  | _, _ :: _ => .blocked

/-- what an expression sees there -/
def Look.read : Look → Val
  | .found v => v
  | _ => .null

theorem look_empty (k : String) (ks : List String) : look (.obj []) (k :: ks) = .missing := rfl

theorem look_read : ∀ (d : Val) (p : List String), (look d p).read = Reads.readAt d p := by
  have null : ∀ p, Reads.readAt .null p = .null := fun p => by cases p <;> rfl
  intro d p
  induction p generalizing d with
  | nil => simp [look, Look.read, Reads.readAt]
  | cons k ks ih =>
    cases d with
    | obj m =>
      simp only [look, Reads.readAt]
      cases h : aGet m k with
      | none => simp [Look.read, null]
      | some x => simpa using ih x
    | _ => rfl

theorem look_dot : ∀ (d : Val) (p : List String), dotP d p = match look d p with | .found v => some v | _ => none := by
  intro d p
  induction p generalizing d with
  | nil => simp [look, dotP]
  | cons k ks ih =>
    cases d with
    | obj m =>
      simp only [look, dotP]
      cases h : aGet m k with
      | none => rfl
      | some x => simpa using ih x
    | _ => rfl

/-- one of the paths is a prefix of the other -/
def Rel (p q : List String) : Prop := p <+: q ∨ q <+: p

theorem not_rel {p q : List String} : ¬ Rel p q ↔ Independent p q := by simp [Rel, Independent]

theorem rel_comm {p q : List String} (h : Rel p q) : Rel q p := h.symm

/-- writing leaves independent places as they are, also those that do not exist -/
theorem look_other (w : List String) : ∀ (d : Val) (i : List String) (v : Val), Independent w i → look (dotInsertP d w v).1 i = look d i := by
  induction w with
  | nil => intro d i v h; exact absurd (List.nil_prefix) h.1
  | cons k ks ih =>
    intro d i v h
    cases i with
    | nil => exact absurd List.nil_prefix h.2
    | cons j is =>
      cases d with
      | obj m =>
        by_cases hj : j = k
        · subst hj
          have hi : Independent ks is := independent_cons h
          cases ks with
          | nil => exact absurd List.nil_prefix hi.1
          | cons k' ks =>
            simp only [dotInsertP, look, aGet_aSet, if_true]
            rw [ih _ is v hi]
            cases hm : aGet m j with
            | some x => rfl
            | none =>
              cases is with
              | nil => exact absurd List.nil_prefix hi.2
              | cons a b => rfl
        · cases ks with
          | nil => simp [dotInsertP, look, aGet_aSet, hj]
          | cons k' ks => simp [dotInsertP, look, aGet_aSet, hj]
      | _ => cases ks <;> rfl

/-- what is found at a place above the one written -/
def Look.above (s : List String) (v : Val) : Look → Look
  | .found x => .found (dotInsertP x s v).1
  | .missing => .found (dotInsertP (.obj []) s v).1
  | .blocked => .blocked

theorem look_above (i : List String) : ∀ (d : Val) (s : List String) (v : Val), s ≠ [] →
    look (dotInsertP d (i ++ s) v).1 i = (look d i).above s v := by
  induction i with
  | nil => intro d s v _; rfl
  | cons k ks ih =>
    intro d s v hs
    obtain ⟨a, b, hab⟩ : ∃ a b, ks ++ s = a :: b := by
      cases h : ks ++ s with
      | nil => simp at h; exact absurd h.2 hs
      | cons a b => exact ⟨a, b, rfl⟩
    cases d with
    | obj m =>
      rw [List.cons_append, hab]
      simp only [dotInsertP, look, aGet_aSet, if_true]
      rw [← hab, ih _ s v hs]
      cases hm : aGet m k with
      | some x => rfl
      | none =>
        cases ks with
        | nil => rfl
        | cons c ks => rfl
    | _ => rw [List.cons_append, hab]; rfl

/-- what is found at or below the place written -/
theorem look_below (w : List String) : ∀ (d : Val) (s : List String) (v : Val), w ≠ [] →
    look (dotInsertP d w v).1 (w ++ s) = match look d w with | .blocked => look d (w ++ s) | _ => look v s := by
  induction w with
  | nil => intro d s v h; exact absurd rfl h
  | cons k ks ih =>
    intro d s v _
    cases d with
    | obj m =>
      cases ks with
      | nil =>
        simp only [dotInsertP, List.cons_append, List.nil_append, look, aGet_aSet, if_true]
        cases hm : aGet m k <;> rfl
      | cons k' ks =>
        have := ih ((aGet m k).getD (.obj [])) s v (by simp)
        simp only [dotInsertP, List.cons_append, look, aGet_aSet, if_true] at this ⊢
        rw [this]
        cases hm : aGet m k with
        | some x => rfl
        | none => rfl
    | _ => cases ks <;> rfl

/-- Stores that agree at a place and at the place written agree there after the write. -/
theorem look_write {d d' : Val} {w i : List String} (v : Val) (hw : w ≠ []) (hW : look d w = look d' w) (hI : look d i = look d' i) :
    look (dotInsertP d w v).1 i = look (dotInsertP d' w v).1 i := by
  by_cases hr : Rel w i
  · rcases hr with ⟨s, rfl⟩ | ⟨s, rfl⟩
    · rw [look_below w d s v hw, look_below w d' s v hw, hW, hI]
    · by_cases hs : s = []
      · subst hs
        rw [List.append_nil] at hw hW ⊢
        have a := look_below i d [] v hw
        have b := look_below i d' [] v hw
        rw [List.append_nil] at a b
        rw [a, b, hI]
      · rw [look_above i d s v hs, look_above i d' s v hs, hI]
  · rw [look_other w d i v (not_rel.1 hr), look_other w d' i v (not_rel.1 hr), hI]

/-! ### Paths and their names -/

/-- `to_dotted` (queries/scope.rs:71-76) -/
def dots (q : List String) : String := String.ofList (List.intercalate ['.'] (q.map String.toList))

theorem splitDotC_dots : ∀ l : List (List Char), l ≠ [] → splitDotC (List.intercalate ['.'] l) = l.flatMap splitDotC
  | [], h => absurd rfl h
  | [a], _ => by simp [List.intercalate]
  | a :: b :: l, _ => by
    have := splitDotC_dots (b :: l) (by simp)
    have e : List.intercalate ['.'] (a :: b :: l) = a ++ '.' :: List.intercalate ['.'] (b :: l) := by
      simp [List.intercalate, List.intersperse_cons_cons]
    rw [e, splitDotC_append, this]
    simp

theorem splitDot_dots {q : List String} (h : q ≠ []) : splitDot (dots q) = q.flatMap splitDot := by
  unfold splitDot dots
  rw [String.toList_ofList, splitDotC_dots _ (by simpa using h)]
  simp [List.flatMap_map, List.map_flatMap]

theorem splitDotC_whole : ∀ cs : List Char, '.' ∉ cs → splitDotC cs = [cs]
  | [], _ => rfl
  | c :: cs, h => by
    have hc : c ≠ '.' := fun e => h (by simp [e])
    rw [splitDotC, if_neg hc, splitDotC_whole cs (fun e => h (by simp [e]))]

theorem splitDot_seg {w s : String} (h : s ∈ splitDot w) : splitDot s = [s] := by
  obtain ⟨cs, hc, rfl⟩ := List.mem_map.1 h
  unfold splitDot
  rw [String.toList_ofList, splitDotC_whole cs (splitDotC_no_dot _ cs hc)]
  rfl

theorem flatMap_plain : ∀ l : List String, (∀ s ∈ l, splitDot s = [s]) → l.flatMap splitDot = l
  | [], _ => rfl
  | s :: l, h => by
    rw [List.flatMap_cons, h s (by simp), flatMap_plain l fun x hx => h x (by simp [hx])]
    rfl

/-- a path that overlaps a written one does so by name -/
theorem rel_dots {w : String} {q : List String} (h0 : q ≠ []) (h : Rel (splitDot w) q) : SegPrefix w (dots q) ∨ SegPrefix (dots q) w := by
  unfold SegPrefix
  rw [splitDot_dots h0]
  rcases h with ⟨s, rfl⟩ | ⟨s, hs⟩
  · left
    rw [List.flatMap_append, flatMap_plain _ fun x hx => splitDot_seg hx]
    exact List.prefix_append _ _
  · right
    rw [flatMap_plain q fun x hx => splitDot_seg (w := w) (by rw [← hs]; simp [hx])]
    exact ⟨s, hs⟩

end Zen.Policy
