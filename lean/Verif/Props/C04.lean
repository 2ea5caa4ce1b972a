import Verif.Core.Dot
import Verif.Core.ValLemmas
/-
C04  Path read after path write.
`dotP v p` reads a path given as the list of its segments; `Val.dot v key` splits `key` at dots.
-/
namespace Zen
open Val

theorem splitDotC_ne_nil (cs : List Char) : splitDotC cs ≠ [] := by
  induction cs with
  | nil => simp [splitDotC]
  | cons c r ih => simp only [splitDotC]; split; simp; split <;> simp_all

theorem splitDot_ne_nil (key : String) : splitDot key ≠ [] := by
  simp [splitDot, splitDotC_ne_nil]

/-- Splitting loses nothing: joining the segments with dots gives the key back. -/
theorem splitDotC_join (cs : List Char) : List.intercalate ['.'] (splitDotC cs) = cs := by
  induction cs with
  | nil => simp [splitDotC, List.intercalate]
  | cons c r ih =>
    simp only [splitDotC]
    have hne := splitDotC_ne_nil r
    split
    · next h =>
      subst h
      cases hs : splitDotC r with
      | nil => exact absurd hs hne
      | cons a l => rw [hs] at ih; simp [List.intercalate, List.intersperse] at ih ⊢; simpa using ih
    · next h =>
      cases hs : splitDotC r with
      | nil => exact absurd hs hne
      | cons p ps =>
        rw [hs] at ih
        cases ps with
        | nil => simp [List.intercalate] at ih ⊢; exact ih
        | cons q qs => simp [List.intercalate] at ih ⊢; exact ih

/-- no segment contains a dot -/
theorem splitDotC_no_dot (cs : List Char) : ∀ p ∈ splitDotC cs, '.' ∉ p := by
  induction cs with
  | nil => simp [splitDotC]
  | cons c r ih =>
    simp only [splitDotC]
    split
    · intro p hp; rcases List.mem_cons.1 hp with h | h
      · simp [h]
      · exact ih p h
    · next hc =>
      split
      · intro p hp; simp at hp; simp [hp, Ne.symm hc]
      · next q qs hq =>
        intro p hp
        rcases List.mem_cons.1 hp with h | h
        · subst h
          have := ih q (by rw [hq]; simp)
          simp [Ne.symm hc, this]
        · exact ih p (by rw [hq]; simp [h])

/-- Two paths are independent when neither is a prefix of the other. -/
def Independent (p q : List String) : Prop := ¬ p <+: q ∧ ¬ q <+: p

theorem independent_cons {k : String} {p q : List String} (h : Independent (k :: p) (k :: q)) :
    Independent p q := by
  constructor
  · intro hp; exact h.1 (by simpa using hp)
  · intro hp; exact h.2 (by simpa using hp)

/-- Every intermediate position on the path that is occupied holds an object; specification of
when an in-place write succeeds. -/
def Walkable (d : Val) (p : List String) : Prop :=
  ∀ q, q <+: p → q ≠ p → ∀ x, dotP d q = some x → x.isObj = true

theorem walkable_cons {m : List (String × Val)} {k : String} {ks : List String} {x : Val}
    (hx : aGet m k = some x) (h : Walkable (.obj m) (k :: ks)) : Walkable x ks := by
  intro q hq hne y hy
  refine h (k :: q) (by simpa using hq) (by simpa using hne) y ?_
  simp [dotP, hx, hy]

theorem walkable_of_child {m : List (String × Val)} {k k' : String} {ks : List String}
    (h : Walkable ((aGet m k).getD (.obj [])) (k' :: ks)) : Walkable (.obj m) (k :: k' :: ks) := by
  intro q hq hne y hy
  cases q with
  | nil => simp [dotP] at hy; subst hy; rfl
  | cons a q =>
    rw [List.cons_prefix_cons] at hq
    obtain ⟨rfl, hq⟩ := hq
    simp only [dotP] at hy
    cases hg : aGet m a with
    | none => rw [hg] at hy; cases hy
    | some x =>
      rw [hg] at hy h; simp only [Option.getD_some] at h hy
      exact h q hq (by intro e; exact hne (by rw [e])) y hy

/-- The in-place write reaches its target exactly when the path is walkable; otherwise the value
is left completely unchanged. -/
theorem C04_insert_succeeds_iff (d : Val) (p : List String) (v : Val) (hp : p ≠ []) :
    ((dotInsertP d p v).2.2 = true ↔ Walkable d p) ∧
    ((dotInsertP d p v).2.2 = false → (dotInsertP d p v).1 = d) := by
  induction p generalizing d with
  | nil => exact absurd rfl hp
  | cons k ks ih =>
    have nonobj : d.isObj = false → ¬ Walkable d (k :: ks) := by
      intro hd hw
      have := hw [] (by simp) (by simp) d (by simp [dotP])
      rw [hd] at this; cases this
    cases d with
    | obj m =>
      cases ks with
      | nil =>
        refine ⟨⟨fun _ => ?_, fun _ => rfl⟩, by simp [dotInsertP]⟩
        intro q hq hne x hx
        have : q = [] := by
          cases q with
          | nil => rfl
          | cons a q =>
            rw [List.cons_prefix_cons] at hq
            obtain ⟨rfl, hq⟩ := hq
            rw [List.prefix_nil] at hq; subst hq; exact absurd rfl hne
        subst this; simp [dotP] at hx; subst hx; rfl
      | cons k' ks =>
        have h := ih ((aGet m k).getD (.obj [])) (by simp)
        simp only [dotInsertP]
        refine ⟨⟨fun hs => walkable_of_child (h.1.1 hs), fun hw => h.1.2 ?_⟩, fun hf => ?_⟩
        · cases hg : aGet m k with
          | none =>
            simp only [Option.getD_none]
            intro q hq hne x hx
            cases q with
            | nil => simp [dotP] at hx; subst hx; rfl
            | cons a q => simp [dotP] at hx
          | some x => simpa using walkable_cons hg hw
        · have hwf := h.2 hf
          rw [hwf]
          cases hg : aGet m k with
          | none =>
            exfalso
            have : Walkable (.obj []) (k' :: ks) := by
              intro q hq hne x hx
              cases q with
              | nil => simp [dotP] at hx; subst hx; rfl
              | cons a q => simp [dotP] at hx
            have := (h.1.2 (by rw [hg]; exact this))
            rw [hf] at this; cases this
          | some x => simp only [Option.getD_some]; rw [aSet_same _ _ _ hg]
    | null => exact ⟨⟨by simp [dotInsertP], fun h => absurd h (nonobj rfl)⟩, by simp [dotInsertP]⟩
    | bool _ => exact ⟨⟨by simp [dotInsertP], fun h => absurd h (nonobj rfl)⟩, by simp [dotInsertP]⟩
    | num _ => exact ⟨⟨by simp [dotInsertP], fun h => absurd h (nonobj rfl)⟩, by simp [dotInsertP]⟩
    | str _ => exact ⟨⟨by simp [dotInsertP], fun h => absurd h (nonobj rfl)⟩, by simp [dotInsertP]⟩
    | arr _ => exact ⟨⟨by simp [dotInsertP], fun h => absurd h (nonobj rfl)⟩, by simp [dotInsertP]⟩
    | dyn _ => exact ⟨⟨by simp [dotInsertP], fun h => absurd h (nonobj rfl)⟩, by simp [dotInsertP]⟩

/-- After a successful in-place write at `p`: reading `p`, or anything below `p`, sees the written
value; the returned old value is what `p` read before; independent paths are unaffected. -/
theorem C04_insert_read (d : Val) (p : List String) (v : Val) (hp : p ≠ [])
    (hw : Walkable d p) :
    dotP (dotInsertP d p v).1 p = some v ∧
    (∀ s, dotP (dotInsertP d p v).1 (p ++ s) = dotP v s) ∧
    (dotInsertP d p v).2.1 = dotP d p ∧
    (∀ q, Independent p q → dotP (dotInsertP d p v).1 q = dotP d q) := by
  have main : (∀ s, dotP (dotInsertP d p v).1 (p ++ s) = dotP v s) ∧
      (dotInsertP d p v).2.1 = dotP d p ∧
      (∀ q, Independent p q → dotP (dotInsertP d p v).1 q = dotP d q) := by
    induction p generalizing d with
    | nil => exact absurd rfl hp
    | cons k ks ih =>
      have hobj := hw [] (by simp) (by simp) d (by simp [dotP])
      cases d <;> simp [isObj] at hobj
      next m =>
      cases ks with
      | nil =>
        refine ⟨fun s => ?_, ?_, fun q hq => ?_⟩
        · simp [dotInsertP, dotP, aGet_aSet]
        · simp only [dotInsertP, dotP]; cases aGet m k <;> rfl
        · cases q with
          | nil => exact absurd (List.nil_prefix) hq.2
          | cons a q =>
            have : a ≠ k := by
              rintro rfl; exact hq.1 (by simp)
            simp [dotInsertP, dotP, aGet_aSet, this]
      | cons k' ks =>
        have hw' : Walkable ((aGet m k).getD (.obj [])) (k' :: ks) := by
          cases hg : aGet m k with
          | none =>
            intro q hq hne x hx
            cases q with
            | nil => simp [dotP] at hx; subst hx; rfl
            | cons a q => simp [dotP] at hx
          | some x => simpa using walkable_cons hg hw
        obtain ⟨h1, h2, h3⟩ := ih _ (by simp) hw'
        refine ⟨fun s => ?_, ?_, fun q hq => ?_⟩
        · have := h1 s
          simp only [dotInsertP, List.cons_append, dotP, aGet_aSet, if_true]
          simpa using this
        · simp only [dotInsertP]; rw [h2]
          cases hg : aGet m k with
          | none => simp [dotP, hg]
          | some x => simp [dotP, hg]
        · cases q with
          | nil => exact absurd (List.nil_prefix) hq.2
          | cons a q =>
            by_cases ha : a = k
            · subst ha
              have := h3 q (independent_cons hq)
              simp only [dotInsertP, dotP, aGet_aSet, if_true]
              rw [this]
              cases hg : aGet m a with
              | none =>
                cases q with
                | nil => exact absurd List.nil_prefix (independent_cons hq).2
                | cons b q => simp [dotP]
              | some x => simp
            · simp [dotInsertP, dotP, aGet_aSet, ha]
  refine ⟨?_, main⟩
  have := main.1 []
  simpa [dotP] using this

/-- The detached write succeeds exactly on objects, reads back what was written, and leaves
independent paths whose own value is not overwritten by the path's creation unchanged: only a
path that runs *through* a non-object intermediate of `p` could differ, and such a path reads as
absent before and after. -/
theorem C04_detached_read (d : Val) (p : List String) (v : Val) (hp : p ≠ []) :
    ((dotInsertDetachedP d p v).isSome = d.isObj) ∧
    ∀ r, dotInsertDetachedP d p v = some r →
      (∀ s, dotP r (p ++ s) = dotP v s) ∧ (∀ q, Independent p q → dotP r q = dotP d q) := by
  induction p generalizing d with
  | nil => exact absurd rfl hp
  | cons k ks ih =>
    cases d with
    | obj m =>
      cases ks with
      | nil =>
        refine ⟨rfl, fun r hr => ?_⟩
        simp only [dotInsertDetachedP, Option.some.injEq] at hr
        subst hr
        refine ⟨fun s => by simp [dotP, aGet_aSet], fun q hq => ?_⟩
        cases q with
        | nil => exact absurd (List.nil_prefix) hq.2
        | cons a q =>
          have : a ≠ k := by rintro rfl; exact hq.1 (by simp)
          simp [dotP, aGet_aSet, this]
      | cons k' ks =>
        -- the child object the write descends into
        generalize hc : detachChild (aGet m k) = child
        have hchild : child.isObj = true := by
          subst hc; unfold detachChild; split <;> rfl
        obtain ⟨h1, h2⟩ := ih child (by simp)
        rw [hchild] at h1
        obtain ⟨x, hx⟩ := Option.isSome_iff_exists.1 h1
        have e : dotInsertDetachedP (.obj m) (k :: k' :: ks) v = some (.obj (aSet m k x)) := by
          simp only [dotInsertDetachedP, hc, hx]
        refine ⟨by rw [e]; rfl, fun r hr => ?_⟩
        rw [e] at hr; cases hr
        obtain ⟨h3, h4⟩ := h2 x hx
        refine ⟨fun s => ?_, fun q hq => ?_⟩
        · have := h3 s; simp only [List.cons_append, dotP, aGet_aSet, if_true]; simpa using this
        · cases q with
          | nil => exact absurd (List.nil_prefix) hq.2
          | cons a q =>
            by_cases ha : a = k
            · subst ha
              have hi := independent_cons hq
              simp only [dotP, aGet_aSet, if_true]
              rw [h4 q hi]
              have hqne : q ≠ [] := by rintro rfl; exact hi.2 List.nil_prefix
              obtain ⟨b, q', rfl⟩ := List.exists_cons_of_ne_nil hqne
              subst hc
              cases hg : aGet m a with
              | none => simp [dotP, detachChild]
              | some y => cases y <;> simp [dotP, detachChild]
            · simp [dotP, aGet_aSet, ha]
    | null => simp [dotInsertDetachedP, isObj]
    | bool _ => simp [dotInsertDetachedP, isObj]
    | num _ => simp [dotInsertDetachedP, isObj]
    | str _ => simp [dotInsertDetachedP, isObj]
    | arr _ => simp [dotInsertDetachedP, isObj]
    | dyn _ => simp [dotInsertDetachedP, isObj]

/-- After removing a path it reads as absent, and independent paths are unaffected (a path that
extends the removed one is gone with it). -/
theorem C04_remove (d : Val) (p : List String) (hp : p ≠ []) (hd : d.Wf) (hw : Walkable d p) :
    dotP (dotRemoveP d p).1 p = none ∧ (dotRemoveP d p).2 = dotP d p ∧
    (∀ q, Independent p q → dotP (dotRemoveP d p).1 q = dotP d q) := by
  induction p generalizing d with
  | nil => exact absurd rfl hp
  | cons k ks ih =>
    have hobj := hw [] (by simp) (by simp) d (by simp [dotP])
    cases d <;> simp [isObj] at hobj
    next m =>
    have nd := hd.obj_inv.1
    cases ks with
    | nil =>
      refine ⟨?_, ?_, fun q hq => ?_⟩
      · simp [dotRemoveP, dotP, aGet_aErase k k nd]
      · simp only [dotRemoveP, dotP]; cases aGet m k <;> rfl
      · cases q with
        | nil => exact absurd (List.nil_prefix) hq.2
        | cons a q =>
          have : a ≠ k := by rintro rfl; exact hq.1 (by simp)
          simp [dotRemoveP, dotP, aGet_aErase k a nd, this]
    | cons k' ks =>
      have hwf' : ((aGet m k).getD (.obj [])).Wf := by
        cases hg : aGet m k with
        | none => exact .obj _ (by simp) (by simp)
        | some x => exact hd.get hg
      have hw' : Walkable ((aGet m k).getD (.obj [])) (k' :: ks) := by
        cases hg : aGet m k with
        | none =>
          intro q hq hne x hx
          cases q with
          | nil => simp [dotP] at hx; subst hx; rfl
          | cons a q => simp [dotP] at hx
        | some x => simpa using walkable_cons hg hw
      obtain ⟨h1, h2, h3⟩ := ih _ (by simp) hwf' hw'
      refine ⟨?_, ?_, fun q hq => ?_⟩
      · simp only [dotRemoveP, dotP, aGet_aSet, if_true]; exact h1
      · simp only [dotRemoveP]; rw [h2]
        cases hg : aGet m k with
        | none => simp [dotP, hg]
        | some x => simp [dotP, hg]
      · cases q with
        | nil => exact absurd (List.nil_prefix) hq.2
        | cons a q =>
          by_cases ha : a = k
          · subst ha
            have := h3 q (independent_cons hq)
            simp only [dotRemoveP, dotP, aGet_aSet, if_true]
            rw [this]
            cases hg : aGet m a with
            | none =>
              cases q with
              | nil => exact absurd List.nil_prefix (independent_cons hq).2
              | cons b q => simp [dotP]
            | some x => simp
          · simp [dotRemoveP, dotP, aGet_aSet, ha]

/-- The same facts for key strings as passed to the API. -/
theorem C04_key_string (d : Val) (key : String) (v : Val) (hw : Walkable d (splitDot key)) :
    ((dotInsert d key v).1.dot key = some v) ∧ (dotInsert d key v).2 = d.dot key ∧
    ∀ key', Independent (splitDot key) (splitDot key') →
      (dotInsert d key v).1.dot key' = d.dot key' := by
  obtain ⟨a, _, c, e⟩ := C04_insert_read d (splitDot key) v (splitDot_ne_nil key) hw
  exact ⟨a, c, fun key' h => e _ h⟩

/-- hypotheses satisfiable: a walkable path with an existing prefix and an independent sibling -/
example : Walkable (.obj [("a", .obj [("b", .num 1)]), ("c", .num 2)]) ["a", "d", "e"] ∧
    Independent ["a", "d", "e"] ["a", "b"] := by
  refine ⟨?_, by decide, by decide⟩
  intro q hq hne x hx
  match q with
  | [] => simp [dotP] at hx; subst hx; rfl
  | [a] =>
    simp at hq; subst hq; simp [dotP, aGet] at hx; subst hx; rfl
  | a :: b :: q =>
    rw [List.cons_prefix_cons, List.cons_prefix_cons] at hq
    obtain ⟨rfl, rfl, _⟩ := hq
    simp [dotP, aGet] at hx

end Zen
