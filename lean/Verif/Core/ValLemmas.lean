import Verif.Core.Val
import Verif.Core.MapLemmas
/- Equality of values: `beq` decides sameness of data. -/
namespace Zen

/-- Specification of "the same data": objects are compared as partial functions. -/
inductive SameV : Val → Val → Prop
  | null : SameV .null .null
  | bool b : SameV (.bool b) (.bool b)
  | num n : SameV (.num n) (.num n)
  | str s : SameV (.str s) (.str s)
  | arr xs ys : xs.length = ys.length →
      (∀ (i : Nat) (a b : Val), xs[i]? = some a → ys[i]? = some b → SameV a b) →
      SameV (.arr xs) (.arr ys)
  | obj m n : (∀ k, (aGet m k).isSome = (aGet n k).isSome) →
      (∀ k a b, aGet m k = some a → aGet n k = some b → SameV a b) → SameV (.obj m) (.obj n)
  | dyn a : SameV (.dyn a) (.dyn a)

/-- Induction that only looks inside objects. -/
theorem Val.indObj {P : Val → Prop} (non : ∀ v : Val, v.isObj = false → P v)
    (obj : ∀ m, (∀ k x, (k, x) ∈ m → P x) → P (.obj m)) : ∀ v, P v := by
  apply Val.ind <;> first | exact obj | (intros; exact non _ rfl) | exact non _ rfl

theorem SameV.refl : ∀ v : Val, SameV v v := by
  apply Val.ind
  case null => exact .null
  case bool => exact .bool
  case num => exact .num
  case str => exact .str
  case dyn => exact .dyn
  case arr =>
    intro xs ih
    refine .arr _ _ rfl fun i a b ha hb => ?_
    have hab : a = b := Option.some.inj (ha.symm.trans hb)
    subst hab; exact ih a (List.mem_of_getElem? ha)
  case obj =>
    intro m ih
    refine .obj _ _ (fun _ => rfl) fun k a b ha hb => ?_
    have hab : a = b := Option.some.inj (ha.symm.trans hb)
    subst hab; exact ih k a (aGet_mem ha)

theorem SameV.symm {v w : Val} (h : SameV v w) : SameV w v := by
  induction h with
  | null => exact .null
  | bool b => exact .bool b
  | num n => exact .num n
  | str s => exact .str s
  | arr xs ys hl _ ih => exact .arr _ _ hl.symm fun i a b ha hb => ih i b a hb ha
  | obj m n hk _ ih => exact .obj _ _ (fun k => (hk k).symm) fun k a b ha hb => ih k b a hb ha
  | dyn a => exact .dyn a

theorem SameV.trans {u v w : Val} (h : SameV u v) (h' : SameV v w) : SameV u w := by
  induction h generalizing w with
  | null => exact h'
  | bool b => exact h'
  | num n => exact h'
  | str s => exact h'
  | dyn a => exact h'
  | arr xs ys hl _ ih =>
    cases h' with
    | arr _ zs hl' h2 =>
      refine .arr _ _ (hl.trans hl') fun i a c ha hc => ?_
      have hi : i < ys.length := by
        rw [← hl]; exact (List.getElem?_eq_some_iff.1 ha).1
      exact ih i a ys[i] ha (List.getElem?_eq_getElem hi) (h2 i _ c (List.getElem?_eq_getElem hi) hc)
  | obj m n hk _ ih =>
    cases h' with
    | obj _ p hk' h2 =>
      refine .obj _ _ (fun k => (hk k).trans (hk' k)) fun k a c ha hc => ?_
      have := hk k
      rw [ha] at this
      obtain ⟨b, hb⟩ := Option.isSome_iff_exists.1 this.symm
      exact ih k a b ha hb (h2 k b c hb hc)

/-- equal-size duplicate-free key lists with one inclusion have the same members -/
theorem mem_of_subset_length' {l m : List String} (hl : l.Nodup) (hs : ∀ k ∈ l, k ∈ m)
    (hlen : l.length = m.length) : ∀ k ∈ m, k ∈ l := by
  induction l generalizing m with
  | nil => intro k hk; cases m with
    | nil => exact hk
    | cons a m => simp at hlen
  | cons a l ih =>
    intro k hk
    by_cases hka : k = a
    · simp [hka]
    · have ham : a ∈ m := hs a (by simp)
      have hlen' : l.length = (m.erase a).length := by
        rw [List.length_erase_of_mem ham]; simp at hlen; omega
      have := ih (m := m.erase a) (List.nodup_cons.1 hl).2 (fun b hb => by
        have : b ≠ a := fun e => (List.nodup_cons.1 hl).1 (e ▸ hb)
        exact (List.mem_erase_of_ne this).2 (hs b (by simp [hb]))) hlen' k
        ((List.mem_erase_of_ne hka).2 hk)
      simp [this]

theorem entries_agree_iff {m n : List (String × Val)} (R : Val → Val → Prop)
    (hm : (aKeys m).Nodup) (hn : (aKeys n).Nodup) :
    (m.length = n.length ∧ ∀ k v, (k, v) ∈ m → ∃ o, aGet n k = some o ∧ R v o) ↔
    ((∀ k, (aGet m k).isSome = (aGet n k).isSome) ∧
      ∀ k a b, aGet m k = some a → aGet n k = some b → R a b) := by
  constructor
  · rintro ⟨hl, h⟩
    have sub : ∀ k ∈ aKeys m, k ∈ aKeys n := by
      intro k hk
      simp only [aKeys, List.mem_map] at hk
      obtain ⟨⟨k', v⟩, hkv, rfl⟩ := hk
      obtain ⟨o, ho, _⟩ := h _ _ hkv
      rw [← aGet_isSome_iff]; simp [ho]
    have sup := mem_of_subset_length' (m := aKeys n) hm sub (by simpa [aKeys] using hl)
    refine ⟨fun k => ?_, fun k a b ha hb => ?_⟩
    · rw [Bool.eq_iff_iff, aGet_isSome_iff, aGet_isSome_iff]
      exact ⟨sub k, sup k⟩
    · obtain ⟨o, ho, hr⟩ := h k a (aGet_mem ha)
      rw [ho] at hb; cases hb; exact hr
  · rintro ⟨hk, h⟩
    constructor
    · have : (aKeys m).length = (aKeys n).length := by
        refine ((List.perm_ext_iff_of_nodup hm hn).2 fun k => ?_).length_eq
        rw [← aGet_isSome_iff, ← aGet_isSome_iff, ← hk k]
      simpa [aKeys] using this
    · intro k v hkv
      have hv : aGet m k = some v := aGet_of_mem hm hkv
      have := hk k
      rw [hv] at this
      obtain ⟨o, ho⟩ := Option.isSome_iff_exists.1 this.symm
      exact ⟨o, ho, h k v o hv ho⟩

theorem Val.Wf.obj_inv {m : List (String × Val)} (h : (Val.obj m).Wf) :
    (aKeys m).Nodup ∧ ∀ k x, (k, x) ∈ m → x.Wf := by cases h with | obj _ a b => exact ⟨a, b⟩

theorem Val.Wf.get {m : List (String × Val)} (h : (Val.obj m).Wf) {k x} (hx : aGet m k = some x) :
    x.Wf := h.obj_inv.2 k x (aGet_mem hx)

mutual
theorem Val.beq_iff : ∀ (v w : Val), v.Wf → w.Wf → (Val.beq v w = true ↔ SameV v w)
  | .null, w, _, _ => by
      cases w <;> simp [Val.beq] <;> first | exact .null | (intro h; cases h)
  | .bool a, w, _, _ => by
      cases w <;> simp [Val.beq] <;>
        first | (intro h; cases h; done) | (constructor <;> intro h <;> cases h <;> first | rfl | constructor)
  | .num a, w, _, _ => by
      cases w <;> simp [Val.beq] <;>
        first | (intro h; cases h; done) | (constructor <;> intro h <;> cases h <;> first | rfl | constructor)
  | .str a, w, _, _ => by
      cases w <;> simp [Val.beq] <;>
        first | (intro h; cases h; done) | (constructor <;> intro h <;> cases h <;> first | rfl | constructor)
  | .dyn a, w, _, _ => by
      cases w <;> simp [Val.beq] <;>
        first | (intro h; cases h; done) | (constructor <;> intro h <;> cases h <;> first | rfl | constructor)
  | .arr xs, w, hv, hw => by
      cases w <;> simp only [Val.beq] <;> try (constructor <;> intro h <;> cases h; done)
      next ys =>
      cases hv with | arr _ hx =>
      cases hw with | arr _ hy =>
      rw [Val.beqList_iff xs ys hx hy]
      exact ⟨fun h => .arr _ _ h.1 h.2, fun h => by cases h with | arr _ _ a b => exact ⟨a, b⟩⟩
  | .obj e, w, hv, hw => by
      cases w <;> simp only [Val.beq] <;> try (constructor <;> intro h <;> cases h; done)
      next n =>
      have ⟨wm, xm⟩ := hv.obj_inv
      have ⟨wn, xn⟩ := hw.obj_inv
      rw [Bool.and_eq_true, beq_iff_eq, Val.beqEntries_iff e n xm
        (fun k x hk => xn k x (aGet_mem hk)), entries_agree_iff SameV wm wn]
      exact ⟨fun h => .obj _ _ h.1 h.2, fun h => by cases h with | obj _ _ a b => exact ⟨a, b⟩⟩
theorem Val.beqList_iff : ∀ (xs ys : List Val), (∀ x ∈ xs, x.Wf) → (∀ y ∈ ys, y.Wf) →
    (Val.beqList xs ys = true ↔ xs.length = ys.length ∧
      ∀ (i : Nat) (a b : Val), xs[i]? = some a → ys[i]? = some b → SameV a b)
  | [], [], _, _ => by simp [Val.beqList]
  | [], _ :: _, _, _ => by simp [Val.beqList]
  | _ :: _, [], _, _ => by simp [Val.beqList]
  | x :: xs, y :: ys, hx, hy => by
      simp only [Val.beqList, Bool.and_eq_true]
      rw [Val.beq_iff x y (hx x (by simp)) (hy y (by simp)),
        Val.beqList_iff xs ys (fun z hz => hx z (by simp [hz])) (fun z hz => hy z (by simp [hz]))]
      constructor
      · rintro ⟨h0, hl, hr⟩
        refine ⟨by simp [hl], fun i a b ha hb => ?_⟩
        cases i with
        | zero => simp at ha hb; subst ha; subst hb; exact h0
        | succ i => simp at ha hb; exact hr i a b ha hb
      · rintro ⟨hl, h⟩
        exact ⟨h 0 x y rfl rfl, by simpa using hl, fun i a b ha hb => h (i+1) a b (by simpa using ha) (by simpa using hb)⟩
theorem Val.beqEntries_iff : ∀ (e n : List (String × Val)),
    (∀ k x, (k, x) ∈ e → x.Wf) → (∀ k x, aGet n k = some x → x.Wf) →
    (Val.beqEntries e n = true ↔ ∀ k v, (k, v) ∈ e → ∃ o, aGet n k = some o ∧ SameV v o)
  | [], n, _, _ => by simp [Val.beqEntries]
  | (k, v) :: r, n, he, hn => by
      simp only [Val.beqEntries, Bool.and_eq_true]
      rw [Val.beqEntries_iff r n (fun k x hk => he k x (by simp [hk])) hn]
      cases hg : aGet n k with
      | none =>
        simp only [Bool.false_eq_true, false_and, false_iff]
        intro h
        obtain ⟨o, ho, _⟩ := h k v (by simp)
        rw [hg] at ho; cases ho
      | some o =>
        simp only
        rw [Val.beq_iff v o (he k v (by simp)) (hn k o hg)]
        constructor
        · rintro ⟨h0, hr⟩ k' v' hm
          rcases List.mem_cons.1 hm with e | hm
          · cases e; exact ⟨o, hg, h0⟩
          · exact hr k' v' hm
        · intro h
          refine ⟨?_, fun k' v' hm => h k' v' (by simp [hm])⟩
          obtain ⟨o', ho', hs⟩ := h k v (by simp)
          rw [hg] at ho'; cases ho'; exact hs
end

theorem aSet_wf {m : List (String × Val)} {k x} (h : (Val.obj m).Wf) (hx : x.Wf) :
    (Val.obj (aSet m k x)).Wf := by
  have ⟨nd, hv⟩ := h.obj_inv
  refine .obj _ (aKeys_aSet_nodup _ _ nd) fun k' y hy => ?_
  have := aGet_of_mem (aKeys_aSet_nodup k x nd) hy
  rw [aGet_aSet] at this
  split at this
  · cases this; exact hx
  · exact hv _ _ (aGet_mem this)

theorem aErase_wf {m : List (String × Val)} {k} (h : (Val.obj m).Wf) : (Val.obj (aErase m k)).Wf := by
  have ⟨nd, hv⟩ := h.obj_inv
  exact .obj _ (aKeys_aErase_nodup _ nd) fun k' y hy => hv _ _ ((aErase_sublist m k).mem hy)

/-- rewriting a key with the value it already has changes nothing -/
theorem aSet_same {V : Type u} (m : List (String × V)) (k x) (h : aGet m k = some x) : aSet m k x = m := by
  simp only [aSet, h]
  induction m with
  | nil => rfl
  | cons y m ih =>
    obtain ⟨ky, vy⟩ := y
    rw [aGet_cons] at h
    simp only [aReplace]
    split
    · next e => simp [e] at h; rw [h]
    · next e => simp [e] at h; rw [ih h]

theorem aErase_absent {V : Type u} (m : List (String × V)) (k) (h : aGet m k = none) : aErase m k = m := by
  induction m with
  | nil => rfl
  | cons y m ih =>
    obtain ⟨ky, vy⟩ := y
    rw [aGet_cons] at h
    simp only [aErase]
    split
    · next e => simp [e] at h
    · next e => simp [e] at h; rw [ih h]

end Zen
