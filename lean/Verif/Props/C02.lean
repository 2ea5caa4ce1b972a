import Verif.Core.Var
import Verif.Core.MapLemmas
/-
C02  Object equality ignores insertion order and representation.
-/
namespace Zen

/-- Specification: two values denote the same data. Objects are compared as partial functions. -/
inductive SameData : Var → Var → Prop
  | null : SameData .null .null
  | bool b : SameData (.bool b) (.bool b)
  | num n : SameData (.num n) (.num n)
  | str s : SameData (.str s) (.str s)
  | arr xs ys : xs.length = ys.length →
      (∀ (i : Nat) (a b : Var), xs[i]? = some a → ys[i]? = some b → SameData a b) → SameData (.arr xs) (.arr ys)
  | obj m n : (∀ k, (m.get k).isSome = (n.get k).isSome) →
      (∀ k a b, m.get k = some a → n.get k = some b → SameData a b) → SameData (.obj m) (.obj n)
  | dyn a : SameData (.dyn a) (.dyn a)

/-- the objects met in a well-formed value are duplicate-free -/
theorem Var.Wf.obj_inv {m : VMap Var} (h : (Var.obj m).Wf) :
    m.Wf ∧ ∀ k x, (k, x) ∈ m.entries → x.Wf := by
  cases h with
  | small e nd hx => exact ⟨nd, hx⟩
  | large e nd hx => exact ⟨nd, hx⟩

/-- equal-size duplicate-free key lists with one inclusion have the same members -/
theorem mem_of_subset_length {l m : List String} (hl : l.Nodup) (hs : ∀ k ∈ l, k ∈ m)
    (hlen : l.length = m.length) : ∀ k ∈ m, k ∈ l := by
  induction l generalizing m with
  | nil => intro k hk; cases m with
    | nil => exact hk
    | cons a m => simp at hlen
  | cons a l ih =>
    intro k hk
    by_cases hka : k = a
    · simp [hka]
    · have ham : a ∈ m := hs a (by simp)
      have hlen' : l.length = (m.erase a).length := by
        rw [List.length_erase_of_mem ham]; simp at hlen; omega
      have := ih (m := m.erase a) (List.nodup_cons.1 hl).2 (fun b hb => by
        have : b ≠ a := fun e => (List.nodup_cons.1 hl).1 (e ▸ hb)
        exact (List.mem_erase_of_ne this).2 (hs b (by simp [hb]))) hlen' k
        ((List.mem_erase_of_ne hka).2 hk)
      simp [this]

/-- lifting: entry-wise agreement plus equal size is extensional agreement -/
theorem obj_agree_iff {m n : VMap Var} (R : Var → Var → Prop) (hm : m.Wf) (hn : n.Wf) :
    (m.entries.length = n.len ∧ ∀ k v, (k, v) ∈ m.entries → ∃ o, n.get k = some o ∧ R v o) ↔
    ((∀ k, (m.get k).isSome = (n.get k).isSome) ∧
      ∀ k a b, m.get k = some a → n.get k = some b → R a b) := by
  have gm := fun k => VMap.get_eq m k
  have gn := fun k => VMap.get_eq n k
  constructor
  · rintro ⟨hl, h⟩
    rw [VMap.len_eq] at hl
    have sub : ∀ k ∈ aKeys m.entries, k ∈ aKeys n.entries := by
      intro k hk
      simp only [aKeys, List.mem_map] at hk
      obtain ⟨⟨k', v⟩, hkv, rfl⟩ := hk
      obtain ⟨o, ho, _⟩ := h _ _ hkv
      rw [← aGet_isSome_iff, ← gn]; simp [ho]
    have sup := mem_of_subset_length (m := aKeys n.entries) hm sub (by simpa [aKeys] using hl)
    refine ⟨fun k => ?_, fun k a b ha hb => ?_⟩
    · rw [Bool.eq_iff_iff, gm, gn, aGet_isSome_iff, aGet_isSome_iff]
      exact ⟨sub k, sup k⟩
    · obtain ⟨o, ho, hr⟩ := h k a (aGet_mem (gm k ▸ ha))
      rw [ho] at hb; cases hb; exact hr
  · rintro ⟨hk, h⟩
    constructor
    · rw [VMap.len_eq]
      have : (aKeys m.entries).length = (aKeys n.entries).length := by
        refine ((List.perm_ext_iff_of_nodup hm hn).2 fun k => ?_).length_eq
        rw [← aGet_isSome_iff, ← aGet_isSome_iff, ← gn, ← hk k, gm]
      simpa [aKeys] using this
    · intro k v hkv
      have hv : m.get k = some v := by rw [gm]; exact aGet_of_mem hm hkv
      have := hk k
      rw [hv] at this
      obtain ⟨o, ho⟩ := Option.isSome_iff_exists.1 this.symm
      exact ⟨o, ho, h k v o hv ho⟩

mutual
theorem Var.beq_iff : ∀ (v w : Var), v.Wf → w.Wf → (Var.beq v w = true ↔ SameData v w)
  | .null, w, _, _ => by
      cases w <;> simp [Var.beq] <;> first | exact .null | (intro h; cases h)
  | .bool a, w, _, _ => by
      cases w <;> simp [Var.beq] <;>
        first | (intro h; cases h; done) | (constructor <;> intro h <;> cases h <;> first | rfl | constructor)
  | .num a, w, _, _ => by
      cases w <;> simp [Var.beq] <;>
        first | (intro h; cases h; done) | (constructor <;> intro h <;> cases h <;> first | rfl | constructor)
  | .str a, w, _, _ => by
      cases w <;> simp [Var.beq] <;>
        first | (intro h; cases h; done) | (constructor <;> intro h <;> cases h <;> first | rfl | constructor)
  | .dyn a, w, _, _ => by
      cases w <;> simp [Var.beq] <;>
        first | (intro h; cases h; done) | (constructor <;> intro h <;> cases h <;> first | rfl | constructor)
  | .arr xs, w, hv, hw => by
      cases w <;> simp only [Var.beq] <;> try (constructor <;> intro h <;> cases h; done)
      next ys =>
      cases hv with | arr _ hx =>
      cases hw with | arr _ hy =>
      rw [Var.beqList_iff xs ys hx hy]
      exact ⟨fun h => .arr _ _ h.1 h.2, fun h => by cases h with | arr _ _ a b => exact ⟨a, b⟩⟩
  | .obj (.small e), w, hv, hw => by
      cases w <;> simp only [Var.beq] <;> try (constructor <;> intro h <;> cases h; done)
      next n =>
      have ⟨wm, xm⟩ := hv.obj_inv
      have ⟨wn, xn⟩ := hw.obj_inv
      rw [Bool.and_eq_true, beq_iff_eq, Var.beqEntries_iff e n xm
        (fun k x hk => xn k x (aGet_mem (VMap.get_eq n k ▸ hk)))]
      rw [show e = (VMap.small e).entries from rfl, obj_agree_iff SameData wm wn]
      exact ⟨fun h => .obj _ _ h.1 h.2, fun h => by cases h with | obj _ _ a b => exact ⟨a, b⟩⟩
  | .obj (.large e), w, hv, hw => by
      cases w <;> simp only [Var.beq] <;> try (constructor <;> intro h <;> cases h; done)
      next n =>
      have ⟨wm, xm⟩ := hv.obj_inv
      have ⟨wn, xn⟩ := hw.obj_inv
      rw [Bool.and_eq_true, beq_iff_eq, Var.beqEntries_iff e n xm
        (fun k x hk => xn k x (aGet_mem (VMap.get_eq n k ▸ hk)))]
      rw [show e = (VMap.large e).entries from rfl, obj_agree_iff SameData wm wn]
      exact ⟨fun h => .obj _ _ h.1 h.2, fun h => by cases h with | obj _ _ a b => exact ⟨a, b⟩⟩
theorem Var.beqList_iff : ∀ (xs ys : List Var), (∀ x ∈ xs, x.Wf) → (∀ y ∈ ys, y.Wf) →
    (Var.beqList xs ys = true ↔ xs.length = ys.length ∧
      ∀ (i : Nat) (a b : Var), xs[i]? = some a → ys[i]? = some b → SameData a b)
  | [], [], _, _ => by simp [Var.beqList]
  | [], _ :: _, _, _ => by simp [Var.beqList]
  | _ :: _, [], _, _ => by simp [Var.beqList]
  | x :: xs, y :: ys, hx, hy => by
      simp only [Var.beqList, Bool.and_eq_true]
      rw [Var.beq_iff x y (hx x (by simp)) (hy y (by simp)),
        Var.beqList_iff xs ys (fun z hz => hx z (by simp [hz])) (fun z hz => hy z (by simp [hz]))]
      constructor
      · rintro ⟨h0, hl, hr⟩
        refine ⟨by simp [hl], fun i a b ha hb => ?_⟩
        cases i with
        | zero => simp at ha hb; subst ha; subst hb; exact h0
        | succ i => simp at ha hb; exact hr i a b ha hb
      · rintro ⟨hl, h⟩
        exact ⟨h 0 x y rfl rfl, by simpa using hl, fun i a b ha hb => h (i+1) a b (by simpa using ha) (by simpa using hb)⟩
theorem Var.beqEntries_iff : ∀ (e : List (String × Var)) (n : VMap Var),
    (∀ k x, (k, x) ∈ e → x.Wf) → (∀ k x, n.get k = some x → x.Wf) →
    (Var.beqEntries e n = true ↔ ∀ k v, (k, v) ∈ e → ∃ o, n.get k = some o ∧ SameData v o)
  | [], n, _, _ => by simp [Var.beqEntries]
  | (k, v) :: r, n, he, hn => by
      simp only [Var.beqEntries, Bool.and_eq_true]
      rw [Var.beqEntries_iff r n (fun k x hk => he k x (by simp [hk])) hn]
      cases hg : n.get k with
      | none =>
        simp only [Bool.false_eq_true, false_and, false_iff]
        intro h
        obtain ⟨o, ho, _⟩ := h k v (by simp)
        rw [hg] at ho; cases ho
      | some o =>
        simp only
        rw [Var.beq_iff v o (he k v (by simp)) (hn k o hg)]
        constructor
        · rintro ⟨h0, hr⟩ k' v' hm
          rcases List.mem_cons.1 hm with e | hm
          · cases e; exact ⟨o, hg, h0⟩
          · exact hr k' v' hm
        · intro h
          refine ⟨?_, fun k' v' hm => h k' v' (by simp [hm])⟩
          obtain ⟨o', ho', hs⟩ := h k v (by simp)
          rw [hg] at ho'; cases ho'; exact hs
end

/-- Runtime equality of values decides sameness of data: at every depth, objects are equal exactly
when they hold the same keys with equal values, whatever the insertion order and whichever of
the two representations each one has. -/
theorem C02_equality_is_extensional (v w : Var) (hv : v.Wf) (hw : w.Wf) :
    Var.beq v w = true ↔ SameData v w := Var.beq_iff v w hv hw

/-- In particular, permuting insertion order, or switching representation, keeps objects equal. -/
theorem C02_order_irrelevant (l₁ l₂ : List (String × Var)) (hp : l₁.Perm l₂)
    (h₁ : (Var.obj (.small l₁)).Wf) :
    Var.beq (.obj (.small l₁)) (.obj (.large l₂)) = true ∧
    Var.beq (.obj (.small l₁)) (.obj (.small l₂)) = true ∧
    Var.beq (.obj (.large l₁)) (.obj (.small l₂)) = true := by
  have ⟨nd, hx⟩ := h₁.obj_inv
  have nd2 : (l₂.map Prod.fst).Nodup := ((hp.map Prod.fst).nodup_iff).1 nd
  have hx2 : ∀ k x, (k, x) ∈ l₂ → x.Wf := fun k x h => hx k x (hp.mem_iff.2 h)
  have key : ∀ k, aGet l₁ k = aGet l₂ k := by
    intro k
    apply Option.ext; intro v
    rw [← mem_iff_aGet (l := l₁) nd, ← mem_iff_aGet (l := l₂) nd2, hp.mem_iff]
  have refl : ∀ v : Var, v.Wf → SameData v v := by
    intro v hv
    induction hv with
    | null => exact .null
    | bool b => exact .bool b
    | num n => exact .num n
    | str s => exact .str s
    | arr xs _ ih =>
      exact .arr _ _ rfl fun i a b ha hb => by
        have hab : a = b := Option.some.inj (ha.symm.trans hb)
        subst hab; exact ih a (List.mem_of_getElem? ha)
    | small e _ _ ih =>
      exact .obj _ _ (fun _ => rfl) fun k a b ha hb => by
        have hab : a = b := Option.some.inj (ha.symm.trans hb)
        subst hab; exact ih k a (aGet_mem ha)
    | large e _ _ ih =>
      exact .obj _ _ (fun _ => rfl) fun k a b ha hb => by
        have hab : a = b := Option.some.inj (ha.symm.trans hb)
        subst hab; exact ih k a (aGet_mem ha)
    | dyn a => exact .dyn a
  have same : ∀ m n : VMap Var, m.entries = l₁ → n.entries = l₂ → SameData (.obj m) (.obj n) := by
    intro m n em en
    refine .obj _ _ (fun k => by rw [VMap.get_eq, VMap.get_eq, em, en, key]) fun k a b ha hb => ?_
    rw [VMap.get_eq, em] at ha; rw [VMap.get_eq, en, ← key] at hb
    rw [ha] at hb; cases hb; exact refl a (hx k a (aGet_mem ha))
  exact ⟨(Var.beq_iff _ _ h₁ (.large _ nd2 hx2)).2 (same _ _ rfl rfl),
    (Var.beq_iff _ _ h₁ (.small _ nd2 hx2)).2 (same _ _ rfl rfl),
    (Var.beq_iff _ _ (.large _ nd hx) (.small _ nd2 hx2)).2 (same _ _ rfl rfl)⟩

/-- sameness of data is symmetric -/
theorem SameData.symm {v w : Var} (h : SameData v w) : SameData w v := by
  induction h with
  | null => exact .null
  | bool b => exact .bool b
  | num n => exact .num n
  | str s => exact .str s
  | arr xs ys hl _ ih => exact .arr _ _ hl.symm fun i a b ha hb => ih i b a hb ha
  | obj m n hk _ ih => exact .obj _ _ (fun k => (hk k).symm) fun k a b ha hb => ih k b a hb ha
  | dyn a => exact .dyn a

/-- The equality test of two objects as written, walking the entries of the left one in whatever
order its hash table yields them and comparing with the operands swapped, gives the same
answer for every such order. -/
theorem C02_iteration_order_irrelevant (ord : List (String × Var) → List (String × Var))
    (hord : ∀ l, (ord l).Perm l) (m n : VMap Var) (hm : (Var.obj m).Wf) (hn : (Var.obj n).Wf) :
    VMap.beqWith ord Var.beq m n = true ↔ SameData (.obj m) (.obj n) := by
  have ⟨wm, xm⟩ := hm.obj_inv
  have ⟨wn, xn⟩ := hn.obj_inv
  have hmem : ∀ kv, kv ∈ m.iter ord ↔ kv ∈ m.entries := by
    intro kv
    cases m with
    | small e => exact Iff.rfl
    | large t => exact (hord t).mem_iff
  have hlen : m.len = m.entries.length := VMap.len_eq m
  have e1 : VMap.beqWith ord Var.beq m n = true ↔
      (m.entries.length = n.len ∧
        ∀ k v, (k, v) ∈ m.entries → ∃ o, n.get k = some o ∧ SameData v o) := by
    unfold VMap.beqWith
    rw [Bool.and_eq_true, beq_iff_eq, hlen, List.all_eq_true]
    refine and_congr_right fun _ => ⟨fun h k v hkv => ?_, fun h kv hkv => ?_⟩
    · have := h (k, v) ((hmem _).2 hkv)
      cases hg : n.get k with
      | none => simp [hg] at this
      | some o =>
        simp only [hg] at this
        exact ⟨o, rfl, ((Var.beq_iff o v (xn k o (aGet_mem (VMap.get_eq n k ▸ hg))) (xm k v hkv)).1
          this).symm⟩
    · obtain ⟨o, ho, hs⟩ := h kv.1 kv.2 ((hmem _).1 hkv)
      simp only [ho]
      exact (Var.beq_iff o kv.2 (xn kv.1 o (aGet_mem (VMap.get_eq n kv.1 ▸ ho)))
        (xm kv.1 kv.2 ((hmem _).1 hkv))).2 hs.symm
  rw [e1, obj_agree_iff SameData wm wn]
  exact ⟨fun h => .obj _ _ h.1 h.2, fun h => by cases h with | obj _ _ a b => exact ⟨a, b⟩⟩

/-- a concrete nested instance meeting the hypotheses -/
example : (Var.obj (.small [("a", .num 1), ("b", .obj (.large [("c", .null)]))])).Wf := by
  refine .small _ (by decide) ?_
  intro k x h
  simp only [List.mem_cons, Prod.mk.injEq, List.not_mem_nil, or_false] at h
  rcases h with ⟨_, rfl⟩ | ⟨_, rfl⟩
  · exact .num 1
  · refine .large _ (by decide) ?_
    intro k x h
    simp only [List.mem_cons, Prod.mk.injEq, List.not_mem_nil, or_false] at h
    obtain ⟨_, rfl⟩ := h; exact .null

end Zen
