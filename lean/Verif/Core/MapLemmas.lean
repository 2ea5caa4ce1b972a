import Verif.Core.MapSpec
/- Helper lemmas about association lists and `VMap`. -/
namespace Zen
variable {V : Type u}

/-- keys of an association list -/
def aKeys (l : List (String × V)) : List String := l.map Prod.fst

@[simp] theorem aKeys_nil : aKeys ([] : List (String × V)) = [] := rfl
@[simp] theorem aKeys_cons (x : String × V) (l) : aKeys (x :: l) = x.1 :: aKeys l := rfl
@[simp] theorem aKeys_append (l m : List (String × V)) : aKeys (l ++ m) = aKeys l ++ aKeys m := by
  simp [aKeys]

@[simp] theorem aGet_nil (k : String) : aGet ([] : List (String × V)) k = none := rfl

theorem aGet_cons (x : String × V) (l) (k : String) :
    aGet (x :: l) k = if x.1 = k then some x.2 else aGet l k := by cases x; rfl

theorem aGet_isSome_iff (l : List (String × V)) (k) : (aGet l k).isSome ↔ k ∈ aKeys l := by
  induction l with
  | nil => simp
  | cons x l ih =>
    rw [aGet_cons]; split
    · next h => simp [h]
    · next h => simp [ih, Ne.symm h]

theorem aGet_eq_none_iff (l : List (String × V)) (k) : aGet l k = none ↔ k ∉ aKeys l := by
  rw [← aGet_isSome_iff]; cases aGet l k <;> simp

theorem aGet_mem {l : List (String × V)} {k v} (h : aGet l k = some v) : (k, v) ∈ l := by
  induction l with
  | nil => simp at h
  | cons x l ih =>
    rw [aGet_cons] at h; split at h
    · cases x; simp_all
    · simp [ih h]

theorem aGet_of_mem {l : List (String × V)} {k v} (nd : (aKeys l).Nodup) (h : (k, v) ∈ l) :
    aGet l k = some v := by
  induction l with
  | nil => simp at h
  | cons x l ih =>
    rw [aGet_cons]
    simp only [aKeys_cons, List.nodup_cons] at nd
    rcases List.mem_cons.1 h with h | h
    · subst h; simp
    · have hk : k ∈ aKeys l := by simp only [aKeys, List.mem_map]; exact ⟨_, h, rfl⟩
      have : x.1 ≠ k := fun e => nd.1 (e ▸ hk)
      simp [this, ih nd.2 h]

theorem mem_iff_aGet {l : List (String × V)} {k v} (nd : (aKeys l).Nodup) :
    (k, v) ∈ l ↔ aGet l k = some v := ⟨aGet_of_mem nd, aGet_mem⟩

theorem aKeys_aReplace (l : List (String × V)) (k x) : aKeys (aReplace l k x) = aKeys l := by
  induction l with
  | nil => rfl
  | cons y l ih => cases y; simp only [aReplace]; split <;> simp [ih]

theorem aGet_aReplace (l : List (String × V)) (k x k') :
    aGet (aReplace l k x) k' = if k' = k then (aGet l k).map (fun _ => x) else aGet l k' := by
  induction l with
  | nil => simp [aReplace]
  | cons y l ih =>
    obtain ⟨ky, vy⟩ := y
    simp only [aReplace]
    by_cases h : ky = k
    · subst h; by_cases h' : k' = ky <;> simp_all [aGet_cons, eq_comm]
    · simp only [h, if_false, aGet_cons, ih]
      by_cases h' : k' = k
      · subst h'; simp [h]
      · simp [h']

theorem aErase_sublist (l : List (String × V)) (k) : (aErase l k).Sublist l := by
  induction l with
  | nil => simp [aErase]
  | cons y l ih =>
    obtain ⟨ky, vy⟩ := y; simp only [aErase]; split
    · exact List.sublist_cons_self _ _
    · exact ih.cons_cons _

theorem aKeys_aErase_nodup {l : List (String × V)} (k) (nd : (aKeys l).Nodup) :
    (aKeys (aErase l k)).Nodup :=
  nd.sublist ((aErase_sublist l k).map _)

theorem aGet_aErase {l : List (String × V)} (k k') (nd : (aKeys l).Nodup) :
    aGet (aErase l k) k' = if k' = k then none else aGet l k' := by
  induction l with
  | nil => simp [aErase]
  | cons y l ih =>
    obtain ⟨ky, vy⟩ := y
    simp only [aErase]
    simp only [aKeys_cons, List.nodup_cons] at nd
    by_cases h : ky = k
    · subst h
      by_cases h' : k' = ky
      · subst h'; simp [aGet_eq_none_iff, nd.1]
      · simp [h', aGet_cons, Ne.symm h']
    · simp only [h, if_false, aGet_cons, ih nd.2]
      by_cases h' : k' = k
      · subst h'; simp [h]
      · simp [h']

theorem aGet_append (l m : List (String × V)) (k) :
    aGet (l ++ m) k = (aGet l k).or (aGet m k) := by
  induction l with
  | nil => simp
  | cons y l ih => simp only [List.cons_append, aGet_cons]; split <;> simp [ih]

theorem aGet_aSet (l : List (String × V)) (k x k') :
    aGet (aSet l k x) k' = if k' = k then some x else aGet l k' := by
  unfold aSet
  split
  · next h => rw [aGet_aReplace]; simp [h]
  · next h =>
    rw [aGet_append]; simp only [aGet_cons, aGet_nil]
    by_cases h' : k' = k
    · subst h'; simp [h]
    · simp [h', Ne.symm h']

theorem aKeys_aSet (l : List (String × V)) (k x) :
    aKeys (aSet l k x) = if k ∈ aKeys l then aKeys l else aKeys l ++ [k] := by
  unfold aSet
  split
  · next h =>
    have : k ∈ aKeys l := by rw [← aGet_isSome_iff]; simp [h]
    simp [aKeys_aReplace, this]
  · next h => simp [(aGet_eq_none_iff l k).1 h]

theorem aKeys_aSet_nodup {l : List (String × V)} (k x) (nd : (aKeys l).Nodup) :
    (aKeys (aSet l k x)).Nodup := by
  rw [aKeys_aSet]; split
  · exact nd
  · next h => rw [List.nodup_append]; simp [nd]; intro a ha hb; subst hb; exact h ha

theorem foldl_aSet_nodup (xs l : List (String × V)) (nd : (aKeys l).Nodup) :
    (aKeys (xs.foldl (fun t (kv : String × V) => aSet t kv.1 kv.2) l)).Nodup := by
  induction xs generalizing l with
  | nil => exact nd
  | cons x xs ih => exact ih _ (aKeys_aSet_nodup _ _ nd)

/-- Draining a duplicate-free list into a hash map one insert at a time reproduces it. -/
theorem foldl_aSet_append (xs l : List (String × V)) (nd : (aKeys (l ++ xs)).Nodup) :
    xs.foldl (fun t (kv : String × V) => aSet t kv.1 kv.2) l = l ++ xs := by
  induction xs generalizing l with
  | nil => simp
  | cons x xs ih =>
    have hx : aGet l x.1 = none := by
      rw [aGet_eq_none_iff]; intro h
      simp only [aKeys_append, aKeys_cons, List.nodup_append] at nd
      exact nd.2.2 _ h _ (by simp) rfl
    have e : aSet l x.1 x.2 = l ++ [x] := by simp [aSet, hx]
    simp only [List.foldl_cons, e]
    rw [ih (l ++ [x])] <;> simp_all

namespace VMap

/-- the entries, whichever representation -/
def entries : VMap V → List (String × V)
  | .small e => e
  | .large t => t

/-- the no-duplicate-keys invariant -/
def Wf (m : VMap V) : Prop := (aKeys m.entries).Nodup

theorem get_eq (m : VMap V) (k) : m.get k = aGet m.entries k := by cases m <;> rfl
theorem len_eq (m : VMap V) : m.len = m.entries.length := by cases m <;> rfl

theorem entries_spill {m : VMap V} (h : m.Wf) : m.spill.entries = m.entries := by
  cases m with
  | small e =>
    simp only [spill, entries, hInsert]
    have := foldl_aSet_append e [] (by simpa [Wf, entries] using h)
    simpa using this
  | large t => rfl

theorem spill_small (e : List (String × V)) (h : (VMap.small e).Wf) :
    (VMap.small e).spill = .large e := by
  have := entries_spill h
  simp only [spill, entries] at this ⊢
  rw [this]

theorem entries_insert {m : VMap V} (h : m.Wf) (k v) :
    (m.insert k v).1.entries = aSet m.entries k v ∧ (m.insert k v).2 = aGet m.entries k := by
  cases m with
  | small e =>
    unfold insert
    cases hg : aGet e k with
    | some old => simp [aSet, hg, entries]
    | none =>
      simp only
      by_cases hl : e.length ≥ SPILL_AT
      · rw [if_pos hl, spill_small e h]; simp [hInsert, hg, entries]
      · rw [if_neg hl]; simp [aSet, hg, entries]
  | large t => simp [insert, entries, hInsert]

theorem wf_insert {m : VMap V} (h : m.Wf) (k v) : (m.insert k v).1.Wf := by
  unfold Wf; rw [(entries_insert h k v).1]; exact aKeys_aSet_nodup _ _ h

theorem get_insert {m : VMap V} (h : m.Wf) (k v k') :
    (m.insert k v).1.get k' = if k' = k then some v else m.get k' := by
  rw [get_eq, (entries_insert h k v).1, aGet_aSet, get_eq]

theorem entries_remove (m : VMap V) (k) :
    (m.remove k).1.entries = aErase m.entries k ∧ (m.remove k).2 = aGet m.entries k := by
  cases m <;> simp [remove, entries]

theorem wf_remove {m : VMap V} (h : m.Wf) (k) : (m.remove k).1.Wf := by
  unfold Wf; rw [(entries_remove m k).1]; exact aKeys_aErase_nodup _ h

theorem entries_writeSlot (m : VMap V) (k v) :
    (m.writeSlot k v).entries = aReplace m.entries k v := by cases m <;> rfl

theorem entries_entryPrep {m : VMap V} (h : m.Wf) (k) : (m.entryPrep k).entries = m.entries := by
  cases m with
  | small e => simp only [entryPrep]; split
               · exact entries_spill h
               · rfl
  | large t => rfl

theorem aReplace_aSet_fresh (l : List (String × V)) (k d x) (hg : aGet l k = none) :
    aReplace (aSet l k d) k x = aSet l k x := by
  simp only [aSet, hg]
  have : k ∉ aKeys l := (aGet_eq_none_iff _ _).1 hg
  clear hg
  induction l with
  | nil => simp [aReplace]
  | cons y l ih =>
    obtain ⟨ky, vy⟩ := y
    simp only [aKeys_cons, List.mem_cons, not_or] at this
    simp [aReplace, Ne.symm this.1, ih this.2]

theorem entries_entryUpdate {m : VMap V} (h : m.Wf) (k d f) :
    (m.entryUpdate k d f).entries = aSet m.entries k (f ((aGet m.entries k).getD d)) := by
  have he := entries_entryPrep h k
  have hw : (m.entryPrep k).Wf := by unfold Wf; rw [he]; exact h
  unfold entryUpdate
  rw [get_eq, he]
  cases hg : aGet m.entries k with
  | some old => simp [entries_writeSlot, he, aSet, hg]
  | none =>
    simp only [entries_writeSlot, (entries_insert hw k d).1, he, Option.getD_none]
    exact aReplace_aSet_fresh _ _ _ _ hg

theorem wf_entryUpdate {m : VMap V} (h : m.Wf) (k d f) : (m.entryUpdate k d f).Wf := by
  unfold Wf; rw [entries_entryUpdate h]; exact aKeys_aSet_nodup _ _ h

theorem extend_spec {m : VMap V} (h : m.Wf) (xs) :
    (m.extend xs).Wf ∧ ∀ k, (m.extend xs).get k =
      (xs.foldl (fun s kv => SpecMap.set s kv.1 (some kv.2)) (m.get : SpecMap V)) k := by
  induction xs generalizing m with
  | nil => exact ⟨h, fun _ => rfl⟩
  | cons x xs ih =>
    have := ih (wf_insert h x.1 x.2)
    refine ⟨this.1, fun k => ?_⟩
    have e : (fun k => (m.insert x.1 x.2).1.get k) = SpecMap.set (m.get : SpecMap V) x.1 (some x.2) := by
      funext k'; rw [get_insert h]; rfl
    have h2 := this.2 k
    simp only [List.foldl_cons]
    rw [← e]; exact h2

/-- One operation refines the abstract operation. -/
theorem step_refines {m : VMap V} (h : m.Wf) (op : MOp V) :
    (m.step op).1.Wf ∧ (m.step op).1.get = (SpecMap.step (m.get : SpecMap V) op).1 ∧
      (m.step op).2 = (SpecMap.step (m.get : SpecMap V) op).2 := by
  cases op with
  | insert k v =>
    refine ⟨wf_insert h k v, ?_, ?_⟩
    · funext k'; exact get_insert h k v k'
    · simp [step, SpecMap.step, (entries_insert h k v).2, get_eq]
  | remove k =>
    refine ⟨wf_remove h k, ?_, ?_⟩
    · funext k'
      simp [step, SpecMap.step, SpecMap.set, get_eq, (entries_remove m k).1, aGet_aErase k k' h]
    · simp [step, SpecMap.step, (entries_remove m k).2, get_eq]
  | entry k d f =>
    refine ⟨wf_entryUpdate h k d f, ?_, rfl⟩
    funext k'
    simp [step, SpecMap.step, SpecMap.set, get_eq, entries_entryUpdate h, aGet_aSet]
  | extend xs =>
    refine ⟨(extend_spec h xs).1, ?_, rfl⟩
    funext k'; exact (extend_spec h xs).2 k'
  | clear =>
    cases m <;> refine ⟨?_, ?_, rfl⟩ <;> simp [step, clear, SpecMap.step, Wf, entries] <;> funext <;> rfl

theorem run_refines {m : VMap V} (h : m.Wf) (ops : List (MOp V)) :
    (m.run ops).1.Wf ∧ (m.run ops).1.get = (SpecMap.run (m.get : SpecMap V) ops).1 ∧
      (m.run ops).2 = (SpecMap.run (m.get : SpecMap V) ops).2 := by
  induction ops generalizing m with
  | nil => exact ⟨h, rfl, rfl⟩
  | cons op r ih =>
    obtain ⟨w, g, o⟩ := step_refines h op
    obtain ⟨w', g', o'⟩ := ih w
    refine ⟨w', ?_, ?_⟩
    · simp only [run, SpecMap.run, g', g]
    · simp only [run, SpecMap.run, o', g, o]

theorem wf_withCapacity (c : Nat) : (withCapacity c : VMap V).Wf := by
  unfold withCapacity; split <;> simp [Wf, entries]

theorem get_withCapacity (c : Nat) : (withCapacity c : VMap V).get = fun _ => none := by
  funext k; unfold withCapacity; split <;> rfl

end VMap
end Zen
