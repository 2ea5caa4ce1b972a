import Verif.Builtins.Funcs
import Verif.Core.ValLemmas
/- Helper lemmas about the built-ins that combine objects. -/
namespace Zen
namespace Fn

/-- a loop over entries that sets each key to a function of the old and the new value -/
def upd (g : Option Val → Val → Val) (m : List (String × Val)) :
    List (String × Val) → List (String × Val)
  | [] => m
  | (k, v) :: r => upd g (aSet m k (g (aGet m k) v)) r

theorem insertAll_eq (m es : List (String × Val)) : insertAll m es = upd (fun _ v => v) m es := by
  induction es generalizing m with
  | nil => rfl
  | cons e r ih => obtain ⟨k, v⟩ := e; simp only [upd, ← ih]; rfl

/-- how `deep_merge_variables` combines an old with a new value -/
def deepG (o : Option Val) (v : Val) : Val := match o with | some old => deepV old v | none => v

theorem deepE_eq (m es : List (String × Val)) : deepE m es = upd deepG m es := by
  induction es generalizing m with
  | nil => simp [deepE, upd]
  | cons e r ih => obtain ⟨k, v⟩ := e; rw [deepE, upd, ih]; rfl

theorem aGet_upd (g : Option Val → Val → Val) (m p : List (String × Val)) (nd : (aKeys p).Nodup)
    (k : String) : aGet (upd g m p) k = match aGet p k with
      | none => aGet m k | some v => some (g (aGet m k) v) := by
  induction p generalizing m with
  | nil => rfl
  | cons e r ih =>
    obtain ⟨k', v⟩ := e
    simp only [aKeys_cons, List.nodup_cons] at nd
    rw [upd, ih _ nd.2]
    have hk' : aGet r k' = none := (aGet_eq_none_iff r k').2 nd.1
    by_cases h : k' = k
    · subst h
      simp [aGet_cons, hk', aGet_aSet]
    · have h2 : ¬ k = k' := fun q => h q.symm
      simp [aGet_cons, h, aGet_aSet, h2]

theorem aKeys_upd (g : Option Val → Val → Val) (m p : List (String × Val)) (nd : (aKeys p).Nodup) :
    aKeys (upd g m p) = aKeys m ++ (aKeys p).filter (fun k => decide (k ∉ aKeys m)) := by
  induction p generalizing m with
  | nil => simp [upd]
  | cons e r ih =>
    obtain ⟨k', v⟩ := e
    simp only [aKeys_cons, List.nodup_cons] at nd
    rw [upd, ih _ nd.2, aKeys_aSet]
    by_cases h : k' ∈ aKeys m
    · simp [h]
    · simp only [h, if_false, aKeys_cons]
      rw [List.filter_cons_of_pos (by simpa using h), List.append_assoc, List.singleton_append]
      congr 2
      apply List.filter_congr
      intro x hx
      have : x ≠ k' := fun q => nd.1 (q ▸ hx)
      simp [this]

theorem nodup_upd (g : Option Val → Val → Val) (m p : List (String × Val)) (nm : (aKeys m).Nodup) :
    (aKeys (upd g m p)).Nodup := by
  induction p generalizing m with
  | nil => exact nm
  | cons e r ih => obtain ⟨k', v⟩ := e; exact ih _ (aKeys_aSet_nodup _ _ nm)

theorem assoc_ext {l m : List (String × Val)} (hk : aKeys l = aKeys m) (nd : (aKeys l).Nodup)
    (hg : ∀ k, aGet l k = aGet m k) : l = m := by
  induction l generalizing m with
  | nil =>
    cases m with
    | nil => rfl
    | cons a b => simp at hk
  | cons x l ih =>
    cases m with
    | nil => simp at hk
    | cons y m =>
      obtain ⟨k, v⟩ := x
      obtain ⟨k', v'⟩ := y
      simp only [aKeys_cons, List.cons.injEq] at hk
      obtain ⟨rfl, hk⟩ := hk
      simp only [aKeys_cons, List.nodup_cons] at nd
      have hv := hg k
      simp only [aGet_cons, if_true, Option.some.injEq] at hv
      subst hv
      rw [ih hk nd.2]
      intro q
      have := hg q
      simp only [aGet_cons] at this
      by_cases hq : k = q
      · subst hq
        rw [(aGet_eq_none_iff l k).2 nd.1, (aGet_eq_none_iff m k).2 (hk ▸ nd.1)]
      · simpa [hq] using this

theorem insertAll_nil {a : List (String × Val)} (nd : (aKeys a).Nodup) : insertAll [] a = a := by
  have := foldl_aSet_append a [] (by simpa using nd)
  simpa [insertAll] using this

theorem aGet_insertAll (m p : List (String × Val)) (nd : (aKeys p).Nodup) (k : String) :
    aGet (insertAll m p) k = (aGet p k).or (aGet m k) := by
  rw [insertAll_eq, aGet_upd _ _ _ nd]
  cases aGet p k <;> rfl

theorem nodup_insertAll (m p : List (String × Val)) (nm : (aKeys m).Nodup) :
    (aKeys (insertAll m p)).Nodup := by rw [insertAll_eq]; exact nodup_upd _ _ _ nm

theorem keys_assoc (A B C : List String) :
    (A ++ B.filter (fun k => decide (k ∉ A))) ++
      C.filter (fun k => decide (k ∉ A ++ B.filter (fun k => decide (k ∉ A)))) =
    A ++ (B ++ C.filter (fun k => decide (k ∉ B))).filter (fun k => decide (k ∉ A)) := by
  rw [List.filter_append, List.append_assoc, List.filter_filter]
  congr 2
  apply List.filter_congr
  intro x _
  by_cases h1 : x ∈ A <;> by_cases h2 : x ∈ B <;> simp [h1, h2]

/-- inserting is associative, key order included -/
theorem insertAll_assoc (a b c : List (String × Val)) (na : (aKeys a).Nodup) (nb : (aKeys b).Nodup)
    (nc : (aKeys c).Nodup) : insertAll (insertAll a b) c = insertAll a (insertAll b c) := by
  apply assoc_ext
  · rw [insertAll_eq (insertAll a b), insertAll_eq a b, insertAll_eq a, insertAll_eq b c,
      aKeys_upd _ _ _ nc, aKeys_upd _ _ _ nb, aKeys_upd _ _ _ (nodup_upd _ _ _ nb), aKeys_upd _ _ _ nc,
      keys_assoc]
  · exact nodup_insertAll _ _ (nodup_insertAll _ _ na)
  · intro k
    rw [aGet_insertAll _ _ nc, aGet_insertAll _ _ nb, aGet_insertAll _ _ (nodup_insertAll _ _ nb),
      aGet_insertAll _ _ nc]
    cases aGet c k <;> cases aGet b k <;> rfl

theorem deepV_obj (a b : List (String × Val)) (na : (aKeys a).Nodup) :
    deepV (.obj a) (.obj b) = .obj (upd deepG a b) := by
  rw [deepV, insertAll_nil na, deepE_eq]

theorem deepV_arr (a b : List Val) : deepV (.arr a) (.arr b) = .arr (a ++ b) := by rw [deepV]

/-- anything but two objects or two arrays is replaced -/
theorem deepV_other {x y : Val} (h1 : (x.isObj && y.isObj) = false) (h2 : (x.isArr && y.isArr) = false) :
    deepV x y = y := by
  cases y <;> cases x <;> simp_all [deepV, Val.isObj, Val.isArr]

theorem deepV_wf : ∀ y x : Val, x.Wf → y.Wf → (deepV x y).Wf := by
  apply Val.indObj
  · intro y hy x hx hyw
    by_cases h : (x.isArr && y.isArr) = true
    · cases x <;> cases y <;> simp [Val.isArr] at h
      rw [deepV_arr]
      cases hx with | arr _ hx => cases hyw with | arr _ hyw =>
      refine .arr _ fun z hz => ?_
      rcases List.mem_append.1 hz with q | q
      · exact hx z q
      · exact hyw z q
    · rw [deepV_other (by simp [hy]) (by simpa using h)]; exact hyw
  · intro m ih x hx hy
    by_cases h : x.isObj = true
    · cases x <;> simp [Val.isObj] at h
      next a =>
      have ⟨na, ha⟩ := hx.obj_inv
      have ⟨nm, hm⟩ := hy.obj_inv
      rw [deepV_obj _ _ na]
      have nu : (aKeys (upd deepG a m)).Nodup := nodup_upd _ _ _ na
      refine .obj _ nu fun k z hz => ?_
      have hg := aGet_of_mem nu hz
      rw [aGet_upd _ _ _ nm] at hg
      cases hk : aGet m k with
      | none => rw [hk] at hg; exact hx.get hg
      | some v =>
        rw [hk] at hg
        cases hg
        cases hak : aGet a k with
        | none => exact hy.get hk
        | some o => exact ih k v (aGet_mem hk) o (hx.get hak) (hy.get hk)
    · rw [deepV_other (by simp [h]) (by simp [Val.isArr])]; exact hy

end Fn
end Zen
