import Verif.Heap.Insert
/- Copies. -/
namespace Zen
open Heap
variable {h h' : Heap}

/-! ### `depth_clone` and the detached walk write to no old cell -/

theorem mapL_ext {f : Heap → HVal → Heap × HVal} (hf : ∀ h v, h <+: (f h v).1) :
    ∀ (xs : List HVal) (h : Heap), h <+: (mapL f h xs).1
  | [], h => List.prefix_refl _
  | x :: xs, h => (hf h x).trans (mapL_ext hf xs _)
theorem mapE_ext {f : Heap → HVal → Heap × HVal} (hf : ∀ h v, h <+: (f h v).1) :
    ∀ (xs : List (String × HVal)) (h : Heap), h <+: (mapE f h xs).1
  | [], h => List.prefix_refl _
  | (_, x) :: xs, h => (hf h x).trans (mapE_ext hf xs _)

theorem depthClone_ext : ∀ (n : Nat) (h : Heap) (v : HVal), h <+: (depthClone n h v).1
  | 0, h, v => List.prefix_refl _
  | n + 1, h, v => by
    cases v with
    | arr a =>
      simp only [depthClone]
      split
      · exact (mapL_ext (depthClone_ext n) _ h).trans ⟨_, rfl⟩
      · exact List.prefix_refl _
    | obj a =>
      simp only [depthClone]
      split
      · exact (mapE_ext (depthClone_ext n) _ h).trans ⟨_, rfl⟩
      · exact List.prefix_refl _
    | _ => exact List.prefix_refl _

/-- a pointer that is new, or does not lead to an object -/
def Loose (L : Nat) (h : Heap) (v : HVal) : Prop := ∀ a, v = .obj a → L ≤ a ∨ h.objAt a = none

theorem depthClone_one_loose (L : Nat) (h : Heap) (v : HVal) (hL : L ≤ h.length) :
    Loose L (depthClone 1 h v).1 (depthClone 1 h v).2 := by
  intro a ha
  cases v with
  | obj b =>
    cases hb : h.objAt b with
    | none =>
      have : depthClone 1 h (.obj b) = (h, .obj b) := by simp [depthClone, hb]
      rw [this] at ha ⊢
      cases ha
      exact .inr hb
    | some m =>
      rw [depthClone_one_obj hb] at ha
      cases ha
      exact .inl hL
  | arr b =>
    simp only [depthClone] at ha
    split at ha <;> simp [Heap.newArr] at ha
  | _ => simp [depthClone] at ha

theorem detachEntry_ext (h : Heap) (o : Option HVal) : h <+: (detachEntry h o).1 := by
  unfold detachEntry
  split
  · exact depthClone_ext 1 h _
  · exact ⟨_, rfl⟩

theorem detachEntry_loose (L : Nat) (h : Heap) (o : Option HVal) (hL : L ≤ h.length) :
    Loose L (detachEntry h o).1 (detachEntry h o).2 := by
  unfold detachEntry
  split
  · exact depthClone_one_loose L h _ hL
  · intro a ha; cases ha; exact .inl hL

theorem objAt_set_none {a b : Nat} {m} (ha : Heap.objAt h b = none) (hne : a ≠ b) :
    Heap.objAt (h.set a (.obj m)) b = none := by
  unfold Heap.objAt at ha ⊢
  rw [List.getElem?_set_ne hne]; exact ha

theorem walkDetach_frame (L : Nat) : ∀ (ps : List String) (h : Heap) (v : HVal), L ≤ h.length → Loose L h v →
    L ≤ (walkDetach h v ps).1.length ∧ (∀ b, b < L → (walkDetach h v ps).1[b]? = h[b]?) ∧
    ∀ w, (walkDetach h v ps).2 = some w → Loose L (walkDetach h v ps).1 w
  | [], h, v, hL, hv => ⟨hL, fun _ _ => by simp [walkDetach], fun w hw => by
      simp [walkDetach] at hw ⊢; exact hw ▸ hv⟩
  | p :: ps, h, v, hL, hv => by
    by_cases hb : ∃ a, v = .obj a
    · obtain ⟨a, rfl⟩ := hb
      cases ho : h.objAt a with
      | none => simp [walkDetach, ho, hL]
      | some m =>
        simp only [walkDetach, ho]
        have ha : L ≤ a := by
          rcases hv a rfl with h0 | h0
          · exact h0
          · rw [ho] at h0; cases h0
        have hext := detachEntry_ext h (aGet m p)
        have hlen := hext.length_le
        have hloose := detachEntry_loose L h (aGet m p) hL
        generalize detachEntry h (aGet m p) = r at hext hlen hloose ⊢
        have hl2 : Loose L (r.1.set a (.obj (aSet m p r.2))) r.2 := by
          intro b hb
          rcases hloose b hb with h0 | h0
          · exact .inl h0
          · by_cases hab : a = b
            · exact .inl (hab ▸ ha)
            · exact .inr (objAt_set_none h0 hab)
        obtain ⟨i1, i2, i3⟩ := walkDetach_frame L ps _ r.2 (by simp; omega) hl2
        refine ⟨i1, fun b hb => ?_, i3⟩
        rw [i2 b hb, List.getElem?_set_ne (by omega), get_ext hext (by omega)]
    · cases v with
      | obj a => exact absurd ⟨a, rfl⟩ hb
      | _ => simp [walkDetach, hL]

theorem prefix_of_get (hl : h.length ≤ h'.length) (hf : ∀ b, b < h.length → h'[b]? = h[b]?) : h <+: h' := by
  rw [List.prefix_iff_eq_take]
  apply List.ext_getElem?
  intro i
  by_cases hi : i < h.length
  · rw [List.getElem?_take_of_lt hi, hf i hi]
  · rw [List.getElem?_eq_none (by omega), List.getElem?_eq_none (by simp; omega)]

theorem dotInsertDetached_ext (h : Heap) (v : HVal) (path : List String) (x : HVal) :
    h <+: (Heap.dotInsertDetached h v path x).1 := by
  unfold Heap.dotInsertDetached
  split
  · exact List.prefix_refl _
  · next k _ =>
    have hext := depthClone_ext 1 h v
    have hlen := hext.length_le
    have hloose := depthClone_one_loose h.length h v (Nat.le_refl _)
    dsimp only
    generalize depthClone 1 h v = c at hext hlen hloose ⊢
    obtain ⟨i1, i2, i3⟩ := walkDetach_frame h.length path.dropLast c.1 c.2 hlen hloose
    generalize walkDetach c.1 c.2 path.dropLast = w at i1 i2 i3 ⊢
    have hall : h <+: w.1 := prefix_of_get i1 fun b hb => by rw [i2 b hb, get_ext hext hb]
    split
    · next h1 a =>
      split
      · next m hm =>
        have ha : h.length ≤ a := by
          rcases i3 _ rfl a rfl with h0 | h0
          · exact h0
          · rw [hm] at h0; cases h0
        refine prefix_of_get (by simpa using i1) fun b hb => ?_
        rw [List.getElem?_set_ne (by omega), get_ext hall hb]
      · exact hall
    · exact hall

/-! ### `deep_clone` -/

mutual
theorem deepClone_den {h0 : Heap} : ∀ {v : HVal} {x : Val} {F : List Nat}, Den h0 v x F → ∀ h : Heap, h0 <+: h →
    ∃ h' w F', h <+: h' ∧ Den h' w x F' ∧ F'.Nodup ∧ (∀ a ∈ F', h.length ≤ a) ∧
      ∃ N, ∀ n, N ≤ n → Heap.deepClone n h v = some (h', w)
  | _, _, _, .null, h, _ => ⟨h, _, _, List.prefix_refl _, .null, .nil, by simp, 1, fun n hn => by cases n <;> simp_all [Heap.deepClone]⟩
  | _, _, _, .bool _, h, _ => ⟨h, _, _, List.prefix_refl _, .bool _, .nil, by simp, 1, fun n hn => by cases n <;> simp_all [Heap.deepClone]⟩
  | _, _, _, .num _, h, _ => ⟨h, _, _, List.prefix_refl _, .num _, .nil, by simp, 1, fun n hn => by cases n <;> simp_all [Heap.deepClone]⟩
  | _, _, _, .str _, h, _ => ⟨h, _, _, List.prefix_refl _, .str _, .nil, by simp, 1, fun n hn => by cases n <;> simp_all [Heap.deepClone]⟩
  | _, _, _, .dyn _, h, _ => ⟨h, _, _, List.prefix_refl _, .dyn _, .nil, by simp, 1, fun n hn => by cases n <;> simp_all [Heap.deepClone]⟩
  | _, _, _, .arr (a := a) e d, h, he => by
    obtain ⟨h', ws, F', i1, i2, i3, i4, N, hN⟩ := deepCloneL_den d h he
    refine ⟨h' ++ [.arr ws], .arr h'.length, h'.length :: F', i1.trans ⟨_, rfl⟩,
      .arr (by simp) (denL_frame i2 fun b hb => List.getElem?_append_left (denL_lt i2 b hb)), ?_, ?_, N + 1, fun n hn => ?_⟩
    · exact List.nodup_cons.2 ⟨fun hh => by have := denL_lt i2 _ hh; omega, i3⟩
    · intro b hb
      rcases List.mem_cons.1 hb with rfl | hb
      · exact i1.length_le
      · exact i4 b hb
    · cases n with
      | zero => omega
      | succ n =>
        have e' := (get_ext he (lt_of_get e)).trans e
        simp [Heap.deepClone, e', hN n (by omega), Heap.newArr]
  | _, _, _, .obj (a := a) e d, h, he => by
    obtain ⟨h', ws, F', i1, i2, i3, i4, N, hN⟩ := deepCloneE_den d h he
    refine ⟨h' ++ [.obj ws], .obj h'.length, h'.length :: F', i1.trans ⟨_, rfl⟩,
      .obj (by simp) (denE_frame i2 fun b hb => List.getElem?_append_left (denE_lt i2 b hb)), ?_, ?_, N + 1, fun n hn => ?_⟩
    · exact List.nodup_cons.2 ⟨fun hh => by have := denE_lt i2 _ hh; omega, i3⟩
    · intro b hb
      rcases List.mem_cons.1 hb with rfl | hb
      · exact i1.length_le
      · exact i4 b hb
    · cases n with
      | zero => omega
      | succ n =>
        have e' := objAt_of ((get_ext he (lt_of_get e)).trans e)
        simp [Heap.deepClone, e', hN n (by omega), Heap.newObj]
theorem deepCloneL_den {h0 : Heap} : ∀ {v : List HVal} {x : List Val} {F : List Nat}, DenL h0 v x F → ∀ h : Heap, h0 <+: h →
    ∃ h' w F', h <+: h' ∧ DenL h' w x F' ∧ F'.Nodup ∧ (∀ a ∈ F', h.length ≤ a) ∧
      ∃ N, ∀ n, N ≤ n → Heap.mapL? (Heap.deepClone n) h v = some (h', w)
  | _, _, _, .nil, h, _ => ⟨h, _, _, List.prefix_refl _, .nil, .nil, by simp, 0, fun n _ => rfl⟩
  | _, _, _, .cons d ds, h, he => by
    obtain ⟨h1, w, F1, i1, i2, i3, i4, N, hN⟩ := deepClone_den d h he
    obtain ⟨h2, ws, F2, j1, j2, j3, j4, M, hM⟩ := deepCloneL_den ds h1 (he.trans i1)
    refine ⟨h2, w :: ws, F1 ++ F2, i1.trans j1, .cons (den_ext j1 i2) j2, ?_, ?_, max N M, fun n hn => ?_⟩
    · refine List.nodup_append.2 ⟨i3, j3, fun a ha b hb hab => ?_⟩
      have := den_lt i2 a ha
      have := j4 b hb
      omega
    · intro a ha
      rcases List.mem_append.1 ha with ha | ha
      · exact i4 a ha
      · have := j4 a ha; have := i1.length_le; omega
    · simp [Heap.mapL?, hN n (by omega), hM n (by omega)]
theorem deepCloneE_den {h0 : Heap} : ∀ {v : List (String × HVal)} {x : List (String × Val)} {F : List Nat}, DenE h0 v x F →
    ∀ h : Heap, h0 <+: h → ∃ h' w F', h <+: h' ∧ DenE h' w x F' ∧ F'.Nodup ∧ (∀ a ∈ F', h.length ≤ a) ∧
      ∃ N, ∀ n, N ≤ n → Heap.mapE? (Heap.deepClone n) h v = some (h', w)
  | _, _, _, .nil, h, _ => ⟨h, _, _, List.prefix_refl _, .nil, .nil, by simp, 0, fun n _ => rfl⟩
  | _, _, _, .cons d ds, h, he => by
    obtain ⟨h1, w, F1, i1, i2, i3, i4, N, hN⟩ := deepClone_den d h he
    obtain ⟨h2, ws, F2, j1, j2, j3, j4, M, hM⟩ := deepCloneE_den ds h1 (he.trans i1)
    refine ⟨h2, _, F1 ++ F2, i1.trans j1, .cons (den_ext j1 i2) j2, ?_, ?_, max N M, fun n hn => ?_⟩
    · refine List.nodup_append.2 ⟨i3, j3, fun a ha b hb hab => ?_⟩
      have := den_lt i2 a ha
      have := j4 b hb
      omega
    · intro a ha
      rcases List.mem_append.1 ha with ha | ha
      · exact i4 a ha
      · have := j4 a ha; have := i1.length_le; omega
    · simp [Heap.mapE?, hN n (by omega), hM n (by omega)]
end

/-! ### `depth_clone` keeps the data -/

theorem depthClone_den : ∀ (n : Nat) {h0 : Heap} {v : HVal} {x : Val} {F}, Den h0 v x F → ∀ h, h0 <+: h →
    Sees (depthClone n h v).1 (depthClone n h v).2 x
  | 0, _, _, _, _, d, h, he => ⟨_, den_ext he d⟩
  | n + 1, h0, _, _, _, d, h, he => by
    cases d with
    | @arr a xs vs F e d =>
      have e' := (get_ext he (lt_of_get e)).trans e
      simp only [depthClone, e']
      have key : ∀ {xs : List HVal} {vs : List Val} {F}, DenL h0 xs vs F → ∀ h, h0 <+: h →
          ∃ F', DenL (mapL (depthClone n) h xs).1 (mapL (depthClone n) h xs).2 vs F' := by
        intro xs
        induction xs with
        | nil => intro vs F d h _; cases d; exact ⟨_, .nil⟩
        | cons y ys ih =>
          intro vs F d h he
          cases d with
          | cons d ds =>
            obtain ⟨G, dy⟩ := depthClone_den n d h he
            obtain ⟨G', dys⟩ := ih ds (depthClone n h y).1 (he.trans (depthClone_ext n h y))
            exact ⟨_, .cons (den_ext (mapL_ext (depthClone_ext n) ys _) dy) dys⟩
      obtain ⟨F', d'⟩ := key d h he
      exact ⟨_, .arr (by simp [Heap.newArr]) (denL_frame d' fun b hb => List.getElem?_append_left (denL_lt d' b hb))⟩
    | @obj a xs vs F e d =>
      have e' := objAt_of ((get_ext he (lt_of_get e)).trans e)
      simp only [depthClone, e']
      have key : ∀ {xs : List (String × HVal)} {vs : List (String × Val)} {F}, DenE h0 xs vs F → ∀ h, h0 <+: h →
          ∃ F', DenE (mapE (depthClone n) h xs).1 (mapE (depthClone n) h xs).2 vs F' := by
        intro xs
        induction xs with
        | nil => intro vs F d h _; cases d; exact ⟨_, .nil⟩
        | cons y ys ih =>
          intro vs F d h he
          cases d with
          | @cons k y v F m vs G d ds =>
            obtain ⟨G, dy⟩ := depthClone_den n d h he
            obtain ⟨G', dys⟩ := ih ds (depthClone n h y).1 (he.trans (depthClone_ext n h y))
            exact ⟨_, .cons (den_ext (mapE_ext (depthClone_ext n) ys _) dy) dys⟩
      obtain ⟨F', d'⟩ := key d h he
      exact ⟨_, .obj (by simp [Heap.newObj]) (denE_frame d' fun b hb => List.getElem?_append_left (denE_lt d' b hb))⟩
    | null => exact ⟨_, .null⟩
    | bool b => exact ⟨_, .bool b⟩
    | num b => exact ⟨_, .num b⟩
    | str b => exact ⟨_, .str b⟩
    | dyn b => exact ⟨_, .dyn b⟩

end Zen
