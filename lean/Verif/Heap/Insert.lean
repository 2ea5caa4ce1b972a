import Verif.Heap.Lemmas
/- Path writes on the heap. -/
namespace Zen
open Heap
variable {h h' : Heap}

theorem mapE_id (f : Heap → HVal → Heap × HVal) (hf : ∀ h v, f h v = (h, v)) (h : Heap) (m : List (String × HVal)) :
    mapE f h m = (h, m) := by
  induction m with
  | nil => rfl
  | cons e m ih => obtain ⟨k, x⟩ := e; simp [mapE, hf, ih]

theorem mapL_id (f : Heap → HVal → Heap × HVal) (hf : ∀ h v, f h v = (h, v)) (h : Heap) (m : List HVal) :
    mapL f h m = (h, m) := by
  induction m with
  | nil => rfl
  | cons x m ih => simp [mapL, hf, ih]

theorem depthClone_one_obj {a : Nat} {m} (e : h.objAt a = some m) : depthClone 1 h (.obj a) = h.newObj m := by
  simp only [depthClone, e]
  rw [mapE_id _ (fun _ _ => rfl)]

/-- the map of the object a detached walk goes on with -/
def childMap (h : Heap) : Option HVal → List (String × HVal)
  | some (.obj b) => (h.objAt b).getD []
  | _ => []

/-- `dot_insert_detached` after its first step, as one recursion: `a` is the address of a fresh copy -/
def insD : Heap → Nat → List String → HVal → Heap
  | h, _, [], _ => h
  | h, a, [k], x => match h.objAt a with
    | some m => h.set a (.obj (aSet m k x))
    | none => h
  | h, a, k :: k' :: ks, x => match h.objAt a with
    | some m => insD ((h ++ [Cell.obj (childMap h (aGet m k))]).set a (.obj (aSet m k (.obj h.length)))) h.length (k' :: ks) x
    | none => h

theorem walkDetach_insD : ∀ (path : List String) (k : String) (h : Heap) (a : Nat) (x : HVal) (m : List (String × HVal)) vs F,
    h.objAt a = some m → DenE h m vs F → a ∉ F →
    (match walkDetach h (.obj a) path with
      | (h, some (.obj b)) => match h.objAt b with
        | some m => some (h.set b (.obj (aSet m k x)))
        | none => none
      | (_, _) => none) = some (insD h a (path ++ [k]) x)
  | [], k, h, a, x, m, vs, F, e, _, _ => by simp [walkDetach, insD, e]
  | p :: ps, k, h, a, x, m, vs, F, e, d, ha => by
    have hlt : a < h.length := lt_of_get (of_objAt e)
    -- the child's copy
    have hr : detachEntry h (aGet m p) = (h ++ [.obj (childMap h (aGet m p))], .obj h.length) ∧
        ∃ cv G, DenE h (childMap h (aGet m p)) cv G ∧ a ∉ G := by
      cases hg : aGet m p with
      | none => exact ⟨rfl, _, _, .nil, by simp⟩
      | some y =>
        obtain ⟨v, G, R, _, dy, _, hp⟩ := denE_hole d hg
        have haG : a ∉ G := fun hh => ha (hp.mem_iff.2 (List.mem_append_left _ hh))
        cases dy with
        | obj hb db =>
          have hb' := objAt_of hb
          refine ⟨?_, ?_⟩
          · simp only [detachEntry]; rw [depthClone_one_obj hb']; simp [childMap, hb', newObj]
          · simp only [childMap, hb', Option.getD_some]
            exact ⟨_, _, db, fun hh => haG (List.mem_cons_of_mem _ hh)⟩
        | null => exact ⟨rfl, _, _, .nil, by simp⟩
        | bool b => exact ⟨rfl, _, _, .nil, by simp⟩
        | num b => exact ⟨rfl, _, _, .nil, by simp⟩
        | str b => exact ⟨rfl, _, _, .nil, by simp⟩
        | dyn b => exact ⟨rfl, _, _, .nil, by simp⟩
        | arr _ _ => exact ⟨rfl, _, _, .nil, by simp⟩
    obtain ⟨hr, cv, G, dc, haG⟩ := hr
    have hps : p :: ps ++ [k] = p :: (ps ++ [k]) := rfl
    cases hq : ps ++ [k] with
    | nil => simp at hq
    | cons q qs =>
      rw [hps, hq, insD]
      simp only [e]
      rw [← hq]
      have hGlt := denE_lt dc
      have hframe : ∀ b ∈ G, ((h ++ [Cell.obj (childMap h (aGet m p))]).set a (.obj (aSet m p (.obj h.length))))[b]? = h[b]? := by
        intro b hb
        rw [List.getElem?_set_ne (fun (hh : a = b) => haG (hh ▸ hb)), List.getElem?_append_left (hGlt b hb)]
      have hnew : Heap.objAt ((h ++ [Cell.obj (childMap h (aGet m p))]).set a (.obj (aSet m p (.obj h.length)))) h.length
          = some (childMap h (aGet m p)) := by
        apply objAt_of
        rw [List.getElem?_set_ne (by omega)]; simp
      have := walkDetach_insD ps k _ h.length x _ cv G hnew (denE_frame dc hframe) (fun hh => by have := hGlt _ hh; omega)
      rw [← this]
      simp only [walkDetach, e]
      rw [hr]

theorem aSet_den {m : List (String × HVal)} {vs : List (String × Val)} {F k y x G} (d : DenE h m vs F) (dy : Den h y x G) :
    ∃ F', DenE h (aSet m k y) (aSet vs k x) F' := by
  cases hg : aGet m k with
  | none => exact ⟨_, denE_set_fresh d hg dy⟩
  | some z =>
    obtain ⟨w, G', R, _, _, dr, _⟩ := denE_hole d hg
    obtain ⟨F', h1, _⟩ := denE_fill (denE_keys d) dr hg dy
    exact ⟨F', h1⟩

theorem insD_spec : ∀ (path : List String) (h : Heap) (a : Nat) (x : HVal) (m : List (String × HVal)) vs F xv G,
    path ≠ [] → h.objAt a = some m → DenE h m vs F → a ∉ F → Den h x xv G → a ∉ G →
    h.length ≤ (insD h a path x).length ∧
    (∀ b, b < h.length → b ≠ a → (insD h a path x)[b]? = h[b]?) ∧
    ∃ r F', (Val.obj vs).dotInsertDetachedP path xv = some r ∧ Den (insD h a path x) (.obj a) r F'
  | [], _, _, _, _, _, _, _, _, hp, _, _, _, _, _ => absurd rfl hp
  | [k], h, a, x, m, vs, F, xv, G, _, e, d, ha, dx, hx => by
    have hlt : a < h.length := lt_of_get (of_objAt e)
    simp only [insD, e]
    refine ⟨by simp, fun b _ hb => List.getElem?_set_ne (Ne.symm hb), ?_⟩
    have hf : ∀ (v : List (String × HVal)) (b : Nat), b ≠ a → (h.set a (.obj v))[b]? = h[b]? :=
      fun v b hb => List.getElem?_set_ne (Ne.symm hb)
    obtain ⟨F', h1⟩ := aSet_den (k := k)
      (denE_frame (h' := h.set a (.obj (aSet m k x))) d fun b hb => hf _ b fun hh => ha (hh ▸ hb))
      (den_frame dx fun b hb => hf _ b fun hh => hx (hh ▸ hb))
    exact ⟨.obj (aSet vs k xv), _, by simp [Val.dotInsertDetachedP], .obj (by simp [hlt]) h1⟩
  | k :: k' :: ks, h, a, x, m, vs, F, xv, G, _, e, d, ha, dx, hx => by
    have hlt : a < h.length := lt_of_get (of_objAt e)
    -- the child
    obtain ⟨cv, Gc, dc, hac, hcv⟩ : ∃ cv Gc, DenE h (childMap h (aGet m k)) cv Gc ∧ a ∉ Gc ∧
        Val.detachChild (aGet vs k) = .obj cv := by
      cases hg : aGet m k with
      | none => exact ⟨_, _, .nil, by simp, by simp [denE_get_none d hg, Val.detachChild]⟩
      | some y =>
        obtain ⟨v, G, R, hv, dy, _, hp⟩ := denE_hole d hg
        have haG : a ∉ G := fun hh => ha (hp.mem_iff.2 (List.mem_append_left _ hh))
        rw [hv]
        cases dy with
        | obj hb db =>
          simp only [childMap, objAt_of hb, Option.getD_some, Val.detachChild]
          exact ⟨_, _, db, fun hh => haG (List.mem_cons_of_mem _ hh), rfl⟩
        | null => exact ⟨_, _, .nil, by simp, rfl⟩
        | bool b => exact ⟨_, _, .nil, by simp, rfl⟩
        | num b => exact ⟨_, _, .nil, by simp, rfl⟩
        | str b => exact ⟨_, _, .nil, by simp, rfl⟩
        | dyn b => exact ⟨_, _, .nil, by simp, rfl⟩
        | arr _ _ => exact ⟨_, _, .nil, by simp, rfl⟩
    simp only [insD, e]
    generalize hh1 : (h ++ [Cell.obj (childMap h (aGet m k))]).set a (.obj (aSet m k (.obj h.length))) = h1
    have hlen : h1.length = h.length + 1 := by rw [← hh1]; simp
    have hf1 : ∀ b, b < h.length → b ≠ a → h1[b]? = h[b]? := by
      intro b hb hne
      rw [← hh1, List.getElem?_set_ne (Ne.symm hne), List.getElem?_append_left hb]
    have hnew : Heap.objAt h1 h.length = some (childMap h (aGet m k)) := by
      apply objAt_of; rw [← hh1, List.getElem?_set_ne (by omega)]; simp
    have ha1 : h1[a]? = some (.obj (aSet m k (.obj h.length))) := by
      rw [← hh1, List.getElem?_set_self (by simp; omega)]
    have dc1 : DenE h1 (childMap h (aGet m k)) cv Gc :=
      denE_frame dc fun b hb => hf1 b (denE_lt dc b hb) fun hh => hac (hh ▸ hb)
    have dx1 : Den h1 x xv G := den_frame dx fun b hb => hf1 b (den_lt dx b hb) fun hh => hx (hh ▸ hb)
    obtain ⟨i1, i2, r, F', i3, i4⟩ := insD_spec (k' :: ks) h1 h.length x _ cv Gc xv G (by simp) hnew dc1
      (fun hh => by have := denE_lt dc _ hh; omega) dx1 (fun hh => by have := den_lt dx _ hh; omega)
    generalize hh2 : insD h1 h.length (k' :: ks) x = h2 at i1 i2 i4 ⊢
    refine ⟨by omega, fun b hb hne => by rw [i2 b (by omega) (by omega), hf1 b hb hne], ?_⟩
    have ha2 : h2[a]? = some (.obj (aSet m k (.obj h.length))) := by rw [i2 a (by omega) (by omega), ha1]
    have dm2 : DenE h2 m vs F := denE_frame d fun b hb => by
      have := denE_lt d b hb
      rw [i2 b (by omega) (by omega), hf1 b this fun hh => ha (hh ▸ hb)]
    obtain ⟨F2, d2⟩ := aSet_den (k := k) dm2 i4
    exact ⟨.obj (aSet vs k r), _, by simp [Val.dotInsertDetachedP, hcv, i3], .obj ha2 d2⟩

/-- a detached write on an object -/
theorem dotInsertDetached_obj (path : List String) (hp : path ≠ []) {a : Nat} {m vs F x xv G}
    (e : h.objAt a = some m) (d : DenE h m vs F) (dx : Den h x xv G) :
    ∃ h' r F', Heap.dotInsertDetached h (.obj a) path x = (h', some (.obj h.length)) ∧
      (∀ b, b < h.length → h'[b]? = h[b]?) ∧ h.length < h'.length ∧
      (Val.obj vs).dotInsertDetachedP path xv = some r ∧ Den h' (.obj h.length) r F' := by
  obtain ⟨k, hk⟩ : ∃ k, path.getLast? = some k := by
    cases hg : path.getLast? with
    | none => rw [List.getLast?_eq_none_iff] at hg; exact absurd hg hp
    | some k => exact ⟨k, rfl⟩
  have hpk : path.dropLast ++ [k] = path := by
    obtain ⟨ys, rfl⟩ := List.getLast?_eq_some_iff.1 hk; simp
  have hc := depthClone_one_obj e
  have e1 : Heap.objAt (h ++ [Cell.obj m]) h.length = some m := by apply objAt_of; simp
  have ext : h <+: h ++ [Cell.obj m] := ⟨_, rfl⟩
  have d1 := denE_ext ext d
  have hF : h.length ∉ F := fun hh => by have := denE_lt d _ hh; omega
  have hG : h.length ∉ G := fun hh => by have := den_lt dx _ hh; omega
  have hw := walkDetach_insD path.dropLast k _ h.length x m vs F e1 d1 hF
  obtain ⟨i1, i2, r, F', i3, i4⟩ := insD_spec path _ h.length x m vs F xv G hp e1 d1 hF (den_ext ext dx) hG
  rw [hpk] at hw
  refine ⟨insD (h ++ [.obj m]) h.length path x, r, F', ?_, ?_, ?_, i3, i4⟩
  · simp only [Heap.dotInsertDetached, hk, hc, Heap.newObj]
    generalize walkDetach (h ++ [Cell.obj m]) (HVal.obj h.length) path.dropLast = w at hw ⊢
    obtain ⟨w1, w2⟩ := w
    cases w2 with
    | none => simp at hw
    | some y =>
      cases y with
      | obj b =>
        simp only at hw ⊢
        cases hb : w1.objAt b with
        | none => rw [hb] at hw; cases hw
        | some mb => rw [hb] at hw; simp only [Option.some.injEq] at hw; simp [hw]
      | _ => simp at hw
  · intro b hb
    rw [i2 b (by simp; omega) (by omega), List.getElem?_append_left hb]
  · simp at i1; omega

end Zen
