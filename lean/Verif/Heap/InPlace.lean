import Verif.Heap.Insert
/- Path writes in place. -/
namespace Zen
open Heap
variable {h h' : Heap}

/-- the last step of `dot_insert` -/
def finish (w : Heap × Option HVal) (k : String) (x : HVal) : Heap × Option HVal :=
  match w with
  | (h, some (.obj a)) => match h.objAt a with
    | some m => (h.set a (.obj (aSet m k x)), aGet m k)
    | none => (h, none)
  | (h, _) => (h, none)

theorem dotInsert_finish (h : Heap) (v : HVal) (ps : List String) (k : String) (x : HVal) :
    Heap.dotInsert h v (ps ++ [k]) x = finish (walk h v ps) k x := by
  simp only [Heap.dotInsert, List.getLast?_concat, List.dropLast_concat, finish]
  rfl

/-- the same value, seen or absent -/
def OptSees (h : Heap) : Option HVal → Option Val → Prop
  | none, none => True
  | some v, some x => Sees h v x
  | _, _ => False

theorem dotInsertP_scalar {v : Val} (hv : v.isObj = false) (path : List String) (x : Val) :
    v.dotInsertP path x = (v, none, false) := by
  cases v <;> first | (simp [Val.isObj] at hv; done) | simp [Val.dotInsertP]

theorem walk_scalar {v : HVal} (hv : ∀ a, v ≠ .obj a) (ps : List String) (k : String) (x : HVal) :
    finish (walk h v ps) k x = (h, none) := by
  cases v with
  | obj a => exact absurd rfl (hv a)
  | _ => cases ps <;> simp [walk, finish]

theorem insert_in_place : ∀ (ps : List String) (k : String) (h : Heap) (a : Nat) (x : HVal) (m : List (String × HVal)) vs F xv G,
    h[a]? = some (.obj m) → DenE h m vs F → (a :: F).Nodup → Den h x xv G → (∀ b ∈ G, b ∉ a :: F) →
    h.length ≤ (finish (walk h (.obj a) ps) k x).1.length ∧
    (∀ b, b < h.length → b ∉ a :: F → (finish (walk h (.obj a) ps) k x).1[b]? = h[b]?) ∧
    Sees (finish (walk h (.obj a) ps) k x).1 (.obj a) ((Val.obj vs).dotInsertP (ps ++ [k]) xv).1 ∧
    OptSees (finish (walk h (.obj a) ps) k x).1 (finish (walk h (.obj a) ps) k x).2
      ((Val.obj vs).dotInsertP (ps ++ [k]) xv).2.1
  | [], k, h, a, x, m, vs, F, xv, G, e, d, nd, dx, hG => by
    have hlt := lt_of_get e
    have haF : a ∉ F := (List.nodup_cons.1 nd).1
    have haG : a ∉ G := fun hh => hG a hh (by simp)
    simp only [walk, finish, objAt_of e, List.nil_append, Val.dotInsertP]
    have hf : ∀ (v : List (String × HVal)) (b : Nat), b ≠ a → (h.set a (.obj v))[b]? = h[b]? :=
      fun v b hb => List.getElem?_set_ne (Ne.symm hb)
    have d1 := denE_frame (h' := h.set a (.obj (aSet m k x))) d fun b hb => hf _ b fun hh => haF (hh ▸ hb)
    refine ⟨by simp, fun b _ hb => hf _ b fun hh => hb (by simp [hh]), ?_, ?_⟩
    · obtain ⟨F', h1⟩ := aSet_den (k := k) d1 (den_frame dx fun b hb => hf _ b fun hh => haG (hh ▸ hb))
      exact ⟨_, .obj (by simp [hlt]) h1⟩
    · cases hg : aGet m k with
      | none => simp [denE_get_none d hg, OptSees]
      | some y =>
        obtain ⟨v, G', R, hv, dy, _⟩ := denE_hole d1 hg
        rw [hv]; exact ⟨_, dy⟩
  | p :: ps, k, h, a, x, m, vs, F, xv, G, e, d, nd, dx, hG => by
    have hlt := lt_of_get e
    obtain ⟨haF, ndF⟩ := List.nodup_cons.1 nd
    have haG : a ∉ G := fun hh => hG a hh (by simp)
    obtain ⟨q, qs, hq⟩ : ∃ q qs, ps ++ [k] = q :: qs := by
      cases ps with
      | nil => exact ⟨_, _, rfl⟩
      | cons q qs => exact ⟨_, _, rfl⟩
    have hval : (Val.obj vs).dotInsertP (p :: ps ++ [k]) xv =
        (.obj (aSet vs p (((aGet vs p).getD (.obj [])).dotInsertP (ps ++ [k]) xv).1),
          (((aGet vs p).getD (.obj [])).dotInsertP (ps ++ [k]) xv).2) := by
      rw [List.cons_append, hq]; rfl
    rw [hval]
    cases hg : aGet m p with
    | some y =>
      obtain ⟨v, Gy, R, hv, dy, dr, hp⟩ := denE_hole d hg
      have hnd : (Gy ++ R).Nodup := hp.nodup_iff.1 ndF
      have hmem : ∀ b, b ∈ Gy → b ∈ F := fun b hb => hp.mem_iff.2 (List.mem_append_left _ hb)
      have hmemR : ∀ b, b ∈ R → b ∈ F := fun b hb => hp.mem_iff.2 (List.mem_append_right _ hb)
      have hw : walk h (.obj a) (p :: ps) = walk h y ps := by simp only [walk, objAt_of e, hg]
      rw [hw, hv]
      simp only [Option.getD_some]
      have hkeys := denE_keys d
      have hsame : aSet m p y = m := aSet_same m p y hg
      by_cases hy : ∃ c, y = .obj c
      · obtain ⟨c, rfl⟩ := hy
        cases dy with
        | @obj _ mc cvs Fc hc dc =>
          obtain ⟨i1, i2, ⟨F', i3⟩, i4⟩ := insert_in_place ps k h c x mc cvs Fc xv G hc dc
            (List.nodup_append.1 hnd).1 dx (fun b hb hh => hG b hb (List.mem_cons_of_mem _ (hmem b hh)))
          refine ⟨i1, fun b hb hne => i2 b hb fun hh => hne (List.mem_cons_of_mem _ (hmem b hh)), ?_, i4⟩
          have hacc : a ∉ c :: Fc := fun hh => haF (hmem a hh)
          generalize finish (walk h (.obj c) ps) k x = w at i1 i2 i3 i4 ⊢
          have dr' : DenE w.1 (aErase m p) (aErase vs p) R := denE_frame dr fun b hb =>
            i2 b (denE_lt dr b hb) fun hh => (List.nodup_append.1 hnd).2.2 b hh b hb rfl
          obtain ⟨F2, d2, _⟩ := denE_fill hkeys dr' hg i3
          rw [hsame] at d2
          exact ⟨_, .obj (by rw [i2 a hlt hacc, e]) d2⟩
      · have hys : ∀ c, y ≠ .obj c := fun c hh => hy ⟨c, hh⟩
        have hvs : v.isObj = false := by
          cases dy with
          | obj _ _ => exact absurd rfl (hys _)
          | _ => rfl
        rw [walk_scalar hys, dotInsertP_scalar hvs]
        refine ⟨Nat.le_refl _, fun _ _ _ => rfl, ?_, by simp [OptSees]⟩
        rw [aSet_same vs p v hv]
        exact ⟨_, .obj e d⟩
    | none =>
      have hgv := denE_get_none d hg
      rw [hgv]
      simp only [Option.getD_none]
      have hw : walk h (.obj a) (p :: ps) =
          walk ((h ++ [Cell.obj []]).set a (.obj (aSet m p (.obj h.length)))) (.obj h.length) ps := by
        simp only [walk, objAt_of e, hg, Heap.newObj]
      rw [hw]
      generalize hh1 : (h ++ [Cell.obj []]).set a (.obj (aSet m p (.obj h.length))) = h1
      have hlen : h1.length = h.length + 1 := by rw [← hh1]; simp
      have hf1 : ∀ b, b < h.length → b ≠ a → h1[b]? = h[b]? := by
        intro b hb hne
        rw [← hh1, List.getElem?_set_ne (Ne.symm hne), List.getElem?_append_left hb]
      have hnew : h1[h.length]? = some (.obj []) := by
        rw [← hh1, List.getElem?_set_ne (by omega)]; simp
      have ha1 : h1[a]? = some (.obj (aSet m p (.obj h.length))) := by
        rw [← hh1, List.getElem?_set_self (by simp; omega)]
      obtain ⟨i1, i2, ⟨F', i3⟩, i4⟩ := insert_in_place ps k h1 h.length x [] [] [] xv G hnew .nil (by simp)
        (den_frame dx fun b hb => hf1 b (den_lt dx b hb) fun hh => haG (hh ▸ hb))
        (fun b hb hh => by
          have := den_lt dx b hb
          rw [List.mem_singleton] at hh; omega)
      generalize finish (walk h1 (.obj h.length) ps) k x = w at i1 i2 i3 i4 ⊢
      refine ⟨by omega, fun b hb hne => ?_, ?_, i4⟩
      · rw [i2 b (by omega) (by rw [List.mem_singleton]; omega), hf1 b hb fun hh => hne (by simp [hh])]
      · have d2 : DenE w.1 m vs F := denE_frame d fun b hb => by
          have := denE_lt d b hb
          rw [i2 b (by omega) (by rw [List.mem_singleton]; omega), hf1 b this fun hh => haF (hh ▸ hb)]
        obtain ⟨F2, d3⟩ := aSet_den (k := p) d2 i3
        exact ⟨_, .obj (by rw [i2 a (by omega) (by rw [List.mem_singleton]; omega), ha1]) d3⟩

end Zen
