import Verif.Policy.IterateProof
/- What the instances hold after the turns of an iterated block. -/
namespace Zen.Policy.Iter
open Zen Heap

theorem aSet_tree {h : Heap} {m : List (String × HVal)} {vs : List (String × Val)} {F k y x G} (d : DenE h m vs F) (dy : Den h y x G)
    (nF : F.Nodup) (nG : G.Nodup) (dis : ∀ b ∈ G, b ∉ F) :
    ∃ F', DenE h (aSet m k y) (aSet vs k x) F' ∧ F'.Nodup ∧ ∀ b ∈ F', b ∈ F ∨ b ∈ G := by
  cases hg : aGet m k with
  | none =>
    exact ⟨_, denE_set_fresh d hg dy, List.nodup_append.2 ⟨nF, nG, fun a ha b hb hab => dis b hb (hab ▸ ha)⟩, fun b hb => List.mem_append.1 hb⟩
  | some z =>
    obtain ⟨w, G', R, _, _, dr, hp⟩ := denE_hole d hg
    obtain ⟨F', h1, h2⟩ := denE_fill (denE_keys d) dr hg dy
    have hR : ∀ b ∈ R, b ∈ F := fun b hb => hp.mem_iff.2 (List.mem_append_right _ hb)
    refine ⟨F', h1, h2.nodup_iff.2 (List.nodup_append.2 ⟨nG, (List.nodup_append.1 (hp.nodup_iff.1 nF)).2.1,
      fun a ha b hb hab => dis a ha (hab ▸ hR b hb)⟩), fun b hb => ?_⟩
    rcases List.mem_append.1 (h2.mem_iff.1 hb) with h | h
    · exact .inr h
    · exact .inl (hR b h)

theorem aSet_sub {h : Heap} {m : List (String × HVal)} {vs : List (String × Val)} {F k y x G} (d : DenE h m vs F) (dy : Den h y x G) :
    ∃ F', DenE h (aSet m k y) (aSet vs k x) F' ∧ ∀ b ∈ F', b ∈ F ∨ b ∈ G := by
  cases hg : aGet m k with
  | none => exact ⟨_, denE_set_fresh d hg dy, fun b hb => List.mem_append.1 hb⟩
  | some z =>
    obtain ⟨w, G', R, _, _, dr, hp⟩ := denE_hole d hg
    obtain ⟨F', h1, h2⟩ := denE_fill (denE_keys d) dr hg dy
    refine ⟨F', h1, fun b hb => ?_⟩
    rcases List.mem_append.1 (h2.mem_iff.1 hb) with h | h
    · exact .inr h
    · exact .inl (hp.mem_iff.2 (List.mem_append_right _ h))

/-- `insert_in_place` with the cells of the result -/
theorem insert_tree : ∀ (ps : List String) (k : String) (h : Heap) (a : Nat) (x : HVal) (m : List (String × HVal)) vs F xv G,
    h[a]? = some (.obj m) → DenE h m vs F → (a :: F).Nodup → Den h x xv G → G.Nodup → (∀ b ∈ G, b ∉ a :: F) →
    h.length ≤ (finish (walk h (.obj a) ps) k x).1.length ∧
    (∀ b, b < h.length → b ∉ a :: F → (finish (walk h (.obj a) ps) k x).1[b]? = h[b]?) ∧
    ∃ F', Den (finish (walk h (.obj a) ps) k x).1 (.obj a) ((Val.obj vs).dotInsertP (ps ++ [k]) xv).1 F' ∧ F'.Nodup ∧
      ∀ b ∈ F', b ∈ a :: F ∨ b ∈ G ∨ h.length ≤ b
  | [], k, h, a, x, m, vs, F, xv, G, e, d, nd, dx, nG, hG => by
    have hlt := lt_of_get e
    obtain ⟨haF, ndF⟩ := List.nodup_cons.1 nd
    have haG : a ∉ G := fun hh => hG a hh (by simp)
    simp only [walk, finish, objAt_of e, List.nil_append, Val.dotInsertP]
    have hf : ∀ (v : List (String × HVal)) (b : Nat), b ≠ a → (h.set a (.obj v))[b]? = h[b]? := fun v b hb => get_set_ne hb
    have d1 := denE_frame (h' := h.set a (.obj (aSet m k x))) d fun b hb => hf _ b fun hh => haF (hh ▸ hb)
    refine ⟨by simp, fun b _ hb => hf _ b fun hh => hb (by simp [hh]), ?_⟩
    obtain ⟨F', h1, h2, h3⟩ := aSet_tree (k := k) d1 (den_frame dx fun b hb => hf _ b fun hh => haG (hh ▸ hb)) ndF nG
      (fun b hb hh => hG b hb (List.mem_cons_of_mem _ hh))
    refine ⟨_, .obj (by simp [hlt]) h1, List.nodup_cons.2 ⟨fun hh => ?_, h2⟩, fun b hb => ?_⟩
    · rcases h3 a hh with hh | hh
      · exact haF hh
      · exact haG hh
    · rcases List.mem_cons.1 hb with rfl | hb
      · exact .inl (by simp)
      · rcases h3 b hb with hb | hb
        · exact .inl (List.mem_cons_of_mem _ hb)
        · exact .inr (.inl hb)
  | p :: ps, k, h, a, x, m, vs, F, xv, G, e, d, nd, dx, nG, hG => by
    have hlt := lt_of_get e
    obtain ⟨haF, ndF⟩ := List.nodup_cons.1 nd
    have haG : a ∉ G := fun hh => hG a hh (by simp)
    obtain ⟨q, qs, hq⟩ : ∃ q qs, ps ++ [k] = q :: qs := by
      cases ps with
      | nil => exact ⟨_, _, rfl⟩
      | cons q qs => exact ⟨_, _, rfl⟩
    have hval : (Val.obj vs).dotInsertP (p :: ps ++ [k]) xv =
        (.obj (aSet vs p (((aGet vs p).getD (.obj [])).dotInsertP (ps ++ [k]) xv).1),
          (((aGet vs p).getD (.obj [])).dotInsertP (ps ++ [k]) xv).2) := by
      rw [List.cons_append, hq]; rfl
    rw [hval]
    cases hg : aGet m p with
    | some y =>
      obtain ⟨v, Gy, R, hv, dy, dr, hp⟩ := denE_hole d hg
      have hnd : (Gy ++ R).Nodup := hp.nodup_iff.1 ndF
      have hmem : ∀ b, b ∈ Gy → b ∈ F := fun b hb => hp.mem_iff.2 (List.mem_append_left _ hb)
      have hmemR : ∀ b, b ∈ R → b ∈ F := fun b hb => hp.mem_iff.2 (List.mem_append_right _ hb)
      have hw : walk h (.obj a) (p :: ps) = walk h y ps := by simp only [walk, objAt_of e, hg]
      rw [hw, hv]
      simp only [Option.getD_some]
      have hkeys := denE_keys d
      have hsame : aSet m p y = m := aSet_same m p y hg
      by_cases hy : ∃ c, y = .obj c
      · obtain ⟨c, rfl⟩ := hy
        cases dy with
        | @obj _ mc cvs Fc hc dc =>
          obtain ⟨i1, i2, F', i3, i4, i5⟩ := insert_tree ps k h c x mc cvs Fc xv G hc dc
            (List.nodup_append.1 hnd).1 dx nG (fun b hb hh => hG b hb (List.mem_cons_of_mem _ (hmem b hh)))
          refine ⟨i1, fun b hb hne => i2 b hb fun hh => hne (List.mem_cons_of_mem _ (hmem b hh)), ?_⟩
          have hacc : a ∉ c :: Fc := fun hh => haF (hmem a hh)
          generalize finish (walk h (.obj c) ps) k x = w at i1 i2 i3 ⊢
          have dr' : DenE w.1 (aErase m p) (aErase vs p) R := denE_frame dr fun b hb =>
            i2 b (denE_lt dr b hb) fun hh => (List.nodup_append.1 hnd).2.2 b hh b hb rfl
          obtain ⟨F2, d2, hp2⟩ := denE_fill hkeys dr' hg i3
          rw [hsame] at d2
          have hF2 : ∀ b ∈ F2, b ∈ F ∨ b ∈ G ∨ h.length ≤ b := by
            intro b hb
            rcases List.mem_append.1 (hp2.mem_iff.1 hb) with hb | hb
            · rcases i5 b hb with hb | hb
              · exact .inl (hmem b hb)
              · exact .inr hb
            · exact .inl (hmemR b hb)
          refine ⟨_, .obj (by rw [i2 a hlt hacc, e]) d2, List.nodup_cons.2 ⟨fun hh => ?_, ?_⟩, fun b hb => ?_⟩
          · rcases hF2 a hh with hh | hh | hh
            · exact haF hh
            · exact haG hh
            · omega
          · refine hp2.nodup_iff.2 (List.nodup_append.2 ⟨i4, (List.nodup_append.1 hnd).2.1, fun b hb b' hb' hbb => ?_⟩)
            subst hbb
            rcases i5 b hb with hh | hh | hh
            · exact (List.nodup_append.1 hnd).2.2 b hh b hb' rfl
            · exact hG b hh (List.mem_cons_of_mem _ (hmemR b hb'))
            · have := denE_lt dr b hb'; omega
          · rcases List.mem_cons.1 hb with rfl | hb
            · exact .inl (by simp)
            · rcases hF2 b hb with hh | hh
              · exact .inl (List.mem_cons_of_mem _ hh)
              · exact .inr hh
      · have hys : ∀ c, y ≠ .obj c := fun c hh => hy ⟨c, hh⟩
        have hvs : v.isObj = false := by
          cases dy with
          | obj _ _ => exact absurd rfl (hys _)
          | _ => rfl
        rw [walk_scalar hys, dotInsertP_scalar hvs]
        refine ⟨Nat.le_refl _, fun _ _ _ => rfl, ?_⟩
        rw [aSet_same vs p v hv]
        exact ⟨_, .obj e d, nd, fun b hb => .inl hb⟩
    | none =>
      have hgv := denE_get_none d hg
      rw [hgv]
      simp only [Option.getD_none]
      have hw : walk h (.obj a) (p :: ps) =
          walk ((h ++ [Cell.obj []]).set a (.obj (aSet m p (.obj h.length)))) (.obj h.length) ps := by
        simp only [walk, objAt_of e, hg, Heap.newObj]
      rw [hw]
      generalize hh1 : (h ++ [Cell.obj []]).set a (.obj (aSet m p (.obj h.length))) = h1
      have hlen : h1.length = h.length + 1 := by rw [← hh1]; simp
      have hf1 : ∀ b, b < h.length → b ≠ a → h1[b]? = h[b]? := by
        intro b hb hne
        rw [← hh1, get_set_ne hne, List.getElem?_append_left hb]
      have hnew : h1[h.length]? = some (.obj []) := by
        rw [← hh1, get_set_ne (by omega)]; simp
      have ha1 : h1[a]? = some (.obj (aSet m p (.obj h.length))) := by
        rw [← hh1]; exact get_set_eq (by simp; omega)
      obtain ⟨i1, i2, F', i3, i4, i5⟩ := insert_tree ps k h1 h.length x [] [] [] xv G hnew .nil (by simp)
        (den_frame dx fun b hb => hf1 b (den_lt dx b hb) fun hh => haG (hh ▸ hb)) nG
        (fun b hb hh => by
          have := den_lt dx b hb
          rw [List.mem_singleton] at hh; omega)
      generalize finish (walk h1 (.obj h.length) ps) k x = w at i1 i2 i3 ⊢
      have hF' : ∀ b ∈ F', b ∈ G ∨ h.length ≤ b := by
        intro b hb
        rcases i5 b hb with hb | hb | hb
        · rw [List.mem_singleton] at hb; exact .inr (by omega)
        · exact .inl hb
        · exact .inr (by omega)
      refine ⟨by omega, fun b hb hne => ?_, ?_⟩
      · rw [i2 b (by omega) (by rw [List.mem_singleton]; omega), hf1 b hb fun hh => hne (by simp [hh])]
      · have d2 : DenE w.1 m vs F := denE_frame d fun b hb => by
          have := denE_lt d b hb
          rw [i2 b (by omega) (by rw [List.mem_singleton]; omega), hf1 b this fun hh => haF (hh ▸ hb)]
        obtain ⟨F2, d3, n3, m3⟩ := aSet_tree (k := p) d2 i3 ndF i4 (fun b hb hh => by
          rcases hF' b hb with hb | hb
          · exact hG b hb (List.mem_cons_of_mem _ hh)
          · have := denE_lt d b hh; omega)
        have hall : ∀ b ∈ F2, b ∈ F ∨ b ∈ G ∨ h.length ≤ b := by
          intro b hb
          rcases m3 b hb with hb | hb
          · exact .inl hb
          · exact .inr (hF' b hb)
        refine ⟨_, .obj (by rw [i2 a (by omega) (by rw [List.mem_singleton]; omega), ha1]) d3,
          List.nodup_cons.2 ⟨fun hh => ?_, n3⟩, fun b hb => ?_⟩
        · rcases hall a hh with hh | hh | hh
          · exact haF hh
          · exact haG hh
          · omega
        · rcases List.mem_cons.1 hb with rfl | hb
          · exact .inl (by simp)
          · rcases hall b hb with hb | hb
            · exact .inl (List.mem_cons_of_mem _ hb)
            · exact .inr hb

/-- data with some writes done -/
def written (v : Val) (ws : List (List String × Val)) : Val := ws.foldl (fun v w => (v.dotInsertP w.1 w.2).1) v

theorem isObj_dotInsertP (vs : List (String × Val)) (p : List String) (x : Val) : ∃ vs', ((Val.obj vs).dotInsertP p x).1 = .obj vs' := by
  match p with
  | [] => exact ⟨vs, rfl⟩
  | [k] => exact ⟨_, rfl⟩
  | k :: l :: q => exact ⟨_, rfl⟩

/-- writes of new values on an instance of its own cells -/
theorem puts_tree {s w a : Nat} {skip : String → Prop} : ∀ (ws : List (List String × HVal)) (g : Heap) (vs : List (String × Val)) (F : List Nat)
    (xs : List Val) (G : List Nat), Den g (.obj a) (.obj vs) F → F.Nodup → DenL g (ws.map Prod.snd) xs G → G.Nodup → (∀ b ∈ G, b ∉ F) →
    (∀ p ∈ ws, ∃ k ps, p.1 = k :: ps ∧ ¬ skip k) → s ∉ F → s ∉ G → s < g.length → w ∉ F → w ∉ G → w < g.length →
    Clear (Bad s w a) a skip (ws.map fun p => .put p.1 p.2) g ∧
    g.length ≤ (play (.obj a) [] (ws.map fun p => .put p.1 p.2) g).length ∧
    (∀ b, b < g.length → b ∉ F → b ∉ G → (play (.obj a) [] (ws.map fun p => .put p.1 p.2) g)[b]? = g[b]?) ∧
    ∃ F', Den (play (.obj a) [] (ws.map fun p => .put p.1 p.2) g) (.obj a) (written (.obj vs) ((ws.map Prod.fst).zip xs)) F' ∧ F'.Nodup ∧
      ∀ b ∈ F', b ∈ F ∨ b ∈ G ∨ g.length ≤ b
  | [], g, vs, F, xs, G, d, nF, dL, nG, dis, hp, _, _, _, _, _, _ => ⟨trivial, Nat.le_refl _, fun _ _ _ _ => rfl, F, by simpa [written, play] using d, nF, fun _ hb => .inl hb⟩
  | (p, x) :: ws, g, vs, F, xs, G, d, nF, dL, nG, dis, hp, sF, sG, sl, wF, wG, wl => by
    obtain ⟨k, ps, hpk, hk⟩ := hp (p, x) (by simp)
    simp only at hpk
    subst hpk
    simp only [List.map_cons] at dL
    cases dL with
    | @cons _ xv Gx _ xs' Gr dx dr =>
    cases d with
    | @obj _ m _ Fk ea dm =>
    obtain ⟨nGx, nGr, hGG⟩ := List.nodup_append.1 nG
    obtain ⟨q, l, hq⟩ : ∃ q l, k :: ps = q ++ [l] := ⟨(k :: ps).dropLast, (k :: ps).getLast (by simp), (List.dropLast_concat_getLast (by simp)).symm⟩
    have hrun : Ev.run (.obj a) [] g (.put (k :: ps) x) = (finish (walk g (.obj a) q) l x).1 := by
      simp only [Ev.run, List.nil_append]; rw [hq, dotInsert_finish]
    obtain ⟨i1, i2, F', i3, i4, i5⟩ := insert_tree q l g a x m vs Fk xv Gx ea dm nF dx nGx
      (fun b hb => dis b (List.mem_append_left _ hb))
    rw [← hrun] at i1 i2 i3
    rw [← hq] at i3
    obtain ⟨vs', hvs'⟩ := isObj_dotInsertP vs (k :: ps) xv
    rw [hvs'] at i3
    have dr' : DenL (Ev.run (.obj a) [] g (.put (k :: ps) x)) (ws.map Prod.snd) xs' Gr := denL_frame dr fun b hb =>
      i2 b (denL_lt dr b hb) (dis b (List.mem_append_right _ hb))
    have hF'G : ∀ b ∈ Gr, b ∉ F' := by
      intro b hb hh
      rcases i5 b hh with hh | hh | hh
      · exact dis b (List.mem_append_right _ hb) hh
      · exact hGG b hh b hb rfl
      · have := denL_lt dr b hb; omega
    have nin : ∀ c, c < g.length → c ∉ a :: Fk → c ∉ Gx ++ Gr → c ∉ F' := by
      intro c hc h1 h2 hh
      rcases i5 c hh with hh | hh | hh
      · exact h1 hh
      · exact h2 (List.mem_append_left _ hh)
      · omega
    obtain ⟨j1, j2, j3, F2, j4, j5, j6⟩ := puts_tree (s := s) (w := w) (skip := skip) ws (Ev.run (.obj a) [] g (.put (k :: ps) x)) vs' F' xs' Gr i3 i4 dr' nGr hF'G
      (fun p hpw => hp p (List.mem_cons_of_mem _ hpw)) (nin s sl sF sG) (fun hh => sG (List.mem_append_right _ hh)) (by omega)
      (nin w wl wF wG) (fun hh => wG (List.mem_append_right _ hh)) (by omega)
    refine ⟨⟨⟨k, ps, rfl, hk, .inr ?_⟩, j1⟩, ?_, ?_, ?_⟩
    · intro mg y hmg hy
      rw [ea] at hmg; cases hmg
      obtain ⟨v, Gy, R, _, dy, _, hperm⟩ := denE_hole dm hy
      refine den_safe dy fun b hb => ?_
      have hbF : b ∈ Fk := hperm.mem_iff.2 (List.mem_append_left _ hb)
      rintro (rfl | rfl | rfl)
      · exact wF (List.mem_cons_of_mem _ hbF)
      · exact (List.nodup_cons.1 nF).1 hbF
      · exact sF (List.mem_cons_of_mem _ hbF)
    · exact Nat.le_trans i1 j2
    · intro b hb hbF hbG
      have := j3 b (by omega) (nin b hb hbF hbG) (fun hh => hbG (List.mem_append_right _ hh))
      simp only [play, List.map_cons, List.foldl_cons] at this ⊢
      rw [this]; exact i2 b hb hbF
    · simp only [play, List.map_cons, List.foldl_cons, List.zip_cons_cons, written] at j4 ⊢
      rw [hvs']
      refine ⟨F2, j4, j5, fun b hb => ?_⟩
      rcases j6 b hb with hb | hb | hb
      · rcases i5 b hb with hb | hb | hb
        · exact .inl hb
        · exact .inr (.inl (List.mem_append_left _ hb))
        · exact .inr (.inr hb)
      · exact .inr (.inl (List.mem_append_right _ hb))
      · exact .inr (.inr (by omega))

/-- writes of properties of the instance; the values may be shared -/
theorem puts_flat {s w a : Nat} {skip : String → Prop} : ∀ (ws : List (List String × HVal)) (g : Heap) (m : List (String × HVal)) (vs : List (String × Val))
    (F : List Nat) (xs : List Val) (G : List Nat), g[a]? = some (.obj m) → DenE g m vs F → a ∉ F → DenL g (ws.map Prod.snd) xs G → a ∉ G →
    (∀ p ∈ ws, ∃ k, p.1 = [k] ∧ ¬ skip k) →
    Clear (Bad s w a) a skip (ws.map fun p => .put p.1 p.2) g ∧
    (play (.obj a) [] (ws.map fun p => .put p.1 p.2) g).length = g.length ∧
    (∀ b, b ≠ a → (play (.obj a) [] (ws.map fun p => .put p.1 p.2) g)[b]? = g[b]?) ∧
    ∃ m' vs' F', (play (.obj a) [] (ws.map fun p => .put p.1 p.2) g)[a]? = some (.obj m') ∧
      DenE (play (.obj a) [] (ws.map fun p => .put p.1 p.2) g) m' vs' F' ∧ (∀ b ∈ F', b ∈ F ∨ b ∈ G) ∧
      written (.obj vs) ((ws.map Prod.fst).zip xs) = .obj vs'
  | [], g, m, vs, F, xs, G, ea, d, haF, dL, haG, hp =>
    ⟨trivial, rfl, fun _ _ => rfl, m, vs, F, ea, by simpa [play] using d, fun _ hb => .inl hb, by simp [written]⟩
  | (p, x) :: ws, g, m, vs, F, xs, G, ea, d, haF, dL, haG, hp => by
    obtain ⟨k, hpk, hk⟩ := hp (p, x) (by simp)
    simp only at hpk
    subst hpk
    simp only [List.map_cons] at dL
    have hal := lt_of_get ea
    cases dL with
    | @cons _ xv Gx _ xs' Gr dx dr =>
    have hrun : Ev.run (.obj a) [] g (.put [k] x) = g.set a (.obj (aSet m k x)) := by
      simp only [Ev.run, List.nil_append]
      rw [show [k] = [] ++ [k] from rfl, dotInsert_finish]
      simp only [walk, finish, objAt_of ea]
    have hf : ∀ b, b ≠ a → (g.set a (.obj (aSet m k x)))[b]? = g[b]? := fun b hb => get_set_ne hb
    obtain ⟨F1, d1, hF1⟩ : ∃ F1, DenE (g.set a (.obj (aSet m k x))) (aSet m k x) (aSet vs k xv) F1 ∧ ∀ b ∈ F1, b ∈ F ∨ b ∈ Gx :=
      aSet_sub (denE_frame d fun b hb => hf b fun hh => haF (hh ▸ hb)) (den_frame dx fun b hb => hf b fun hh => haG (by simp [← hh, hb]))
    obtain ⟨j1, j2, j3, m', vs', F', j4, j5, j6, j7⟩ := puts_flat (s := s) (w := w) (skip := skip) ws (g.set a (.obj (aSet m k x))) (aSet m k x) (aSet vs k xv) F1 xs' Gr
      (get_set_eq hal) d1 (fun hh => by
        rcases hF1 a hh with hh | hh
        · exact haF hh
        · exact haG (List.mem_append_left _ hh))
      (denL_frame dr fun b hb => hf b fun hh => haG (by simp [← hh, hb])) (fun hh => haG (List.mem_append_right _ hh))
      (fun p hpw => hp p (List.mem_cons_of_mem _ hpw))
    refine ⟨⟨⟨k, [], rfl, hk, .inl rfl⟩, by rw [hrun]; exact j1⟩, ?_, ?_, m', vs', F', ?_, ?_, ?_, ?_⟩
    · simp only [play, List.map_cons, List.foldl_cons] at j2 ⊢
      rw [hrun, j2]; simp
    · intro b hb
      have := j3 b hb
      simp only [play, List.map_cons, List.foldl_cons] at this ⊢
      rw [hrun, this, hf b hb]
    · simp only [play, List.map_cons, List.foldl_cons] at j4 ⊢
      rw [hrun]; exact j4
    · simp only [play, List.map_cons, List.foldl_cons] at j5 ⊢
      rw [hrun]; exact j5
    · intro b hb
      rcases j6 b hb with hb | hb
      · rcases hF1 b hb with hb | hb
        · exact .inl hb
        · exact .inr (List.mem_append_left _ hb)
      · exact .inr (List.mem_append_right _ hb)
    · rw [← j7]; rfl

theorem Clear.mono {bad bad' : Nat → Prop} {a : Nat} {skip skip' : String → Prop} (hb : ∀ b, bad' b → bad b) (hs : ∀ k, skip' k → skip k) :
    ∀ {evs : List Ev} {g : Heap}, Clear bad a skip evs g → Clear bad' a skip' evs g
  | [], _, _ => trivial
  | .alloc _ :: es, _, h => Clear.mono hb hs (evs := es) h
  | .put _ _ :: es, _, h => by
    obtain ⟨⟨k, ps, h1, h2, h3⟩, h4⟩ := h
    refine ⟨⟨k, ps, h1, fun hh => h2 (hs k hh), ?_⟩, Clear.mono hb hs (evs := es) h4⟩
    rcases h3 with h3 | h3
    · exact .inl h3
    · refine .inr fun mg y hm hy => ?_
      have := h3 mg y hm hy
      rw [safe_iff] at this ⊢
      exact fun b hr hbad => this b hr (hb b hbad)

/-- the writes below the entity -/
def below (ws : List (List String × HVal)) : List (List String × HVal) := ws.map fun w => (w.1.tail, w.2)

/-- A heap `h` that is written through the scope and a heap `g` that is written on the instance `a` stay together. `w` is the cell
of the copy, or of the scope when there is none. -/
structure Rel (R : Heap → Heap → Prop) (s w a : Nat) (e : String) (skip : String → Prop) : Prop where
  alloc : ∀ {h g}, R h g → ∀ cs, R (h ++ cs) (g ++ cs)
  put : ∀ {h g}, R h g → ∀ k ps x, ¬ skip k → (ps = [] ∨ ∀ mg y, g[a]? = some (.obj mg) → aGet mg k = some y → Safe (Bad s w a) g y) →
    R (Ev.run (.obj s) [e] h (.put (k :: ps) x)) (Ev.run (.obj a) [] g (.put (k :: ps) x))
  len : ∀ {h g}, R h g → h.length = g.length
  agree : ∀ {h g}, R h g → ∀ b, b ≠ w → b ≠ a → h[b]? = g[b]?
  scope : ∀ {h g}, R h g → ∃ sc, h[s]? = some (.obj sc) ∧ (w = s ∨ aGet sc e = some (.obj w))

theorem Rel.puts {R : Heap → Heap → Prop} {s w a : Nat} {e : String} {skip : String → Prop} (rel : Rel R s w a e skip) :
    ∀ (ws : List (List String × HVal)) (h g : Heap), R h g → Clear (Bad s w a) a skip ((below ws).map fun p => .put p.1 p.2) g →
    (∀ w ∈ ws, ∃ k ps, w.1 = e :: k :: ps) →
    R (puts h (.obj s) ws) (play (.obj a) [] ((below ws).map fun p => .put p.1 p.2) g)
  | [], _, _, r, _, _ => r
  | (p, x) :: ws, h, g, r, hc, hp => by
    obtain ⟨k, ps, hk⟩ := hp (p, x) (by simp)
    simp only at hk
    subst hk
    simp only [below, List.map_cons, List.tail_cons, Clear] at hc
    obtain ⟨⟨k', ps', he, h1, h2⟩, hc⟩ := hc
    cases he
    have := rel.puts ws _ _ (rel.put r k ps x h1 h2) hc fun w hw => hp w (List.mem_cons_of_mem _ hw)
    simpa only [Iter.puts, play, below, List.map_cons, List.foldl_cons, List.tail_cons, Ev.run, List.cons_append, List.nil_append] using this

theorem rel_wrapped (s w a : Nat) (e n : String) (o : HVal) (m : List (String × HVal)) : Rel (Inv s w a e n o m) s w a e (· = n) where
  alloc := fun I cs => I.alloc cs
  put := fun I k ps x hk hc => I.put k ps x hk hc
  len := fun I => I.len
  agree := fun I => I.agree
  scope := fun I => by
    obtain ⟨sc, h1, h2⟩ := I.hs
    exact ⟨sc, h1, .inr h2⟩

/-- the scope holds the instance itself -/
def Same (s a : Nat) (sc : List (String × HVal)) (h g : Heap) : Prop :=
  h = g ∧ g[s]? = some (.obj sc) ∧ ∃ m, g[a]? = some (.obj m)

theorem rel_direct {s a : Nat} {e : String} {sc : List (String × HVal)} (he : aGet sc e = some (.obj a)) (hsa : s ≠ a) :
    Rel (Same s a sc) s s a e (fun _ => False) where
  alloc := by
    rintro h g ⟨rfl, h1, m, h2⟩ cs
    exact ⟨rfl, by rw [List.getElem?_append_left (lt_of_get h1)]; exact h1, m, by rw [List.getElem?_append_left (lt_of_get h2)]; exact h2⟩
  put := by
    rintro h g ⟨rfl, h1, m, h2⟩ k ps x _ hc
    have hc' : ps = [] ∨ ∀ mg y, h[a]? = some (.obj mg) → aGet mg k = some y → Safe (fun b => b = a ∨ b = s) h y := by
      rcases hc with hc | hc
      · exact .inl hc
      · refine .inr fun mg y hm hy => ?_
        have := hc mg y hm hy
        rw [safe_iff] at this ⊢
        exact fun b hr hbad => this b hr (.inr hbad)
    obtain ⟨h3, m', h4⟩ := put_scope h1 h2 hsa k ps x hc'
    have h5 := (direct_same (s := s) (a := a) (e := e) (skip := fun _ => False) [.put (k :: ps) x] h sc m h1 he h2 hsa
      ⟨⟨k, ps, rfl, id, hc'⟩, trivial⟩).1
    exact ⟨h5, h3, m', h4⟩
  len := by rintro h g ⟨rfl, _⟩; rfl
  agree := by rintro h g ⟨rfl, _⟩; exact fun _ _ _ => rfl
  scope := by rintro h g ⟨rfl, h1, _⟩; exact ⟨sc, h1, .inl rfl⟩

theorem Rel.skip {R : Heap → Heap → Prop} {s w a : Nat} {e : String} {skip skip' : String → Prop} (rel : Rel R s w a e skip)
    (hs : ∀ k, skip k → skip' k) : Rel R s w a e skip' :=
  ⟨rel.alloc, fun r k ps x hk => rel.put r k ps x fun hh => hk (hs k hh), rel.len, rel.agree, rel.scope⟩

/-- what is bound for an instance, and that the writes come out as if they were made on the instance -/
theorem turn_core {h : Heap} {s a : Nat} {sc m : List (String × HVal)} (e : String) (owner : Option (String × HVal))
    (hs : h[s]? = some (.obj sc)) (ha : h[a]? = some (.obj m)) (nd : (aKeys m).Nodup) (hsa : s ≠ a) :
    ∃ h1 slot w t R, bind h (.obj s) e owner (.obj a) = (h1, some slot) ∧ h.length ≤ h1.length ∧ w < h1.length ∧
      (w = s ∨ w = h.length) ∧ (∀ b, b < h.length → b ≠ s → h1[b]? = h[b]?) ∧
      h1[s]? = some (.obj (aSet (aErase sc "$") e t)) ∧
      ((t = .obj a ∧ w = s ∧ missingOwner h owner (.obj a) = none) ∨
        ∃ n o, t = .obj w ∧ w = h.length ∧ owner = some (n, o) ∧ aGet m n = none ∧ h1[w]? = some (.obj (m ++ [(n, o)]))) ∧
      Rel R s w a e (fun k => ∃ o, owner = some (k, o)) ∧ R h1 h1 ∧
      ∀ h g, R h g → (writeBack h slot (.obj a)).length = g.length ∧
        ∀ b, (b = w → b = s) → (writeBack h slot (.obj a))[b]? = g[b]? := by
  have hsl := lt_of_get hs
  have hal := lt_of_get ha
  cases hm : missingOwner h owner (.obj a) with
  | none =>
    refine ⟨_, _, s, .obj a, _, bind_direct hs hm, by simp, by simpa using hsl, .inl rfl, fun b _ hb => get_set_ne hb, get_set_eq hsl,
      .inl ⟨rfl, rfl, rfl⟩, (rel_direct (by simp [aGet_aSet]) hsa).skip (fun _ h => h.elim),
      ⟨rfl, get_set_eq hsl, m, by rw [get_set_ne hsa.symm]; exact ha⟩, ?_⟩
    rintro h g ⟨rfl, _⟩
    exact ⟨rfl, fun _ _ => rfl⟩
  | some no =>
    obtain ⟨n, o⟩ := no
    obtain ⟨ho, hn⟩ : owner = some (n, o) ∧ aGet m n = none := by
      cases owner with
      | none => simp [missingOwner] at hm
      | some x =>
        simp only [missingOwner, objAt_of ha] at hm
        split at hm
        · cases hm
        · next hx =>
          cases hm
          exact ⟨rfl, by simpa using hx⟩
    subst ho
    have hnk := (aGet_eq_none_iff m n).1 hn
    have st := Inv.start (e := e) (o := o) hs ha hnk nd hsa
    rw [bind_wrapped hs ha hnk] at st
    refine ⟨_, _, h.length, .obj h.length, _, bind_wrapped hs ha hnk, by simp, by simp, .inr rfl, fun b hb hbs => ?_, ?_,
      .inr ⟨n, o, rfl, rfl, rfl, hn, ?_⟩, (rel_wrapped s h.length a e n o m).skip (fun k hk => ⟨o, by rw [hk]⟩), st, fun h' g r => ?_⟩
    · rw [get_set_ne hbs, List.getElem?_append_left hb]
    · exact get_set_eq (by simp; omega)
    · rw [get_set_ne (by omega)]; simp
    · have := r.back
      exact ⟨this.1, fun b hb => this.2 b fun hh => by have := hb hh; omega⟩

end Zen.Policy.Iter
