import Verif.Policy.IterateData
/- The turns of an iterated block one after the other. -/
namespace Zen.Policy.Iter
open Zen Heap

/-- an instance with its choice and its data before the block -/
structure Inst (P : Type) where
  cell : Nat
  pick : P
  data : List (String × Val)
  cells : List Nat

/-- What the steps find when it is the turn of the instance at `a`. `sc` is the copy of the store they started with. The
entity is the instance, or a copy of it that has the owner as well; the rest of the scope is the store's. -/
structure View (h : Heap) (s : Nat) (e : String) (sc : List (String × HVal)) (owner : Option (String × HVal)) (a : Nat)
    (vs : List (String × Val)) : Prop where
  data : Sees h (.obj a) (.obj vs)
  scope : ∃ sc' t, h.objAt s = some sc' ∧ aGet sc' e = some t ∧ (∀ k, k ≠ e → k ≠ "$" → aGet sc' k = aGet sc k) ∧
    ((t = .obj a ∧ ∀ n o, owner = some (n, o) → (aGet vs n).isSome) ∨
      ∃ n o w m, owner = some (n, o) ∧ aGet vs n = none ∧ t = .obj w ∧ h.objAt a = some m ∧ h.objAt w = some (m ++ [(n, o)]))

theorem den_fst {h : Heap} : ∀ {m : List (String × HVal)} {vs F}, DenE h m vs F → aKeys m = aKeys vs
  | _, _, _, .nil => rfl
  | _, _, _, .cons _ d => by simp [den_fst d]

theorem isSome_keys {h : Heap} {m : List (String × HVal)} {vs F} (d : DenE h m vs F) (n : String) : (aGet m n).isSome = (aGet vs n).isSome := by
  have h1 := aGet_eq_none_iff m n
  have h2 := aGet_eq_none_iff vs n
  rw [den_fst d] at h1
  have : aGet m n = none ↔ aGet vs n = none := h1.trans h2.symm
  cases hm : aGet m n <;> cases hv : aGet vs n <;> simp_all

/-- what is bound, seen as data -/
theorem view_of {h h1 : Heap} {s a w : Nat} {e : String} {sc sc0 m : List (String × HVal)} {owner : Option (String × HVal)} {t : HVal}
    {vs : List (String × Val)} {F : List Nat}
    (ha : h[a]? = some (.obj m)) (d : DenE h m vs F) (hF : ∀ b ∈ F, b ≠ s) (hsa : s ≠ a)
    (hother : ∀ k, k ≠ e → k ≠ "$" → aGet sc k = aGet sc0 k)
    (hfr : ∀ b, b < h.length → b ≠ s → h1[b]? = h[b]?) (hs1 : h1[s]? = some (.obj (aSet (aErase sc "$") e t)))
    (hst : (t = .obj a ∧ w = s ∧ missingOwner h owner (.obj a) = none) ∨
        ∃ n o, t = .obj w ∧ w = h.length ∧ owner = some (n, o) ∧ aGet m n = none ∧ h1[w]? = some (.obj (m ++ [(n, o)]))) :
    View h1 s e sc0 owner a vs := by
  have hal := lt_of_get ha
  have ha1 : h1[a]? = some (.obj m) := by rw [hfr a hal hsa.symm]; exact ha
  refine ⟨⟨_, .obj ha1 (denE_frame d fun b hb => hfr b (denE_lt d b hb) (hF b hb))⟩, _, t, objAt_of hs1, by simp [aGet_aSet], ?_, ?_⟩
  · intro k h1 h2
    rw [aGet_aSet, if_neg (by simpa using h1), aGet_erase_ne (by simpa using h2), hother k h1 h2]
  · rcases hst with ⟨ht, _, hm⟩ | ⟨n, o, ht, _, ho, hn, hw⟩
    · refine .inl ⟨ht, fun n o ho => ?_⟩
      subst ho
      simp only [missingOwner, objAt_of ha] at hm
      rw [← isSome_keys d n]
      refine Decidable.byContradiction fun hc => ?_
      rw [if_neg hc] at hm
      cases hm
    · refine .inr ⟨n, o, w, m, ho, ?_, ht, objAt_of ha1, objAt_of hw⟩
      have := isSome_keys d n
      rw [hn] at this
      cases hv : aGet vs n <;> simp_all

section
variable {E P : Type}

/-- A step that writes properties of the entity, not under the name of its owner, and does not write the instances `A`, the scope
or the object that stands for the entity into it. The values can be shared with anything else. -/
def Flat (A : List Nat) (s : Nat) (e : String) (owner : Option (String × HVal)) (st : Step E) : Prop :=
  ∀ h h' ws, st h (.obj s) = .ok (h', ws) → h <+: h' ∧ (∀ w ∈ ws, ∃ k, w.1 = [e, k] ∧ ¬ ∃ o, owner = some (k, o)) ∧
    ∃ xs G, DenL h' (ws.map Prod.snd) xs G ∧ ∀ b ∈ G, b ≠ s ∧ b ∉ A ∧ ∀ sc, h[s]? = some (.obj sc) → aGet sc e ≠ some (.obj b)

/-- A step that writes at or below properties of the entity, not below the name of its owner, values it has made. -/
def Deep (s : Nat) (e : String) (owner : Option (String × HVal)) (st : Step E) : Prop :=
  ∀ h h' ws, st h (.obj s) = .ok (h', ws) → h <+: h' ∧ (∀ w ∈ ws, ∃ k ps, w.1 = e :: k :: ps ∧ ¬ ∃ o, owner = some (k, o)) ∧
    ∃ xs G, DenL h' (ws.map Prod.snd) xs G ∧ G.Nodup ∧ ∀ b ∈ G, h.length ≤ b

/-- The steps run one after the other, each on what the writes of the former ones have left; with the paths below the entity
and the data they write. -/
inductive Ran (s : Nat) : List (Step E) → Heap → List (List String × Val) → Prop where
  | nil {h} : Ran s [] h []
  | cons {st : Step E} {sts : List (Step E)} {h h' ws xs G rest} : st h (.obj s) = .ok (h', ws) → DenL h' (ws.map Prod.snd) xs G →
      Ran s sts (puts h' (.obj s) ws) rest → Ran s (st :: sts) h ((ws.map fun w => w.1.tail).zip xs ++ rest)

/-- what the block has made of an instance: its steps have run on a heap in which it was its turn, and it has their writes -/
def Made (commit : P → List (Step E)) (s : Nat) (e : String) (sc : List (String × HVal)) (owner : Option (String × HVal)) (h' : Heap) (i : Inst P) : Prop :=
  ∃ h1 writes, View h1 s e sc owner i.cell i.data ∧ Ran s (commit i.pick) h1 writes ∧ Sees h' (.obj i.cell) (written (.obj i.data) writes)

theorem written_append (v : Val) (xs ys : List (List String × Val)) : written v (xs ++ ys) = written (written v xs) ys := by
  simp [written, List.foldl_append]

theorem below_fst (ws : List (List String × HVal)) : (below ws).map Prod.fst = ws.map fun w => w.1.tail := by simp [below]

theorem below_snd (ws : List (List String × HVal)) : (below ws).map Prod.snd = ws.map Prod.snd := by simp [below]

theorem run_flat {A : List Nat} {s w a : Nat} {e : String} {owner : Option (String × HVal)} {R : Heap → Heap → Prop}
    (rel : Rel R s w a e (fun k => ∃ o, owner = some (k, o))) (aA : a ∈ A) (h' : Heap) :
    ∀ (sts : List (Step E)) (h g : Heap) (m : List (String × HVal)) (vs : List (String × Val)) (F : List Nat), (∀ st ∈ sts, Flat A s e owner st) → R h g →
    g[a]? = some (.obj m) → DenE g m vs F → (∀ b ∈ F, b ≠ s ∧ b ∉ A ∧ b ≠ w) → runSteps (.obj s) sts h = (.ok (), h') →
    ∃ g' writes m' vs' F', R h' g' ∧ Ran s sts h writes ∧ g.length ≤ g'.length ∧ (∀ b, b < g.length → b ≠ a → g'[b]? = g[b]?) ∧
      g'[a]? = some (.obj m') ∧ DenE g' m' vs' F' ∧ (∀ b ∈ F', b ≠ s ∧ b ∉ A ∧ b ≠ w) ∧ written (.obj vs) writes = .obj vs'
  | [], h, g, m, vs, F, _, r, ea, d, hF, hr => by
    simp only [runSteps] at hr
    cases hr
    exact ⟨g, [], m, vs, F, r, .nil, Nat.le_refl _, fun _ _ _ => rfl, ea, d, hF, rfl⟩
  | st :: sts, h, g, m, vs, F, T, r, ea, d, hF, hr => by
    simp only [runSteps] at hr
    cases hst : st h (.obj s) with
    | error err => rw [hst] at hr; simp at hr
    | ok res =>
    obtain ⟨h2, ws⟩ := res
    rw [hst] at hr
    simp only at hr
    obtain ⟨⟨cs, rfl⟩, hp, xs, G, dL, hG⟩ := T st (by simp) _ _ _ hst
    have hal := lt_of_get ea
    obtain ⟨sc, hs, hsw⟩ := rel.scope r
    have hGw : ∀ b ∈ G, b ≠ w := by
      intro b hb hh
      rcases hsw with h | h
      · exact (hG b hb).1 (hh.trans h)
      · exact (hG b hb).2.2 _ hs (by rw [h, hh])
    have r2 := rel.alloc r cs
    obtain ⟨c1, c2, c3, m1, vs1, F1, c4, c5, c6, c7⟩ := puts_flat (s := s) (w := w) (a := a) (skip := fun k => ∃ o, owner = some (k, o)) (below ws) (g ++ cs) m vs F xs G
      (by rw [List.getElem?_append_left hal]; exact ea)
      (denE_frame d fun b hb => List.getElem?_append_left (denE_lt d b hb))
      (fun hh => (hF _ hh).2.1 aA)
      (by rw [below_snd]; exact denL_frame dL fun b hb => (rel.agree r2 b (hGw b hb) (fun hh => (hG b hb).2.1 (hh ▸ aA))).symm)
      (fun hh => (hG _ hh).2.1 aA)
      (by
        intro p hpw
        simp only [below, List.mem_map] at hpw
        obtain ⟨w', hw', rfl⟩ := hpw
        obtain ⟨k, h1, h2⟩ := hp w' hw'
        exact ⟨k, by simp [h1], h2⟩)
    have r3 := rel.puts ws _ _ r2 c1 fun w' hw' => by
      obtain ⟨k, h1, _⟩ := hp w' hw'
      exact ⟨k, [], h1⟩
    generalize play (.obj a) [] ((below ws).map fun p => .put p.1 p.2) (g ++ cs) = g1 at c2 c3 c4 c5 r3
    obtain ⟨g', writes, m', vs', F', i1, i2, i3, i4, i5, i6, i7, i8⟩ := run_flat rel aA h' sts _ g1 m1 vs1 F1 (fun st hst => T st (List.mem_cons_of_mem _ hst)) r3 c4 c5
      (fun b hb => by
        rcases c6 b hb with hb | hb
        · exact hF b hb
        · exact ⟨(hG b hb).1, (hG b hb).2.1, hGw b hb⟩) hr
    have hl : g.length ≤ g1.length := by rw [c2]; simp
    refine ⟨g', _, m', vs', F', i1, .cons hst dL i2, by omega, fun b hb hba => ?_, i5, i6, i7, ?_⟩
    · rw [i4 b (by omega) hba, c3 b hba, List.getElem?_append_left hb]
    · rw [below_fst] at c7
      rw [written_append, c7, i8]

theorem run_deep {s w a : Nat} {e : String} {owner : Option (String × HVal)} {R : Heap → Heap → Prop}
    (rel : Rel R s w a e (fun k => ∃ o, owner = some (k, o))) (h' : Heap) :
    ∀ (sts : List (Step E)) (h g : Heap) (vs : List (String × Val)) (F : List Nat), (∀ st ∈ sts, Deep s e owner st) → R h g →
    Den g (.obj a) (.obj vs) F → F.Nodup → s ∉ F → w ∉ F → s < g.length → w < g.length → runSteps (.obj s) sts h = (.ok (), h') →
    ∃ g' writes F', R h' g' ∧ Ran s sts h writes ∧ g.length ≤ g'.length ∧ (∀ b, b < g.length → b ∉ F → g'[b]? = g[b]?) ∧
      Den g' (.obj a) (written (.obj vs) writes) F' ∧ F'.Nodup ∧ ∀ b ∈ F', b ∈ F ∨ g.length ≤ b
  | [], h, g, vs, F, _, r, d, nF, _, _, _, _, hr => by
    simp only [runSteps] at hr
    cases hr
    exact ⟨g, [], F, r, .nil, Nat.le_refl _, fun _ _ _ => rfl, d, nF, fun _ hb => .inl hb⟩
  | st :: sts, h, g, vs, F, T, r, d, nF, sF, wF, sl, wl, hr => by
    simp only [runSteps] at hr
    cases hst : st h (.obj s) with
    | error err => rw [hst] at hr; simp at hr
    | ok res =>
    obtain ⟨h2, ws⟩ := res
    rw [hst] at hr
    simp only at hr
    obtain ⟨⟨cs, rfl⟩, hp, xs, G, dL, nG, hG⟩ := T st (by simp) _ _ _ hst
    have hlen := rel.len r
    have r2 := rel.alloc r cs
    have hFl : ∀ b ∈ F, b < g.length := den_lt d
    have aF : a ∈ F := by cases d; simp
    have hal := hFl a aF
    have hGg : ∀ b ∈ G, g.length ≤ b := fun b hb => by have := hG b hb; omega
    obtain ⟨c1, c2, c3, F1, c4, c5, c6⟩ := puts_tree (s := s) (w := w) (a := a) (skip := fun k => ∃ o, owner = some (k, o)) (below ws) (g ++ cs) vs F xs G
      (den_frame d fun b hb => List.getElem?_append_left (hFl b hb)) nF
      (by rw [below_snd]; exact denL_frame dL fun b hb => (rel.agree r2 b (fun hh => by have := hGg b hb; omega) (fun hh => by have := hGg b hb; omega)).symm) nG
      (fun b hb hh => by have := hGg b hb; have := hFl b hh; omega)
      (by
        intro p hpw
        simp only [below, List.mem_map] at hpw
        obtain ⟨w', hw', rfl⟩ := hpw
        obtain ⟨k, ps, h1, h2⟩ := hp w' hw'
        exact ⟨k, ps, by simp [h1], h2⟩)
      sF (fun hh => by have := hGg s hh; omega) (by simp; omega) wF (fun hh => by have := hGg w hh; omega) (by simp; omega)
    have r3 := rel.puts ws _ _ r2 c1 fun w' hw' => by
      obtain ⟨k, ps, h1, _⟩ := hp w' hw'
      exact ⟨k, ps, h1⟩
    generalize play (.obj a) [] ((below ws).map fun p => .put p.1 p.2) (g ++ cs) = g1 at c2 c3 c4 r3
    have hF1 : ∀ b ∈ F1, b ∈ F ∨ g.length ≤ b := by
      intro b hb
      rcases c6 b hb with hb | hb | hb
      · exact .inl hb
      · exact .inr (hGg b hb)
      · simp only [List.length_append] at hb
        exact .inr (by omega)
    obtain ⟨vs1, hvs1⟩ : ∃ vs1, written (.obj vs) (((below ws).map Prod.fst).zip xs) = .obj vs1 := by
      cases hw : written (.obj vs) (((below ws).map Prod.fst).zip xs) with
      | obj vs1 => exact ⟨vs1, rfl⟩
      | _ => rw [hw] at c4; cases c4
    rw [hvs1] at c4
    simp only [List.length_append] at c2
    have nin : ∀ c, c < g.length → c ∉ F → c ∉ F1 := fun c hc hcF hh => by
      rcases hF1 c hh with hh | hh
      · exact hcF hh
      · omega
    obtain ⟨g', writes, F', i1, i2, i3, i4, i5, i6, i7⟩ := run_deep rel h' sts _ g1 vs1 F1 (fun st hst => T st (List.mem_cons_of_mem _ hst)) r3 c4 c5
      (nin s sl sF) (nin w wl wF) (by omega) (by omega) hr
    refine ⟨g', _, F', i1, .cons hst dL i2, by omega, fun b hb hbF => ?_, ?_, i6, fun b hb => ?_⟩
    · rw [i4 b (by omega) (nin b hb hbF), c3 b (by simp; omega) hbF (fun hh => by have := hGg b hh; omega), List.getElem?_append_left hb]
    · rw [below_fst] at hvs1
      rw [written_append, hvs1]; exact i5
    · rcases i7 b hb with hb | hb
      · exact hF1 b hb
      · exact .inr (by omega)

theorem commitAll_cons {commit : P → List (Step E)} {scope : HVal} {e : String} {owner : Option (String × HVal)} {x : HVal} {p : P} {xs : List (HVal × P)}
    {h h1 h' : Heap} {slot : Slot} (hb : bind h scope e owner x = (h1, some slot))
    (hr : commitAll commit scope e owner ((x, p) :: xs) h = (.ok (), h')) :
    ∃ h2, runSteps scope (commit p) h1 = (.ok (), h2) ∧ commitAll commit scope e owner xs (writeBack h2 slot x) = (.ok (), h') := by
  simp only [commitAll, hb] at hr
  cases hst : runSteps scope (commit p) h1 with
  | mk res h2 =>
    rw [hst] at hr
    cases res with
    | error err => simp at hr
    | ok u => exact ⟨h2, rfl, hr⟩

theorem loop_flat {commit : P → List (Step E)} {A : List Nat} {s : Nat} {e : String} {owner : Option (String × HVal)}
    (T : ∀ p, ∀ st ∈ commit p, Flat A s e owner st)
    (sc0 : List (String × HVal)) (h' : Heap) : ∀ (is : List (Inst P)) (h : Heap) (sc : List (String × HVal)), h[s]? = some (.obj sc) →
    (∀ k, k ≠ e → k ≠ "$" → aGet sc k = aGet sc0 k) → s ∉ A →
    (∀ i ∈ is, i.cell ∈ A ∧ (aKeys i.data).Nodup ∧ ∃ F, Den h (.obj i.cell) (.obj i.data) (i.cell :: F) ∧ ∀ b ∈ F, b ≠ s ∧ b ∉ A) →
    (is.map Inst.cell).Nodup →
    commitAll commit (.obj s) e owner (is.map fun i => (.obj i.cell, i.pick)) h = (.ok (), h') →
    h.length ≤ h'.length ∧ (∀ b, b < h.length → b ≠ s → b ∉ is.map Inst.cell → h'[b]? = h[b]?) ∧
    ∀ i ∈ is, Made commit s e sc0 owner h' i
  | [], h, sc, hs, ho, sA, hi, nd, hr => by
    simp only [List.map_nil, commitAll] at hr
    cases hr
    exact ⟨Nat.le_refl _, fun _ _ _ _ => rfl, fun _ h => by simp at h⟩
  | i :: is, h, sc, hs, ho, sA, hi, nd, hr => by
    obtain ⟨iA, ik, F, d, hF⟩ := hi i (by simp)
    simp only [List.map_cons, List.nodup_cons] at nd
    obtain ⟨m, ha, dm⟩ : ∃ m, h[i.cell]? = some (.obj m) ∧ DenE h m i.data F := by
      cases d with
      | obj h1 h2 => exact ⟨_, h1, h2⟩
    have hsa : s ≠ i.cell := fun hh => sA (hh ▸ iA)
    obtain ⟨h1, slot, w, t, R, hb, hl, hw, hws, hfr, hs1, hst, rel, r1, hback⟩ := turn_core e owner hs ha (by rw [den_fst dm]; exact ik) hsa
    rw [List.map_cons] at hr
    obtain ⟨h2, hrun, hr⟩ := commitAll_cons hb hr
    have hv := view_of ha dm (fun b hb => (hF b hb).1) hsa ho hfr hs1 hst
    have hal := lt_of_get ha
    have hsl := lt_of_get hs
    have wlt : w = s ∨ h.length ≤ w := by omega
    obtain ⟨g, writes, m', vs', F', c1, c2, c3, c4, c5, c6, c7, c8⟩ := run_flat rel iA h2 (commit i.pick) h1 h1 m i.data F (T i.pick) r1
      (by rw [hfr _ hal hsa.symm]; exact ha) (denE_frame dm fun b hb => hfr b (denE_lt dm b hb) (hF b hb).1)
      (fun b hb => ⟨(hF b hb).1, (hF b hb).2, fun hh => by
        have := denE_lt dm b hb
        rcases wlt with h | h
        · exact (hF b hb).1 (hh.trans h)
        · omega⟩) hrun
    obtain ⟨e1, e2⟩ := hback _ _ c1
    generalize writeBack h2 slot (.obj i.cell) = h3 at e1 e2 hr
    have fr3 : ∀ b, b < h.length → b ≠ s → b ≠ i.cell → h3[b]? = h[b]? := fun b hb hbs hba => by
      rw [e2 b (fun hh => by rcases wlt with h | h <;> omega), c4 b (by omega) hba, hfr b hb hbs]
    have hs3 : h3[s]? = some (.obj (aSet (aErase sc "$") e t)) := by
      rw [e2 s (fun _ => rfl), c4 s (by omega) hsa, hs1]
    obtain ⟨j1, j2, j3⟩ := loop_flat T sc0 h' is h3 _ hs3 (fun k h1 h2 => by
        rw [aGet_aSet, if_neg (by simpa using h1), aGet_erase_ne (by simpa using h2), ho k h1 h2]) sA
      (fun j hj => by
        obtain ⟨jA, jk, Fj, dj, hFj⟩ := hi j (List.mem_cons_of_mem _ hj)
        have hji : j.cell ≠ i.cell := fun hh => nd.1 (hh ▸ List.mem_map_of_mem hj)
        have hjs : j.cell ≠ s := fun hh => sA (hh ▸ jA)
        refine ⟨jA, jk, Fj, den_frame dj fun b hb => ?_, hFj⟩
        have hbl := den_lt dj b hb
        rcases List.mem_cons.1 hb with rfl | hb
        · exact fr3 _ hbl hjs hji
        · exact fr3 b hbl (hFj b hb).1 fun hh => (hFj b hb).2 (hh ▸ iA)) nd.2 hr
    refine ⟨by omega, fun b hb hbs hbi => ?_, fun j hj => ?_⟩
    · simp only [List.map_cons, List.mem_cons, not_or] at hbi
      rw [j2 b (by omega) hbs hbi.2, fr3 b hb hbs hbi.1]
    · rcases List.mem_cons.1 hj with rfl | hj
      · refine ⟨h1, writes, hv, c2, j.cell :: F', ?_⟩
        rw [c8]
        refine .obj (m := m') ?_ (denE_frame c6 fun b hb => ?_)
        · rw [j2 _ (by omega) hsa.symm nd.1, e2 _ (fun hh => by rcases wlt with h | h <;> omega)]; exact c5
        · have hbg : b < h3.length := by rw [e1]; exact denE_lt c6 b hb
          have hb2 := c7 b hb
          rw [j2 b hbg hb2.1 (fun hh => by
            obtain ⟨j', hj', hjb⟩ := List.mem_map.1 hh
            exact hb2.2.1 (hjb ▸ (hi j' (List.mem_cons_of_mem _ hj')).1)), e2 b (fun hh => absurd hh hb2.2.2)]
      · exact j3 j hj

theorem loop_deep {commit : P → List (Step E)} {s : Nat} {e : String} {owner : Option (String × HVal)}
    (T : ∀ p, ∀ st ∈ commit p, Deep s e owner st)
    (sc0 : List (String × HVal)) (h' : Heap) : ∀ (is : List (Inst P)) (h : Heap) (sc : List (String × HVal)), h[s]? = some (.obj sc) →
    (∀ k, k ≠ e → k ≠ "$" → aGet sc k = aGet sc0 k) →
    (∀ i ∈ is, (aKeys i.data).Nodup ∧ Den h (.obj i.cell) (.obj i.data) i.cells ∧ i.cells.Nodup ∧ s ∉ i.cells) →
    (is.Pairwise fun i j => ∀ b ∈ i.cells, b ∉ j.cells) →
    commitAll commit (.obj s) e owner (is.map fun i => (.obj i.cell, i.pick)) h = (.ok (), h') →
    h.length ≤ h'.length ∧ (∀ b, b < h.length → b ≠ s → (∀ i ∈ is, b ∉ i.cells) → h'[b]? = h[b]?) ∧
    ∀ i ∈ is, Made commit s e sc0 owner h' i
  | [], h, sc, hs, ho, hi, nd, hr => by
    simp only [List.map_nil, commitAll] at hr
    cases hr
    exact ⟨Nat.le_refl _, fun _ _ _ _ => rfl, fun _ h => by simp at h⟩
  | i :: is, h, sc, hs, ho, hi, nd, hr => by
    obtain ⟨ik, d, nF, sF⟩ := hi i (by simp)
    obtain ⟨ndi, nd⟩ := List.pairwise_cons.1 nd
    obtain ⟨m, F, hcells, ha, dm⟩ : ∃ m F, i.cells = i.cell :: F ∧ h[i.cell]? = some (.obj m) ∧ DenE h m i.data F := by
      revert d
      generalize i.cells = C
      intro d
      cases d with
      | obj h1 h2 => exact ⟨_, _, rfl, h1, h2⟩
    have hsa : s ≠ i.cell := fun hh => sF (by rw [hcells, hh]; simp)
    obtain ⟨h1, slot, w, t, R, hb, hl, hw, hws, hfr, hs1, hst, rel, r1, hback⟩ := turn_core e owner hs ha (by rw [den_fst dm]; exact ik) hsa
    rw [List.map_cons] at hr
    obtain ⟨h2, hrun, hr⟩ := commitAll_cons hb hr
    have hv := view_of ha dm (fun b hb hh => sF (by rw [hcells, ← hh]; exact List.mem_cons_of_mem _ hb)) hsa ho hfr hs1 hst
    have hal := lt_of_get ha
    have hsl := lt_of_get hs
    have wlt : w = s ∨ h.length ≤ w := by omega
    have hC : ∀ b ∈ i.cells, b < h.length ∧ b ≠ s := fun b hb => ⟨den_lt d b hb, fun hh => sF (hh ▸ hb)⟩
    have wC : w ∉ i.cells := fun hh => by
      have := hC w hh
      rcases wlt with h | h <;> omega
    obtain ⟨g, writes, F', c1, c2, c3, c4, c5, c6, c7⟩ := run_deep rel h2 (commit i.pick) h1 h1 i.data i.cells (T i.pick) r1
      (den_frame d fun b hb => hfr b (hC b hb).1 (hC b hb).2) nF sF wC (by omega) hw hrun
    obtain ⟨e1, e2⟩ := hback _ _ c1
    generalize writeBack h2 slot (.obj i.cell) = h3 at e1 e2 hr
    have fr3 : ∀ b, b < h.length → b ≠ s → b ∉ i.cells → h3[b]? = h[b]? := fun b hb hbs hba => by
      rw [e2 b (fun hh => by rcases wlt with h | h <;> omega), c4 b (by omega) hba, hfr b hb hbs]
    have hs3 : h3[s]? = some (.obj (aSet (aErase sc "$") e t)) := by
      rw [e2 s (fun _ => rfl), c4 s (by omega) sF, hs1]
    obtain ⟨j1, j2, j3⟩ := loop_deep T sc0 h' is h3 _ hs3 (fun k h1 h2 => by
        rw [aGet_aSet, if_neg (by simpa using h1), aGet_erase_ne (by simpa using h2), ho k h1 h2])
      (fun j hj => by
        obtain ⟨jk, dj, nj, sj⟩ := hi j (List.mem_cons_of_mem _ hj)
        refine ⟨jk, den_frame dj fun b hb => ?_, nj, sj⟩
        exact fr3 b (den_lt dj b hb) (fun hh => sj (hh ▸ hb)) fun hh => ndi j hj b hh hb) nd hr
    refine ⟨by omega, fun b hb hbs hbi => ?_, fun j hj => ?_⟩
    · rw [j2 b (by omega) hbs (fun j hj => hbi j (List.mem_cons_of_mem _ hj)), fr3 b hb hbs (hbi i (by simp))]
    · rcases List.mem_cons.1 hj with rfl | hj
      · refine ⟨h1, writes, hv, c2, F', den_frame c5 fun b hb => ?_⟩
        have hbg : b < h3.length := by rw [e1]; exact den_lt c5 b hb
        have hin := c7 b hb
        have hbs : b ≠ s := by
          rintro rfl
          rcases hin with h | h
          · exact sF h
          · omega
        have hbw : b ≠ w := by
          rintro rfl
          rcases hin with h | h
          · exact wC h
          · omega
        rw [j2 b hbg hbs (fun j' hj' hh => by
          have hbl := den_lt (hi j' (List.mem_cons_of_mem _ hj')).2.1 b hh
          rcases hin with h | h
          · exact ndi j' hj' b h hh
          · omega), e2 b (fun hh => absurd hh hbw)]
      · exact j3 j hj

/-- the choices: each instance gets the one made in a heap in which it was its turn, and nothing else changes than the scope -/
theorem select_loop {select : Heap → HVal → Except E P} {dflt : P} {s : Nat} {e : String} {owner : Option (String × HVal)}
    (sc0 : List (String × HVal)) (h' : Heap) : ∀ (is : List (Inst Unit)) (ps : List P) (h : Heap) (sc : List (String × HVal)), h[s]? = some (.obj sc) →
    (∀ k, k ≠ e → k ≠ "$" → aGet sc k = aGet sc0 k) →
    (∀ i ∈ is, (aKeys i.data).Nodup ∧ Den h (.obj i.cell) (.obj i.data) i.cells ∧ s ∉ i.cells) →
    selectAll select dflt (.obj s) e owner (is.map fun i => .obj i.cell) h = (.ok ps, h') →
    h.length ≤ h'.length ∧ (∀ b, b < h.length → b ≠ s → h'[b]? = h[b]?) ∧
    ps.length = is.length ∧ ∀ x ∈ is.zip ps, ∃ h1, View h1 s e sc0 owner x.1.cell x.1.data ∧ select h1 (.obj s) = .ok x.2
  | [], ps, h, sc, hs, ho, hi, hr => by
    simp only [List.map_nil, selectAll] at hr
    cases hr
    exact ⟨Nat.le_refl _, fun _ _ _ => rfl, rfl, fun _ h => by simp at h⟩
  | i :: is, ps, h, sc, hs, ho, hi, hr => by
    obtain ⟨ik, d, sF⟩ := hi i (by simp)
    obtain ⟨m, F, hcells, ha, dm⟩ : ∃ m F, i.cells = i.cell :: F ∧ h[i.cell]? = some (.obj m) ∧ DenE h m i.data F := by
      revert d
      generalize i.cells = C
      intro d
      cases d with
      | obj h1 h2 => exact ⟨_, _, rfl, h1, h2⟩
    have hsa : s ≠ i.cell := fun hh => sF (by rw [hcells, hh]; simp)
    obtain ⟨h1, slot, w, t, R, hb, hl, hw, hws, hfr, hs1, hst, -⟩ := turn_core e owner hs ha (by rw [den_fst dm]; exact ik) hsa
    have hv := view_of ha dm (fun b hb hh => sF (by rw [hcells, ← hh]; exact List.mem_cons_of_mem _ hb)) hsa ho hfr hs1 hst
    simp only [List.map_cons, selectAll, hb] at hr
    cases hsel : select h1 (.obj s) with
    | error err => rw [hsel] at hr; simp at hr
    | ok p =>
      rw [hsel] at hr
      simp only at hr
      cases hrest : selectAll select dflt (.obj s) e owner (is.map fun i => .obj i.cell) h1 with
      | mk res h2 =>
        rw [hrest] at hr
        cases res with
        | error err => simp at hr
        | ok qs =>
          simp only [Prod.mk.injEq, Except.ok.injEq] at hr
          obtain ⟨rfl, rfl⟩ := hr
          obtain ⟨j1, j2, j3, j4⟩ := select_loop sc0 h2 is qs h1 _ hs1 (fun k h1 h2 => by
            rw [aGet_aSet, if_neg (by simpa using h1), aGet_erase_ne (by simpa using h2), ho k h1 h2])
            (fun j hj => by
              obtain ⟨jk, dj, sj⟩ := hi j (List.mem_cons_of_mem _ hj)
              exact ⟨jk, den_frame dj fun b hb => hfr b (den_lt dj b hb) (fun hh => sj (hh ▸ hb)), sj⟩) hrest
          refine ⟨by omega, fun b hb hbs => by rw [j2 b (by omega) hbs, hfr b hb hbs], by simp [j3], fun x hx => ?_⟩
          rw [List.zip_cons_cons] at hx
          rcases List.mem_cons.1 hx with rfl | hx
          · exact ⟨h1, hv, hsel⟩
          · exact j4 x hx

end
end Zen.Policy.Iter
