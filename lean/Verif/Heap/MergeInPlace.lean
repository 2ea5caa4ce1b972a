import Verif.Heap.Merge
/- Merging in place, on a document that is not shared. -/
namespace Zen
open Heap
variable {h h' : Heap}

theorem aGet_aErase_ne {V : Type} (m : List (String × V)) {k k' : String} (hne : k' ≠ k) : aGet (aErase m k) k' = aGet m k' := by
  induction m with
  | nil => rfl
  | cons e m ih =>
    obtain ⟨a, b⟩ := e
    simp only [aErase]
    split
    · next ha => subst ha; rw [aGet_cons]; simp [Ne.symm hne]
    · rw [aGet_cons, aGet_cons, ih]

theorem heapMergeI_notboth {doc patch : HVal} (hn : ∀ a b, ¬ (doc = .obj a ∧ patch = .obj b)) (n : Nat) (wr rd : List Nat)
    (h : Heap) : Heap.mergeI (n + 1) wr rd h doc patch = match same n h doc patch with
      | none => none
      | some true => some (.ok (h, doc))
      | some false => some (.ok (h, patch)) := by
  cases doc <;> cases patch <;> first | (exact absurd ⟨rfl, rfl⟩ (hn _ _)) | rfl

/-- what merging `pv` in place does -/
def PlacesTo (pv : Val) : Prop :=
  ∀ (h : Heap) (wr rd : List Nat) (doc patch : HVal) (d : Val) (Fd Fp : List Nat), d.Wf → pv.Wf → Den h doc d Fd →
    Den h patch pv Fp → Fd.Nodup → (∀ a ∈ Fd, a ∉ Fp ∧ a ∉ wr ∧ a ∉ rd) → (∀ a ∈ Fp, a ∉ wr) →
    ∃ h' w F', h'.length = h.length ∧ (∀ b, b ∉ Fd → h'[b]? = h[b]?) ∧ Den h' w (Val.mergeV d pv) F' ∧
      (∀ a ∈ F', a ∈ Fd ∨ a ∈ Fp) ∧ ∃ N, ∀ n, N ≤ n → Heap.mergeI n wr rd h doc patch = some (.ok (h', w))

/-- an entry of the document that has not been merged yet -/
structure Fresh (h : Heap) (wr rd FD Fp F : List Nat) (x : Val) (G : List Nat) : Prop where
  nodup : G.Nodup
  once : ∀ c ∈ G, F.count c = 1
  apart : ∀ c ∈ G, c ∉ Fp ∧ c ∉ wr ∧ c ∉ rd
  inDoc : ∀ c ∈ G, c ∈ FD
  wf : x.Wf

theorem placeLoop_den {wr rd FD Fp : List Nat} (hapart : ∀ a ∈ FD, a ∉ Fp) (hwr : ∀ a ∈ Fp, a ∉ wr) :
    ∀ (qs : List (String × HVal)) (qvs : List (String × Val)) (h : Heap) (Fq : List Nat), DenE h qs qvs Fq →
    (∀ a ∈ Fq, a ∈ Fp) → (aKeys qs).Nodup → (∀ k x, (k, x) ∈ qvs → x.Wf ∧ PlacesTo x) →
    ∀ (m : List (String × HVal)) (vs : List (String × Val)) (F : List Nat), DenE h m vs F → (∀ a ∈ F, a ∈ FD ∨ a ∈ Fp) →
    (∀ k ∈ aKeys qs, ∀ y x G, aGet m k = some y → Den h y x G → Fresh h wr rd FD Fp F x G) →
    ∃ h' m' F', h'.length = h.length ∧ (∀ b, b ∉ FD → h'[b]? = h[b]?) ∧ DenE h' m' (Val.mergeE vs qvs) F' ∧
      (∀ a ∈ F', a ∈ FD ∨ a ∈ Fp) ∧
      ∃ N, ∀ n, N ≤ n → placeLoop (Heap.mergeI n wr rd) h m qs = some (.ok (h', m'))
  | _, _, h, _, .nil, _, _, _, m, vs, F, dm, hF, _ => ⟨h, m, F, rfl, fun _ _ => rfl, dm, hF, 0, fun _ _ => rfl⟩
  | _, _, h, _, .cons (k := k) (x := v) (v := x) (m := qs) (vs := qvs) (F := Gx) (G := Gq) dv ds, hFq, nd, hP, m, vs, F, dm, hF, hfr => by
    simp only [aKeys_cons, List.nodup_cons] at nd
    have hFq1 : ∀ a ∈ Gx, a ∈ Fp := fun a ha => hFq a (by simp [ha])
    have hFq2 : ∀ a ∈ Gq, a ∈ Fp := fun a ha => hFq a (by simp [ha])
    have hP2 : ∀ k x, (k, x) ∈ qvs → x.Wf ∧ PlacesTo x := fun k x hm => hP k x (by simp [hm])
    have hne : ∀ k' ∈ aKeys qs, k' ≠ k := fun k' hk' hh => nd.1 (hh ▸ hk')
    have hnull := den_null_iff dv
    -- another entry lies in the rest
    have hrest : ∀ G0 R, DenE h (aErase m k) (aErase vs k) R → F.Perm (G0 ++ R) → ∀ k' ∈ aKeys qs, ∀ y x G,
        aGet m k' = some y → Den h y x G → (∀ c ∈ G, c ∈ R ∧ c ∉ G0 ∧ R.count c = 1) := by
      intro G0 R dr hp k' hk' y x G hg d c hc
      rw [← aGet_aErase_ne m (hne k' hk')] at hg
      obtain ⟨x1, G1, R1, _, d1, _, hp1⟩ := denE_hole dr hg
      obtain ⟨rfl, rfl⟩ := den_fun d d1
      rw [aGet_aErase_ne m (hne k' hk')] at hg
      have hR : c ∈ R := hp1.mem_iff.2 (List.mem_append_left _ hc)
      have h1 := (hfr k' (by simp [hk']) y x G hg d).once c hc
      rw [hp.count_eq, List.count_append] at h1
      have hRc := List.count_pos_iff.2 hR
      exact ⟨hR, fun hh => by have := List.count_pos_iff.2 hh; omega, by omega⟩
    by_cases hv : v = .null
    · have hx := hnull.1 hv
      obtain ⟨R, dr, hR, hfr'⟩ : ∃ R, DenE h (aErase m k) (aErase vs k) R ∧ (∀ a ∈ R, a ∈ FD ∨ a ∈ Fp) ∧
          ∀ k' ∈ aKeys qs, ∀ y x G, aGet (aErase m k) k' = some y → Den h y x G → Fresh h wr rd FD Fp R x G := by
        cases hg : aGet m k with
        | none =>
          rw [aErase_absent m k hg, aErase_absent vs k (denE_get_none dm hg)]
          exact ⟨F, dm, hF, fun k' hk' => hfr k' (by simp [hk'])⟩
        | some y0 =>
          obtain ⟨x0, G0, R, _, d0, dr, hp⟩ := denE_hole dm hg
          refine ⟨R, dr, fun a ha => hF a (hp.mem_iff.2 (by simp [ha])), fun k' hk' y x G hg' d => ?_⟩
          rw [aGet_aErase_ne m (hne k' hk')] at hg'
          have hf := hfr k' (by simp [hk']) y x G hg' d
          exact ⟨hf.nodup, fun c hc => (hrest G0 R dr hp k' hk' y x G hg' d c hc).2.2, hf.apart, hf.inDoc, hf.wf⟩
      obtain ⟨h', m', F', i1, i2, i3, i4, N, hN⟩ := placeLoop_den hapart hwr qs qvs h Gq ds hFq2 nd.2 hP2 _ _ R dr hR hfr'
      refine ⟨h', m', F', i1, i2, ?_, i4, N, fun n hn => ?_⟩
      · simpa only [Val.mergeE, hx, if_true] using i3
      · simp only [placeLoop, hv, if_true]; exact hN n hn
    · have hx : x.isNull = false := by
        cases hb : x.isNull with
        | true => exact absurd (hnull.2 hb) hv
        | false => rfl
      obtain ⟨hxw, hPx⟩ := hP k x (by simp)
      -- merge the entry
      obtain ⟨dx, G0, h1, w, Fw, m1, F1, hgd, hG0, j1, j2, j4, hN1, hm1, d1, hF1, hfr'⟩ : ∃ dx G0 h1 w Fw m1 F1,
          (aGet vs k).getD .null = dx ∧ (∀ c ∈ G0, c ∈ FD) ∧ h1.length = h.length ∧ (∀ b, b ∉ G0 → h1[b]? = h[b]?) ∧
          (∀ a ∈ Fw, a ∈ G0 ∨ a ∈ Gx) ∧
          (∃ N, ∀ n, N ≤ n → Heap.mergeI n wr rd h ((aGet m k).getD .null) v = some (.ok (h1, w))) ∧
          aSet m k w = m1 ∧ DenE h1 m1 (aSet vs k (Val.mergeV dx x)) F1 ∧ (∀ a ∈ F1, a ∈ FD ∨ a ∈ Fp) ∧
          ∀ k' ∈ aKeys qs, ∀ y x G, aGet m1 k' = some y → Den h1 y x G → Fresh h1 wr rd FD Fp F1 x G := by
        cases hg : aGet m k with
        | none =>
          obtain ⟨h1, w, Fw, j1, j2, j3, j4, jN⟩ := hPx h wr rd .null v .null [] Gx .null hxw .null dv .nil (by simp)
            (fun a ha => hwr a (hFq1 a ha))
          have hh : ∀ b : Nat, h1[b]? = h[b]? := fun b => j2 b (by simp)
          have dm1 : DenE h1 m vs F := denE_frame dm fun b _ => hh b
          refine ⟨.null, [], h1, w, Fw, _, F ++ Fw, by simp [denE_get_none dm hg], by simp, j1, j2, j4, jN, rfl,
            denE_set_fresh dm1 hg j3, ?_, ?_⟩
          · intro a ha
            rcases List.mem_append.1 ha with ha | ha
            · exact hF a ha
            · rcases j4 a ha with h0 | h0
              · simp at h0
              · exact .inr (hFq1 a h0)
          · intro k' hk' y x' G hg' d
            rw [aGet_aSet, if_neg (hne k' hk')] at hg'
            have hf := hfr k' (by simp [hk']) y x' G hg' (den_frame d fun b _ => (hh b).symm)
            refine ⟨hf.nodup, fun c hc => ?_, hf.apart, hf.inDoc, hf.wf⟩
            have h0 : c ∉ Fw := fun hh' => by
              rcases j4 c hh' with h0 | h0
              · simp at h0
              · exact (hf.apart c hc).1 (hFq1 c h0)
            rw [List.count_append, hf.once c hc, List.count_eq_zero_of_not_mem h0]
        | some y0 =>
          obtain ⟨x0, G0, R, hv0, d0, dr, hp⟩ := denE_hole dm hg
          have hf0 := hfr k (by simp) y0 x0 G0 hg d0
          obtain ⟨h1, w, Fw, j1, j2, j3, j4, jN⟩ := hPx h wr rd y0 v x0 G0 Gx hf0.wf hxw d0 dv hf0.nodup
            (fun a ha => ⟨fun hh => (hf0.apart a ha).1 (hFq1 a hh), (hf0.apart a ha).2⟩) (fun a ha => hwr a (hFq1 a ha))
          have hdisj : ∀ c, c ∈ R → c ∉ G0 := fun c hR hc => by
            have h1 := hf0.once c hc
            rw [hp.count_eq, List.count_append] at h1
            have := List.count_pos_iff.2 hR
            have := List.count_pos_iff.2 hc
            omega
          have dr1 : DenE h1 (aErase m k) (aErase vs k) R := denE_frame dr fun b hb => j2 b (hdisj b hb)
          obtain ⟨F1, d1, hp1⟩ := denE_fill (denE_keys dm) dr1 hg j3
          refine ⟨x0, G0, h1, w, Fw, _, F1, by simp [hv0], hf0.inDoc, j1, j2, j4, jN, rfl, d1, ?_, ?_⟩
          · intro a ha
            rcases List.mem_append.1 (hp1.mem_iff.1 ha) with ha | ha
            · rcases j4 a ha with h0 | h0
              · exact .inl (hf0.inDoc a h0)
              · exact .inr (hFq1 a h0)
            · exact hF a (hp.mem_iff.2 (by simp [ha]))
          · intro k' hk' y x' G hg' d
            rw [aGet_aSet, if_neg (hne k' hk')] at hg'
            -- the other entry was not touched
            obtain ⟨x2, G2, R2, _, d2, _, _⟩ := denE_hole dm hg'
            have hin := hrest G0 R dr hp k' hk' y x2 G2 hg' d2
            obtain ⟨rfl, rfl⟩ := den_fun d (den_frame (h' := h1) d2 fun c hc => j2 c (hin c hc).2.1)
            have hf := hfr k' (by simp [hk']) y _ _ hg' d2
            refine ⟨hf.nodup, fun c hc => ?_, hf.apart, hf.inDoc, hf.wf⟩
            have h0 : c ∉ Fw := fun hh' => by
              rcases j4 c hh' with h0 | h0
              · exact (hin c hc).2.1 h0
              · exact (hf.apart c hc).1 (hFq1 c h0)
            rw [hp1.count_eq, List.count_append, List.count_eq_zero_of_not_mem h0, (hin c hc).2.2]
      have ds1 : DenE h1 qs qvs Gq := denE_frame ds fun b hb => j2 b fun hh => hapart b (hG0 b hh) (hFq2 b hb)
      obtain ⟨N1, hN1⟩ := hN1
      obtain ⟨h', m', F', i1, i2, i3, i4, N, hN⟩ := placeLoop_den hapart hwr qs qvs h1 Gq ds1 hFq2 nd.2 hP2 m1 _ F1 d1 hF1 hfr'
      refine ⟨h', m', F', by omega, fun b hb => by rw [i2 b hb, j2 b fun hh => hb (hG0 b hh)], ?_, i4, max N N1, fun n hn => ?_⟩
      · simpa only [Val.mergeE, hx, hgd, Bool.false_eq_true, if_false] using i3
      · simp only [placeLoop, hv, if_false, hN1 n (by omega), hm1]
        exact hN n (by omega)

theorem mergeI_den : ∀ pv : Val, PlacesTo pv := by
  have leaf : ∀ (pv : Val) (h : Heap) (wr rd : List Nat) (doc patch : HVal) (d : Val) (Fd Fp : List Nat), Den h doc d Fd →
      Den h patch pv Fp → ¬ (d.isObj = true ∧ pv.isObj = true) →
      ∃ h' w F', h'.length = h.length ∧ (∀ b, b ∉ Fd → h'[b]? = h[b]?) ∧ Den h' w (Val.mergeV d pv) F' ∧
      (∀ a ∈ F', a ∈ Fd ∨ a ∈ Fp) ∧ ∃ N, ∀ n, N ≤ n → Heap.mergeI n wr rd h doc patch = some (.ok (h', w)) := by
    intro pv h wr rd doc patch d Fd Fp dd dp hb
    have hn : ∀ a b, ¬ (doc = .obj a ∧ patch = .obj b) := fun a b hh =>
      hb ⟨(den_isObj dd).1 ⟨a, hh.1⟩, (den_isObj dp).1 ⟨b, hh.2⟩⟩
    obtain ⟨N, hN⟩ := sees_same dd dp
    rw [mergeV_notboth _ _ hb]
    cases hq : d.beq pv with
    | true =>
      refine ⟨h, doc, Fd, rfl, fun _ _ => rfl, by simpa using dd, fun a ha => .inl ha, N + 1, fun n hn' => ?_⟩
      cases n with
      | zero => omega
      | succ n => rw [heapMergeI_notboth hn, hN n (by omega), hq]
    | false =>
      refine ⟨h, patch, Fp, rfl, fun _ _ => rfl, by simpa using dp, fun a ha => .inr ha, N + 1, fun n hn' => ?_⟩
      cases n with
      | zero => omega
      | succ n => rw [heapMergeI_notboth hn, hN n (by omega), hq]
  refine Val.indObj ?_ ?_
  · intro pv hpv h wr rd doc patch d Fd Fp _ _ dd dp _ _ _
    exact leaf pv h wr rd doc patch d Fd Fp dd dp (by simp [hpv])
  · intro pe ih h wr rd doc patch d Fd Fp hdw hpw dd dp nd hap hwr
    by_cases hd : d.isObj = true
    · cases dd with
      | @obj a dm dvs FD ha dd =>
        cases dp with
        | @obj b pm _ FP hb dp =>
          have hab : a ≠ b := fun hh => (hap a (by simp)).1 (by simp [hh])
          obtain ⟨haFD, ndFD⟩ := List.nodup_cons.1 nd
          have haP : a ∉ b :: FP := (hap a (by simp)).1
          have ⟨ndp, hpv⟩ := hpw.obj_inv
          obtain ⟨h', m', F', i1, i2, i3, i4, N, hN⟩ := placeLoop_den (wr := a :: wr) (rd := b :: rd) (FD := FD) (Fp := b :: FP)
            (fun c hc => (hap c (List.mem_cons_of_mem _ hc)).1)
            (fun c hc hh => by
              rcases List.mem_cons.1 hh with rfl | hh
              · exact haP hc
              · exact hwr c hc hh)
            pm pe h FP dp (fun x hx => List.mem_cons_of_mem _ hx) (by rw [denE_keys dp]; exact ndp)
            (fun k x hm => ⟨hpv k x hm, ih k x hm⟩) dm dvs FD dd (fun c hc => .inl hc)
            (by
              intro k _ y x G hg d
              obtain ⟨x1, G1, R1, hv1, d1, _, hp⟩ := denE_hole dd hg
              obtain ⟨rfl, rfl⟩ := den_fun d d1
              have hin : ∀ c ∈ G, c ∈ FD := fun c hc => hp.mem_iff.2 (by simp [hc])
              refine ⟨((List.nodup_append.1 (hp.nodup_iff.1 ndFD))).1, fun c hc => ?_, fun c hc => ?_, hin, hdw.get hv1⟩
              · have hone := List.nodup_iff_count.1 ndFD c
                have := List.count_pos_iff.2 (hin c hc)
                omega
              · have hc' := hap c (List.mem_cons_of_mem _ (hin c hc))
                refine ⟨hc'.1, fun hh => ?_, fun hh => ?_⟩
                · rcases List.mem_cons.1 hh with rfl | hh
                  · exact haFD (hin _ hc)
                  · exact hc'.2.1 hh
                · rcases List.mem_cons.1 hh with rfl | hh
                  · exact hc'.1 (by simp)
                  · exact hc'.2.2 hh)
          have ga := objAt_of ha
          have gb := objAt_of hb
          have hlt := lt_of_get ha
          refine ⟨h'.set a (.obj m'), .obj a, a :: F', by simp [i1], fun c hc => ?_, ?_, ?_, N + 1, fun n hn => ?_⟩
          · rw [List.getElem?_set_ne (fun hh => hc (by simp [hh])), i2 c fun hh => hc (by simp [hh])]
          · rw [mergeV_obj]
            refine .obj (by rw [List.getElem?_set_self (by omega)]) (denE_frame i3 fun c hc => ?_)
            rw [List.getElem?_set_ne]
            intro hh
            subst hh
            rcases i4 a hc with h0 | h0
            · exact haFD h0
            · exact haP h0
          · intro c hc
            rcases List.mem_cons.1 hc with rfl | hc
            · simp
            · rcases i4 c hc with h0 | h0
              · simp [h0]
              · exact .inr h0
          · cases n with
            | zero => omega
            | succ n =>
              have hb' : b ∉ wr := hwr b (by simp)
              have ha' := (hap a (by simp)).2
              simp [Heap.mergeI, hab, hb', ha'.1, ha'.2, ga, gb, hN n (by omega)]
      | _ => simp [Val.isObj] at hd
    · exact leaf (.obj pe) h wr rd doc patch d Fd Fp dd dp (fun hh => hd hh.1)

end Zen
