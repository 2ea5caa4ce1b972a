import Verif.Heap.Insert
import Verif.Core.MergeLemmas
/- Merging on the heap. -/
namespace Zen
open Heap
variable {h h' : Heap}

/-! ### a cloning merge writes to no cell -/

theorem cloneLoop_ext {f : Heap → HVal → HVal → Option (Heap × HVal × Bool)}
    (hf : ∀ h d p h' w c, f h d p = some (h', w, c) → h <+: h') :
    ∀ (p m : List (String × HVal)) (h : Heap) (ch : Bool) h' m' c, cloneLoop f h m p ch = some (h', m', c) → h <+: h'
  | [], m, h, ch, h', m', c, e => by simp only [cloneLoop, Option.some.injEq, Prod.mk.injEq] at e; rw [e.1]; exact List.prefix_refl _
  | (k, v) :: p, m, h, ch, h', m', c, e => by
    simp only [cloneLoop] at e
    split at e
    · exact cloneLoop_ext hf p _ h _ h' m' c e
    · split at e
      · cases e
      · next h1 x c1 hx => exact (hf _ _ _ _ _ _ hx).trans (cloneLoop_ext hf p _ h1 _ h' m' c e)

theorem heapMergeC_notboth {doc patch : HVal} (hn : ∀ a b, ¬ (doc = .obj a ∧ patch = .obj b)) (n : Nat) (h : Heap) :
    Heap.mergeC (n + 1) h doc patch = match same n h doc patch with
      | none => none
      | some true => some (h, doc, false)
      | some false => some (h, patch, true) := by
  cases doc <;> cases patch <;> first | (exact absurd ⟨rfl, rfl⟩ (hn _ _)) | rfl

theorem mergeC_ext : ∀ (n : Nat) (h : Heap) (doc patch : HVal) h' w c, Heap.mergeC n h doc patch = some (h', w, c) → h <+: h'
  | 0, _, _, _, _, _, _, e => by simp [Heap.mergeC] at e
  | n + 1, h, doc, patch, h', w, c, e => by
    by_cases hb : ∃ a b, doc = .obj a ∧ patch = .obj b
    · obtain ⟨a, b, rfl, rfl⟩ := hb
      simp only [Heap.mergeC] at e
      split at e
      · cases e; exact List.prefix_refl _
      · split at e
        · split at e
          · cases e
          · next h1 m hl =>
            simp only [Heap.newObj, Option.some.injEq, Prod.mk.injEq] at e
            rw [← e.1]
            exact (cloneLoop_ext (mergeC_ext n) _ _ _ _ _ _ _ hl).trans ⟨_, rfl⟩
          · next h1 m hl =>
            simp only [Option.some.injEq, Prod.mk.injEq] at e
            rw [← e.1]
            exact cloneLoop_ext (mergeC_ext n) _ _ _ _ _ _ _ hl
        · cases e
    · rw [heapMergeC_notboth (fun a b hh => hb ⟨a, b, hh⟩)] at e
      split at e
      · cases e
      · cases e; exact List.prefix_refl _
      · cases e; exact List.prefix_refl _

/-! ### what a cloning merge returns -/

theorem valMergeC_notboth {d p : Val} (hn : ¬ (d.isObj = true ∧ p.isObj = true)) :
    Val.mergeC d p = if d.beq p then (d, false) else (p, true) := by
  cases p <;> try (simp only [Val.mergeC]; done)
  cases d <;> first | (simp [Val.isObj] at hn; done) | simp only [Val.mergeC]

theorem beq_self {v : Val} (hv : v.Wf) : v.beq v = true := (Val.beq_iff v v hv hv).2 (SameV.refl v)

theorem mergeC_self : ∀ (d : Val), d.Wf → d.nullFree = true → Val.mergeC d d = (d, false) := by
  refine Val.indObj ?_ ?_
  · intro v hv w _
    rw [valMergeC_notboth (by simp [hv]), beq_self w]; rfl
  · intro m ih w hn
    have ⟨nd, hv⟩ := w.obj_inv
    have loop : ∀ qs : List (String × Val), (∀ k v, (k, v) ∈ qs → (k, v) ∈ m) → Val.mergeCE m qs false = (m, false) := by
      intro qs
      induction qs with
      | nil => intro _; rfl
      | cons e qs ihq =>
        obtain ⟨k, v⟩ := e
        intro hs
        have hm := hs k v (by simp)
        have hg := aGet_of_mem nd hm
        obtain ⟨n1, n2⟩ := nullFreeE_mem (by simpa [Val.nullFree] using hn) hm
        simp only [Val.mergeCE, n1, hg, Option.getD_some, ih k v hm (hv k v hm) n2, Bool.or_self,
          Bool.false_eq_true, if_false, aSet_same m k v hg]
        exact ihq fun k' v' h' => hs k' v' (by simp [h'])
    simp [Val.mergeC, loop m fun _ _ h => h]

/-- where document and patch share an object, it has no null property inside -/
def SharedNullFree (h : Heap) (Fd Fp : List Nat) : Prop :=
  ∀ a ∈ Fd, a ∈ Fp → ∀ e F, Den h (.obj a) e F → e.nullFree = true

theorem SharedNullFree.mono {Fd Fp Gd Gp : List Nat} (hs : SharedNullFree h Fd Fp) (h1 : ∀ a ∈ Gd, a ∈ Fd)
    (h2 : ∀ a ∈ Gp, a ∈ Fp) : SharedNullFree h Gd Gp :=
  fun a ha hb => hs a (h1 a ha) (h2 a hb)

theorem den_null_iff {v : HVal} {x : Val} {F} (d : Den h v x F) : v = .null ↔ x.isNull = true := by
  cases d <;> simp [Val.isNull]

theorem den_isObj {v : HVal} {x : Val} {F} (d : Den h v x F) : (∃ a, v = .obj a) ↔ x.isObj = true := by
  cases d <;> simp [Val.isObj]

theorem denE_erase {m : List (String × HVal)} {vs : List (String × Val)} {F} (d : DenE h m vs F) (k : String) :
    ∃ R, DenE h (aErase m k) (aErase vs k) R := by
  cases hg : aGet m k with
  | none => rw [aErase_absent m k hg, aErase_absent vs k (denE_get_none d hg)]; exact ⟨F, d⟩
  | some y => obtain ⟨_, _, R, _, _, dr, _⟩ := denE_hole d hg; exact ⟨R, dr⟩

theorem denE_mem : ∀ {m : List (String × HVal)} {vs : List (String × Val)} {F} {k : String} {y : HVal}, DenE h m vs F →
    (k, y) ∈ m → ∃ x G, (k, x) ∈ vs ∧ Den h y x G ∧ ∀ a ∈ G, a ∈ F
  | _, _, _, k, y, .nil, e => by simp at e
  | _, _, _, k, y, .cons d ds, e => by
    rcases List.mem_cons.1 e with e | e
    · cases e; exact ⟨_, _, by simp, d, fun a ha => by simp [ha]⟩
    · obtain ⟨x, G, h1, h2, h3⟩ := denE_mem ds e
      exact ⟨x, G, by simp [h1], h2, fun a ha => by simp [h3 a ha]⟩

/-- what merging `pv` does -/
def MergesTo (pv : Val) : Prop :=
  ∀ (h0 h : Heap) (doc patch : HVal) (d : Val) (Fd Fp : List Nat), h0 <+: h → d.Wf → pv.Wf → Den h0 doc d Fd →
    Den h0 patch pv Fp → SharedNullFree h0 Fd Fp → ∃ h' w F', h <+: h' ∧ Den h' w (Val.mergeC d pv).1 F' ∧
      ∃ N, ∀ n, N ≤ n → Heap.mergeC n h doc patch = some (h', w, (Val.mergeC d pv).2)

theorem cloneLoop_den {h0 : Heap} {dm : List (String × HVal)} {dvs : List (String × Val)} {FD Fd Fp : List Nat}
    (dd : DenE h0 dm dvs FD) (hdw : (Val.obj dvs).Wf) (hFD : ∀ a ∈ FD, a ∈ Fd) (hs : SharedNullFree h0 Fd Fp) :
    ∀ (qs : List (String × HVal)) (qvs : List (String × Val)) (Fq : List Nat), DenE h0 qs qvs Fq → (∀ a ∈ Fq, a ∈ Fp) →
    (aKeys qs).Nodup → (∀ k x, (k, x) ∈ qvs → x.Wf ∧ MergesTo x) →
    ∀ (h : Heap) (m : List (String × HVal)) (vs : List (String × Val)) (F : List Nat) (ch : Bool), h0 <+: h → DenE h m vs F →
    (∀ k ∈ aKeys qs, aGet m k = aGet dm k) →
    ∃ h' m' F', h <+: h' ∧ DenE h' m' (Val.mergeCE vs qvs ch).1 F' ∧
      ∃ N, ∀ n, N ≤ n → cloneLoop (Heap.mergeC n) h m qs ch = some (h', m', (Val.mergeCE vs qvs ch).2)
  | _, _, _, .nil, _, _, _, h, m, vs, F, ch, _, dm', _ =>
    ⟨h, m, F, List.prefix_refl _, dm', 0, fun n _ => rfl⟩
  | _, _, _, .cons (k := k) (x := v) (v := x) (m := qs) (vs := qvs) (F := Gx) (G := Gq) dv ds, hFq, nd, hP, h, m, vs, F, ch, he, dm', hcur => by
    simp only [aKeys_cons, List.nodup_cons] at nd
    have hFq1 : ∀ a ∈ Gx, a ∈ Fp := fun a ha => hFq a (by simp [ha])
    have hFq2 : ∀ a ∈ Gq, a ∈ Fp := fun a ha => hFq a (by simp [ha])
    have hP2 : ∀ k x, (k, x) ∈ qvs → x.Wf ∧ MergesTo x := fun k x hm => hP k x (by simp [hm])
    have hnull := den_null_iff dv
    by_cases hv : v = .null
    · have hx := hnull.1 hv
      obtain ⟨R, dr⟩ := denE_erase dm' k
      have hkeyne : ∀ k' ∈ aKeys qs, aGet (aErase m k) k' = aGet dm k' := by
        intro k' hk'
        have hne : k' ≠ k := fun hh => nd.1 (hh ▸ hk')
        rw [← hcur k' (by simp [hk'])]
        clear hcur dr dm'
        induction m with
        | nil => rfl
        | cons e m ih =>
          obtain ⟨a, b⟩ := e
          simp only [aErase]
          split
          · next ha => subst ha; rw [aGet_cons]; simp [Ne.symm hne]
          · rw [aGet_cons, aGet_cons, ih]
      have hsome : (aGet m k).isSome = (aGet vs k).isSome := by
        rw [Bool.eq_iff_iff, aGet_isSome_iff, aGet_isSome_iff, denE_keys dm']
      obtain ⟨h', m', F', i1, i2, N, hN⟩ := cloneLoop_den dd hdw hFD hs qs qvs Gq ds hFq2 nd.2 hP2 h _ _ R
        (ch || (aGet vs k).isSome) he dr hkeyne
      refine ⟨h', m', F', i1, ?_, N, fun n hn => ?_⟩
      · simpa only [Val.mergeCE, hx, if_true] using i2
      · simp only [cloneLoop, hv, if_true, Val.mergeCE, hx, hsome]
        exact hN n hn
    · have hx : x.isNull = false := by
        cases hb : x.isNull with
        | true => exact absurd (hnull.2 hb) hv
        | false => rfl
      -- the entry of the document
      obtain ⟨dx, Gd, hgd, ddx, hGd, hwx⟩ : ∃ dx Gd, (aGet vs k).getD .null = dx ∧
          Den h0 ((aGet m k).getD .null) dx Gd ∧ (∀ a ∈ Gd, a ∈ Fd) ∧ dx.Wf := by
        have hck := hcur k (by simp)
        cases hg : aGet m k with
        | none => exact ⟨.null, [], by simp [denE_get_none dm' hg], .null, by simp, .null⟩
        | some y =>
          rw [hg] at hck
          obtain ⟨x1, G1, R1, g1, g2, _, g4⟩ := denE_hole dd hck.symm
          obtain ⟨x2, G2, R2, f1, f2, _, _⟩ := denE_hole dm' hg
          have : x2 = x1 := (den_fun f2 (den_ext he g2)).1
          subst this
          exact ⟨x2, G1, by simp [f1], g2, fun a ha => hFD a (g4.mem_iff.2 (by simp [ha])), hdw.get g1⟩
      obtain ⟨hxw, hPx⟩ := hP k x (by simp)
      obtain ⟨h1, w, Fw, j1, j2, N1, hN1⟩ := hPx h0 h _ v dx Gd Gx he hwx hxw ddx dv (hs.mono hGd hFq1)
      obtain ⟨F1, d1⟩ := aSet_den (k := k) (denE_ext j1 dm') j2
      have hkeyne : ∀ k' ∈ aKeys qs, aGet (aSet m k w) k' = aGet dm k' := by
        intro k' hk'
        have hne : k' ≠ k := fun hh => nd.1 (hh ▸ hk')
        rw [← hcur k' (by simp [hk']), aGet_aSet]; simp [hne]
      obtain ⟨h', m', F', i1, i2, N, hN⟩ := cloneLoop_den dd hdw hFD hs qs qvs Gq ds hFq2 nd.2 hP2 h1 _ _ F1
        (ch || (Val.mergeC dx x).2) (he.trans j1) d1 hkeyne
      refine ⟨h', m', F', j1.trans i1, ?_, max N N1, fun n hn => ?_⟩
      · simpa only [Val.mergeCE, hx, hgd, Bool.false_eq_true, if_false] using i2
      · simp only [cloneLoop, hv, if_false, Val.mergeCE, hx, hgd, Bool.false_eq_true, hN1 n (by omega)]
        exact hN n (by omega)

theorem mergeC_den : ∀ pv : Val, MergesTo pv := by
  have leaf : ∀ (pv : Val) (h0 h : Heap) (doc patch : HVal) (d : Val) (Fd Fp : List Nat), h0 <+: h → Den h0 doc d Fd →
      Den h0 patch pv Fp → ¬ (d.isObj = true ∧ pv.isObj = true) → ∃ h' w F', h <+: h' ∧ Den h' w (Val.mergeC d pv).1 F' ∧
      ∃ N, ∀ n, N ≤ n → Heap.mergeC n h doc patch = some (h', w, (Val.mergeC d pv).2) := by
    intro pv h0 h doc patch d Fd Fp he dd dp hb
    have hn : ∀ a b, ¬ (doc = .obj a ∧ patch = .obj b) := fun a b hh =>
      hb ⟨(den_isObj dd).1 ⟨a, hh.1⟩, (den_isObj dp).1 ⟨b, hh.2⟩⟩
    obtain ⟨N, hN⟩ := sees_same (den_ext he dd) (den_ext he dp)
    rw [valMergeC_notboth hb]
    cases hq : d.beq pv with
    | true =>
      refine ⟨h, doc, Fd, List.prefix_refl _, by simpa using den_ext he dd, N + 1, fun n hn' => ?_⟩
      cases n with
      | zero => omega
      | succ n => rw [heapMergeC_notboth hn, hN n (by omega), hq]; rfl
    | false =>
      refine ⟨h, patch, Fp, List.prefix_refl _, by simpa using den_ext he dp, N + 1, fun n hn' => ?_⟩
      cases n with
      | zero => omega
      | succ n => rw [heapMergeC_notboth hn, hN n (by omega), hq]; rfl
  refine Val.indObj ?_ ?_
  · intro pv hpv h0 h doc patch d Fd Fp he _ _ dd dp _
    exact leaf pv h0 h doc patch d Fd Fp he dd dp (by simp [hpv])
  · intro pe ih h0 h doc patch d Fd Fp he hdw hpw dd dp hs
    by_cases hd : d.isObj = true
    · cases dd with
      | @obj a dm dvs FD ha dd =>
        cases dp with
        | @obj b pm _ FP hb dp =>
          by_cases hab : a = b
          · subst hab
            rw [ha] at hb; cases hb
            obtain ⟨rfl, rfl⟩ := denE_fun dd dp
            have hnf := hs a (by simp) (by simp) _ _ (.obj ha dd)
            rw [mergeC_self _ hdw hnf]
            refine ⟨h, .obj a, _, List.prefix_refl _, den_ext he (.obj ha dd), 1, fun n hn => ?_⟩
            cases n with
            | zero => omega
            | succ n => simp [Heap.mergeC]
          · have ⟨ndp, hpv⟩ := hpw.obj_inv
            obtain ⟨h', m', F', i1, i2, N, hN⟩ := cloneLoop_den dd hdw (Fd := a :: FD) (fun x hx => List.mem_cons_of_mem _ hx) hs pm pe FP dp (fun x hx => List.mem_cons_of_mem _ hx)
              (by rw [denE_keys dp]; exact ndp) (fun k x hm => ⟨hpv k x hm, ih k x hm⟩) h dm dvs FD false he
              (denE_ext he dd) (fun _ _ => rfl)
            have ga := objAt_of ((get_ext he (lt_of_get ha)).trans ha)
            have gb := objAt_of ((get_ext he (lt_of_get hb)).trans hb)
            have hm : Val.mergeC (.obj dvs) (.obj pe) = if (Val.mergeCE dvs pe false).2 then
                (.obj (Val.mergeCE dvs pe false).1, true) else (.obj dvs, false) := by simp only [Val.mergeC]
            rw [hm]
            cases hc : (Val.mergeCE dvs pe false).2 with
            | true =>
              refine ⟨h' ++ [.obj m'], .obj h'.length, h'.length :: F', i1.trans ⟨_, rfl⟩, ?_, N + 1, fun n hn => ?_⟩
              · exact .obj (by simp) (denE_ext ⟨_, rfl⟩ i2)
              · cases n with
                | zero => omega
                | succ n =>
                  have := hN n (by omega)
                  rw [hc] at this
                  simp only [Heap.mergeC, hab, if_false, ga, gb, this, Heap.newObj, if_true]
            | false =>
              refine ⟨h', .obj a, a :: FD, i1, den_ext (he.trans i1) (.obj ha dd), N + 1, fun n hn => ?_⟩
              cases n with
              | zero => omega
              | succ n =>
                have := hN n (by omega)
                rw [hc] at this
                simp [Heap.mergeC, hab, ga, gb, this]
      | _ => simp [Val.isObj] at hd
    · exact leaf (.obj pe) h0 h doc patch d Fd Fp he dd dp (fun hh => hd hh.1)

end Zen
