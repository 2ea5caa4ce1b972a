import Verif.Core.Merge
import Verif.Core.ValLemmas
namespace Zen
open Val

theorem mergeV_notboth (d p : Val) (h : ¬ (d.isObj = true ∧ p.isObj = true)) :
    mergeV d p = if beq d p then d else p := by
  cases p <;> try (simp only [mergeV]; done)
  cases d <;> simp_all [mergeV, isObj]

theorem mergeV_obj (de pe) : mergeV (.obj de) (.obj pe) = .obj (mergeE de pe) := by simp only [mergeV]

theorem mergeE_nodup {de pe : List (String × Val)} (h : (aKeys de).Nodup) : (aKeys (mergeE de pe)).Nodup := by
  induction pe generalizing de with
  | nil => simpa [mergeE]
  | cons x r ih =>
    obtain ⟨k, v⟩ := x
    simp only [mergeE]; split
    · exact ih (aKeys_aErase_nodup _ h)
    · exact ih (aKeys_aSet_nodup _ _ h)

/-- lookups in the merged object -/
theorem aGet_mergeE {de pe : List (String × Val)} (hd : (aKeys de).Nodup) (hp : (aKeys pe).Nodup) (k) :
    aGet (mergeE de pe) k = match aGet pe k with
      | none => aGet de k
      | some v => if v.isNull then none else some (mergeV ((aGet de k).getD .null) v) := by
  induction pe generalizing de with
  | nil => simp [mergeE]
  | cons x r ih =>
    obtain ⟨k0, v0⟩ := x
    simp only [aKeys_cons, List.nodup_cons] at hp
    simp only [mergeE, aGet_cons]
    have hk0 : aGet r k0 = none := (aGet_eq_none_iff _ _).2 hp.1
    split
    · next hn =>
      rw [ih (aKeys_aErase_nodup _ hd) hp.2]
      by_cases hk : k0 = k
      · subst hk; simp [hk0, hn, aGet_aErase _ _ hd]
      · simp only [hk, if_false, aGet_aErase k0 k hd, Ne.symm hk]
    · next hn =>
      rw [ih (aKeys_aSet_nodup _ _ hd) hp.2]
      by_cases hk : k0 = k
      · subst hk; simp [hk0, hn, aGet_aSet]
      · simp only [hk, if_false, aGet_aSet, Ne.symm hk]

/-- a merge whose entries are already absorbed changes nothing -/
theorem mergeE_stable {de pe : List (String × Val)}
    (h : ∀ k v, (k, v) ∈ pe → if v.isNull then aGet de k = none
      else ∃ x, aGet de k = some x ∧ mergeV x v = x) : mergeE de pe = de := by
  induction pe with
  | nil => simp [mergeE]
  | cons x r ih =>
    obtain ⟨k0, v0⟩ := x
    have h0 := h k0 v0 (by simp)
    have hr := ih fun k v hkv => h k v (by simp [hkv])
    simp only [mergeE]
    split
    · next hn => simp only [hn, if_true] at h0; rw [aErase_absent _ _ h0, hr]
    · next hn =>
      simp only [hn] at h0
      obtain ⟨x, hx, hm⟩ := h0
      rw [hx]; simp only [Option.getD_some, hm]; rw [aSet_same _ _ _ hx, hr]

theorem isNull_iff (v : Val) : v.isNull = true ↔ v = .null := by cases v <;> simp [isNull]

theorem mergeV_wf : ∀ (p d : Val), d.Wf → p.Wf → (mergeV d p).Wf := by
  intro p
  refine Val.indObj (P := fun p => ∀ d, d.Wf → p.Wf → (mergeV d p).Wf) ?_ ?_ p
  · intro p hp d _ _
    rw [mergeV_notboth _ _ (by simp [hp])]; split <;> assumption
  intro pe ih d hd hp
  by_cases h : d.isObj = true ∧ (Val.obj pe).isObj = true
  · cases d <;> simp_all [isObj]
    next de =>
    rw [mergeV_obj]
    have ⟨ndp, hpv⟩ := hp.obj_inv
    have ⟨ndd, hdv⟩ := hd.obj_inv
    refine .obj _ (mergeE_nodup ndd) fun k x hx => ?_
    have := aGet_of_mem (mergeE_nodup ndd) hx
    rw [aGet_mergeE ndd ndp] at this
    cases hg : aGet pe k with
    | none => rw [hg] at this; exact hd.get this
    | some v =>
      rw [hg] at this; simp only at this
      split at this
      · cases this
      · cases this
        refine ih k v (aGet_mem hg) _ ?_ (hpv k v (aGet_mem hg))
        cases hgd : aGet de k with
        | none => exact .null
        | some y => exact hd.get hgd
  · rw [mergeV_notboth _ _ h]; split <;> assumption

/-- third application equals the second -/
theorem mergeV_third : ∀ (p d : Val), d.Wf → p.Wf →
    mergeV (mergeV (mergeV d p) p) p = mergeV (mergeV d p) p := by
  intro p
  refine Val.indObj (P := fun p => ∀ d, d.Wf → p.Wf →
    mergeV (mergeV (mergeV d p) p) p = mergeV (mergeV d p) p) ?_ ?_ p
  · intro p hp d _ _
    have e : ∀ d, mergeV d p = if beq d p then d else p := fun d => mergeV_notboth _ _ (by simp [hp])
    simp only [e]; by_cases h : beq d p = true <;> by_cases h' : beq p p = true <;> simp [h, h']
  intro pe ih d hd hp
  have ⟨ndp, hpv⟩ := hp.obj_inv
  -- key step: two applications on an object absorb the patch
  have key : ∀ e1 : List (String × Val), (aKeys e1).Nodup →
      (∀ k v, aGet pe k = some v → v.isNull = false →
        mergeV (mergeV ((aGet e1 k).getD .null) v) v = mergeV ((aGet e1 k).getD .null) v) →
      mergeE (mergeE e1 pe) pe = mergeE e1 pe := by
    intro e1 nd1 h
    apply mergeE_stable
    intro k v hkv
    have hg := aGet_of_mem ndp hkv
    split
    · next hn => rw [aGet_mergeE nd1 ndp, hg]; simp [hn]
    · next hn =>
      refine ⟨mergeV ((aGet e1 k).getD .null) v, ?_, h k v hg (by simpa using hn)⟩
      rw [aGet_mergeE nd1 ndp, hg]; simp [hn]
  by_cases h : d.isObj = true
  · cases d <;> simp [isObj] at h
    next de =>
    have ⟨ndd, hdv⟩ := hd.obj_inv
    rw [mergeV_obj, mergeV_obj, mergeV_obj]
    congr 1
    refine key _ (mergeE_nodup ndd) fun k v hg hn => ?_
    rw [aGet_mergeE ndd ndp, hg]
    simp only [hn, Bool.false_eq_true, if_false, Option.getD_some]
    refine ih k v (aGet_mem hg) _ ?_ (hpv k v (aGet_mem hg))
    cases hgd : aGet de k with
    | none => exact .null
    | some y => exact hd.get hgd
  · have e : mergeV d (.obj pe) = .obj pe := by
      rw [mergeV_notboth _ _ (by simp [h])]
      cases d <;> simp_all [beq, isObj]
    rw [e, mergeV_obj, mergeV_obj]
    congr 1
    refine key _ ndp fun k v hg hn => ?_
    rw [hg]; simp only [Option.getD_some]
    have e2 : mergeV .null v = v := by
      rw [mergeV_notboth _ _ (by simp [isObj])]
      cases v <;> simp_all [beq, isNull]
    have := ih k v (aGet_mem hg) .null .null (hpv k v (aGet_mem hg))
    rw [e2] at this; exact this

mutual
/-- No property anywhere inside `v` (through objects) is null. -/
def Val.nullFree : Val → Bool
  | .obj m => nullFreeE m
  | _ => true
def Val.nullFreeE : List (String × Val) → Bool
  | [] => true
  | (_, v) :: r => !v.isNull && nullFree v && nullFreeE r
end

theorem nullFreeE_mem {m : List (String × Val)} (h : nullFreeE m = true) {k v} (hm : (k, v) ∈ m) :
    v.isNull = false ∧ v.nullFree = true := by
  induction m with
  | nil => cases hm
  | cons x r ih =>
    obtain ⟨k0, v0⟩ := x
    simp only [nullFreeE, Bool.and_eq_true, Bool.not_eq_true'] at h
    rcases List.mem_cons.1 hm with e | e
    · cases e; exact h.1
    · exact ih h.2 e

theorem mergeV_idem_nullFree : ∀ (p d : Val), d.Wf → p.Wf → p.nullFree = true →
    mergeV (mergeV d p) p = mergeV d p := by
  intro p
  refine Val.indObj (P := fun p => ∀ d, d.Wf → p.Wf → p.nullFree = true →
    mergeV (mergeV d p) p = mergeV d p) ?_ ?_ p
  · intro p hp d _ _ _
    have e : ∀ d, mergeV d p = if beq d p then d else p := fun d => mergeV_notboth _ _ (by simp [hp])
    simp only [e]; by_cases h : beq d p = true <;> by_cases h' : beq p p = true <;> simp [h, h']
  intro pe ih d hd hp hnf
  have ⟨ndp, hpv⟩ := hp.obj_inv
  by_cases h : d.isObj = true
  · cases d <;> simp [isObj] at h
    next de =>
    have ⟨ndd, hdv⟩ := hd.obj_inv
    rw [mergeV_obj, mergeV_obj]
    congr 1
    apply mergeE_stable
    intro k v hkv
    have hg := aGet_of_mem ndp hkv
    have ⟨n1, n2⟩ := nullFreeE_mem (by simpa [nullFree] using hnf) hkv
    simp only [n1, Bool.false_eq_true, if_false]
    refine ⟨mergeV ((aGet de k).getD .null) v, ?_, ih k v hkv _ ?_ (hpv k v hkv) n2⟩
    · rw [aGet_mergeE ndd ndp, hg]; simp [n1]
    · cases hgd : aGet de k with
      | none => exact .null
      | some y => exact hd.get hgd
  · have e : mergeV d (.obj pe) = .obj pe := by
      rw [mergeV_notboth _ _ (by simp [h])]
      cases d <;> simp_all [beq, isObj]
    rw [e, mergeV_obj]
    congr 1
    apply mergeE_stable
    intro k v hkv
    have hg := aGet_of_mem ndp hkv
    have ⟨n1, n2⟩ := nullFreeE_mem (by simpa [nullFree] using hnf) hkv
    simp only [n1, Bool.false_eq_true, if_false]
    refine ⟨v, hg, ?_⟩
    have e2 : mergeV .null v = v := by
      rw [mergeV_notboth _ _ (by simp [isObj])]
      cases v <;> simp_all [beq, isNull]
    have := ih k v hkv .null .null (hpv k v hkv) n2
    rw [e2] at this; exact this

/-- Copy-on-write merge computes the same value, and reports `changed` only when it changed. -/
theorem mergeC_spec : ∀ (p d : Val), (mergeC d p).1 = mergeV d p ∧ ((mergeC d p).2 = false → mergeV d p = d) := by
  intro p
  refine Val.indObj (P := fun p => ∀ d, (mergeC d p).1 = mergeV d p ∧ ((mergeC d p).2 = false → mergeV d p = d))
    ?_ ?_ p
  · intro p hp d
    cases p <;> simp [isObj] at hp <;> simp only [mergeV, mergeC] <;> split <;> simp
  intro pe ih d
  have loop : ∀ (qe : List (String × Val)), (∀ k v, (k, v) ∈ qe → (k, v) ∈ pe) → ∀ (map) (ch),
      (mergeCE map qe ch).1 = mergeE map qe ∧
      ((mergeCE map qe ch).2 = false → ch = false ∧ mergeE map qe = map) := by
    intro qe
    induction qe with
    | nil => intro _ map ch; simp [mergeCE, mergeE]
    | cons x r ihq =>
      obtain ⟨k, v⟩ := x
      intro hsub map ch
      have hr := ihq fun k' v' h' => hsub k' v' (by simp [h'])
      simp only [mergeCE, mergeE]
      by_cases hn : v.isNull = true
      · simp only [hn, if_true]
        obtain ⟨a, b⟩ := hr (aErase map k) (ch || (aGet map k).isSome)
        refine ⟨a, fun hf => ?_⟩
        obtain ⟨c, e⟩ := b hf
        simp only [Bool.or_eq_false_iff] at c
        refine ⟨c.1, ?_⟩
        rw [e]; exact aErase_absent _ _ (by simpa using c.2)
      · simp only [hn]
        obtain ⟨e1, e2⟩ := ih k v (hsub k v (by simp)) ((aGet map k).getD .null)
        simp only [Bool.false_eq_true, if_false, e1]
        obtain ⟨a, b⟩ := hr (aSet map k (mergeV ((aGet map k).getD .null) v))
          (ch || (mergeC ((aGet map k).getD .null) v).2)
        refine ⟨a, fun hf => ?_⟩
        obtain ⟨c, e⟩ := b hf
        simp only [Bool.or_eq_false_iff] at c
        refine ⟨c.1, ?_⟩
        rw [e]
        have hsame := e2 c.2
        cases hg : aGet map k with
        | none =>
          exfalso
          rw [hg] at hsame
          simp only [Option.getD_none] at hsame
          rw [mergeV_notboth _ _ (by simp [isObj])] at hsame
          cases v <;> simp_all [beq, isNull]
        | some y =>
          rw [hg] at hsame; simp only [Option.getD_some] at hsame
          simp only [Option.getD_some, hsame]; exact aSet_same _ _ _ hg
  cases d <;> try (simp only [mergeV, mergeC]; split <;> simp; done)
  next de =>
  obtain ⟨a, b⟩ := loop pe (fun _ _ h => h) de false
  simp only [mergeC, mergeV]
  split
  · next h => simp [a]
  · next h => have := (b (by simpa using h)).2; simp [this]

end Zen
