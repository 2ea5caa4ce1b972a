import Verif.Core.MergeLemmas
/-
C03  Merge follows merge-patch semantics.
-/
namespace Zen
open Val

/-- Specification. `Merged d p r`: merging patch `p` below the top level of document `d` gives `r`.
If document and patch are not both objects the patch's data replaces the document's; otherwise the
result is described property by property. -/
inductive Merged : Val → Val → Val → Prop
  | replace (d p r) : (d.isObj && p.isObj) = false → SameV r p → Merged d p r
  | objects (d p r : List (String × Val)) :
      -- a key the patch does not mention keeps its document value (or absence)
      (∀ k, aGet p k = none → aGet r k = aGet d k) →
      -- a key the patch maps to null is gone
      (∀ k, aGet p k = some .null → aGet r k = none) →
      -- any other key of the patch is present, and holds the merge of old value and patch value
      (∀ k v, aGet p k = some v → v ≠ .null → (aGet r k).isSome = true) →
      (∀ k v x, aGet p k = some v → v ≠ .null → aGet r k = some x →
        Merged ((aGet d k).getD .null) v x) →
      Merged (.obj d) (.obj p) (.obj r)

/-- Specification of the public operation: arrays replace the document, other non-objects do
nothing, objects are merged. -/
def MergedTop (d p r : Val) : Prop :=
  match p with
  | .arr _ => r = p
  | .obj _ => Merged d p r
  | _ => r = d

theorem mergeV_meets_spec : ∀ (p d : Val), d.Wf → p.Wf → Merged d p (mergeV d p) := by
  intro p
  have nb : ∀ d p : Val, d.Wf → p.Wf → (d.isObj && p.isObj) = false → Merged d p (mergeV d p) := by
    intro d p hd hp h
    refine .replace _ _ _ h ?_
    rw [mergeV_notboth _ _ (by simp at h ⊢; exact h)]
    split
    · next hb => exact (Val.beq_iff d p hd hp).1 hb
    · exact SameV.refl p
  refine Val.indObj (P := fun p => ∀ d, d.Wf → p.Wf → Merged d p (mergeV d p)) ?_ ?_ p
  · intro p hp d hd hpw; exact nb d p hd hpw (by simp [hp])
  · intro pe ih d hd hp
    by_cases h : d.isObj = true
    · cases d <;> simp [isObj] at h
      next de =>
      have ⟨ndp, hpv⟩ := hp.obj_inv
      have ⟨ndd, hdv⟩ := hd.obj_inv
      rw [mergeV_obj]
      have g := aGet_mergeE ndd ndp
      refine .objects _ _ _ (fun k hk => by rw [g, hk]) (fun k hk => by rw [g, hk]; rfl) ?_ ?_
      · intro k v hk hv
        rw [g, hk]
        have : v.isNull = false := by cases hn : v.isNull; rfl; exact absurd ((isNull_iff v).1 hn) hv
        simp [this]
      · intro k v x hk hv hx
        rw [g, hk] at hx
        have : v.isNull = false := by cases hn : v.isNull; rfl; exact absurd ((isNull_iff v).1 hn) hv
        simp only [this, Bool.false_eq_true, if_false, Option.some.injEq] at hx
        subst hx
        refine ih k v (aGet_mem hk) _ ?_ (hpv k v (aGet_mem hk))
        cases hgd : aGet de k with
        | none => exact .null
        | some y => exact hd.get hgd
    · exact nb d _ hd hp (by simp [h])

/-- Merging satisfies the specification for every document and patch, and keeps objects
duplicate-free. -/
theorem C03_merge_spec (d p : Val) (hd : d.Wf) (hp : p.Wf) :
    MergedTop d p (merge d p) ∧ (merge d p).Wf := by
  cases p <;> try exact ⟨rfl, hd⟩
  · exact ⟨rfl, hp⟩
  · exact ⟨mergeV_meets_spec _ d hd hp, mergeV_wf _ _ hd hp⟩

/-- The specification determines the data of the result. -/
theorem C03_spec_determines_result {d p r₁ r₂ : Val} (h₁ : Merged d p r₁) (h₂ : Merged d p r₂) :
    SameV r₁ r₂ := by
  induction h₁ generalizing r₂ with
  | replace d p r hb hs =>
    cases h₂ with
    | replace _ _ _ _ hs' => exact hs.trans hs'.symm
    | objects d p r => simp [isObj] at hb
  | objects d p r hk hn hs hr ih =>
    cases h₂ with
    | replace _ _ _ hb => simp [isObj] at hb
    | objects _ _ r' hk' hn' hs' hr' =>
      refine .obj _ _ (fun k => ?_) (fun k a b ha hb => ?_)
      · cases hp : aGet p k with
        | none => rw [hk k hp, hk' k hp]
        | some v =>
          by_cases hv : v = .null
          · subst hv; rw [hn k hp, hn' k hp]
          · rw [hs k v hp hv, hs' k v hp hv]
      · cases hp : aGet p k with
        | none =>
          rw [hk k hp] at ha; rw [hk' k hp, ha] at hb; cases hb; exact SameV.refl _
        | some v =>
          by_cases hv : v = .null
          · subst hv; rw [hn k hp] at ha; cases ha
          · exact ih k v a hp hv ha (hr' k v b hp hv hb)

/-- The copy-on-write merge returns the same value as the in-place one. -/
theorem C03_merge_clone_agrees (d p : Val) : mergeClone d p = merge d p := by
  cases p <;> simp only [mergeClone, merge]
  exact (mergeC_spec _ d).1

/-- NEGATIVE. Merging the same patch twice is *not* the same as merging it once: a null nested
under a key the document lacked is stored verbatim by the first merge and deleted by the second.
(mod.rs:438-447 stores the patch sub-tree without dropping its nulls.) -/
theorem C03_not_idempotent :
    ∃ d p : Val, d.Wf ∧ p.Wf ∧ ¬ SameV (merge (merge d p) p) (merge d p) := by
  refine ⟨.obj [], .obj [("a", .obj [("b", .null)])], ?_, ?_, ?_⟩
  · exact .obj _ (by decide) (by simp)
  · refine .obj _ (by decide) ?_
    intro k x h; simp at h; obtain ⟨_, rfl⟩ := h
    refine .obj _ (by decide) ?_
    intro k x h; simp at h; obtain ⟨_, rfl⟩ := h; exact .null
  · have e1 : merge (.obj []) (.obj [("a", .obj [("b", .null)])]) = .obj [("a", .obj [("b", .null)])] := by
      simp [merge, mergeV, mergeE, isNull, aSet, aGet, beq]
    have e2 : merge (.obj [("a", .obj [("b", .null)])]) (.obj [("a", .obj [("b", .null)])])
        = .obj [("a", .obj [])] := by
      simp [merge, mergeV, mergeE, isNull, aSet, aGet, aErase, aReplace]
    rw [e1, e2]
    intro h
    cases h with
    | obj _ _ _ h2 =>
      have := h2 "a" _ _ rfl rfl
      cases this with
      | obj _ _ hk _ => exact absurd (hk "b") (by simp [aGet])

/-- What does hold for every document and patch: from the second application on, merging the
patch again changes nothing. -/
theorem C03_idempotent_from_second_partial (d p : Val) (hd : d.Wf) (hp : p.Wf) :
    merge (merge (merge d p) p) p = merge (merge d p) p := by
  cases p <;> try rfl
  exact mergeV_third _ d hd hp

/-- Full idempotence holds when no object nested in the patch's values has a null property
(nulls directly under the top level are fine). -/
theorem C03_idempotent_partial (d : Val) (pe : List (String × Val)) (hd : d.Wf) (hdo : d.isObj = true)
    (hp : (Val.obj pe).Wf)
    (hn : ∀ k v, (k, v) ∈ pe → v.nullFree = true) :
    merge (merge d (.obj pe)) (.obj pe) = merge d (.obj pe) := by
  cases d <;> simp [isObj] at hdo
  next de =>
  have ⟨ndd, hdv⟩ := hd.obj_inv
  have ⟨ndp, hpv⟩ := hp.obj_inv
  simp only [merge, mergeV_obj]
  congr 1
  apply mergeE_stable
  intro k v hkv
  have hg := aGet_of_mem ndp hkv
  split
  · next h => rw [aGet_mergeE ndd ndp, hg]; simp [h]
  · next h =>
    refine ⟨mergeV ((aGet de k).getD .null) v, ?_, mergeV_idem_nullFree v _ ?_ (hpv k v hkv) (hn k v hkv)⟩
    · rw [aGet_mergeE ndd ndp, hg]; simp [h]
    · cases hgd : aGet de k with
      | none => exact .null
      | some y => exact hd.get hgd

/-- hypotheses are met by a non-trivial document and patch -/
example : (Val.obj [("a", .num 1), ("b", .null)]).Wf ∧
    (∀ k v, (k, v) ∈ [("a", Val.obj [("c", .num 2)]), ("b", .null)] → v.nullFree = true) := by
  refine ⟨.obj _ (by decide) ?_, ?_⟩
  · intro k x h; simp at h; rcases h with ⟨_, rfl⟩ | ⟨_, rfl⟩
    · exact .num 1
    · exact .null
  · intro k x h; simp at h; rcases h with ⟨_, rfl⟩ | ⟨_, rfl⟩ <;> rfl

/-- The patch has, at a place where the document has no object, an object with a null property. -/
inductive StoresNull : Val → Val → Prop
  | null {d pe k} : d.isObj = false → aGet pe k = some .null → StoresNull d (.obj pe)
  | inside {d pe k v} : d.isObj = false → aGet pe k = some v → StoresNull .null v → StoresNull d (.obj pe)
  | both {de pe k v} : aGet pe k = some v → StoresNull ((aGet de k).getD .null) v → StoresNull (.obj de) (.obj pe)

theorem not_storesNull_null (d : Val) : ¬ StoresNull d .null := by
  generalize h : Val.null = p
  rintro (_ | _ | _) <;> cases h

theorem mergeV_null (p : Val) : mergeV .null p = p := by
  rw [mergeV_notboth _ _ (by simp [isObj])]
  cases p <;> rfl

theorem mergeV_twice_iff : ∀ (p d : Val), d.Wf → p.Wf → (SameV (mergeV (mergeV d p) p) (mergeV d p) ↔ ¬ StoresNull d p) := by
  intro p
  refine Val.indObj (P := fun p => ∀ d, d.Wf → p.Wf → (SameV (mergeV (mergeV d p) p) (mergeV d p) ↔ ¬ StoresNull d p)) ?_ ?_ p
  · intro p hp d hd hpw
    refine iff_of_true ?_ (by rintro (_ | _ | _) <;> simp [isObj] at hp)
    have h1 : ∀ d, mergeV d p = if d.beq p then d else p := fun d => mergeV_notboth _ _ (by simp [hp])
    have : mergeV (mergeV d p) p = mergeV d p := by
      simp only [h1]
      by_cases hb : d.beq p = true
      · simp [hb]
      · simp only [hb, Bool.false_eq_true, if_false]
        split <;> rfl
    rw [this]; exact SameV.refl _
  · intro pe ih d hd hp
    have ⟨ndp, hpv⟩ := hp.obj_inv
    -- the entries of the two results
    have step : ∀ de : List (String × Val), (aKeys de).Nodup → ∀ re : List (String × Val), (∀ k, aGet re k = match aGet pe k with
        | none => aGet de k
        | some v => if v.isNull then none else some (mergeV ((aGet de k).getD .null) v)) → (aKeys re).Nodup → (∀ k x, aGet de k = some x → x.Wf) →
        (SameV (.obj (mergeE re pe)) (.obj re) ↔ ∀ k v, aGet pe k = some v → ¬ StoresNull ((aGet de k).getD .null) v) := by
      intro de ndd re hre ndr hdw
      have g := aGet_mergeE (de := re) ndr ndp
      have wfk : ∀ k, ((aGet de k).getD .null).Wf := by
        intro k
        cases h : aGet de k with
        | none => exact .null
        | some x => exact hdw k x h
      constructor
      · intro hs k v hk
        by_cases hn : v.isNull = true
        · rw [(isNull_iff v).1 hn]; exact not_storesNull_null _
        · have h1 := hre k
          have h2 := g k
          rw [hk] at h1 h2
          simp only [hn, Bool.false_eq_true, if_false] at h1 h2
          rw [h1] at h2
          cases hs with
          | obj _ _ _ hv =>
            exact (ih k v (aGet_mem hk) _ (wfk k) (hpv k v (aGet_mem hk))).1 (hv k _ _ h2 h1)
      · intro h
        refine .obj _ _ (fun k => ?_) (fun k a b ha hb => ?_)
        · rw [g k]
          have h1 := hre k
          cases hk : aGet pe k with
          | none => rfl
          | some v =>
            rw [hk] at h1
            by_cases hn : v.isNull = true
            · simp only [hn, if_true] at h1 ⊢; rw [h1]
            · simp only [hn, Bool.false_eq_true, if_false] at h1 ⊢; rw [h1]; rfl
        · rw [g k] at ha
          have h1 := hre k
          cases hk : aGet pe k with
          | none =>
            rw [hk] at ha
            simp only at ha
            rw [ha] at hb; cases hb; exact SameV.refl _
          | some v =>
            rw [hk] at h1 ha
            by_cases hn : v.isNull = true
            · simp only [hn, if_true] at ha; cases ha
            · simp only [hn, Bool.false_eq_true, if_false] at h1 ha
              rw [h1] at ha hb
              cases ha; cases hb
              exact (ih k v (aGet_mem hk) _ (wfk k) (hpv k v (aGet_mem hk))).2 (h k v hk)
    by_cases hdo : d.isObj = true
    · cases d <;> simp [isObj] at hdo
      next de =>
      have ⟨ndd, hdv⟩ := hd.obj_inv
      rw [mergeV_obj, mergeV_obj, step de ndd _ (aGet_mergeE ndd ndp) (mergeE_nodup ndd) fun k x h => hd.get h]
      constructor
      · rintro h (⟨h', _⟩ | ⟨h', _⟩ | ⟨hk, hs⟩)
        · simp [isObj] at h'
        · simp [isObj] at h'
        · exact h _ _ hk hs
      · intro h k v hk hs
        exact h (.both hk hs)
    · have hdo : d.isObj = false := by simpa using hdo
      have e : mergeV d (.obj pe) = .obj pe := by
        rw [mergeV_notboth _ _ (by simp [hdo])]
        cases d <;> first | rfl | simp [isObj] at hdo
      rw [e, mergeV_obj]
      by_cases hnull : ∃ k, aGet pe k = some .null
      · obtain ⟨k, hk⟩ := hnull
        refine iff_of_false ?_ (fun h => h (.null hdo hk))
        intro hs
        cases hs with
        | obj _ _ hsome _ =>
          have := hsome k
          rw [aGet_mergeE ndp ndp, hk] at this
          simp [isNull] at this
      · rw [step [] List.nodup_nil pe ?_ ndp (fun k x h => by cases h)]
        · constructor
          · rintro h (⟨_, hk⟩ | ⟨_, hk, hs⟩ | _)
            · exact hnull ⟨_, hk⟩
            · exact h _ _ hk hs
            · simp [isObj] at hdo
          · intro h k v hk hs
            exact h (.inside hdo hk hs)
        · intro k
          cases hk : aGet pe k with
          | none => rfl
          | some v =>
            have hn : v.isNull = false := by
              cases hn : v.isNull
              · rfl
              · exact absurd ⟨k, by rw [hk, (isNull_iff v).1 hn]⟩ hnull
            simp only [hn, Bool.false_eq_true, if_false]
            exact congrArg some (mergeV_null v).symm

/-- Exactly when merging the patch again changes nothing. -/
theorem C03_idempotent_iff (d p : Val) (hd : d.Wf) (hp : p.Wf) : SameV (merge (merge d p) p) (merge d p) ↔ ¬ StoresNull d p := by
  cases p
  case obj pe => exact mergeV_twice_iff (.obj pe) d hd hp
  all_goals exact iff_of_true (SameV.refl _) (by rintro ⟨⟩)

/-- a null beside an object that both have is fine; below a property that only the patch has it is not -/
example : ¬ StoresNull (.obj [("a", .obj [])]) (.obj [("a", .obj [("b", .null)])]) ∧ StoresNull (.obj []) (.obj [("a", .obj [("b", .null)])]) := by
  refine ⟨?_, .both (k := "a") (by rfl) (.null (k := "b") (by rfl) (by rfl))⟩
  rintro (⟨h, _⟩ | ⟨h, _⟩ | ⟨hk, hs⟩)
  · cases h
  · cases h
  · simp only [aGet] at hk
    split at hk
    · cases hk
      rename_i h
      subst h
      rcases hs with ⟨h, _⟩ | ⟨h, _⟩ | ⟨hk, hs⟩
      · cases h
      · cases h
      · simp only [aGet] at hk
        split at hk
        · cases hk; cases hs
        · cases hk
    · cases hk

end Zen
