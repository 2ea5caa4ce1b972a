import Verif.Policy.Paths
import Verif.Props.C04
import Verif.Core.MapLemmas
/-
C37  Which blocks a read of a dotted path asks for. The specification compares lists of segments.
-/
namespace Zen.Policy
open Zen

/-! ## Segments -/

theorem splitDotC_append : ∀ (q r : List Char), splitDotC (q ++ '.' :: r) = splitDotC q ++ splitDotC r
  | [], r => by simp [splitDotC]
  | c :: q, r => by
    rw [List.cons_append, splitDotC, splitDotC, splitDotC_append q r]
    by_cases hc : c = '.'
    · simp [hc]
    · rw [if_neg hc, if_neg hc]
      cases hq : splitDotC q with
      | nil => exact absurd hq (splitDotC_ne_nil q)
      | cons a l => simp

theorem intercalate_append (a b : List (List Char)) (ha : a ≠ []) (hb : b ≠ []) :
    List.intercalate ['.'] (a ++ b) = List.intercalate ['.'] a ++ '.' :: List.intercalate ['.'] b := by
  induction a with
  | nil => exact absurd rfl ha
  | cons x a ih =>
    cases a with
    | nil => cases b with
      | nil => exact absurd rfl hb
      | cons y b => simp [List.intercalate]
    | cons y a =>
      have := ih (by simp)
      simp only [List.cons_append] at this ⊢
      simp only [List.intercalate, List.intersperse_cons_cons, List.flatten_cons] at this ⊢
      rw [this]; simp

/-- a proper prefix of the list of segments is what stands before some dot -/
theorem cut_iff (q p : List Char) : (∃ r, p = q ++ '.' :: r) ↔ ∃ t, t ≠ [] ∧ splitDotC p = splitDotC q ++ t := by
  constructor
  · rintro ⟨r, rfl⟩
    exact ⟨splitDotC r, splitDotC_ne_nil r, splitDotC_append q r⟩
  · rintro ⟨t, ht, h⟩
    refine ⟨List.intercalate ['.'] t, ?_⟩
    have := splitDotC_join p
    rw [h, intercalate_append _ _ (splitDotC_ne_nil q) ht, splitDotC_join] at this
    exact this.symm

theorem splitDotC_inj {p q : List Char} (h : splitDotC p = splitDotC q) : p = q := by
  rw [← splitDotC_join p, h, splitDotC_join]

theorem mem_dotPrefixesC : ∀ (p q : List Char), q ∈ dotPrefixesC p ↔ ∃ r, p = q ++ '.' :: r
  | [], q => by
    constructor
    · intro h; cases h
    · rintro ⟨r, h⟩; cases q <;> cases h
  | c :: p, q => by
    have ih := mem_dotPrefixesC p
    have key : q ∈ (dotPrefixesC p).map (c :: ·) ↔ ∃ q', q = c :: q' ∧ ∃ r, p = q' ++ '.' :: r := by
      simp only [List.mem_map]
      constructor
      · rintro ⟨a, ha, rfl⟩; exact ⟨a, rfl, (ih a).1 ha⟩
      · rintro ⟨a, rfl, h⟩; exact ⟨a, (ih a).2 h, rfl⟩
    have dir : (∃ q', q = c :: q' ∧ ∃ r, p = q' ++ '.' :: r) ↔ ∃ r, q ≠ [] ∧ c :: p = q ++ '.' :: r := by
      constructor
      · rintro ⟨q', rfl, r, rfl⟩; exact ⟨r, by simp, rfl⟩
      · rintro ⟨r, hq, h⟩
        cases q with
        | nil => exact absurd rfl hq
        | cons a q => injection h with h1 h2; subst h1; exact ⟨q, rfl, r, h2⟩
    unfold dotPrefixesC
    by_cases hc : c = '.'
    · subst hc
      rw [if_pos rfl, List.mem_cons, key, dir]
      constructor
      · rintro (rfl | ⟨r, _, h⟩)
        · exact ⟨p, rfl⟩
        · exact ⟨r, h⟩
      · rintro ⟨r, h⟩
        cases q with
        | nil => exact .inl rfl
        | cons a q => exact .inr ⟨r, by simp, h⟩
    · rw [if_neg hc, key, dir]
      constructor
      · rintro ⟨r, _, h⟩; exact ⟨r, h⟩
      · rintro ⟨r, h⟩
        refine ⟨r, ?_, h⟩
        rintro rfl
        injection h with h1; exact hc h1

theorem dotPrefixesC_sorted : ∀ p : List Char, (dotPrefixesC p).Pairwise fun a b => a.length < b.length
  | [] => by simp [dotPrefixesC]
  | c :: p => by
    have ih : ((dotPrefixesC p).map (c :: ·)).Pairwise fun a b => a.length < b.length := by
      rw [List.pairwise_map]
      exact (dotPrefixesC_sorted p).imp (by intro a b h; simpa using h)
    unfold dotPrefixesC
    split
    · refine List.pairwise_cons.2 ⟨?_, ih⟩
      intro a ha
      obtain ⟨b, _, rfl⟩ := List.mem_map.1 ha
      simp
    · exact ih

theorem ofList_inj {a b : List Char} (h : String.ofList a = String.ofList b) : a = b := by
  have := congrArg String.toList h
  simpa using this

/-- Specification: `p` is a prefix of `q`, segment by segment -/
def SegPrefix (p q : String) : Prop := splitDot p <+: splitDot q

theorem segPrefix_iff (p q : String) : SegPrefix p q ↔ splitDotC p.toList <+: splitDotC q.toList := by
  unfold SegPrefix splitDot
  constructor
  · rintro ⟨t, h⟩
    obtain ⟨a, b, hab, ha, _⟩ := List.map_eq_append_iff.1 h.symm
    have : a = splitDotC p.toList := by
      have := congrArg (List.map String.toList) ha
      simpa [List.map_map, Function.comp_def] using this
    exact ⟨b, by rw [← this, hab]⟩
  · rintro ⟨t, h⟩
    exact ⟨t.map String.ofList, by rw [← List.map_append, h]⟩

theorem segPrefix_cases (p q : String) : SegPrefix p q ↔ p = q ∨ p ∈ dotPrefixes q := by
  rw [segPrefix_iff]
  have hm : p ∈ dotPrefixes q ↔ p.toList ∈ dotPrefixesC q.toList := by
    unfold dotPrefixes
    rw [List.mem_map]
    constructor
    · rintro ⟨a, ha, rfl⟩; simpa using ha
    · intro h; exact ⟨_, h, by simp⟩
  rw [hm, mem_dotPrefixesC, cut_iff]
  constructor
  · rintro ⟨t, h⟩
    by_cases ht : t = []
    · subst ht
      rw [List.append_nil] at h
      exact .inl (String.toList_injective (splitDotC_inj h))
    · exact .inr ⟨t, ht, h.symm⟩
  · rintro (rfl | ⟨t, _, h⟩)
    · exact List.prefix_rfl
    · exact ⟨t, h.symm⟩

/-- Path extension is the prefix order on segments: `a.bc` does not extend `a.b`. -/
theorem C37_extends (p q : String) : extends_ p q = true ↔ SegPrefix p q := by
  rw [segPrefix_iff]
  unfold extends_
  simp only [Bool.or_eq_true, Bool.and_eq_true, beq_iff_eq, decide_eq_true_eq]
  have hp : (p.toList.isPrefixOf q.toList = true ∧ q.toList[p.toList.length]? = some '.') ↔ ∃ r, q.toList = p.toList ++ '.' :: r := by
    rw [List.isPrefixOf_iff_prefix]
    constructor
    · rintro ⟨⟨t, ht⟩, h⟩
      rw [← ht] at h
      rw [List.getElem?_append_right (Nat.le_refl _), Nat.sub_self] at h
      cases t with
      | nil => cases h
      | cons c t => simp at h; subst h; exact ⟨t, ht.symm⟩
    · rintro ⟨r, h⟩
      rw [h]
      exact ⟨List.prefix_append _ _, by simp⟩
  constructor
  · rintro (rfl | ⟨⟨_, h1⟩, h2⟩)
    · exact List.prefix_rfl
    · obtain ⟨t, _, h⟩ := (cut_iff _ _).1 (hp.1 ⟨h1, h2⟩)
      exact ⟨t, h.symm⟩
  · rintro ⟨t, h⟩
    by_cases ht : t = []
    · subst ht
      rw [List.append_nil] at h
      exact .inl (String.toList_injective (splitDotC_inj h))
    · obtain ⟨r, hr⟩ := (cut_iff _ _).2 ⟨t, ht, h.symm⟩
      exact .inr ⟨⟨by rw [hr]; simp, (hp.2 ⟨r, hr⟩).1⟩, (hp.2 ⟨r, hr⟩).2⟩

example : extends_ "a.b" "a.bc" = false ∧ extends_ "a.b" "a.b.c" = true ∧ extends_ "a" "a" = true := by decide +kernel

/-! ## The blocks asked for -/

/-- Specification: the blocks that write the path or something below it -/
def Owners (writers : List (String × BlockRef)) (t : String) (b : BlockRef) : Prop :=
  ∃ q, (q, b) ∈ writers ∧ SegPrefix t q

theorem dwf_push (out : List (String × List BlockRef)) (t : String) (o : BlockRef) (t' : String) :
    demandWritersFor (pushOwner out t o) t' =
      if t' = t ∧ o ∉ demandWritersFor out t then demandWritersFor out t' ++ [o] else demandWritersFor out t' := by
  unfold demandWritersFor pushOwner
  rw [aGet_aSet]
  by_cases h : t' = t
  · subst h
    by_cases ho : o ∈ (aGet out t').getD [] <;> simp [ho]
  · simp [h]

theorem dwf_pushes (ts : List String) (o : BlockRef) (t' : String) : ∀ out : List (String × List BlockRef),
    (∀ b, b ∈ demandWritersFor (ts.foldl (fun out t => pushOwner out t o) out) t' ↔ b ∈ demandWritersFor out t' ∨ (b = o ∧ t' ∈ ts)) ∧
    ((demandWritersFor out t').Nodup → (demandWritersFor (ts.foldl (fun out t => pushOwner out t o) out) t').Nodup) := by
  induction ts with
  | nil => intro out; simp
  | cons t ts ih =>
    intro out
    rw [List.foldl_cons]
    obtain ⟨h1, h2⟩ := ih (pushOwner out t o)
    refine ⟨fun b => ?_, fun hn => h2 ?_⟩
    · rw [h1, dwf_push]
      by_cases ht : t' = t
      · subst ht
        by_cases ho : o ∈ demandWritersFor out t'
        · simp only [ho, not_true_eq_false, and_false, if_false, List.mem_cons, true_or, and_true]
          constructor
          · rintro (h | ⟨rfl, _⟩)
            · exact .inl h
            · exact .inr rfl
          · rintro (h | rfl)
            · exact .inl h
            · exact .inl ho
        · simp only [ho, not_false_eq_true, and_self, if_true, List.mem_append, List.mem_cons, List.not_mem_nil, or_false, true_or, and_true]
          constructor
          · rintro ((h | h) | h)
            · exact .inl h
            · exact .inr h
            · exact .inr h.1
          · rintro (h | h)
            · exact .inl (.inl h)
            · exact .inl (.inr h)
      · simp [ht]
    · rw [dwf_push]
      split
      · next h =>
        rw [h.1] at hn ⊢
        rw [List.nodup_append]
        exact ⟨hn, by simp, by intro a ha b hb; rw [List.mem_singleton.1 hb]; rintro rfl; exact h.2 ha⟩
      · exact hn

theorem dwf_collect (writers : List (String × BlockRef)) (t : String) : ∀ (l : List (String × BlockRef)) (out : List (String × List BlockRef)),
    (∀ b, b ∈ demandWritersFor (l.foldl (fun out e => (demandTargets writers e.1).foldl (fun out t => pushOwner out t e.2) out) out) t ↔
      b ∈ demandWritersFor out t ∨ ∃ q, (q, b) ∈ l ∧ t ∈ demandTargets writers q) ∧
    ((demandWritersFor out t).Nodup →
      (demandWritersFor (l.foldl (fun out e => (demandTargets writers e.1).foldl (fun out t => pushOwner out t e.2) out) out) t).Nodup) := by
  intro l
  induction l with
  | nil => intro out; simp
  | cons e l ih =>
    intro out
    rw [List.foldl_cons]
    obtain ⟨h1, h2⟩ := ih ((demandTargets writers e.1).foldl (fun out t => pushOwner out t e.2) out)
    obtain ⟨h3, h4⟩ := dwf_pushes (demandTargets writers e.1) e.2 t out
    refine ⟨fun b => ?_, fun hn => h2 (h4 hn)⟩
    rw [h1, h3]
    constructor
    · rintro ((h | ⟨rfl, h⟩) | ⟨q, hq, h⟩)
      · exact .inl h
      · exact .inr ⟨e.1, by simp, h⟩
      · exact .inr ⟨q, by simp [hq], h⟩
    · rintro (h | ⟨q, hq, h⟩)
      · exact .inl (.inl h)
      · rcases List.mem_cons.1 hq with rfl | hq
        · exact .inl (.inr ⟨rfl, h⟩)
        · exact .inr ⟨q, hq, h⟩

/-- Asking for a written path asks for the blocks that write it or something below it, each once; asking for
a path nobody writes asks for none. -/
theorem C37_demand (writers : List (String × BlockRef)) (t : String) :
    (∀ b, b ∈ demandWritersFor (collectDemandWriters writers) t ↔ t ∈ aKeys writers ∧ Owners writers t b) ∧
    (demandWritersFor (collectDemandWriters writers) t).Nodup := by
  have hp := sortBy_perm (fun a b => decide (a.1 ≤ b.1)) writers
  obtain ⟨h1, h2⟩ := dwf_collect writers t (sortBy (fun a b => decide (a.1 ≤ b.1)) writers) []
  refine ⟨fun b => ?_, h2 (by simp [demandWritersFor])⟩
  unfold collectDemandWriters
  rw [h1]
  have h0 : ¬ b ∈ demandWritersFor ([] : List (String × List BlockRef)) t := by simp [demandWritersFor]
  simp only [h0, false_or, hp.mem_iff]
  unfold Owners demandTargets
  constructor
  · rintro ⟨q, hq, ht⟩
    rcases List.mem_cons.1 ht with rfl | ht
    · exact ⟨List.mem_map.2 ⟨_, hq, rfl⟩, t, hq, List.prefix_rfl⟩
    · obtain ⟨ha, hb⟩ := List.mem_filter.1 ht
      exact ⟨(aGet_isSome_iff _ _).1 hb, q, hq, (segPrefix_cases _ _).2 (.inr ha)⟩
  · rintro ⟨hk, q, hq, hs⟩
    refine ⟨q, hq, ?_⟩
    rcases (segPrefix_cases _ _).1 hs with rfl | h
    · exact List.mem_cons_self
    · exact List.mem_cons_of_mem _ (List.mem_filter.2 ⟨h, (aGet_isSome_iff _ _).2 hk⟩)

/-- A read is served by the longest prefix of its path (segment by segment) that is written: the blocks asked
for are those that write that prefix or something below it. Nobody is asked when no prefix is written. -/
theorem C37_longest_prefix (writers : List (String × BlockRef)) (p : String) :
    (∃ t, t ∈ aKeys writers ∧ SegPrefix t p ∧ (∀ t', t' ∈ aKeys writers → SegPrefix t' p → SegPrefix t' t) ∧
      (writersOfLongestPrefix (collectDemandWriters writers) p).Nodup ∧
      ∀ b, b ∈ writersOfLongestPrefix (collectDemandWriters writers) p ↔ Owners writers t b) ∨
    ((∀ t, t ∈ aKeys writers → ¬ SegPrefix t p) ∧ writersOfLongestPrefix (collectDemandWriters writers) p = []) := by
  have hne : ∀ t, demandWritersFor (collectDemandWriters writers) t ≠ [] ↔ t ∈ aKeys writers := by
    intro t
    constructor
    · intro h
      obtain ⟨b, hb⟩ := List.exists_mem_of_ne_nil _ h
      exact (((C37_demand writers t).1 b).1 hb).1
    · intro h hnil
      obtain ⟨e, he, rfl⟩ := List.mem_map.1 h
      have := ((C37_demand writers e.1).1 e.2).2 ⟨h, e.1, he, List.prefix_rfl⟩
      rw [hnil] at this; cases this
  have hemp : ∀ t, (demandWritersFor (collectDemandWriters writers) t).isEmpty = true ↔ t ∉ aKeys writers := by
    intro t
    rw [List.isEmpty_iff, ← hne t]
    constructor
    · intro h hh; exact hh h
    · intro h; exact Classical.byContradiction h
  have fin : ∀ t, t ∈ aKeys writers → ∀ b, b ∈ demandWritersFor (collectDemandWriters writers) t ↔ Owners writers t b := by
    intro t ht b
    rw [(C37_demand writers t).1 b]
    exact ⟨fun h => h.2, fun h => ⟨ht, h⟩⟩
  by_cases hp : p ∈ aKeys writers
  · refine .inl ⟨p, hp, List.prefix_rfl, fun t' _ h => h, ?_⟩
    have : writersOfLongestPrefix (collectDemandWriters writers) p = demandWritersFor (collectDemandWriters writers) p := by
      unfold writersOfLongestPrefix
      rw [if_neg]
      rw [hemp]; exact fun h => h hp
    rw [this]
    exact ⟨(C37_demand writers p).2, fin p hp⟩
  · have hw : writersOfLongestPrefix (collectDemandWriters writers) p =
        (((dotPrefixes p).reverse.find? fun t => !(demandWritersFor (collectDemandWriters writers) t).isEmpty).map
          (demandWritersFor (collectDemandWriters writers))).getD [] := by
      unfold writersOfLongestPrefix
      rw [if_pos ((hemp p).2 hp)]
    rw [hw]
    cases hf : (dotPrefixes p).reverse.find? fun t => !(demandWritersFor (collectDemandWriters writers) t).isEmpty with
    | none =>
      refine .inr ⟨fun t ht hs => ?_, rfl⟩
      rcases (segPrefix_cases _ _).1 hs with rfl | h
      · exact hp ht
      · have := List.find?_eq_none.1 hf t (by simpa using h)
        simp only [Bool.not_eq_true', Bool.not_eq_false] at this
        exact (hemp t).1 this ht
    | some t =>
      obtain ⟨hb, as, bs, hsp, hnone⟩ := List.find?_eq_some_iff_append.1 hf
      have htk : t ∈ aKeys writers := by
        apply Classical.byContradiction
        intro h
        rw [(hemp t).2 h] at hb; cases hb
      have htm : t ∈ dotPrefixes p := by
        have : t ∈ (dotPrefixes p).reverse := by rw [hsp]; simp
        simpa using this
      refine .inl ⟨t, htk, (segPrefix_cases _ _).2 (.inr htm), fun t' hk hs => ?_, (C37_demand writers t).2, fin t htk⟩
      rcases (segPrefix_cases _ _).1 hs with rfl | hm
      · exact absurd hk hp
      · -- both are prefixes of `p`, `t'` is not longer
        have hm' : t' ∈ as ++ t :: bs := by rw [← hsp]; simpa using hm
        have hlen : t'.toList.length ≤ t.toList.length := by
          rcases List.mem_append.1 hm' with h | h
          · have := hnone t' h
            simp only [Bool.not_not, ] at this
            exact absurd hk ((hemp t').1 this)
          · rcases List.mem_cons.1 h with rfl | h
            · exact Nat.le_refl _
            · have hso : ((dotPrefixes p).reverse).Pairwise fun a b => b.toList.length < a.toList.length := by
                rw [List.pairwise_reverse]
                unfold dotPrefixes
                rw [List.pairwise_map]
                exact (dotPrefixesC_sorted p.toList).imp (by intro a b h; simpa using h)
              rw [hsp] at hso
              have := (List.pairwise_append.1 hso).2.1
              exact Nat.le_of_lt ((List.pairwise_cons.1 this).1 t' h)
        have c1 := (segPrefix_cases _ _).2 (.inr htm)
        rcases (List.prefix_or_prefix_of_prefix hs c1) with h | h
        · exact h
        · rcases (segPrefix_cases t t').1 h with rfl | h
          · exact List.prefix_rfl
          · exfalso
            unfold dotPrefixes at h
            obtain ⟨a, ha, rfl⟩ := List.mem_map.1 h
            obtain ⟨r, hr⟩ := (mem_dotPrefixesC _ _).1 ha
            rw [hr] at hlen
            simp at hlen
            omega

/-! ## The table of writers -/

theorem mem_aKeys {V : Type} {l : List (String × V)} {k : String} {v : V} (h : (k, v) ∈ l) : k ∈ aKeys l :=
  List.mem_map.2 ⟨_, h, rfl⟩

theorem addWriter_spec (ws : List (String × BlockRef)) (p : String) (o : BlockRef) :
    (∀ e ∈ ws, e ∈ addWriter ws p o) ∧ (∀ e ∈ addWriter ws p o, e ∈ ws ∨ e = (p, o)) ∧ p ∈ aKeys (addWriter ws p o) ∧
    ((aKeys ws).Nodup → (aKeys (addWriter ws p o)).Nodup) := by
  unfold addWriter
  split
  · next h => exact ⟨fun e he => he, fun e he => .inl he, (aGet_isSome_iff _ _).1 h, fun h => h⟩
  · next h =>
    refine ⟨fun e he => by simp [he], fun e he => by simpa using he, by simp, fun hn => ?_⟩
    rw [aKeys_append, List.nodup_append]
    refine ⟨hn, by simp, ?_⟩
    intro a ha b hb
    simp at hb
    rintro rfl
    exact h ((aGet_isSome_iff _ _).2 (hb ▸ ha))

/-- the paths one write contributes: itself and its prefixes, where the data model has nothing to say -/
def Contributes (model : String → Bool) (w p : String) : Prop := model w = false ∧ model p = false ∧ SegPrefix p w

theorem addPrefixes_spec (model : String → Bool) (o : BlockRef) : ∀ (ps : List String) (ws : List (String × BlockRef)),
    (∀ e ∈ ws, e ∈ ps.foldl (fun ws p => if model p then ws else addWriter ws p o) ws) ∧
    (∀ e ∈ ps.foldl (fun ws p => if model p then ws else addWriter ws p o) ws, e ∈ ws ∨ (e.2 = o ∧ e.1 ∈ ps ∧ model e.1 = false)) ∧
    (∀ p ∈ ps, model p = false → p ∈ aKeys (ps.foldl (fun ws p => if model p then ws else addWriter ws p o) ws)) ∧
    ((aKeys ws).Nodup → (aKeys (ps.foldl (fun ws p => if model p then ws else addWriter ws p o) ws)).Nodup)
  | [], ws => by simp
  | p :: ps, ws => by
    rw [List.foldl_cons]
    by_cases hm : model p = true
    · rw [if_pos hm]
      obtain ⟨h1, h2, h3, h4⟩ := addPrefixes_spec model o ps ws
      refine ⟨h1, fun e he => ?_, fun q hq hf => ?_, h4⟩
      · rcases h2 e he with h | ⟨a, b, c⟩
        · exact .inl h
        · exact .inr ⟨a, List.mem_cons_of_mem _ b, c⟩
      · rcases List.mem_cons.1 hq with rfl | hq
        · rw [hm] at hf; cases hf
        · exact h3 q hq hf
    · rw [if_neg hm]
      obtain ⟨a1, a2, a3, a4⟩ := addWriter_spec ws p o
      obtain ⟨h1, h2, h3, h4⟩ := addPrefixes_spec model o ps (addWriter ws p o)
      refine ⟨fun e he => h1 e (a1 e he), fun e he => ?_, fun q hq hf => ?_, fun hn => h4 (a4 hn)⟩
      · rcases h2 e he with h | ⟨a, b, c⟩
        · rcases a2 e h with h | rfl
          · exact .inl h
          · exact .inr ⟨rfl, by simp, by simpa using hm⟩
        · exact .inr ⟨a, List.mem_cons_of_mem _ b, c⟩
      · rcases List.mem_cons.1 hq with rfl | hq
        · obtain ⟨e, he, hk⟩ := List.mem_map.1 a3
          exact List.mem_map.2 ⟨e, h1 e he, hk⟩
        · exact h3 q hq hf

theorem addWrite_spec (model : String → Bool) (ws : List (String × BlockRef)) (o : BlockRef) (w : String) :
    (∀ e ∈ ws, e ∈ addWrite model ws o w) ∧ (∀ e ∈ addWrite model ws o w, e ∈ ws ∨ (e.2 = o ∧ Contributes model w e.1)) ∧
    (∀ p, Contributes model w p → p ∈ aKeys (addWrite model ws o w)) ∧ ((aKeys ws).Nodup → (aKeys (addWrite model ws o w)).Nodup) := by
  unfold addWrite
  by_cases hm : model w = true
  · rw [if_pos hm]
    refine ⟨fun e he => he, fun e he => .inl he, fun p hp => ?_, fun h => h⟩
    have := hp.1; rw [hm] at this; cases this
  · rw [if_neg hm]
    have hm' : model w = false := by simpa using hm
    obtain ⟨a1, a2, a3, a4⟩ := addWriter_spec ws w o
    obtain ⟨h1, h2, h3, h4⟩ := addPrefixes_spec model o (dotPrefixes w) (addWriter ws w o)
    refine ⟨fun e he => h1 e (a1 e he), fun e he => ?_, fun p hp => ?_, fun hn => h4 (a4 hn)⟩
    · rcases h2 e he with h | ⟨a, b, c⟩
      · rcases a2 e h with h | rfl
        · exact .inl h
        · exact .inr ⟨rfl, hm', hm', List.prefix_rfl⟩
      · exact .inr ⟨a, hm', c, (segPrefix_cases _ _).2 (.inr b)⟩
    · rcases (segPrefix_cases _ _).1 hp.2.2 with rfl | h
      · obtain ⟨e, he, hk⟩ := List.mem_map.1 a3
        exact List.mem_map.2 ⟨e, h1 e he, hk⟩
      · exact h3 p h hp.2.1

theorem addWrites_spec (model : String → Bool) (o : BlockRef) : ∀ (wr : List String) (ws : List (String × BlockRef)),
    (∀ e ∈ ws, e ∈ wr.foldl (fun ws p => addWrite model ws o p) ws) ∧
    (∀ e ∈ wr.foldl (fun ws p => addWrite model ws o p) ws, e ∈ ws ∨ (e.2 = o ∧ ∃ w ∈ wr, Contributes model w e.1)) ∧
    (∀ p, (∃ w ∈ wr, Contributes model w p) → p ∈ aKeys (wr.foldl (fun ws p => addWrite model ws o p) ws)) ∧
    ((aKeys ws).Nodup → (aKeys (wr.foldl (fun ws p => addWrite model ws o p) ws)).Nodup)
  | [], ws => by simp
  | w :: wr, ws => by
    rw [List.foldl_cons]
    obtain ⟨a1, a2, a3, a4⟩ := addWrite_spec model ws o w
    obtain ⟨h1, h2, h3, h4⟩ := addWrites_spec model o wr (addWrite model ws o w)
    refine ⟨fun e he => h1 e (a1 e he), fun e he => ?_, fun p hp => ?_, fun hn => h4 (a4 hn)⟩
    · rcases h2 e he with h | ⟨a, v, hv, hc⟩
      · rcases a2 e h with h | ⟨h, hc⟩
        · exact .inl h
        · exact .inr ⟨h, w, by simp, hc⟩
      · exact .inr ⟨a, v, by simp [hv], hc⟩
    · obtain ⟨v, hv, hc⟩ := hp
      rcases List.mem_cons.1 hv with rfl | hv
      · obtain ⟨e, he, hk⟩ := List.mem_map.1 (a3 p hc)
        exact List.mem_map.2 ⟨e, h1 e he, hk⟩
      · exact h3 p ⟨v, hv, hc⟩

theorem addRules_spec (model : String → Bool) : ∀ (rules : List RuleWrites) (ws : List (String × BlockRef)),
    let out := rules.foldl (fun ws r => r.writes.foldl (fun ws p => addWrite model ws r.ref p) ws) ws
    (∀ e ∈ ws, e ∈ out) ∧ (∀ e ∈ out, e ∈ ws ∨ ∃ r ∈ rules, e.2 = r.ref ∧ ∃ w ∈ r.writes, Contributes model w e.1) ∧
    (∀ p, (∃ r ∈ rules, ∃ w ∈ r.writes, Contributes model w p) → p ∈ aKeys out) ∧ ((aKeys ws).Nodup → (aKeys out).Nodup)
  | [], ws => by simp
  | r :: rules, ws => by
    dsimp only
    rw [List.foldl_cons]
    obtain ⟨a1, a2, a3, a4⟩ := addWrites_spec model r.ref r.writes ws
    obtain ⟨h1, h2, h3, h4⟩ := addRules_spec model rules (r.writes.foldl (fun ws p => addWrite model ws r.ref p) ws)
    refine ⟨fun e he => h1 e (a1 e he), fun e he => ?_, fun p hp => ?_, fun hn => h4 (a4 hn)⟩
    · rcases h2 e he with h | ⟨r', hr, hc⟩
      · rcases a2 e h with h | ⟨h, hc⟩
        · exact .inl h
        · exact .inr ⟨r, by simp, h, hc⟩
      · exact .inr ⟨r', by simp [hr], hc⟩
    · obtain ⟨r', hr, hc⟩ := hp
      rcases List.mem_cons.1 hr with rfl | hr
      · obtain ⟨e, he, hk⟩ := List.mem_map.1 (a3 p hc)
        exact List.mem_map.2 ⟨e, h1 e he, hk⟩
      · exact h3 p ⟨r', hr, hc⟩

/-- The table of writers has exactly the written paths and their prefixes, where the data model does not
claim the path, each with one block, and that block writes the path or something below it. -/
theorem C37_table (model : String → Bool) (rules : List RuleWrites) :
    (aKeys (computeWriters model rules)).Nodup ∧
    (∀ p, p ∈ aKeys (computeWriters model rules) ↔ ∃ r ∈ rules, ∃ w ∈ r.writes, Contributes model w p) ∧
    (∀ p b, (p, b) ∈ computeWriters model rules → ∃ r ∈ rules, b = r.ref ∧ ∃ w ∈ r.writes, Contributes model w p) := by
  obtain ⟨_, h2, h3, h4⟩ := addRules_spec model rules []
  have hc : ∀ p b, (p, b) ∈ computeWriters model rules → ∃ r ∈ rules, b = r.ref ∧ ∃ w ∈ r.writes, Contributes model w p := by
    intro p b h
    rcases h2 (p, b) h with h | h
    · cases h
    · exact h
  refine ⟨h4 (by simp), fun p => ⟨fun h => ?_, h3 p⟩, hc⟩
  obtain ⟨e, he, rfl⟩ := List.mem_map.1 h
  obtain ⟨r, hr, _, hw⟩ := hc e.1 e.2 he
  exact ⟨r, hr, hw⟩

/-- Specification: the write paths of the rules: no two of them overlap (one is not a prefix of the other,
segment by segment), as the analysis demands (`DuplicateWriter`, `PartialObjectWrite`,
diagnostics.rs:199-296). -/
def Apart (rules : List RuleWrites) : Prop :=
  ∀ r ∈ rules, ∀ r' ∈ rules, ∀ w ∈ r.writes, ∀ w' ∈ r'.writes, SegPrefix w w' → r.ref = r'.ref

theorem segPrefix_trans {a b c : String} (h : SegPrefix a b) (h' : SegPrefix b c) : SegPrefix a c := h.trans h'

/-- When write paths of different blocks do not overlap, a read asks for every block that writes a prefix of
the path read, the path itself, or something below it (outside the data model). -/
theorem C37_read_served (model : String → Bool) (rules : List RuleWrites) (ha : Apart rules) (p : String) (hp : model p = false)
    (r : RuleWrites) (hr : r ∈ rules) (w : String) (hw : w ∈ r.writes) (hm : model w = false) (h : SegPrefix w p ∨ SegPrefix p w) :
    r.ref ∈ writersOfLongestPrefix (collectDemandWriters (computeWriters model rules)) p := by
  obtain ⟨hn, hk, hc⟩ := C37_table model rules
  -- the owner of a path at or below `w` is `r`
  have own : ∀ q, q ∈ aKeys (computeWriters model rules) → SegPrefix w q → (q, r.ref) ∈ computeWriters model rules := by
    intro q hq hs
    obtain ⟨⟨q', b⟩, he, rfl⟩ := List.mem_map.1 hq
    obtain ⟨r', hr', rfl, w', hw', hcon⟩ := hc q' b he
    rw [ha r hr r' hr' w hw w' hw' (segPrefix_trans hs hcon.2.2)]
    exact he
  have wk : w ∈ aKeys (computeWriters model rules) := (hk w).2 ⟨r, hr, w, hw, hm, hm, List.prefix_rfl⟩
  rcases C37_longest_prefix (computeWriters model rules) p with ⟨t, htk, htp, hmax, _, hiff⟩ | ⟨hno, _⟩
  · rw [hiff]
    rcases h with h | h
    · exact ⟨t, own t htk (hmax w wk h), List.prefix_rfl⟩
    · exact ⟨w, own w wk List.prefix_rfl, segPrefix_trans htp h⟩
  · exfalso
    rcases h with h | h
    · exact hno w wk h
    · exact hno p ((hk p).2 ⟨r, hr, w, hw, hm, hp, h⟩) List.prefix_rfl

/-- A read of a path that is written, or below which something is written, asks for nobody else. -/
theorem C37_read_precise (model : String → Bool) (rules : List RuleWrites) (p : String) (hp : model p = false)
    (hw : ∃ r ∈ rules, ∃ w ∈ r.writes, model w = false ∧ SegPrefix p w) (b : BlockRef)
    (hb : b ∈ writersOfLongestPrefix (collectDemandWriters (computeWriters model rules)) p) :
    ∃ r ∈ rules, b = r.ref ∧ ∃ w ∈ r.writes, model w = false ∧ SegPrefix p w := by
  obtain ⟨hn, hk, hc⟩ := C37_table model rules
  obtain ⟨r, hr, w, hw, hm, hs⟩ := hw
  have pk : p ∈ aKeys (computeWriters model rules) := (hk p).2 ⟨r, hr, w, hw, hm, hp, hs⟩
  rcases C37_longest_prefix (computeWriters model rules) p with ⟨t, htk, htp, hmax, _, hiff⟩ | ⟨hno, _⟩
  · obtain ⟨q, hq, hs⟩ := (hiff b).1 hb
    obtain ⟨r', hr', rfl, w', hw', hcon⟩ := hc q b hq
    exact ⟨r', hr', rfl, w', hw', hcon.1, segPrefix_trans (segPrefix_trans (hmax p pk List.prefix_rfl) hs) hcon.2.2⟩
  · exact absurd List.prefix_rfl (hno p pk)

/-- what the data model claims: a declared path, what is above it and what is below it -/
theorem C37_model_paths (all : List String) (p : String) : matchesModel all p = true ↔ ∃ q ∈ all, SegPrefix q p ∨ SegPrefix p q := by
  unfold matchesModel
  rw [Bool.or_eq_true, List.any_eq_true, List.contains_iff_mem]
  constructor
  · rintro (h | ⟨q, hq, h⟩)
    · exact ⟨p, h, .inl List.prefix_rfl⟩
    · rw [Bool.or_eq_true, C37_extends, C37_extends] at h
      exact ⟨q, hq, h⟩
  · rintro ⟨q, hq, h⟩
    refine .inr ⟨q, hq, ?_⟩
    rw [Bool.or_eq_true, C37_extends, C37_extends]
    exact h

/-! ## Instances -/

def r1 : RuleWrites := ⟨⟨"p", "b1"⟩, ["a.b", "a.bc"]⟩
def r2 : RuleWrites := ⟨⟨"p", "b2"⟩, ["c.d.e"]⟩

instance (p q : String) : Decidable (SegPrefix p q) := inferInstanceAs (Decidable (splitDot p <+: splitDot q))

example : Apart [r1, r2] := by
  intro r hr r' hr' w hw w' hw' h
  simp only [List.mem_cons, List.not_mem_nil, or_false] at hr hr'
  rcases hr with rfl | rfl <;> rcases hr' with rfl | rfl
  · rfl
  · simp only [r1, r2, List.mem_cons, List.not_mem_nil, or_false] at hw hw'
    rcases hw with rfl | rfl <;> subst hw' <;> exact absurd h (by decide +kernel)
  · simp only [r1, r2, List.mem_cons, List.not_mem_nil, or_false] at hw hw'
    rcases hw' with rfl | rfl <;> subst hw <;> exact absurd h (by decide +kernel)
  · rfl

example : aKeys (computeWriters (matchesModel ["x.y"]) [r1, r2]) = ["a.b", "a", "a.bc", "c.d.e", "c", "c.d"] := by decide +kernel

example : SegPrefix "c.d" "c.d.e" ∧ ¬ SegPrefix "a.b" "a.bc" := by decide +kernel

/-! ## Findings -/

/-- NEGATIVE: reading a path nobody writes asks for the blocks that write its siblings: with only `a.b` and
`a.bc` written, reading `a.x` runs the block that writes them. -/
theorem C37_sibling : ∃ (rules : List RuleWrites) (p : String) (b : BlockRef), Apart rules ∧
    b ∈ writersOfLongestPrefix (collectDemandWriters (computeWriters (fun _ => false) rules)) p ∧
    ¬ ∃ r ∈ rules, ∃ w ∈ r.writes, SegPrefix w p ∨ SegPrefix p w := by
  refine ⟨[r1], "a.x", ⟨"p", "b1"⟩, ?_, ?_, ?_⟩
  · intro r hr r' hr' _ _ _ _ _
    rw [List.mem_singleton.1 hr, List.mem_singleton.1 hr']
  · rcases C37_longest_prefix (computeWriters (fun _ => false) [r1]) "a.x" with ⟨t, htk, htp, hmax, _, hiff⟩ | ⟨hno, _⟩
    · rw [hiff]
      have e : computeWriters (fun _ => false) [r1] = [("a.b", ⟨"p", "b1"⟩), ("a", ⟨"p", "b1"⟩), ("a.bc", ⟨"p", "b1"⟩)] := by decide +kernel
      rw [e] at htk ⊢
      simp only [aKeys, List.map_cons, List.map_nil, List.mem_cons, List.not_mem_nil, or_false] at htk
      rcases htk with rfl | rfl | rfl
      · exact absurd htp (by decide +kernel)
      · exact ⟨"a", by simp, List.prefix_rfl⟩
      · exact absurd htp (by decide +kernel)
    · exact absurd (by decide +kernel) (hno "a" (by decide +kernel))
  · rintro ⟨r, hr, w, hw, h⟩
    rw [List.mem_singleton.1 hr] at hw
    simp only [r1, List.mem_cons, List.not_mem_nil, or_false] at hw
    rcases hw with rfl | rfl <;> exact absurd h (by decide +kernel)

end Zen.Policy
