import Verif.Policy.Imports
import Mathlib.Logic.Relation
import Mathlib.Data.List.Nodup
/-
C45  Components of the workspace.
-/
namespace Zen.Policy
open Zen

/-! ## Specification -/

/-- `a` imports `b`, and both are policies of the workspace -/
def ImportsP (P : List (String × List String)) (a b : String) : Prop :=
  ∃ l, (a, l) ∈ P ∧ b ∈ l ∧ b ∈ P.map Prod.fst

/-- connected by imports, in either direction -/
def Connected (P : List (String × List String)) : String → String → Prop := Relation.EqvGen (ImportsP P)

/-! ## Neighbours -/

theorem mem_importEdges {P : List (String × List String)} {a b : String} : (a, b) ∈ importEdges P ↔ ImportsP P a b := by
  unfold importEdges ImportsP
  simp only [List.mem_flatMap, List.mem_map, List.mem_filter, aKeys, List.contains_iff_mem]
  constructor
  · rintro ⟨e, he, i, ⟨h1, h2⟩, h⟩
    injection h with ha hb
    subst ha; subst hb
    exact ⟨e.2, he, h1, by simpa [List.mem_map] using h2⟩
  · rintro ⟨l, h1, h2, h3⟩
    exact ⟨(a, l), h1, b, ⟨h2, by simpa [List.mem_map] using h3⟩, rfl⟩

theorem mem_importNbrs {P : List (String × List String)} {a b : String} : b ∈ importNbrs P a ↔ ImportsP P a b ∨ ImportsP P b a := by
  unfold importNbrs
  simp only [List.mem_append, List.mem_map, List.mem_filter, beq_iff_eq, ← mem_importEdges]
  constructor
  · rintro (⟨⟨x, y⟩, ⟨h1, h2⟩, h3⟩ | ⟨⟨x, y⟩, ⟨h1, h2⟩, h3⟩)
    · dsimp only at h2 h3; subst h2; subst h3; exact .inl h1
    · dsimp only at h2 h3; subst h2; subst h3; exact .inr h1
  · rintro (h | h)
    · exact .inl ⟨(a, b), ⟨h, rfl⟩, rfl⟩
    · exact .inr ⟨(b, a), ⟨h, rfl⟩, rfl⟩

/-! ## One component -/

section
variable (nbrs : String → List String)

abbrev Path : String → String → Prop := Relation.ReflTransGen fun a b => b ∈ nbrs a

theorem componentFrom_spec : ∀ n stack seen ms seen' ms', componentFrom nbrs n stack seen ms = some (seen', ms') →
    ∃ N, ms' = ms ++ N ∧ N.Nodup ∧ (∀ x ∈ N, x ∉ seen) ∧ (∀ x, x ∈ seen' ↔ x ∈ seen ∨ x ∈ N) ∧ (∀ x ∈ stack, x ∈ seen') ∧
      (∀ x ∈ N, ∃ s ∈ stack, Path nbrs s x) ∧ ∀ x ∈ N, ∀ y ∈ nbrs x, y ∈ seen'
  | 0, _, _, _, _, _, h => by cases h
  | n + 1, [], seen, ms, seen', ms', h => by
    injection h with h; injection h with h1 h2; subst h1; subst h2
    exact ⟨[], by simp⟩
  | n + 1, p :: stack, seen, ms, seen', ms', h => by
    unfold componentFrom at h
    by_cases hp : p ∈ seen
    · rw [if_pos hp] at h
      obtain ⟨N, a, b, c, d, e, f, g⟩ := componentFrom_spec n stack seen ms seen' ms' h
      refine ⟨N, a, b, c, d, ?_, ?_, g⟩
      · intro x hx
        rcases List.mem_cons.1 hx with rfl | hx
        · exact (d x).2 (.inl hp)
        · exact e x hx
      · intro x hx
        obtain ⟨s, hs, hr⟩ := f x hx
        exact ⟨s, List.mem_cons_of_mem _ hs, hr⟩
    · rw [if_neg hp] at h
      obtain ⟨N, a, b, c, d, e, f, g⟩ := componentFrom_spec n _ (p :: seen) (ms ++ [p]) seen' ms' h
      have hpN : p ∉ N := fun h => c p h (by simp)
      refine ⟨p :: N, by rw [a]; simp, List.nodup_cons.2 ⟨hpN, b⟩, ?_, ?_, ?_, ?_, ?_⟩
      · intro x hx
        rcases List.mem_cons.1 hx with rfl | hx
        · exact hp
        · exact fun hs => c x hx (List.mem_cons_of_mem _ hs)
      · intro x
        rw [d x]
        simp only [List.mem_cons]
        constructor
        · rintro ((h | h) | h)
          · exact .inr (.inl h)
          · exact .inl h
          · exact .inr (.inr h)
        · rintro (h | h | h)
          · exact .inl (.inr h)
          · exact .inl (.inl h)
          · exact .inr h
      · intro x hx
        rcases List.mem_cons.1 hx with rfl | hx
        · exact (d x).2 (.inl (by simp))
        · exact e x (List.mem_append_right _ hx)
      · intro x hx
        rcases List.mem_cons.1 hx with rfl | hx
        · exact ⟨x, by simp, .refl⟩
        · obtain ⟨s, hs, hr⟩ := f x hx
          rcases List.mem_append.1 hs with hs | hs
          · exact ⟨p, by simp, Relation.ReflTransGen.head (List.mem_reverse.1 hs) hr⟩
          · exact ⟨s, List.mem_cons_of_mem _ hs, hr⟩
      · intro x hx y hy
        rcases List.mem_cons.1 hx with rfl | hx
        · exact e y (List.mem_append_left _ (List.mem_reverse.2 hy))
        · exact g x hx y hy

/-- the work left: entries on the stack, and the neighbours of what has not been seen -/
def workLeft (U seen : List String) : Nat := ((U.filter fun p => decide (p ∉ seen)).map fun p => (nbrs p).length).sum

theorem workLeft_cons : ∀ {U seen : List String} {p : String}, p ∈ U → p ∉ seen →
    workLeft nbrs U (p :: seen) + (nbrs p).length ≤ workLeft nbrs U seen
  | [], _, _, h, _ => by cases h
  | u :: U, seen, p, hm, hn => by
    have hle : workLeft nbrs U (p :: seen) ≤ workLeft nbrs U seen := by
      by_cases hp : p ∈ U
      · have := workLeft_cons hp hn; omega
      · unfold workLeft
        have : (U.filter fun q => decide (q ∉ p :: seen)) = U.filter fun q => decide (q ∉ seen) := by
          refine List.filter_congr fun q hq => ?_
          have : q ≠ p := fun h => hp (h ▸ hq)
          simp [this]
        rw [this]; exact Nat.le_refl _
    by_cases hu : u = p
    · subst hu
      have e1 : workLeft nbrs (u :: U) (u :: seen) = workLeft nbrs U (u :: seen) := by unfold workLeft; simp
      have e2 : workLeft nbrs (u :: U) seen = (nbrs u).length + workLeft nbrs U seen := by unfold workLeft; simp [hn]
      omega
    · have hm' : p ∈ U := by
        rcases List.mem_cons.1 hm with h | h
        · exact absurd h.symm hu
        · exact h
      have ih := workLeft_cons hm' hn
      by_cases hs : u ∈ seen
      · have e1 : workLeft nbrs (u :: U) (p :: seen) = workLeft nbrs U (p :: seen) := by unfold workLeft; simp [hs]
        have e2 : workLeft nbrs (u :: U) seen = workLeft nbrs U seen := by unfold workLeft; simp [hs]
        omega
      · have e1 : workLeft nbrs (u :: U) (p :: seen) = (nbrs u).length + workLeft nbrs U (p :: seen) := by unfold workLeft; simp [hs, hu]
        have e2 : workLeft nbrs (u :: U) seen = (nbrs u).length + workLeft nbrs U seen := by unfold workLeft; simp [hs]
        omega

theorem workLeft_nil (U : List String) : workLeft nbrs U [] = (U.map fun p => (nbrs p).length).sum := by
  unfold workLeft; simp

theorem workLeft_le (U seen : List String) : workLeft nbrs U seen ≤ workLeft nbrs U [] := by
  rw [workLeft_nil]
  unfold workLeft
  induction U with
  | nil => exact Nat.le_refl _
  | cons u U ih =>
    by_cases h : u ∈ seen
    · simp [h] at ih ⊢; omega
    · simp [h] at ih ⊢; omega

theorem componentFrom_total {U : List String} (hU : ∀ x ∈ U, ∀ y ∈ nbrs x, y ∈ U) : ∀ n stack seen ms, (∀ x ∈ stack, x ∈ U) →
    workLeft nbrs U seen + stack.length < n → ∃ r, componentFrom nbrs n stack seen ms = some r
  | 0, _, _, _, _, h => by omega
  | n + 1, [], seen, ms, _, _ => ⟨_, rfl⟩
  | n + 1, p :: stack, seen, ms, hs, hn => by
    unfold componentFrom
    simp only [List.length_cons] at hn
    by_cases hp : p ∈ seen
    · rw [if_pos hp]
      exact componentFrom_total hU n _ _ _ (fun x hx => hs x (by simp [hx])) (by omega)
    · rw [if_neg hp]
      have := workLeft_cons nbrs (hs p (by simp)) hp
      refine componentFrom_total hU n _ _ _ ?_ (by simp; omega)
      intro x hx
      rcases List.mem_append.1 hx with hx | hx
      · exact hU p (hs p (by simp)) x (List.mem_reverse.1 hx)
      · exact hs x (by simp [hx])

end

/-! ## All components -/

theorem insertKey_perm (k : String) : ∀ l, (insertKey k l).Perm (k :: l)
  | [] => List.Perm.refl _
  | x :: l => by
    unfold insertKey
    by_cases h : k ≤ x
    · rw [if_pos h]
    · rw [if_neg h]
      exact ((insertKey_perm k l).cons x).trans (List.Perm.swap k x l)

theorem sortKeys_perm : ∀ l, (sortKeys l).Perm l
  | [] => List.Perm.refl _
  | x :: l => (insertKey_perm x _).trans ((sortKeys_perm l).cons x)

theorem insertKey_sorted (k : String) : ∀ l : List String, l.Pairwise (· ≤ ·) → (insertKey k l).Pairwise (· ≤ ·)
  | [], _ => by simp [insertKey]
  | x :: l, h => by
    obtain ⟨h1, h2⟩ := List.pairwise_cons.1 h
    unfold insertKey
    by_cases hk : k ≤ x
    · rw [if_pos hk]
      refine List.pairwise_cons.2 ⟨fun y hy => ?_, h⟩
      rcases List.mem_cons.1 hy with rfl | hy
      · exact hk
      · exact String.le_trans hk (h1 y hy)
    · rw [if_neg hk]
      refine List.pairwise_cons.2 ⟨fun y hy => ?_, insertKey_sorted k l h2⟩
      rcases List.mem_cons.1 ((insertKey_perm k l).mem_iff.1 hy) with rfl | hy
      · exact (String.le_total x y).resolve_right hk
      · exact h1 y hy

theorem sortKeys_sorted : ∀ l : List String, (sortKeys l).Pairwise (· ≤ ·)
  | [] => List.Pairwise.nil
  | x :: l => insertKey_sorted x _ (sortKeys_sorted l)

theorem mem_sortKeys {l : List String} {x : String} : x ∈ sortKeys l ↔ x ∈ l := (sortKeys_perm l).mem_iff

theorem nodup_sortKeys {l : List String} (h : l.Nodup) : (sortKeys l).Nodup := (sortKeys_perm l).nodup_iff.2 h

theorem path_connected {P : List (String × List String)} {a b : String} : Path (importNbrs P) a b ↔ Connected P a b := by
  constructor
  · intro h
    induction h with
    | refl => exact .refl _
    | tail _ h ih =>
      rcases mem_importNbrs.1 h with h | h
      · exact .trans _ _ _ ih (.rel _ _ h)
      · exact .trans _ _ _ ih (.symm _ _ (.rel _ _ h))
  · intro h
    induction h with
    | rel a b h => exact .single (mem_importNbrs.2 (.inl h))
    | refl a => exact .refl
    | symm a b hab ih =>
      clear hab
      induction ih with
      | refl => exact .refl
      | tail _ h ih => exact .head (mem_importNbrs.2 ((mem_importNbrs.1 h).symm)) ih
    | trans a b c _ _ h1 h2 => exact h1.trans h2

/-- the components found so far -/
structure KInv (P : List (String × List String)) (seen : List String) (cs : List (List String)) : Prop where
  seen : ∀ x, x ∈ seen ↔ ∃ c ∈ cs, x ∈ c
  nodup : ∀ c ∈ cs, c.Nodup
  sorted : ∀ c ∈ cs, c.Pairwise (· ≤ ·)
  rep : ∀ c ∈ cs, ∃ p ∈ P.map Prod.fst, ∀ x, x ∈ c ↔ Connected P p x
  disj : cs.Pairwise fun a b => ∀ x ∈ a, x ∉ b

theorem componentsLoop_spec (P : List (String × List String)) (fuel : Nat) : ∀ ps seen cs r,
    (∀ p ∈ ps, p ∈ P.map Prod.fst) → KInv P seen cs → componentsLoop (importNbrs P) fuel ps seen cs = some r →
    ∃ seen', KInv P seen' r ∧ (∀ x ∈ seen, x ∈ seen') ∧ ∀ p ∈ ps, p ∈ seen'
  | [], seen, cs, r, _, hi, h => by
    injection h with h; subst h
    exact ⟨seen, hi, fun _ h => h, by simp⟩
  | p :: ps, seen, cs, r, hps, hi, h => by
    unfold componentsLoop at h
    by_cases hp : p ∈ seen
    · rw [if_pos hp] at h
      obtain ⟨s, a, b, c⟩ := componentsLoop_spec P fuel ps seen cs r (fun q hq => hps q (by simp [hq])) hi h
      refine ⟨s, a, b, fun q hq => ?_⟩
      rcases List.mem_cons.1 hq with rfl | hq
      · exact b q hp
      · exact c q hq
    · rw [if_neg hp] at h
      cases hc : componentFrom (importNbrs P) fuel [p] seen [] with
      | none => rw [hc] at h; cases h
      | some q =>
        obtain ⟨seen1, N⟩ := q
        rw [hc] at h
        obtain ⟨N', e0, hnd, hfresh, hseen1, hst, hpath, hcl⟩ := componentFrom_spec _ _ _ _ _ _ _ hc
        simp only [List.nil_append] at e0
        subst e0
        have hclosed : ∀ a b, Connected P a b → a ∈ seen → b ∈ seen := by
          intro a b hab ha
          obtain ⟨c, hc, hac⟩ := (hi.seen a).1 ha
          obtain ⟨q, _, hq⟩ := hi.rep c hc
          exact (hi.seen b).2 ⟨c, hc, (hq b).2 (.trans _ _ _ ((hq a).1 hac) hab)⟩
        have hN : ∀ x, x ∈ N ↔ Connected P p x := by
          intro x
          constructor
          · intro hx
            obtain ⟨s, hs, hr⟩ := hpath x hx
            rw [List.mem_singleton.1 hs] at hr
            exact path_connected.1 hr
          · intro hx
            have hnot : ∀ y, Connected P p y → y ∉ seen := fun y hy h => hp (hclosed y p (.symm _ _ hy) h)
            have hr : Path (importNbrs P) p x := path_connected.2 hx
            have : x ∈ seen1 := by
              induction hr with
              | refl => exact hst p (by simp)
              | @tail b c h1 h2 ih =>
                have hb : Connected P p b := path_connected.1 h1
                have hb1 := ih hb
                rcases (hseen1 b).1 hb1 with h | h
                · exact absurd h (hnot b hb)
                · exact hcl b h c h2
            rcases (hseen1 x).1 this with h | h
            · exact absurd h (hnot x hx)
            · exact h
        have hi' : KInv P seen1 (cs ++ [sortKeys N]) := by
          refine ⟨fun x => ?_, ?_, ?_, ?_, ?_⟩
          · rw [hseen1 x, hi.seen x]
            constructor
            · rintro (⟨c, hc, hx⟩ | h)
              · exact ⟨c, by simp [hc], hx⟩
              · exact ⟨sortKeys N, by simp, mem_sortKeys.2 h⟩
            · rintro ⟨c, hc, hx⟩
              rcases List.mem_append.1 hc with hc | hc
              · exact .inl ⟨c, hc, hx⟩
              · rw [List.mem_singleton.1 hc] at hx; exact .inr (mem_sortKeys.1 hx)
          · intro c hc
            rcases List.mem_append.1 hc with hc | hc
            · exact hi.nodup c hc
            · rw [List.mem_singleton.1 hc]; exact nodup_sortKeys hnd
          · intro c hc
            rcases List.mem_append.1 hc with hc | hc
            · exact hi.sorted c hc
            · rw [List.mem_singleton.1 hc]; exact sortKeys_sorted _
          · intro c hc
            rcases List.mem_append.1 hc with hc | hc
            · exact hi.rep c hc
            · rw [List.mem_singleton.1 hc]
              exact ⟨p, hps p (by simp), fun x => mem_sortKeys.trans (hN x)⟩
          · rw [List.pairwise_append]
            refine ⟨hi.disj, by simp, ?_⟩
            intro a ha b hb x hx hxb
            rw [List.mem_singleton.1 hb] at hxb
            exact hfresh x (mem_sortKeys.1 hxb) ((hi.seen x).2 ⟨a, ha, hx⟩)
        obtain ⟨s, a, b, c⟩ := componentsLoop_spec P fuel ps seen1 _ r (fun q hq => hps q (by simp [hq])) hi' h
        refine ⟨s, a, fun x hx => b x ((hseen1 x).2 (.inl hx)), fun q hq => ?_⟩
        rcases List.mem_cons.1 hq with rfl | hq
        · exact b q (hst q (by simp))
        · exact c q hq

theorem componentsLoop_total {P : List (String × List String)} {U : List String} {fuel : Nat}
    (hU : ∀ x ∈ U, ∀ y ∈ importNbrs P x, y ∈ U) (hf : workLeft (importNbrs P) U [] + 1 < fuel) :
    ∀ ps seen cs, (∀ p ∈ ps, p ∈ U) → ∃ r, componentsLoop (importNbrs P) fuel ps seen cs = some r
  | [], _, cs, _ => ⟨cs, rfl⟩
  | p :: ps, seen, cs, hp => by
    unfold componentsLoop
    by_cases h : p ∈ seen
    · rw [if_pos h]; exact componentsLoop_total hU hf ps seen cs fun q hq => hp q (by simp [hq])
    · rw [if_neg h]
      have := workLeft_le (importNbrs P) U seen
      obtain ⟨r, hr⟩ := componentFrom_total (importNbrs P) hU fuel [p] seen [] (by simpa using hp p (by simp)) (by simp; omega)
      rw [hr]
      exact componentsLoop_total hU hf ps _ _ fun q hq => hp q (by simp [hq])

theorem kinv_of {P : List (String × List String)} {fuel : Nat} {cs : List (List String)} (h : computeComponents P fuel = some cs) :
    KInv P (P.map Prod.fst) cs := by
  have hk : ∀ p, p ∈ sortKeys (aKeys P) ↔ p ∈ P.map Prod.fst := fun p => mem_sortKeys
  obtain ⟨s, hi, _, hall⟩ := componentsLoop_spec P fuel _ [] [] cs (fun p hp => (hk p).1 hp)
    ⟨by simp, by simp, by simp, by simp, by simp⟩ h
  refine ⟨fun x => ⟨fun hx => (hi.seen x).1 (hall x ((hk x).2 hx)), ?_⟩, hi.nodup, hi.sorted, hi.rep, hi.disj⟩
  rintro ⟨c, hc, hx⟩
  obtain ⟨p, hp, hpx⟩ := hi.rep c hc
  have : Connected P p x := (hpx x).1 hx
  have hstep : ∀ a b, ImportsP P a b → a ∈ P.map Prod.fst ∧ b ∈ P.map Prod.fst := by
    rintro a b ⟨l, h1, _, h3⟩
    exact ⟨List.mem_map.2 ⟨(a, l), h1, rfl⟩, h3⟩
  have key : ∀ a b, Connected P a b → (a ∈ P.map Prod.fst ↔ b ∈ P.map Prod.fst) := by
    intro a b hab
    induction hab with
    | rel a b h => exact ⟨fun _ => (hstep a b h).2, fun _ => (hstep a b h).1⟩
    | refl => exact Iff.rfl
    | symm _ _ _ ih => exact ih.symm
    | trans _ _ _ _ _ h1 h2 => exact h1.trans h2
  exact (key p x this).1 hp

/-! ## Theorems -/

/-- The computation ends, for every import relation. -/
theorem C45_terminates (P : List (String × List String)) : ∃ fuel cs, computeComponents P fuel = some cs := by
  refine ⟨workLeft (importNbrs P) (P.map Prod.fst) [] + 2, ?_⟩
  refine componentsLoop_total (U := P.map Prod.fst) ?_ (by omega) _ _ _ fun p hp => mem_sortKeys.1 hp
  intro x _ y hy
  rcases mem_importNbrs.1 hy with ⟨l, _, _, h⟩ | ⟨l, h, _, _⟩
  · exact h
  · exact List.mem_map.2 ⟨(y, l), h, rfl⟩

/-- Every policy is in exactly one component, once, and components hold nothing but policies. -/
theorem C45_partition {P : List (String × List String)} {fuel : Nat} {cs : List (List String)} (h : computeComponents P fuel = some cs) :
    (∀ x, x ∈ P.map Prod.fst ↔ ∃ c ∈ cs, x ∈ c) ∧ cs.flatten.Nodup ∧ ∀ c ∈ cs, c ≠ [] ∧ c.Pairwise (· ≤ ·) := by
  have hi := kinv_of h
  refine ⟨hi.seen, ?_, fun c hc => ⟨?_, hi.sorted c hc⟩⟩
  · rw [List.nodup_flatten]
    refine ⟨hi.nodup, hi.disj.imp ?_⟩
    intro a b hab x hx hxb
    exact hab x hx hxb
  · obtain ⟨p, _, hp⟩ := hi.rep c hc
    rintro rfl
    have := (hp p).2 (.refl _)
    cases this

/-- Two policies share a component exactly when they are connected by imports. -/
theorem C45_connected {P : List (String × List String)} {fuel : Nat} {cs : List (List String)} (h : computeComponents P fuel = some cs)
    {p q : String} (hp : p ∈ P.map Prod.fst) : (∃ c ∈ cs, p ∈ c ∧ q ∈ c) ↔ Connected P p q := by
  have hi := kinv_of h
  constructor
  · rintro ⟨c, hc, h1, h2⟩
    obtain ⟨r, _, hr⟩ := hi.rep c hc
    exact .trans _ _ _ (.symm _ _ ((hr p).1 h1)) ((hr q).1 h2)
  · intro hpq
    obtain ⟨c, hc, h1⟩ := (hi.seen p).1 hp
    obtain ⟨r, _, hr⟩ := hi.rep c hc
    exact ⟨c, hc, h1, (hr q).2 (.trans _ _ _ ((hr p).1 h1) hpq)⟩

theorem aGet_foldl_aSet (i : Nat) (p : String) : ∀ (c : List String) (m : List (String × Nat)),
    aGet (c.foldl (fun m p => aSet m p i) m) p = if p ∈ c then some i else aGet m p
  | [], m => by simp
  | q :: c, m => by
    rw [List.foldl_cons, aGet_foldl_aSet i p c]
    by_cases h : p ∈ c
    · simp [h]
    · rw [if_neg h]
      by_cases hq : p = q
      · subst hq; rw [aGet_aSet]; simp
      · rw [aGet_aSet]; simp [h, hq]

theorem aGet_componentIndex (p : String) : ∀ (cs : List (List String)) (i : Nat) (m : List (String × Nat)),
    cs.Pairwise (fun a b => ∀ x ∈ a, x ∉ b) →
    ((∀ c ∈ cs, p ∉ c) → aGet (componentIndex cs i m) p = aGet m p) ∧
    ∀ k c, cs[k]? = some c → p ∈ c → aGet (componentIndex cs i m) p = some (i + k)
  | [], i, m, _ => ⟨fun _ => rfl, fun k c h => by simp at h⟩
  | d :: cs, i, m, hd => by
    obtain ⟨hd1, hd2⟩ := List.pairwise_cons.1 hd
    obtain ⟨ih1, ih2⟩ := aGet_componentIndex p cs (i + 1) (d.foldl (fun m p => aSet m p i) m) hd2
    constructor
    · intro hn
      unfold componentIndex
      rw [ih1 fun c hc => hn c (by simp [hc]), aGet_foldl_aSet, if_neg (hn d (by simp))]
    · intro k c hk hp
      unfold componentIndex
      cases k with
      | zero =>
        injection (by simpa using hk : some d = some c) with hk
        subst hk
        rw [ih1 fun c hc => hd1 c hc p hp, aGet_foldl_aSet, if_pos hp]; rfl
      | succ k =>
        rw [ih2 k c (by simpa using hk) hp]
        congr 1; omega

/-- The index of a policy names the component that holds it. -/
theorem C45_index {P : List (String × List String)} {fuel : Nat} {cs : List (List String)} (h : computeComponents P fuel = some cs)
    (p : String) (k : Nat) : aGet (componentIndex cs 0 []) p = some k ↔ ∃ c, cs[k]? = some c ∧ p ∈ c := by
  have hi := kinv_of h
  obtain ⟨h1, h2⟩ := aGet_componentIndex p cs 0 [] hi.disj
  constructor
  · intro hg
    by_cases hc : ∃ c ∈ cs, p ∈ c
    · obtain ⟨c, hc, hp⟩ := hc
      obtain ⟨j, hj⟩ := List.mem_iff_getElem?.1 hc
      have := h2 j c hj hp
      rw [this] at hg
      injection hg with hg
      rw [← hg, Nat.zero_add]
      exact ⟨c, hj, hp⟩
    · rw [h1 fun c hcm hp => hc ⟨c, hcm, hp⟩] at hg
      cases hg
  · rintro ⟨c, hc, hp⟩
    rw [h2 k c hc hp, Nat.zero_add]

/-! ## Instances -/

example : computeComponents [("d", ["x"]), ("a", ["b"]), ("c", ["b", "zzz"]), ("b", []), ("e", ["d", "e"])] 20 =
    some [["a", "b", "c"], ["d", "e"]] := by decide +kernel

example : componentIndex [["a", "b", "c"], ["d", "e"]] 0 [] = [("a", 0), ("b", 0), ("c", 0), ("d", 1), ("e", 1)] := by decide +kernel

end Zen.Policy
