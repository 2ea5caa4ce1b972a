import Verif.Policy.WriteConflicts
import Verif.Props.C45
/-
C86: a path is listed as a conflict exactly when policies that no imports connect write it, with
exactly the policies that write it, all in order; and the members of a component are the policies
connected to one.
-/
namespace Zen.WC.C86
open Zen Zen.Policy Zen.WC

/-- specification: a rule of policy `p`, which is in component `c`, writes the path -/
def Writes (index : List (String × Nat)) (rules : List RuleWrites) (path p : String) (c : Nat) : Prop :=
  path ≠ "" ∧ aGet index p = some c ∧ ∃ r ∈ rules, r.policy = p ∧ path ∈ r.writes

/-! ## The map of writers -/

theorem mem_addWrites (pol : String) (c : Nat) (path q : String) (k : Nat) :
    ∀ (ws : List String) (m : List (String × List (String × Nat))),
    (q, k) ∈ (aGet (addWrites pol c m ws) path).getD [] ↔
      (q, k) ∈ (aGet m path).getD [] ∨ (path ∈ ws ∧ path ≠ "" ∧ q = pol ∧ k = c)
  | [], m => by simp [addWrites]
  | w :: ws, m => by
    have ih := mem_addWrites pol c path q k ws
    simp only [addWrites, List.foldl_cons] at ih ⊢
    rw [ih]
    by_cases hw : w = ""
    · rw [if_pos hw]
      by_cases hp : path = ""
      · simp [hp]
      · simp [hw, hp]
    · rw [if_neg hw, aGet_aSet]
      by_cases hp : path = w
      · subst hp; simp [hw]; grind
      · simp [hp]

theorem addWrites_nodup (pol : String) (c : Nat) : ∀ (ws : List String) (m : List (String × List (String × Nat))),
    (aKeys m).Nodup → (aKeys (addWrites pol c m ws)).Nodup
  | [], _, h => h
  | w :: ws, m, h => by
    have ih := addWrites_nodup pol c ws
    simp only [addWrites, List.foldl_cons] at ih ⊢
    refine ih _ ?_
    split
    · exact h
    · exact aKeys_aSet_nodup _ _ h

def ruleStep (index : List (String × Nat)) (m : List (String × List (String × Nat))) (r : RuleWrites) :
    List (String × List (String × Nat)) :=
  match aGet index r.policy with
  | none => m
  | some c => addWrites r.policy c m r.writes

theorem byPath_eq (index : List (String × Nat)) (rules : List RuleWrites) :
    byPath index rules = rules.foldl (ruleStep index) [] := rfl

theorem mem_rules (index : List (String × Nat)) (path q : String) (k : Nat) :
    ∀ (rules : List RuleWrites) (m : List (String × List (String × Nat))),
    (q, k) ∈ (aGet (rules.foldl (ruleStep index) m) path).getD [] ↔
      (q, k) ∈ (aGet m path).getD [] ∨ Writes index rules path q k
  | [], m => by simp [Writes]
  | r :: rules, m => by
    rw [List.foldl_cons, mem_rules index path q k rules]
    unfold ruleStep
    cases hc : aGet index r.policy with
    | none =>
      dsimp only
      simp only [Writes, List.mem_cons]
      constructor
      · rintro (h | ⟨h1, h2, r', h3, h4⟩)
        · exact .inl h
        · exact .inr ⟨h1, h2, r', .inr h3, h4⟩
      · rintro (h | ⟨h1, h2, r', rfl | h3, h4, h5⟩)
        · exact .inl h
        · rw [h4, h2] at hc; cases hc
        · exact .inr ⟨h1, h2, r', h3, h4, h5⟩
    | some c =>
      dsimp only
      rw [mem_addWrites]
      simp only [Writes, List.mem_cons]
      constructor
      · rintro ((h | ⟨h1, h2, rfl, rfl⟩) | ⟨h1, h2, r', h3, h4⟩)
        · exact .inl h
        · exact .inr ⟨h2, hc, r, .inl rfl, rfl, h1⟩
        · exact .inr ⟨h1, h2, r', .inr h3, h4⟩
      · rintro (h | ⟨h1, h2, r', rfl | h3, h4, h5⟩)
        · exact .inl (.inl h)
        · rw [h4, h2] at hc; cases hc; exact .inl (.inr ⟨h5, h1, h4.symm, rfl⟩)
        · exact .inr ⟨h1, h2, r', h3, h4, h5⟩

theorem rules_nodup (index : List (String × Nat)) : ∀ (rules : List RuleWrites) (m : List (String × List (String × Nat))),
    (aKeys m).Nodup → (aKeys (rules.foldl (ruleStep index) m)).Nodup
  | [], _, h => h
  | r :: rules, m, h => by
    refine rules_nodup index rules _ ?_
    unfold ruleStep
    split
    · exact h
    · exact addWrites_nodup _ _ _ _ h

theorem byPath_nodup (index : List (String × Nat)) (rules : List RuleWrites) : (aKeys (byPath index rules)).Nodup := by
  rw [byPath_eq]; exact rules_nodup index rules [] (by simp)

theorem mem_byPath (index : List (String × Nat)) (rules : List RuleWrites) (path q : String) (k : Nat) :
    (q, k) ∈ (aGet (byPath index rules) path).getD [] ↔ Writes index rules path q k := by
  rw [byPath_eq, mem_rules]; simp

/-! ## Numbers, order and repetition -/

theorem eraseDups_nodup (l : List Nat) : l.eraseDups.Nodup := by
  match l with
  | [] => simp
  | a :: l =>
    rw [List.eraseDups_cons]
    refine List.nodup_cons.2 ⟨?_, eraseDups_nodup _⟩
    rw [List.mem_eraseDups]
    simp
termination_by l.length
decreasing_by exact Nat.lt_succ_of_le (List.length_filter_le _ _)

theorem distinct_two (l : List Nat) : ¬ distinct l < 2 ↔ ∃ a ∈ l, ∃ b ∈ l, a ≠ b := by
  have hm : ∀ x, x ∈ l.eraseDups ↔ x ∈ l := fun x => List.mem_eraseDups
  have hn : l.eraseDups.Nodup := eraseDups_nodup l
  unfold distinct
  constructor
  · intro h
    match hd : l.eraseDups with
    | [] => rw [hd] at h; simp at h
    | [_] => rw [hd] at h; simp at h
    | a :: b :: r =>
      rw [hd] at hn hm
      refine ⟨a, (hm a).1 (by simp), b, (hm b).1 (by simp), ?_⟩
      rintro rfl
      simp at hn
  · rintro ⟨a, ha, b, hb, hab⟩
    rw [← hm] at ha hb
    match hd : l.eraseDups with
    | [] => rw [hd] at ha; cases ha
    | [x] => rw [hd] at ha hb; simp at ha hb; exact absurd (ha.trans hb.symm) hab
    | _ :: _ :: r => simp

theorem mem_dedupAdj (x : String) : ∀ l : List String, x ∈ dedupAdj l ↔ x ∈ l
  | [] => by simp [dedupAdj]
  | [y] => by simp [dedupAdj]
  | y :: z :: l => by
    rw [dedupAdj]
    split
    · rename_i h; subst h; rw [mem_dedupAdj x (y :: l)]; simp
    · rw [List.mem_cons, mem_dedupAdj x (z :: l)]; simp

theorem lt_of_le_ne {a b : String} (h : a ≤ b) (hn : a ≠ b) : a < b :=
  Classical.byContradiction fun hc => hn (String.le_antisymm h (String.not_lt.1 hc))

theorem dedupAdj_sorted : ∀ l : List String, l.Pairwise (· ≤ ·) → (dedupAdj l).Pairwise (· < ·)
  | [], _ => by simp [dedupAdj]
  | [y], _ => by simp [dedupAdj]
  | y :: z :: l, h => by
    obtain ⟨h1, h2⟩ := List.pairwise_cons.1 h
    have ih := dedupAdj_sorted (z :: l) h2
    rw [dedupAdj]
    split
    · exact ih
    · rename_i hyz
      refine List.pairwise_cons.2 ⟨fun x hx => ?_, ih⟩
      have hx := (mem_dedupAdj x _).1 hx
      have hyz' := lt_of_le_ne (h1 z (by simp)) hyz
      rcases List.mem_cons.1 hx with rfl | hx
      · exact hyz'
      · refine lt_of_le_ne (h1 x (by simp [hx])) ?_
        rintro rfl
        exact hyz (String.le_antisymm (h1 z (by simp)) ((List.pairwise_cons.1 h2).1 y hx))

theorem lt_unique : ∀ {l r : List String}, l.Pairwise (· < ·) → r.Pairwise (· < ·) → (∀ x, x ∈ l ↔ x ∈ r) → l = r := by
  intro l r hl hr h
  have nl : l.Nodup := hl.imp fun {a b} hab he => by subst he; exact String.lt_irrefl a hab
  have nr : r.Nodup := hr.imp fun {a b} hab he => by subst he; exact String.lt_irrefl a hab
  have hp : l.Perm r := (List.perm_ext_iff_of_nodup nl nr).2 h
  refine hp.eq_of_pairwise (le := (· < ·)) ?_ hl hr
  intro a b _ _ h1 h2
  exact absurd (String.lt_trans h1 h2) (String.lt_irrefl a)

theorem sort_perm (l : List (String × List String)) :
    (l.foldr (insertBy fun a b => decide (a.1 ≤ b.1)) []).Perm l := by
  induction l with
  | nil => exact .refl _
  | cons x l ih => exact (insertBy_perm _ x _).trans (ih.cons x)

theorem insert_sorted (x : String × List String) : ∀ l : List (String × List String), l.Pairwise (fun a b => a.1 ≤ b.1) →
    (insertBy (fun a b => decide (a.1 ≤ b.1)) x l).Pairwise (fun a b => a.1 ≤ b.1)
  | [], _ => by simp [insertBy]
  | y :: l, h => by
    obtain ⟨h1, h2⟩ := List.pairwise_cons.1 h
    rw [insertBy]
    split
    · rename_i hk
      have hk := of_decide_eq_true hk
      refine List.pairwise_cons.2 ⟨fun z hz => ?_, h⟩
      rcases List.mem_cons.1 hz with rfl | hz
      · exact hk
      · exact String.le_trans hk (h1 z hz)
    · rename_i hk
      refine List.pairwise_cons.2 ⟨fun z hz => ?_, insert_sorted x l h2⟩
      rcases List.mem_cons.1 ((insertBy_perm _ x l).mem_iff.1 hz) with rfl | hz
      · exact (String.le_total _ _).resolve_left fun hc => hk (decide_eq_true hc)
      · exact h1 z hz

theorem sort_sorted (l : List (String × List String)) :
    (l.foldr (insertBy fun a b => decide (a.1 ≤ b.1)) []).Pairwise (fun a b => a.1 ≤ b.1) := by
  induction l with
  | nil => exact .nil
  | cons x l ih => exact insert_sorted x _ ih

/-! ## Theorems -/

variable {ord : List (String × List (String × Nat)) → List (String × List (String × Nat))}

/-- **C86.** A path is listed exactly when rules of two components write it, with exactly the
policies that write it, in order and each once. -/
theorem C86_conflicts (ho : ∀ m, (ord m).Perm m) (index : List (String × Nat)) (rules : List RuleWrites)
    (path : String) (ps : List String) :
    (path, ps) ∈ conflicts ord index rules ↔
      (∃ p c q d, Writes index rules path p c ∧ Writes index rules path q d ∧ c ≠ d) ∧
      ps.Pairwise (· < ·) ∧ ∀ p, p ∈ ps ↔ ∃ c, Writes index rules path p c := by
  have hn := byPath_nodup index rules
  have hmem : ∀ ws, (path, ws) ∈ byPath index rules → ∀ q k, (q, k) ∈ ws ↔ Writes index rules path q k := by
    intro ws hws q k
    rw [← mem_byPath, (mem_iff_aGet hn).1 hws]
    rfl
  have hps : ∀ ws, (path, ws) ∈ byPath index rules → ∀ p, p ∈ dedupAdj (sortKeys (ws.map Prod.fst)) ↔ ∃ c, Writes index rules path p c := by
    intro ws hws p
    rw [mem_dedupAdj, mem_sortKeys, List.mem_map]
    constructor
    · rintro ⟨⟨q, k⟩, h, rfl⟩; exact ⟨k, (hmem ws hws q k).1 h⟩
    · rintro ⟨c, h⟩; exact ⟨(p, c), (hmem ws hws p c).2 h, rfl⟩
  have htwo : ∀ ws, (path, ws) ∈ byPath index rules → (¬ distinct (ws.map Prod.snd) < 2 ↔
      ∃ p c q d, Writes index rules path p c ∧ Writes index rules path q d ∧ c ≠ d) := by
    intro ws hws
    rw [distinct_two]
    constructor
    · rintro ⟨a, ha, b, hb, hab⟩
      obtain ⟨⟨p, _⟩, h1, rfl⟩ := List.mem_map.1 ha
      obtain ⟨⟨q, _⟩, h2, rfl⟩ := List.mem_map.1 hb
      exact ⟨p, _, q, _, (hmem ws hws _ _).1 h1, (hmem ws hws _ _).1 h2, hab⟩
    · rintro ⟨p, c, q, d, h1, h2, hcd⟩
      exact ⟨c, List.mem_map.2 ⟨(p, c), (hmem ws hws _ _).2 h1, rfl⟩, d, List.mem_map.2 ⟨(q, d), (hmem ws hws _ _).2 h2, rfl⟩, hcd⟩
  unfold conflicts
  rw [(sort_perm _).mem_iff, List.mem_filterMap]
  constructor
  · rintro ⟨⟨k, ws⟩, he, h⟩
    have he := (ho _).mem_iff.1 he
    unfold conflictOf at h
    split at h
    · cases h
    · rename_i hd
      injection h with h
      injection h with h1 h2
      dsimp only at h1 h2 hd
      subst h1
      subst h2
      exact ⟨(htwo ws he).1 hd, dedupAdj_sorted _ (sortKeys_sorted _), hps ws he⟩
  · rintro ⟨hc, hs, hm⟩
    obtain ⟨p, c, _, _, hw, _, _⟩ := id hc
    have hg := (mem_byPath index rules path p c).2 hw
    cases hx : aGet (byPath index rules) path with
    | none => rw [hx] at hg; cases hg
    | some ws =>
      have he := (mem_iff_aGet hn).2 hx
      refine ⟨(path, ws), (ho _).mem_iff.2 he, ?_⟩
      unfold conflictOf
      rw [if_neg ((htwo ws he).2 hc)]
      congr 2
      exact lt_unique (dedupAdj_sorted _ (sortKeys_sorted _)) hs fun x => (hps ws he x).trans (hm x).symm

/-- **C86.** The paths are in order and each is listed once, however the map is walked. -/
theorem C86_sorted (ho : ∀ m, (ord m).Perm m) (index : List (String × Nat)) (rules : List RuleWrites) :
    ((conflicts ord index rules).map Prod.fst).Pairwise (· < ·) := by
  have hle : ((conflicts ord index rules).map Prod.fst).Pairwise (· ≤ ·) := by
    rw [List.pairwise_map]
    exact sort_sorted _
  have hnd : ((conflicts ord index rules).map Prod.fst).Nodup := by
    unfold conflicts
    rw [((sort_perm _).map Prod.fst).nodup_iff]
    have hk : ((ord (byPath index rules)).map Prod.fst).Nodup := ((ho _).map Prod.fst).nodup_iff.2 (byPath_nodup index rules)
    refine List.Nodup.sublist ?_ hk
    generalize ord (byPath index rules) = m
    induction m with
    | nil => exact .slnil
    | cons e m ih =>
      rw [List.filterMap_cons]
      cases hx : conflictOf e with
      | none => exact ih.cons _
      | some y =>
        have : y.1 = e.1 := by
          unfold conflictOf at hx
          split at hx
          · cases hx
          · injection hx with hx; rw [← hx]
        simp only [List.map_cons, this]
        exact ih.cons_cons _
  exact (hle.and hnd).imp fun h => lt_of_le_ne h.1 h.2

/-- the policies of the workspace that write a path -/
def Writer (P : List (String × List String)) (rules : List RuleWrites) (path p : String) : Prop :=
  p ∈ P.map Prod.fst ∧ ∃ r ∈ rules, r.policy = p ∧ path ∈ r.writes

/-- **C86.** With the components of a workspace: a path is a conflict exactly when two policies write
it that no imports connect. -/
theorem C86_imports (ho : ∀ m, (ord m).Perm m) {P : List (String × List String)} {fuel : Nat} {cs : List (List String)}
    (h : computeComponents P fuel = some cs) (rules : List RuleWrites) (path : String) :
    (∃ ps, (path, ps) ∈ conflicts ord (componentIndex cs 0 []) rules) ↔
      path ≠ "" ∧ ∃ p q, Writer P rules path p ∧ Writer P rules path q ∧ ¬ Connected P p q := by
  have hidx := C45_index h
  have hpart := C45_partition h
  have hin : ∀ p, p ∈ P.map Prod.fst ↔ ∃ k, aGet (componentIndex cs 0 []) p = some k := by
    intro p
    rw [hpart.1 p]
    constructor
    · rintro ⟨c, hc, hp⟩
      obtain ⟨k, hk⟩ := List.mem_iff_getElem?.1 hc
      exact ⟨k, (hidx p k).2 ⟨c, hk, hp⟩⟩
    · rintro ⟨k, hk⟩
      obtain ⟨c, hc, hp⟩ := (hidx p k).1 hk
      exact ⟨c, List.mem_of_getElem? hc, hp⟩
  have hconn : ∀ p q c d, aGet (componentIndex cs 0 []) p = some c → aGet (componentIndex cs 0 []) q = some d →
      (c = d ↔ Connected P p q) := by
    intro p q c d hc hd
    rw [← C45_connected h ((hin p).2 ⟨c, hc⟩)]
    constructor
    · rintro rfl
      obtain ⟨l, hl, hp⟩ := (hidx p c).1 hc
      obtain ⟨l', hl', hq⟩ := (hidx q c).1 hd
      rw [hl] at hl'; cases hl'
      exact ⟨l, List.mem_of_getElem? hl, hp, hq⟩
    · rintro ⟨l, hl, hp, hq⟩
      obtain ⟨k, hk⟩ := List.mem_iff_getElem?.1 hl
      have h1 := (hidx p k).2 ⟨l, hk, hp⟩
      have h2 := (hidx q k).2 ⟨l, hk, hq⟩
      rw [hc] at h1; rw [hd] at h2
      cases h1; cases h2; rfl
  constructor
  · rintro ⟨ps, hps⟩
    obtain ⟨⟨p, c, q, d, ⟨h0, h1, h2⟩, ⟨_, h3, h4⟩, hcd⟩, _⟩ := (C86_conflicts ho _ rules path ps).1 hps
    exact ⟨h0, p, q, ⟨(hin p).2 ⟨c, h1⟩, h2⟩, ⟨(hin q).2 ⟨d, h3⟩, h4⟩, fun hc => hcd ((hconn p q c d h1 h3).2 hc)⟩
  · rintro ⟨h0, p, q, ⟨hp, h2⟩, ⟨hq, h4⟩, hc⟩
    obtain ⟨c, h1⟩ := (hin p).1 hp
    obtain ⟨d, h3⟩ := (hin q).1 hq
    have hw : Writes (componentIndex cs 0 []) rules path p c := ⟨h0, h1, h2⟩
    have hex : ∃ ws, aGet (byPath (componentIndex cs 0 []) rules) path = some ws := by
      have hg := (mem_byPath (componentIndex cs 0 []) rules path p c).2 hw
      cases hx : aGet (byPath (componentIndex cs 0 []) rules) path with
      | none => rw [hx] at hg; cases hg
      | some ws => exact ⟨ws, rfl⟩
    obtain ⟨ws, hws⟩ := hex
    refine ⟨dedupAdj (sortKeys (ws.map Prod.fst)), (C86_conflicts ho _ rules path _).2
      ⟨⟨p, c, q, d, hw, ⟨h0, h3, h4⟩, fun e => hc ((hconn p q c d h1 h3).1 e)⟩, dedupAdj_sorted _ (sortKeys_sorted _), ?_⟩⟩
    intro x
    rw [mem_dedupAdj, mem_sortKeys, List.mem_map]
    have hm : ∀ k, (x, k) ∈ ws ↔ Writes (componentIndex cs 0 []) rules path x k := fun k => by
      rw [← mem_byPath, hws]; rfl
    constructor
    · rintro ⟨⟨q, k⟩, h, rfl⟩; exact ⟨k, (hm k).1 h⟩
    · rintro ⟨k, h⟩; exact ⟨(x, k), (hm k).2 h, rfl⟩

/-- **C86.** The members of the component of a policy are the policies connected to it, in order and
each once; something that is not a policy of the workspace has none. -/
theorem C86_members {P : List (String × List String)} {fuel : Nat} {cs : List (List String)}
    (h : computeComponents P fuel = some cs) (p : String) :
    (∀ q, q ∈ componentMembers (componentIndex cs 0 []) cs p ↔ p ∈ P.map Prod.fst ∧ Connected P p q) ∧
    (componentMembers (componentIndex cs 0 []) cs p).Pairwise (· < ·) := by
  have hpart := C45_partition h
  unfold componentMembers
  cases hx : aGet (componentIndex cs 0 []) p with
  | none =>
    refine ⟨fun q => ⟨fun h => (nomatch h), fun ⟨hp, _⟩ => ?_⟩, .nil⟩
    obtain ⟨c, hc, hpc⟩ := (hpart.1 p).1 hp
    obtain ⟨k, hk⟩ := List.mem_iff_getElem?.1 hc
    rw [(C45_index h p k).2 ⟨c, hk, hpc⟩] at hx
    cases hx
  | some k =>
    obtain ⟨c, hk, hpc⟩ := (C45_index h p k).1 hx
    have hc := List.mem_of_getElem? hk
    have hp := (hpart.1 p).2 ⟨c, hc, hpc⟩
    dsimp only
    rw [hk]
    refine ⟨fun q => ?_, ?_⟩
    · rw [← C45_connected h hp]
      constructor
      · exact fun hq => ⟨hp, c, hc, hpc, hq⟩
      · rintro ⟨_, c', hc', hp', hq⟩
        obtain ⟨k', hk'⟩ := List.mem_iff_getElem?.1 hc'
        have := (C45_index h p k').2 ⟨c', hk', hp'⟩
        rw [hx] at this
        cases this
        rw [hk] at hk'
        cases hk'
        exact hq
    · have hnd : c.Nodup := (List.nodup_flatten.1 hpart.2.1).1 c hc
      exact ((hpart.2.2 c hc).2.and hnd).imp fun h => lt_of_le_ne h.1 h.2

/-! ## Cases -/

/-- two components; `x.y` is written in both, by `a` twice -/
def rules₀ : List RuleWrites :=
  [⟨"a", ["x.y", "z"]⟩, ⟨"c", ["x.y", ""]⟩, ⟨"a", ["x.y"]⟩, ⟨"b", ["z"]⟩, ⟨"lost", ["z"]⟩]

example : conflicts id [("a", 0), ("b", 0), ("c", 1)] rules₀ = [("x.y", ["a", "c"])] := by decide

example : ("x.y", ["a", "c"]) ∈ conflicts List.reverse [("a", 0), ("b", 0), ("c", 1)] rules₀ :=
  (C86_conflicts (fun m => m.reverse_perm) _ _ _ _).2
    ⟨⟨"a", 0, "c", 1, ⟨by decide, by decide, _, List.mem_cons_self, rfl, by decide⟩,
        ⟨by decide, by decide, _, List.mem_cons_of_mem _ List.mem_cons_self, rfl, by decide⟩, by decide⟩, by decide, by
      intro p
      simp only [Writes, rules₀, List.mem_cons, List.not_mem_nil, or_false]
      constructor
      · rintro (rfl | rfl)
        · exact ⟨0, by decide, by decide, _, .inl rfl, rfl, by decide⟩
        · exact ⟨1, by decide, by decide, _, .inr (.inl rfl), rfl, by decide⟩
      · rintro ⟨_, _, hg, r, rfl | rfl | rfl | rfl | rfl, rfl, hw⟩
        · exact .inl rfl
        · exact .inr rfl
        · exact .inl rfl
        · simp at hw
        · simp at hw⟩

/-- **Negative.** Only equal paths are compared: a policy that writes `x` and one in another component
that writes `x.y`, a part of it, are no conflict. -/
theorem C86_parts (ho : ∀ m, (ord m).Perm m) : conflicts ord [("a", 0), ("b", 1)] [⟨"a", ["x"]⟩, ⟨"b", ["x.y"]⟩] = [] := by
  refine List.eq_nil_iff_forall_not_mem.2 fun ⟨path, ps⟩ h => ?_
  obtain ⟨⟨p, c, q, d, ⟨_, h1, r, hr, h2, h3⟩, ⟨_, h4, s, hs, h5, h6⟩, hcd⟩, _⟩ := (C86_conflicts ho _ _ _ _).1 h
  simp only [List.mem_cons, List.not_mem_nil, or_false] at hr hs
  rcases hr with rfl | rfl <;> rcases hs with rfl | rfl <;> simp at h2 h3 h5 h6
  · subst h2; subst h5; rw [h1] at h4; cases h4; exact hcd rfl
  · rw [h3] at h6; exact absurd h6 (by decide)
  · rw [h3] at h6; exact absurd h6 (by decide)
  · subst h2; subst h5; rw [h1] at h4; cases h4; exact hcd rfl

end Zen.WC.C86
