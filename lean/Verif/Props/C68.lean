import Verif.Policy.DepGraphProof
import Mathlib.Data.Set.Finite.Basic
import Mathlib.Data.Fintype.Card
/-
C68  What a policy needs for some goals, as its graph says it, is all that a run for them looks at.
-/
namespace Zen.Policy
open Zen Zen.Val
variable {C : Cfg} {P : List PBlock}

/-! ## Specification

A graph says what the goals need: everything from which edges lead to a goal (`Upstream`). The policy is `Sound` (Policy/UnitProof),
and a run is `runPolicy` (Policy/Unit). -/

/-- a goal that is computed: a block writes it or a part of it, and the data model does not have it -/
def Computed (C : Cfg) (P : List PBlock) (g : String) : Prop := C.model g = false ∧ ∃ b ∈ P, ∃ w ∈ b.body.writes, SegPrefix g w

/-- no name that is read has a dot in it -/
def Dotless (C : Cfg) (P : List PBlock) : Prop :=
  ∀ b ∈ P, ∀ q ∈ C.paths (b.body.sources ++ b.body.later), ∀ s ∈ q, splitDot s = [s]

/-- the two inputs have the same at a path: the same value, or nothing for the same reason -/
def SameIn (m m' : List (String × Val)) (p : String) : Prop := look (.obj m) (splitDot p) = look (.obj m') (splitDot p)

/-- a block writes the path or a part of it, and neither is in the data model -/
def Written (C : Cfg) (P : List PBlock) (x : String) : Prop := C.model x = false ∧ ∃ b ∈ P, ∃ w ∈ b.body.writes, C.model w = false ∧ SegPrefix x w

/-- no path leads to itself -/
def Straight (G : PGraph) : Prop := ∀ x, ¬ Relation.TransGen (fun a b => (a, b) ∈ G.edges) x x

/-! ## Proofs -/

theorem dots_back {q : List String} (h0 : q ≠ []) (h : ∀ s ∈ q, splitDot s = [s]) : splitDot (dots q) = q := by
  rw [splitDot_dots h0]
  clear h0
  induction q with
  | nil => rfl
  | cons a l ih =>
    rw [List.flatMap_cons, h a (by simp), ih fun s hs => h s (by simp [hs])]
    rfl

theorem segPrefix_rel {q : List String} (h0 : q ≠ []) (h : ∀ s ∈ q, splitDot s = [s]) {w : String} (hs : SegPrefix (dots q) w) : Rel (splitDot w) q := by
  unfold SegPrefix at hs
  rw [dots_back h0 h] at hs
  exact .inr hs

theorem key_of_computed (hS : Sound C P) {g : String} (h : Computed C P g) : g ∈ aKeys (computeWriters C.model (rulesOf P)) := by
  obtain ⟨hm, b, hb, w, hw, hs⟩ := h
  exact ((C37_table C.model (rulesOf P)).2.1 g).2 ⟨⟨b.ref, b.body.writes⟩, List.mem_map.2 ⟨b, hb, rfl⟩, w, hw, (hS.own b hb w hw).1, hm, hs⟩

theorem segPrefix_both {a b : String} (h : SegPrefix a b) (h' : SegPrefix b a) : a = b := by
  rw [segPrefix_iff] at h h'
  exact String.ext (splitDotC_inj (h.eq_of_length (Nat.le_antisymm h.length_le h'.length_le)))

/-- a block that the goals may depend on writes something that leads to one of them -/
theorem relevant_write (hS : Sound C P) {goals : List String} (hg : ∀ g ∈ goals, Computed C P g) {r : BlockRef}
    (h : Relevant (sys C P) goals r) : ∃ b ∈ P, b.ref = r ∧ ∃ w ∈ b.body.writes, w ∈ (graphOf C P).reachable goals := by
  obtain ⟨g, hgm, a, ha, hr⟩ := h
  have hk := key_of_computed hS (hg g hgm)
  have root : ∃ b ∈ P, b.ref = a ∧ ∃ w ∈ b.body.writes, w ∈ (graphOf C P).reachable goals := by
    obtain ⟨t, _, htg, hmax, _, b, hb, e, w, hw, _, hu⟩ := asked_up ha
    have : t = g := segPrefix_both htg (hmax g hk List.prefix_rfl)
    subst this
    exact ⟨b, hb, e, w, hw, (mem_reachable _ _ _).2 ⟨t, hgm, node_key hk, hu⟩⟩
  induction hr with
  | refl => exact root
  | tail _ hd ih =>
    obtain ⟨b, hb, e, w, hw, hwr⟩ := ih
    obtain ⟨b', hb', q, hq, hc⟩ := dep_paths hd
    have : b' = b := by
      have := blockAt_mem hS.unique hb
      rw [e, hb'] at this
      exact Option.some.inj this
    subst this
    obtain ⟨d, hd, ed, w', hw', hu⟩ := dep_up hS hb hq hc hw
    obtain ⟨g', hg', hn, hu'⟩ := (mem_reachable _ _ _).1 hwr
    exact ⟨d, hd, ed, w', hw', (mem_reachable _ _ _).2 ⟨g', hg', hn, hu.trans hu'⟩⟩

theorem upstream_reachable {G : PGraph} {goals : List String} {a b : String} (h : (a, b) ∈ G.edges) (hb : b ∈ G.reachable goals) : a ∈ G.reachable goals := by
  obtain ⟨g, hg, hn, hu⟩ := (mem_reachable _ _ _).1 hb
  exact (mem_reachable _ _ _).2 ⟨g, hg, hn, .head h hu⟩

/-- what such a block reads leads to them too -/
theorem relevant_read (hS : Sound C P) (hD : Dotless C P) {goals : List String} {b : PBlock} (hb : b ∈ P) {w : String}
    (hw : w ∈ b.body.writes) (hr : w ∈ (graphOf C P).reachable goals) {q : List String}
    (hq : q ∈ C.paths b.body.sources ∨ ∃ p, q ∈ C.paths (b.body.chosen p)) : dots q ∈ (graphOf C P).reachable goals := by
  have hqa := all_paths hq
  refine upstream_reachable (read_edge hb hw (hS.own b hb w hw).1 (mem_io hqa) fun hs => ?_) hr
  exact no_self hS hb hq (served hS hb hb hqa hw (segPrefix_rel (paths_ne hqa) (hD b hb q hqa) hs))

theorem needed_relevant {goals : List String} {log : List (BlockRef × Pick)} {b : BlockRef}
    (h : Needed (sys C P) log (goals.flatMap (sys C P).writersOf) b) : Relevant (sys C P) goals b := by
  induction h with
  | root hm =>
    obtain ⟨g, hg, ha⟩ := List.mem_flatMap.1 hm
    exact ⟨g, hg, _, ha, .refl⟩
  | @read b p w _ hm hw ih =>
    obtain ⟨g, hg, a, ha, hr⟩ := ih
    refine ⟨g, hg, a, ha, hr.tail ?_⟩
    unfold asks at hw
    rw [List.flatMap_append] at hw
    rcases List.mem_append.1 hw with hw | hw <;> obtain ⟨x, hx, hw⟩ := List.mem_flatMap.1 hw
    · exact .inl ⟨x, hx, hw⟩
    · exact .inr ⟨p, x, hx, hw⟩

def owns (P : List PBlock) (r : BlockRef) (i : List String) : Prop := ∃ b, blockAt P r = some b ∧ ∃ w ∈ b.body.writes, i = splitDot w

theorem sharp (hS : Sound C P) : Sharp (sys C P) (view C P) (owns P) where
  touch r i := by
    rintro ⟨b, hb, w, hw, rfl⟩
    exact ⟨b, hb, w, hw, .inl List.prefix_rfl⟩
  excl r i _ := by
    rintro ⟨b, hb, w, hw, rfl⟩
    exact excl_write hS (blockAt_some hb).1 hw
  com r p cx cx' hr hp h h' hs := by
    obtain ⟨b, hb⟩ := rule_some hr
    obtain ⟨hbm, hbr⟩ := blockAt_some hb
    simp only [sys, hb] at hp ⊢
    obtain ⟨s1, _, hp⟩ := hp
    refine commit_same hS hbm ⟨s1, hp⟩ h h' (D := fun i => look cx.store i = look cx'.store i) (fun q hq => hs q (.inl ⟨b, hb, ?_⟩))
      (fun w hw => hs _ (.inr ⟨b, hb, w, hw, rfl⟩)) fun i hi => hi
    unfold Cfg.paths at hq ⊢
    rw [List.flatMap_append] at hq
    exact List.mem_append.1 hq

/-- what a successful run for the goals looked at is alike for inputs that are the same where the graph says -/
theorem alike (hS : Sound C P) (hD : Dotless C P) {goals : List String} (hg : ∀ g ∈ goals, Computed C P g) {m m' : List (String × Val)}
    (hin : ∀ x ∈ (graphOf C P).reachable goals, SameIn m m' x) (hout : ∀ b ∈ P, ∀ w ∈ b.body.writes, SameIn m m' w) {st : St Cx Pick}
    (h : drive (sys C P) (P.length + 1) goals (Cx.start (.obj m)) = some (.ok (), st)) :
    Alike (view C P) (owns P) (Cx.start (.obj m)) (Cx.start (.obj m')) st.log := by
  intro r p hm i hi
  have hneed := ((C36_exactly_needed h r).1 (List.mem_map.2 ⟨(r, p), hm, rfl⟩)).2
  obtain ⟨b, hb, rfl, w, hw, hwr⟩ := relevant_write hS hg (needed_relevant hneed)
  have hbr := blockAt_mem hS.unique hb
  have same : ∀ b', blockAt P b.ref = some b' → b' = b := fun b' hb' => Option.some.inj (hb'.symm.trans hbr)
  have reads : ∀ q, (q ∈ C.paths b.body.sources ∨ ∃ p, q ∈ C.paths (b.body.chosen p)) → look (.obj m) q = look (.obj m') q := by
    intro q hq
    have := hin _ (relevant_read hS hD hb hw hwr hq)
    unfold SameIn at this
    rwa [dots_back (paths_ne (all_paths hq)) (hD b hb q (all_paths hq))] at this
  rcases hi with ⟨b', hb', hq⟩ | ⟨b', hb', hq⟩ | ⟨b', hb', w', hw', rfl⟩ <;> obtain rfl := same b' hb'
  · exact reads i (.inl hq)
  · exact reads i (hq.imp_right fun hq => ⟨p, hq⟩)
  · exact hout b' hb w' hw'

theorem run_alike (hS : Sound C P) (hD : Dotless C P) {goals : List String} (hg : ∀ g ∈ goals, Computed C P g) {m m' : List (String × Val)}
    (hm : (aKeys m).Nodup) (hm' : (aKeys m').Nodup)
    (hin : ∀ x ∈ (graphOf C P).reachable goals, SameIn m m' x) (hout : ∀ b ∈ P, ∀ w ∈ b.body.writes, SameIn m m' w) {v : Val}
    (h : runPolicy C P goals (.obj m) = some (.ok v)) :
    ∃ v', runPolicy C P goals (.obj m') = some (.ok v') ∧ ∀ g ∈ goals, Goal C P g → v.dot g = v'.dot g := by
  obtain ⟨st, hd, rfl⟩ := run_ok h
  have hA := alike hS hD hg hin hout hd
  have hx : ∃ v', runPolicy C P goals (.obj m') = some (.ok v') := by
    obtain ⟨r, hr⟩ := C57_ends C P goals (.obj m')
    unfold runPolicy at hr ⊢
    obtain ⟨⟨r1, st1⟩, hd1, hr1⟩ := Option.map_eq_some_iff.1 hr
    have := drive_like (faithful hS) (sharp hS) (start_synced hm) (start_synced hm') hd hd1 hA fun g hg => hg
    subst this
    exact ⟨_, by rw [hd1]; rfl⟩
  obtain ⟨v', hv'⟩ := hx
  refine ⟨v', hv', fun g hgm hG => ?_⟩
  obtain ⟨st', hd', rfl⟩ := run_ok hv'
  have hk := key_of_computed hS (hg g hgm)
  have := drive_agree2 (faithful hS) (sharp hS) (start_synced hm) (start_synced hm') hd hd' hA (goal_excl hG)
    (hin g ((mem_reachable _ _ _).2 ⟨g, hgm, node_key hk, .refl⟩)) hgm hgm fun c _ ht => goal_served hS hG ht
  unfold dot
  rw [look_dot, look_dot, show look st.store.store (splitDot g) = look st'.store.store (splitDot g) from this]

theorem mem_inputs {goals : List String} {x : String} :
    x ∈ (graphOf C P).inputs goals ↔ x ∈ (graphOf C P).reachable goals ∧ x ∉ aKeys (computeWriters C.model (rulesOf P)) := by
  unfold PGraph.inputs
  rw [List.mem_filter, writers_eq]
  refine and_congr_right fun _ => ?_
  rw [Option.isNone_iff_eq_none, ← not_iff_not, not_not, ← isSome_keys, Option.isSome_iff_ne_none]

theorem missing_iff {optional goals : List String} {input : Val} {x : String} : x ∈ missing C P optional goals input ↔
    x ∈ (graphOf C P).inputs goals ∧ isOptional optional x = false ∧ satisfied input (splitDot x) = false := by
  unfold missing
  rw [(sortBy_perm _ _).mem_iff, List.mem_filter]
  simp

theorem satisfied_found : ∀ (v : Val) (p : List String) (x : Val), look v p = .found x → satisfied v p = true
  | v, [], _, _ => by cases v <;> rfl
  | .obj m, k :: ks, x, h => by
    unfold look at h
    unfold satisfied
    cases hm : aGet m k with
    | none => rw [hm] at h; cases h
    | some y => rw [hm] at h; exact satisfied_found y ks x h
  | .null, _ :: _, _, h | .bool _, _ :: _, _, h | .num _, _ :: _, _, h | .str _, _ :: _, _, h | .arr _, _ :: _, _, h | .dyn _, _ :: _, _, h => by cases h

theorem mem_sinks {x : String} : x ∈ (graphOf C P).sinks ↔ x ∈ aKeys (computeWriters C.model (rulesOf P)) ∧ ∀ y, (x, y) ∉ (graphOf C P).edges := by
  unfold PGraph.sinks
  rw [mem_dedup, List.mem_filter, writers_eq]
  simp only [Bool.and_eq_true, Bool.not_eq_true', isSome_keys, List.any_eq_false, decide_eq_true_eq, Prod.forall]
  constructor
  · rintro ⟨_, hk, hn⟩
    exact ⟨hk, fun y hy => hn x y hy rfl⟩
  · rintro ⟨hk, hn⟩
    exact ⟨node_key hk, hk, by rintro a y hy rfl; exact hn y hy⟩

/-- both ends of an edge are nodes, and the second is written -/
theorem edge_ends {x y : String} (h : (x, y) ∈ (graphOf C P).edges) :
    x ∈ (graphOf C P).nodes ∧ y ∈ aKeys (computeWriters C.model (rulesOf P)) := by
  obtain ⟨_, hk, _⟩ := C37_table C.model (rulesOf P)
  rcases List.mem_append.1 h with h | h
  · obtain ⟨r, hr, h⟩ := List.mem_flatMap.1 h
    obtain ⟨b, hb, rfl⟩ := List.mem_map.1 hr
    obtain ⟨w, hw, h⟩ := List.mem_flatMap.1 h
    obtain ⟨p, hp, e⟩ := List.mem_map.1 h
    injection e with e1 e2
    subst e1; subst e2
    obtain ⟨hw, hm⟩ := mem_kept.1 hw
    obtain ⟨hp, hpm⟩ := mem_above.1 hp
    have hbr : (⟨b.ref, b.body.writes⟩ : RuleWrites) ∈ rulesOf P := List.mem_map.2 ⟨b, hb, rfl⟩
    exact ⟨node_key ((hk w).2 ⟨_, hbr, w, hw, hm, hm, List.prefix_rfl⟩),
      (hk p).2 ⟨_, hbr, w, hw, hm, hpm, (segPrefix_cases p w).2 (.inr hp)⟩⟩
  · obtain ⟨r, hr, h⟩ := List.mem_flatMap.1 h
    obtain ⟨b, hb, rfl⟩ := List.mem_map.1 hr
    obtain ⟨w, hw, h⟩ := List.mem_flatMap.1 h
    obtain ⟨q, hq, h⟩ := List.mem_flatMap.1 h
    obtain ⟨hw, hm⟩ := mem_kept.1 hw
    have hbr : (⟨b.ref, b.body.writes⟩ : RuleWrites) ∈ rulesOf P := List.mem_map.2 ⟨b, hb, rfl⟩
    have hwk := (hk w).2 ⟨_, hbr, w, hw, hm, hm, List.prefix_rfl⟩
    unfold readEdges at h
    rcases List.mem_append.1 h with h | h
    · split at h
      · obtain ⟨rfl, rfl⟩ := Prod.mk.inj (List.mem_singleton.1 h)
        exact ⟨node_read hb hq, hwk⟩
      · cases h
    · obtain ⟨a, ha, e⟩ := List.mem_map.1 h
      obtain ⟨rfl, rfl⟩ := Prod.mk.inj e
      refine ⟨?_, hwk⟩
      have := (List.mem_filter.1 ha).2
      simp only [Bool.and_eq_true, List.contains_iff_mem] at this
      exact this.1

/-! ## Theorems -/

/-- The search finds exactly what leads to the goals that are nodes. -/
theorem C68_reachable (G : PGraph) (goals : List String) (q : String) :
    q ∈ G.reachable goals ↔ ∃ g ∈ goals, g ∈ G.nodes ∧ Upstream G q g := mem_reachable G goals q

/-- A block that the goals may depend on writes something the search finds, and everything it reads, whatever it chooses, is found. -/
theorem C68_covers (hS : Sound C P) (hD : Dotless C P) (goals : List String) (hg : ∀ g ∈ goals, Computed C P g) (r : BlockRef)
    (h : Relevant (sys C P) goals r) : ∃ b ∈ P, b.ref = r ∧ (∃ w ∈ b.body.writes, w ∈ (graphOf C P).reachable goals) ∧
      ∀ q, (q ∈ C.paths b.body.sources ∨ ∃ p, q ∈ C.paths (b.body.chosen p)) → dots q ∈ (graphOf C P).reachable goals := by
  obtain ⟨b, hb, e, w, hw, hr⟩ := relevant_write hS hg h
  exact ⟨b, hb, e, ⟨w, hw, hr⟩, fun q hq => relevant_read hS hD hb hw hr hq⟩

/-- The graph: its nodes are the paths that are read, and those that are written or part of which is written; every written path leads to what
it is part of; and what a block reads, with the written objects that it is part of, leads to what the block writes, unless it is that or has that
as a part. Nothing else does. -/
theorem C68_graph (x y : String) :
    (x ∈ (graphOf C P).nodes ↔ (∃ b ∈ P, x ∈ (b.io C).reads) ∨ Written C P x) ∧
    ((x, y) ∈ (graphOf C P).edges ↔ ∃ b ∈ P,
      (x ∈ b.body.writes ∧ C.model x = false ∧ C.model y = false ∧ SegPrefix y x ∧ y ≠ x) ∨
      (y ∈ b.body.writes ∧ C.model y = false ∧ ¬ SegPrefix x y ∧ ∃ r ∈ (b.io C).reads, x = r ∨ (SegPrefix x r ∧ Written C P x))) := by
  have keys : ∀ t, t ∈ aKeys (computeWriters C.model (rulesOf P)) ↔ Written C P t := by
    intro t
    rw [(C37_table C.model (rulesOf P)).2.1 t]
    constructor
    · rintro ⟨r, hr, w, hw, hm, ht, hs⟩
      obtain ⟨b, hb, rfl⟩ := List.mem_map.1 hr
      exact ⟨ht, b, hb, w, hw, hm, hs⟩
    · rintro ⟨ht, b, hb, w, hw, hm, hs⟩
      exact ⟨_, List.mem_map.2 ⟨b, hb, rfl⟩, w, hw, hm, ht, hs⟩
  have proper : ∀ p w : String, p ∈ dotPrefixes w → p ≠ w := by
    rintro p w h rfl
    unfold dotPrefixes at h
    obtain ⟨cs, hcs, e⟩ := List.mem_map.1 h
    obtain ⟨r, hr⟩ := (mem_dotPrefixesC _ _).1 hcs
    rw [← e, String.toList_ofList] at hr
    have := congrArg List.length hr
    simp at this
  refine ⟨⟨fun hk => ?_, ?_⟩, ⟨fun he => ?_, ?_⟩⟩
  · obtain ⟨r, hr, hk⟩ := List.mem_flatMap.1 hk
    obtain ⟨b, hb, rfl⟩ := List.mem_map.1 hr
    rcases List.mem_append.1 hk with hk | hk
    · exact .inl ⟨b, hb, hk⟩
    · obtain ⟨w, hw, hk⟩ := List.mem_flatMap.1 hk
      obtain ⟨hw, hm⟩ := mem_kept.1 hw
      rcases List.mem_cons.1 hk with rfl | hk
      · exact .inr ⟨hm, b, hb, x, hw, hm, List.prefix_rfl⟩
      · obtain ⟨hk, hkm⟩ := mem_above.1 hk
        exact .inr ⟨hkm, b, hb, w, hw, hm, (segPrefix_cases x w).2 (.inr hk)⟩
  · rintro (⟨b, hb, hx⟩ | hx)
    · exact node_read hb hx
    · exact node_key ((keys x).2 hx)
  · rcases List.mem_append.1 he with he | he
    · obtain ⟨r, hr, he⟩ := List.mem_flatMap.1 he
      obtain ⟨b, hb, rfl⟩ := List.mem_map.1 hr
      obtain ⟨w, hw, he⟩ := List.mem_flatMap.1 he
      obtain ⟨p, hp, e⟩ := List.mem_map.1 he
      injection e with e1 e2
      subst e1 e2
      obtain ⟨hp, hpm⟩ := mem_above.1 hp
      exact ⟨b, hb, .inl ⟨(mem_kept.1 hw).1, (mem_kept.1 hw).2, hpm, (segPrefix_cases p w).2 (.inr hp), proper p w hp⟩⟩
    · obtain ⟨r, hr, he⟩ := List.mem_flatMap.1 he
      obtain ⟨b, hb, rfl⟩ := List.mem_map.1 hr
      obtain ⟨w, hw, he⟩ := List.mem_flatMap.1 he
      obtain ⟨q, hq, he⟩ := List.mem_flatMap.1 he
      obtain ⟨hw, hm⟩ := mem_kept.1 hw
      rcases List.mem_append.1 he with he | he
      · split at he
        · rename_i hc
          simp only [Bool.and_eq_true, Bool.not_eq_true'] at hc
          have e := List.mem_singleton.1 he
          injection e with e1 e2
          subst e1 e2
          exact ⟨b, hb, .inr ⟨hw, hm, fun hs => by rw [(C37_extends x y).2 hs] at hc; exact absurd hc.2.2 (by simp), x, hq, .inl rfl⟩⟩
        · cases he
      · obtain ⟨t, ht, e⟩ := List.mem_map.1 he
        injection e with e1 e2
        subst e1 e2
        obtain ⟨ht, hc⟩ := List.mem_filter.1 ht
        simp only [Bool.and_eq_true, Bool.not_eq_true'] at hc
        refine ⟨b, hb, .inr ⟨hw, hm, fun hs => by rw [(C37_extends t w).2 hs] at hc; exact absurd hc.2.2.2 (by simp), q, hq,
          .inr ⟨(segPrefix_cases t q).2 (.inr ht), (keys t).1 (isSome_keys.1 (by rw [← writers_eq]; exact hc.2.2.1))⟩⟩⟩
  · rintro ⟨b, hb, ⟨hx, hm, hmy, hs, hne⟩ | ⟨hy, hm, hn, r, hr, rfl | ⟨hs, hw⟩⟩⟩
    · refine List.mem_append_left _ (List.mem_flatMap.2 ⟨b.io C, List.mem_map.2 ⟨b, hb, rfl⟩, List.mem_flatMap.2 ⟨x, mem_kept.2 ⟨hx, hm⟩, ?_⟩⟩)
      exact List.mem_map.2 ⟨y, mem_above.2 ⟨((segPrefix_cases y x).1 hs).resolve_left hne, hmy⟩, rfl⟩
    · exact read_edge hb hy hm hr hn
    · exact key_edge hb hy hm hr ((keys x).2 hw) hs hn

/-- Two inputs that are the same at everything the search finds, and at what the blocks write, give the same: both runs fail, or both
succeed with the same values for the goals. -/
theorem C68_depends (hS : Sound C P) (hD : Dotless C P) (goals : List String) (hg : ∀ g ∈ goals, Computed C P g) (m m' : List (String × Val))
    (hm : (aKeys m).Nodup) (hm' : (aKeys m').Nodup) (hin : ∀ x ∈ (graphOf C P).reachable goals, SameIn m m' x)
    (hout : ∀ b ∈ P, ∀ w ∈ b.body.writes, SameIn m m' w) :
    (∃ v v', runPolicy C P goals (.obj m) = some (.ok v) ∧ runPolicy C P goals (.obj m') = some (.ok v') ∧
      ∀ g ∈ goals, Goal C P g → v.dot g = v'.dot g) ∨
    ∃ e e', runPolicy C P goals (.obj m) = some (.error e) ∧ runPolicy C P goals (.obj m') = some (.error e') := by
  obtain ⟨r, hr⟩ := C57_ends C P goals (.obj m)
  obtain ⟨r', hr'⟩ := C57_ends C P goals (.obj m')
  cases r with
  | ok v =>
    obtain ⟨v', h', hs⟩ := run_alike hS hD hg hm hm' hin hout hr
    exact .inl ⟨v, v', hr, h', hs⟩
  | error e =>
    cases r' with
    | error e' => exact .inr ⟨e, e', hr, hr'⟩
    | ok v' =>
      obtain ⟨v, h, _⟩ := run_alike hS hD hg hm' hm (fun x hx => (hin x hx).symm) (fun b hb w hw => (hout b hb w hw).symm) hr'
      rw [hr] at h; cases h

/-- For inputs that have nothing where the policy computes something, it is enough that they are the same at the inputs that are listed. -/
theorem C68_inputs (hS : Sound C P) (hD : Dotless C P) (goals : List String) (hg : ∀ g ∈ goals, Computed C P g) (m m' : List (String × Val))
    (hm : (aKeys m).Nodup) (hm' : (aKeys m').Nodup) (hin : ∀ x ∈ (graphOf C P).inputs goals, SameIn m m' x)
    (hout : ∀ x, Computed C P x → look (.obj m) (splitDot x) = .missing ∧ look (.obj m') (splitDot x) = .missing) :
    (∃ v v', runPolicy C P goals (.obj m) = some (.ok v) ∧ runPolicy C P goals (.obj m') = some (.ok v') ∧
      ∀ g ∈ goals, Goal C P g → v.dot g = v'.dot g) ∨
    ∃ e e', runPolicy C P goals (.obj m) = some (.error e) ∧ runPolicy C P goals (.obj m') = some (.error e') := by
  have out : ∀ x, Computed C P x → SameIn m m' x := fun x hx => (hout x hx).1.trans (hout x hx).2.symm
  refine C68_depends hS hD goals hg m m' hm hm' (fun x hx => ?_) fun b hb w hw =>
    out w ⟨(hS.own b hb w hw).1, b, hb, w, hw, List.prefix_rfl⟩
  by_cases hk : x ∈ aKeys (computeWriters C.model (rulesOf P))
  · obtain ⟨r, hr, w, hw, hc⟩ := ((C37_table C.model (rulesOf P)).2.1 x).1 hk
    obtain ⟨b, hb, rfl⟩ := List.mem_map.1 hr
    exact out x ⟨hc.2.1, b, hb, w, hw, hc.2.2⟩
  · exact hin x (mem_inputs.2 ⟨hx, hk⟩)

/-- A request with goals that are computed is run, and gives what the run gives, exactly if every listed input is optional or there; otherwise
it is rejected with the listed inputs that are neither. -/
theorem C68_request (hS : Sound C P) (optional goals : List String) (hne : goals ≠ []) (hg : ∀ g ∈ goals, Computed C P g) (input : Val) :
    (request C P optional goals input = (runPolicy C P goals input).map (Except.mapError .run) ∧
      ∀ x ∈ (graphOf C P).inputs goals, isOptional optional x = true ∨ satisfied input (splitDot x) = true) ∨
    ∃ xs, xs ≠ [] ∧ request C P optional goals input = some (.error (.missingInputs xs)) ∧
      ∀ x, x ∈ xs ↔ x ∈ (graphOf C P).inputs goals ∧ isOptional optional x = false ∧ satisfied input (splitDot x) = false := by
  have hf : goals.find? (fun g => !(graphOf C P).nodes.contains g) = none := by
    rw [List.find?_eq_none]
    intro g hgm
    simpa using node_key (key_of_computed hS (hg g hgm))
  have he : goals.isEmpty = false := by cases goals with
    | nil => exact absurd rfl hne
    | cons _ _ => rfl
  unfold request
  simp only [hf, he, Bool.false_eq_true, if_false]
  cases hmis : missing C P optional goals input with
  | nil =>
    refine .inl ⟨rfl, fun x hx => ?_⟩
    by_cases ho : isOptional optional x = true
    · exact .inl ho
    · refine .inr (Decidable.byContradiction fun hs => ?_)
      have : x ∈ missing C P optional goals input := missing_iff.2 ⟨hx, by simpa using ho, by simpa using hs⟩
      rw [hmis] at this; cases this
  | cons a l =>
    refine .inr ⟨a :: l, by simp, rfl, fun x => ?_⟩
    rw [← hmis]
    exact missing_iff

/-- Optional is what the data model has as optional and everything below it. -/
theorem C68_optional (optional : List String) (p : String) : isOptional optional p = true ↔ ∃ o ∈ optional, SegPrefix o p := by
  unfold isOptional
  rw [Bool.or_eq_true, List.any_eq_true, List.contains_iff_mem]
  constructor
  · rintro (h | ⟨o, ho, h⟩)
    · exact ⟨p, h, List.prefix_rfl⟩
    · exact ⟨o, ho, (C37_extends o p).1 h⟩
  · rintro ⟨o, ho, h⟩
    exact .inr ⟨o, ho, (C37_extends o p).2 h⟩

/-- An input is there if it has a value, `null` among them, or if an array is on the way to it. -/
theorem C68_satisfied (input : Val) (p : List String) : satisfied input p = true ↔
    (∃ v, look input p = .found v) ∨ ∃ q r xs, p = q ++ r ∧ r ≠ [] ∧ look input q = .found (.arr xs) := by
  constructor
  · intro h
    induction p generalizing input with
    | nil => exact .inl ⟨input, by cases input <;> rfl⟩
    | cons k ks ih =>
      cases input with
      | arr xs => exact .inr ⟨[], k :: ks, xs, rfl, by simp, rfl⟩
      | obj m =>
        unfold satisfied at h
        unfold look
        cases hm : aGet m k with
        | none => rw [hm] at h; cases h
        | some x =>
          rw [hm] at h
          rcases ih x h with ⟨v, hv⟩ | ⟨q, r, xs, rfl, hr, hq⟩
          · exact .inl ⟨v, hv⟩
          · exact .inr ⟨k :: q, r, xs, rfl, hr, by simp only [look, hm]; exact hq⟩
      | null | bool _ | num _ | str _ | dyn _ => cases h
  · rintro (⟨v, hv⟩ | ⟨q, r, xs, rfl, hr, hq⟩)
    · exact satisfied_found _ _ v hv
    · induction q generalizing input with
      | nil =>
        cases r with
        | nil => exact absurd rfl hr
        | cons k ks =>
          cases input <;> unfold look at hq <;> first | (injection hq with e; cases e; rfl) | cases hq
      | cons k ks ih =>
        cases input with
        | obj m =>
          unfold look at hq
          rw [List.cons_append]
          unfold satisfied
          cases hm : aGet m k with
          | none => rw [hm] at hq; cases hq
          | some x => rw [hm] at hq; exact ih x hq
        | null | bool _ | num _ | str _ | dyn _ | arr _ => cases hq

/-- A goal is known if a block reads it or it is computed; the first that is not is reported, before anything else. -/
theorem C68_unknown_goal (hS : Sound C P) (optional goals : List String) (input : Val) (g : String) :
    request C P optional goals input = some (.error (.goalNotFound g)) ↔
      ∃ before after, goals = before ++ g :: after ∧ (¬ Computed C P g ∧ ∀ b ∈ P, g ∉ (b.io C).reads) ∧
        ∀ k ∈ before, Computed C P k ∨ ∃ b ∈ P, k ∈ (b.io C).reads := by
  have node : ∀ k, k ∈ (graphOf C P).nodes ↔ Computed C P k ∨ ∃ b ∈ P, k ∈ (b.io C).reads := by
    intro k
    constructor
    · intro hk
      obtain ⟨r, hr, hk⟩ := List.mem_flatMap.1 hk
      obtain ⟨b, hb, rfl⟩ := List.mem_map.1 hr
      rcases List.mem_append.1 hk with hk | hk
      · exact .inr ⟨b, hb, hk⟩
      · obtain ⟨w, hw, hk⟩ := List.mem_flatMap.1 hk
        obtain ⟨hw, hm⟩ := mem_kept.1 hw
        rcases List.mem_cons.1 hk with rfl | hk
        · exact .inl ⟨hm, b, hb, k, hw, List.prefix_rfl⟩
        · obtain ⟨hk, hkm⟩ := mem_above.1 hk
          exact .inl ⟨hkm, b, hb, w, hw, (segPrefix_cases k w).2 (.inr hk)⟩
    · rintro (hk | ⟨b, hb, hk⟩)
      · exact node_key (key_of_computed hS hk)
      · exact node_read hb hk
  have find : request C P optional goals input = some (.error (.goalNotFound g)) ↔
      goals.find? (fun g => !(graphOf C P).nodes.contains g) = some g := by
    unfold request
    cases hf : goals.find? (fun g => !(graphOf C P).nodes.contains g) with
    | some g' => simp
    | none =>
      simp only [reduceCtorEq, iff_false]
      have run : ∀ gs, (runPolicy C P gs input).map (fun r => r.mapError ReqErr.run) ≠ some (.error (.goalNotFound g)) := by
        intro gs h
        obtain ⟨r, _, h⟩ := Option.map_eq_some_iff.1 h
        cases r <;> cases h
      split
      · exact run _
      · split
        · exact run _
        · simp
  rw [find, List.find?_eq_some_iff_append]
  have gn : (!(graphOf C P).nodes.contains g) = true ↔ (¬ Computed C P g ∧ ∀ b ∈ P, g ∉ (b.io C).reads) := by
    rw [Bool.not_eq_true', ← Bool.not_eq_true, List.contains_iff_mem, node]
    simp
  constructor
  · rintro ⟨hn, as, bs, rfl, ha⟩
    exact ⟨as, bs, rfl, gn.1 hn, fun k hk => (node k).1 (by simpa using ha k hk)⟩
  · rintro ⟨as, bs, rfl, hn, ha⟩
    exact ⟨gn.2 hn, as, bs, rfl, fun k hk => by simpa using (node k).2 (ha k hk)⟩

/-- An input that has a value at every listed input is not rejected. -/
theorem C68_enough (hS : Sound C P) (optional goals : List String) (hne : goals ≠ []) (hg : ∀ g ∈ goals, Computed C P g) (input : Val)
    (hin : ∀ x ∈ (graphOf C P).inputs goals, ∃ v, input.dot x = some v) :
    request C P optional goals input = (runPolicy C P goals input).map (Except.mapError .run) := by
  rcases C68_request hS optional goals hne hg input with ⟨h, _⟩ | ⟨xs, hx, _, h⟩
  · exact h
  · obtain ⟨x, l, rfl⟩ : ∃ x l, xs = x :: l := by cases xs with
      | nil => exact absurd rfl hx
      | cons x l => exact ⟨x, l, rfl⟩
    obtain ⟨hi, _, hs⟩ := (h x).1 (by simp)
    obtain ⟨v, hv⟩ := hin x hi
    unfold dot at hv
    rw [look_dot] at hv
    split at hv
    · rename_i y hy
      rw [satisfied_found _ _ y hy] at hs; cases hs
    · cases hv

/-- So when a request is run, what a block it may need reads from the input, with no block writing it or above it, is optional or there. -/
theorem C68_there (hS : Sound C P) (hD : Dotless C P) (optional goals : List String) (hg : ∀ g ∈ goals, Computed C P g) (input : Val)
    (hrun : missing C P optional goals input = []) (b : PBlock) (hb : b ∈ P) (hr : Relevant (sys C P) goals b.ref) (q : List String)
    (hq : q ∈ C.paths b.body.sources ∨ ∃ p, q ∈ C.paths (b.body.chosen p))
    (hin : ∀ c ∈ P, ∀ w ∈ c.body.writes, ¬ Rel (splitDot w) q) :
    isOptional optional (dots q) = true ∨ satisfied input q = true := by
  obtain ⟨b', hb', e, w, hw, hwr⟩ := relevant_write hS hg hr
  have : b' = b := by
    have h1 := blockAt_mem hS.unique hb
    have h2 := blockAt_mem hS.unique hb'
    rw [e, h1] at h2
    exact (Option.some.inj h2).symm
  subst this
  have hqa := all_paths hq
  have hd := hD b' hb q hqa
  have hn : dots q ∉ aKeys (computeWriters C.model (rulesOf P)) := by
    intro hk
    obtain ⟨r, hr, w', hw', hc⟩ := ((C37_table C.model (rulesOf P)).2.1 _).1 hk
    obtain ⟨c, hc', rfl⟩ := List.mem_map.1 hr
    exact hin c hc' w' hw' (segPrefix_rel (paths_ne hqa) hd hc.2.2)
  have hi := mem_inputs.2 ⟨relevant_read hS hD hb hw hwr hq, hn⟩
  by_cases ho : isOptional optional (dots q) = true
  · exact .inl ho
  · refine .inr (Decidable.byContradiction fun hs => ?_)
    have : dots q ∈ missing C P optional goals input := missing_iff.2 ⟨hi, by simpa using ho, by rw [dots_back (paths_ne hqa) hd]; simpa using hs⟩
    rw [hrun] at this; cases this

/-- Without goals the request is for the paths that are written and lead nowhere. -/
theorem C68_sinks (hS : Sound C P) (optional : List String) (input : Val) :
    request C P optional [] input = (runPolicy C P (graphOf C P).sinks input).map (Except.mapError .run) ∧
      ∀ x, x ∈ (graphOf C P).sinks ↔ Computed C P x ∧ ∀ y, (x, y) ∉ (graphOf C P).edges := by
  refine ⟨rfl, fun x => mem_sinks.trans (and_congr_left fun _ => ⟨fun hk => ?_, key_of_computed hS⟩)⟩
  obtain ⟨r, hr, w, hw, hc⟩ := ((C37_table C.model (rulesOf P)).2.1 x).1 hk
  obtain ⟨b, hb, rfl⟩ := List.mem_map.1 hr
  exact ⟨hc.2.1, b, hb, w, hw, hc.2.2⟩

/-- When no path leads to itself, everything that is written leads to one of them. -/
theorem C68_no_goals (hS : Sound C P) (hG : Straight (graphOf C P)) (b : PBlock) (hb : b ∈ P) (w : String) (hw : w ∈ b.body.writes) :
    w ∈ (graphOf C P).reachable (graphOf C P).sinks := by
  let R : {x // x ∈ (graphOf C P).nodes} → {x // x ∈ (graphOf C P).nodes} → Prop :=
    fun a b => Relation.TransGen (fun a b => (a, b) ∈ (graphOf C P).edges) b.1 a.1
  have : Finite {x // x ∈ (graphOf C P).nodes} := (List.finite_toSet _).to_subtype
  have : IsTrans _ R := ⟨fun a b c h1 h2 => h2.trans h1⟩
  have : Std.Irrefl R := ⟨fun a h => hG _ h⟩
  have wf : WellFounded R := Finite.wellFounded_of_trans_of_irrefl R
  have main : ∀ x : {x // x ∈ (graphOf C P).nodes}, x.1 ∈ aKeys (computeWriters C.model (rulesOf P)) → x.1 ∈ (graphOf C P).reachable (graphOf C P).sinks := by
    intro x
    induction x using wf.induction with
    | _ x ih =>
      intro hk
      by_cases hs : ∃ y, (x.1, y) ∈ (graphOf C P).edges
      · obtain ⟨y, hy⟩ := hs
        have hyk := (edge_ends hy).2
        exact upstream_reachable hy (ih ⟨y, node_key hyk⟩ (.single hy) hyk)
      · exact (mem_reachable _ _ _).2 ⟨x.1, mem_sinks.2 ⟨hk, fun y hy => hs ⟨y, hy⟩⟩, x.2, .refl⟩
  have hk := key_of_computed hS ⟨(hS.own b hb w hw).1, b, hb, w, hw, List.prefix_rfl⟩
  exact main ⟨w, node_key hk⟩ hk

/-! ## Instances -/

theorem unit_dotless : Dotless unitCfg unitPolicy := by unfold Dotless; decide +kernel

theorem unit_computed : ∀ g ∈ ["d.v", "r.ok"], Computed unitCfg unitPolicy g := by unfold Computed SegPrefix; decide +kernel

/-- what the table needs, and what a request without goals is for -/
example : (graphOf unitCfg unitPolicy).reachable ["d.v"] = ["d.v", "a", "x", "y"] ∧ (graphOf unitCfg unitPolicy).inputs ["d.v"] = ["x", "y"] ∧
    (graphOf unitCfg unitPolicy).sinks = ["d", "r"] := by decide +kernel

/-- anything else may be different -/
example : (∃ v v', runPolicy unitCfg unitPolicy ["d.v"] (.obj unitInput) = some (.ok v) ∧
      runPolicy unitCfg unitPolicy ["d.v"] (.obj [("q", .null), ("y", .num 2), ("x", .num 3)]) = some (.ok v') ∧
      ∀ g ∈ ["d.v"], Goal unitCfg unitPolicy g → v.dot g = v'.dot g) ∨
    ∃ e e', runPolicy unitCfg unitPolicy ["d.v"] (.obj unitInput) = some (.error e) ∧
      runPolicy unitCfg unitPolicy ["d.v"] (.obj [("q", .null), ("y", .num 2), ("x", .num 3)]) = some (.error e') :=
  C68_depends unit_sound unit_dotless ["d.v"] (fun g hg => unit_computed g (by simp_all)) _ _ (by decide +kernel) (by decide +kernel)
    (by
      have : (graphOf unitCfg unitPolicy).reachable ["d.v"] = ["d.v", "a", "x", "y"] := by decide +kernel
      rw [this]
      simp only [List.mem_cons, List.not_mem_nil, or_false]
      rintro x (rfl | rfl | rfl | rfl) <;> rfl)
    (by
      intro b hb w hw
      have : ∀ b ∈ unitPolicy, ∀ w ∈ b.body.writes, w ∈ ["r.ok", "d.v", "d.all", "r.m", "a"] := by decide +kernel
      have := this b hb w hw
      simp only [List.mem_cons, List.not_mem_nil, or_false] at this
      rcases this with rfl | rfl | rfl | rfl | rfl <;> rfl)

example : ∃ v, request unitCfg unitPolicy [] ["d.v"] (.obj unitInput) = some (.ok v) ∧ v.dot "d.v" = some (.num 3) := ⟨_, rfl, rfl⟩
example : request unitCfg unitPolicy [] ["d.v", "z"] (.obj []) = some (.error (.goalNotFound "z")) := rfl
example : request unitCfg unitPolicy [] ["d.v"] (.obj [("y", .num 1)]) = some (.error (.missingInputs ["x"])) := rfl
example : ∃ v, request unitCfg unitPolicy ["x"] ["d.v"] (.obj [("y", .num 1)]) = some (.ok v) ∧ v.dot "d.v" = some .null := ⟨_, rfl, rfl⟩

/-- a number for each path that grows along the edges rules out cycles -/
theorem straight_of_rank {G : PGraph} (rank : String → Nat) (h : ∀ e ∈ G.edges, rank e.1 < rank e.2) : Straight G := by
  have : ∀ a b, Relation.TransGen (fun a b => (a, b) ∈ G.edges) a b → rank a < rank b := by
    intro a b ht
    induction ht with
    | single he => exact h _ he
    | tail _ he ih => exact lt_trans ih (h _ he)
  exact fun x hx => lt_irrefl _ (this x x hx)

example : ∀ b ∈ unitPolicy, ∀ w ∈ b.body.writes, w ∈ (graphOf unitCfg unitPolicy).reachable ["d", "r"] :=
  have h : (graphOf unitCfg unitPolicy).sinks = ["d", "r"] := by decide +kernel
  h ▸ C68_no_goals unit_sound (straight_of_rank (fun x => if x ∈ ["x", "y"] then 0 else if x = "a" then 1 else if x = "r.m" then 2 else if x = "r.ok" then 3
    else if x ∈ ["d.v", "d.all"] then 2 else 4) (by decide +kernel))

/-- the read of `y` leads to what is computed from it, and that to what it is part of -/
example : ("y", "d.v") ∈ (graphOf unitCfg unitPolicy).edges ∧ ("d.v", "d") ∈ (graphOf unitCfg unitPolicy).edges := by decide +kernel

/-! ## Findings -/

def graphFront : FrontEnd := fun _ src =>
  if src = "x" then .ok (.ident "x") else if src = "y" then .ok (.ident "y") else if src = "a" then .ok (.ident "a")
  else if src = "r" then .ok (.ident "r") else if src = "r.m" then .ok (.member (.ident "r") (.str "m"))
  else if src = "$root.a" then .ok (.member .root (.str "a"))
  else if src = "x[\"a.b\"]" then .ok (.member (.ident "x") (.str "a.b"))
  else .error (.front "unexpected")

def graphCfg : Cfg := { unitCfg with F := graphFront, model := matchesModel ["x", "y"] }

def gBlk (name key value : String) : PBlock := ⟨⟨"p", name⟩, .expression key value⟩

/-- the two answers of a request and of the run it stands for -/
def Refused (P : List PBlock) (goal : String) (input : List (String × Val)) (xs : List String) (x : Val) : Prop :=
  request graphCfg P [] [goal] (.obj input) = some (.error (.missingInputs xs)) ∧
    ∃ v, runPolicy graphCfg P [goal] (.obj input) = some (.ok v) ∧ v.dot goal = some x

/-- NEGATIVE: a field of something that is computed counts as an input, so a request for what reads it is refused. -/
theorem C68_field_of_computed : Refused [gBlk "A" "r" "x", gBlk "B" "k" "r.m"] "k" [("x", .obj [("m", .num 1)])] ["r.m"] (.num 1) :=
  ⟨rfl, _, rfl, rfl⟩

/-- NEGATIVE: and so does a read below `$root`, even if a block computes it. -/
theorem C68_root : Refused [gBlk "A" "a" "x", gBlk "B" "b" "$root.a"] "b" [("x", .num 1), ("a", .num 2)] ["$root.a"] (.num 2) :=
  ⟨rfl, _, rfl, rfl⟩

/-- NEGATIVE: a key with a dot in it is looked for as a path. -/
theorem C68_dotted_key : Refused [gBlk "A" "a" "x[\"a.b\"]"] "a" [("x", .obj [("a.b", .num 1)])] ["x.a.b"] (.num 1) :=
  ⟨rfl, _, rfl, rfl⟩

/-- NEGATIVE: what is read of a computed object is needed with all its other parts, so inputs are demanded that the run does not look at. -/
theorem C68_siblings : Refused [gBlk "A" "r.m" "x", gBlk "B" "r.n" "y", gBlk "K" "k" "r.m"] "k" [("x", .num 1)] ["y"] (.num 1) :=
  ⟨rfl, _, rfl, rfl⟩

/-- NEGATIVE: inputs for an arm that is not taken are demanded. -/
theorem C68_other_arm : Refused [⟨⟨"p", "M"⟩, .match_ { key := "k", arms := [⟨"1", "x", "x"⟩, ⟨"2", "", "y"⟩] }⟩] "k" [("x", .bool true)] ["y"] (.bool true) :=
  ⟨rfl, _, rfl, rfl⟩

/-- a policy in which a part of an object is computed from another part through a third path -/
def loopPolicy : List PBlock := [gBlk "A" "r.m" "x", gBlk "B" "a" "r.m", gBlk "N" "r.n" "a"]

theorem loop_sound : Sound graphCfg loopPolicy where
  unique := by decide +kernel
  order l := List.Perm.refl l
  columns := by
    intro b hb t ht
    simp only [loopPolicy, List.mem_cons, List.not_mem_nil, or_false] at hb
    rcases hb with rfl | rfl | rfl <;> cases ht
  apart := by unfold Apart; decide +kernel
  own := by decide +kernel
  readable := by
    have : ∀ b ∈ loopPolicy, ∀ s ∈ b.body.sources ++ b.body.later, (match graphCfg.F s.1 s.2 with
      | .ok n => Reads.tame n && decide (Reads.nesting n < 32) &&
          (Reads.planned (isUnary s.1) n).all fun q => decide (q ∈ graphCfg.reads s.1 s.2) && decide (q.head? ≠ some "$root")
      | .error _ => true) = true := by decide +kernel
    exact fun b hb s hs => readable_of_check (this b hb s hs)
  single := by decide +kernel
  free := by decide +kernel
  acyclic := acyclic_of_rank (rank := fun r => if r.block = "A" then 0 else if r.block = "B" then 1 else 2) (by unfold Ranked; decide +kernel)

/-- NEGATIVE: no block of this policy depends on itself, and a run for `r.n` computes it. But the graph has a cycle, because `a` is said to need
the whole `r`; so no path leads nowhere, and a request without goals computes nothing. -/
theorem C68_false_cycle : Sound graphCfg loopPolicy ∧ ¬ Straight (graphOf graphCfg loopPolicy) ∧
    (∃ v, runPolicy graphCfg loopPolicy ["r.n"] (.obj [("x", .num 1)]) = some (.ok v) ∧ v.dot "r.n" = some (.num 1)) ∧
    request graphCfg loopPolicy [] [] (.obj [("x", .num 1)]) = some (.ok (.obj [("x", .num 1)])) := by
  refine ⟨loop_sound, fun h => h "a" ?_, ⟨_, rfl, rfl⟩, rfl⟩
  exact .tail (.tail (.single (show ("a", "r.n") ∈ _ by decide +kernel)) (show ("r.n", "r") ∈ _ by decide +kernel)) (show ("r", "a") ∈ _ by decide +kernel)

/-- NEGATIVE: without goals a part of an object is left out when another part is read. -/
theorem C68_part_left_out : ∃ v, request graphCfg [gBlk "A" "r.m" "x", gBlk "B" "r.n" "y", gBlk "K" "k" "r.m"] [] [] (.obj [("x", .num 1), ("y", .num 2)]) = some (.ok v) ∧
    v.dot "k" = some (.num 1) ∧ v.dot "r.n" = none := ⟨_, rfl, rfl, rfl⟩

/-- NEGATIVE: the listed inputs are not all a run looks at when an object is partly computed and partly given. -/
theorem C68_part_given : (graphOf graphCfg [gBlk "A" "r.m" "x", gBlk "K" "k" "r"]).inputs ["k"] = ["x"] ∧
    ∃ v v', runPolicy graphCfg [gBlk "A" "r.m" "x", gBlk "K" "k" "r"] ["k"] (.obj [("x", .num 1), ("r", .obj [("n", .num 1)])]) = some (.ok v) ∧
      runPolicy graphCfg [gBlk "A" "r.m" "x", gBlk "K" "k" "r"] ["k"] (.obj [("x", .num 1), ("r", .obj [("n", .num 2)])]) = some (.ok v') ∧
      v.dot "k.n" = some (.num 1) ∧ v'.dot "k.n" = some (.num 2) := ⟨by decide +kernel, _, _, rfl, rfl, rfl, rfl⟩

end Zen.Policy
