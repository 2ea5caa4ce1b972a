import Verif.Policy.DepGraph
import Verif.Policy.Starts
import Verif.Props.C57
/-
The graph of a policy and the blocks that a run asks for.
-/
namespace Zen.Policy
open Zen Zen.Val

/-- `q` is on a way that leads to `g` -/
def Upstream (G : PGraph) : String → String → Prop := Relation.ReflTransGen fun a b => (a, b) ∈ G.edges

/-! ### The search -/

theorem mem_ups {G : PGraph} {a p : String} : a ∈ G.ups p ↔ (a, p) ∈ G.edges := by
  unfold PGraph.ups
  constructor
  · intro h
    obtain ⟨⟨x, y⟩, he, rfl⟩ := List.mem_map.1 h
    obtain ⟨he, hy⟩ := List.mem_filter.1 he
    rw [show y = p from by simpa using hy] at he
    exact he
  · intro h
    exact List.mem_map.2 ⟨_, List.mem_filter.2 ⟨h, by simp⟩, rfl⟩

/-- edges into what was not seen yet -/
def PGraph.left (G : PGraph) (seen : List String) : Nat := (G.edges.filter fun e => decide (e.2 ∉ seen)).length

theorem left_take (edges : List (String × String)) (seen : List String) (p : String) (hp : p ∉ seen) :
    (edges.filter fun e => decide (e.2 ∉ seen ++ [p])).length + (edges.filter fun e => e.2 = p).length =
      (edges.filter fun e => decide (e.2 ∉ seen)).length := by
  induction edges with
  | nil => rfl
  | cons e es ih =>
    simp only [List.filter_cons]
    by_cases he : e.2 = p
    · have h1 : e.2 ∉ seen := he ▸ hp
      have h2 : ¬ e.2 ∉ seen ++ [p] := by simp [he]
      simp only [he, hp, not_false_eq_true, decide_true, if_true, List.length_cons]
      have h2' : ¬ p ∉ seen ++ [p] := by simp
      simp only [h2', decide_false, Bool.false_eq_true, if_false]
      omega
    · by_cases hs : e.2 ∈ seen
      · have h2 : ¬ e.2 ∉ seen ++ [p] := by simp [hs]
        have h3 : ¬ e.2 ∉ seen := by simp [hs]
        simp only [h2, h3, he, decide_false, Bool.false_eq_true, if_false]
        exact ih
      · have h2 : e.2 ∉ seen ++ [p] := by simp [hs, he]
        simp only [h2, hs, he, decide_false, not_false_eq_true, decide_true, Bool.false_eq_true, if_false, if_true, List.length_cons]
        omega

theorem visit_total (G : PGraph) : ∀ (n : Nat) (stack seen : List String), stack.length + G.left seen ≤ n → ∃ r, G.visit n stack seen = some r
  | n, [], seen, _ => ⟨seen, by cases n <;> rfl⟩
  | 0, _ :: _, _, h => by simp at h
  | n + 1, p :: stack, seen, h => by
    unfold PGraph.visit
    by_cases hp : p ∈ seen
    · rw [if_pos hp]
      exact visit_total G n stack seen (by simp at h; omega)
    · rw [if_neg hp]
      refine visit_total G n _ _ ?_
      have := left_take G.edges seen p hp
      have hl : (G.ups p).length = (G.edges.filter fun e => e.2 = p).length := List.length_map ..
      simp only [List.length_append, List.length_cons, PGraph.left] at h this ⊢
      omega

theorem visit_sound (G : PGraph) {R : String → Prop} (hR : ∀ a p, (a, p) ∈ G.edges → R p → R a) :
    ∀ (n : Nat) (stack seen r : List String), (∀ p ∈ stack, R p) → (∀ p ∈ seen, R p) → G.visit n stack seen = some r → ∀ p ∈ r, R p
  | n, [], seen, r, _, h2, h => by
    have : seen = r := by cases n <;> (injection h)
    exact this ▸ h2
  | 0, _ :: _, _, _, _, _, h => by cases h
  | n + 1, p :: stack, seen, r, h1, h2, h => by
    unfold PGraph.visit at h
    by_cases hp : p ∈ seen
    · rw [if_pos hp] at h
      exact visit_sound G hR n stack seen r (fun x hx => h1 x (by simp [hx])) h2 h
    · rw [if_neg hp] at h
      refine visit_sound G hR n _ _ r (fun x hx => ?_) (fun x hx => ?_) h
      · rcases List.mem_append.1 hx with hx | hx
        · exact hR x p (mem_ups.1 hx) (h1 p (by simp))
        · exact h1 x (by simp [hx])
      · rcases List.mem_append.1 hx with hx | hx
        · exact h2 x hx
        · rw [List.mem_singleton.1 hx]; exact h1 p (by simp)

theorem visit_complete (G : PGraph) : ∀ (n : Nat) (stack seen r : List String), (∀ p ∈ seen, ∀ a, (a, p) ∈ G.edges → a ∈ seen ∨ a ∈ stack) →
    G.visit n stack seen = some r → (∀ p, p ∈ seen ∨ p ∈ stack → p ∈ r) ∧ ∀ p ∈ r, ∀ a, (a, p) ∈ G.edges → a ∈ r
  | n, [], seen, r, h1, h => by
    have : seen = r := by cases n <;> (injection h)
    subst this
    exact ⟨fun p hp => hp.resolve_right (by simp), fun p hp a ha => (h1 p hp a ha).resolve_right (by simp)⟩
  | 0, _ :: _, _, _, _, h => by cases h
  | n + 1, p :: stack, seen, r, h1, h => by
    unfold PGraph.visit at h
    by_cases hp : p ∈ seen
    · rw [if_pos hp] at h
      obtain ⟨a1, a2⟩ := visit_complete G n stack seen r (fun x hx a ha => by
        rcases h1 x hx a ha with h | h
        · exact .inl h
        · rcases List.mem_cons.1 h with rfl | h
          · exact .inl hp
          · exact .inr h) h
      refine ⟨fun x hx => a1 x ?_, a2⟩
      rcases hx with hx | hx
      · exact .inl hx
      · rcases List.mem_cons.1 hx with rfl | hx
        · exact .inl hp
        · exact .inr hx
    · rw [if_neg hp] at h
      obtain ⟨a1, a2⟩ := visit_complete G n _ _ r (fun x hx a ha => by
        rcases List.mem_append.1 hx with hx | hx
        · rcases h1 x hx a ha with h | h
          · exact .inl (List.mem_append_left _ h)
          · rcases List.mem_cons.1 h with rfl | h
            · exact .inl (by simp)
            · exact .inr (List.mem_append_right _ h)
        · rw [List.mem_singleton.1 hx] at ha
          exact .inr (List.mem_append_left _ (mem_ups.2 ha))) h
      refine ⟨fun x hx => a1 x ?_, a2⟩
      rcases hx with hx | hx
      · exact .inl (List.mem_append_left _ hx)
      · rcases List.mem_cons.1 hx with rfl | hx
        · exact .inl (by simp)
        · exact .inr (List.mem_append_right _ hx)

theorem reachable_visit (G : PGraph) (goals : List String) :
    G.visit (goals.length + G.edges.length) (G.start goals) [] = some (G.reachable goals) := by
  obtain ⟨r, hr⟩ := visit_total G (goals.length + G.edges.length) (G.start goals) [] (by
    have h1 : (G.start goals).length ≤ goals.length := by
      unfold PGraph.start; rw [List.length_reverse]; exact List.length_filter_le ..
    have h2 : G.left [] ≤ G.edges.length := List.length_filter_le ..
    omega)
  unfold PGraph.reachable
  rw [hr]; rfl

theorem mem_start {G : PGraph} {goals : List String} {g : String} : g ∈ G.start goals ↔ g ∈ goals ∧ g ∈ G.nodes := by
  unfold PGraph.start
  rw [List.mem_reverse, List.mem_filter]
  simp

theorem mem_reachable (G : PGraph) (goals : List String) (q : String) :
    q ∈ G.reachable goals ↔ ∃ g ∈ goals, g ∈ G.nodes ∧ Upstream G q g := by
  have h := reachable_visit G goals
  constructor
  · refine visit_sound G (R := fun q => ∃ g ∈ goals, g ∈ G.nodes ∧ Upstream G q g) ?_ _ _ _ _ ?_ (by simp) h q
    · rintro a p he ⟨g, hg, hn, hu⟩
      exact ⟨g, hg, hn, .head he hu⟩
    · intro p hp
      obtain ⟨h1, h2⟩ := mem_start.1 hp
      exact ⟨p, h1, h2, .refl⟩
  · rintro ⟨g, hg, hn, hu⟩
    obtain ⟨h1, h2⟩ := visit_complete G _ _ _ _ (by simp) h
    induction hu using Relation.ReflTransGen.head_induction_on with
    | refl => exact h1 g (.inr (mem_start.2 ⟨hg, hn⟩))
    | head he _ ih => exact h2 _ ih _ he

/-! ### The edges -/

variable {C : Cfg} {P : List PBlock}

theorem noted_reads {k : Kind} {src : String} {q : List String} (h : q ∈ C.reads k src) : q ∈ C.noted k src := by
  unfold Cfg.reads at h
  unfold Cfg.noted
  split at h
  · cases h
  · rename_i he
    rw [if_neg he]
    split at h
    · rename_i n hn
      rw [hn]
      obtain ⟨r, hr, rfl⟩ := List.mem_map.1 h
      exact List.mem_map.2 ⟨r, (List.mem_filter.1 hr).1, rfl⟩
    · rename_i e hn
      rw [hn]; exact h

theorem mem_io {b : PBlock} {q : List String} (h : q ∈ C.paths (b.body.sources ++ b.body.later)) : dots q ∈ (b.io C).reads := by
  obtain ⟨s, hs, hq⟩ := List.mem_flatMap.1 h
  exact List.mem_map.2 ⟨q, List.mem_flatMap.2 ⟨s, hs, noted_reads hq⟩, rfl⟩

theorem writers_eq (C : Cfg) (P : List PBlock) : (graphOf C P).writers = computeWriters C.model (rulesOf P) := by
  unfold graphOf computeGraph rulesOf
  simp only [List.map_map]
  rfl

theorem isSome_keys {l : List (String × BlockRef)} {p : String} : (aGet l p).isSome = true ↔ p ∈ aKeys l := aGet_isSome_iff l p

theorem mem_kept {b : PBlock} {w : String} : w ∈ (b.io C).kept C.model ↔ w ∈ b.body.writes ∧ C.model w = false := by
  unfold RuleIO.kept
  rw [List.mem_filter]
  simp [PBlock.io]

theorem mem_above {model : String → Bool} {w p : String} : p ∈ above model w ↔ p ∈ dotPrefixes w ∧ model p = false := by
  unfold above
  rw [List.mem_filter]
  simp

theorem node_read {b : PBlock} (hb : b ∈ P) {x : String} (hx : x ∈ (b.io C).reads) : x ∈ (graphOf C P).nodes :=
  List.mem_flatMap.2 ⟨b.io C, List.mem_map.2 ⟨b, hb, rfl⟩, List.mem_append_left _ hx⟩

theorem node_key {t : String} (ht : t ∈ aKeys (computeWriters C.model (rulesOf P))) : t ∈ (graphOf C P).nodes := by
  obtain ⟨r, hr, w, hw, hm, ht, hs⟩ := ((C37_table C.model (rulesOf P)).2.1 t).1 ht
  obtain ⟨b, hb, rfl⟩ := List.mem_map.1 hr
  refine List.mem_flatMap.2 ⟨b.io C, List.mem_map.2 ⟨b, hb, rfl⟩, List.mem_append_right _ (List.mem_flatMap.2 ⟨w, mem_kept.2 ⟨hw, hm⟩, ?_⟩)⟩
  rcases (segPrefix_cases t w).1 hs with rfl | h
  · simp
  · exact List.mem_cons_of_mem _ (mem_above.2 ⟨h, ht⟩)

/-- what is written leads to everything it is part of -/
theorem up_key {b : PBlock} (hb : b ∈ P) {w t : String} (hw : w ∈ b.body.writes) (hm : C.model w = false) (ht : C.model t = false)
    (hs : SegPrefix t w) : Upstream (graphOf C P) w t := by
  rcases (segPrefix_cases t w).1 hs with rfl | h
  · exact .refl
  · refine .single (List.mem_append_left _ (List.mem_flatMap.2 ⟨b.io C, List.mem_map.2 ⟨b, hb, rfl⟩, List.mem_flatMap.2 ⟨w, mem_kept.2 ⟨hw, hm⟩, ?_⟩⟩))
    exact List.mem_map.2 ⟨t, mem_above.2 ⟨h, ht⟩, rfl⟩

theorem mem_readEdges {b : PBlock} (hb : b ∈ P) {w x : String} (hw : w ∈ b.body.writes) (hm : C.model w = false) (hx : x ∈ (b.io C).reads)
    {e : String × String} (he : e ∈ readEdges (graphOf C P).nodes (graphOf C P).writers x w) : e ∈ (graphOf C P).edges :=
  List.mem_append_right _ (List.mem_flatMap.2 ⟨b.io C, List.mem_map.2 ⟨b, hb, rfl⟩,
    List.mem_flatMap.2 ⟨w, mem_kept.2 ⟨hw, hm⟩, List.mem_flatMap.2 ⟨x, hx, he⟩⟩⟩)

/-- a read leads to the writes of its block, except those it is above of -/
theorem read_edge {b : PBlock} (hb : b ∈ P) {w x : String} (hw : w ∈ b.body.writes) (hm : C.model w = false) (hx : x ∈ (b.io C).reads)
    (hn : ¬ SegPrefix x w) : (x, w) ∈ (graphOf C P).edges := by
  refine mem_readEdges hb hw hm hx ?_
  unfold readEdges
  refine List.mem_append_left _ ?_
  have h1 : x ≠ w := by rintro rfl; exact hn List.prefix_rfl
  have h2 : extends_ x w = false := by
    cases h : extends_ x w with
    | false => rfl
    | true => exact absurd ((C37_extends x w).1 h) hn
  rw [if_pos (by simp [node_read hb hx, h1, h2])]
  simp

/-- and so does what is written above the read -/
theorem key_edge {b : PBlock} (hb : b ∈ P) {w x t : String} (hw : w ∈ b.body.writes) (hm : C.model w = false) (hx : x ∈ (b.io C).reads)
    (ht : t ∈ aKeys (computeWriters C.model (rulesOf P))) (hs : SegPrefix t x) (hn : ¬ SegPrefix t w) : (t, w) ∈ (graphOf C P).edges := by
  rcases (segPrefix_cases t x).1 hs with rfl | h
  · exact read_edge hb hw hm hx hn
  · refine mem_readEdges hb hw hm hx ?_
    unfold readEdges
    refine List.mem_append_right _ (List.mem_map.2 ⟨t, List.mem_filter.2 ⟨h, ?_⟩, rfl⟩)
    have h1 : t ≠ w := by rintro rfl; exact hn List.prefix_rfl
    have h2 : extends_ t w = false := by
      cases h : extends_ t w with
      | false => rfl
      | true => exact absurd ((C37_extends t w).1 h) hn
    have h3 : (aGet (graphOf C P).writers t).isSome = true := by rw [writers_eq]; exact isSome_keys.2 ht
    simp [node_key ht, h1, h2, h3]

/-! ### Blocks that are asked for -/

/-- the owner of a written path -/
theorem own_write (hS : Sound C P) {b : PBlock} (hb : b ∈ P) {w : String} (hw : w ∈ b.body.writes) :
    (w, b.ref) ∈ computeWriters C.model (rulesOf P) := by
  obtain ⟨_, hk, hc⟩ := C37_table C.model (rulesOf P)
  have hm := (hS.own b hb w hw).1
  have hbr : (⟨b.ref, b.body.writes⟩ : RuleWrites) ∈ rulesOf P := List.mem_map.2 ⟨b, hb, rfl⟩
  have : w ∈ aKeys (computeWriters C.model (rulesOf P)) := (hk w).2 ⟨_, hbr, w, hw, hm, hm, List.prefix_rfl⟩
  obtain ⟨⟨q, o⟩, he, rfl⟩ := List.mem_map.1 this
  obtain ⟨r', hr', rfl, w', hw', hcon⟩ := hc q o he
  have e : b.ref = r'.ref := hS.apart _ hbr r' hr' q hw w' hw' hcon.2.2
  rw [e]
  exact he

/-- a block that is asked for writes something that leads to the longest path above what is asked for -/
theorem asked_up {p : String} {c : BlockRef} (h : c ∈ writersIn C P p) :
    ∃ t ∈ aKeys (computeWriters C.model (rulesOf P)), SegPrefix t p ∧
      (∀ t' ∈ aKeys (computeWriters C.model (rulesOf P)), SegPrefix t' p → SegPrefix t' t) ∧
      (∀ o, Owners (computeWriters C.model (rulesOf P)) t o → o ∈ writersIn C P p) ∧
      ∃ b ∈ P, b.ref = c ∧ ∃ w ∈ b.body.writes, C.model w = false ∧ Upstream (graphOf C P) w t := by
  obtain ⟨_, hk, hc⟩ := C37_table C.model (rulesOf P)
  rcases C37_longest_prefix (computeWriters C.model (rulesOf P)) p with ⟨t, htk, htp, hmax, _, hiff⟩ | ⟨_, hn⟩
  · obtain ⟨q, hq, hs⟩ := (hiff c).1 h
    obtain ⟨r, hr, rfl, w, hw, hcon⟩ := hc q c hq
    obtain ⟨b, hb, rfl⟩ := List.mem_map.1 hr
    obtain ⟨_, _, _, _, _, htm, _⟩ := (hk t).1 htk
    exact ⟨t, htk, htp, hmax, fun o ho => (hiff o).2 ho, b, hb, rfl, w, hw, hcon.1, up_key hb hw hcon.1 htm (segPrefix_trans hs hcon.2.2)⟩
  · have h : c ∈ writersOfLongestPrefix (collectDemandWriters (computeWriters C.model (rulesOf P))) p := h
    rw [hn] at h; cases h

/-- no block asks for itself -/
theorem no_self (hS : Sound C P) {b : PBlock} (hb : b ∈ P) {q : List String}
    (hq : q ∈ C.paths b.body.sources ∨ ∃ p, q ∈ C.paths (b.body.chosen p)) : b.ref ∉ writersIn C P (dots q) := by
  intro hself
  have hbr := blockAt_mem hS.unique hb
  refine hS.acyclic b.ref (.single ?_)
  rcases hq with hq | ⟨p, hq⟩
  · refine .inl ⟨dots q, ?_, hself⟩
    simp only [sys, hbr]
    rw [mem_dedup]
    exact List.mem_map.2 ⟨q, hq, rfl⟩
  · refine .inr ⟨p, dots q, ?_, hself⟩
    simp only [sys, hbr]
    obtain ⟨s, hs, hq⟩ := List.mem_flatMap.1 hq
    refine List.mem_flatMap.2 ⟨s, hs, ?_⟩
    rw [mem_dedup]
    exact List.mem_map.2 ⟨q, hq, rfl⟩

theorem all_paths {b : PBlock} {q : List String} (hq : q ∈ C.paths b.body.sources ∨ ∃ p, q ∈ C.paths (b.body.chosen p)) :
    q ∈ C.paths (b.body.sources ++ b.body.later) := by
  rcases hq with hq | ⟨p, hq⟩
  · exact paths_mono (fun s hs => List.mem_append_left _ hs) hq
  · exact paths_mono (fun s hs => List.mem_append_right _ (chosen_later hs)) hq

/-- a block asks for what leads to its writes -/
theorem dep_up (hS : Sound C P) {b : PBlock} (hb : b ∈ P) {q : List String}
    (hq : q ∈ C.paths b.body.sources ∨ ∃ p, q ∈ C.paths (b.body.chosen p)) {c : BlockRef} (hc : c ∈ writersIn C P (dots q))
    {wb : String} (hwb : wb ∈ b.body.writes) : ∃ d ∈ P, d.ref = c ∧ ∃ w ∈ d.body.writes, Upstream (graphOf C P) w wb := by
  obtain ⟨t, htk, htp, _, hall, d, hd, hdc, w, hw, _, hu⟩ := asked_up hc
  refine ⟨d, hd, hdc, w, hw, hu.tail (key_edge hb hwb (hS.own b hb wb hwb).1 (mem_io (all_paths hq)) htk htp fun hs => ?_)⟩
  exact no_self hS hb hq (hall b.ref ⟨wb, own_write hS hb hwb, hs⟩)

theorem dep_paths {r w : BlockRef} (h : Dep (sys C P) r w) :
    ∃ b, blockAt P r = some b ∧ ∃ q, (q ∈ C.paths b.body.sources ∨ ∃ p, q ∈ C.paths (b.body.chosen p)) ∧ w ∈ writersIn C P (dots q) := by
  cases hb : blockAt P r with
  | none => rcases h with ⟨x, hx, _⟩ | ⟨p, x, hx, _⟩ <;> · simp only [sys, hb] at hx; cases hx
  | some b =>
    refine ⟨b, rfl, ?_⟩
    rcases h with ⟨x, hx, hw⟩ | ⟨p, x, hx, hw⟩
    · simp only [sys, hb] at hx
      rw [mem_dedup] at hx
      obtain ⟨q, hq, rfl⟩ := List.mem_map.1 hx
      exact ⟨q, .inl hq, hw⟩
    · simp only [sys, hb] at hx
      obtain ⟨s, hs, hx⟩ := List.mem_flatMap.1 hx
      rw [mem_dedup] at hx
      obtain ⟨q, hq, rfl⟩ := List.mem_map.1 hx
      exact ⟨q, .inr ⟨p, mem_paths hs hq⟩, hw⟩

end Zen.Policy
