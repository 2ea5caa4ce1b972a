import Verif.Engine.Graph
/-
Lemmas about `removeRec`: which edges and nodes a cascade removes.
-/
namespace Zen
namespace Graph

/-- some edge enters / leaves the node -/
def HasIn (g : Graph) (n : Nat) : Prop := ∃ e ∈ g.edges, e.tgt = n
def HasOut (g : Graph) (n : Nat) : Prop := ∃ e ∈ g.edges, e.src = n
/-- the node was not removed -/
def Alive (g : Graph) (n : Nat) : Prop := n ∈ g.nodes.map Prod.fst

/-- edge indices are unique, edges connect nodes of the graph, node indices are unique -/
structure Wf (g : Graph) : Prop where
  ids : (g.edges.map (·.id)).Nodup
  ends : ∀ e ∈ g.edges, g.Alive e.src ∧ g.Alive e.tgt
  nodes : (g.nodes.map Prod.fst).Nodup

theorem mem_outE {g : Graph} {n : Nat} {e : GEdge} : e ∈ g.outE n ↔ e ∈ g.edges ∧ e.src = n := by
  simp [outE]
theorem mem_inE {g : Graph} {n : Nat} {e : GEdge} : e ∈ g.inE n ↔ e ∈ g.edges ∧ e.tgt = n := by
  simp [inE]

theorem outE_empty {g : Graph} {n : Nat} : (g.outE n).isEmpty = true ↔ ¬ g.HasOut n := by
  rw [List.isEmpty_iff, List.eq_nil_iff_forall_not_mem]
  simp only [mem_outE, HasOut]
  exact ⟨fun h ⟨e, h1, h2⟩ => h e ⟨h1, h2⟩, fun h e ⟨h1, h2⟩ => h ⟨e, h1, h2⟩⟩
theorem inE_empty {g : Graph} {n : Nat} : (g.inE n).isEmpty = true ↔ ¬ g.HasIn n := by
  rw [List.isEmpty_iff, List.eq_nil_iff_forall_not_mem]
  simp only [mem_inE, HasIn]
  exact ⟨fun h ⟨e, h1, h2⟩ => h e ⟨h1, h2⟩, fun h e ⟨h1, h2⟩ => h ⟨e, h1, h2⟩⟩

/-- unique ids identify edges -/
theorem Wf.eq_of_id {g : Graph} (h : g.Wf) {e f : GEdge} (he : e ∈ g.edges) (hf : f ∈ g.edges)
    (hid : e.id = f.id) : e = f := by
  have := h.ids
  rw [List.nodup_iff_pairwise_ne] at this
  rcases List.mem_iff_getElem.1 he with ⟨i, hi, rfl⟩
  rcases List.mem_iff_getElem.1 hf with ⟨j, hj, rfl⟩
  rw [List.pairwise_map, List.pairwise_iff_getElem] at this
  rcases Nat.lt_trichotomy i j with h1 | h1 | h1
  · exact absurd hid (this i j hi hj h1)
  · subst h1; rfl
  · exact absurd hid.symm (this j i hj hi h1)

/-- how the incoming edges of a node can fare: all kept, some left, or the node is gone together
with its outgoing edges -/
def KeptIn (g g' : Graph) (n : Nat) : Prop :=
  (∀ e ∈ g.edges, e.tgt = n → e ∈ g'.edges) ∨ g'.HasIn n ∨ (¬ g'.HasOut n ∧ ¬ g'.Alive n)
def KeptOut (g g' : Graph) (n : Nat) : Prop :=
  (∀ e ∈ g.edges, e.src = n → e ∈ g'.edges) ∨ g'.HasOut n ∨ (¬ g'.HasIn n ∧ ¬ g'.Alive n)

structure Shrinks (g g' : Graph) : Prop where
  edges : g'.edges.Sublist g.edges
  nodes : g'.nodes.Sublist g.nodes
  gone : ∀ n, g.Alive n → ¬ g'.Alive n → ¬ g'.HasIn n ∧ ¬ g'.HasOut n
  keptIn : ∀ n, KeptIn g g' n
  keptOut : ∀ n, KeptOut g g' n

theorem HasIn.mono {g g' : Graph} (h : g'.edges.Sublist g.edges) {n : Nat} (hi : g'.HasIn n) : g.HasIn n :=
  let ⟨e, h1, h2⟩ := hi; ⟨e, h.subset h1, h2⟩
theorem HasOut.mono {g g' : Graph} (h : g'.edges.Sublist g.edges) {n : Nat} (hi : g'.HasOut n) : g.HasOut n :=
  let ⟨e, h1, h2⟩ := hi; ⟨e, h.subset h1, h2⟩
theorem Alive.mono {g g' : Graph} (h : g'.nodes.Sublist g.nodes) {n : Nat} (hi : g'.Alive n) : g.Alive n :=
  (h.map Prod.fst).subset hi

theorem KeptIn.trans {g g' g'' : Graph} {n : Nat} (he : g''.edges.Sublist g'.edges)
    (hn : g''.nodes.Sublist g'.nodes) (h1 : KeptIn g g' n) (h2 : KeptIn g' g'' n) : KeptIn g g'' n := by
  rcases h2 with h2 | h2 | h2
  · rcases h1 with h1 | ⟨e, h1, h3⟩ | ⟨h1, h3⟩
    · exact .inl fun e he ht => h2 e (h1 e he ht) ht
    · exact .inr (.inl ⟨e, h2 e h1 h3, h3⟩)
    · exact .inr (.inr ⟨fun h => h1 (h.mono he), fun h => h3 (h.mono hn)⟩)
  · exact .inr (.inl h2)
  · exact .inr (.inr h2)

theorem KeptOut.trans {g g' g'' : Graph} {n : Nat} (he : g''.edges.Sublist g'.edges)
    (hn : g''.nodes.Sublist g'.nodes) (h1 : KeptOut g g' n) (h2 : KeptOut g' g'' n) : KeptOut g g'' n := by
  rcases h2 with h2 | h2 | h2
  · rcases h1 with h1 | ⟨e, h1, h3⟩ | ⟨h1, h3⟩
    · exact .inl fun e he ht => h2 e (h1 e he ht) ht
    · exact .inr (.inl ⟨e, h2 e h1 h3, h3⟩)
    · exact .inr (.inr ⟨fun h => h1 (h.mono he), fun h => h3 (h.mono hn)⟩)
  · exact .inr (.inl h2)
  · exact .inr (.inr h2)

theorem Shrinks.refl (g : Graph) : Shrinks g g :=
  ⟨.refl _, .refl _, fun _ h h' => absurd h h', fun _ => .inl fun _ h _ => h, fun _ => .inl fun _ h _ => h⟩

theorem Shrinks.trans {g g' g'' : Graph} (h : Shrinks g g') (h' : Shrinks g' g'') : Shrinks g g'' where
  edges := h'.edges.trans h.edges
  nodes := h'.nodes.trans h.nodes
  gone n ha hd := by
    by_cases hm : g'.Alive n
    · exact h'.gone n hm hd
    · have := h.gone n ha hm
      exact ⟨fun hi => this.1 (hi.mono h'.edges), fun hi => this.2 (hi.mono h'.edges)⟩
  keptIn n := (h.keptIn n).trans h'.edges h'.nodes (h'.keptIn n)
  keptOut n := (h.keptOut n).trans h'.edges h'.nodes (h'.keptOut n)

theorem Shrinks.wf {g g' : Graph} (h : Shrinks g g') (hw : g.Wf) : g'.Wf where
  ids := hw.ids.sublist (h.edges.map _)
  ends e he := by
    have h1 := hw.ends e (h.edges.subset he)
    constructor
    · by_cases ha : g'.Alive e.src
      · exact ha
      · exact absurd ⟨e, he, rfl⟩ (h.gone _ h1.1 ha).2
    · by_cases ha : g'.Alive e.tgt
      · exact ha
      · exact absurd ⟨e, he, rfl⟩ (h.gone _ h1.2 ha).1
  nodes := hw.nodes.sublist (h.nodes.map _)

/-- removing a node without edges -/
theorem removeNode_edges {g : Graph} {n : Nat} (hi : ¬ g.HasIn n) (ho : ¬ g.HasOut n) :
    (g.removeNode n).edges = g.edges := by
  unfold removeNode
  simp only [List.filter_eq_self]
  intro e he
  simp only [decide_eq_true_eq]
  exact ⟨fun h => ho ⟨e, he, h⟩, fun h => hi ⟨e, he, h⟩⟩

theorem removeNode_not_alive (g : Graph) (n : Nat) : ¬ (g.removeNode n).Alive n := by
  unfold removeNode Alive
  simp only [List.mem_map, List.mem_filter]
  rintro ⟨p, ⟨_, h⟩, rfl⟩
  simp at h

theorem removeNode_alive {g : Graph} {n m : Nat} (hm : m ≠ n) : (g.removeNode n).Alive m ↔ g.Alive m := by
  unfold removeNode Alive
  simp only [List.mem_map, List.mem_filter]
  constructor
  · rintro ⟨p, ⟨h, _⟩, rfl⟩; exact ⟨p, h, rfl⟩
  · rintro ⟨p, h, rfl⟩; exact ⟨p, ⟨h, by simpa using hm⟩, rfl⟩

theorem removeNode_shrinks {g : Graph} {n : Nat} (hi : ¬ g.HasIn n) (ho : ¬ g.HasOut n) :
    Shrinks g (g.removeNode n) := by
  have he := removeNode_edges hi ho
  refine ⟨he ▸ .refl _, List.filter_sublist, fun m ha hd => ?_, fun m => .inl fun e h _ => by rw [he]; exact h,
    fun m => .inl fun e h _ => by rw [he]; exact h⟩
  by_cases hm : m = n
  · subst hm; unfold HasIn HasOut; rw [he]; exact ⟨hi, ho⟩
  · exact absurd ((removeNode_alive hm).2 ha) hd

theorem mem_removeEdge {g : Graph} {id : Nat} {e : GEdge} :
    e ∈ (g.removeEdge id).edges ↔ e ∈ g.edges ∧ e.id ≠ id := by
  simp [removeEdge]

theorem removeEdge_sublist (g : Graph) (id : Nat) : (g.removeEdge id).edges.Sublist g.edges :=
  List.filter_sublist

/-- only nodes that had an edge are removed -/
def HadEdge (g g' : Graph) (n : Nat) : Prop := g.Alive n → ¬ g'.Alive n → g.HasIn n ∨ g.HasOut n

theorem HadEdge.trans {g g' g'' : Graph} {n : Nat} (h1 : HadEdge g g' n) (he : g'.edges.Sublist g.edges)
    (h2 : HadEdge g' g'' n) : HadEdge g g'' n := by
  intro ha hd
  by_cases hm : g'.Alive n
  · exact (h2 hm hd).imp (·.mono he) (·.mono he)
  · exact h1 ha hm

/-- what one call and a sequence of calls achieve -/
structure RecOk (g g' : Graph) (ids : List Nat) : Prop where
  shr : Shrinks g g'
  gone : ∀ e ∈ g'.edges, e.id ∉ ids
  had : ∀ n, HadEdge g g' n

theorem fold_ok {f : Graph → Nat → Graph} {k : Nat}
    (h : ∀ g id, g.Wf → g.edges.length < k → RecOk g (f g id) [id]) :
    ∀ ids g, g.Wf → g.edges.length < k → RecOk g (ids.foldl f g) ids := by
  intro ids
  induction ids with
  | nil => intro g _ _; exact ⟨.refl g, by simp, fun _ h h' => absurd h h'⟩
  | cons a ids ih =>
    intro g hw hk
    have h1 := h g a hw hk
    have h2 := ih (f g a) (h1.1.wf hw) (Nat.lt_of_le_of_lt h1.1.edges.length_le hk)
    refine ⟨h1.1.trans h2.1, fun e he hm => ?_, fun n => (h1.had n).trans h1.1.edges (h2.had n)⟩
    rcases List.mem_cons.1 hm with rfl | hm
    · exact h1.2 e (h2.1.edges.subset he) (List.mem_singleton.2 rfl)
    · exact h2.2 e he hm

/-- the part of `removeRec` for one end of the edge -/
theorem side_in {f : Graph → Nat → Graph} {k : Nat}
    (h : ∀ g id, g.Wf → g.edges.length < k → RecOk g (f g id) [id])
    {g : Graph} (hw : g.Wf) (hk : g.edges.length < k) (n : Nat) :
    let g' := if (g.inE n).isEmpty then (((g.outE n).map (·.id)).foldl f g).dropIfDone n else g
    Shrinks g g' ∧ (g'.HasIn n ∨ (¬ g'.HasOut n ∧ ¬ g'.Alive n)) ∧ ∀ m, m ≠ n → HadEdge g g' m := by
  intro g'
  by_cases hi : (g.inE n).isEmpty = true
  · have hg' : g' = (((g.outE n).map (·.id)).foldl f g).dropIfDone n := if_pos hi
    have hno := inE_empty.1 hi
    have h1 := fold_ok h ((g.outE n).map (·.id)) g hw hk
    generalize hm : ((g.outE n).map (·.id)).foldl f g = m at h1 hg'
    have hin : ¬ m.HasIn n := fun hh => hno (hh.mono h1.1.edges)
    have hout : ¬ m.HasOut n := by
      rintro ⟨e, he, rfl⟩
      exact h1.2 e he (List.mem_map.2 ⟨e, mem_outE.2 ⟨h1.1.edges.subset he, rfl⟩, rfl⟩)
    have hd : g' = m.removeNode n := by
      rw [hg', dropIfDone, if_pos (outE_empty.2 hout)]
    have h2 := removeNode_shrinks hin hout
    rw [hd]
    refine ⟨h1.1.trans h2, .inr ⟨?_, removeNode_not_alive m n⟩, fun x hx => (h1.had x).trans h1.1.edges
      fun ha hd => absurd ((removeNode_alive hx).2 ha) hd⟩
    exact fun hh => hout (hh.mono h2.edges)
  · have hg' : g' = g := if_neg hi
    rw [hg']
    exact ⟨.refl g, .inl (Classical.not_not.1 fun hh => hi (inE_empty.2 hh)), fun _ _ h h' => absurd h h'⟩

theorem side_out {f : Graph → Nat → Graph} {k : Nat}
    (h : ∀ g id, g.Wf → g.edges.length < k → RecOk g (f g id) [id])
    {g : Graph} (hw : g.Wf) (hk : g.edges.length < k) (n : Nat) :
    let g' := if (g.outE n).isEmpty then (((g.inE n).map (·.id)).foldl f g).dropIfDone n else g
    Shrinks g g' ∧ (g'.HasOut n ∨ (¬ g'.HasIn n ∧ ¬ g'.Alive n)) ∧ ∀ m, m ≠ n → HadEdge g g' m := by
  intro g'
  by_cases hi : (g.outE n).isEmpty = true
  · have hg' : g' = (((g.inE n).map (·.id)).foldl f g).dropIfDone n := if_pos hi
    have hno := outE_empty.1 hi
    have h1 := fold_ok h ((g.inE n).map (·.id)) g hw hk
    generalize hm : ((g.inE n).map (·.id)).foldl f g = m at h1 hg'
    have hout : ¬ m.HasOut n := fun hh => hno (hh.mono h1.1.edges)
    have hin : ¬ m.HasIn n := by
      rintro ⟨e, he, rfl⟩
      exact h1.2 e he (List.mem_map.2 ⟨e, mem_inE.2 ⟨h1.1.edges.subset he, rfl⟩, rfl⟩)
    have hd : g' = m.removeNode n := by
      rw [hg', dropIfDone, if_pos (outE_empty.2 hout)]
    have h2 := removeNode_shrinks hin hout
    rw [hd]
    refine ⟨h1.1.trans h2, .inr ⟨?_, removeNode_not_alive m n⟩, fun x hx => (h1.had x).trans h1.1.edges
      fun ha hd => absurd ((removeNode_alive hx).2 ha) hd⟩
    exact fun hh => hin (hh.mono h2.edges)
  · have hg' : g' = g := if_neg hi
    rw [hg']
    exact ⟨.refl g, .inl (Classical.not_not.1 fun hh => hi (outE_empty.2 hh)), fun _ _ h h' => absurd h h'⟩

/-- With enough fuel one removal keeps the graph in order and removes the edge. -/
theorem removeRec_ok : ∀ (fuel : Nat) (g : Graph) (id : Nat), g.Wf → g.edges.length < fuel →
    RecOk g (g.removeRec fuel id) [id] := by
  intro fuel
  induction fuel with
  | zero => intro g id _ h; omega
  | succ fuel ih =>
    intro g id hw hk
    rw [removeRec]
    cases hf : g.edges.find? (·.id = id) with
    | none =>
      refine ⟨.refl g, fun e he hm => ?_, fun _ h h' => absurd h h'⟩
      rw [List.find?_eq_none] at hf
      have := hf e he
      simp only [List.mem_singleton] at hm
      simp [hm] at this
    | some e =>
      have hid : e.id = id := by simpa using List.find?_some hf
      have hmem := List.mem_of_find?_eq_some hf
      dsimp only
      generalize hg1 : g.removeEdge id = g1
      have hsub : g1.edges.Sublist g.edges := hg1 ▸ removeEdge_sublist g id
      have hnodes : g1.nodes = g.nodes := by rw [← hg1]; rfl
      have hnid : ∀ x ∈ g1.edges, x.id ≠ id := fun x hx => by rw [← hg1] at hx; exact (mem_removeEdge.1 hx).2
      have hkeep : ∀ x ∈ g.edges, x ≠ e → x ∈ g1.edges := fun x hx hne => by
        rw [← hg1]
        exact mem_removeEdge.2 ⟨hx, fun h => hne (hw.eq_of_id hx hmem (h.trans hid.symm))⟩
      have hlen : g1.edges.length < fuel := by
        have h1 := hsub.length_le
        rcases Nat.lt_or_ge g1.edges.length g.edges.length with h2 | h2
        · omega
        · have heq := hsub.eq_of_length (by omega)
          exact absurd hid (hnid e (heq ▸ hmem))
      have hw1 : g1.Wf := ⟨hw.ids.sublist (hsub.map _),
        fun x hx => by unfold Alive; rw [hnodes]; exact hw.ends x (hsub.subset hx), by rw [hnodes]; exact hw.nodes⟩
      have h2 := side_in (f := removeRec fuel) (k := fuel) (fun g id => ih g id) hw1 hlen e.tgt
      revert h2
      generalize hg2 : (if (g1.inE e.tgt).isEmpty
        then (((g1.outE e.tgt).map (·.id)).foldl (removeRec fuel) g1).dropIfDone e.tgt else g1) = g2
      intro h2
      have h3 := side_out (f := removeRec fuel) (k := fuel) (fun g id => ih g id) (h2.1.wf hw1)
        (Nat.lt_of_le_of_lt h2.1.edges.length_le hlen) e.src
      revert h3
      generalize hg3 : (if (g2.outE e.src).isEmpty
        then (((g2.inE e.src).map (·.id)).foldl (removeRec fuel) g2).dropIfDone e.src else g2) = g3
      intro h3
      have h13 := h2.1.trans h3.1
      have halive : ∀ n, g1.Alive n ↔ g.Alive n := fun n => by unfold Alive; rw [hnodes]
      refine ⟨⟨h13.edges.trans hsub, hnodes ▸ h13.nodes, fun n ha hd => h13.gone n ((halive n).2 ha) hd,
        fun n => ?_, fun n => ?_⟩, fun x hx hm => hnid x (h13.edges.subset hx) (List.mem_singleton.1 hm),
        fun n ha hd => ?_⟩
      · by_cases hn : n = e.tgt
        · subst hn
          have : KeptIn g g2 e.tgt := .inr h2.2.1
          exact this.trans h3.1.edges h3.1.nodes (h3.1.keptIn _)
        · have : KeptIn g g1 n := .inl fun x hx ht => hkeep x hx fun h => hn (by rw [← ht, h])
          exact this.trans h13.edges h13.nodes (h13.keptIn _)
      · by_cases hn : n = e.src
        · subst hn
          exact .inr h3.2.1
        · have : KeptOut g g1 n := .inl fun x hx ht => hkeep x hx fun h => hn (by rw [← ht, h])
          exact this.trans h13.edges h13.nodes (h13.keptOut _)
      · by_cases hs : n = e.src
        · exact .inr ⟨e, hmem, hs.symm⟩
        · by_cases ht : n = e.tgt
          · exact .inl ⟨e, hmem, ht.symm⟩
          · have := (h2.2.2 n ht).trans h2.1.edges (h3.2.2 n hs)
            exact (this ((halive n).2 ha) hd).imp (·.mono hsub) (·.mono hsub)

/-- a set of edges closed under what the cascade does to `base` -/
structure DropClosed (base : Graph) (P : GEdge → Prop) : Prop where
  fwd : ∀ n, base.HasIn n → (∀ e ∈ base.edges, e.tgt = n → P e) → ∀ e ∈ base.edges, e.src = n → P e
  bwd : ∀ n, base.HasOut n → (∀ e ∈ base.edges, e.src = n → P e) → ∀ e ∈ base.edges, e.tgt = n → P e

/-- all edges missing from `g` are in `P` -/
def MissingIn (base g : Graph) (P : GEdge → Prop) : Prop :=
  (∀ e ∈ g.edges, e ∈ base.edges) ∧ ∀ e ∈ base.edges, e ∉ g.edges → P e

theorem removeNode_missing {base g : Graph} {P : GEdge → Prop} {n : Nat} (h : MissingIn base g P)
    (hi : ∀ e ∈ base.edges, e.tgt = n → P e) (ho : ∀ e ∈ base.edges, e.src = n → P e) :
    MissingIn base (g.removeNode n) P := by
  refine ⟨fun e he => h.1 e (List.mem_filter.1 he).1, fun e hb he => ?_⟩
  by_cases hg : e ∈ g.edges
  · unfold removeNode at he
    simp only [List.mem_filter, decide_eq_true_eq, not_and, hg, true_implies] at he
    by_cases hs : e.src = n
    · exact ho e hb hs
    · by_cases ht : e.tgt = n
      · exact hi e hb ht
      · exact absurd ht (he hs)
  · exact h.2 e hb hg

theorem fold_missing {base : Graph} {P : GEdge → Prop} {f : Graph → Nat → Graph}
    (h : ∀ g id, MissingIn base g P → (∀ e ∈ base.edges, e.id = id → P e) → MissingIn base (f g id) P) :
    ∀ (ids : List Nat) (g : Graph), MissingIn base g P → (∀ id ∈ ids, ∀ e ∈ base.edges, e.id = id → P e) →
      MissingIn base (ids.foldl f g) P := by
  intro ids
  induction ids with
  | nil => intro g hm _; exact hm
  | cons a ids ih =>
    intro g hm hp
    exact ih (f g a) (h g a hm (hp a (List.mem_cons_self ..))) fun id hid => hp id (List.mem_cons_of_mem _ hid)

/-- Only edges of a closed set that contains the start are removed. -/
theorem removeRec_missing {base : Graph} (hb : base.Wf) {P : GEdge → Prop} (hc : DropClosed base P) :
    ∀ (fuel : Nat) (g : Graph) (id : Nat), MissingIn base g P → (∀ e ∈ base.edges, e.id = id → P e) →
      MissingIn base (g.removeRec fuel id) P := by
  intro fuel
  induction fuel with
  | zero => intro g id h _; exact h
  | succ fuel ih =>
    intro g id hm hp
    rw [removeRec]
    cases hf : g.edges.find? (·.id = id) with
    | none => exact hm
    | some e =>
      have hid : e.id = id := by simpa using List.find?_some hf
      have hmem := hm.1 e (List.mem_of_find?_eq_some hf)
      dsimp only
      have hm1 : MissingIn base (g.removeEdge id) P := by
        refine ⟨fun x hx => hm.1 x (mem_removeEdge.1 hx).1, fun x hx hn => ?_⟩
        by_cases hg : x ∈ g.edges
        · by_cases hxi : x.id = id
          · exact hp x hx hxi
          · exact absurd (mem_removeEdge.2 ⟨hg, hxi⟩) hn
        · exact hm.2 x hx hg
      revert hm1
      generalize g.removeEdge id = g1
      intro hm1
      have key : ∀ (n : Nat) (a : Graph), MissingIn base a P → (∀ x ∈ base.edges, x.tgt = n → P x) →
          (∀ x ∈ base.edges, x.src = n → P x) → ∀ l : List GEdge, (∀ x ∈ l, x ∈ base.edges ∧ P x) →
          MissingIn base (((l.map (·.id)).foldl (removeRec fuel) a).dropIfDone n) P := by
        intro n a ha h1 h2 l hl
        have h3 : MissingIn base ((l.map (·.id)).foldl (removeRec fuel) a) P := by
          refine fold_missing (fun g id => ih g id) _ a ha fun i hi x hx hxi => ?_
          obtain ⟨y, hy, rfl⟩ := List.mem_map.1 hi
          rw [hb.eq_of_id hx (hl y hy).1 hxi]
          exact (hl y hy).2
        unfold dropIfDone
        split
        · exact removeNode_missing h3 h1 h2
        · exact h3
      have hm2 : MissingIn base (if (g1.inE e.tgt).isEmpty
        then (((g1.outE e.tgt).map (·.id)).foldl (removeRec fuel) g1).dropIfDone e.tgt else g1) P := by
        split
        · rename_i hi
          have hin := inE_empty.1 hi
          have hall : ∀ x ∈ base.edges, x.tgt = e.tgt → P x := fun x hx ht =>
            hm1.2 x hx fun hg => hin ⟨x, hg, ht⟩
          have hall2 := hc.fwd e.tgt ⟨e, hmem, rfl⟩ hall
          exact key e.tgt g1 hm1 hall hall2 _ fun x hx =>
            ⟨hm1.1 x (mem_outE.1 hx).1, hall2 x (hm1.1 x (mem_outE.1 hx).1) (mem_outE.1 hx).2⟩
        · exact hm1
      revert hm2
      generalize (if (g1.inE e.tgt).isEmpty
        then (((g1.outE e.tgt).map (·.id)).foldl (removeRec fuel) g1).dropIfDone e.tgt else g1) = g2
      intro hm2
      split
      · rename_i hi
        have hout := outE_empty.1 hi
        have hall : ∀ x ∈ base.edges, x.src = e.src → P x := fun x hx ht =>
          hm2.2 x hx fun hg => hout ⟨x, hg, ht⟩
        have hall2 := hc.bwd e.src ⟨e, hmem, rfl⟩ hall
        exact key e.src g2 hm2 hall2 hall _ fun x hx =>
          ⟨hm2.1 x (mem_inE.1 hx).1, hall2 x (hm2.1 x (mem_inE.1 hx).1) (mem_inE.1 hx).2⟩
      · exact hm2

end Graph
end Zen

namespace Zen
namespace Graph

theorem fold_fuel {f f' : Graph → Nat → Graph} {k : Nat}
    (h : ∀ g id, g.Wf → g.edges.length < k → RecOk g (f g id) [id])
    (he : ∀ g id, g.Wf → g.edges.length < k → f' g id = f g id) :
    ∀ (ids : List Nat) (g : Graph), g.Wf → g.edges.length < k → ids.foldl f' g = ids.foldl f g := by
  intro ids
  induction ids with
  | nil => intro g _ _; rfl
  | cons a ids ih =>
    intro g hw hk
    have h1 := h g a hw hk
    rw [List.foldl_cons, List.foldl_cons, he g a hw hk]
    exact ih _ (h1.shr.wf hw) (Nat.lt_of_le_of_lt h1.shr.edges.length_le hk)

/-- More fuel than edges makes no difference. -/
theorem removeRec_fuel : ∀ (fuel : Nat) (g : Graph) (id : Nat), g.Wf → g.edges.length < fuel →
    ∀ fuel', fuel ≤ fuel' → g.removeRec fuel' id = g.removeRec fuel id := by
  intro fuel
  induction fuel with
  | zero => intro g id _ h; omega
  | succ fuel ih =>
    intro g id hw hk fuel' hf
    obtain ⟨f, rfl⟩ : ∃ f, fuel' = f + 1 := ⟨fuel' - 1, by omega⟩
    rw [removeRec, removeRec]
    cases hfind : g.edges.find? (·.id = id) with
    | none => rfl
    | some e =>
      have hid : e.id = id := by simpa using List.find?_some hfind
      have hmem := List.mem_of_find?_eq_some hfind
      dsimp only
      generalize hg1 : g.removeEdge id = g1
      have hsub : g1.edges.Sublist g.edges := hg1 ▸ removeEdge_sublist g id
      have hnodes : g1.nodes = g.nodes := by rw [← hg1]; rfl
      have hlen : g1.edges.length < fuel := by
        have h1 := hsub.length_le
        rcases Nat.lt_or_ge g1.edges.length g.edges.length with h2 | h2
        · omega
        · have heq := hsub.eq_of_length (by omega)
          rw [← heq, ← hg1] at hmem
          exact absurd hid (mem_removeEdge.1 hmem).2
      have hw1 : g1.Wf := ⟨hw.ids.sublist (hsub.map _),
        fun x hx => by unfold Alive; rw [hnodes]; exact hw.ends x (hsub.subset hx), by rw [hnodes]; exact hw.nodes⟩
      have agree : ∀ g id, g.Wf → g.edges.length < fuel → removeRec f g id = removeRec fuel g id :=
        fun g id hw hk => ih g id hw hk f (by omega)
      have ok : ∀ g id, g.Wf → g.edges.length < fuel → RecOk g (removeRec fuel g id) [id] :=
        fun g id => removeRec_ok fuel g id
      have h2 := (side_in (f := removeRec fuel) (k := fuel) ok hw1 hlen e.tgt).1
      rw [fold_fuel ok agree _ g1 hw1 hlen]
      revert h2
      generalize (if (g1.inE e.tgt).isEmpty
        then (((g1.outE e.tgt).map (·.id)).foldl (removeRec fuel) g1).dropIfDone e.tgt else g1) = g2
      intro h2
      rw [fold_fuel ok agree _ g2 (h2.wf hw1) (Nat.lt_of_le_of_lt h2.edges.length_le hlen)]

end Graph

/-! ## The graph of a document -/

theorem buildEdges_ids {nodes : List GNode} : ∀ (docs : List EdgeDoc) (i : Nat) {es : List GEdge},
    buildEdges nodes i docs = .ok es → es.map (·.id) = List.range' i es.length ∧
      ∀ e ∈ es, e.src < nodes.length ∧ e.tgt < nodes.length := by
  have hix : ∀ {id k}, indexOf nodes id = some k → k < nodes.length := by
    intro id k h
    unfold indexOf at h
    cases hf : nodes.zipIdx.reverse.find? (·.1.id = id) with
    | none => rw [hf] at h; cases h
    | some p =>
      rw [hf] at h
      injection h with h
      subst h
      have := List.mem_reverse.1 (List.mem_of_find?_eq_some hf)
      have := List.snd_lt_of_mem_zipIdx this
      simpa using this
  intro docs
  induction docs with
  | nil => intro i es h; injection h with h; subst h; exact ⟨rfl, by simp⟩
  | cons d docs ih =>
    intro i es h
    rw [buildEdges] at h
    cases hs : indexOf nodes d.source with
    | none => rw [hs] at h; cases h
    | some s =>
      rw [hs] at h
      dsimp only at h
      cases ht : indexOf nodes d.target with
      | none => rw [ht] at h; cases h
      | some t =>
        rw [ht] at h
        dsimp only at h
        cases hr : buildEdges nodes (i + 1) docs with
        | error er => rw [hr] at h; cases h
        | ok es' =>
          rw [hr] at h
          injection h with h
          subst h
          obtain ⟨h1, h2⟩ := ih (i + 1) hr
          refine ⟨by simp [h1, List.range'_succ], fun e he => ?_⟩
          rcases List.mem_cons.1 he with rfl | he
          · exact ⟨hix hs, hix ht⟩
          · exact h2 e he

theorem zipIdx_keys (nodes : List GNode) : (nodes.zipIdx.map fun p => (p.2, p.1)).map Prod.fst = List.range nodes.length := by
  rw [List.map_map]
  have : (Prod.fst ∘ fun p : GNode × Nat => (p.2, p.1)) = Prod.snd := rfl
  rw [this, List.zipIdx_map_snd, List.range_eq_range']

theorem buildGraph_wf {nodes : List GNode} {docs : List EdgeDoc} {g : Graph} (h : buildGraph nodes docs = .ok g) :
    g.Wf := by
  unfold buildGraph at h
  cases hb : buildEdges nodes 0 docs with
  | error e => rw [hb] at h; cases h
  | ok es =>
    rw [hb] at h
    injection h with h
    subst h
    obtain ⟨h1, h2⟩ := buildEdges_ids docs 0 hb
    refine ⟨?_, fun e he => ?_, ?_⟩
    · dsimp only; rw [h1]; exact List.nodup_range'
    · unfold Graph.Alive
      rw [zipIdx_keys]
      exact ⟨List.mem_range.2 (h2 e he).1, List.mem_range.2 (h2 e he).2⟩
    · dsimp only; rw [zipIdx_keys]; exact List.nodup_range
end Zen
