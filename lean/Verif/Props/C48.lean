import Verif.Props.C29
import Verif.Engine.EngineLemmas
import Verif.Heap.Lemmas
/-
C48: the result of a graph evaluation, as a function of what the nodes returned (`r.log`).
-/
namespace Zen
open Graph Walker
variable {C : GCfg} {nodes : List GNode} {docs : List EdgeDoc} {g : Graph} {maxDepth iteration fuel : Nat}
  {ctx : Val} {parent : Option Val} {r : Walked}

/-- Specification: no edge of the document leaves the node -/
def IsLeaf (g : Graph) (n : Nat) : Prop := ∀ e ∈ g.edges, e.src ≠ n

instance (g : Graph) (n : Nat) : Decidable (IsLeaf g n) := inferInstanceAs (Decidable (∀ e ∈ g.edges, e.src ≠ n))

/-- Specification: the outputs of the leaves that were handled, in the order of the document -/
def leafOutputs (g : Graph) (log : List Handled) : List Val :=
  (g.nodes.map Prod.fst).filterMap fun n => if IsLeaf g n then outputIn log n else none

theorem filterMap_congr' {α β : Type} {f f' : α → Option β} : ∀ {l : List α}, (∀ a ∈ l, f a = f' a) → l.filterMap f = l.filterMap f'
  | [], _ => rfl
  | a :: l, h => by
    rw [List.filterMap_cons, List.filterMap_cons, h a (by simp), filterMap_congr' fun b hb => h b (by simp [hb])]

/-- the nodes that enter the result, as the code selects them -/
theorem ending_eq {g0 : Graph} (h : Ended C g0 ctx parent r) :
    r.walker.ending r.graph = ((g0.nodes.map Prod.fst).filterMap fun n =>
      if n ∈ r.walker.ordered ∧ IsLeaf g0 n then outputIn r.log n else none).foldl Val.merge (.obj []) := by
  have hsel : ∀ n, (n ∈ r.walker.ordered ∧ (r.graph.succs n).isEmpty = true) ↔ (n ∈ r.walker.ordered ∧ IsLeaf g0 n) := by
    intro n
    refine and_congr_right fun ho => ?_
    have ha := h.inv.ordAlive n ho
    have : (r.graph.succs n).isEmpty = true ↔ ¬ r.graph.HasOut n := by
      rw [← outE_empty]; unfold succs; simp
    rw [this]
    constructor
    · intro hno e he hs
      rcases h.inv.shr.keptOut n with h1 | h1 | h1
      · exact hno ⟨e, h1 e he hs, hs⟩
      · exact hno h1
      · exact h1.2 ha
    · rintro hl ⟨e, he, hs⟩
      exact hl e (h.inv.shr.edges.subset he) hs
  have hdata := dataOf_log r.log r.walker h.log.data
  have hstep : ∀ (l : List Nat) (acc : Val), l.foldl (fun acc n =>
      if n ∈ r.walker.ordered ∧ (r.graph.succs n).isEmpty then
        match r.walker.dataOf n with
        | none => acc
        | some d => acc.merge d.data
      else acc) acc = (l.filterMap fun n =>
        if n ∈ r.walker.ordered ∧ IsLeaf g0 n then outputIn r.log n else none).foldl Val.merge acc := by
    intro l
    induction l with
    | nil => intro acc; rfl
    | cons n l ih =>
      intro acc
      rw [List.foldl_cons, ih, List.filterMap_cons]
      by_cases hc : n ∈ r.walker.ordered ∧ IsLeaf g0 n
      · rw [if_pos ((hsel n).2 hc), if_pos hc, ← hdata n]
        cases r.walker.dataOf n <;> rfl
      · rw [if_neg (fun hh => hc ((hsel n).1 hh)), if_neg hc]
  refine (hstep _ _).trans ?_
  congr 1
  have hn := h.inv.wf.nodes
  have hs : (r.graph.nodes.map Prod.fst).Sublist (g0.nodes.map Prod.fst) := h.inv.shr.nodes.map _
  rw [sublist_eq_filter hs hn, List.filterMap_filter]
  refine filterMap_congr' fun n _ => ?_
  by_cases hc : n ∈ r.walker.ordered ∧ IsLeaf g0 n
  · have : decide (n ∈ r.graph.nodes.map Prod.fst) = true := decide_eq_true (h.inv.ordAlive n hc.1)
    rw [this]; simp
  · rw [if_neg hc]; simp

/-- At a normal end, in a document whose only node without incoming edges is the input node: the result
is the merge of the outputs of all handled leaves, in document order. -/
theorem C48_result (hb : buildGraph nodes docs = .ok g)
    (he : evalGraph C maxDepth iteration ctx parent fuel g = some (.ok r))
    (ho : r.atOutput = false) (hs : switchCount g < 1000) (hone : ∀ n, IsSource g n → IsInput g n) :
    r.walker.ending r.graph = (leafOutputs g r.log).foldl Val.merge (.obj []) := by
  have h := evalGraph_ended hb he
  have hv : r.walker.toVisit = [] := by
    rcases h.stop ho with hv | hv
    · exact hv
    · have h1 := h.inv.iterLe
      have h2 := switches_le h.inv
      unfold ITER_MAX at hv
      omega
  rw [ending_eq h]
  congr 1
  unfold leafOutputs
  refine filterMap_congr' fun n _ => ?_
  by_cases hl : IsLeaf g n
  · by_cases hk : n ∈ r.log.map Handled.node
    · have hk' : n ∈ keys r.walker := by rw [keys_log h.log.data]; exact hk
      have hlive := (h.inv.dataLive n hk').live
      have hg0 : g.Alive n := by
        cases hlive with
        | start hh => exact hh.1
        | edge he _ _ => exact (h.inv.wf.ends _ he).2
      have halive : r.graph.Alive n := by
        by_cases hd : r.graph.Alive n
        · exact hd
        · obtain ⟨e, he, hes⟩ := (h.inv.dead n hg0 hd hlive).2
          exact absurd hes (hl e he)
      have := (h.complete' hv (st := IsSource g) (fun m hm => ⟨hone m hm, hm⟩) hlive).1 halive
      rw [if_pos ⟨this, hl⟩, if_pos hl]
    · have : outputIn r.log n = none := by
        cases hh : outputIn r.log n with
        | none => rfl
        | some v => exact absurd (outputIn_isSome.1 (by rw [hh]; rfl)) hk
      rw [this]; simp
  · rw [if_neg (fun hh => hl hh.2), if_neg hl]

/-- However the evaluation ended: the result is the merge, in document order, of the outputs of some of
the handled leaves. Nothing else enters it. -/
theorem C48_only_leaves (hb : buildGraph nodes docs = .ok g)
    (he : evalGraph C maxDepth iteration ctx parent fuel g = some (.ok r)) :
    ∃ vs : List Val, vs.Sublist (leafOutputs g r.log) ∧ r.walker.ending r.graph = vs.foldl Val.merge (.obj []) := by
  refine ⟨_, ?_, ending_eq (evalGraph_ended hb he)⟩
  unfold leafOutputs
  induction g.nodes.map Prod.fst with
  | nil => exact .slnil
  | cons n l ih =>
    rw [List.filterMap_cons, List.filterMap_cons]
    by_cases hl : IsLeaf g n
    · by_cases hn : n ∈ r.walker.ordered
      · simp only [hl, hn, and_self, if_true]
        cases outputIn r.log n with
        | none => exact ih
        | some v => exact ih.cons_cons v
      · simp only [hl, hn, and_true, if_false, if_true]
        cases outputIn r.log n with
        | none => exact ih
        | some v => exact .cons v ih
    · simp only [hl, and_false, if_false]
      exact ih

/-- An output node without outgoing edges that ends the evaluation: its output is merged into the
result, at its place in the document. -/
theorem C48_output_enters (hb : buildGraph nodes docs = .ok g)
    (he : evalGraph C maxDepth iteration ctx parent fuel g = some (.ok r)) (ho : r.atOutput = true) :
    ∃ pre h x, r.log = pre ++ [h] ∧ g.node? h.node = some x ∧ x.kind.isOutput = true ∧
      (IsLeaf g h.node → ∃ vs ws : List Val, r.walker.ending r.graph = (vs ++ h.output :: ws).foldl Val.merge (.obj []) ∧
        (vs ++ h.output :: ws).Sublist (leafOutputs g r.log)) := by
  have hE := evalGraph_ended hb he
  obtain ⟨pre, h, x, h1, h2, h3, h4⟩ := hE.output ho
  refine ⟨pre, h, x, h1, h2, h3, fun hl => ?_⟩
  have hout : outputIn r.log h.node = some h.output := by
    have hn := hE.log.nodup
    rw [h1] at hn ⊢
    simp only [List.map_append, List.map_cons, List.map_nil] at hn
    have := (List.nodup_append.1 hn).2.2
    unfold outputIn
    rw [List.find?_append, List.find?_eq_none.2]
    · simp
    · intro y hy
      simp only [decide_eq_true_eq]
      exact this y.node (List.mem_map_of_mem hy) h.node (by simp)
  obtain ⟨vs0, hs, hv⟩ := C48_only_leaves hb he
  rw [ending_eq hE]
  have hm : h.node ∈ g.nodes.map Prod.fst := List.mem_map.2 ⟨_, node?_mem h2, rfl⟩
  obtain ⟨a, b, hab⟩ := List.append_of_mem hm
  refine ⟨_, _, by
    rw [hab, List.filterMap_append, List.filterMap_cons, if_pos ⟨h4, hl⟩, hout], ?_⟩
  unfold leafOutputs
  rw [hab, List.filterMap_append, List.filterMap_cons, if_pos hl, hout]
  have sub : ∀ l : List Nat, (l.filterMap fun n => if n ∈ r.walker.ordered ∧ IsLeaf g n then outputIn r.log n else none).Sublist
      (l.filterMap fun n => if IsLeaf g n then outputIn r.log n else none) := by
    intro l
    induction l with
    | nil => exact .slnil
    | cons n l ih =>
      rw [List.filterMap_cons, List.filterMap_cons]
      by_cases hl : IsLeaf g n
      · by_cases hn : n ∈ r.walker.ordered
        · simp only [hl, hn, and_self, if_true]
          cases outputIn r.log n with
          | none => exact ih
          | some v => exact ih.cons_cons v
        · simp only [hl, hn, and_true, if_false, if_true]
          cases outputIn r.log n with
          | none => exact ih
          | some v => exact .cons v ih
      · simp only [hl, and_false, if_false]
        exact ih
  exact (sub a).append ((sub b).cons_cons _)

/-- Of the whole engine: the value a nested or top-level evaluation returns, before cleaning. -/
theorem C48_evaluation (E : Env) (d : Nat) (c : Content) (v : Val) (h : E.evalAt (d + 1) c ctx parent = .ok v) :
    ∃ g r fuel, buildGraph c.nodes c.edges = .ok g ∧
      evalGraph (E.cfg (E.subOf (E.evalAt d))) (d + 1) 0 ctx parent fuel g = some (.ok r) ∧
      (∃ vs : List Val, vs.Sublist (leafOutputs g r.log) ∧ v = vs.foldl Val.merge (.obj [])) ∧
      (r.atOutput = false → switchCount g < 1000 → (∀ n, IsSource g n → IsInput g n) →
        v = (leafOutputs g r.log).foldl Val.merge (.obj [])) := by
  rw [Env.evalAt, Env.evalContent] at h
  cases hb : buildGraph c.nodes c.edges with
  | error e => rw [hb] at h; cases h
  | ok g =>
    rw [hb] at h
    dsimp only at h
    obtain ⟨f, hf⟩ := evalGraphT_spec (buildGraph_wf hb) (E.cfg (E.subOf (E.evalAt d))) (d + 1) 0 ctx parent
    cases hr : evalGraphT (E.cfg (E.subOf (E.evalAt d))) (d + 1) 0 ctx parent g with
    | error e => rw [hr] at h; cases h
    | ok r =>
      rw [hr] at h hf
      injection h with h
      subst h
      exact ⟨g, r, f, rfl, hf, C48_only_leaves hb hf, C48_result hb hf⟩

/-! ## Instances -/

/-- the demonstration graph has one source, the input node, and `join` is its only leaf; `y` runs, `x` does not -/
example : ∃ r, demoRun .first false true = some (.ok r) ∧ r.atOutput = false ∧ switchCount (demoGraph .first) < 1000 ∧
    (∀ n, IsSource (demoGraph .first) n → IsInput (demoGraph .first) n) ∧
    (leafOutputs (demoGraph .first) r.log).length = 1 := by
  obtain ⟨r, h1, h2, _, h3⟩ := seen_some (x := demoRun .first false true) (l := [0, 1, 3, 4])
    (tr := [(1, ["s2"])]) (b := false) (by decide +kernel)
  refine ⟨r, h1, h3, by decide, ?_, ?_⟩
  · rintro n ⟨hn, hsrc⟩
    have : n = 0 ∨ n = 1 ∨ n = 2 ∨ n = 3 ∨ n = 4 := by
      simpa [demoGraph, demoNodes] using hn
    rcases this with rfl | rfl | rfl | rfl | rfl
    · exact ⟨_, List.mem_cons_self .., rfl, rfl⟩
    · exact absurd rfl (hsrc ⟨0, 0, 1, none⟩ (by decide))
    · exact absurd rfl (hsrc ⟨1, 1, 2, some "s1"⟩ (by decide))
    · exact absurd rfl (hsrc ⟨2, 1, 3, some "s2"⟩ (by decide))
    · exact absurd rfl (hsrc ⟨3, 2, 4, none⟩ (by decide))
  · have hk : ∀ n, (outputIn r.log n).isSome = true ↔ n ∈ [0, 1, 3, 4] := fun n => by rw [outputIn_isSome, h2]
    have : leafOutputs (demoGraph .first) r.log = (outputIn r.log 4).toList := by
      have l0 : ¬ IsLeaf (demoGraph .first) 0 := by decide
      have l1 : ¬ IsLeaf (demoGraph .first) 1 := by decide
      have l2 : ¬ IsLeaf (demoGraph .first) 2 := by decide
      have l3 : ¬ IsLeaf (demoGraph .first) 3 := by decide
      have l4 : IsLeaf (demoGraph .first) 4 := by decide
      have hn : (demoGraph .first).nodes.map Prod.fst = [0, 1, 2, 3, 4] := rfl
      unfold leafOutputs
      rw [hn]
      simp only [List.filterMap_cons, l0, l1, l2, l3, l4, if_true, if_false, List.filterMap_nil]
      cases outputIn r.log 4 <;> rfl
    rw [this]
    have h4 := (hk 4).2 (by simp)
    cases h5 : outputIn r.log 4 with
    | none => rw [h5] at h4; cases h4
    | some v => rfl

/-! ## Findings -/

def orphanNodes : List GNode :=
  [⟨"in", "in", .input none⟩, ⟨"m", "m", .foreign "m"⟩, ⟨"k", "k", .foreign "k"⟩, ⟨"s", "s", .foreign "s"⟩,
   ⟨"n", "n", .foreign "n"⟩, ⟨"sw", "sw", .switch .first [⟨"s1", "a"⟩]⟩, ⟨"x", "x", .foreign "x"⟩]

def orphanDocs : List EdgeDoc :=
  [⟨"in", "m", none⟩, ⟨"in", "k", none⟩, ⟨"s", "n", none⟩, ⟨"s", "m", none⟩, ⟨"m", "sw", none⟩, ⟨"sw", "x", some "s1"⟩]

def orphanGraph : Graph where
  nodes := orphanNodes.zipIdx.map fun p => (p.2, p.1)
  edges := [⟨0, 0, 1, none⟩, ⟨1, 0, 2, none⟩, ⟨2, 3, 4, none⟩, ⟨3, 3, 1, none⟩, ⟨4, 1, 5, none⟩, ⟨5, 5, 6, some "s1"⟩]

/-- NEGATIVE: with a second node without incoming edges the condition on sources in `C48_result` cannot be
dropped. Here `n`, a leaf fed by such a node, is handled, but after a switch prunes the graph the walker
starts over from the input node, does not come back to it, and its output is missing from the result. -/
theorem C48_second_source : buildGraph orphanNodes orphanDocs = .ok orphanGraph ∧
    ∃ r, evalGraph (demoCfg demoB) 5 0 (demoCtx false false) none 40 orphanGraph = some (.ok r) ∧ r.atOutput = false ∧
      r.log.map Handled.node = [0, 3, 4, 1, 2] ∧ IsLeaf orphanGraph 4 ∧
      4 ∉ r.walker.ordered := by
  refine ⟨rfl, ?_⟩
  have h : (match evalGraph (demoCfg demoB) 5 0 (demoCtx false false) none 40 orphanGraph with
    | some (.ok r) => some (r.atOutput, r.log.map Handled.node, r.walker.ordered) | _ => none)
      = some (false, [0, 3, 4, 1, 2], [2, 0]) := by decide +kernel
  split at h
  · rename_i r hr
    injection h with h
    injection h with h1 h; injection h with h2 h3
    exact ⟨r, hr, h1, h2, by decide, by rw [h3]; decide⟩
  · cases h

/-- NEGATIVE: the leaves are merged in place. When one leaf passes on an object of the caller's context and
a later leaf has the same key, the caller's object is written to. Cell 0 is the caller's object, cells 1
and 2 the outputs of the two leaves, cell 3 a new object in the second, cell 4 the accumulator. -/
theorem C48_caller_context_changed : ∃ (h h1 h2 : Heap) (acc leaf1 leaf2 caller : HVal) (a1 a2 : HVal),
    Heap.merge 4 h acc leaf1 = some (.ok (h1, a1)) ∧ Heap.merge 4 h1 a1 leaf2 = some (.ok (h2, a2)) ∧
    Sees h acc (.obj []) ∧ Sees h caller (.obj []) ∧ Sees h2 caller (.obj [("x", .num 1)]) := by
  refine ⟨[.obj [], .obj [("a", .obj 0)], .obj [("a", .obj 3)], .obj [("x", .num 1)], .obj []],
    [.obj [], .obj [("a", .obj 0)], .obj [("a", .obj 3)], .obj [("x", .num 1)], .obj [("a", .obj 0)]],
    [.obj [("x", .num 1)], .obj [("a", .obj 0)], .obj [("a", .obj 3)], .obj [("x", .num 1)], .obj [("a", .obj 0)]],
    .obj 4, .obj 1, .obj 2, .obj 0, .obj 4, .obj 4, by rfl, by rfl, ⟨_, .obj rfl .nil⟩, ⟨_, .obj rfl .nil⟩,
    ⟨_, .obj rfl (.cons (.num 1) .nil)⟩⟩

end Zen
