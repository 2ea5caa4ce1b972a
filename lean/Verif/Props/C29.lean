import Verif.Engine.GraphDemo
/-
C29: the order in which the nodes of a graph are handled. `r.log` lists the handled nodes, oldest
first, with input and output; `r.walker.strace` what tracing reports about the switches.
-/
namespace Zen
open Graph Walker
variable {C : GCfg} {nodes : List GNode} {docs : List EdgeDoc} {g : Graph} {maxDepth iteration fuel : Nat}
  {ctx : Val} {parent : Option Val} {r : Walked}

theorem evalGraph_ended (hb : buildGraph nodes docs = .ok g)
    (he : evalGraph C maxDepth iteration ctx parent fuel g = some (.ok r)) : Ended C g ctx parent r := by
  unfold evalGraph at he
  split at he
  · cases he
  · split at he
    · cases he
    · exact evalLoop_ended fuel (Inv.new (buildGraph_wf hb)) (LogInv.new C g ctx parent) he

/-- No node is handled twice. -/
theorem C29_once (hb : buildGraph nodes docs = .ok g)
    (he : evalGraph C maxDepth iteration ctx parent fuel g = some (.ok r)) :
    (r.log.map Handled.node).Nodup :=
  (evalGraph_ended hb he).log.nodup

/-- When a node is handled, all its predecessors along edges that no switch decided against were
handled before, except those that cannot be reached at all along such edges (they are never
handled, `C30_not_taken`). -/
theorem C29_after_predecessors (hb : buildGraph nodes docs = .ok g)
    (he : evalGraph C maxDepth iteration ctx parent fuel g = some (.ok r))
    {pre post : List Handled} {h : Handled} (hl : r.log = pre ++ h :: post)
    {e : GEdge} (hm : e ∈ g.edges) (ht : e.tgt = h.node) (ha : against r.walker.strace e = false)
    (hr : Follows g r.walker.strace (IsSource g) e.src) :
    e.src ∈ pre.map Handled.node :=
  ((evalGraph_ended hb he).log.entries pre h post hl).preds e hm ht ha hr

/-- The input of a node is the merge of what its predecessors returned, over exactly the edges no
switch decided against (the input node gets the context instead), and its output is what its handler
returns for that. -/
theorem C29_data_flow (hb : buildGraph nodes docs = .ok g)
    (he : evalGraph C maxDepth iteration ctx parent fuel g = some (.ok r))
    {pre post : List Handled} {h : Handled} (hl : r.log = pre ++ h :: post) :
    ∃ x, g.node? h.node = some x ∧
      (x.kind.isInput = true → h.input = ctx ∧
        C.handle x ctx (nodesAfter C g parent pre) = .ok h.output) ∧
      (x.kind.isInput = false → h.input = mergeData (fedBy g r.walker.strace pre h.node) ∧
        (x.kind.isSwitch = true → h.output = h.input) ∧
        (x.kind.isSwitch = false → C.handle x h.input (nodesAfter C g parent pre) = .ok h.output)) := by
  obtain ⟨x, hx, hin, hres⟩ := ((evalGraph_ended hb he).log.entries pre h post hl).node
  refine ⟨x, hx, fun hi => ?_, fun hi => ?_⟩
  · rw [if_pos hi] at hin
    refine ⟨hin, ?_⟩
    unfold nodeResult at hres
    cases hk : x.kind <;> rw [hk] at hres hi <;> first | exact hres | cases hi
  · rw [if_neg (by rw [hi]; simp)] at hin
    refine ⟨hin, fun hs => ?_, fun hs => ?_⟩
    · unfold nodeResult at hres
      cases hk : x.kind <;> rw [hk] at hres hs <;> first | cases hs | skip
      injection hres with hres
      rw [hin]; exact hres.symm
    · unfold nodeResult at hres
      rw [hin]
      cases hk : x.kind <;> rw [hk] at hres hs hi <;> first | cases hs; done | cases hi; done | exact hres

/-- what `$nodes` shows of a node: its output; of the input node of a nested decision the output with the `$nodes` of the decision around it -/
def Shown (parent : Option Val) (x : GNode) (output v : Val) : Prop :=
  match x.kind.isInput, parent, output with
  | true, some p, .obj m => ∃ m', v = .obj m' ∧ aGet m' "$nodes" = some p ∧ ∀ k, k ≠ "$nodes" → aGet m' k = aGet m k
  | _, _, _ => v = output

theorem shown_stored (x : GNode) (output : Val) : Shown parent x output ((nodesViewOf parent x output).getD output) := by
  have hs : splitDot "$nodes" = ["$nodes"] := by decide +kernel
  unfold Shown nodesViewOf
  cases hk : x.kind <;> simp only [NKind.isInput]
  case input =>
    cases parent with
    | none => rfl
    | some p =>
      cases output with
      | obj m =>
        refine ⟨aSet m "$nodes" p, ?_, ?_, fun k hk => ?_⟩
        · simp only [Val.dotInsert, hs, Val.dotInsertP, Option.getD_some]
        · rw [aGet_aSet, if_pos rfl]
        · rw [aGet_aSet, if_neg hk]
      | _ => simp only [Val.dotInsert, hs, Val.dotInsertP, Option.getD_some]
  all_goals rfl

theorem foldl_names (f : Nat × NodeData → Val) : ∀ (l : List (Nat × NodeData)) (m : List (String × Val)),
    (∀ p ∈ l, (aGet (l.foldl (fun m p => aSet m p.2.name (f p)) m) p.2.name).isSome) ∧
    (∀ k, (aGet m k).isSome → (aGet (l.foldl (fun m p => aSet m p.2.name (f p)) m) k).isSome) ∧
    ∀ k v, aGet (l.foldl (fun m p => aSet m p.2.name (f p)) m) k = some v → aGet m k = some v ∨ ∃ p ∈ l, p.2.name = k ∧ f p = v := by
  intro l
  induction l with
  | nil => exact fun m => ⟨nofun, fun k h => h, fun k v h => .inl h⟩
  | cons q l ih =>
    intro m
    obtain ⟨i1, i2, i3⟩ := ih (aSet m q.2.name (f q))
    simp only [List.foldl_cons]
    refine ⟨?_, fun k hk => i2 k ?_, fun k v h => ?_⟩
    · intro p hp
      rcases List.mem_cons.1 hp with rfl | hp
      · exact i2 _ (by rw [aGet_aSet, if_pos rfl]; rfl)
      · exact i1 p hp
    · rw [aGet_aSet]; split
      · rfl
      · exact hk
    · rcases i3 k v h with h | ⟨p, hp, h⟩
      · rw [aGet_aSet] at h
        split at h
        · next e => injection h with h; exact .inr ⟨q, List.mem_cons_self .., e.symm, h⟩
        · exact .inl h
      · exact .inr ⟨p, List.mem_cons_of_mem _ hp, h⟩

/-- What a node sees of the nodes handled before it: nothing if that is turned off, else an object with an entry for the name of every one of
them and no others, showing the output of a node with that name. -/
theorem C29_nodes (hb : buildGraph nodes docs = .ok g) (hord : ∀ l, (C.ord l).Perm l)
    (he : evalGraph C maxDepth iteration ctx parent fuel g = some (.ok r)) {pre post : List Handled} (hl : r.log = pre ++ post) :
    (C.nodesInContext = false → nodesAfter C g parent pre = none) ∧
    (C.nodesInContext = true → ∃ m, nodesAfter C g parent pre = some (.obj m) ∧
      (∀ h ∈ pre, ∀ x, g.node? h.node = some x → (aGet m x.name).isSome) ∧
      ∀ k v, aGet m k = some v → ∃ h ∈ pre, ∃ x, g.node? h.node = some x ∧ x.name = k ∧ Shown parent x h.output v) := by
  constructor
  · intro hc
    simp only [nodesAfter, nodesContext, hc, Bool.false_eq_true, if_false]
  · intro hc
    refine ⟨_, by simp only [nodesAfter, nodesContext, hc, if_true]; rfl, ?_, ?_⟩
    · intro h hh x hx
      have := (foldl_names (fun p => p.2.nodesView.getD p.2.data) (C.ord (pre.map (mkData g parent))) []).1 (mkData g parent h)
        ((hord _).symm.subset (List.mem_map_of_mem hh))
      simpa only [mkData, hx] using this
    · intro k v hv
      rcases (foldl_names (fun p => p.2.nodesView.getD p.2.data) (C.ord (pre.map (mkData g parent))) []).2.2 k v hv with h | ⟨p, hp, hk, hf⟩
      · cases h
      · obtain ⟨h, hh, rfl⟩ := List.mem_map.1 ((hord _).subset hp)
        obtain ⟨l1, l2, e⟩ := List.append_of_mem hh
        obtain ⟨x, hx, _⟩ := C29_data_flow hb he (h := h) (pre := l1) (post := l2 ++ post) (by rw [hl, e]; simp)
        simp only [mkData, hx] at hk hf
        exact ⟨h, hh, x, hx, hk, hf ▸ shown_stored x h.output⟩

-- the input node of a nested decision shows the nodes of the decision around it, other nodes do not
example (x : GNode) (h : x.kind.isInput = true) : Shown (some (.obj [("n", .num 1)])) x (.obj [("a", .num 2)])
    (.obj [("a", .num 2), ("$nodes", .obj [("n", .num 1)])]) := by
  unfold Shown
  rw [h]
  exact ⟨_, rfl, rfl, fun k hk => by simp [aGet, Ne.symm hk]⟩
example (x : GNode) (h : x.kind.isInput = false) : Shown (some (.obj [("n", .num 1)])) x (.num 2) (.num 2) := by
  unfold Shown
  rw [h]

/-- At a normal end (no output node cut the evaluation short, fewer than 1000 switches) every node
reachable from the input node along edges no switch decided against has been handled, unless it is a
switch that was decided and leads nowhere. -/
theorem C29_complete (hb : buildGraph nodes docs = .ok g)
    (he : evalGraph C maxDepth iteration ctx parent fuel g = some (.ok r))
    (ho : r.atOutput = false) (hs : switchCount g < 1000) {i n : Nat} (hi : IsInput g i)
    (hsrc : ∀ e ∈ g.edges, e.tgt ≠ i) (hf : Follows g r.walker.strace (· = i) n) :
    n ∈ r.log.map Handled.node ∨ DeadEnd g r.walker.strace n := by
  have h := evalGraph_ended hb he
  have hv : r.walker.toVisit = [] := by
    rcases h.stop ho with hv | hv
    · exact hv
    · have h1 := h.inv.iterLe
      have h2 := switches_le h.inv
      unfold ITER_MAX at hv
      omega
  obtain ⟨rank, hr⟩ : ∃ rank : Nat → Nat, ∀ e ∈ g.edges, rank e.src < rank e.tgt := by
    unfold evalGraph at he
    cases hval : g.validate with
    | error er => rw [hval] at he; cases he
    | ok u => exact validate_rank hval
  by_cases hn : n ∈ r.log.map Handled.node
  · exact .inl hn
  · exact .inr (h.deadEnd hv (st := (· = i)) (fun m hm => hm ▸ ⟨hi, hi.alive, hsrc⟩) hr hf hn)

/-- An output node ends the evaluation: it is the last node handled. -/
theorem C29_output_last (hb : buildGraph nodes docs = .ok g)
    (he : evalGraph C maxDepth iteration ctx parent fuel g = some (.ok r)) (ho : r.atOutput = true) :
    ∃ pre h x, r.log = pre ++ [h] ∧ g.node? h.node = some x ∧ x.kind.isOutput = true :=
  let ⟨pre, h, x, h1, h2, h3, _⟩ := (evalGraph_ended hb he).output ho
  ⟨pre, h, x, h1, h2, h3⟩

/-- an instance: in, sw, y, join are handled, in this order; x is not -/
example : ∃ r, demoRun .first false true = some (.ok r) ∧ r.log.map Handled.node = [0, 1, 3, 4] ∧
    r.atOutput = false ∧ switchCount (demoGraph .first) < 1000 ∧
    IsInput (demoGraph .first) 0 ∧ (∀ e ∈ (demoGraph .first).edges, e.tgt ≠ 0) := by
  obtain ⟨r, h1, h2, _, h3⟩ := seen_some (x := demoRun .first false true) (l := [0, 1, 3, 4])
    (tr := [(1, ["s2"])]) (b := false) (by decide +kernel)
  exact ⟨r, h1, h2, h3, by decide, ⟨_, List.mem_cons_self .., rfl, rfl⟩, by decide⟩

/-- an instance of a switch that leads nowhere: nothing matches, the whole graph is removed -/
example : ∃ r, demoRun .collect false false = some (.ok r) ∧ r.log.map Handled.node = [0, 4] ∧
    DeadEnd (demoGraph .collect) r.walker.strace 1 := by
  obtain ⟨r, h1, h2, h3, _⟩ := seen_some (x := demoRun .collect false false) (l := [0, 4])
    (tr := [(1, [])]) (b := false) (by decide +kernel)
  refine ⟨r, h1, h2, ?_⟩
  obtain ⟨t, ht⟩ : ∃ t, r.walker.strace = [t] := by
    cases hs : r.walker.strace with
    | nil => rw [hs] at h3; cases h3
    | cons t l => cases l with
      | nil => exact ⟨t, rfl⟩
      | cons => rw [hs] at h3; simp at h3
  rw [ht] at h3 ⊢
  simp only [List.map_cons, List.map_nil, List.cons.injEq, Prod.mk.injEq, and_true] at h3
  refine .mk (by simp [h3.1]) fun e he hs ha => ?_
  rw [against] at ha
  simp [h3.1, h3.2, hs] at ha

end Zen
