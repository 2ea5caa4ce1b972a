import Verif.Engine.EngineLemmas
import Verif.Engine.GraphDemo
/-
C31: graph validation, termination, and the depth limit of nested decisions.
-/
namespace Zen
open Graph Walker

/-- The check for cycles decides whether there is a cycle. -/
theorem C31_cyclic (g : Graph) : g.isCyclic = true ↔ HasCycle g := isCyclic_iff g

theorem filter_zipIdx_length (p : GNode → Bool) : ∀ (nodes : List GNode) (k : Nat),
    (((nodes.zipIdx k).map fun q => (q.2, q.1)).filter fun q => p q.2).length = (nodes.filter p).length := by
  intro nodes
  induction nodes with
  | nil => intro k; rfl
  | cons a nodes ih =>
    intro k
    simp only [List.zipIdx_cons, List.map_cons, List.filter_cons]
    split
    · simp only [List.length_cons, ih]
    · exact ih _

/-- A document is accepted exactly when it has one input node and no cycle. -/
theorem C31_accepted {nodes : List GNode} {docs : List EdgeDoc} {g : Graph} (hb : buildGraph nodes docs = .ok g) :
    g.validate = .ok () ↔ (nodes.filter (·.kind.isInput)).length = 1 ∧ ¬ HasCycle g := by
  rw [validate_ok, ← isCyclic_iff]
  have : (g.nodes.filter (·.2.kind.isInput)).length = (nodes.filter (·.kind.isInput)).length := by
    unfold buildGraph at hb
    cases he : buildEdges nodes 0 docs with
    | error e => rw [he] at hb; cases hb
    | ok es =>
      rw [he] at hb; injection hb with hb; subst hb
      exact filter_zipIdx_length (·.kind.isInput) nodes 0
  rw [this]
  simp

theorem buildEdges_ok (nodes : List GNode) : ∀ (docs : List EdgeDoc) (i : Nat),
    (∃ es, buildEdges nodes i docs = .ok es) ↔
      ∀ d ∈ docs, d.source ∈ nodes.map GNode.id ∧ d.target ∈ nodes.map GNode.id := by
  have hix : ∀ id, (∃ k, indexOf nodes id = some k) ↔ id ∈ nodes.map GNode.id := by
    intro id
    unfold indexOf
    rw [show (∃ k, ((nodes.zipIdx.reverse.find? (·.1.id = id)).map Prod.snd) = some k) ↔
      (nodes.zipIdx.reverse.find? (·.1.id = id)).isSome = true from by
        cases nodes.zipIdx.reverse.find? (·.1.id = id) <;> simp]
    rw [List.find?_isSome]
    constructor
    · rintro ⟨p, hp, hid⟩
      have hp' := List.mem_reverse.1 hp
      have hm : p.1 ∈ nodes := by
        have := List.mem_map_of_mem (f := Prod.fst) hp'
        rwa [List.zipIdx_map_fst] at this
      exact List.mem_map.2 ⟨p.1, hm, by simpa using hid⟩
    · intro h
      obtain ⟨x, hx, rfl⟩ := List.mem_map.1 h
      rw [← List.zipIdx_map_fst 0 nodes] at hx
      obtain ⟨p, hp, hpx⟩ := List.mem_map.1 hx
      exact ⟨p, List.mem_reverse.2 hp, by simp [hpx]⟩
  intro docs
  induction docs with
  | nil => intro i; simp [buildEdges]
  | cons d docs ih =>
    intro i
    rw [buildEdges]
    simp only [List.mem_cons, forall_eq_or_imp]
    rw [← hix, ← hix, ← ih (i + 1)]
    cases hs : indexOf nodes d.source with
    | none => simp
    | some s =>
      cases ht : indexOf nodes d.target with
      | none => simp
      | some t => cases hr : buildEdges nodes (i + 1) docs <;> simp

/-- A graph can be built exactly when every edge connects nodes of the document. -/
theorem C31_built (nodes : List GNode) (docs : List EdgeDoc) :
    (∃ g, buildGraph nodes docs = .ok g) ↔
      ∀ d ∈ docs, d.source ∈ nodes.map GNode.id ∧ d.target ∈ nodes.map GNode.id := by
  rw [← buildEdges_ok nodes docs 0]
  unfold buildGraph
  cases buildEdges nodes 0 docs <;> simp

/-- The evaluation of a graph ends, whatever the handlers return, with one result. -/
theorem C31_terminates {nodes : List GNode} {docs : List EdgeDoc} {g : Graph} (hb : buildGraph nodes docs = .ok g)
    (C : GCfg) (maxDepth iteration : Nat) (ctx : Val) (parent : Option Val) :
    ∃ fuel r, ∀ k, fuel ≤ k → evalGraph C maxDepth iteration ctx parent k g = some r := by
  obtain ⟨f, r, h⟩ := evalGraph_some (buildGraph_wf hb) C maxDepth iteration ctx parent
  exact ⟨f, r, fun k hk => evalGraph_mono h hk⟩

/-- A rejected graph is not evaluated: no handler runs, the error is that of the validation. -/
theorem C31_rejected {g : Graph} {e : GErr} (h : g.validate = .error e) (C : GCfg) (maxDepth iteration : Nat) (ctx : Val)
    (parent : Option Val) (fuel : Nat) : evalGraph C maxDepth iteration ctx parent fuel g = some (.error e) := by
  unfold evalGraph; rw [h]

/-- Without budget, an accepted graph ends in the depth limit error. -/
theorem C31_depth_limit (E : Env) (c : Content) (ctx : Val) (parent : Option Val) {g : Graph}
    (hb : buildGraph c.nodes c.edges = .ok g) (hv : g.validate = .ok ()) :
    E.evalAt 0 c ctx parent = .error .depthLimit := by
  rw [Env.evalAt, Env.evalContent, hb]
  dsimp only
  rw [evalGraphT_of (r := .error .depthLimit) (fuel := 0)]
  unfold evalGraph
  rw [hv]
  rfl

/-- The limit only cuts off: a larger one does not change a result. -/
theorem C31_limit_only_cuts (E : Env) {d : Nat} {c : Content} {ctx : Val} {parent : Option Val} {v : Val}
    (h : E.evalAt d c ctx parent = .ok v) {d' : Nat} (hd : d ≤ d') : E.evalAt d' c ctx parent = .ok v := by
  have step : ∀ (d : Nat) (c : Content) (ctx : Val) (parent : Option Val) (v : Val),
      E.evalAt d c ctx parent = .ok v → E.evalAt (d + 1) c ctx parent = .ok v := by
    intro d
    induction d with
    | zero =>
      intro c ctx parent v h
      rw [Env.evalAt, Env.evalContent] at h
      cases hb : buildGraph c.nodes c.edges with
      | error e => rw [hb] at h; cases h
      | ok g =>
        rw [hb] at h
        dsimp only at h
        obtain ⟨f, hf⟩ := evalGraphT_spec (buildGraph_wf hb) (E.cfg fun _ _ _ => .error "") 0 0 ctx parent
        cases hv : g.validate with
        | error e =>
          rw [C31_rejected hv] at hf
          injection hf with hf
          rw [← hf] at h; cases h
        | ok u =>
          unfold evalGraph at hf
          rw [hv] at hf
          injection hf with hf
          rw [← hf] at h; cases h
    | succ d ih =>
      intro c ctx parent v h
      rw [Env.evalAt, Env.evalContent] at h ⊢
      cases hb : buildGraph c.nodes c.edges with
      | error e => rw [hb] at h; cases h
      | ok g =>
        rw [hb] at h
        dsimp only at h ⊢
        have hle : ∀ (key : String) (x : Val) (ns : Option Val) (out : Val),
            E.subOf (E.evalAt d) key x ns = .ok out → E.subOf (E.evalAt (d + 1)) key x ns = .ok out := by
          intro key x ns out hh
          unfold Env.subOf at hh ⊢
          cases hl : E.loader key with
          | error m => rw [hl] at hh; cases hh
          | ok c' =>
            rw [hl] at hh
            dsimp only at hh ⊢
            cases he : E.evalAt d c' x ns with
            | error e => rw [he] at hh; cases hh
            | ok y => rw [he] at hh; rw [ih c' x ns y he]; exact hh
        obtain ⟨f, hf⟩ := evalGraphT_spec (buildGraph_wf hb) (E.cfg (E.subOf (E.evalAt d))) (d + 1) 0 ctx parent
        cases hr : evalGraphT (E.cfg (E.subOf (E.evalAt d))) (d + 1) 0 ctx parent g with
        | error e => rw [hr] at h; cases h
        | ok r =>
          rw [hr] at h hf
          have : evalGraph (E.cfg (E.subOf (E.evalAt (d + 1)))) (d + 1 + 1) 0 ctx parent f g = some (.ok r) := by
            unfold evalGraph at hf ⊢
            cases hv : g.validate with
            | error e => rw [hv] at hf; cases hf
            | ok u =>
              rw [hv] at hf
              dsimp only at hf ⊢
              rw [if_neg (by omega)] at hf ⊢
              exact evalLoop_handle (C := E.cfg (E.subOf (E.evalAt d)))
                (h := handleNode E (E.subOf (E.evalAt (d + 1)))) (handleNode_le hle) f hf
          rw [evalGraphT_of this]
          exact h
  obtain ⟨k, rfl⟩ : ∃ k, d' = d + k := ⟨d' - d, by omega⟩
  clear hd
  induction k with
  | zero => exact h
  | succ k ih => exact step (d + k) c ctx parent v ih

/-- a decision that does nothing but run the decision `key` -/
def callOf (key : String) : Content where
  nodes := [⟨"in", "in", .input none⟩, ⟨"sub", "sub", .decision key {}⟩]
  edges := [⟨"in", "sub", none⟩]

theorem callOf_built (key : String) : buildGraph (callOf key).nodes (callOf key).edges =
    .ok ⟨[(0, ⟨"in", "in", .input none⟩), (1, ⟨"sub", "sub", .decision key {}⟩)], [⟨0, 0, 1, none⟩]⟩ := rfl

theorem callOf_runs (C : GCfg) (key : String) (m : String) (hin : ∀ v ns, C.handle ⟨"in", "in", .input none⟩ v ns = .ok v)
    (hsub : ∀ v ns, C.handle ⟨"sub", "sub", .decision key {}⟩ v ns = .error m) (d : Nat) (ctx : Val) (parent : Option Val) :
    evalGraph C (d + 1) 0 ctx parent 20
      ⟨[(0, ⟨"in", "in", .input none⟩), (1, ⟨"sub", "sub", .decision key {}⟩)], [⟨0, 0, 1, none⟩]⟩ =
      some (.error (.node "sub" m)) := by
  generalize hg : (⟨[(0, ⟨"in", "in", .input none⟩), (1, ⟨"sub", "sub", .decision key {}⟩)], [⟨0, 0, 1, none⟩]⟩ : Graph) = g
  have hv : g.validate = .ok () := by subst hg; rfl
  unfold evalGraph
  rw [hv]
  dsimp only
  rw [if_neg (by omega), evalLoop]
  have h1 : (Walker.new g).nextGuarded C 19 g = some (some 0, g, { ordered := [0], toVisit := [1] }) := by
    subst hg; rfl
  rw [h1]
  have h2 : g.node? 0 = some ⟨"in", "in", .input none⟩ := by subst hg; rfl
  have h3 : g.node? 1 = some ⟨"sub", "sub", .decision key {}⟩ := by subst hg; rfl
  have h4 : ∀ data, ({ ordered := [0], toVisit := [1], data := data } : Walker).nextGuarded C 18 g =
      some (some 1, g, { ordered := [1, 0], toVisit := [], data := data }) := by
    intro data; subst hg; rfl
  dsimp only
  rw [if_neg (by simp [dataOf]), h2]
  dsimp only [nodeResult]
  rw [hin]
  dsimp only
  rw [if_neg (by simp [NKind.isOutput]), evalLoop]
  simp only [List.nil_append]
  rw [h4]
  dsimp only
  rw [if_neg (by simp [dataOf]), h3]
  dsimp only [nodeResult]
  rw [hsub]

/-- A decision that refers to itself, for any limit, ends in an error: that of the limit, reported
by the node through the levels. -/
theorem C31_self_reference (E : Env) (key : String) (hl : E.loader key = .ok (callOf key)) :
    ∀ (d : Nat) (ctx : Val) (parent : Option Val),
      E.evalAt d (callOf key) ctx parent =
        .error (if d = 0 then .depthLimit else .node "sub" "Depth limit exceeded") := by
  intro d
  induction d with
  | zero => intro ctx parent; exact C31_depth_limit E _ ctx parent (callOf_built key) rfl
  | succ d ih =>
    intro ctx parent
    rw [Env.evalAt, Env.evalContent, callOf_built]
    dsimp only
    rw [evalGraphT_of (callOf_runs (E.cfg (E.subOf (E.evalAt d))) key "Depth limit exceeded" (fun v ns => rfl) ?_ d ctx parent)]
    · rw [if_neg (by omega)]
    · intro v ns
      have : E.subOf (E.evalAt d) key v ns = .error "Depth limit exceeded" := by
        unfold Env.subOf
        rw [hl]
        dsimp only
        rw [ih]
        by_cases hd : d = 0
        · rw [if_pos hd]; rfl
        · rw [if_neg hd]; rfl
      show handleNode E (E.subOf (E.evalAt d)) ⟨"sub", "sub", .decision key {}⟩ v ns = _
      simp only [handleNode, runWith, selectInput, plain, this]
      rfl


/-! ## Instances -/

-- accepted and run: the demonstration graph
example : (demoGraph .first).validate = .ok () := rfl

-- a cycle, and two inputs
example : ((buildGraph [⟨"i", "i", .input none⟩, ⟨"a", "a", .expression [] {}⟩, ⟨"b", "b", .expression [] {}⟩]
    [⟨"i", "a", none⟩, ⟨"a", "b", none⟩, ⟨"b", "a", none⟩]).toOption.map Graph.validate) = some (.error .cyclic) := rfl

example : ((buildGraph [⟨"i", "i", .input none⟩, ⟨"j", "j", .input none⟩] []).toOption.map Graph.validate) =
    some (.error (.invalidInputCount 2)) := rfl

example : HasCycle ⟨[(0, ⟨"a", "a", .expression [] {}⟩)], [⟨0, 0, 0, none⟩]⟩ :=
  (C31_cyclic _).1 rfl

-- an edge into nowhere
example : ¬ ∃ g, buildGraph [⟨"i", "i", .input none⟩] [⟨"i", "x", none⟩] = .ok g := by
  rw [C31_built]; simp

/-- an environment with one decision, which calls itself -/
def selfEnv : Env where
  F := fun _ _ => .error .valueCast
  B := demoB
  schema := fun _ _ => .ok ()
  loader := fun _ => .ok (callOf "me")
  foreign := fun _ v _ => .ok v
  nodesInContext := true
  ord := id
  compiled := true
  trace := false

example : selfEnv.evaluate 5 (callOf "me") (.obj []) = .error (.node "sub" "Depth limit exceeded") := by
  rw [Env.evaluate, C31_self_reference selfEnv "me" rfl]; rfl

end Zen
