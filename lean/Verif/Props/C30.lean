import Verif.Props.C29
/-
C30: switch nodes activate exactly the chosen branches. `r.walker.strace` is what tracing reports
about the switches: their input and the ids of the chosen statements.
-/
namespace Zen
open Graph Walker
variable {C : GCfg} {nodes : List GNode} {docs : List EdgeDoc} {g : Graph} {maxDepth iteration fuel : Nat}
  {ctx : Val} {parent : Option Val} {r : Walked}

theorem stmtHolds_iff {C : GCfg} {t : SwitchTrace} {s : Stmt} :
    stmtHolds C (switchEv t.input t.nodes) s = true ↔ Satisfied C t s := by
  have hscope : (switchEv t.input t.nodes).scope =
      ⟨t.input, (match t.nodes with | some v => [("$nodes", v)] | none => [])⟩ := by
    unfold switchEv; cases t.nodes <;> rfl
  unfold stmtHolds Satisfied Ev.run
  rw [hscope]
  by_cases hc : s.condition = ""
  · simp [hc]
  · have : s.condition.isEmpty = false := by simpa using hc
    rw [this]
    simp only [hc, false_or, Bool.false_eq_true, if_false]
    cases freshRun C.F C.B ⟨t.input, (match t.nodes with | some v => [("$nodes", v)] | none => [])⟩ .standard s.condition with
    | error e => simp
    | ok v => cases v <;> simp

theorem against_unique (hb : buildGraph nodes docs = .ok g)
    (he : evalGraph C maxDepth iteration ctx parent fuel g = some (.ok r)) {t : SwitchTrace}
    (ht : t ∈ r.walker.strace) {e : GEdge} (hs : e.src = t.node) :
    against r.walker.strace e = false ↔ ∃ id ∈ t.valid, e.handle = some id := by
  have hi := (evalGraph_ended hb he).inv
  have hn := hi.swNodup
  rw [hi.sw] at hn
  have huniq : ∀ u ∈ r.walker.strace, u.node = t.node → u = t := by
    intro u hu hut
    rw [List.nodup_iff_pairwise_ne, List.pairwise_map] at hn
    rcases List.mem_iff_getElem.1 hu with ⟨i, hi, rfl⟩
    rcases List.mem_iff_getElem.1 ht with ⟨j, hj, rfl⟩
    rw [List.pairwise_iff_getElem] at hn
    rcases Nat.lt_trichotomy i j with h1 | h1 | h1
    · exact absurd hut (hn i j hi hj h1)
    · subst h1; rfl
    · exact absurd hut.symm (hn j i hj hi h1)
  unfold against
  rw [List.any_eq_false]
  constructor
  · intro h
    have := h t ht
    simp only [hs, Bool.and_eq_true, decide_eq_true_eq, true_and, Classical.not_not] at this
    obtain ⟨id, hid, hh⟩ := List.mem_map.1 this
    exact ⟨id, hid, hh.symm⟩
  · rintro ⟨id, hid, hh⟩ u hu
    simp only [Bool.and_eq_true, decide_eq_true_eq, not_and, Classical.not_not]
    intro hun
    rw [huniq u hu (hun.trans hs), hh]
    exact List.mem_map.2 ⟨id, hid, rfl⟩

/-- Every decision is taken on the merged outputs of the predecessors of the switch, after all of
them were handled and before the switch itself is. -/
theorem C30_decision_input (hb : buildGraph nodes docs = .ok g)
    (he : evalGraph C maxDepth iteration ctx parent fuel g = some (.ok r)) {t : SwitchTrace}
    (ht : t ∈ r.walker.strace) :
    ∃ pre, pre <+: r.log ∧ t.input = mergeData (fedBy g r.walker.strace pre t.node) ∧
      t.node ∉ pre.map Handled.node ∧
      ∀ e ∈ g.edges, e.tgt = t.node → against r.walker.strace e = false →
        Follows g r.walker.strace (IsSource g) e.src → e.src ∈ pre.map Handled.node := by
  obtain ⟨pre, h1, h2⟩ := (evalGraph_ended hb he).log.traces t ht
  exact ⟨pre, h1, h2.input, h2.fresh, h2.preds⟩

/-- A first-hit switch keeps exactly the edges that hang on its first satisfied statement. -/
theorem C30_first_hit (hb : buildGraph nodes docs = .ok g)
    (he : evalGraph C maxDepth iteration ctx parent fuel g = some (.ok r)) {t : SwitchTrace}
    (ht : t ∈ r.walker.strace) {x : GNode} {stmts : List Stmt} (hx : g.node? t.node = some x)
    (hk : x.kind = .switch .first stmts) {e : GEdge} (hs : e.src = t.node) :
    against r.walker.strace e = false ↔
      ∃ before s after, stmts = before ++ s :: after ∧ Satisfied C t s ∧ (∀ s' ∈ before, ¬ Satisfied C t s') ∧
        e.handle = some s.id := by
  obtain ⟨pre, _, h2⟩ := (evalGraph_ended hb he).log.traces t ht
  obtain ⟨x', hit, stmts', hx', hk', hv⟩ := h2.node
  rw [hx] at hx'; injection hx' with hx'; subst hx'
  rw [hk] at hk'; injection hk' with h3 h4; subst h3; subst h4
  rw [against_unique hb he ht hs, hv]
  simp only [validStmts]
  constructor
  · rintro ⟨id, hid, hh⟩
    obtain ⟨s, hs', rfl⟩ := List.mem_map.1 hid
    have hf := Option.mem_toList.1 hs'
    obtain ⟨hp, before, after, hl, hno⟩ := List.find?_eq_some_iff_append.1 hf
    exact ⟨before, s, after, hl, stmtHolds_iff.1 hp, fun s' hs'' hsat => (by
      have := hno s' hs''
      rw [stmtHolds_iff.2 hsat] at this; cases this), hh⟩
  · rintro ⟨before, s, after, hl, hp, hno, hh⟩
    refine ⟨s.id, List.mem_map.2 ⟨s, Option.mem_toList.2 ?_, rfl⟩, hh⟩
    refine List.find?_eq_some_iff_append.2 ⟨stmtHolds_iff.2 hp, before, after, hl, fun s' hs' => ?_⟩
    cases hc : stmtHolds C (switchEv t.input t.nodes) s' with
    | true => exact absurd (stmtHolds_iff.1 hc) (hno s' hs')
    | false => rfl

/-- A collect switch keeps exactly the edges that hang on a satisfied statement. -/
theorem C30_collect (hb : buildGraph nodes docs = .ok g)
    (he : evalGraph C maxDepth iteration ctx parent fuel g = some (.ok r)) {t : SwitchTrace}
    (ht : t ∈ r.walker.strace) {x : GNode} {stmts : List Stmt} (hx : g.node? t.node = some x)
    (hk : x.kind = .switch .collect stmts) {e : GEdge} (hs : e.src = t.node) :
    against r.walker.strace e = false ↔ ∃ s ∈ stmts, Satisfied C t s ∧ e.handle = some s.id := by
  obtain ⟨pre, _, h2⟩ := (evalGraph_ended hb he).log.traces t ht
  obtain ⟨x', hit, stmts', hx', hk', hv⟩ := h2.node
  rw [hx] at hx'; injection hx' with hx'; subst hx'
  rw [hk] at hk'; injection hk' with h3 h4; subst h3; subst h4
  rw [against_unique hb he ht hs, hv]
  simp only [validStmts]
  constructor
  · rintro ⟨id, hid, hh⟩
    obtain ⟨s, hs', rfl⟩ := List.mem_map.1 hid
    obtain ⟨h5, h6⟩ := List.mem_filter.1 hs'
    exact ⟨s, h5, stmtHolds_iff.1 h6, hh⟩
  · rintro ⟨s, h5, h6, hh⟩
    exact ⟨s.id, List.mem_map.2 ⟨s, List.mem_filter.2 ⟨h5, stmtHolds_iff.2 h6⟩, rfl⟩, hh⟩

/-- Every switch that is handled has decided; each decides once. -/
theorem C30_decides_once (hb : buildGraph nodes docs = .ok g)
    (he : evalGraph C maxDepth iteration ctx parent fuel g = some (.ok r)) :
    (r.walker.strace.map SwitchTrace.node).Nodup ∧
    ∀ n ∈ r.log.map Handled.node, ∀ x, g.node? n = some x → x.kind.isSwitch = true →
      n ∈ r.walker.strace.map SwitchTrace.node := by
  have h := evalGraph_ended hb he
  rw [← h.inv.sw]
  refine ⟨h.inv.swNodup, fun n hn x hx hk => ?_⟩
  rw [← keys_log h.log.data] at hn
  exact h.inv.swData n hn ⟨_, node?_mem hx, rfl, hk⟩

theorem liveIn_follows {g : Graph} {tr : List SwitchTrace} {D : Nat → Prop} {n : Nat} (h : LiveIn g tr D n) :
    Follows g tr (fun m => IsSource g m ∧ D m) n := by
  induction h with
  | source h hd => exact .start ⟨h, hd⟩
  | edge he ha _ _ ih => exact .edge he ha ih

/-- A node that is handled can be reached, from a node without incoming edges that was handled too,
along edges no switch decided against: nodes reachable only through dropped edges are not
evaluated. -/
theorem C30_not_taken (hb : buildGraph nodes docs = .ok g)
    (he : evalGraph C maxDepth iteration ctx parent fuel g = some (.ok r)) {n : Nat}
    (hn : n ∈ r.log.map Handled.node) :
    Follows g r.walker.strace (fun m => IsSource g m ∧ m ∈ r.log.map Handled.node) n := by
  have h := evalGraph_ended hb he
  rw [← keys_log h.log.data] at hn ⊢
  exact liveIn_follows (h.inv.dataLive n hn)

/-- ... and the last step of such a path comes from a handled node: a node all of whose incoming
edges were decided against, or come from nodes that are not handled, is not handled. -/
theorem C30_not_taken_step (hb : buildGraph nodes docs = .ok g)
    (he : evalGraph C maxDepth iteration ctx parent fuel g = some (.ok r)) {n : Nat}
    (hn : n ∈ r.log.map Handled.node) (hin : ∃ e ∈ g.edges, e.tgt = n) :
    ∃ e ∈ g.edges, e.tgt = n ∧ against r.walker.strace e = false ∧ e.src ∈ r.log.map Handled.node := by
  have h := evalGraph_ended hb he
  rw [← keys_log h.log.data] at hn ⊢
  have := h.inv.dataLive n hn
  cases this with
  | source hs _ => obtain ⟨e, he, ht⟩ := hin; exact absurd ht (hs.2 e he)
  | edge he ha hl _ => exact ⟨_, he, rfl, ha, hl.mem⟩

/-- Nodes still reachable from the input node along kept edges are evaluated (see `C29_complete`). -/
theorem C30_taken (hb : buildGraph nodes docs = .ok g)
    (he : evalGraph C maxDepth iteration ctx parent fuel g = some (.ok r))
    (ho : r.atOutput = false) (hs : switchCount g < 1000) {i : Nat} (hi : IsInput g i)
    (hsrc : ∀ e ∈ g.edges, e.tgt ≠ i) {e : GEdge} (hm : e ∈ g.edges)
    (hf : Follows g r.walker.strace (· = i) e.src) (ha : against r.walker.strace e = false) :
    e.tgt ∈ r.log.map Handled.node ∨ DeadEnd g r.walker.strace e.tgt :=
  C29_complete hb he ho hs hi hsrc (.edge hm ha hf)

/-- Removing an edge: the depth allowed to the recursion is never reached, more of it makes no
difference. -/
theorem C30_removal_fuel (hb : buildGraph nodes docs = .ok g) (id : Nat) {k : Nat} (hk : g.edges.length < k) :
    g.removeRec k id = g.removeRec (g.edges.length + 1) id :=
  removeRec_fuel (g.edges.length + 1) g id (buildGraph_wf hb) (Nat.lt_succ_self _) k hk

/-- instances: two statements hold, the first-hit switch takes one of the branches, the collect
switch both -/
example : ∃ r, demoRun .first true true = some (.ok r) ∧ r.log.map Handled.node = [0, 1, 2, 4] ∧
    r.walker.strace.map (fun t => (t.node, t.valid)) = [(1, ["s1"])] := by
  obtain ⟨r, h1, h2, h3, _⟩ := seen_some (x := demoRun .first true true) (l := [0, 1, 2, 4])
    (tr := [(1, ["s1"])]) (b := false) (by decide +kernel)
  exact ⟨r, h1, h2, h3⟩

example : ∃ r, demoRun .collect true true = some (.ok r) ∧ r.log.map Handled.node = [0, 1, 2, 3, 4] ∧
    r.walker.strace.map (fun t => (t.node, t.valid)) = [(1, ["s1", "s2", "s3"])] := by
  obtain ⟨r, h1, h2, h3, _⟩ := seen_some (x := demoRun .collect true true) (l := [0, 1, 2, 3, 4])
    (tr := [(1, ["s1", "s2", "s3"])]) (b := false) (by decide +kernel)
  exact ⟨r, h1, h2, h3⟩

end Zen
