import Verif.Engine.GraphWalk
/-
The walker step by step, and the evaluation loop: preservation of the invariants and termination.
-/
namespace Zen
open Graph Walker

theorem Graph.Wf.node?_of_mem {g : Graph} (h : g.Wf) {n : Nat} {x : GNode} (hx : (n, x) ∈ g.nodes) :
    g.node? n = some x := by
  obtain ⟨y, hy⟩ := node?_of_alive (g := g) (n := n) (List.mem_map.2 ⟨_, hx, rfl⟩)
  rw [hy, h.node_unique hx (node?_mem hy)]

theorem Inv.node0 {g0 g w c} (h : Inv g0 g w c) {n : Nat} {x : GNode} (hx : g.node? n = some x) :
    g0.node? n = some x :=
  h.wf.node?_of_mem (h.shr.nodes.subset (node?_mem hx))

/-- one step gets ahead: a switch was decided, or nothing changed but the stack -/
def Ahead (w w' : Walker) : Prop :=
  w.switches.length < w'.switches.length ∨ (w'.switches = w.switches ∧ w.ordered.length < w'.ordered.length)

/-- how a switch decided -/
structure Decided (C : GCfg) (g0 g : Graph) (w : Walker) (t : SwitchTrace) : Prop where
  alive : g.Alive t.node
  preds : ∀ e ∈ g.edges, e.tgt = t.node → e.src ∈ keys w
  fresh : t.node ∉ keys w
  node : ∃ x hit stmts, g0.node? t.node = some x ∧ x.kind = .switch hit stmts ∧
    t.valid = validStmts C (switchEv t.input t.nodes) hit stmts
  input : t.input = w.incoming g t.node
  nodes : t.nodes = w.nodesContext C

/-- `strace` grew by at most one decision taken in `g`, `w` -/
def TraceStep (C : GCfg) (g0 g : Graph) (w w' : Walker) : Prop :=
  w'.strace = w.strace ∨ ∃ t, w'.strace = w.strace ++ [t] ∧ Decided C g0 g w t

/-- what is known about a node returned by `next` -/
structure Visit (g0 g : Graph) (w : Walker) (n : Nat) : Prop where
  alive : g.Alive n
  ordered : n ∈ w.ordered
  preds : ∀ e ∈ g.edges, e.tgt = n → e.src ∈ keys w
  switch : IsSwitch g0 n → n ∈ w.switches

theorem isSwitch_kind {g0 : Graph} (hw : g0.Wf) {n : Nat} {x : GNode} (hx : g0.node? n = some x) :
    IsSwitch g0 n ↔ x.kind.isSwitch = true := by
  constructor
  · rintro ⟨⟨m, y⟩, hy, rfl, hk⟩
    rw [hw.node_unique (node?_mem hx) hy]; exact hk
  · intro hk; exact ⟨_, node?_mem hx, rfl, hk⟩

theorem step_stop {C g0 g w} (h : Inv g0 g w none) (hs : step C g w = .stop) : w.toVisit = [] := by
  unfold step at hs
  cases hv : w.toVisit with
  | nil => rfl
  | cons n rest =>
    rw [hv] at hs
    dsimp only at hs
    split at hs
    · cases hs
    · split at hs
      · cases hs
      · obtain ⟨x, hx⟩ := node?_of_alive (h.visAlive n (hv ▸ List.mem_cons_self ..))
        rw [hx] at hs
        dsimp only at hs
        cases hk : x.kind <;> rw [hk] at hs <;> dsimp only at hs <;> try (cases hs)
        split at hs
        · cases hs
        · split at hs <;> cases hs

theorem resolved {w : Walker} {g : Graph} {n : Nat} (hu : ¬ ¬ (w.unresolved g n).isEmpty = true) :
    ∀ e ∈ g.edges, e.tgt = n → e.src ∈ w.ordered := by
  intro e he ht
  have hu := Classical.not_not.1 hu
  rw [List.isEmpty_iff] at hu
  by_cases hs : e.src ∈ w.ordered
  · exact hs
  · have := mem_unresolved.2 ⟨hs, e, he, ht, rfl⟩
    rw [hu] at this; cases this

theorem Inv.recorded {g0 g : Graph} {w : Walker} {n : Nat} {t : SwitchTrace} (h : Inv g0 g w none)
    (hn : t.node = n) (hsw : IsSwitch g0 n) (hns : n ∉ w.switches)
    (hp : ∀ e ∈ g.edges, e.tgt = n → e.src ∈ w.ordered)
    {g' : Graph} (hg' : g' = (((g.outE n).filter (edgeInvalid t.valid)).map (·.id)).foldl
      (fun g id => g.removeRec (g.edges.length + 1) id) g) :
    Inv g0 g' (({ w with switches := w.switches ++ [n], strace := w.strace ++ [t] } : Walker).reset g') none := by
  have hk : n ∉ keys w := fun hk => hns (h.swData n hk hsw)
  obtain ⟨h1, h2, h3, h4, h5⟩ := switch_graph h hn hk hp hg'
  have hshr := h.shr.trans h1
  refine
    { wf := h.wf, shr := hshr, ordNodup := .nil
      ordPred := fun _ _ hh => by simp [Walker.reset, push] at hh
      ordAlive := fun _ hh => by simp [Walker.reset, push] at hh
      visAlive := fun m hm => by
        simp only [Walker.reset, push, List.append_nil, List.mem_reverse] at hm
        exact (mem_inputNodes.1 hm).alive
      succ := fun _ _ hh => by simp [Walker.reset, push] at hh
      inp := fun m ha hi => .inr (by
        simp only [Walker.reset, push, List.append_nil, List.mem_reverse]
        exact mem_inputNodes.2 (hi.shrink h.wf hshr ha))
      dataPred := fun e he ht => h.dataPred e (h1.edges.subset he) ht
      ordData := fun _ hh => by simp [Walker.reset, push] at hh
      sw := by simp [Walker.reset, push, h.sw, hn]
      swNodup := ?_, swIs := ?_, swData := ?_, iterLe := ?_
      dirGone := h2, dataLive := h3, lost := ?_, dead := ?_ }
  · exact List.nodup_append.2 ⟨h.swNodup, by simp, fun a ha b hb => by
      rw [List.mem_singleton.1 hb]; exact fun hab => hns (hab ▸ ha)⟩
  · intro m hm
    rcases List.mem_append.1 hm with hm | hm
    · exact h.swIs m hm
    · rw [List.mem_singleton.1 hm]; exact hsw
  · intro m hm hs
    exact List.mem_append_left _ (h.swData m hm hs)
  · have := h.iterLe
    simp only [Walker.reset, push, List.length_append, List.length_singleton]
    omega
  · intro e he hne ha hl
    obtain ⟨h6, h7⟩ := h4 e he hne ha hl
    refine ⟨h6.elim .inl fun hh => .inr ?_, h7⟩
    rcases hh with hh | hh
    · exact List.mem_append_left _ hh
    · exact List.mem_append_right _ (List.mem_singleton.2 hh)
  · intro m ha hd hl
    refine ⟨(h5 m ha hd hl).1.elim .inl fun hh => .inr ?_, (h5 m ha hd hl).2⟩
    rcases hh with hh | hh
    · exact List.mem_append_left _ hh
    · exact List.mem_append_right _ (List.mem_singleton.2 hh)

/-- a decision that drops nothing -/
theorem Inv.recordedNone {g0 g : Graph} {w : Walker} {n : Nat} {t : SwitchTrace} (h : Inv g0 g w none)
    (hn : t.node = n) (hsw : IsSwitch g0 n) (hns : n ∉ w.switches)
    (hp : ∀ e ∈ g.edges, e.tgt = n → e.src ∈ w.ordered)
    (hd : ((g.outE n).filter (edgeInvalid t.valid)).map (·.id) = []) :
    Inv g0 g { w with switches := w.switches ++ [n], strace := w.strace ++ [t] } none := by
  have := h.recorded hn hsw hns hp (g' := g) (by rw [hd]; rfl)
  have hit := h.iterLe
  exact
    { this with
      ordNodup := h.ordNodup, ordPred := h.ordPred, ordAlive := h.ordAlive, visAlive := h.visAlive
      succ := h.succ, inp := h.inp, ordData := h.ordData
      iterLe := by simp only [List.length_append, List.length_singleton]; omega }

/-- `again`: the invariant is kept, and the stack got smaller in the sense of `next_some` or a
switch was decided -/
theorem step_again {C g0 g w g' w'} (h : Inv g0 g w none) (hs : step C g w = .again g' w') :
    Inv g0 g' w' none ∧ w'.data = w.data ∧ TraceStep C g0 g w w' ∧
    ((∃ n rest, w.toVisit = n :: rest ∧ n ∈ w.ordered ∧ g' = g ∧ w' = { w with toVisit := rest }) ∨
     (∃ n rest, w.toVisit = n :: rest ∧ n ∉ w.ordered ∧ g' = g ∧ w.unresolved g n ≠ [] ∧
        w' = w.push (w.unresolved g n)) ∨
     w'.switches.length = w.switches.length + 1) := by
  unfold step at hs
  cases hv : w.toVisit with
  | nil => rw [hv] at hs; cases hs
  | cons n rest =>
    rw [hv] at hs
    dsimp only at hs
    split at hs
    · rename_i ho
      injection hs with h1 h2
      subst h1; subst h2
      exact ⟨h.pop hv ho, rfl, .inl rfl, .inl ⟨n, rest, rfl, ho, rfl, rfl⟩⟩
    · rename_i ho
      split at hs
      · rename_i hu
        injection hs with h1 h2
        subst h1; subst h2
        have hu' : w.unresolved g n ≠ [] := fun hh => hu (by
          have : unresolved { w with toVisit := rest } g n = w.unresolved g n := rfl
          rw [this, hh]; rfl)
        have hw : ({ w with toVisit := n :: rest } : Walker) = w := by rw [← hv]
        have hun : unresolved { w with toVisit := rest } g n = w.unresolved g n := rfl
        rw [hw, hun]
        refine ⟨h.pushed _ fun m hm => ?_, rfl, .inl rfl, .inr (.inl ⟨n, rest, rfl, ho, rfl, hu', rfl⟩)⟩
        obtain ⟨_, e, he, _, rfl⟩ := mem_unresolved.1 hm
        exact (h.gwf.ends e he).1
      · rename_i hu
        have hp : ∀ e ∈ g.edges, e.tgt = n → e.src ∈ w.ordered := resolved (w := w) (by simpa [unresolved] using hu)
        cases hx : g.node? n with
        | none => rw [hx] at hs; cases hs
        | some x =>
          rw [hx] at hs
          dsimp only at hs
          cases hk : x.kind with
          | switch hit stmts =>
            rw [hk] at hs
            dsimp only at hs
            split at hs
            · cases hs
            · rename_i hns
              split at hs
              · cases hs
              · rename_i hd
                injection hs with h1 h2
                have hsw : IsSwitch g0 n := (isSwitch_kind h.wf (h.node0 hx)).2 (by rw [hk]; rfl)
                subst h1; subst h2
                have := h.recorded (n := n) 
                  (t := ⟨n, w.incoming g n, w.nodesContext C, validStmts C (switchEv (w.incoming g n) (w.nodesContext C)) hit stmts⟩) rfl hsw hns hp rfl
                refine ⟨this, rfl, .inr ⟨_, rfl, ?_⟩, .inr (.inr (by simp [Walker.reset, push]))⟩
                exact ⟨h.visAlive n (hv ▸ List.mem_cons_self ..),
                  fun e he ht => (h.ordData _ (hp e he ht)).resolve_right (by simp),
                  fun hkk => hns (h.swData n hkk hsw), ⟨x, hit, stmts, h.node0 hx, hk, rfl⟩, rfl, rfl⟩
          | _ => rw [hk] at hs; cases hs

theorem step_visit {C g0 g w n g' w'} (h : Inv g0 g w none) (hs : step C g w = .visit n g' w') :
    Inv g0 g' w' (some n) ∧ Visit g0 g' w' n ∧ w'.data = w.data ∧ TraceStep C g0 g w w' ∧ Ahead w w' := by
  unfold step at hs
  cases hv : w.toVisit with
  | nil => rw [hv] at hs; cases hs
  | cons m rest =>
    rw [hv] at hs
    dsimp only at hs
    split at hs
    · cases hs
    · rename_i ho
      split at hs
      · cases hs
      · rename_i hu
        have hp : ∀ e ∈ g.edges, e.tgt = m → e.src ∈ w.ordered := resolved (w := w) (by simpa [unresolved] using hu)
        have hpk : ∀ e ∈ g.edges, e.tgt = m → e.src ∈ keys w := fun e he ht =>
          (h.ordData _ (hp e he ht)).resolve_right (by simp)
        have hal : g.Alive m := h.visAlive m (hv ▸ List.mem_cons_self ..)
        cases hx : g.node? m with
        | none => rw [hx] at hs; cases hs
        | some x =>
          have hx0 := h.node0 hx
          have plain : ∀ {n' g'' w''}, (x.kind.isSwitch = true → m ∈ w.switches) →
              Step.visit m g (({ w with toVisit := rest, ordered := m :: w.ordered } : Walker).push (g.succs m))
                = .visit n' g'' w'' →
              Inv g0 g'' w'' (some n') ∧ Visit g0 g'' w'' n' ∧ w''.data = w.data ∧ TraceStep C g0 g w w'' ∧
                Ahead w w'' := by
            intro n' g'' w'' hsw hh
            injection hh with h1 h2 h3
            subst h1; subst h2; subst h3
            exact ⟨h.visited hv ho hp, ⟨hal, List.mem_cons_self .., hpk,
              fun hi => hsw ((isSwitch_kind h.wf hx0).1 hi)⟩, rfl, .inl rfl,
              .inr ⟨rfl, Nat.lt_succ_self _⟩⟩
          rw [hx] at hs
          dsimp only at hs
          cases hk : x.kind with
          | switch hit stmts =>
            rw [hk] at hs
            dsimp only at hs
            split at hs
            · rename_i hin
              exact plain (fun _ => hin) hs
            · rename_i hns
              split at hs
              · rename_i hd
                have hsw : IsSwitch g0 m := (isSwitch_kind h.wf hx0).2 (by rw [hk]; rfl)
                injection hs with h1 h2 h3
                rw [List.isEmpty_iff] at hd
                rw [hd] at h2 h3
                simp only [List.foldl_nil] at h2 h3
                subst h1; subst h2; subst h3
                have h2 := h.recordedNone 
                  (t := ⟨m, w.incoming g m, w.nodesContext C, validStmts C (switchEv (w.incoming g m) (w.nodesContext C)) hit stmts⟩) rfl hsw hns hp hd
                refine ⟨h2.visited hv ho hp, ⟨hal, List.mem_cons_self .., hpk,
                  fun _ => List.mem_append_right _ (List.mem_singleton.2 rfl)⟩, rfl, .inr ⟨_, rfl, ?_⟩,
                  .inl (by simp [push])⟩
                exact ⟨hal, hpk, fun hkk => hns (h.swData m hkk hsw), ⟨x, hit, stmts, hx0, hk, rfl⟩, rfl, rfl⟩
              · cases hs
          | _ => rw [hk] at hs; exact plain (by rw [hk]; intro hh; cases hh) hs

/-! ## The log -/

/-- what the walker stores for a handled node (graph.rs:273-289) -/
def mkData (g0 : Graph) (parent : Option Val) (h : Handled) : Nat × NodeData :=
  (h.node, match g0.node? h.node with
    | some x => ⟨x.name, h.output, nodesViewOf parent x h.output⟩
    | none => ⟨"", h.output, none⟩)

/-- `$nodes` after the nodes of a log -/
def nodesAfter (C : GCfg) (g0 : Graph) (parent : Option Val) (log : List Handled) : Option Val :=
  ({ data := log.map (mkData g0 parent) } : Walker).nodesContext C

/-- an entry of the log with the ones before it -/
structure EntryOk (C : GCfg) (g0 : Graph) (ctx : Val) (parent : Option Val) (tr : List SwitchTrace)
    (pre : List Handled) (h : Handled) : Prop where
  preds : ∀ e ∈ g0.edges, e.tgt = h.node → against tr e = false → Live g0 tr e.src → e.src ∈ pre.map Handled.node
  node : ∃ x, g0.node? h.node = some x ∧
    h.input = (if x.kind.isInput then ctx else mergeData (fedBy g0 tr pre h.node)) ∧
    nodeResult C ctx x (mergeData (fedBy g0 tr pre h.node)) (nodesAfter C g0 parent pre) = .ok h.output

/-- a decision of a switch, taken after `pre` was handled -/
structure TraceOk (C : GCfg) (g0 : Graph) (parent : Option Val) (tr : List SwitchTrace) (pre : List Handled)
    (t : SwitchTrace) : Prop where
  node : ∃ x hit stmts, g0.node? t.node = some x ∧ x.kind = .switch hit stmts ∧
    t.valid = validStmts C (switchEv t.input t.nodes) hit stmts
  input : t.input = mergeData (fedBy g0 tr pre t.node)
  nodes : t.nodes = nodesAfter C g0 parent pre
  fresh : t.node ∉ pre.map Handled.node
  preds : ∀ e ∈ g0.edges, e.tgt = t.node → against tr e = false → Live g0 tr e.src → e.src ∈ pre.map Handled.node

structure LogInv (C : GCfg) (g0 : Graph) (ctx : Val) (parent : Option Val) (w : Walker) (log : List Handled) : Prop where
  data : w.data = log.map (mkData g0 parent)
  nodup : (log.map Handled.node).Nodup
  entries : ∀ pre h post, log = pre ++ h :: post → EntryOk C g0 ctx parent w.strace pre h
  traces : ∀ t ∈ w.strace, ∃ pre, pre <+: log ∧ TraceOk C g0 parent w.strace pre t

theorem fedBy_extend {g0 : Graph} {tr : List SwitchTrace} {t : SwitchTrace} {pre : List Handled} {n : Nat}
    (h : t.node ∉ pre.map Handled.node) : fedBy g0 (tr ++ [t]) pre n = fedBy g0 tr pre n := by
  unfold fedBy
  generalize g0.edges.reverse = l
  induction l with
  | nil => rfl
  | cons e l ih =>
    by_cases hs : t.node = e.src
    · have hno : outputIn pre e.src = none := by
        unfold outputIn
        rw [List.find?_eq_none.2]
        · rfl
        · intro x hx hh
          simp only [decide_eq_true_eq] at hh
          exact h (hs ▸ List.mem_map.2 ⟨x, hx, hh⟩)
      have key : ∀ p : GEdge → Bool, (List.filter p (e :: l)).filterMap (fun e => outputIn pre e.src)
          = (List.filter p l).filterMap (fun e => outputIn pre e.src) := by
        intro p
        rw [List.filter_cons]
        split
        · rw [List.filterMap_cons, hno]
        · rfl
      rw [key, key, ih]
    · have ha : against (tr ++ [t]) e = against tr e := by
        rw [against_append, against_other hs, Bool.or_false]
      rw [List.filter_cons, List.filter_cons, ha]
      split
      · rw [List.filterMap_cons, List.filterMap_cons, ih]
      · exact ih

theorem EntryOk.extend {C g0 ctx parent tr pre h} {t : SwitchTrace} (ht : t.node ∉ pre.map Handled.node)
    (he : EntryOk C g0 ctx parent tr pre h) : EntryOk C g0 ctx parent (tr ++ [t]) pre h where
  preds e hm h1 h2 h3 := he.preds e hm h1 (against_left h2) h3.weaken
  node := by rw [fedBy_extend ht]; exact he.node

theorem TraceOk.extend {C g0 parent tr pre s} {t : SwitchTrace} (ht : t.node ∉ pre.map Handled.node)
    (he : TraceOk C g0 parent tr pre s) : TraceOk C g0 parent (tr ++ [t]) pre s where
  node := he.node
  input := by rw [fedBy_extend ht]; exact he.input
  nodes := he.nodes
  fresh := he.fresh
  preds e hm h1 h2 h3 := he.preds e hm h1 (against_left h2) h3.weaken

theorem nodup_of_map {α β : Type} {f : α → β} {l : List α} (h : (l.map f).Nodup) : l.Nodup := by
  rw [List.nodup_iff_pairwise_ne, List.pairwise_map] at h
  exact h.imp fun hab hh => hab (by rw [hh])

theorem sublist_eq_filter {α : Type} [DecidableEq α] {l l' : List α} (h : l'.Sublist l) (hn : l.Nodup) :
    l' = l.filter (· ∈ l') := by
  induction h with
  | slnil => rfl
  | @cons l1 l2 a hs ih =>
    have hna := (List.nodup_cons.1 hn).1
    rw [List.filter_cons, if_neg (by simpa using fun hh => hna (hs.subset hh))]
    exact ih (List.nodup_cons.1 hn).2
  | @cons_cons l1 l2 a hs ih =>
    have hna := (List.nodup_cons.1 hn).1
    rw [List.filter_cons, if_pos (by simp)]
    congr 1
    have := ih (List.nodup_cons.1 hn).2
    rw [this]
    refine List.filter_congr fun x hx => ?_
    rw [← this]
    have : x ≠ a := fun hh => hna (hh ▸ hx)
    simp [this]

theorem dataOf_log {g0 : Graph} {parent : Option Val} (log : List Handled) (w : Walker)
    (h : w.data = log.map (mkData g0 parent)) (n : Nat) :
    (w.dataOf n).map NodeData.data = outputIn log n := by
  unfold dataOf outputIn
  rw [h]
  clear h
  induction log with
  | nil => rfl
  | cons a log ih =>
    rw [List.map_cons, List.find?_cons, List.find?_cons]
    have : (mkData g0 parent a).1 = a.node := rfl
    rw [this]
    by_cases hn : a.node = n
    · simp only [hn, decide_true, Option.map_some]
      unfold mkData
      cases g0.node? a.node <;> rfl
    · simp only [hn, decide_false]
      exact ih

theorem keys_log {g0 : Graph} {parent : Option Val} {log : List Handled} {w : Walker}
    (h : w.data = log.map (mkData g0 parent)) : keys w = log.map Handled.node := by
  unfold keys; rw [h, List.map_map]; rfl

theorem outputIn_isSome {log : List Handled} {n : Nat} : (outputIn log n).isSome = true ↔ n ∈ log.map Handled.node := by
  unfold outputIn
  rw [Option.isSome_map, List.find?_isSome]
  simp only [decide_eq_true_eq, List.mem_map]

/-- the input of a node, in terms of the document -/
theorem incoming_eq {g0 g w c parent} {log : List Handled} (h : Inv g0 g w c) (hd : w.data = log.map (mkData g0 parent)) {n : Nat}
    (ha : g.Alive n) (_hp : ∀ e ∈ g.edges, e.tgt = n → e.src ∈ keys w) :
    w.incoming g n = mergeData (fedBy g0 w.strace log n) := by
  unfold incoming fedBy
  congr 1
  rw [List.map_filterMap]
  simp only [dataOf_log log w hd]
  unfold Graph.preds Graph.inE
  rw [List.filterMap_map, sublist_eq_filter h.shr.edges (nodup_of_map h.wf.ids), ← List.filter_reverse, ← List.filter_reverse]
  have key : ∀ l : List GEdge, (∀ e ∈ l, e ∈ g0.edges) →
      List.filterMap ((fun n => outputIn log n) ∘ fun e : GEdge => e.src)
        (List.filter (fun e => decide (e.tgt = n)) (List.filter (fun e => decide (e ∈ g.edges)) l)) =
      List.filterMap (fun e => outputIn log e.src) (List.filter (fun e => decide (e.tgt = n) && !against w.strace e) l) := by
    intro l
    induction l with
    | nil => intro _; rfl
    | cons e l ih =>
      intro hl
      have ih := ih fun x hx => hl x (List.mem_cons_of_mem _ hx)
      have he0 := hl e (List.mem_cons_self ..)
      by_cases hg : e ∈ g.edges
      · by_cases ht : e.tgt = n
        · simp only [List.filter_cons, hg, ht, h.dirGone e hg, decide_true, if_true, Bool.not_false, Bool.and_self,
            List.filterMap_cons, Function.comp]
          rw [ih]
        · simp only [List.filter_cons, hg, ht, decide_true, decide_false, if_true, Bool.false_and]
          exact ih
      · by_cases ht : e.tgt = n
        · simp only [List.filter_cons, hg, ht, decide_true, decide_false, Bool.true_and]
          cases hag : against w.strace e with
          | true => exact ih
          | false =>
            simp only [Bool.not_false, if_true, List.filterMap_cons]
            have : outputIn log e.src = none := by
              cases ho : outputIn log e.src with
              | none => rfl
              | some v =>
                have hk : e.src ∈ keys w := by
                  rw [keys_log hd]; exact outputIn_isSome.1 (by rw [ho]; rfl)
                exact absurd (ht ▸ ha) (h.lost e he0 hg hag (h.dataLive _ hk).live).2
            rw [this]
            exact ih
        · simp only [List.filter_cons, hg, ht, decide_false, Bool.false_and]
          exact ih
  exact key _ fun e he => List.mem_reverse.1 he

theorem preds_in {g0 g w c parent} {log : List Handled} (h : Inv g0 g w c) (hd : w.data = log.map (mkData g0 parent)) {n : Nat}
    (ha : g.Alive n) (hp : ∀ e ∈ g.edges, e.tgt = n → e.src ∈ keys w) :
    ∀ e ∈ g0.edges, e.tgt = n → against w.strace e = false → Live g0 w.strace e.src → e.src ∈ log.map Handled.node := by
  intro e he ht hag hl
  rw [← keys_log hd]
  by_cases hg : e ∈ g.edges
  · exact hp e hg ht
  · exact absurd (ht ▸ ha) (h.lost e he hg hag hl).2

theorem nodesContext_data {C : GCfg} {w w' : Walker} (h : w.data = w'.data) : w.nodesContext C = w'.nodesContext C := by
  unfold nodesContext; rw [h]

/-- the log stays right when a switch decides -/
theorem LogInv.traced {C g0 g ctx parent w w' log} (hi : Inv g0 g w none) (h : LogInv C g0 ctx parent w log)
    (hd : w'.data = w.data) (ht : TraceStep C g0 g w w') : LogInv C g0 ctx parent w' log := by
  rcases ht with ht | ⟨t, ht, hdec⟩
  · exact ⟨hd.trans h.data, h.nodup, by rw [ht]; exact h.entries, by rw [ht]; exact h.traces⟩
  · have hk : t.node ∉ log.map Handled.node := by rw [← keys_log h.data]; exact hdec.fresh
    refine ⟨hd.trans h.data, h.nodup, fun pre x post hl => ?_, fun s hs => ?_⟩
    · rw [ht]
      refine (h.entries pre x post hl).extend fun hh => hk ?_
      rw [hl, List.map_append]; exact List.mem_append_left _ hh
    · rw [ht] at hs
      rcases List.mem_append.1 hs with hs | hs
      · obtain ⟨pre, hpre, hok⟩ := h.traces s hs
        refine ⟨pre, hpre, ?_⟩
        rw [ht]
        exact hok.extend fun hh => hk ((hpre.sublist.map _).subset hh)
      · rw [List.mem_singleton.1 hs]
        refine ⟨log, List.prefix_refl _, ?_⟩
        rw [ht]
        exact
          { node := hdec.node
            input := by rw [fedBy_extend hk, hdec.input, incoming_eq hi h.data hdec.alive hdec.preds]
            nodes := by rw [hdec.nodes]; exact nodesContext_data h.data
            fresh := hk
            preds := fun e he h1 h2 h3 => preds_in hi h.data hdec.alive hdec.preds e he h1 (against_left h2) h3.weaken }

/-- the loop hands a node over -/
theorem Inv.handled {g0 g w n x parent out} (h : Inv g0 g w (some n)) (hv : Visit g0 g w n)
    (hx : g0.node? n = some x) :
    Inv g0 g { w with data := w.data ++ [(n, ⟨x.name, out, nodesViewOf parent x out⟩)] } none := by
  have hkeys : ∀ m, m ∈ keys { w with data := w.data ++ [(n, ⟨x.name, out, nodesViewOf parent x out⟩)] } ↔
      m ∈ keys w ∨ m = n := by
    intro m; unfold keys; simp
  have hlive : LiveIn g0 w.strace (fun m => m ∈ keys w ∨ m = n) n := by
    have hal := hv.alive
    by_cases hin : g0.HasIn n
    · -- some incoming edge is left
      have : g.HasIn n := by
        rcases h.shr.keptIn n with h1 | h1 | h1
        · obtain ⟨e, he, ht⟩ := hin; exact ⟨e, h1 e he ht, ht⟩
        · exact h1
        · exact absurd hal h1.2
      obtain ⟨e, he, ht⟩ := this
      subst ht
      exact .edge (h.shr.edges.subset he) (h.dirGone e he)
        ((h.dataLive _ (hv.preds e he rfl)).mono fun m hm => .inl (by exact hm)) (.inr rfl)
    · exact .source ⟨hal.mono h.shr.nodes, fun e he ht => hin ⟨e, he, ht⟩⟩ (.inr rfl)
  exact
    { h with
      dataPred := fun e he ht => (hkeys _).2 <| by
        rcases (hkeys _).1 ht with ht | ht
        · exact .inl (h.dataPred e he ht)
        · exact .inl (hv.preds e he ht)
      ordData := fun m hm => .inl <| (hkeys m).2 <| (h.ordData m hm).imp id fun hh => by
        injection hh with hh; exact hh.symm
      swData := fun m hm hs => by
        rcases (hkeys m).1 hm with hm | hm
        · exact h.swData m hm hs
        · subst hm; exact hv.switch hs
      dataLive := fun m hm => by
        have hD : ∀ k, (k ∈ keys w ∨ k = n) →
            k ∈ keys { w with data := w.data ++ [(n, ⟨x.name, out, nodesViewOf parent x out⟩)] } :=
          fun k hk => (hkeys k).2 hk
        rcases (hkeys m).1 hm with hm | hm
        · exact (h.dataLive m hm).mono fun k hk => hD k (.inl hk)
        · subst hm; exact hlive.mono hD
      lost := fun e he hne ha hl => by
        obtain ⟨h1, h2⟩ := h.lost e he hne ha hl
        exact ⟨h1.imp (fun hh => (hkeys _).2 (.inl hh)) id, h2⟩
      dead := fun m ha hd hl => ⟨(h.dead m ha hd hl).1.imp (fun hh => (hkeys _).2 (.inl hh)) id, (h.dead m ha hd hl).2⟩ }

theorem Inv.skip {g0 g w n} (h : Inv g0 g w (some n)) (hk : n ∈ keys w) : Inv g0 g w none :=
  { h with ordData := fun m hm => .inl <| (h.ordData m hm).elim id fun hh => (Option.some.inj hh) ▸ hk }

theorem split_last {α : Type} {l pre post : List α} {a h : α} (he : l ++ [a] = pre ++ h :: post) :
    (pre = l ∧ h = a ∧ post = []) ∨ ∃ post', l = pre ++ h :: post' := by
  rcases List.eq_nil_or_concat post with hp | ⟨p', b, hp⟩
  · subst hp
    have := List.append_inj' he rfl
    injection this.2 with h1 _
    exact .inl ⟨this.1.symm, h1.symm, rfl⟩
  · subst hp
    rw [List.concat_eq_append, ← List.cons_append, ← List.append_assoc] at he
    have := List.append_inj' he rfl
    exact .inr ⟨p', this.1⟩

theorem LogInv.handled {C g0 g ctx parent w log n x out} (hi : Inv g0 g w (some n)) (h : LogInv C g0 ctx parent w log)
    (hv : Visit g0 g w n) (hk : n ∉ keys w) (hx : g0.node? n = some x)
    (hr : nodeResult C ctx x (w.incoming g n) (w.nodesContext C) = .ok out) :
    LogInv C g0 ctx parent { w with data := w.data ++ [(n, ⟨x.name, out, nodesViewOf parent x out⟩)] }
      (log ++ [⟨n, (if x.kind.isInput then ctx else w.incoming g n), out⟩]) := by
  have hin := incoming_eq hi h.data hv.alive hv.preds
  refine ⟨?_, ?_, fun pre y post hl => ?_, fun t ht => ?_⟩
  · dsimp only
    rw [List.map_append, h.data]
    congr 1
    simp only [List.map_cons, List.map_nil, mkData, hx]
  · rw [List.map_append, List.nodup_append]
    refine ⟨h.nodup, by simp, fun a ha b hb => ?_⟩
    simp only [List.map_cons, List.map_nil, List.mem_singleton] at hb
    rw [hb, ← keys_log h.data] at *
    exact fun hh => hk (hh ▸ ha)
  · rcases split_last hl with ⟨h1, h2, _⟩ | ⟨post', h1⟩
    · subst h1; subst h2
      refine ⟨preds_in hi h.data hv.alive hv.preds, x, hx, by rw [hin], ?_⟩
      rw [← hin]
      have : nodesAfter C g0 parent pre = w.nodesContext C := (nodesContext_data (by rw [h.data])).symm
      rw [this]; exact hr
    · exact h.entries pre y post' h1
  · obtain ⟨pre, hp, hok⟩ := h.traces t ht
    exact ⟨pre, hp.trans (List.prefix_append _ _), hok⟩

/-- what `next` returns -/
def NextPost (C : GCfg) (g0 g' : Graph) (ctx : Val) (parent : Option Val) (w w' : Walker) (log : List Handled) :
    Option Nat → Prop
  | none => Inv g0 g' w' none ∧ LogInv C g0 ctx parent w' log ∧ w'.toVisit = []
  | some n => Inv g0 g' w' (some n) ∧ LogInv C g0 ctx parent w' log ∧ Visit g0 g' w' n ∧ Ahead w w'

theorem next_post {C g0 ctx parent log} : ∀ (fuel : Nat) {g w r g' w'}, Inv g0 g w none → LogInv C g0 ctx parent w log →
    Walker.next C fuel g w = some (r, g', w') → NextPost C g0 g' ctx parent w w' log r := by
  intro fuel
  induction fuel with
  | zero => intro g w r g' w' _ _ h; cases h
  | succ fuel ih =>
    intro g w r g' w' hi hl h
    rw [Walker.next] at h
    cases hs : step C g w with
    | stop =>
      rw [hs] at h
      injection h with h
      injection h with h1 h; injection h with h2 h3
      subst h1; subst h2; subst h3
      exact ⟨hi, hl, step_stop hi hs⟩
    | visit n g1 w1 =>
      rw [hs] at h
      injection h with h
      injection h with h1 h; injection h with h2 h3
      subst h1; subst h2; subst h3
      obtain ⟨h1, h2, h3, h4, h5⟩ := step_visit hi hs
      exact ⟨h1, hl.traced hi h3 h4, h2, h5⟩
    | again g1 w1 =>
      rw [hs] at h
      obtain ⟨h1, h2, h3, h4⟩ := step_again hi hs
      have := ih h1 (hl.traced hi h2 h3) h
      cases r with
      | none => exact this
      | some n =>
        obtain ⟨p1, p2, p3, p4⟩ := this
        refine ⟨p1, p2, p3, ?_⟩
        rcases h4 with ⟨m, rest, _, _, _, rfl⟩ | ⟨m, rest, _, _, _, _, rfl⟩ | h4
        · exact p4
        · exact p4
        · left
          rcases p4 with p4 | p4
          · omega
          · rw [p4.1]; omega

/-! ## Termination -/

theorem switches_le {g0 g w c} (h : Inv g0 g w c) : w.switches.length ≤ switchCount g0 := by
  unfold switchCount
  have : w.switches.length ≤ ((g0.nodes.filter (·.2.kind.isSwitch)).map Prod.fst).length := by
    refine List.Nodup.length_le_of_subset h.swNodup fun n hn => ?_
    obtain ⟨x, hx, rfl, hk⟩ := h.swIs n hn
    exact List.mem_map.2 ⟨x, List.mem_filter.2 ⟨hx, hk⟩, rfl⟩
  rwa [List.length_map] at this

theorem ordered_le {g0 g w c} (h : Inv g0 g w c) : w.ordered.length ≤ g0.nodes.length := by
  have : w.ordered.length ≤ (g0.nodes.map Prod.fst).length :=
    List.Nodup.length_le_of_subset h.ordNodup fun n hn => (h.ordAlive n hn).mono h.shr.nodes
  rwa [List.length_map] at this

theorem next_mono {C : GCfg} : ∀ (fuel : Nat) {g w r}, Walker.next C fuel g w = some r →
    ∀ k, fuel ≤ k → Walker.next C k g w = some r := by
  intro fuel
  induction fuel with
  | zero => intro g w r h; cases h
  | succ fuel ih =>
    intro g w r h k hk
    obtain ⟨k, rfl⟩ : ∃ j, k = j + 1 := ⟨k - 1, by omega⟩
    rw [Walker.next] at h ⊢
    cases hs : step C g w with
    | stop => rw [hs] at h; exact h
    | visit n g1 w1 => rw [hs] at h; exact h
    | again g1 w1 => rw [hs] at h; exact ih h k (by omega)

theorem next_some_aux {C : GCfg} {g0 : Graph} {rank : Nat → Nat} (hr : ∀ e ∈ g0.edges, rank e.src < rank e.tgt)
    (g : Graph) (k : Nat)
    (hdec : ∀ {g' w'}, Inv g0 g' w' none → w'.switches.length = k + 1 → ∃ fuel r, Walker.next C fuel g' w' = some r)
    (rk : Nat) : ∀ (st : List Nat) {w : Walker}, w.toVisit = st → Inv g0 g w none → w.switches.length = k →
      (∀ m, st.find? (· ∉ w.ordered) = some m → rank m ≤ rk) → ∃ fuel r, Walker.next C fuel g w = some r := by
  induction rk using Nat.strongRecOn with
  | ind rk ihr =>
    intro st
    induction st with
    | nil => intro w hv _ _ _; exact ⟨1, _, by rw [Walker.next, step, hv]⟩
    | cons n rest ih =>
      intro w hv hi hl hm
      cases hs : step C g w with
      | stop => exact ⟨1, _, by rw [Walker.next, hs]⟩
      | visit n g1 w1 => exact ⟨1, _, by rw [Walker.next, hs]⟩
      | again g1 w1 =>
        obtain ⟨h1, h2, h3, h4⟩ := step_again hi hs
        have conv : (∃ fuel r, Walker.next C fuel g1 w1 = some r) → ∃ fuel r, Walker.next C fuel g w = some r :=
          fun ⟨f, r, hf⟩ => ⟨f + 1, r, by rw [Walker.next, hs]; exact hf⟩
        refine conv ?_
        rcases h4 with ⟨m, rest', hv', ho, rfl, rfl⟩ | ⟨m, rest', hv', ho, rfl, hu, rfl⟩ | h4
        · rw [hv] at hv'; injection hv' with e1 e2; subst e1; subst e2
          exact ih (w := { w with toVisit := rest }) rfl h1 hl (fun k hk => hm k (by
            rw [List.find?_cons]; simp only [ho, not_true_eq_false, decide_false]; exact hk))
        · rw [hv] at hv'; injection hv' with e1 e2; subst e1; subst e2
          obtain ⟨p, rst, hpr⟩ : ∃ p rst, (w.unresolved g1 n).reverse = p :: rst := by
            cases hc : (w.unresolved g1 n).reverse with
            | nil => exact absurd (List.reverse_eq_nil_iff.1 hc) hu
            | cons p rst => exact ⟨p, rst, rfl⟩
          have hpm : p ∈ w.unresolved g1 n := List.mem_reverse.1 (hpr ▸ List.mem_cons_self ..)
          obtain ⟨hpo, e, he, het, hes⟩ := mem_unresolved.1 hpm
          have hlt := hr e (hi.shr.edges.subset he)
          rw [het, hes] at hlt
          have hnk := hm n (by rw [List.find?_cons]; simp [ho])
          refine ihr (rank p) (by omega) _ (w := w.push (w.unresolved g1 n)) rfl h1 hl (fun k hk => ?_)
          have hk' : p = k := by
            simp only [push, hpr, List.cons_append, List.find?_cons, hpo, not_false_eq_true, decide_true] at hk
            injection hk
          rw [hk']; exact Nat.le_refl _
        · exact hdec h1 (by omega)

theorem next_some {C : GCfg} {g0 : Graph} {rank : Nat → Nat} (hr : ∀ e ∈ g0.edges, rank e.src < rank e.tgt) :
    ∀ (left : Nat) {g w}, Inv g0 g w none → switchCount g0 ≤ w.switches.length + left →
      ∃ fuel r, Walker.next C fuel g w = some r := by
  intro left
  induction left with
  | zero =>
    intro g w hi hleft
    have := next_some_aux (C := C) hr g w.switches.length (fun hi' hh => by have := switches_le hi'; omega)
    cases hf : w.toVisit.find? (· ∉ w.ordered) with
    | none => exact this 0 _ rfl hi rfl (by rw [hf]; intro m hm; cases hm)
    | some m => exact this (rank m) _ rfl hi rfl (by rw [hf]; intro k hk; injection hk with hk; rw [hk]; exact Nat.le_refl _)
  | succ left ihl =>
    intro g w hi hleft
    have := next_some_aux (C := C) hr g w.switches.length (fun hi' hh => ihl hi' (by omega))
    cases hf : w.toVisit.find? (· ∉ w.ordered) with
    | none => exact this 0 _ rfl hi rfl (by rw [hf]; intro m hm; cases hm)
    | some m => exact this (rank m) _ rfl hi rfl (by rw [hf]; intro k hk; injection hk with hk; rw [hk]; exact Nat.le_refl _)

theorem nextGuarded_some {C g0 g w} {rank : Nat → Nat} (hr : ∀ e ∈ g0.edges, rank e.src < rank e.tgt)
    (h : Inv g0 g w none) : ∃ fuel r, ∀ k, fuel ≤ k → w.nextGuarded C k g = some r := by
  unfold nextGuarded
  by_cases hit : w.iter ≥ ITER_MAX
  · exact ⟨0, _, fun k _ => if_pos hit⟩
  · obtain ⟨f, r, hf⟩ := next_some (C := C) hr (switchCount g0) h (by omega)
    exact ⟨f, r, fun k hk => by rw [if_neg hit]; exact next_mono f hf k hk⟩

/-- outcome of the guarded `next` -/
theorem nextGuarded_post {C g0 ctx parent log fuel g w r g' w'} (hi : Inv g0 g w none)
    (hl : LogInv C g0 ctx parent w log) (h : w.nextGuarded C fuel g = some (r, g', w')) :
    NextPost C g0 g' ctx parent w w' log r ∨
      (r = none ∧ g' = g ∧ w' = w ∧ ITER_MAX ≤ w.iter) := by
  unfold nextGuarded at h
  split at h
  · rename_i hit
    injection h with h
    injection h with h1 h; injection h with h2 h3
    exact .inr ⟨h1.symm, h2.symm, h3.symm, hit⟩
  · exact .inl (next_post fuel hi hl h)

theorem evalLoop_mono {C ctx parent} : ∀ (fuel : Nat) {g w log r}, evalLoop C ctx parent fuel g w log = some r →
    ∀ k, fuel ≤ k → evalLoop C ctx parent k g w log = some r := by
  intro fuel
  induction fuel with
  | zero => intro g w log r h; cases h
  | succ fuel ih =>
    intro g w log r h k hk
    obtain ⟨k, rfl⟩ : ∃ j, k = j + 1 := ⟨k - 1, by omega⟩
    rw [evalLoop] at h ⊢
    cases hn : w.nextGuarded C fuel g with
    | none => rw [hn] at h; cases h
    | some x =>
      have hn' : w.nextGuarded C k g = some x := by
        unfold nextGuarded at hn ⊢
        split at hn
        · rename_i hit; rw [if_pos hit]; exact hn
        · rename_i hit; rw [if_neg hit]; exact next_mono fuel hn k (by omega)
      rw [hn] at h; rw [hn']
      obtain ⟨r1, g1, w1⟩ := x
      cases r1 with
      | none => exact h
      | some n =>
        dsimp only at h ⊢
        split at h
        · rename_i hs; rw [if_pos hs]; exact ih h k (by omega)
        · rename_i hs; rw [if_neg hs]
          cases hx : g1.node? n with
          | none => rw [hx] at h; exact h
          | some x =>
            rw [hx] at h
            dsimp only at h ⊢
            cases hr : nodeResult C ctx x (w1.incoming g1 n) (w1.nodesContext C) with
            | error m => rw [hr] at h; exact h
            | ok out =>
              rw [hr] at h
              dsimp only at h ⊢
              split at h
              · rename_i ho; rw [if_pos ho]; exact h
              · rename_i ho; rw [if_neg ho]; exact ih h k (by omega)

/-- the loop ends -/
theorem evalLoop_some {C g0 ctx parent} {rank : Nat → Nat} (hr : ∀ e ∈ g0.edges, rank e.src < rank e.tgt) :
    ∀ (a b : Nat) {g w log}, Inv g0 g w none → LogInv C g0 ctx parent w log →
      switchCount g0 ≤ w.switches.length + a → g0.nodes.length ≤ w.ordered.length + b →
      ∃ fuel r, evalLoop C ctx parent fuel g w log = some r := by
  intro a
  induction a using Nat.strongRecOn with
  | ind a iha =>
    intro b
    induction b using Nat.strongRecOn with
    | ind b ihb =>
      intro g w log hi hl ha hb
      obtain ⟨f, ⟨r1, g1, w1⟩, hf⟩ := nextGuarded_some (C := C) hr hi
      have hpost := nextGuarded_post hi hl (hf f (Nat.le_refl _))
      cases r1 with
      | none => exact ⟨f + 1, _, by rw [evalLoop, hf f (Nat.le_refl _)]⟩
      | some n =>
        rcases hpost with ⟨p1, p2, p3, p4⟩ | ⟨h, _⟩
        · -- a smaller problem is left, whatever the handler returned
          have hsmall : ∀ w2 {log2}, w2.switches = w1.switches → w2.ordered = w1.ordered →
              Inv g0 g1 w2 none → LogInv C g0 ctx parent w2 log2 →
              ∃ fuel r, evalLoop C ctx parent fuel g1 w2 log2 = some r := by
            intro w2 log2 e1 e2 hi2 hl2
            have l1 := switches_le hi2
            have l2 := ordered_le hi2
            rcases p4 with p4 | ⟨p4, p5⟩
            · exact iha (switchCount g0 - w2.switches.length) (by rw [e1] at l1 ⊢; omega)
                (g0.nodes.length - w2.ordered.length) hi2 hl2 (by omega) (by omega)
            · rw [e1, p4] at l1
              rw [e2] at l2
              refine ihb (g0.nodes.length - w2.ordered.length) (by rw [e2]; omega) hi2 hl2
                (by rw [e1, p4]; omega) (by omega)
          have wrap : ∀ {w2 log2}, (∃ fuel r, evalLoop C ctx parent fuel g1 w2 log2 = some r) →
              ∃ k, f ≤ k ∧ ∃ r, evalLoop C ctx parent k g1 w2 log2 = some r :=
            fun ⟨k, r, hk⟩ => ⟨max f k, Nat.le_max_left .., r, evalLoop_mono k hk _ (Nat.le_max_right ..)⟩
          by_cases hs : (w1.dataOf n).isSome = true
          · obtain ⟨k, hk, r, hr'⟩ := wrap (hsmall _ rfl rfl (p1.skip (dataOf_isSome.1 hs)) p2)
            exact ⟨k + 1, r, by rw [evalLoop, hf k hk]; dsimp only; rw [if_pos hs]; exact hr'⟩
          · obtain ⟨x, hx⟩ := node?_of_alive p3.alive
            cases hres : nodeResult C ctx x (w1.incoming g1 n) (w1.nodesContext C) with
            | error m =>
              exact ⟨f + 1, _, by
                rw [evalLoop, hf f (Nat.le_refl _)]; dsimp only; rw [if_neg hs, hx]; dsimp only; rw [hres]⟩
            | ok out =>
              by_cases ho : x.kind.isOutput = true
              · exact ⟨f + 1, _, by
                  rw [evalLoop, hf f (Nat.le_refl _)]; dsimp only; rw [if_neg hs, hx]; dsimp only
                  rw [hres]; dsimp only; rw [if_pos ho]⟩
              · have hx0 := p1.node0 hx
                obtain ⟨k, hk, r, hr'⟩ := wrap (hsmall { w1 with data := w1.data ++ [(n, ⟨x.name, out, nodesViewOf parent x out⟩)] } rfl rfl (p1.handled (parent := parent) (out := out) p3 hx0)
                  (p2.handled p1 p3 (fun hh => hs (dataOf_isSome.2 hh)) hx0 hres))
                exact ⟨k + 1, r, by
                  rw [evalLoop, hf k hk]; dsimp only; rw [if_neg hs, hx]; dsimp only
                  rw [hres]; dsimp only; rw [if_neg ho]; exact hr'⟩
        · cases h

/-- what is known when the loop has ended without an error -/
structure Ended (C : GCfg) (g0 : Graph) (ctx : Val) (parent : Option Val) (r : Walked) : Prop where
  inv : Inv g0 r.graph r.walker none
  log : LogInv C g0 ctx parent r.walker r.log
  stop : r.atOutput = false → r.walker.toVisit = [] ∨ ITER_MAX ≤ r.walker.iter
  output : r.atOutput = true → ∃ pre h x, r.log = pre ++ [h] ∧ g0.node? h.node = some x ∧ x.kind.isOutput = true ∧
    h.node ∈ r.walker.ordered

theorem evalLoop_ended {C g0 ctx parent} : ∀ (fuel : Nat) {g w log r}, Inv g0 g w none →
    LogInv C g0 ctx parent w log → evalLoop C ctx parent fuel g w log = some (.ok r) → Ended C g0 ctx parent r := by
  intro fuel
  induction fuel with
  | zero => intro g w log r _ _ h; cases h
  | succ fuel ih =>
    intro g w log r hi hl h
    rw [evalLoop] at h
    cases hn : w.nextGuarded C fuel g with
    | none => rw [hn] at h; cases h
    | some x =>
      rw [hn] at h
      obtain ⟨r1, g1, w1⟩ := x
      have hpost := nextGuarded_post hi hl hn
      cases r1 with
      | none =>
        dsimp only at h
        injection h with h; injection h with h; subst h
        rcases hpost with ⟨p1, p2, p3⟩ | ⟨_, rfl, rfl, hit⟩
        · exact ⟨p1, p2, fun _ => .inl p3, fun hh => by cases hh⟩
        · exact ⟨hi, hl, fun _ => .inr hit, fun hh => by cases hh⟩
      | some n =>
        rcases hpost with ⟨p1, p2, p3, p4⟩ | ⟨h, _⟩
        · dsimp only at h
          split at h
          · rename_i hs
            exact ih (p1.skip (dataOf_isSome.1 hs)) p2 h
          · rename_i hs
            cases hx : g1.node? n with
            | none => rw [hx] at h; cases h
            | some x =>
              have hx0 := p1.node0 hx
              rw [hx] at h
              dsimp only at h
              cases hres : nodeResult C ctx x (w1.incoming g1 n) (w1.nodesContext C) with
              | error m => rw [hres] at h; cases h
              | ok out =>
                rw [hres] at h
                dsimp only at h
                have i2 := p1.handled (parent := parent) (out := out) p3 hx0
                have l2 := p2.handled p1 p3 (fun hh => hs (dataOf_isSome.2 hh)) hx0 hres
                split at h
                · rename_i ho
                  injection h with h; injection h with h; subst h
                  exact ⟨i2, l2, fun hh => (by cases hh), fun _ => ⟨log, _, x, rfl, hx0, ho, p3.ordered⟩⟩
                · exact ih i2 l2 h
        · cases h

theorem LogInv.new (C : GCfg) (g0 : Graph) (ctx : Val) (parent : Option Val) :
    LogInv C g0 ctx parent (Walker.new g0) [] where
  data := rfl
  nodup := .nil
  entries pre h post hh := by simp at hh
  traces t ht := by simp [Walker.new, push] at ht

/-- everything reachable is done at a normal end -/
theorem Ended.complete' {C g0 ctx parent r} (h : Ended C g0 ctx parent r) (hv : r.walker.toVisit = [])
    {st : Nat → Prop} (hst : ∀ n, st n → IsInput g0 n ∧ IsSource g0 n) {n : Nat}
    (hf : Follows g0 r.walker.strace st n) :
    (r.graph.Alive n → n ∈ r.walker.ordered) ∧ (n ∈ keys r.walker ∨ n ∈ r.walker.switches) := by
  have hi := h.inv
  have hord : ∀ m ∈ r.walker.ordered, m ∈ keys r.walker := fun m hm => (hi.ordData m hm).resolve_right (by simp)
  have hlv : ∀ {m}, Follows g0 r.walker.strace st m → Live g0 r.walker.strace m := by
    intro m hm
    induction hm with
    | start h => exact .start (hst _ h).2
    | edge he ha _ ih => exact .edge he ha ih
  induction hf with
  | @start n hn =>
    have hin : r.graph.Alive n → n ∈ r.walker.ordered := fun ha => by
      rcases hi.inp n ha (hst n hn).1 with hh | hh
      · exact hh
      · rw [hv] at hh; cases hh
    refine ⟨hin, ?_⟩
    by_cases ha : r.graph.Alive n
    · exact .inl (hord n (hin ha))
    · exact (hi.dead n (hst n hn).2.1 ha (.start (hst n hn).2)).1
  | @edge e he ha hsrc ih =>
    by_cases hg : e ∈ r.graph.edges
    · have h1 := ih.1 (hi.gwf.ends e hg).1
      have h2 : e.tgt ∈ r.walker.ordered := by
        rcases hi.succ e hg h1 with hh | hh
        · exact hh
        · rw [hv] at hh; cases hh
      exact ⟨fun _ => h2, .inl (hord _ h2)⟩
    · obtain ⟨h1, h2⟩ := hi.lost e he hg ha (hlv hsrc)
      exact ⟨fun hh => absurd hh h2, h1⟩

theorem Ended.complete {C g0 ctx parent r} (h : Ended C g0 ctx parent r) (hv : r.walker.toVisit = [])
    {st : Nat → Prop} (hst : ∀ n, st n → IsInput g0 n ∧ IsSource g0 n) {n : Nat}
    (hf : Follows g0 r.walker.strace st n) :
    (r.graph.Alive n → n ∈ keys r.walker) ∧ (n ∈ keys r.walker ∨ n ∈ r.walker.switches) :=
  ⟨fun ha => (h.inv.ordData n ((h.complete' hv hst hf).1 ha)).resolve_right (by simp), (h.complete' hv hst hf).2⟩

theorem validate_ok {g : Graph} : g.validate = .ok () ↔
    (g.nodes.filter (·.2.kind.isInput)).length = 1 ∧ g.isCyclic = false := by
  unfold Graph.validate
  dsimp only
  by_cases h1 : (g.nodes.filter (·.2.kind.isInput)).length = 1
  · rw [if_neg (by simpa using h1)]
    by_cases h2 : g.isCyclic = true
    · rw [if_pos h2]; simp [h2]
    · rw [if_neg h2]; simp [h1, h2]
  · rw [if_pos h1]; simp [h1]

theorem validate_rank {g : Graph} (h : g.validate = .ok ()) :
    ∃ rank : Nat → Nat, ∀ e ∈ g.edges, rank e.src < rank e.tgt := by
  apply peel_rank g.edges.length
  have := (validate_ok.1 h).2
  unfold isCyclic at this
  simpa using this

theorem Follows.live {g : Graph} {tr : List SwitchTrace} {st : Nat → Prop} (hst : ∀ n, st n → IsSource g n) {n : Nat}
    (h : Follows g tr st n) : Live g tr n := by
  induction h with
  | start h => exact .start (hst _ h)
  | edge he ha _ ih => exact .edge he ha ih

theorem rank_bound (es : List GEdge) (rank : Nat → Nat) : ∃ b, ∀ e ∈ es, rank e.tgt ≤ b := by
  induction es with
  | nil => exact ⟨0, by simp⟩
  | cons a es ih =>
    obtain ⟨b, hb⟩ := ih
    refine ⟨max b (rank a.tgt), fun e he => ?_⟩
    rcases List.mem_cons.1 he with rfl | he
    · exact Nat.le_max_right ..
    · exact Nat.le_trans (hb e he) (Nat.le_max_left ..)

/-- reachable switches that were decided but not handled lead nowhere -/
theorem Ended.deadEnd {C g0 ctx parent r} (h : Ended C g0 ctx parent r) (hv : r.walker.toVisit = [])
    {st : Nat → Prop} (hst : ∀ n, st n → IsInput g0 n ∧ IsSource g0 n)
    {rank : Nat → Nat} (hr : ∀ e ∈ g0.edges, rank e.src < rank e.tgt) {n : Nat}
    (hf : Follows g0 r.walker.strace st n) (hn : n ∉ r.log.map Handled.node) :
    DeadEnd g0 r.walker.strace n := by
  obtain ⟨b, hb⟩ := rank_bound g0.edges rank
  have hkeys := keys_log h.log.data
  have main : ∀ (k n : Nat), b ≤ rank n + k → Follows g0 r.walker.strace st n → n ∉ r.log.map Handled.node →
      DeadEnd g0 r.walker.strace n := by
    intro k
    induction k with
    | zero =>
      intro n hk hf hn
      obtain ⟨h1, h2⟩ := h.complete hv hst hf
      rw [← hkeys] at hn
      refine .mk (by rw [← h.inv.sw]; exact h2.resolve_left hn) fun e he hes _ => ?_
      have := hr e he
      have := hb e he
      rw [hes] at *; omega
    | succ k ih =>
      intro n hk hf hn
      obtain ⟨h1, h2⟩ := h.complete hv hst hf
      have hn' := hn
      rw [← hkeys] at hn'
      refine .mk (by rw [← h.inv.sw]; exact h2.resolve_left hn') fun e he hes ha => ?_
      subst hes
      have := hr e he
      have hlive := hf.live fun m hm => (hst m hm).2
      refine ih e.tgt (by omega) (.edge he ha hf) fun hh => ?_
      obtain ⟨x, hx, hxe⟩ := List.mem_map.1 hh
      obtain ⟨pre, post, hpp⟩ := List.append_of_mem hx
      have := (h.log.entries pre x post hpp).preds e he hxe.symm ha hlive
      exact hn (by rw [hpp, List.map_append]; exact List.mem_append_left _ this)
  exact main b n (by omega) hf hn

end Zen
