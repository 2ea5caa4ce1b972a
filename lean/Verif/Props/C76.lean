import Verif.Props.C29
import Verif.Engine.TraceLemmas
/-
C76: the trace of a graph evaluation. `ts` is the hash map of the tracer by node id; `r` is what C29
and C30 speak about: `r.log` the handled nodes, oldest first, `r.walker.strace` the decisions of the
switches.
-/
namespace Zen
open Graph Walker
variable {T : TCfg} {nodes : List GNode} {docs : List EdgeDoc} {g : Graph} {maxDepth iteration fuel : Nat}
  {ctx : Val} {parent : Option Val} {r : Walked} {tr : Tracer} {ts : List (String × NTrace)}

/-- Tracing, on or off, changes nothing about the outcome of an evaluation. -/
theorem C76_unchanged (enabled : Bool) :
    (evalGraphTraced T enabled maxDepth iteration ctx parent fuel g).map (fun o => (o.map Prod.fst).mapError Prod.fst) =
      evalGraph T.toGCfg maxDepth iteration ctx parent fuel g := by
  unfold evalGraphTraced evalGraph
  cases g.validate with
  | error e => rfl
  | ok u =>
    dsimp only
    split
    · rfl
    · exact evalTraced_erase ..

theorem traced_run {enabled : Bool} (he : evalGraphTraced T enabled maxDepth iteration ctx parent fuel g = some (.ok (r, tr))) :
    evalGraph T.toGCfg maxDepth iteration ctx parent fuel g = some (.ok r) := by
  have := C76_unchanged (T := T) (maxDepth := maxDepth) (iteration := iteration) (ctx := ctx) (parent := parent) (fuel := fuel) (g := g) enabled
  rw [he] at this
  exact this.symm

theorem callback_off (g : Graph) : ∀ ts : List SwitchTrace, ts.foldl (Tracer.callback g) none = none
  | [] => rfl
  | _ :: ts => callback_off g ts

/-- Without tracing there is no trace, neither with a result nor with an error. -/
theorem C76_off {o : Except (GErr × Tracer) (Walked × Tracer)}
    (he : evalGraphTraced T false maxDepth iteration ctx parent fuel g = some o) :
    (∀ r tr, o = .ok (r, tr) → tr = none) ∧ ∀ e tr, o = .error (e, tr) → tr = none := by
  have loop : ∀ (fuel : Nat) {g0 g w log o}, evalTraced T g0 ctx parent fuel g w log none = some o →
      (∀ r tr, o = .ok (r, tr) → tr = none) ∧ ∀ e tr, o = .error (e, tr) → tr = none := by
    intro fuel
    induction fuel with
    | zero => intro g0 g w log o h; cases h
    | succ fuel ih =>
      intro g0 g w log o h
      rw [evalTraced] at h
      split at h
      · cases h
      · injection h with h; subst h
        refine ⟨fun r tr hr => ?_, fun e tr hr => (nomatch hr)⟩
        injection hr with hr; injection hr with _ hr
        rw [callback_off] at hr; exact hr.symm
      · dsimp only at h
        rw [callback_off] at h
        split at h
        · exact ih h
        · split at h
          · injection h with h; subst h
            exact ⟨fun r tr hr => (nomatch hr), fun e tr hr => by injection hr with hr; injection hr with _ hr; exact hr.symm⟩
          · split at h
            · injection h with h; subst h
              exact ⟨fun r tr hr => (nomatch hr), fun e tr hr => by injection hr with hr; injection hr with _ hr; exact hr.symm⟩
            · split at h
              · injection h with h; subst h
                exact ⟨fun r tr hr => (by injection hr with hr; injection hr with _ hr; exact hr.symm), fun e tr hr => (nomatch hr)⟩
              · exact ih h
  unfold evalGraphTraced at he
  split at he
  · injection he with he; subst he
    exact ⟨fun r tr hr => (nomatch hr), fun e tr hr => by injection hr with hr; injection hr with _ hr; exact hr.symm⟩
  · split at he
    · injection he with he; subst he
      exact ⟨fun r tr hr => (nomatch hr), fun e tr hr => by injection hr with hr; injection hr with _ hr; exact hr.symm⟩
    · exact loop fuel he

theorem traced_validate {enabled : Bool} (he : evalGraphTraced T enabled maxDepth iteration ctx parent fuel g = some (.ok (r, tr))) :
    g.validate = .ok () := by
  unfold evalGraphTraced at he
  cases hv : g.validate with
  | error e => rw [hv] at he; cases he
  | ok u => rfl

/-- all there is to know about a traced evaluation -/
theorem traced_end (hb : buildGraph nodes docs = .ok g) {o : Except (GErr × Tracer) (Walked × Tracer)}
    (he : evalGraphTraced T true maxDepth iteration ctx parent fuel g = some o) :
    (∃ e, o = .error (e, none) ∧ ∀ id m, e ≠ .node id m) ∨ TracedEnd T g ctx parent o := by
  unfold evalGraphTraced at he
  cases hv : g.validate with
  | error e =>
    rw [hv] at he
    injection he with he; subst he
    refine .inl ⟨e, rfl, fun id m hid => ?_⟩
    subst hid
    unfold Graph.validate at hv
    dsimp only at hv
    split at hv
    · cases hv
    · split at hv <;> cases hv
  | ok u =>
    rw [hv] at he
    dsimp only at he
    split at he
    · injection he with he; subst he
      exact .inl ⟨_, rfl, fun id m hid => by cases hid⟩
    · refine .inr (evalTraced_end (fun n m x y h1 h2 h3 h4 h5 => near_ids hb hv h1 h2 h3 h4 h5) fuel (evs := [])
        (Inv.new (buildGraph_wf hb)) (LogInv.new T.toGCfg g ctx parent) ?_ ?_ he)
      · intro m hm
        simp only [Walker.new, push, List.append_nil, List.mem_reverse] at hm
        exact near_inputs (List.Sublist.refl _) m hm
      · exact ⟨rfl, rfl, rfl, by simp, fun pre h d post hh => by simp at hh, fun pre t post hh => by simp at hh⟩

theorem numbered_get {p q : List NTrace} {e : NTrace} (hn : ((p ++ e :: q).map NTrace.id).Nodup) :
    aGet (numbered (p ++ e :: q)) e.id = some { e with order := p.length } := by
  refine aGet_of_mem (by rw [numbered_keys]; exact hn) ?_
  unfold numbered
  rw [List.mem_mapIdx]
  exact ⟨p.length, by simp, by simp⟩

theorem ev_get {evs pre post : List TEv} {v : TEv} {e : NTrace} (hn : ((evs.filterMap (entryOf g)).map NTrace.id).Nodup)
    (hs : evs = pre ++ v :: post) (he : entryOf g v = some e) :
    aGet (numbered (evs.filterMap (entryOf g))) e.id = some { e with order := (pre.filterMap (entryOf g)).length } := by
  subst hs
  rw [List.filterMap_append, List.filterMap_cons, he] at hn ⊢
  exact numbered_get hn

/-- earlier events are numbered lower -/
theorem ev_order {evs pre post : List TEv} {v u : TEv} {e d : NTrace} (hn : ((evs.filterMap (entryOf g)).map NTrace.id).Nodup)
    (hs : evs = pre ++ v :: post) (he : entryOf g v = some e) (hu : u ∈ pre) (hd : entryOf g u = some d) :
    ∃ a b, aGet (numbered (evs.filterMap (entryOf g))) d.id = some a ∧
      aGet (numbered (evs.filterMap (entryOf g))) e.id = some b ∧ a.order < b.order := by
  obtain ⟨p1, p2, rfl⟩ := List.append_of_mem hu
  refine ⟨_, _, ev_get hn (pre := p1) (post := p2 ++ v :: post) (by rw [hs]; simp) hd, ev_get hn hs he, ?_⟩
  simp only [List.filterMap_append, List.filterMap_cons, hd, List.length_append, List.length_cons]
  omega

theorem mem_logOf {evs : List TEv} {h : Handled} (hm : h ∈ logOf evs) : ∃ d, TEv.handled h d ∈ evs := by
  obtain ⟨v, hv, he⟩ := List.mem_filterMap.1 hm
  cases v with
  | handled h' d => injection he with he; subst he; exact ⟨d, hv⟩
  | decided t => cases he

theorem mem_decOf {evs : List TEv} {t : SwitchTrace} (hm : t ∈ decOf evs) : TEv.decided t ∈ evs := by
  obtain ⟨v, hv, he⟩ := List.mem_filterMap.1 hm
  cases v with
  | handled h' d => cases he
  | decided t' => injection he with he; subst he; exact hv

theorem logOf_split : ∀ {evs : List TEv} {a b : List Handled} {h : Handled}, logOf evs = a ++ h :: b →
    ∃ pre d post, evs = pre ++ .handled h d :: post ∧ logOf pre = a ∧ logOf post = b
  | [], a, b, h, hh => by simp [logOf] at hh
  | .decided t :: evs, a, b, h, hh => by
    obtain ⟨pre, d, post, h1, h2, h3⟩ := logOf_split (evs := evs) hh
    exact ⟨.decided t :: pre, d, post, by rw [h1]; rfl, h2, h3⟩
  | .handled k d :: evs, [], b, h, hh => by
    injection hh with h1 h2
    subst h1
    exact ⟨[], d, evs, rfl, rfl, h2⟩
  | .handled k d :: evs, c :: a, b, h, hh => by
    injection hh with h1 h2
    subst h1
    obtain ⟨pre, d', post, h1, h2, h3⟩ := logOf_split (evs := evs) h2
    exact ⟨.handled k d :: pre, d', post, by rw [h1]; rfl, by rw [← h2]; rfl, h3⟩

/-- Every node handled, other than a switch, is in the trace under its id: with its name, the input it
was given and the output it returned, and the trace data of its handler. The input is left out for
the input node, the output for an output node. -/
theorem C76_nodes (hb : buildGraph nodes docs = .ok g)
    (he : evalGraphTraced T true maxDepth iteration ctx parent fuel g = some (.ok (r, some ts)))
    {pre post : List Handled} {h : Handled} (hl : r.log = pre ++ h :: post) :
    ∃ x, g.node? h.node = some x ∧ (x.kind.isSwitch = false → ∃ e, aGet ts x.id = some e ∧ e.id = x.id ∧ e.name = x.name ∧
      e.input = (if x.kind.isInput then .null else h.input) ∧ e.output = (if x.kind.isOutput then .null else h.output) ∧
      e.traceData = T.data x h.input (nodesAfter T.toGCfg g parent pre)) := by
  rcases traced_end hb he with ⟨e, h1, _⟩ | ⟨ts', evs, h1, h2, h3⟩
  · cases h1
  injection h1 with h1; subst h1
  rw [← h2.log] at hl
  obtain ⟨p, d, q, hs, h4, h5⟩ := logOf_split hl
  obtain ⟨x, hx, hd, _⟩ := h2.handled p h d q hs
  refine ⟨x, hx, fun hk => ?_⟩
  have hen : entryOf g (.handled h d) = some
      { id := x.id, name := x.name
        input := if x.kind.isInput then .null else h.input
        output := if x.kind.isOutput then .null else h.output
        traceData := d, order := 0 } := by simp [entryOf, hx, hk]
  have := ev_get h3 hs hen
  rw [h2.ts]
  exact ⟨_, this, rfl, rfl, rfl, rfl, by rw [hd, h4]⟩

/-- Every switch that decided is in the trace under its id, with the input it decided on, the same as
output, and the ids of the statements chosen. -/
theorem C76_switches (hb : buildGraph nodes docs = .ok g)
    (he : evalGraphTraced T true maxDepth iteration ctx parent fuel g = some (.ok (r, some ts)))
    {t : SwitchTrace} (ht : t ∈ r.walker.strace) :
    ∃ x e, g.node? t.node = some x ∧ aGet ts x.id = some e ∧ e.id = x.id ∧ e.name = x.name ∧ e.input = t.input ∧ e.output = t.input ∧
      e.traceData = some (.obj [("statements", .arr (t.valid.map fun id => .obj [("id", .str id)]))]) := by
  have hend := evalGraph_ended hb (traced_run he)
  rcases traced_end hb he with ⟨e, h1, _⟩ | ⟨ts', evs, h1, h2, h3⟩
  · cases h1
  injection h1 with h1; subst h1
  obtain ⟨_, _, hok⟩ := hend.log.traces t ht
  obtain ⟨x, _, _, hx, _, _⟩ := hok.node
  rw [← h2.dec] at ht
  obtain ⟨p, q, hs⟩ := List.append_of_mem (mem_decOf ht)
  have hen : entryOf g (.decided t) = some (switchTrace x t) := by simp [entryOf, hx]
  have := ev_get h3 hs hen
  rw [h2.ts]
  exact ⟨x, _, hx, this, rfl, rfl, rfl, rfl, rfl⟩

/-- Nothing else is in the trace. -/
theorem C76_only (hb : buildGraph nodes docs = .ok g)
    (he : evalGraphTraced T true maxDepth iteration ctx parent fuel g = some (.ok (r, some ts)))
    {id : String} {e : NTrace} (hg : aGet ts id = some e) :
    e.id = id ∧ ∃ n x, g.node? n = some x ∧ x.id = id ∧
      ((n ∈ r.log.map Handled.node ∧ x.kind.isSwitch = false) ∨ n ∈ r.walker.strace.map SwitchTrace.node) := by
  rcases traced_end hb he with ⟨e, h1, _⟩ | ⟨ts', evs, h1, h2, h3⟩
  · cases h1
  injection h1 with h1; subst h1
  have hm := aGet_mem hg
  rw [h2.ts] at hm
  unfold numbered at hm
  obtain ⟨i, hi, hh⟩ := List.mem_mapIdx.1 hm
  have hmem : (evs.filterMap (entryOf g))[i] ∈ evs.filterMap (entryOf g) := List.getElem_mem _
  generalize (evs.filterMap (entryOf g))[i] = d at hh hmem
  injection hh with hh1 hh2
  refine ⟨by rw [← hh2]; exact hh1, ?_⟩
  obtain ⟨v, hv, hd⟩ := List.mem_filterMap.1 hmem
  cases v with
  | handled h' d' =>
    unfold entryOf at hd
    dsimp only at hd
    split at hd
    · rename_i x hx
      split at hd
      · cases hd
      · rename_i hk
        injection hd with hd
        refine ⟨h'.node, x, hx, by rw [← hh1, ← hd], .inl ⟨?_, by simpa using hk⟩⟩
        rw [← h2.log]
        exact List.mem_map.2 ⟨h', List.mem_filterMap.2 ⟨_, hv, rfl⟩, rfl⟩
    · cases hd
  | decided t =>
    unfold entryOf at hd
    dsimp only at hd
    split at hd
    · rename_i x hx
      injection hd with hd
      refine ⟨t.node, x, hx, by rw [← hh1, ← hd]; rfl, .inr ?_⟩
      rw [← h2.dec]
      exact List.mem_map.2 ⟨t, List.mem_filterMap.2 ⟨_, hv, rfl⟩, rfl⟩
    · cases hd

/-- Nodes that are handled or decide have different ids, even if the document uses an id for several
nodes: no entry of the trace replaces another. -/
theorem C76_ids (hb : buildGraph nodes docs = .ok g)
    (he : evalGraphTraced T true maxDepth iteration ctx parent fuel g = some (.ok (r, some ts))) {n m : Nat} {x y : GNode}
    (hn : n ∈ r.log.map Handled.node ∨ n ∈ r.walker.strace.map SwitchTrace.node)
    (hm : m ∈ r.log.map Handled.node ∨ m ∈ r.walker.strace.map SwitchTrace.node)
    (hx : g.node? n = some x) (hy : g.node? m = some y) (hid : x.id = y.id) : n = m := by
  rcases traced_end hb he with ⟨e, h1, _⟩ | ⟨ts', evs, h1, h2, h3⟩
  · cases h1
  have near : ∀ {n}, n ∈ r.log.map Handled.node ∨ n ∈ r.walker.strace.map SwitchTrace.node → Near g n := by
    intro n hn
    rcases hn with hn | hn
    · rw [← h2.log] at hn
      obtain ⟨h', hh, rfl⟩ := List.mem_map.1 hn
      obtain ⟨d, hd⟩ := mem_logOf hh
      exact h2.near _ hd
    · rw [← h2.dec] at hn
      obtain ⟨t, ht, rfl⟩ := List.mem_map.1 hn
      exact h2.near _ (mem_decOf ht)
  exact near_ids hb (traced_validate he) (near hn) (near hm) hx hy hid

theorem numbered_orders (l : List NTrace) : (numbered l).map (·.2.order) = List.range (numbered l).length := by
  apply List.ext_getElem <;> simp [numbered]

/-- One entry per id, and the entries are numbered from 0 without gaps or repetitions. -/
theorem C76_orders (hb : buildGraph nodes docs = .ok g)
    (he : evalGraphTraced T true maxDepth iteration ctx parent fuel g = some (.ok (r, some ts))) :
    (aKeys ts).Nodup ∧ ts.map (·.2.order) = List.range ts.length := by
  rcases traced_end hb he with ⟨e, h1, _⟩ | ⟨ts', evs, h1, h2, h3⟩
  · cases h1
  injection h1 with h1; subst h1
  rw [h2.ts]
  exact ⟨by rw [numbered_keys]; exact h3, numbered_orders _⟩

/-- The numbers follow the order in which the nodes were handled. -/
theorem C76_sequence (hb : buildGraph nodes docs = .ok g)
    (he : evalGraphTraced T true maxDepth iteration ctx parent fuel g = some (.ok (r, some ts)))
    {pre post : List Handled} {h k : Handled} (hl : r.log = pre ++ h :: post) (hk : k ∈ pre) {x y : GNode}
    (hx : g.node? k.node = some x) (hy : g.node? h.node = some y) (hsx : x.kind.isSwitch = false) (hsy : y.kind.isSwitch = false) :
    ∃ a b, aGet ts x.id = some a ∧ aGet ts y.id = some b ∧ a.order < b.order := by
  rcases traced_end hb he with ⟨e, h1, _⟩ | ⟨ts', evs, h1, h2, h3⟩
  · cases h1
  injection h1 with h1; subst h1
  rw [← h2.log] at hl
  obtain ⟨p, d, q, hs, h4, h5⟩ := logOf_split hl
  rw [← h4] at hk
  obtain ⟨d', hd'⟩ := mem_logOf hk
  rw [h2.ts]
  exact ev_order h3 hs (v := .handled h d) (u := .handled k d') (by simp only [entryOf, hy, hsy]; rfl) hd' (by simp only [entryOf, hx, hsx]; rfl)

/-- In the trace a node comes after everything it got its input from: along an edge that no switch
decided against, from a node that can be reached along such edges, if the end was handled or decided,
both are traced, the start with the smaller number. -/
theorem C76_after_predecessors (hb : buildGraph nodes docs = .ok g)
    (he : evalGraphTraced T true maxDepth iteration ctx parent fuel g = some (.ok (r, some ts)))
    {e : GEdge} (hm : e ∈ g.edges) (ha : against r.walker.strace e = false)
    (hr : Follows g r.walker.strace (IsSource g) e.src)
    (ht : e.tgt ∈ r.log.map Handled.node ∨ e.tgt ∈ r.walker.strace.map SwitchTrace.node) :
    ∃ x y a b, g.node? e.src = some x ∧ g.node? e.tgt = some y ∧ aGet ts x.id = some a ∧ aGet ts y.id = some b ∧ a.order < b.order := by
  have hend := evalGraph_ended hb (traced_run he)
  obtain ⟨x, hx⟩ := node?_of_alive (hend.inv.wf.ends e hm).1
  obtain ⟨y, hy⟩ := node?_of_alive (hend.inv.wf.ends e hm).2
  rcases traced_end hb he with ⟨e, h1, _⟩ | ⟨ts', evs, h1, h2, h3⟩
  · cases h1
  injection h1 with h1; subst h1
  have key : ∀ {p q : List TEv} {v : TEv} {d : NTrace}, evs = p ++ v :: q → entryOf g v = some d → d.id = y.id →
      e.src ∈ (logOf p).map Handled.node → ∃ a b, aGet ts x.id = some a ∧ aGet ts y.id = some b ∧ a.order < b.order := by
    intro p q v d hs hd hdi hsrc
    obtain ⟨k, hk, hks⟩ := List.mem_map.1 hsrc
    obtain ⟨dk, hdk⟩ := mem_logOf hk
    have fin : ∀ {u : TEv} {c : NTrace}, u ∈ p → entryOf g u = some c → c.id = x.id →
        ∃ a b, aGet ts x.id = some a ∧ aGet ts y.id = some b ∧ a.order < b.order := by
      intro u c hu hc hci
      obtain ⟨a, b, h5, h6, h7⟩ := ev_order h3 hs hd hu hc
      rw [← h2.ts, hci] at h5
      rw [← h2.ts, hdi] at h6
      exact ⟨a, b, h5, h6, h7⟩
    by_cases hsw : x.kind.isSwitch = true
    · obtain ⟨p1, p2, hp⟩ := List.append_of_mem hdk
      obtain ⟨x', hx', _, hdec⟩ := h2.handled p1 k dk (p2 ++ v :: q) (by rw [hs, hp]; simp)
      rw [hks, hx] at hx'
      injection hx' with hx'
      subst hx'
      obtain ⟨t, ht, htn⟩ := List.mem_map.1 (hdec hsw)
      refine fin (u := .decided t) (by rw [hp]; exact List.mem_append_left _ (mem_decOf ht)) (c := switchTrace x t) ?_ rfl
      simp only [entryOf, htn, hks, hx]
    · exact fin hdk (by simp only [entryOf, hks, hx, if_neg hsw]; rfl) rfl
  have hdecided : e.tgt ∈ r.walker.strace.map SwitchTrace.node → ∃ a b, aGet ts x.id = some a ∧ aGet ts y.id = some b ∧ a.order < b.order := by
    intro ht
    obtain ⟨t, ht, htn⟩ := List.mem_map.1 ht
    rw [← h2.dec] at ht
    obtain ⟨p, q, hs⟩ := List.append_of_mem (mem_decOf ht)
    exact key hs (d := switchTrace y t) (by simp only [entryOf, htn, hy]) rfl (h2.decided p t q hs e hm htn.symm ha hr)
  have hall : ∃ a b, aGet ts x.id = some a ∧ aGet ts y.id = some b ∧ a.order < b.order := by
    by_cases hsw : y.kind.isSwitch = true
    · rcases ht with ht | ht
      · refine hdecided ?_
        rw [← keys_log hend.log.data] at ht
        rw [← hend.inv.sw]
        exact hend.inv.swData _ ht ((isSwitch_kind hend.inv.wf hy).2 hsw)
      · exact hdecided ht
    · rcases ht with ht | ht
      · obtain ⟨h, hh, htn⟩ := List.mem_map.1 ht
        obtain ⟨pl, ql, hl⟩ := List.append_of_mem hh
        have hpred := (hend.log.entries pl h ql hl).preds e hm htn.symm ha hr
        rw [← h2.log] at hl
        obtain ⟨p, d, q, hs, h4, _⟩ := logOf_split hl
        rw [← h4] at hpred
        exact key hs (by simp only [entryOf, htn, hy, if_neg hsw]; rfl) rfl hpred
      · exact hdecided ht
  obtain ⟨a, b, h5, h6, h7⟩ := hall
  exact ⟨x, y, a, b, hx, hy, h5, h6, h7⟩

/-- When a node fails, the trace that comes with the error ends with that node: its name, the input it
failed on and no output. -/
theorem C76_failed (hb : buildGraph nodes docs = .ok g) {id m : String}
    (he : evalGraphTraced T true maxDepth iteration ctx parent fuel g = some (.error (.node id m, tr))) :
    ∃ ts n x input ns e, tr = some ts ∧ g.node? n = some x ∧ x.id = id ∧
      nodeResult T.toGCfg ctx x input ns = .error m ∧
      aGet ts id = some e ∧ e.id = id ∧ e.name = x.name ∧ e.input = (if x.kind.isInput then .null else input) ∧ e.output = .null ∧
      e.traceData = T.data x (if x.kind.isInput then ctx else input) ns ∧
      e.order + 1 = ts.length ∧ (aKeys ts).Nodup ∧ ts.map (·.2.order) = List.range ts.length := by
  rcases traced_end hb he with ⟨e, h1, h2⟩ | ⟨ts, evs, w, log, n, x, input, ns, m', h1, h2, h3, h4, h5, h6, h7, h8⟩
  · injection h1 with h1; injection h1 with h1 _
    exact absurd h1.symm (h2 id m)
  · injection h2 with h2 h2'
    subst h2'
    have hsw : x.kind.isSwitch = false := by
      unfold nodeResult at h4
      cases hk : x.kind <;> rw [hk] at h4 <;> first | rfl | cases h4
    have hen : entryOf g (.handled ⟨n, if x.kind.isInput then ctx else input, .null⟩
        (T.data x (if x.kind.isInput then ctx else input) ns)) = some
        { id := x.id, name := x.name
          input := if x.kind.isInput then .null else (if x.kind.isInput then ctx else input)
          output := if x.kind.isOutput then .null else .null
          traceData := T.data x (if x.kind.isInput then ctx else input) ns, order := 0 } := by simp [entryOf, h3, hsw]
    have hget := ev_get h8 rfl hen
    rw [← h7] at hget
    refine ⟨ts, n, x, input, ns, _, h1, h3, h2.symm, h4, by rw [h2]; exact hget, h2.symm, rfl, ?_, ?_, rfl, ?_, ?_, ?_⟩
    · dsimp only; split <;> rfl
    · dsimp only; split <;> rfl
    · dsimp only
      rw [h7, numbered_length, List.filterMap_append, List.length_append, List.filterMap_cons, hen]
      rfl
    · rw [h7, numbered_keys]; exact h8
    · rw [h7]; exact numbered_orders _

/-- ... and every other entry is that of a switch, or of a node whose handler returned what is shown as
output. -/
theorem C76_before_failure (hb : buildGraph nodes docs = .ok g) {id m : String}
    (he : evalGraphTraced T true maxDepth iteration ctx parent fuel g = some (.error (.node id m, some ts)))
    {k : String} {e : NTrace} (hk : k ≠ id) (hg : aGet ts k = some e) :
    ∃ n x, g.node? n = some x ∧ x.id = k ∧ e.id = k ∧ e.name = x.name ∧
      ((x.kind.isSwitch = true ∧ e.output = e.input) ∨
        ∃ input ns out, nodeResult T.toGCfg ctx x input ns = .ok out ∧
          e.input = (if x.kind.isInput then .null else input) ∧ e.output = (if x.kind.isOutput then .null else out) ∧
          e.traceData = T.data x (if x.kind.isInput then ctx else input) ns) := by
  rcases traced_end hb he with ⟨e, h1, h2⟩ | ⟨ts', evs, w, log, n, x, input, ns, m', h1, h2, h3, h4, h5, ⟨ts'', h6⟩, h7, h8⟩
  · injection h1 with h1; injection h1 with _ h1; cases h1
  injection h1 with h1; subst h1
  injection h2 with h2 h2'
  have hm := aGet_mem hg
  rw [h7] at hm
  unfold numbered at hm
  obtain ⟨i, hi, hh⟩ := List.mem_mapIdx.1 hm
  generalize hdd : (List.filterMap (entryOf g) (evs ++ [TEv.handled ⟨n, if x.kind.isInput then ctx else input, .null⟩
        (T.data x (if x.kind.isInput then ctx else input) ns)]))[i] = d at hh
  have hmem := List.getElem_mem hi
  rw [hdd] at hmem
  injection hh with hh1 hh2
  obtain ⟨v, hv, hd⟩ := List.mem_filterMap.1 hmem
  rcases List.mem_append.1 hv with hv | hv
  · cases v with
    | handled h d' =>
      obtain ⟨p, q, hs⟩ := List.append_of_mem hv
      obtain ⟨y, hy, hdy, _⟩ := h6.handled p h d' q hs
      have hl : log = logOf p ++ h :: logOf q := by
        rw [← h6.log, hs, logOf_append]; rfl
      obtain ⟨y', hy', hin, hres⟩ := (h5.entries _ _ _ hl).node
      rw [hy] at hy'; injection hy' with hy'; subst hy'
      unfold entryOf at hd
      dsimp only at hd
      rw [hy] at hd
      dsimp only at hd
      split at hd
      · cases hd
      · injection hd with hd
        subst hd; subst hh2
        refine ⟨h.node, y, hy, hh1, hh1, rfl, .inr ⟨_, _, h.output, hres, ?_, rfl, ?_⟩⟩
        · dsimp only
          by_cases hyi : y.kind.isInput = true
          · rw [if_pos hyi, if_pos hyi]
          · rw [if_neg hyi, if_neg hyi, hin, if_neg hyi]
        · dsimp only; rw [hdy, hin]
    | decided t =>
      have ht : t ∈ w.strace := by
        rw [← h6.dec]; exact List.mem_filterMap.2 ⟨_, hv, rfl⟩
      obtain ⟨_, _, hok⟩ := h5.traces t ht
      obtain ⟨y, hit, stmts, hy, hkind, _⟩ := hok.node
      unfold entryOf at hd
      dsimp only at hd
      rw [hy] at hd
      injection hd with hd
      subst hd; subst hh2
      exact ⟨t.node, y, hy, hh1, hh1, rfl, .inl ⟨by rw [hkind]; rfl, rfl⟩⟩
  · rw [List.mem_singleton.1 hv] at hd
    unfold entryOf at hd
    dsimp only at hd
    rw [h3] at hd
    dsimp only at hd
    split at hd
    · cases hd
    · injection hd with hd
      exact absurd (by rw [← hh1, ← hd, h2]) hk

/-- the demo graph of C29 with tracing; the handler of `failing` fails -/
def tracedCfg (failing : String) : TCfg :=
  { demoCfg demoB with
    handle := fun node input ns => if node.id = failing then .error "failed" else (demoCfg demoB).handle node input ns
    data := fun _ _ _ => none }

/-- the ids and numbers of a trace with the error, if any -/
def tracedIds (x : Option (Except (GErr × Tracer) (Walked × Tracer))) : Option (Option GErr × List (String × Nat)) :=
  match x with
  | some (.ok (_, some ts)) => some (none, ts.map fun p => (p.1, p.2.order))
  | some (.error (e, some ts)) => some (some e, ts.map fun p => (p.1, p.2.order))
  | _ => none

/-- an instance: the switch decides before `y` and `join` are handled -/
example : tracedIds (evalGraphTraced (tracedCfg "") true 5 0 (demoCtx false true) none 40 (demoGraph .first)) =
    some (none, [("in", 0), ("sw", 1), ("y", 2), ("join", 3)]) := by decide +kernel

/-- ... and its edge from the switch to `y` is one `C76_after_predecessors` speaks about -/
example : ∃ r ts, evalGraphTraced (tracedCfg "") true 5 0 (demoCtx false true) none 40 (demoGraph .first) = some (.ok (r, some ts)) ∧
    against r.walker.strace ⟨2, 1, 3, some "s2"⟩ = false ∧ 3 ∈ r.log.map Handled.node := by
  have h : (match evalGraphTraced (tracedCfg "") true 5 0 (demoCtx false true) none 40 (demoGraph .first) with
    | some (.ok (r, some _)) => (r.log.map Handled.node, against r.walker.strace ⟨2, 1, 3, some "s2"⟩)
    | _ => ([], true)) = ([0, 1, 3, 4], false) := by decide +kernel
  split at h
  · rename_i r ts heq
    injection h with h1 h2
    exact ⟨r, ts, heq, h2, by rw [h1]; decide⟩
  · injection h with h1 _; cases h1

/-- an instance of a failure: `y` is the last entry -/
example : tracedIds (evalGraphTraced (tracedCfg "y") true 5 0 (demoCtx false true) none 40 (demoGraph .first)) =
    some (some (.node "y" "failed"), [("in", 0), ("sw", 1), ("y", 2)]) := by decide +kernel

/-- an instance of several nodes with one id: only one of them is handled -/
example : ∃ g, buildGraph [⟨"a", "x", .foreign "x"⟩, ⟨"in", "in", .input none⟩, ⟨"a", "y", .foreign "y"⟩] [⟨"in", "a", none⟩] = .ok g ∧
    tracedIds (evalGraphTraced (tracedCfg "") true 5 0 (demoCtx false true) none 40 g) = some (none, [("in", 0), ("a", 1)]) :=
  ⟨_, rfl, by decide +kernel⟩

end Zen
