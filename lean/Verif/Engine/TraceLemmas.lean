import Verif.Engine.Trace
import Verif.Engine.GraphEval
import Verif.Core.MapLemmas
namespace Zen
open Graph Walker

/-! ## Nodes the walker can come to have different ids -/

/-- an edge of the document begins or ends at the node -/
def AtEdge (g : Graph) (n : Nat) : Prop := ∃ e ∈ g.edges, e.src = n ∨ e.tgt = n

/-- the nodes the walker can come to -/
def Near (g : Graph) (n : Nat) : Prop := IsInput g n ∨ ((∃ i, IsInput g i ∧ AtEdge g i) ∧ AtEdge g n)

theorem Near.along {g : Graph} {n m : Nat} (h : Near g n) (hn : AtEdge g n) (hm : AtEdge g m) : Near g m := by
  rcases h with h | ⟨h, _⟩
  · exact .inr ⟨⟨n, h, hn⟩, hm⟩
  · exact .inr ⟨h, hm⟩

theorem near_succs {g0 g : Graph} (hs : g.edges.Sublist g0.edges) {n : Nat} (h : Near g0 n) : ∀ m ∈ g.succs n, Near g0 m := by
  intro m hm
  obtain ⟨e, he, rfl⟩ := List.mem_map.1 hm
  obtain ⟨h1, h2⟩ := mem_outE.1 he
  exact h.along ⟨e, hs.subset h1, .inl h2⟩ ⟨e, hs.subset h1, .inr rfl⟩

theorem near_inputs {g0 g : Graph} (hs : g.nodes.Sublist g0.nodes) : ∀ m ∈ inputNodes g, Near g0 m := by
  intro m hm
  obtain ⟨x, hx, h1, h2⟩ := mem_inputNodes.1 hm
  exact .inl ⟨x, hs.subset hx, h1, h2⟩

/-- what a step of `next` adds to the stack and to the decisions -/
structure Added (g0 : Graph) (w w' : Walker) : Prop where
  stack : ∀ m ∈ w'.toVisit, Near g0 m
  decided : w'.strace = w.strace ∨ ∃ t, w'.strace = w.strace ++ [t] ∧ Near g0 t.node

theorem near_push {g0 : Graph} {w : Walker} {l : List Nat} (h : ∀ m ∈ w.toVisit, Near g0 m) (hl : ∀ m ∈ l, Near g0 m) :
    ∀ m ∈ (w.push l).toVisit, Near g0 m := by
  intro m hm
  rcases List.mem_append.1 hm with hm | hm
  · exact hl m (List.mem_reverse.1 hm)
  · exact h m hm

theorem step_again_added {C g0 g w g' w'} (hg : g.edges.Sublist g0.edges) (hg' : g'.nodes.Sublist g0.nodes)
    (hw : ∀ m ∈ w.toVisit, Near g0 m) (hs : step C g w = .again g' w') : Added g0 w w' := by
  unfold step at hs
  cases hv : w.toVisit with
  | nil => rw [hv] at hs; cases hs
  | cons n rest =>
    rw [hv] at hs hw
    have hn : Near g0 n := hw n (List.mem_cons_self ..)
    have hrest : ∀ m ∈ rest, Near g0 m := fun m hm => hw m (List.mem_cons_of_mem _ hm)
    dsimp only at hs
    split at hs
    · injection hs with h1 h2; subst h1; subst h2
      exact ⟨hrest, .inl rfl⟩
    · split at hs
      · injection hs with h1 h2; subst h1; subst h2
        refine ⟨near_push hw fun m hm => ?_, .inl rfl⟩
        obtain ⟨_, e, he, ht, rfl⟩ := mem_unresolved.1 hm
        exact hn.along ⟨e, hg.subset he, .inr ht⟩ ⟨e, hg.subset he, .inl rfl⟩
      · split at hs
        · cases hs
        · split at hs
          · split at hs
            · cases hs
            · split at hs
              · cases hs
              · injection hs with h1 h2; subst h1; subst h2
                exact ⟨near_push (by simp) (near_inputs hg'), .inr ⟨_, rfl, hn⟩⟩
          · cases hs

theorem step_visit_added {C g0 g w n g' w'} (hg' : g'.edges.Sublist g0.edges)
    (hw : ∀ m ∈ w.toVisit, Near g0 m) (hs : step C g w = .visit n g' w') : Near g0 n ∧ Added g0 w w' := by
  unfold step at hs
  cases hv : w.toVisit with
  | nil => rw [hv] at hs; cases hs
  | cons k rest =>
    rw [hv] at hs hw
    have hn : Near g0 k := hw k (List.mem_cons_self ..)
    have hrest : ∀ m ∈ rest, Near g0 m := fun m hm => hw m (List.mem_cons_of_mem _ hm)
    dsimp only at hs
    split at hs
    · cases hs
    · split at hs
      · cases hs
      · split at hs
        · cases hs
        · split at hs
          · split at hs
            · injection hs with h1 h2 h3; subst h1; subst h2; subst h3
              exact ⟨hn, near_push hrest (near_succs hg' hn), .inl rfl⟩
            · split at hs
              · injection hs with h1 h2 h3; subst h1; subst h2; subst h3
                exact ⟨hn, near_push hrest (near_succs hg' hn), .inr ⟨_, rfl, hn⟩⟩
              · cases hs
          · injection hs with h1 h2 h3; subst h1; subst h2; subst h3
            exact ⟨hn, near_push hrest (near_succs hg' hn), .inl rfl⟩

/-- what a call of `next` adds -/
structure AddedAll (g0 : Graph) (w w' : Walker) (r : Option Nat) : Prop where
  stack : ∀ m ∈ w'.toVisit, Near g0 m
  decided : ∃ ts, w'.strace = w.strace ++ ts ∧ ∀ t ∈ ts, Near g0 t.node
  node : ∀ n, r = some n → Near g0 n

theorem next_added {C g0} : ∀ (fuel : Nat) {g w r g' w'}, Inv g0 g w none → (∀ m ∈ w.toVisit, Near g0 m) →
    Walker.next C fuel g w = some (r, g', w') → AddedAll g0 w w' r := by
  intro fuel
  induction fuel with
  | zero => intro g w r g' w' _ _ h; cases h
  | succ fuel ih =>
    intro g w r g' w' hi hw h
    rw [Walker.next] at h
    cases hs : step C g w with
    | stop =>
      rw [hs] at h
      injection h with h
      injection h with h1 h; injection h with h2 h3
      subst h1; subst h2; subst h3
      exact ⟨hw, ⟨[], by simp, by simp⟩, fun n hn => by cases hn⟩
    | visit n g1 w1 =>
      rw [hs] at h
      injection h with h
      injection h with h1 h; injection h with h2 h3
      subst h1; subst h2; subst h3
      obtain ⟨h1, h2⟩ := step_visit_added (step_visit hi hs).1.shr.edges hw hs
      refine ⟨h2.stack, ?_, fun m hm => by injection hm with hm; exact hm ▸ h1⟩
      rcases h2.decided with h3 | ⟨t, h3, h4⟩
      · exact ⟨[], by simp [h3], by simp⟩
      · exact ⟨[t], h3, by simpa using h4⟩
    | again g1 w1 =>
      rw [hs] at h
      have hi1 := (step_again hi hs).1
      have h2 := step_again_added hi.shr.edges hi1.shr.nodes hw hs
      obtain ⟨p1, ⟨ts, p2, p3⟩, p4⟩ := ih hi1 h2.stack h
      refine ⟨p1, ?_, p4⟩
      rcases h2.decided with h3 | ⟨t, h3, h4⟩
      · exact ⟨ts, by rw [p2, h3], p3⟩
      · refine ⟨t :: ts, by rw [p2, h3]; simp, fun s hs => ?_⟩
        rcases List.mem_cons.1 hs with rfl | hs
        · exact h4
        · exact p3 s hs

theorem nextGuarded_added {C g0 fuel g w r g' w'} (hi : Inv g0 g w none) (hw : ∀ m ∈ w.toVisit, Near g0 m)
    (h : w.nextGuarded C fuel g = some (r, g', w')) : AddedAll g0 w w' r := by
  unfold nextGuarded at h
  split at h
  · injection h with h
    injection h with h1 h; injection h with h2 h3
    subst h1; subst h2; subst h3
    exact ⟨hw, ⟨[], by simp, by simp⟩, fun n hn => by cases hn⟩
  · exact next_added fuel hi hw h

theorem buildEdges_ends {nodes : List GNode} : ∀ (docs : List EdgeDoc) (i : Nat) {es : List GEdge},
    buildEdges nodes i docs = .ok es → ∀ e ∈ es, (∃ id, indexOf nodes id = some e.src) ∧ ∃ id, indexOf nodes id = some e.tgt := by
  intro docs
  induction docs with
  | nil => intro i es h; injection h with h; subst h; simp
  | cons d docs ih =>
    intro i es h
    rw [buildEdges] at h
    cases hs : indexOf nodes d.source with
    | none => rw [hs] at h; cases h
    | some s =>
      rw [hs] at h
      dsimp only at h
      cases ht : indexOf nodes d.target with
      | none => rw [ht] at h; cases h
      | some t =>
        rw [ht] at h
        dsimp only at h
        cases hr : buildEdges nodes (i + 1) docs with
        | error er => rw [hr] at h; cases h
        | ok es' =>
          rw [hr] at h
          injection h with h
          subst h
          intro e he
          rcases List.mem_cons.1 he with rfl | he
          · exact ⟨⟨_, hs⟩, ⟨_, ht⟩⟩
          · exact ih (i + 1) hr e he

theorem indexOf_node {nodes : List GNode} {id : String} {n : Nat} (h : indexOf nodes id = some n) :
    ∃ x, nodes[n]? = some x ∧ x.id = id := by
  unfold indexOf at h
  cases hf : nodes.zipIdx.reverse.find? (·.1.id = id) with
  | none => rw [hf] at h; cases h
  | some p =>
    rw [hf] at h
    injection h with h
    subst h
    have h1 := List.find?_some hf
    have h2 := List.mem_reverse.1 (List.mem_of_find?_eq_some hf)
    exact ⟨p.1, List.mem_zipIdx_iff_getElem?.1 h2, by simpa using h1⟩

theorem buildGraph_nodes {nodes : List GNode} {docs : List EdgeDoc} {g : Graph} (h : buildGraph nodes docs = .ok g) :
    g.nodes = nodes.zipIdx.map fun p => (p.2, p.1) := by
  unfold buildGraph at h
  cases hb : buildEdges nodes 0 docs with
  | error e => rw [hb] at h; cases h
  | ok es =>
    rw [hb] at h
    injection h with h
    subst h
    rfl

theorem built_node {nodes : List GNode} {docs : List EdgeDoc} {g : Graph} (h : buildGraph nodes docs = .ok g) {n : Nat} {x : GNode} :
    g.node? n = some x → nodes[n]? = some x := by
  intro hx
  have := node?_mem hx
  rw [buildGraph_nodes h] at this
  obtain ⟨p, hp, he⟩ := List.mem_map.1 this
  cases he
  exact List.mem_zipIdx_iff_getElem?.1 hp

theorem atEdge_index {nodes : List GNode} {docs : List EdgeDoc} {g : Graph} (h : buildGraph nodes docs = .ok g) {n : Nat} {x : GNode}
    (hn : AtEdge g n) (hx : g.node? n = some x) : indexOf nodes x.id = some n := by
  have hx' := built_node h hx
  obtain ⟨id, hid⟩ : ∃ id, indexOf nodes id = some n := by
    unfold buildGraph at h
    cases hb : buildEdges nodes 0 docs with
    | error e => rw [hb] at h; cases h
    | ok es =>
      rw [hb] at h
      injection h with h
      subst h
      obtain ⟨e, he, rfl | rfl⟩ := hn
      · exact (buildEdges_ends docs 0 hb e he).1
      · exact (buildEdges_ends docs 0 hb e he).2
  obtain ⟨y, hy, hyi⟩ := indexOf_node hid
  rw [hx'] at hy
  injection hy with hy
  rw [hy, hyi]; exact hid

theorem one_input {g : Graph} (hv : g.validate = .ok ()) {n m : Nat} (hn : IsInput g n) (hm : IsInput g m) : n = m := by
  have h1 := (validate_ok.1 hv).1
  obtain ⟨x, hx, rfl, hx2⟩ := hn
  obtain ⟨y, hy, rfl, hy2⟩ := hm
  obtain ⟨z, hz⟩ := List.length_eq_one_iff.1 h1
  have e1 : x ∈ g.nodes.filter (·.2.kind.isInput) := List.mem_filter.2 ⟨hx, hx2⟩
  have e2 : y ∈ g.nodes.filter (·.2.kind.isInput) := List.mem_filter.2 ⟨hy, hy2⟩
  rw [hz] at e1 e2
  rw [List.mem_singleton.1 e1, List.mem_singleton.1 e2]

/-- the walker comes to no two nodes of the same id -/
theorem near_ids {nodes : List GNode} {docs : List EdgeDoc} {g : Graph} (h : buildGraph nodes docs = .ok g)
    (hv : g.validate = .ok ()) {n m : Nat} {x y : GNode} (hn : Near g n) (hm : Near g m) (hx : g.node? n = some x)
    (hy : g.node? m = some y) (hid : x.id = y.id) : n = m := by
  have both : AtEdge g n → AtEdge g m → n = m := fun h1 h2 => by
    have := atEdge_index h h1 hx
    rw [hid, atEdge_index h h2 hy] at this
    injection this with this; exact this.symm
  rcases hn with hn | ⟨⟨i, hi, hie⟩, hn⟩
  · rcases hm with hm | ⟨⟨i, hi, hie⟩, hm⟩
    · exact one_input hv hn hm
    · exact both (one_input hv hi hn ▸ hie) hm
  · rcases hm with hm | ⟨_, hm⟩
    · exact both hn (one_input hv hi hm ▸ hie)
    · exact both hn hm

/-! ## What is traced -/

/-- what happens during an evaluation, as far as the tracer is concerned -/
inductive TEv where
  | handled (h : Handled) (data : Option Val)
  | decided (t : SwitchTrace)

namespace TEv
def node : TEv → Nat
  | handled h _ => h.node
  | decided t => t.node
def log? : TEv → Option Handled
  | handled h _ => some h
  | decided _ => none
def dec? : TEv → Option SwitchTrace
  | handled _ _ => none
  | decided t => some t
end TEv

def logOf (evs : List TEv) : List Handled := evs.filterMap TEv.log?
def decOf (evs : List TEv) : List SwitchTrace := evs.filterMap TEv.dec?

/-- what is recorded for it -/
def entryOf (g : Graph) : TEv → Option NTrace
  | .handled h d => match g.node? h.node with
    | some x => if x.kind.isSwitch then none else some
        { id := x.id, name := x.name
          input := if x.kind.isInput then .null else h.input
          output := if x.kind.isOutput then .null else h.output
          traceData := d, order := 0 }
    | none => none
  | .decided t => match g.node? t.node with
    | some x => some (switchTrace x t)
    | none => none

def numbered (l : List NTrace) : List (String × NTrace) := l.mapIdx fun i t => (t.id, { t with order := i })

theorem numbered_concat (l : List NTrace) (t : NTrace) :
    numbered (l ++ [t]) = numbered l ++ [(t.id, { t with order := l.length })] := by
  unfold numbered; rw [List.mapIdx_concat]

theorem numbered_keys (l : List NTrace) : aKeys (numbered l) = l.map NTrace.id := by
  apply List.ext_getElem <;> simp [numbered, aKeys]

theorem numbered_length (l : List NTrace) : (numbered l).length = l.length := by simp [numbered]

theorem traceInsert_numbered {l : List NTrace} {t : NTrace} (h : t.id ∉ l.map NTrace.id) :
    traceInsert (numbered l) t = numbered (l ++ [t]) := by
  unfold traceInsert aSet
  rw [(aGet_eq_none_iff _ _).2 (by rw [numbered_keys]; exact h), numbered_concat, numbered_length]

/-- the ids recorded are different -/
theorem entries_nodup {g : Graph}
    (hids : ∀ n m x y, Near g n → Near g m → g.node? n = some x → g.node? m = some y → x.id = y.id → n = m) :
    ∀ evs : List TEv, ((logOf evs).map Handled.node).Nodup → ((decOf evs).map SwitchTrace.node).Nodup →
      (∀ t ∈ decOf evs, ∀ x, g.node? t.node = some x → x.kind.isSwitch = true) → (∀ v ∈ evs, Near g v.node) →
      ((evs.filterMap (entryOf g)).map NTrace.id).Nodup := by
  have node_of : ∀ {v : TEv} {e}, entryOf g v = some e → ∃ x, g.node? v.node = some x ∧ e.id = x.id ∧
      ((∃ h d, v = .handled h d ∧ x.kind.isSwitch = false) ∨ ∃ t, v = .decided t) := by
    intro v e he
    cases v with
    | handled h d =>
      unfold entryOf at he
      dsimp only at he
      split at he
      · rename_i x hx
        split at he
        · cases he
        · rename_i hs
          injection he with he; subst he
          exact ⟨x, hx, rfl, .inl ⟨h, d, rfl, by simpa using hs⟩⟩
      · cases he
    | decided t =>
      unfold entryOf at he
      dsimp only at he
      split at he
      · rename_i x hx
        injection he with he; subst he
        exact ⟨x, hx, rfl, .inr ⟨t, rfl⟩⟩
      · cases he
  intro evs
  induction evs with
  | nil => intro _ _ _ _; exact .nil
  | cons v evs ih =>
    intro h1 h2 h3 h4
    have t1 : ((logOf evs).map Handled.node).Nodup := by
      refine List.Nodup.sublist ?_ h1
      exact ((List.sublist_cons_self v evs).filterMap _).map _
    have t2 : ((decOf evs).map SwitchTrace.node).Nodup := by
      refine List.Nodup.sublist ?_ h2
      exact ((List.sublist_cons_self v evs).filterMap _).map _
    have t3 : ∀ t ∈ decOf evs, ∀ x, g.node? t.node = some x → x.kind.isSwitch = true := fun t ht =>
      h3 t (((List.sublist_cons_self v evs).filterMap _).subset ht)
    have ih := ih t1 t2 t3 fun u hu => h4 u (List.mem_cons_of_mem _ hu)
    rw [List.filterMap_cons]
    cases he : entryOf g v with
    | none => exact ih
    | some e =>
      refine List.nodup_cons.2 ⟨fun hm => ?_, ih⟩
      obtain ⟨e', he', hid⟩ := List.mem_map.1 hm
      obtain ⟨u, hu, hue⟩ := List.mem_filterMap.1 he'
      obtain ⟨x, hx, hxi, hxk⟩ := node_of he
      obtain ⟨y, hy, hyi, hyk⟩ := node_of hue
      have hnode : v.node = u.node := hids _ _ x y (h4 v (List.mem_cons_self ..)) (h4 u (List.mem_cons_of_mem _ hu)) hx hy
        (by rw [← hxi, ← hyi, hid])
      rcases hxk with ⟨h, d, rfl, hs⟩ | ⟨t, rfl⟩ <;> rcases hyk with ⟨h', d', rfl, hs'⟩ | ⟨t', rfl⟩
      · have : h'.node ∈ (logOf evs).map Handled.node :=
          List.mem_map.2 ⟨h', List.mem_filterMap.2 ⟨_, hu, rfl⟩, rfl⟩
        exact (List.nodup_cons.1 h1).1 ((show h.node = h'.node from hnode) ▸ this)
      · have hm' : t' ∈ decOf (TEv.handled h d :: evs) := List.mem_filterMap.2 ⟨_, List.mem_cons_of_mem _ hu, rfl⟩
        have := h3 t' hm' x (by rw [show t'.node = h.node from hnode.symm]; exact hx)
        rw [hs] at this; cases this
      · have hm' : t ∈ decOf (TEv.decided t :: evs) := List.mem_filterMap.2 ⟨_, List.mem_cons_self .., rfl⟩
        have := h3 t hm' y (by rw [show t.node = h'.node from hnode]; exact hy)
        rw [hs'] at this; cases this
      · have : t'.node ∈ (decOf evs).map SwitchTrace.node :=
          List.mem_map.2 ⟨t', List.mem_filterMap.2 ⟨_, hu, rfl⟩, rfl⟩
        exact (List.nodup_cons.1 h2).1 ((show t.node = t'.node from hnode) ▸ this)

theorem callback_fold {g : Graph} : ∀ (ts : List SwitchTrace) (l : List NTrace),
    ((l ++ (ts.map TEv.decided).filterMap (entryOf g)).map NTrace.id).Nodup →
    ts.foldl (Tracer.callback g) (some (numbered l)) = some (numbered (l ++ (ts.map TEv.decided).filterMap (entryOf g)))
  | [], l, _ => by simp
  | t :: ts, l, h => by
    rw [List.foldl_cons, List.map_cons, List.filterMap_cons]
    rw [List.map_cons, List.filterMap_cons] at h
    cases hx : g.node? t.node with
    | none =>
      have he : entryOf g (.decided t) = none := by simp [entryOf, hx]
      have hc : Tracer.callback g (some (numbered l)) t = some (numbered l) := by simp [Tracer.callback, hx]
      rw [he] at h ⊢
      rw [hc]
      exact callback_fold ts l h
    | some x =>
      have he : entryOf g (.decided t) = some (switchTrace x t) := by simp [entryOf, hx]
      have hc : Tracer.callback g (some (numbered l)) t = some (traceInsert (numbered l) (switchTrace x t)) := by
        simp [Tracer.callback, hx]
      rw [he] at h ⊢
      rw [hc]
      dsimp only at h ⊢
      rw [show l ++ switchTrace x t :: (ts.map TEv.decided).filterMap (entryOf g) =
        (l ++ [switchTrace x t]) ++ (ts.map TEv.decided).filterMap (entryOf g) by simp] at h ⊢
      rw [traceInsert_numbered]
      · exact callback_fold ts _ h
      · rw [List.map_append, List.map_append] at h
        have := (List.nodup_append.1 h).1
        intro hm
        exact (List.nodup_append.1 this).2.2 _ hm _ (by simp) rfl

/-- the state of the tracer belongs to a course of events -/
structure TInv (T : TCfg) (g0 : Graph) (parent : Option Val) (tr : List SwitchTrace) (log : List Handled) (evs : List TEv)
    (ts : List (String × NTrace)) : Prop where
  ts : ts = numbered (evs.filterMap (entryOf g0))
  log : logOf evs = log
  dec : decOf evs = tr
  near : ∀ v ∈ evs, Near g0 v.node
  handled : ∀ pre h d post, evs = pre ++ .handled h d :: post → ∃ x, g0.node? h.node = some x ∧
    d = T.data x h.input (nodesAfter T.toGCfg g0 parent (logOf pre)) ∧
    (x.kind.isSwitch = true → h.node ∈ (decOf pre).map SwitchTrace.node)
  decided : ∀ pre t post, evs = pre ++ .decided t :: post → ∀ e ∈ g0.edges, e.tgt = t.node → against tr e = false →
    Live g0 tr e.src → e.src ∈ (logOf pre).map Handled.node

theorem logOf_append (a b : List TEv) : logOf (a ++ b) = logOf a ++ logOf b := List.filterMap_append ..
theorem decOf_append (a b : List TEv) : decOf (a ++ b) = decOf a ++ decOf b := List.filterMap_append ..
theorem logOf_decided : ∀ ts : List SwitchTrace, logOf (ts.map .decided) = []
  | [] => rfl
  | _ :: ts => logOf_decided ts
theorem decOf_decided : ∀ ts : List SwitchTrace, decOf (ts.map .decided) = ts
  | [] => rfl
  | t :: ts => congrArg (t :: ·) (decOf_decided ts)

/-- a part of a list split in two -/
theorem split_append {α : Type} {a b pre post : List α} {x : α} (h : a ++ b = pre ++ x :: post) :
    (∃ q, a = pre ++ x :: q) ∨ ∃ p, pre = a ++ p ∧ b = p ++ x :: post := by
  rcases List.append_eq_append_iff.1 h with ⟨c, h1, h2⟩ | ⟨c, h1, h2⟩
  · exact .inr ⟨c, h1, h2⟩
  · cases c with
    | nil => exact .inr ⟨[], by simpa using h1.symm, by simpa using h2.symm⟩
    | cons y c =>
      injection h2 with h2 h3
      subst h2
      exact .inl ⟨c, h1⟩

/-- the switches that decide while the walker looks for the next node -/
theorem TInv.decideAll {T : TCfg} {g0 : Graph} {parent : Option Val} {ctx : Val} {w w' : Walker} {log : List Handled} {evs : List TEv}
    {ts : List (String × NTrace)} {new : List SwitchTrace} {g' : Graph} {c : Option Nat}
    (hids : ∀ n m x y, Near g0 n → Near g0 m → g0.node? n = some x → g0.node? m = some y → x.id = y.id → n = m)
    (h : TInv T g0 parent w.strace log evs ts) (hnew : w'.strace = w.strace ++ new) (hnear : ∀ t ∈ new, Near g0 t.node)
    (hi : Inv g0 g' w' c) (hl : LogInv T.toGCfg g0 ctx parent w' log) :
    TInv T g0 parent w'.strace log (evs ++ new.map TEv.decided) ((numbered ((evs ++ new.map TEv.decided).filterMap (entryOf g0)))) ∧
    (w'.strace.drop w.strace.length).foldl (Tracer.callback g0) (some ts) =
      some (numbered ((evs ++ new.map TEv.decided).filterMap (entryOf g0))) := by
  have hdec : decOf (evs ++ new.map TEv.decided) = w'.strace := by rw [decOf_append, decOf_decided, h.dec, hnew]
  have hlog : logOf (evs ++ new.map TEv.decided) = log := by rw [logOf_append, logOf_decided, List.append_nil, h.log]
  have hnr : ∀ v ∈ evs ++ new.map TEv.decided, Near g0 v.node := by
    intro v hv
    rcases List.mem_append.1 hv with hv | hv
    · exact h.near v hv
    · obtain ⟨t, ht, rfl⟩ := List.mem_map.1 hv
      exact hnear t ht
  refine ⟨⟨rfl, hlog, hdec, hnr, ?_, ?_⟩, ?_⟩
  · intro pre x d post he
    rcases split_append he with ⟨q, hq⟩ | ⟨p, _, hp⟩
    · exact h.handled pre x d q hq
    · have : TEv.handled x d ∈ new.map TEv.decided := by rw [hp]; simp
      obtain ⟨t, _, ht⟩ := List.mem_map.1 this
      cases ht
  · intro pre t post he e hee hte ha hlv
    rcases split_append he with ⟨q, hq⟩ | ⟨p, hp, hpp⟩
    · rw [hnew] at ha hlv
      exact h.decided pre t q hq e hee hte (against_left ha) hlv.weaken
    · have hm : TEv.decided t ∈ new.map TEv.decided := by rw [hpp]; simp
      obtain ⟨t', ht', htt⟩ := List.mem_map.1 hm
      injection htt with htt; subst htt
      obtain ⟨pl, hpl, hok⟩ := hl.traces t' (by rw [hnew]; exact List.mem_append_right _ ht')
      have := hok.preds e hee hte ha hlv
      rw [hp, logOf_append, h.log, List.map_append]
      exact List.mem_append_left _ ((hpl.sublist.map _).subset this)
  · rw [hnew, List.drop_left, h.ts, callback_fold, List.filterMap_append]
    rw [← List.filterMap_append]
    refine entries_nodup hids _ (by rw [hlog]; exact hl.nodup) (by rw [hdec, ← hi.sw]; exact hi.swNodup) ?_ hnr
    intro t ht x hx
    rw [hdec] at ht
    have := hi.swIs t.node (by rw [hi.sw]; exact List.mem_map_of_mem ht)
    exact (isSwitch_kind hi.wf hx).1 this

/-- a node is handled, or fails -/
theorem TInv.one {T : TCfg} {g0 g : Graph} {parent : Option Val} {ctx : Val} {w : Walker} {log : List Handled} {evs : List TEv}
    {ts : List (String × NTrace)} {n : Nat} {input out : Val} {data : Option Val}
    (hids : ∀ n m x y, Near g0 n → Near g0 m → g0.node? n = some x → g0.node? m = some y → x.id = y.id → n = m)
    (h : TInv T g0 parent w.strace log evs ts) (hi : Inv g0 g w (some n)) (hl : LogInv T.toGCfg g0 ctx parent w log)
    (hn : n ∉ keys w) (hnear : Near g0 n) :
    (((evs ++ [TEv.handled ⟨n, input, out⟩ data]).filterMap (entryOf g0)).map NTrace.id).Nodup := by
  refine entries_nodup hids _ ?_ ?_ ?_ ?_
  · rw [logOf_append, h.log, List.map_append]
    refine List.nodup_append.2 ⟨hl.nodup, by simp [logOf, TEv.log?], fun a ha b hb hab => ?_⟩
    have : b = n := by simpa [logOf, TEv.log?] using hb
    rw [keys_log hl.data] at hn
    exact hn (this ▸ hab ▸ ha)
  · rw [decOf_append, h.dec]
    simp only [decOf, TEv.dec?, List.filterMap_cons, List.filterMap_nil, List.append_nil]
    rw [← hi.sw]; exact hi.swNodup
  · intro t ht y hy
    rw [decOf_append, h.dec] at ht
    simp only [decOf, TEv.dec?, List.filterMap_cons, List.filterMap_nil, List.append_nil] at ht
    have := hi.swIs t.node (by rw [hi.sw]; exact List.mem_map_of_mem ht)
    exact (isSwitch_kind hi.wf hy).1 this
  · intro v hv
    rcases List.mem_append.1 hv with hv | hv
    · exact h.near v hv
    · rw [List.mem_singleton.1 hv]; exact hnear

theorem record_eq {g0 : Graph} {evs : List TEv} {n : Nat} {x : GNode} {input hin out : Val} {res : Except String Val} {data : Option Val}
    (hx : g0.node? n = some x)
    (hnd : (((evs ++ [TEv.handled ⟨n, hin, out⟩ data]).filterMap (entryOf g0)).map NTrace.id).Nodup)
    (hin' : x.kind.isInput = false → hin = input)
    (hout : res = .ok out ∨ ∃ m, res = .error m ∧ out = .null) :
    Tracer.record (some (numbered (evs.filterMap (entryOf g0)))) x input res data =
      some (numbered ((evs ++ [TEv.handled ⟨n, hin, out⟩ data]).filterMap (entryOf g0))) := by
  rw [List.filterMap_append] at hnd ⊢
  unfold Tracer.record
  dsimp only
  by_cases hs : x.kind.isSwitch = true
  · rw [if_pos hs]
    have : entryOf g0 (.handled ⟨n, hin, out⟩ data) = none := by simp [entryOf, hx, hs]
    rw [List.filterMap_cons, this]
    simp
  · rw [if_neg hs]
    have he : entryOf g0 (.handled ⟨n, hin, out⟩ data) = some
        { id := x.id, name := x.name
          input := if x.kind.isInput then .null else hin
          output := if x.kind.isOutput then .null else out
          traceData := data, order := 0 } := by simp [entryOf, hx, hs]
    rw [List.filterMap_cons, he] at hnd ⊢
    dsimp only at hnd ⊢
    rw [List.filterMap_nil] at hnd ⊢
    have e1 : (if x.kind.isInput then Val.null else hin) = if x.kind.isInput then Val.null else input := by
      by_cases hk : x.kind.isInput = true
      · rw [if_pos hk, if_pos hk]
      · rw [if_neg hk, if_neg hk]; exact hin' (by simpa using hk)
    have e2 : tracedOutput x res = if x.kind.isOutput then Val.null else out := by
      rcases hout with rfl | ⟨m, rfl, rfl⟩
      · rfl
      · simp [tracedOutput]
    rw [e1] at hnd ⊢
    rw [e2, traceInsert_numbered]
    rw [List.map_append] at hnd
    intro hm
    exact (List.nodup_append.1 hnd).2.2 _ hm _ (by simp) rfl

theorem TInv.handle {T : TCfg} {g0 g : Graph} {parent : Option Val} {ctx : Val} {w : Walker} {log : List Handled} {evs : List TEv}
    {ts : List (String × NTrace)} {n : Nat} {x : GNode} {hin out : Val} {data : Option Val}
    (h : TInv T g0 parent w.strace log evs ts) (hi : Inv g0 g w (some n)) (hl : LogInv T.toGCfg g0 ctx parent w log)
    (hnear : Near g0 n) (hv : Visit g0 g w n) (hx : g0.node? n = some x)
    (hd : data = T.data x hin (w.nodesContext T.toGCfg)) :
    TInv T g0 parent w.strace (log ++ [⟨n, hin, out⟩]) (evs ++ [.handled ⟨n, hin, out⟩ data])
      (numbered ((evs ++ [TEv.handled ⟨n, hin, out⟩ data]).filterMap (entryOf g0))) := by
  refine ⟨rfl, ?_, ?_, ?_, ?_, ?_⟩
  · rw [logOf_append, h.log]; rfl
  · rw [decOf_append, h.dec]; simp [decOf, TEv.dec?]
  · intro v hv
    rcases List.mem_append.1 hv with hv | hv
    · exact h.near v hv
    · rw [List.mem_singleton.1 hv]; exact hnear
  · intro pre y d post he
    rcases split_append he with ⟨q, hq⟩ | ⟨p, hp, hpp⟩
    · exact h.handled pre y d q hq
    · cases p with
      | cons a p => simp at hpp
      | nil =>
        injection hpp with h1 h2
        injection h1 with h1 h3
        subst h1; subst h3
        refine ⟨x, hx, ?_, fun hs => ?_⟩
        · rw [hp, List.append_nil, h.log, hd]
          exact congrArg _ (nodesContext_data hl.data)
        · rw [hp, List.append_nil, h.dec, ← hi.sw]
          exact hv.switch ((isSwitch_kind hi.wf hx).2 hs)
  · intro pre t post he
    rcases split_append he with ⟨q, hq⟩ | ⟨p, hp, hpp⟩
    · exact h.decided pre t q hq
    · cases p with
      | cons a p => simp at hpp
      | nil => injection hpp with h1 h2; cases h1

/-- what is known at the end of a traced evaluation -/
def TracedEnd (T : TCfg) (g0 : Graph) (ctx : Val) (parent : Option Val) : Except (GErr × Tracer) (Walked × Tracer) → Prop
  | .ok (r, tr) => ∃ ts evs, tr = some ts ∧ TInv T g0 parent r.walker.strace r.log evs ts ∧
      ((evs.filterMap (entryOf g0)).map NTrace.id).Nodup
  | .error (e, tr) => ∃ ts evs w log n x input nodes m, tr = some ts ∧ e = .node x.id m ∧ g0.node? n = some x ∧
      nodeResult T.toGCfg ctx x input nodes = .error m ∧ LogInv T.toGCfg g0 ctx parent w log ∧
      (∃ ts', TInv T g0 parent w.strace log evs ts') ∧
      ts = numbered ((evs ++ [TEv.handled ⟨n, if x.kind.isInput then ctx else input, .null⟩
        (T.data x (if x.kind.isInput then ctx else input) nodes)]).filterMap (entryOf g0)) ∧
      (((evs ++ [TEv.handled ⟨n, if x.kind.isInput then ctx else input, .null⟩
        (T.data x (if x.kind.isInput then ctx else input) nodes)]).filterMap (entryOf g0)).map NTrace.id).Nodup

theorem TInv.nodup {T : TCfg} {g0 g : Graph} {parent : Option Val} {ctx : Val} {w : Walker} {log : List Handled} {evs : List TEv}
    {ts : List (String × NTrace)} {c : Option Nat}
    (hids : ∀ n m x y, Near g0 n → Near g0 m → g0.node? n = some x → g0.node? m = some y → x.id = y.id → n = m)
    (h : TInv T g0 parent w.strace log evs ts) (hi : Inv g0 g w c) (hl : LogInv T.toGCfg g0 ctx parent w log) :
    ((evs.filterMap (entryOf g0)).map NTrace.id).Nodup := by
  refine entries_nodup hids _ (by rw [h.log]; exact hl.nodup) (by rw [h.dec, ← hi.sw]; exact hi.swNodup) ?_ h.near
  intro t ht x hx
  rw [h.dec] at ht
  have := hi.swIs t.node (by rw [hi.sw]; exact List.mem_map_of_mem ht)
  exact (isSwitch_kind hi.wf hx).1 this

theorem evalTraced_end {T g0 ctx parent}
    (hids : ∀ n m x y, Near g0 n → Near g0 m → g0.node? n = some x → g0.node? m = some y → x.id = y.id → n = m) :
    ∀ (fuel : Nat) {g w log ts evs out}, Inv g0 g w none → LogInv T.toGCfg g0 ctx parent w log →
      (∀ m ∈ w.toVisit, Near g0 m) → TInv T g0 parent w.strace log evs ts →
      evalTraced T g0 ctx parent fuel g w log (some ts) = some out → TracedEnd T g0 ctx parent out := by
  intro fuel
  induction fuel with
  | zero => intro g w log ts evs out _ _ _ _ h; cases h
  | succ fuel ih =>
    intro g w log ts evs out hi hl hw ht h
    rw [evalTraced] at h
    cases hn : w.nextGuarded T.toGCfg fuel g with
    | none => rw [hn] at h; cases h
    | some x =>
      rw [hn] at h
      obtain ⟨r1, g1, w1⟩ := x
      have hpost := nextGuarded_post hi hl hn
      obtain ⟨a1, ⟨new, a2, a3⟩, a4⟩ := nextGuarded_added hi hw hn
      cases r1 with
      | none =>
        dsimp only at h
        injection h with h; subst h
        rcases hpost with ⟨p1, p2, p3⟩ | ⟨_, rfl, rfl, _⟩
        · obtain ⟨t1, t2⟩ := ht.decideAll hids a2 a3 p1 p2
          exact ⟨_, _, t2, t1, t1.nodup hids p1 p2⟩
        · obtain ⟨t1, t2⟩ := ht.decideAll hids a2 a3 hi hl
          exact ⟨_, _, t2, t1, t1.nodup hids hi hl⟩
      | some n =>
        rcases hpost with ⟨p1, p2, p3, p4⟩ | ⟨h', _⟩
        · obtain ⟨t1, t2⟩ := ht.decideAll hids a2 a3 p1 p2
          dsimp only at h
          rw [t2] at h
          split at h
          · rename_i hs
            exact ih (p1.skip (dataOf_isSome.1 hs)) p2 a1 t1 h
          · rename_i hs
            have hk : n ∉ keys w1 := fun hh => hs (dataOf_isSome.2 hh)
            have hnn := a4 n rfl
            cases hx : g1.node? n with
            | none =>
              obtain ⟨x, hx'⟩ := node?_of_alive p3.alive
              rw [hx] at hx'; cases hx'
            | some x =>
              have hx0 := p1.node0 hx
              rw [hx] at h
              dsimp only at h
              cases hres : nodeResult T.toGCfg ctx x (w1.incoming g1 n) (w1.nodesContext T.toGCfg) with
              | error m =>
                rw [hres] at h
                dsimp only at h
                injection h with h; subst h
                have nd := t1.one (input := if x.kind.isInput then ctx else w1.incoming g1 n) (out := .null)
                  (data := T.data x (if x.kind.isInput then ctx else w1.incoming g1 n) (w1.nodesContext T.toGCfg))
                  hids p1 p2 hk hnn
                refine ⟨_, evs ++ new.map TEv.decided, w1, log, n, x, _, _, m, ?_, rfl, hx0, hres, p2, ⟨_, t1⟩, rfl, nd⟩
                exact record_eq hx0 nd (fun hf => by rw [hf]; rfl) (.inr ⟨m, rfl, rfl⟩)
              | ok out' =>
                rw [hres] at h
                dsimp only at h
                have nd := t1.one (input := if x.kind.isInput then ctx else w1.incoming g1 n) (out := out')
                  (data := T.data x (if x.kind.isInput then ctx else w1.incoming g1 n) (w1.nodesContext T.toGCfg))
                  hids p1 p2 hk hnn
                rw [record_eq (hin := if x.kind.isInput then ctx else w1.incoming g1 n) (out := out') hx0 nd (fun hf => by rw [hf]; rfl) (.inl rfl)] at h
                have i2 := p1.handled (parent := parent) (out := out') p3 hx0
                have l2 := p2.handled p1 p3 hk hx0 hres
                have t3 := t1.handle (hin := if x.kind.isInput then ctx else w1.incoming g1 n) (out := out') p1 p2 hnn p3 hx0 rfl
                split at h
                · injection h with h; subst h
                  exact ⟨_, _, rfl, t3, nd⟩
                · exact ih i2 l2 a1 t3 h
        · cases h'

/-- tracing changes nothing -/
theorem evalTraced_erase {T : TCfg} {g0 ctx parent} : ∀ (fuel : Nat) (g w log tr),
    (evalTraced T g0 ctx parent fuel g w log tr).map (fun r => (r.map Prod.fst).mapError Prod.fst) =
      evalLoop T.toGCfg ctx parent fuel g w log := by
  intro fuel
  induction fuel with
  | zero => intro g w log tr; rfl
  | succ fuel ih =>
    intro g w log tr
    rw [evalTraced, evalLoop]
    cases hn : w.nextGuarded T.toGCfg fuel g with
    | none => rfl
    | some x =>
      obtain ⟨r1, g1, w1⟩ := x
      cases r1 with
      | none => rfl
      | some n =>
        dsimp only
        split
        · exact ih ..
        · cases hx : g1.node? n with
          | none => rfl
          | some x =>
            dsimp only
            cases hres : nodeResult T.toGCfg ctx x (w1.incoming g1 n) (w1.nodesContext T.toGCfg) with
            | error m => rfl
            | ok out =>
              dsimp only
              split
              · rfl
              · exact ih ..

end Zen
