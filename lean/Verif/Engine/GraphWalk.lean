import Verif.Engine.GraphLemmas
import Verif.Engine.GraphSpec
/-
Invariants of the walker and of the evaluation loop.
-/
namespace Zen
open Graph Walker

/-! ## Cycles -/

theorem peel_rank : ∀ (k : Nat) (es : List GEdge), peel k es = [] →
    ∃ rank : Nat → Nat, ∀ e ∈ es, rank e.src < rank e.tgt := by
  intro k
  induction k with
  | zero => intro es h; rw [peel] at h; subst h; exact ⟨fun _ => 0, by simp⟩
  | succ k ih =>
    intro es h
    rw [peel] at h
    obtain ⟨r, hr⟩ := ih _ h
    refine ⟨fun n => if es.any (·.tgt = n) then r n + 1 else 0, fun e he => ?_⟩
    have ht : es.any (·.tgt = e.tgt) = true := List.any_eq_true.2 ⟨e, he, by simp⟩
    simp only [ht, if_true]
    split
    · rename_i hs
      have := hr e (List.mem_filter.2 ⟨he, hs⟩)
      omega
    · omega

theorem rank_path {es : List GEdge} {rank : Nat → Nat} (h : ∀ e ∈ es, rank e.src < rank e.tgt)
    {a b : Nat} (hp : Path es a b) : rank a < rank b := by
  induction hp with
  | one he => exact h _ he
  | snoc _ he ih => exact Nat.lt_trans ih (h _ he)

theorem Path.mono {es es' : List GEdge} (h : ∀ e ∈ es, e ∈ es') {a b : Nat} (hp : Path es a b) : Path es' a b := by
  induction hp with
  | one he => exact .one (h _ he)
  | snoc _ he ih => exact .snoc ih (h _ he)

theorem Path.cons {es : List GEdge} {e : GEdge} (he : e ∈ es) {b : Nat} (hp : Path es e.tgt b) :
    Path es e.src b := by
  generalize ha : e.tgt = a at hp
  induction hp with
  | one h =>
    rename_i f
    have := Path.snoc (a := e.src) (e := f) (ha ▸ Path.one he) h
    exact this
  | snoc _ h ih => exact .snoc (ih ha) h

/-- a chain of edges walked backwards that never gets stuck closes a cycle -/
theorem backwards_cycle {es : List GEdge} (hstuck : ∀ e ∈ es, ∃ f ∈ es, f.tgt = e.src) :
    ∀ (k : Nat) (seen : List Nat) (e : GEdge), e ∈ es → seen.Nodup →
      (∀ m ∈ seen, Path es e.src m) → (∀ m ∈ seen, m ∈ es.map (·.tgt)) →
      (es.map (·.tgt)).length < seen.length + k → ∃ n, Path es n n := by
  intro k
  induction k with
  | zero =>
    intro seen e _ hn _ hm hl
    have := List.Nodup.length_le_of_subset hn (l₂ := es.map (·.tgt)) fun x hx => hm x hx
    omega
  | succ k ih =>
    intro seen e he hn hp hm hl
    obtain ⟨f, hf, hfe⟩ := hstuck e he
    by_cases hin : e.src ∈ seen
    · exact ⟨_, hp _ hin⟩
    · refine ih (e.src :: seen) f hf (List.nodup_cons.2 ⟨hin, hn⟩) ?_ ?_ (by simp only [List.length_cons]; omega)
      · intro m hms
        rcases List.mem_cons.1 hms with rfl | hms
        · rw [← hfe]; exact .one hf
        · exact Path.cons hf (hfe ▸ hp m hms)
      · intro m hms
        rcases List.mem_cons.1 hms with rfl | hms
        · exact List.mem_map.2 ⟨f, hf, hfe⟩
        · exact hm m hms

theorem peel_nil_of_acyclic : ∀ (k : Nat) (es : List GEdge), es.length ≤ k →
    (¬ ∃ n, Path es n n) → peel k es = [] := by
  intro k
  induction k with
  | zero => intro es h _; rw [peel]; exact List.length_eq_zero_iff.1 (Nat.le_zero.1 h)
  | succ k ih =>
    intro es h hc
    rw [peel]
    refine ih _ ?_ fun ⟨n, hn⟩ => hc ⟨n, hn.mono fun e he => (List.mem_filter.1 he).1⟩
    rcases Nat.lt_or_ge (es.filter fun e => es.any (·.tgt = e.src)).length es.length with h1 | h1
    · omega
    · cases es with
      | nil => simp
      | cons a es =>
        exfalso
        apply hc
        have heq := List.filter_sublist.eq_of_length (Nat.le_antisymm (List.length_filter_le ..) h1)
        refine backwards_cycle (fun e he => ?_) (((a :: es).map (·.tgt)).length + 1) [] a
          (List.mem_cons_self ..) .nil (by simp) (by simp) (by simp)
        rw [← heq] at he
        have := (List.mem_filter.1 he).2
        simp only [List.any_eq_true, decide_eq_true_eq] at this
        exact this

theorem isCyclic_iff (g : Graph) : g.isCyclic = true ↔ HasCycle g := by
  unfold isCyclic HasCycle
  constructor
  · intro h
    by_cases hc : ∃ n, Path g.edges n n
    · exact hc
    · rw [peel_nil_of_acyclic _ _ (Nat.le_refl _) hc] at h; simp at h
  · rintro ⟨n, hn⟩
    cases hp : peel g.edges.length g.edges with
    | cons => simp
    | nil =>
      obtain ⟨r, hr⟩ := peel_rank _ _ hp
      exact absurd (rank_path hr hn) (Nat.lt_irrefl _)

/-! ## Edges decided against, live nodes -/

/-- as `Follows` from the nodes without incoming edges, within a set of nodes -/
inductive LiveIn (g : Graph) (tr : List SwitchTrace) (D : Nat → Prop) : Nat → Prop
  | source {n : Nat} : IsSource g n → D n → LiveIn g tr D n
  | edge {e : GEdge} : e ∈ g.edges → against tr e = false → LiveIn g tr D e.src → D e.tgt →
      LiveIn g tr D e.tgt

abbrev Live (g : Graph) (tr : List SwitchTrace) (n : Nat) : Prop := Follows g tr (IsSource g) n

theorem LiveIn.live {g tr D n} (h : LiveIn g tr D n) : Live g tr n := by
  induction h with
  | source h _ => exact .start h
  | edge he ha _ _ ih => exact .edge he ha ih

theorem LiveIn.mono {g tr D D' n} (hd : ∀ n, D n → D' n) (h : LiveIn g tr D n) : LiveIn g tr D' n := by
  induction h with
  | source h hn => exact .source h (hd _ hn)
  | edge he ha _ hn ih => exact .edge he ha ih (hd _ hn)

theorem LiveIn.mem {g tr D n} (h : LiveIn g tr D n) : D n := by
  cases h with
  | source _ h => exact h
  | edge _ _ _ h => exact h

theorem against_append {tr tr' : List SwitchTrace} {e : GEdge} :
    against (tr ++ tr') e = (against tr e || against tr' e) := List.any_append

theorem against_left {tr tr' : List SwitchTrace} {e : GEdge} (h : against (tr ++ tr') e = false) :
    against tr e = false := by
  rw [against_append, Bool.or_eq_false_iff] at h; exact h.1

theorem against_one {t : SwitchTrace} {e : GEdge} :
    against [t] e = (decide (t.node = e.src) && edgeInvalid t.valid e) := by
  unfold against edgeInvalid
  simp only [List.any_cons, List.any_nil, Bool.or_false]
  congr 1
  cases h : e.handle with
  | none => simp
  | some s => rw [Bool.eq_iff_iff]; simp

theorem against_other {t : SwitchTrace} {e : GEdge} (h : t.node ≠ e.src) : against [t] e = false := by
  rw [against_one]; simp [h]

theorem Follows.weaken {g : Graph} {tr tr' : List SwitchTrace} {st : Nat → Prop} {n : Nat}
    (h : Follows g (tr ++ tr') st n) : Follows g tr st n := by
  induction h with
  | start h => exact .start h
  | edge he ha _ ih => exact .edge he (against_left ha) ih

theorem LiveIn.extend {g : Graph} {tr : List SwitchTrace} {D : Nat → Prop} {t : SwitchTrace} {n : Nat}
    (ht : ¬ D t.node) (h : LiveIn g tr D n) : LiveIn g (tr ++ [t]) D n := by
  induction h with
  | source h hn => exact .source h hn
  | edge he ha h hn ih =>
    refine .edge he ?_ ih hn
    rw [against_append, ha, Bool.false_or]
    exact against_other fun hs => ht (hs ▸ h.mem)

/-! ## Nodes -/

theorem node?_mem {g : Graph} {n : Nat} {x : GNode} (h : g.node? n = some x) : (n, x) ∈ g.nodes := by
  unfold Graph.node? at h
  cases hf : g.nodes.find? (·.1 = n) with
  | none => rw [hf] at h; simp at h
  | some p =>
    rw [hf] at h
    have h1 := List.mem_of_find?_eq_some hf
    have h2 := List.find?_some hf
    simp only [decide_eq_true_eq] at h2
    simp only [Option.map_some, Option.some.injEq] at h
    rw [← h2, ← h]; exact h1

theorem node?_of_alive {g : Graph} {n : Nat} (h : g.Alive n) : ∃ x, g.node? n = some x := by
  unfold Graph.Alive at h
  obtain ⟨p, hp, hn⟩ := List.mem_map.1 h
  unfold Graph.node?
  cases hf : g.nodes.find? (·.1 = n) with
  | none => rw [List.find?_eq_none] at hf; exact absurd (by simpa using hn) (hf p hp)
  | some q => exact ⟨q.2, rfl⟩

theorem Graph.Wf.node_unique {g : Graph} (h : g.Wf) {n : Nat} {x y : GNode} (hx : (n, x) ∈ g.nodes)
    (hy : (n, y) ∈ g.nodes) : x = y := by
  have := h.nodes
  rw [List.nodup_iff_pairwise_ne] at this
  rcases List.mem_iff_getElem.1 hx with ⟨i, hi, hxi⟩
  rcases List.mem_iff_getElem.1 hy with ⟨j, hj, hyj⟩
  rw [List.pairwise_map, List.pairwise_iff_getElem] at this
  rcases Nat.lt_trichotomy i j with h1 | h1 | h1
  · exact absurd (by rw [hxi, hyj]) (this i j hi hj h1)
  · subst h1; rw [hxi] at hyj; exact (Prod.mk.inj hyj).2
  · exact absurd (by rw [hxi, hyj]) (this j i hj hi h1)

theorem mem_inputNodes {g : Graph} {n : Nat} : n ∈ inputNodes g ↔ IsInput g n := by
  unfold inputNodes IsInput
  simp only [List.mem_map, List.mem_filter]
  constructor
  · rintro ⟨x, ⟨h1, h2⟩, h3⟩; exact ⟨x, h1, h3, h2⟩
  · rintro ⟨x, h1, h2, h3⟩; exact ⟨x, ⟨h1, h3⟩, h2⟩

theorem IsInput.shrink {g0 g : Graph} (hw : g0.Wf) (h : Shrinks g0 g) {n : Nat} (hi : IsInput g0 n)
    (ha : g.Alive n) : IsInput g n := by
  obtain ⟨⟨m, x⟩, hx, rfl, hk⟩ := hi
  obtain ⟨⟨m', y⟩, hy, rfl⟩ := List.mem_map.1 ha
  have := hw.node_unique hx (h.nodes.subset hy)
  exact ⟨_, hy, rfl, this ▸ hk⟩

theorem IsInput.alive {g : Graph} {n : Nat} (h : IsInput g n) : g.Alive n := by
  obtain ⟨x, hx, rfl, _⟩ := h
  exact List.mem_map.2 ⟨x, hx, rfl⟩

/-- the nodes that have data -/
def keys (w : Walker) : List Nat := w.data.map Prod.fst

theorem dataOf_isSome {w : Walker} {n : Nat} : (w.dataOf n).isSome = true ↔ n ∈ keys w := by
  unfold Walker.dataOf keys
  rw [Option.isSome_map, List.find?_isSome]
  simp only [decide_eq_true_eq, List.mem_map]

/-- a switch of the document -/
def IsSwitch (g : Graph) (n : Nat) : Prop := ∃ x ∈ g.nodes, x.1 = n ∧ x.2.kind.isSwitch = true

/-! ## The invariant -/

/-- `cur`: a node just returned by `next` that has not been handled yet -/
structure Inv (g0 g : Graph) (w : Walker) (cur : Option Nat) : Prop where
  wf : g0.Wf
  shr : Shrinks g0 g
  ordNodup : w.ordered.Nodup
  ordPred : ∀ e ∈ g.edges, e.tgt ∈ w.ordered → e.src ∈ w.ordered
  ordAlive : ∀ n ∈ w.ordered, g.Alive n
  visAlive : ∀ n ∈ w.toVisit, g.Alive n
  succ : ∀ e ∈ g.edges, e.src ∈ w.ordered → e.tgt ∈ w.ordered ∨ e.tgt ∈ w.toVisit
  inp : ∀ n, g.Alive n → IsInput g0 n → n ∈ w.ordered ∨ n ∈ w.toVisit
  dataPred : ∀ e ∈ g.edges, e.tgt ∈ keys w → e.src ∈ keys w
  ordData : ∀ n ∈ w.ordered, n ∈ keys w ∨ cur = some n
  sw : w.switches = w.strace.map SwitchTrace.node
  swNodup : w.switches.Nodup
  swIs : ∀ n ∈ w.switches, IsSwitch g0 n
  swData : ∀ n ∈ keys w, IsSwitch g0 n → n ∈ w.switches
  iterLe : w.iter ≤ w.switches.length
  dirGone : ∀ e ∈ g.edges, against w.strace e = false
  dataLive : ∀ n ∈ keys w, LiveIn g0 w.strace (· ∈ keys w) n
  lost : ∀ e ∈ g0.edges, e ∉ g.edges → against w.strace e = false → Live g0 w.strace e.src →
    (e.tgt ∈ keys w ∨ e.tgt ∈ w.switches) ∧ ¬ g.Alive e.tgt
  dead : ∀ n, g0.Alive n → ¬ g.Alive n → Live g0 w.strace n → (n ∈ keys w ∨ n ∈ w.switches) ∧ g0.HasOut n

theorem Inv.gwf {g0 g w c} (h : Inv g0 g w c) : g.Wf := h.shr.wf h.wf

theorem Inv.new {g : Graph} (hw : g.Wf) : Inv g g (Walker.new g) none where
  wf := hw
  shr := .refl g
  ordNodup := .nil
  ordPred _ _ h := by simp [Walker.new, push] at h
  ordAlive _ h := by simp [Walker.new, push] at h
  visAlive n h := by
    simp only [Walker.new, push, List.append_nil, List.mem_reverse] at h
    exact (mem_inputNodes.1 h).alive
  succ _ _ h := by simp [Walker.new, push] at h
  inp n _ hi := .inr (by
    simp only [Walker.new, push, List.append_nil, List.mem_reverse]; exact mem_inputNodes.2 hi)
  dataPred _ _ h := by simp [keys, Walker.new, push] at h
  ordData _ h := by simp [Walker.new, push] at h
  sw := rfl
  swNodup := .nil
  swIs _ h := by simp [Walker.new, push] at h
  swData _ h := by simp [keys, Walker.new, push] at h
  iterLe := Nat.zero_le _
  dirGone _ _ := rfl
  dataLive _ h := by simp [keys, Walker.new, push] at h
  lost e h h' := absurd h h'
  dead n h h' := absurd h h'

/-- popping a node already ordered -/
theorem Inv.pop {g0 g w n rest} (h : Inv g0 g w none) (hv : w.toVisit = n :: rest) (ho : n ∈ w.ordered) :
    Inv g0 g { w with toVisit := rest } none :=
  { h with
    visAlive := fun m hm => h.visAlive m (hv ▸ List.mem_cons_of_mem _ hm)
    succ := fun e he hs => (h.succ e he hs).elim .inl fun hm => by
      rw [hv] at hm
      rcases List.mem_cons.1 hm with hm | hm
      · exact .inl (hm ▸ ho)
      · exact .inr hm
    inp := fun m ha hi => (h.inp m ha hi).elim .inl fun hm => by
      rw [hv] at hm
      rcases List.mem_cons.1 hm with hm | hm
      · exact .inl (hm ▸ ho)
      · exact .inr hm }

theorem mem_unresolved {w : Walker} {g : Graph} {n m : Nat} :
    m ∈ w.unresolved g n ↔ m ∉ w.ordered ∧ ∃ e ∈ g.edges, e.tgt = n ∧ e.src = m := by
  unfold unresolved Graph.preds
  simp only [List.mem_filter, List.mem_map, mem_inE, decide_eq_true_eq]
  constructor
  · rintro ⟨⟨e, ⟨h1, h2⟩, h3⟩, h4⟩; exact ⟨h4, e, h1, h2, h3⟩
  · rintro ⟨h4, e, h1, h2, h3⟩; exact ⟨⟨e, ⟨h1, h2⟩, h3⟩, h4⟩

/-- pushing nodes that are there -/
theorem Inv.pushed {g0 g w c} (h : Inv g0 g w c) (l : List Nat) (hl : ∀ m ∈ l, g.Alive m) :
    Inv g0 g (w.push l) c :=
  { h with
    visAlive := fun m hm => by
      rcases List.mem_append.1 hm with hm | hm
      · exact hl m (List.mem_reverse.1 hm)
      · exact h.visAlive m hm
    succ := fun e he hs => (h.succ e he hs).imp id fun hm => List.mem_append_right _ hm
    inp := fun m ha hi => (h.inp m ha hi).imp id fun hm => List.mem_append_right _ hm }

/-- ordering a node whose dependencies are resolved, and pushing its successors -/
theorem Inv.visited {g0 g w n rest} (h : Inv g0 g w none) (hv : w.toVisit = n :: rest)
    (ho : n ∉ w.ordered) (hp : ∀ e ∈ g.edges, e.tgt = n → e.src ∈ w.ordered) :
    Inv g0 g (({ w with toVisit := rest, ordered := n :: w.ordered } : Walker).push (g.succs n)) (some n) :=
  { h with
    ordNodup := List.nodup_cons.2 ⟨ho, h.ordNodup⟩
    ordPred := fun e he ht => by
      rcases List.mem_cons.1 ht with ht | ht
      · exact List.mem_cons_of_mem _ (hp e he ht)
      · exact List.mem_cons_of_mem _ (h.ordPred e he ht)
    ordAlive := fun m hm => by
      rcases List.mem_cons.1 hm with rfl | hm
      · exact h.visAlive m (hv ▸ List.mem_cons_self ..)
      · exact h.ordAlive m hm
    visAlive := fun m hm => by
      rcases List.mem_append.1 hm with hm | hm
      · obtain ⟨e, he, rfl⟩ := List.mem_map.1 (List.mem_reverse.1 hm)
        exact (h.gwf.ends e (mem_outE.1 he).1).2
      · exact h.visAlive m (hv ▸ List.mem_cons_of_mem _ hm)
    succ := fun e he hs => by
      rcases List.mem_cons.1 hs with hs | hs
      · exact .inr (List.mem_append_left _ (List.mem_reverse.2 (List.mem_map.2 ⟨e, mem_outE.2 ⟨he, hs⟩, rfl⟩)))
      · rcases h.succ e he hs with hm | hm
        · exact .inl (List.mem_cons_of_mem _ hm)
        · rw [hv] at hm
          rcases List.mem_cons.1 hm with hm | hm
          · exact .inl (hm ▸ List.mem_cons_self ..)
          · exact .inr (List.mem_append_right _ hm)
    inp := fun m ha hi => by
      rcases h.inp m ha hi with hm | hm
      · exact .inl (List.mem_cons_of_mem _ hm)
      · rw [hv] at hm
        rcases List.mem_cons.1 hm with hm | hm
        · exact .inl (hm ▸ List.mem_cons_self ..)
        · exact .inr (List.mem_append_right _ hm)
    ordData := fun m hm => by
      rcases List.mem_cons.1 hm with rfl | hm
      · exact .inr rfl
      · exact .inl ((h.ordData m hm).resolve_right (by simp)) }

/-! ## A switch decides -/

/-- what the cascade may remove -/
inductive Dropped (g : Graph) (tr : List SwitchTrace) : GEdge → Prop
  | direct {e : GEdge} : e ∈ g.edges → against tr e = true → Dropped g tr e
  | fwd {e : GEdge} : e ∈ g.edges → g.HasIn e.src → (∀ f ∈ g.edges, f.tgt = e.src → Dropped g tr f) → Dropped g tr e
  | bwd {e : GEdge} : e ∈ g.edges → g.HasOut e.tgt → (∀ f ∈ g.edges, f.src = e.tgt → Dropped g tr f) → Dropped g tr e

theorem dropped_closed (g : Graph) (tr : List SwitchTrace) : DropClosed g (Dropped g tr) where
  fwd _ hi hall _ he hs := .fwd he (hs ▸ hi) fun f hf ht => hall f hf (ht.trans hs)
  bwd _ ho hall _ he ht := .bwd he (ht ▸ ho) fun f hf hs => hall f hf (hs.trans ht)

/-- edges removed going backwards: everything behind them was decided against -/
inductive Back (g : Graph) (tr : List SwitchTrace) : GEdge → Prop
  | direct {e : GEdge} : e ∈ g.edges → against tr e = true → Back g tr e
  | step {e : GEdge} : e ∈ g.edges → g.HasOut e.tgt → (∀ f ∈ g.edges, f.src = e.tgt → Back g tr f) → Back g tr e

/-- The edges of live nodes are only ever removed going backwards. -/
theorem back_of_dropped {g0 g : Graph} {tr tr' : List SwitchTrace} {t : SwitchTrace} (htr : tr' = tr ++ [t])
    (hsub : ∀ e ∈ g.edges, e ∈ g0.edges) (hends : ∀ e ∈ g.edges, g.Alive e.src)
    (lost : ∀ e ∈ g0.edges, e ∉ g.edges → against tr e = false → Live g0 tr e.src → ¬ g.Alive e.tgt)
    {e : GEdge} (h : Dropped g tr' e) : Live g0 tr' e.src → Back g tr' e := by
  induction h with
  | direct he ha => intro _; exact .direct he ha
  | @bwd e he ho hall ih =>
    intro hl
    cases ha : against tr' e with
    | true => exact .direct he ha
    | false => exact .step he ho fun f hf hs => ih f hf hs (hs ▸ .edge (hsub e he) ha hl)
  | @fwd e he hi hall ih =>
    intro hl
    generalize hp : e.src = p at hl
    cases hl with
    | start hs =>
      obtain ⟨f, hf, hft⟩ := hi
      exact absurd (hft.trans hp) (hs.2 f (hsub f hf))
    | @edge q hq ha hl =>
      by_cases hqg : q ∈ g.edges
      · have := ih q hqg hp.symm hl
        cases this with
        | direct _ h => rw [ha] at h; cases h
        | step _ _ hall => exact hall e he hp
      · subst htr
        exact absurd (hp ▸ hends e he) (lost q hq hqg (against_left ha) hl.weaken)

theorem drop_fold {g : Graph} (hw : g.Wf) (ids : List Nat) :
    RecOk g (ids.foldl (fun g id => g.removeRec (g.edges.length + 1) id) g) ids :=
  fold_ok (k := g.edges.length + 1)
    (fun g' id hw' _ => removeRec_ok (g'.edges.length + 1) g' id hw' (Nat.lt_succ_self _)) ids g hw (Nat.lt_succ_self _)

/-- A switch decides: the invariant for the graph after the removal and the walker with the decision
recorded, before `reset` or the visit. -/
theorem switch_graph {g0 g : Graph} {w : Walker} {n : Nat} {t : SwitchTrace} (h : Inv g0 g w none)
    (hn : t.node = n) (hk : n ∉ keys w)
    (hp : ∀ e ∈ g.edges, e.tgt = n → e.src ∈ w.ordered)
    {g' : Graph}
    (hg' : g' = (((g.outE n).filter (edgeInvalid t.valid)).map (·.id)).foldl
      (fun g id => g.removeRec (g.edges.length + 1) id) g) :
    Shrinks g g' ∧ (∀ e ∈ g'.edges, against (w.strace ++ [t]) e = false) ∧
    (∀ n ∈ keys w, LiveIn g0 (w.strace ++ [t]) (· ∈ keys w) n) ∧
    (∀ e ∈ g0.edges, e ∉ g'.edges → against (w.strace ++ [t]) e = false → Live g0 (w.strace ++ [t]) e.src →
      (e.tgt ∈ keys w ∨ e.tgt ∈ w.switches ∨ e.tgt = n) ∧ ¬ g'.Alive e.tgt) ∧
    (∀ m, g0.Alive m → ¬ g'.Alive m → Live g0 (w.strace ++ [t]) m →
      (m ∈ keys w ∨ m ∈ w.switches ∨ m = n) ∧ g0.HasOut m) := by
  have hok := drop_fold h.gwf (((g.outE n).filter (edgeInvalid t.valid)).map (·.id))
  rw [← hg'] at hok
  have hdir : ∀ e ∈ g'.edges, against (w.strace ++ [t]) e = false := by
    intro e he
    have hg := hok.shr.edges.subset he
    rw [against_append, h.dirGone e hg, Bool.false_or, against_one]
    by_cases hs : t.node = e.src
    · cases hv : edgeInvalid t.valid e with
      | false => simp
      | true =>
        exact absurd (List.mem_map.2 ⟨e, List.mem_filter.2 ⟨mem_outE.2 ⟨hg, hs.symm.trans hn⟩, hv⟩, rfl⟩)
          (hok.gone e he)
    · simp [hs]
  have hsub : ∀ e ∈ g.edges, e ∈ g0.edges := fun e he => h.shr.edges.subset he
  have hmiss : MissingIn g g' (Dropped g (w.strace ++ [t])) := by
    rw [hg']
    refine fold_missing (f := fun g id => g.removeRec (g.edges.length + 1) id) (fun a id ha hid =>
      removeRec_missing h.gwf (dropped_closed g _) (a.edges.length + 1) a id ha hid) _ g
      ⟨fun _ h => h, fun e he hne => absurd he hne⟩ ?_
    intro id hid e he hei
    obtain ⟨f, hf, rfl⟩ := List.mem_map.1 hid
    have hf' := List.mem_filter.1 hf
    have hfo := mem_outE.1 hf'.1
    rw [h.gwf.eq_of_id he hfo.1 hei]
    refine .direct hfo.1 ?_
    rw [against_append, against_one, hf'.2, hn, hfo.2]
    simp
  have hback : ∀ e ∈ g.edges, e ∉ g'.edges → Live g0 (w.strace ++ [t]) e.src → Back g (w.strace ++ [t]) e :=
    fun e he hne hl => back_of_dropped rfl hsub (fun f hf => (h.gwf.ends f hf).1)
      (fun f h1 h2 h3 h4 => (h.lost f h1 h2 h3 h4).2) (hmiss.2 e he hne) hl
  have hsrc : ∀ e, Back g (w.strace ++ [t]) e → e.src ∈ w.ordered ∨ e.src = n := by
    intro e hb
    induction hb with
    | @direct e he ha =>
      rw [against_append, h.dirGone e he, Bool.false_or, against_one] at ha
      simp only [Bool.and_eq_true, decide_eq_true_eq] at ha
      exact .inr (ha.1.symm.trans hn)
    | @step e he ho _ ih =>
      obtain ⟨f, hf, hfs⟩ := ho
      rcases ih f hf hfs with h1 | h1
      · exact .inl (h.ordPred e he (hfs ▸ h1))
      · exact .inl (hp e he (hfs.symm.trans h1))
  have hgone : ∀ e, Back g (w.strace ++ [t]) e → e ∉ g'.edges ∧
      (against (w.strace ++ [t]) e = false → ¬ g'.Alive e.tgt) := by
    intro e hb
    induction hb with
    | @direct e he ha =>
      exact ⟨fun hh => (by rw [hdir e hh] at ha; cases ha), fun hf => (by rw [hf] at ha; cases ha)⟩
    | @step e he ho _ ih =>
      obtain ⟨f, hf, hfs⟩ := ho
      rcases hok.shr.keptOut e.tgt with h1 | ⟨f', h1, h2⟩ | h1
      · exact absurd (h1 f hf hfs) (ih f hf hfs).1
      · exact absurd h1 (ih f' (hok.shr.edges.subset h1) h2).1
      · exact ⟨fun hh => h1.1 ⟨e, hh, rfl⟩, fun _ => h1.2⟩
  have hord : ∀ m, (m ∈ w.ordered ∨ m = n) → m ∈ keys w ∨ m ∈ w.switches ∨ m = n := by
    rintro m (hm | hm)
    · exact .inl ((h.ordData m hm).resolve_right (by simp))
    · exact .inr (.inr hm)
  have hlost : ∀ e ∈ g0.edges, e ∉ g'.edges → against (w.strace ++ [t]) e = false →
      Live g0 (w.strace ++ [t]) e.src →
      (e.tgt ∈ keys w ∨ e.tgt ∈ w.switches ∨ e.tgt = n) ∧ ¬ g'.Alive e.tgt := by
    intro e he hne ha hl
    by_cases hg : e ∈ g.edges
    · have hb := hback e hg hne hl
      refine ⟨?_, (hgone e hb).2 ha⟩
      cases hb with
      | direct _ hh => rw [ha] at hh; cases hh
      | step _ ho hall =>
        obtain ⟨f, hf, hfs⟩ := ho
        exact hord _ (hfs ▸ hsrc f (hall f hf hfs))
    · have := h.lost e he hg (against_left ha) hl.weaken
      exact ⟨this.1.elim .inl fun hh => .inr (.inl hh), fun hh => this.2 (hh.mono hok.shr.nodes)⟩
  refine ⟨hok.shr, hdir, fun m hm => (h.dataLive m hm).extend (by rw [hn]; exact hk), hlost, ?_⟩
  intro m ha hd hl
  by_cases hg : g.Alive m
  · rcases hok.had m hg hd with hi | ⟨e, he, hes⟩
    · cases hl with
      | start hs =>
        obtain ⟨f, hf, hft⟩ := hi
        exact absurd hft (hs.2 f (hsub f hf))
      | @edge q hq hqa hql =>
        by_cases hqg : q ∈ g'.edges
        · exact absurd ((hok.shr.wf h.gwf).ends q hqg).2 hd
        · refine ⟨(hlost q hq hqg hqa hql).1, ?_⟩
          by_cases hqg0 : q ∈ g.edges
          · cases hback q hqg0 hqg hql with
            | direct _ hh => rw [hqa] at hh; cases hh
            | step _ ho _ => exact ho.mono h.shr.edges
          · exact absurd hg (h.lost q hq hqg0 (against_left hqa) hql.weaken).2
    · have hne : e ∉ g'.edges := fun hh => hd (hes ▸ ((hok.shr.wf h.gwf).ends e hh).1)
      exact ⟨hord m (hes ▸ hsrc e (hback e he hne (hes ▸ hl))), ⟨e, hsub e he, hes⟩⟩
  · obtain ⟨h1, ho⟩ := h.dead m ha hg hl.weaken
    rcases h1 with h1 | h1
    · exact ⟨.inl h1, ho⟩
    · exact ⟨.inr (.inl h1), ho⟩

end Zen
