import Verif.Engine.Engine
import Verif.Core.ValLemmas
import Verif.Heap.Clean
/-
C35: the cleaned result has no `$nodes` at any depth and is otherwise unchanged.
-/
namespace Zen

/-- Specification: the key `k` occurs somewhere in a value. -/
inductive HasKey (k : String) : Val → Prop
  | here (m : List (String × Val)) (x : Val) : (k, x) ∈ m → HasKey k (.obj m)
  | entry (m : List (String × Val)) (k' : String) (x : Val) : (k', x) ∈ m → HasKey k x → HasKey k (.obj m)
  | item (xs : List Val) (x : Val) : x ∈ xs → HasKey k x → HasKey k (.arr xs)

/-- Specification: `w` is `v` with the entries of key `k` left out of every object; everything else,
including the order of items and entries, is the same. -/
inductive Without (k : String) : Val → Val → Prop
  | null : Without k .null .null
  | bool (b : Bool) : Without k (.bool b) (.bool b)
  | num (n : Rat) : Without k (.num n) (.num n)
  | str (s : String) : Without k (.str s) (.str s)
  | dyn (d : Dyn) : Without k (.dyn d) (.dyn d)
  | arr (xs ys : List Val) : xs.length = ys.length →
      (∀ (i : Nat) (a b : Val), xs[i]? = some a → ys[i]? = some b → Without k a b) → Without k (.arr xs) (.arr ys)
  | obj (m n : List (String × Val)) : (m.map Prod.fst).filter (· ≠ k) = n.map Prod.fst →
      (∀ (k' : String) (a b : Val), (k', a) ∈ m → (k', b) ∈ n → Without k a b) → Without k (.obj m) (.obj n)

theorem cleanE_keys (m : List (String × Val)) : (Val.cleanE m).map Prod.fst = m.map Prod.fst := by
  induction m with
  | nil => rfl
  | cons p m ih => obtain ⟨k, v⟩ := p; simp only [Val.cleanE, List.map_cons, ih]

theorem cleanE_mem {m : List (String × Val)} {k : String} {x : Val} :
    (k, x) ∈ Val.cleanE m ↔ ∃ y, (k, y) ∈ m ∧ x = y.clean := by
  induction m with
  | nil => simp [Val.cleanE]
  | cons p m ih =>
    obtain ⟨k', v⟩ := p
    simp only [Val.cleanE, List.mem_cons, ih, Prod.mk.injEq]
    constructor
    · rintro (⟨rfl, rfl⟩ | ⟨y, hy, rfl⟩)
      · exact ⟨v, .inl ⟨rfl, rfl⟩, rfl⟩
      · exact ⟨y, .inr hy, rfl⟩
    · rintro ⟨y, ⟨rfl, rfl⟩ | hy, rfl⟩
      · exact .inl ⟨rfl, rfl⟩
      · exact .inr ⟨y, hy, rfl⟩

theorem cleanL_eq (xs : List Val) : Val.cleanL xs = xs.map Val.clean := by
  induction xs with
  | nil => rfl
  | cons x xs ih => simp only [Val.cleanL, List.map_cons, ih]

theorem aErase_keys {V : Type} {m : List (String × V)} {k : String} (h : (m.map Prod.fst).Nodup) :
    (aErase m k).map Prod.fst = (m.map Prod.fst).filter (· ≠ k) := by
  induction m with
  | nil => rfl
  | cons p m ih =>
    obtain ⟨k', v⟩ := p
    simp only [List.map_cons, List.nodup_cons] at h
    simp only [aErase, List.map_cons, List.filter_cons]
    by_cases hk : k' = k
    · subst hk
      simp only [if_pos, ne_eq, not_true_eq_false, decide_false, Bool.false_eq_true, if_false]
      symm
      apply List.filter_eq_self.2
      intro a ha
      simp only [decide_not, Bool.not_eq_true', decide_eq_false_iff_not]
      intro he; subst he; exact h.1 ha
    · rw [if_neg hk, List.map_cons, ih h.2, if_pos (by simpa using hk)]

/-- No `$nodes` is left, at any depth. -/
theorem C35_no_nodes : ∀ v : Val, v.Wf → ¬ HasKey "$nodes" v.clean := by
  apply Val.ind
  case null => intro _ h; cases h
  case bool => intro _ _ h; cases h
  case num => intro _ _ h; cases h
  case str => intro _ _ h; cases h
  case dyn => intro _ _ h; cases h
  case arr =>
    intro xs ih hw h
    cases hw with
    | arr _ hw =>
    simp only [Val.clean, cleanL_eq] at h
    cases h with
    | item _ x hx h =>
      obtain ⟨y, hy, rfl⟩ := List.mem_map.1 hx
      exact ih y hy (hw y hy) h
  case obj =>
    intro m ih hw h
    cases hw with
    | obj _ hn hw =>
    simp only [Val.clean] at h
    have hn' : ((Val.cleanE m).map Prod.fst).Nodup := by rw [cleanE_keys]; exact hn
    cases h with
    | here _ x hx =>
      have := List.mem_map_of_mem (f := Prod.fst) hx
      rw [aErase_keys hn'] at this
      simp at this
    | entry _ k' x hx h =>
      have hx' := (aErase_sublist _ _).mem hx
      obtain ⟨y, hy, rfl⟩ := cleanE_mem.1 hx'
      exact ih k' y hy (hw k' y hy) h

/-- Everything else is as it was. -/
theorem C35_otherwise_unchanged : ∀ v : Val, v.Wf → Without "$nodes" v v.clean := by
  apply Val.ind
  case null => intro _; exact .null
  case bool => intro _ _; exact .bool _
  case num => intro _ _; exact .num _
  case str => intro _ _; exact .str _
  case dyn => intro _ _; exact .dyn _
  case arr =>
    intro xs ih hw
    cases hw with
    | arr _ hw =>
    simp only [Val.clean, cleanL_eq]
    refine .arr _ _ (by simp) ?_
    intro i a b ha hb
    rw [List.getElem?_map, ha] at hb
    injection hb with hb; subst hb
    have := List.mem_of_getElem? ha
    exact ih a this (hw a this)
  case obj =>
    intro m ih hw
    cases hw with
    | obj _ hn hw =>
    simp only [Val.clean]
    refine .obj _ _ ?_ ?_
    · rw [aErase_keys (by rw [cleanE_keys]; exact hn), cleanE_keys]
    · intro k' a b ha hb
      obtain ⟨y, hy, rfl⟩ := cleanE_mem.1 ((aErase_sublist _ _).mem hb)
      have h1 := aGet_of_mem hn ha
      have h2 := aGet_of_mem hn hy
      rw [h1] at h2
      injection h2 with h2; subst h2
      exact ih k' a ha (hw k' a ha)

/-- The specification leaves no choice. -/
theorem C35_determined : ∀ (v w w' : Val), v.Wf → w.Wf → w'.Wf → Without "$nodes" v w → Without "$nodes" v w' → w = w' := by
  suffices H : ∀ v : Val, ∀ w w', v.Wf → w.Wf → w'.Wf → Without "$nodes" v w → Without "$nodes" v w' → w = w' from
    fun v w w' => H v w w'
  apply Val.ind
  case null => intro w w' _ _ _ h h'; cases h; cases h'; rfl
  case bool => intro _ w w' _ _ _ h h'; cases h; cases h'; rfl
  case num => intro _ w w' _ _ _ h h'; cases h; cases h'; rfl
  case str => intro _ w w' _ _ _ h h'; cases h; cases h'; rfl
  case dyn => intro _ w w' _ _ _ h h'; cases h; cases h'; rfl
  case arr =>
    intro xs ih w w' hv hw hw' h h'
    cases h with
    | arr _ ys hl hy =>
    cases h' with
    | arr _ zs hl' hz =>
    cases hv with | arr _ hv => cases hw with | arr _ hw => cases hw' with | arr _ hw' =>
    congr 1
    apply List.ext_getElem (by omega)
    intro i h1 h2
    have hx : i < xs.length := by omega
    exact ih _ (List.getElem_mem hx) _ _ (hv _ (List.getElem_mem hx)) (hw _ (List.getElem_mem h1)) (hw' _ (List.getElem_mem h2))
      (hy i _ _ (List.getElem?_eq_getElem hx) (List.getElem?_eq_getElem h1))
      (hz i _ _ (List.getElem?_eq_getElem hx) (List.getElem?_eq_getElem h2))
  case obj =>
    intro m ih w w' hv hw hw' h h'
    cases h with
    | obj _ n hk hy =>
    cases h' with
    | obj _ n' hk' hz =>
    cases hv with | obj _ hn hv => cases hw with | obj _ hn1 hw => cases hw' with | obj _ hn2 hw' =>
    congr 1
    have hkeys : n.map Prod.fst = n'.map Prod.fst := hk.symm.trans hk'
    have hlen : n.length = n'.length := by simpa using congrArg List.length hkeys
    apply List.ext_getElem hlen
    intro i h1 h2
    have e1 : n[i].1 = n'[i].1 := by
      have := congrArg (fun l => l[i]?) hkeys
      simpa [List.getElem?_map, h1, h2] using this
    have hin : n[i].1 ∈ (m.map Prod.fst).filter (· ≠ "$nodes") := by
      rw [hk]; exact List.mem_map_of_mem (List.getElem_mem h1)
    obtain ⟨⟨k, x⟩, hx, hkx⟩ := List.mem_map.1 (List.mem_filter.1 hin).1
    dsimp only at hkx
    have m1 : (k, n[i].2) ∈ n := by rw [hkx]; exact List.getElem_mem h1
    have m2 : (k, n'[i].2) ∈ n' := by rw [hkx, e1]; exact List.getElem_mem h2
    exact Prod.ext e1 (ih k x hx _ _ (hv k x hx) (hw k _ m1) (hw' k _ m2) (hy k x _ hx m1) (hz k x _ hx m2))

theorem clean_wf : ∀ v : Val, v.Wf → v.clean.Wf := by
  apply Val.ind
  case null => intro h; exact h
  case bool => intro _ h; exact h
  case num => intro _ h; exact h
  case str => intro _ h; exact h
  case dyn => intro _ h; exact h
  case arr =>
    intro xs ih hw
    cases hw with
    | arr _ hw =>
    simp only [Val.clean, cleanL_eq]
    refine .arr _ fun x hx => ?_
    obtain ⟨y, hy, rfl⟩ := List.mem_map.1 hx
    exact ih y hy (hw y hy)
  case obj =>
    intro m ih hw
    cases hw with
    | obj _ hn hw =>
    simp only [Val.clean]
    refine aErase_wf (.obj _ (by rw [cleanE_keys]; exact hn) fun k x hx => ?_)
    obtain ⟨y, hy, rfl⟩ := cleanE_mem.1 hx
    exact ih k y hy (hw k y hy)

theorem without_self {k : String} : ∀ v : Val, v.Wf → ¬ HasKey k v → Without k v v := by
  apply Val.ind
  case null => intro _ _; exact .null
  case bool => intro _ _ _; exact .bool _
  case num => intro _ _ _; exact .num _
  case str => intro _ _ _; exact .str _
  case dyn => intro _ _ _; exact .dyn _
  case arr =>
    intro xs ih hw h
    cases hw with
    | arr _ hw =>
    refine .arr _ _ rfl ?_
    intro i a b ha hb
    rw [ha] at hb; injection hb with hb; subst hb
    have hm := List.mem_of_getElem? ha
    exact ih a hm (hw a hm) fun hk => h (.item _ a hm hk)
  case obj =>
    intro m ih hw h
    cases hw with
    | obj _ hn hw =>
    refine .obj _ _ ?_ ?_
    · apply List.filter_eq_self.2
      intro a ha
      obtain ⟨⟨k', x⟩, hx, rfl⟩ := List.mem_map.1 ha
      simp only [ne_eq, decide_not, Bool.not_eq_true', decide_eq_false_iff_not]
      rintro rfl
      exact h (.here _ x hx)
    · intro k' a b ha hb
      have h1 := aGet_of_mem hn ha
      rw [aGet_of_mem hn hb] at h1
      injection h1 with h1; subst h1
      exact ih k' b hb (hw k' b hb) fun hk => h (.entry _ k' b hb hk)

/-- A value without `$nodes` is returned as it is; cleaning twice is cleaning once. -/
theorem C35_clean_already (v : Val) (hw : v.Wf) (h : ¬ HasKey "$nodes" v) : v.clean = v :=
  C35_determined v v.clean v hw (clean_wf v hw) hw (C35_otherwise_unchanged v hw) (without_self v hw h)

theorem C35_idempotent (v : Val) (hw : v.Wf) : v.clean.clean = v.clean :=
  C35_clean_already v.clean (clean_wf v hw) (C35_no_nodes v hw)

/-- Of the whole engine: what an evaluation returns is its result without `$nodes`. -/
theorem C35_evaluation (E : Env) (maxDepth : Nat) (c : Content) (ctx r : Val)
    (hr : E.evaluate maxDepth c ctx = .ok r) :
    ∃ raw, E.evalAt maxDepth c ctx none = .ok raw ∧ (raw.Wf → ¬ HasKey "$nodes" r ∧ Without "$nodes" raw r) := by
  unfold Env.evaluate at hr
  cases h : E.evalAt maxDepth c ctx none with
  | error e => rw [h] at hr; cases hr
  | ok raw =>
    rw [h] at hr
    injection hr with hr
    subst hr
    exact ⟨raw, rfl, fun hw => ⟨C35_no_nodes raw hw, C35_otherwise_unchanged raw hw⟩⟩

/-! ## Shared values

In memory the result is a graph of reference-counted cells, which may hold a cell twice and, after a
write of `$` into itself, may be cyclic. `HReach h v a`: the cell at `a` can be reached from `v`. -/

/-- The cleaner always ends, cyclic values included, and its effect is this: cells reachable without
passing through `$nodes` lose their `$nodes`, every other cell is as before. -/
theorem C35_shared_exact (h : Heap) (v : HVal) (ho : HeapOk h) (hv : v.Ok h) (n : Nat) (hn : h.length < n) :
    ∃ vis h', Heap.clean n [] h v = some (vis, h') ∧
      (∀ a, HReach (h.map Cell.stripped) v a → h'[a]? = (h[a]?).map Cell.stripped) ∧
      (∀ a, ¬ HReach (h.map Cell.stripped) v a → h'[a]? = h[a]?) := by
  obtain ⟨vis, h', e, H⟩ := clean_ok n [] h v (Nat.lt_of_le_of_lt (todo_nil h) hn) ho hv
  refine ⟨vis, h', e, fun a r => H.new a ((H.vis_iff a).2 r) (by simp), fun a r => H.old a (.inr fun hm => r ((H.vis_iff a).1 hm))⟩

/-- No object that can be reached from the cleaned value has a property `$nodes`. -/
theorem C35_shared_no_nodes (h : Heap) (v : HVal) (ho : HeapOk h) (hv : v.Ok h)
    (hnd : ∀ (a : Nat) (m : List (String × HVal)), h[a]? = some (.obj m) → (m.map Prod.fst).Nodup) (n : Nat) (vis : List Nat) (h' : Heap)
    (hn : h.length < n) (hc : Heap.clean n [] h v = some (vis, h')) :
    ∀ (a : Nat) (m : List (String × HVal)), HReach h' v a → h'[a]? = some (.obj m) → aGet m "$nodes" = none := by
  obtain ⟨vis1, h1, e, H⟩ := clean_ok n [] h v (Nat.lt_of_le_of_lt (todo_nil h) hn) ho hv
  rw [hc] at e; cases e
  intro a m r e
  have hm : a ∈ vis := by
    clear e
    induction r with
    | start hp => exact H.here v (by simp) _ hp
    | step _ e hx hp ih => exact H.closed _ ih (by simp) _ e _ hx _ hp
  rw [H.new a hm (by simp)] at e
  cases ha : h[a]? with
  | none => rw [ha] at e; cases e
  | some c =>
    rw [ha] at e
    cases c with
    | arr xs => cases e
    | obj m0 => cases e; exact stripped_none (hnd a m0 ha)

/-- What a holder of the cleaned value then sees is the tree-level cleaning of what it saw. -/
theorem C35_shared_result (h : Heap) (v : HVal) (x : Val) (ho : HeapOk h) (hv : v.Ok h) (hx : Sees h v x) (n : Nat) (vis : List Nat)
    (h' : Heap) (hn : h.length < n) (hc : Heap.clean n [] h v = some (vis, h')) : Sees h' v x.clean := by
  obtain ⟨vis1, h1, e, H⟩ := clean_ok n [] h v (Nat.lt_of_le_of_lt (todo_nil h) hn) ho hv
  rw [hc] at e; cases e
  obtain ⟨F, d⟩ := hx
  exact den_clean (vis := vis) (fun a ha => H.new a ha (by simp)) (fun a ha => H.closed a ha (by simp)) d (H.here v (by simp))

/-- A value that reaches none of the cleaned cells still shows the same. -/
theorem C35_shared_others (h : Heap) (v w : HVal) (x : Val) (F : List Nat) (ho : HeapOk h) (hv : v.Ok h) (n : Nat) (vis : List Nat)
    (h' : Heap) (hn : h.length < n) (hc : Heap.clean n [] h v = some (vis, h')) (hw : Den h w x F)
    (hd : ∀ a ∈ F, ¬ HReach (h.map Cell.stripped) v a) : Den h' w x F := by
  obtain ⟨vis1, h1, e, H⟩ := clean_ok n [] h v (Nat.lt_of_le_of_lt (todo_nil h) hn) ho hv
  rw [hc] at e; cases e
  exact den_frame hw fun a ha => H.old a (.inr fun hm => hd a ha ((H.vis_iff a).1 hm))

/-- NEGATIVE: the cleaner works in place, so a caller whose context is shared with the result loses its
own `$nodes` property. Cell 1 is the caller's `{ "$nodes": 7 }`, cell 0 the result `{ "a": <cell 1> }`. -/
theorem C35_caller_context_changed : ∃ (h : Heap) (result caller : HVal) (h' : Heap) (vis : List Nat),
    Heap.clean 3 [] h result = some (vis, h') ∧
    Sees h caller (.obj [("$nodes", .num 7)]) ∧ Sees h' caller (.obj []) := by
  refine ⟨[.obj [("a", .obj 1)], .obj [("$nodes", .num 7)]], .obj 0, .obj 1, [.obj [("a", .obj 1)], .obj []], [1, 0], ?_,
    ⟨_, .obj rfl (.cons (.num 7) .nil)⟩, ⟨_, .obj rfl .nil⟩⟩
  simp [Heap.clean, Heap.cleanLoop, Heap.objAt, aErase]

/-! ## Instances -/

/-- a cyclic value: cell 0 is `{ "$nodes": 1, "self": <cell 0> }` -/
example : HeapOk [.obj [("$nodes", .num 1), ("self", .obj 0)]] ∧ HVal.Ok [.obj [("$nodes", .num 1), ("self", .obj 0)]] (.obj 0) ∧
    (Heap.clean 2 [] [.obj [("$nodes", .num 1), ("self", .obj 0)]] (.obj 0)) = some ([0], [.obj [("self", .obj 0)]]) := by
  refine ⟨?_, ⟨_, rfl⟩, by simp [Heap.clean, Heap.cleanLoop, Heap.objAt, aErase]⟩
  intro a c e x hx
  have : a = 0 := by have := lt_of_get e; simp at this; exact this
  subst this
  cases e
  simp [Cell.kids] at hx
  rcases hx with rfl | rfl
  · trivial
  · exact ⟨_, rfl⟩


/-- `{ "a": [ { "$nodes": 1, "b": 2 } ], "$nodes": { "a": 1 } }` -/
def dirty : Val := .obj [("a", .arr [.obj [("$nodes", .num 1), ("b", .num 2)]]), ("$nodes", .obj [("a", .num 1)])]

example : dirty.Wf ∧ HasKey "$nodes" dirty := by
  refine ⟨.obj _ (by decide) ?_, .here _ _ (.tail _ (.head _))⟩
  intro k x h
  simp only [List.mem_cons, Prod.mk.injEq, List.not_mem_nil, or_false] at h
  rcases h with ⟨rfl, rfl⟩ | ⟨rfl, rfl⟩
  · refine .arr _ fun y hy => ?_
    rw [List.mem_singleton.1 hy]
    refine .obj _ (by decide) fun k x h => ?_
    simp only [List.mem_cons, Prod.mk.injEq, List.not_mem_nil, or_false] at h
    rcases h with ⟨rfl, rfl⟩ | ⟨rfl, rfl⟩ <;> exact .num _
  · refine .obj _ (by decide) fun k x h => ?_
    simp only [List.mem_cons, Prod.mk.injEq, List.not_mem_nil, or_false] at h
    rw [h.2]; exact .num _

example : dirty.clean = .obj [("a", .arr [.obj [("b", .num 2)]])] := by
  simp [dirty, Val.clean, Val.cleanL, Val.cleanE, aErase]

end Zen
