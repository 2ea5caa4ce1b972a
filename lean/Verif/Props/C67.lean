import Verif.Policy.IterateLoop
/-
C67: a block on the properties of an entity is run for each instance of it and changes only that instance. While it is the
turn of an instance, the entity's name stands for it, with its owner under the owner's name; afterwards the instance has what
the block wrote, the owner is not left in it, and everything else holds what it held.
-/
namespace Zen.Policy.Iter
open Zen Heap

variable {E P : Type}

/-! ### The copy with the owner -/

/-- When an instance does not have its owner, the block works on a copy of it that has. For any sequence of new cells and
writes through the scope, at or below properties of the entity other than the owner's name, whatever is shared with what: after
the copy is written back, all cells but the copy are as if the writes had been made on the instance itself, and the instance
has no property of the owner's name. A write below a property needs that the property does not lead back to the instance, the
copy or the scope (`Clear`). -/
theorem C67_through_the_copy {h : Heap} {s a : Nat} {sc m : List (String × HVal)} {e n : String} {o : HVal} (evs : List Ev)
    (hs : h[s]? = some (.obj sc)) (ha : h[a]? = some (.obj m)) (hn : n ∉ aKeys m) (nd : (aKeys m).Nodup) (hsa : s ≠ a)
    (hc : Clear (Bad s h.length a) a (· = n) evs (bind h (.obj s) e (some (n, o)) (.obj a)).1) :
    let h1 := (bind h (.obj s) e (some (n, o)) (.obj a)).1
    let h2 := writeBack (play (.obj s) [e] evs h1) (.wrapped (.obj h.length) (n, o)) (.obj a)
    h2.length = (play (.obj a) [] evs h1).length ∧ (∀ b, b ≠ h.length → h2[b]? = (play (.obj a) [] evs h1)[b]?) ∧
    ∃ m', h2[a]? = some (.obj m') ∧ aGet m' n = none :=
  wrapped_same evs hs ha hn nd hsa hc

/-- Writes of properties, not below them, are always clear: nothing needs to be known about sharing. -/
theorem C67_properties_clear (bad : Nat → Prop) (a : Nat) (n : String) : ∀ (evs : List Ev) (g : Heap),
    (∀ p x, Ev.put p x ∈ evs → ∃ k, p = [k] ∧ k ≠ n) → Clear bad a (· = n) evs g
  | [], _, _ => trivial
  | .alloc cs :: es, g, h => C67_properties_clear bad a n es (g ++ cs) fun p x hp => h p x (List.mem_cons_of_mem _ hp)
  | .put p x :: es, g, h => by
    obtain ⟨k, hk, hn⟩ := h p x (by simp)
    exact ⟨⟨k, [], hk, hn, .inl rfl⟩, C67_properties_clear bad a n es _ fun p x hp => h p x (List.mem_cons_of_mem _ hp)⟩

theorem back_fold {b : Nat} {n : String} {o : HVal} : ∀ (m : List (String × HVal)) (h : Heap) (mb : List (String × HVal)), (aKeys m).Nodup → h[b]? = some (.obj mb) →
    let h' := m.foldl (fun h e => if injected (n, o) e.1 e.2 then h else setKey h (.obj b) e.1 e.2) h
    (∀ c, c ≠ b → h'[c]? = h[c]?) ∧ ∃ m', h'[b]? = some (.obj m') ∧
      ∀ k, (∀ v, aGet m k = some v → ¬ (k = n ∧ v = o) → aGet m' k = some v) ∧ ((∀ v, aGet m k = some v → k = n ∧ v = o) → aGet m' k = aGet mb k)
  | [], h, mb, _, hb => ⟨fun _ _ => rfl, mb, hb, fun k => ⟨fun v hv => by simp [aGet] at hv, fun _ => rfl⟩⟩
  | (k0, v0) :: m, h, mb, nd, hb => by
    have nd' : k0 ∉ aKeys m ∧ (aKeys m).Nodup := List.nodup_cons.1 nd
    have hk0 : aGet m k0 = none := (aGet_eq_none_iff _ _).2 nd'.1
    have get : ∀ k, aGet ((k0, v0) :: m) k = if k0 = k then some v0 else aGet m k := fun k => by simp [aGet]
    simp only [List.foldl_cons]
    by_cases hi : injected (n, o) k0 v0 = true
    · rw [if_pos hi]
      obtain ⟨h1, m', h2, h3⟩ := back_fold m h mb nd'.2 hb
      have hi : n = k0 ∧ v0 = o := by simpa [injected] using hi
      refine ⟨h1, m', h2, fun k => ?_⟩
      rw [get]
      split
      · rename_i e; subst e
        refine ⟨fun v hv hn => ?_, fun _ => (h3 k0).2 (by rw [hk0]; simp)⟩
        cases hv
        exact absurd ⟨hi.1.symm, hi.2⟩ hn
      · exact h3 k
    · rw [if_neg hi]
      have hi : ¬ (k0 = n ∧ v0 = o) := by
        rintro ⟨rfl, rfl⟩
        exact hi (by simp [injected])
      have hset : setKey h (.obj b) k0 v0 = h.set b (.obj (aSet mb k0 v0)) := by simp [setKey, objAt_of hb]
      rw [hset]
      obtain ⟨h1, m', h2, h3⟩ := back_fold m (h.set b (.obj (aSet mb k0 v0))) (aSet mb k0 v0) nd'.2 (get_set_eq (lt_of_get hb))
      refine ⟨fun c hc => by rw [h1 c hc, get_set_ne hc], m', h2, fun k => ?_⟩
      rw [get]
      split
      · rename_i e; subst e
        constructor
        · rintro v hv _
          cases hv
          rw [(h3 k0).2 (by rw [hk0]; simp), aGet_aSet, if_pos rfl]
        · intro hv
          exact absurd (hv v0 rfl) hi
      · rename_i e
        refine ⟨(h3 k).1, fun hv => ?_⟩
        rw [(h3 k).2 hv, aGet_aSet, if_neg (fun h => e h.symm)]

/-- Writing back puts every property of the copy into the instance, except the owner under the owner's name; what else the instance has stays,
and so does everything else. Something other than the owner under the owner's name is written. -/
theorem C67_write_back (h : Heap) (a b : Nat) (m mb : List (String × HVal)) (n : String) (o : HVal) (ha : h[a]? = some (.obj m)) (hb : h[b]? = some (.obj mb))
    (nd : (aKeys m).Nodup) :
    let h' := writeBack h (.wrapped (.obj a) (n, o)) (.obj b)
    (∀ c, c ≠ b → h'[c]? = h[c]?) ∧ ∃ m', h'[b]? = some (.obj m') ∧
      ∀ k, (∀ v, aGet m k = some v → ¬ (k = n ∧ v = o) → aGet m' k = some v) ∧ ((∀ v, aGet m k = some v → k = n ∧ v = o) → aGet m' k = aGet mb k) := by
  simp only [writeBack, objAt_of ha]
  exact back_fold m h mb nd hb

/-- a new value under the owner's name is kept, the owner is not -/
example : (writeBack [.obj [("x", .num 1), ("customer", .num 2)], .obj [("y", .num 3)]] (.wrapped (.obj 0) ("customer", .num 7)) (.obj 1))[1]? =
    some (.obj [("y", .num 3), ("x", .num 1), ("customer", .num 2)]) := rfl

/-! ### All instances -/

theorem scope_of {h : Heap} {a : Nat} {sc : List (String × HVal)} (hs : h.objAt a = some sc) :
    depthClone 1 h (.obj a) = (h ++ [Cell.obj sc], .obj h.length) := by
  rw [depthClone_one_obj hs]; rfl

theorem sees_rest {h h' : Heap} {sc : List (String × HVal)} {A : List Nat}
    (hf : ∀ b, b < (h ++ [Cell.obj sc]).length → b ≠ h.length → b ∉ A → h'[b]? = (h ++ [Cell.obj sc])[b]?) {v : HVal} {x : Val} {F : List Nat}
    (d : Den h v x F) (hF : ∀ b ∈ F, b ∉ A) : Sees h' v x :=
  ⟨F, den_frame d fun b hb => by
    have := den_lt d b hb
    rw [hf b (by simp; omega) (by omega) (hF b hb), List.getElem?_append_left this]⟩

/-- The writes of a block for its instances, which are different objects that do not contain one another but may share what
they contain. The steps write properties of the entity, any number of them, of values that do not contain the instances or what
stands for the entity. Then each instance ends up with the writes of its own turn, in which the steps saw it as it was before the
block, and every value that does not contain an instance is what it was. -/
theorem C67_each_instance (commit : P → List (Step E)) (h h' : Heap) (store : Nat) (sc : List (String × HVal)) (e : String)
    (owner : Option (String × HVal)) (is : List (Inst P)) (hstore : h.objAt store = some sc)
    (hflat : ∀ p, ∀ st ∈ commit p, Flat (is.map Inst.cell) h.length e owner st)
    (hdata : ∀ i ∈ is, (aKeys i.data).Nodup ∧ ∃ F, Den h (.obj i.cell) (.obj i.data) (i.cell :: F) ∧ ∀ b ∈ F, b ∉ is.map Inst.cell)
    (hdiff : (is.map Inst.cell).Nodup)
    (hrun : commitAll commit (depthClone 1 h (.obj store)).2 e owner (is.map fun i => (.obj i.cell, i.pick)) (depthClone 1 h (.obj store)).1 =
      (.ok (), h')) :
    (∀ i ∈ is, Made commit h.length e sc owner h' i) ∧
    ∀ v x F, Den h v x F → (∀ b ∈ F, b ∉ is.map Inst.cell) → Sees h' v x := by
  rw [scope_of hstore] at hrun
  have hlt : ∀ {v x F}, Den h v x F → ∀ b ∈ F, b ≠ h.length := fun d b hb => by have := den_lt d b hb; omega
  obtain ⟨_, h2, h3⟩ := loop_flat hflat sc h' is (h ++ [Cell.obj sc]) sc (by simp) (fun _ _ _ => rfl)
    (fun hh => by
      obtain ⟨i, hi, hh⟩ := List.mem_map.1 hh
      obtain ⟨_, F, d, _⟩ := hdata i hi
      exact hlt d i.cell (by simp) hh)
    (fun i hi => by
      obtain ⟨k, F, d, hF⟩ := hdata i hi
      exact ⟨List.mem_map_of_mem hi, k, F, den_frame d fun b hb => List.getElem?_append_left (den_lt d b hb),
        fun b hb => ⟨hlt d b (List.mem_cons_of_mem _ hb), hF b hb⟩⟩) hdiff hrun
  exact ⟨h3, fun v x F d hF => sees_rest h2 d hF⟩

/-- The same for steps that also write below properties, when the instances share nothing, each has its parts only once and
the values written are new. -/
theorem C67_each_instance_deep (commit : P → List (Step E)) (h h' : Heap) (store : Nat) (sc : List (String × HVal)) (e : String)
    (owner : Option (String × HVal)) (is : List (Inst P)) (hstore : h.objAt store = some sc)
    (hdeep : ∀ p, ∀ st ∈ commit p, Deep h.length e owner st)
    (hdata : ∀ i ∈ is, (aKeys i.data).Nodup ∧ Den h (.obj i.cell) (.obj i.data) i.cells ∧ i.cells.Nodup)
    (hdiff : is.Pairwise fun i j => ∀ b ∈ i.cells, b ∉ j.cells)
    (hrun : commitAll commit (depthClone 1 h (.obj store)).2 e owner (is.map fun i => (.obj i.cell, i.pick)) (depthClone 1 h (.obj store)).1 =
      (.ok (), h')) :
    (∀ i ∈ is, Made commit h.length e sc owner h' i) ∧
    ∀ v x F, Den h v x F → (∀ b ∈ F, ∀ i ∈ is, b ∉ i.cells) → Sees h' v x := by
  rw [scope_of hstore] at hrun
  obtain ⟨_, h2, h3⟩ := loop_deep hdeep sc h' is (h ++ [Cell.obj sc]) sc (by simp) (fun _ _ _ => rfl)
    (fun i hi => by
      obtain ⟨k, d, n⟩ := hdata i hi
      exact ⟨k, den_frame d fun b hb => List.getElem?_append_left (den_lt d b hb), n, fun hh => by have := den_lt d _ hh; omega⟩) hdiff hrun
  exact ⟨h3, fun v x F d hF => ⟨F, den_frame d fun b hb => by
    have := den_lt d b hb
    rw [h2 b (by simp; omega) (by omega) (hF b hb), List.getElem?_append_left this]⟩⟩

/-- The choices of a match block or a table, made before anything is written: that of an instance is made where the entity stands
for it, and no value changes. -/
theorem C67_choices (select : Heap → HVal → Except E P) (dflt : P) (h h' : Heap) (store : Nat) (sc : List (String × HVal)) (e : String)
    (owner : Option (String × HVal)) (is : List (Inst Unit)) (ps : List P) (hstore : h.objAt store = some sc)
    (hdata : ∀ i ∈ is, (aKeys i.data).Nodup ∧ Den h (.obj i.cell) (.obj i.data) i.cells)
    (hrun : selectAll select dflt (depthClone 1 h (.obj store)).2 e owner (is.map fun i => .obj i.cell) (depthClone 1 h (.obj store)).1 =
      (.ok ps, h')) :
    ps.length = is.length ∧
    (∀ x ∈ is.zip ps, ∃ h1, View h1 h.length e sc owner x.1.cell x.1.data ∧ select h1 (.obj h.length) = .ok x.2) ∧
    ∀ v x, Sees h v x → Sees h' v x := by
  rw [scope_of hstore] at hrun
  obtain ⟨_, h2, h3, h4⟩ := select_loop sc h' is ps (h ++ [Cell.obj sc]) sc (by simp) (fun _ _ _ => rfl)
    (fun i hi => by
      obtain ⟨k, d⟩ := hdata i hi
      exact ⟨k, den_frame d fun b hb => List.getElem?_append_left (den_lt d b hb), fun hh => by have := den_lt d _ hh; omega⟩) hrun
  exact ⟨h3, h4, fun v x ⟨F, d⟩ => sees_rest (A := []) (fun b hb hn _ => h2 b hb hn) d (by simp)⟩

/-- A block that chooses nothing, from the store to the result: the instances are found at the path, and `C67_each_instance`
holds for them. -/
theorem C67_block (commit : P → List (Step E)) (select : Heap → HVal → Except E P) (p : P) (h h' : Heap) (store : Nat)
    (sc : List (String × HVal)) (e : String) (path : List String) (name : Option String) (as : List Nat) (data : Nat → List (String × Val))
    (hstore : h.objAt store = some sc) (hfound : instances h (.obj store) path = some (as.map .obj))
    (hflat : ∀ st ∈ commit p, Flat as h.length e (ownerOf h (.obj store) path name) st)
    (hdata : ∀ a ∈ as, (aKeys (data a)).Nodup ∧ ∃ F, Den h (.obj a) (.obj (data a)) (a :: F) ∧ ∀ b ∈ F, b ∉ as) (hdiff : as.Nodup)
    (hrun : runIterated false select p (fun _ h => (.ok (), h)) commit (.obj store) e path name h = (.ok (), h')) :
    (∀ a ∈ as, ∃ h1 writes, View h1 h.length e sc (ownerOf h (.obj store) path name) a (data a) ∧ Ran h.length (commit p) h1 writes ∧
      Sees h' (.obj a) (written (.obj (data a)) writes)) ∧
    ∀ v x F, Den h v x F → (∀ b ∈ F, b ∉ as) → Sees h' v x := by
  simp only [runIterated, hfound, Bool.false_eq_true, if_false] at hrun
  have hcell : (as.map fun a => (⟨a, p, data a, []⟩ : Inst P)).map Inst.cell = as := by simp [Function.comp_def]
  have hzip : (as.map HVal.obj).zip ((as.map HVal.obj).map fun _ => p) = (as.map fun a => (⟨a, p, data a, []⟩ : Inst P)).map fun i => (.obj i.cell, i.pick) := by
    clear hrun hcell hfound hflat hdata hdiff
    induction as with
    | nil => rfl
    | cons a as ih => simp only [List.map_cons, List.zip_cons_cons, ih]
  rw [hzip] at hrun
  have key := C67_each_instance (fun _ : Unit => commit p) h h' store sc e (ownerOf h (.obj store) path name)
    (as.map fun a => (⟨a, (), data a, []⟩ : Inst Unit)) hstore
  have hcell' : (as.map fun a => (⟨a, (), data a, []⟩ : Inst Unit)).map Inst.cell = as := by simp [Function.comp_def]
  rw [hcell'] at key
  have hsame : ∀ (as : List Nat) g, commitAll (fun _ : Unit => commit p) (depthClone 1 h (.obj store)).2 e (ownerOf h (.obj store) path name)
      ((as.map fun a => (⟨a, (), data a, []⟩ : Inst Unit)).map fun i => (.obj i.cell, i.pick)) g =
      commitAll commit (depthClone 1 h (.obj store)).2 e (ownerOf h (.obj store) path name)
      ((as.map fun a => (⟨a, p, data a, []⟩ : Inst P)).map fun i => (.obj i.cell, i.pick)) g := by
    intro as
    induction as with
    | nil => intro g; rfl
    | cons a as ih =>
      intro g
      simp only [List.map_cons, commitAll]
      split
      · exact ih _
      · split
        · rfl
        · exact ih _
  obtain ⟨k1, k2⟩ := key (fun _ => hflat) (by
      intro i hi
      obtain ⟨a, ha, rfl⟩ := List.mem_map.1 hi
      exact hdata a ha) hdiff (by rw [hsame]; exact hrun)
  refine ⟨fun a ha => ?_, k2⟩
  exact k1 ⟨a, (), data a, []⟩ (List.mem_map_of_mem ha)

/-! ### What the conditions are for -/

/-- data ends: no object is a property of itself -/
theorem not_own {h : Heap} {w : Nat} {m : List (String × HVal)} {k : String} (hw : h[w]? = some (.obj m)) (hk : aGet m k = some (.obj w)) (x : Val) :
    ¬ Sees h (.obj w) x := by
  rintro ⟨F, d⟩
  cases d with
  | @obj _ m' vs F' h1 h2 =>
    rw [hw] at h1
    cases h1
    obtain ⟨v, G, R, hv, dv, _, _⟩ := denE_hole h2 hk
    have := (den_fun dv (.obj hw h2)).1
    subst this
    have hsz : ∀ (vs : List (String × Val)) v, aGet vs k = some v → sizeOf v < sizeOf vs := by
      intro vs
      induction vs with
      | nil => intro v h; simp at h
      | cons e vs ih =>
        obtain ⟨j, y⟩ := e
        intro v h
        simp only [aGet] at h
        split at h
        · cases h; simp; omega
        · have := ih v h; simp; omega
    have := hsz vs _ hv
    simp at this
    omega

/-- the step of `entity.k := entity` -/
def intoItself (e k : String) : Step E := fun h v => match v with
  | .obj s => match (h.objAt s).bind fun sc => aGet sc e with
    | some t => .ok (h, [([e, k], t)])
    | none => .ok (h, [])
  | _ => .ok (h, [])

/-- A block that writes the entity itself into a property makes an instance that no data describes: the property leads to
an object that contains itself, so that showing, comparing or copying the instance does not end. -/
theorem C67_entity_in_itself (h h' : Heap) (s a : Nat) (sc m : List (String × HVal)) (e k : String) (owner : Option (String × HVal)) (p : P)
    (hs : h[s]? = some (.obj sc)) (ha : h[a]? = some (.obj m)) (nd : (aKeys m).Nodup) (hsa : s ≠ a) (hk : ∀ o, owner ≠ some (k, o))
    (hrun : commitAll (fun _ : P => [intoItself (E := E) e k]) (.obj s) e owner [(.obj a, p)] h = (.ok (), h')) :
    ∀ x, ¬ Sees h' (.obj a) x := by
  have hsl := lt_of_get hs
  have hal := lt_of_get ha
  have hput : ∀ (g : Heap) (t c : Nat) (mc : List (String × HVal)) sg, g[s]? = some (.obj sg) → aGet sg e = some (.obj c) → g[c]? = some (.obj mc) →
      puts g (.obj s) [([e, k], .obj t)] = g.set c (.obj (aSet mc k (.obj t))) := by
    intro g t c mc sg h1 h2 h3
    simp only [puts, List.foldl_cons, List.foldl_nil]
    have := dotInsert_finish g (.obj s) [e] k (.obj t)
    simp only [List.cons_append, List.nil_append] at this
    rw [this]
    simp only [walk, objAt_of h1, h2, finish, objAt_of h3]
  cases hm : missingOwner h owner (.obj a) with
  | none =>
    have h1s : (h.set s (.obj (aSet (aErase sc "$") e (.obj a))))[s]? = some (.obj (aSet (aErase sc "$") e (.obj a))) := get_set_eq hsl
    have h1a : (h.set s (.obj (aSet (aErase sc "$") e (.obj a))))[a]? = some (.obj m) := by rw [get_set_ne hsa.symm]; exact ha
    have hge : aGet (aSet (aErase sc "$") e (HVal.obj a)) e = some (.obj a) := by simp [aGet_aSet]
    simp only [commitAll, bind_direct hs hm, runSteps, intoItself, objAt_of h1s, Option.bind_some, hge, writeBack] at hrun
    rw [hput _ a a m _ h1s hge h1a] at hrun
    simp only [Prod.mk.injEq, true_and] at hrun
    subst hrun
    exact not_own (k := k) (get_set_eq (by simpa using hal)) (by simp [aGet_aSet])
  | some no =>
    obtain ⟨n, o⟩ := no
    obtain ⟨ho, hn⟩ : owner = some (n, o) ∧ aGet m n = none := by
      cases owner with
      | none => simp [missingOwner] at hm
      | some x =>
        simp only [missingOwner, objAt_of ha] at hm
        split at hm
        · cases hm
        · next hx =>
          cases hm
          exact ⟨rfl, by simpa using hx⟩
    subst ho
    have hkn : k ≠ n := fun hh => hk o (by rw [hh])
    have hnk := (aGet_eq_none_iff m n).1 hn
    have I := Inv.start (e := e) (o := o) hs ha hnk nd hsa
    rw [bind_wrapped hs ha hnk] at I
    simp only at I
    have I2 := I.put k [] (.obj h.length) hkn (.inl rfl)
    have hge : aGet (aSet (aErase sc "$") e (HVal.obj h.length)) e = some (.obj h.length) := by simp [aGet_aSet]
    have h1s : ((h ++ [Cell.obj (m ++ [(n, o)])]).set s (.obj (aSet (aErase sc "$") e (.obj h.length))))[s]? =
        some (.obj (aSet (aErase sc "$") e (.obj h.length))) := get_set_eq (by simp; omega)
    have h1w : ((h ++ [Cell.obj (m ++ [(n, o)])]).set s (.obj (aSet (aErase sc "$") e (.obj h.length))))[h.length]? = some (.obj (m ++ [(n, o)])) := by
      rw [get_set_ne (by omega)]; simp
    have h1a : ((h ++ [Cell.obj (m ++ [(n, o)])]).set s (.obj (aSet (aErase sc "$") e (.obj h.length))))[a]? = some (.obj m) := I.ha
    simp only [commitAll, bind_wrapped hs ha hnk, runSteps, intoItself, objAt_of h1s, Option.bind_some, hge] at hrun
    generalize (h ++ [Cell.obj (m ++ [(n, o)])]).set s (.obj (aSet (aErase sc "$") e (.obj h.length))) = h1 at *
    simp only [Prod.mk.injEq, true_and] at hrun
    have hwl := lt_of_get h1w
    have hp := hput h1 h.length h.length _ _ h1s hge h1w
    have hput' : Ev.run (.obj s) [e] h1 (.put [k] (.obj h.length)) = puts h1 (.obj s) [([e, k], .obj h.length)] := rfl
    rw [hput'] at I2
    obtain ⟨b1, b2⟩ := I2.back
    rw [hrun] at b1 b2
    have hga : (Ev.run (.obj a) [] h1 (.put [k] (.obj h.length))) = h1.set a (.obj (aSet m k (.obj h.length))) := by
      simp only [Ev.run, List.nil_append]
      rw [show [k] = [] ++ [k] from rfl, dotInsert_finish]
      simp only [walk, finish, objAt_of h1a]
    have ha' : h'[a]? = some (.obj (aSet m k (.obj h.length))) := by
      rw [b2 a (by omega), hga]; exact get_set_eq (lt_of_get h1a)
    have hw' : h'[h.length]? = some (.obj (aSet (m ++ [(n, o)]) k (.obj h.length))) := by
      obtain ⟨mw, w1, w2, w3, w4, w5⟩ := I2.hw
      rw [← hrun]
      simp only [writeBack, objAt_of w1]
      rw [foldl_setKey a (fun x => injected (n, o) x.1 x.2) mw _ m I2.ha, get_set_ne (by omega), hp]
      exact get_set_eq hwl
    rintro x ⟨F, d⟩
    cases d with
    | obj q1 q2 =>
      rw [ha'] at q1
      cases q1
      obtain ⟨v, G, R, _, dv, _, _⟩ := denE_hole (k := k) q2 (y := .obj h.length) (by simp [aGet_aSet])
      exact not_own hw' (k := k) (by simp [aGet_aSet]) v ⟨G, dv⟩

/-- An instance that is no object stays as it is: the writes of the block are lost without an error. -/
theorem C67_not_an_object (h : Heap) (s : Nat) (sc : List (String × HVal)) (e k : String) (owner : Option (String × HVal)) (inst x : HVal)
    (hs : h[s]? = some (.obj sc)) (hi : ∀ a, inst ≠ .obj a) :
    ∃ h', commitAll (fun _ : Unit => [fun h _ => Except.ok (ε := E) (h, [([e, k], x)])]) (.obj s) e owner [(inst, ())] h = (.ok (), h') ∧
      ∀ b, b ≠ s → h'[b]? = h[b]? := by
  have hsl := lt_of_get hs
  have hm : missingOwner h owner inst = none := by
    cases owner with
    | none => rfl
    | some no =>
      cases inst with
      | obj a => exact absurd rfl (hi a)
      | _ => rfl
  refine ⟨h.set s (.obj (aSet (aErase sc "$") e inst)), ?_, fun b hb => get_set_ne hb⟩
  simp only [commitAll, bind_direct hs hm, runSteps, writeBack, puts, List.foldl_cons, List.foldl_nil]
  have := dotInsert_finish (h.set s (.obj (aSet (aErase sc "$") e inst))) (.obj s) [e] k x
  simp only [List.cons_append, List.nil_append] at this
  rw [this]
  have hge : aGet (aSet (aErase sc "$") e inst) e = some inst := by simp [aGet_aSet]
  simp only [walk, objAt_of (get_set_eq hsl), hge]
  cases inst with
  | obj a => exact absurd rfl (hi a)
  | _ => rfl

/-- The owner itself, written under the owner's name, is taken for the one put in and is lost. -/
theorem C67_owner_not_kept (h : Heap) (s a : Nat) (sc m : List (String × HVal)) (e n : String) (o : HVal)
    (hs : h[s]? = some (.obj sc)) (ha : h[a]? = some (.obj m)) (nd : (aKeys m).Nodup) (hsa : s ≠ a) (hn : n ∉ aKeys m) :
    ∃ h', commitAll (fun _ : Unit => [fun h _ => Except.ok (ε := E) (h, [([e, n], o)])]) (.obj s) e (some (n, o)) [(.obj a, ())] h = (.ok (), h') ∧
      h'[a]? = some (.obj m) := by
  have I := Inv.start (e := e) (o := o) hs ha hn nd hsa
  simp only [commitAll, runSteps]
  rw [bind_wrapped hs ha hn] at I ⊢
  simp only at I ⊢
  have hsl := lt_of_get hs
  have hge : aGet (aSet (aErase sc "$") e (HVal.obj h.length)) e = some (.obj h.length) := by simp [aGet_aSet]
  have h1s : ((h ++ [Cell.obj (m ++ [(n, o)])]).set s (.obj (aSet (aErase sc "$") e (.obj h.length))))[s]? =
      some (.obj (aSet (aErase sc "$") e (.obj h.length))) := get_set_eq (by simp; omega)
  have h1w : ((h ++ [Cell.obj (m ++ [(n, o)])]).set s (.obj (aSet (aErase sc "$") e (.obj h.length))))[h.length]? = some (.obj (m ++ [(n, o)])) := by
    rw [get_set_ne (by omega)]; simp
  have hal := lt_of_get ha
  have hsame : aSet (m ++ [(n, o)]) n o = m ++ [(n, o)] := by
    apply aSet_same
    obtain ⟨mw, w1, w2, _⟩ := I.hw
    rw [h1w] at w1
    cases w1
    exact w2
  generalize (h ++ [Cell.obj (m ++ [(n, o)])]).set s (.obj (aSet (aErase sc "$") e (.obj h.length))) = h1 at *
  have hp : puts h1 (.obj s) [([e, n], o)] = h1 := by
    simp only [puts, List.foldl_cons, List.foldl_nil]
    have := dotInsert_finish h1 (.obj s) [e] n o
    simp only [List.cons_append, List.nil_append] at this
    rw [this]
    simp only [walk, objAt_of h1s, hge, finish, objAt_of h1w, hsame]
    apply List.ext_getElem?
    intro b
    by_cases hb : b = h.length
    · subst hb; rw [get_set_eq (lt_of_get h1w), h1w]
    · rw [get_set_ne hb]
  rw [hp]
  refine ⟨_, rfl, ?_⟩
  rw [I.back.2 a (by omega), I.ha]

/-! ### Cases -/

/-- a customer with two orders and a rate -/
def shop : Heap := [.obj [("customer", .obj 1), ("rate", .num 3), ("$", .null)], .obj [("name", .str "a"), ("orders", .arr 2)], .arr [.obj 3, .obj 4],
  .obj [("total", .num 5)], .obj [("total", .num 7)]]

/-- `order.due := order.total * rate` -/
def due : Step Unit := fun h v => .ok (h, match h.dot v ["order", "total"], h.dot v ["rate"] with
  | some (.num x), some (.num y) => [(["order", "due"], .num (x * y))]
  | _, _ => [])

/-- `order.by := order.customer.name` -/
def by_ : Step Unit := fun h v => .ok (h, match h.dot v ["order", "customer", "name"] with
  | some x => [(["order", "by"], x)]
  | _ => [])

/-- a table with both columns on both orders, which see their customer and do not keep it -/
example : (runIterated (E := Unit) (P := Unit) false (fun _ _ => .ok ()) () (fun _ h => (.ok (), h)) (fun _ => [due, by_]) (.obj 0) "order"
    ["customer", "orders"] (some "customer") shop).2.take 5 =
    [.obj [("customer", .obj 1), ("rate", .num 3), ("$", .null)], .obj [("name", .str "a"), ("orders", .arr 2)], .arr [.obj 3, .obj 4],
      .obj [("total", .num 5), ("due", .num (5 * 3)), ("by", .str "a")], .obj [("total", .num 7), ("due", .num (7 * 3)), ("by", .str "a")]] := by rfl

theorem due_flat (s : Nat) : Flat [3, 4] s "order" (some ("customer", .obj 1)) due := by
  intro h h' ws hr
  simp only [due] at hr
  split at hr
  · cases hr
    exact ⟨List.prefix_refl _, by simp, _, _, .cons (.num _) .nil, by simp⟩
  · cases hr
    exact ⟨List.prefix_refl _, by simp, _, _, .nil, by simp⟩

/-- the hypotheses of `C67_block` hold for the first column -/
example : ∃ h', runIterated (E := Unit) (P := Unit) false (fun _ _ => .ok ()) () (fun _ h => (.ok (), h)) (fun _ => [due]) (.obj 0) "order"
      ["customer", "orders"] (some "customer") shop = (.ok (), h') ∧
    (∀ a ∈ [3, 4], ∃ h1 writes, View h1 5 "order" [("customer", .obj 1), ("rate", .num 3), ("$", .null)] (some ("customer", .obj 1)) a
      [("total", .num (if a = 3 then 5 else 7))] ∧ Ran 5 [due] h1 writes ∧
      Sees h' (.obj a) (written (.obj [("total", .num (if a = 3 then 5 else 7))]) writes)) := by
  refine ⟨_, rfl, (C67_block (P := Unit) (fun _ => [due]) (fun _ _ => .ok ()) () shop _ 0 _ "order" ["customer", "orders"] (some "customer") [3, 4]
    (fun a => [("total", .num (if a = 3 then 5 else 7))]) rfl rfl ?_ ?_ (by decide) rfl).1⟩
  · intro st hst
    simp only [List.mem_singleton] at hst
    subst hst
    exact due_flat _
  · intro a ha
    simp only [List.mem_cons, List.not_mem_nil, or_false] at ha
    rcases ha with rfl | rfl
    · exact ⟨by simp, [], .obj (m := [("total", .num 5)]) rfl (.cons (.num 5) .nil), by simp⟩
    · exact ⟨by simp, [], .obj (m := [("total", .num 7)]) rfl (.cons (.num 7) .nil), by simp⟩

/-- `order.size.due := [order.total]`, a new list -/
def listed : Step Unit := fun h v => match h.dot v ["order", "total"] with
  | some (.num x) => .ok (h ++ [.arr [.num x]], [(["order", "size", "due"], .arr h.length)])
  | _ => .error ()

theorem listed_deep (s : Nat) : Deep s "order" (some ("customer", .obj 1)) listed := by
  intro h h' ws hr
  simp only [listed] at hr
  split at hr
  · next x _ =>
    cases hr
    exact ⟨List.prefix_append _ _, by simp, _, _, .cons (.arr (xs := [.num x]) (by simp) (.cons (.num x) .nil)) .nil, by simp, by simp⟩
  · cases hr

/-- the hypotheses of `C67_each_instance_deep` hold for a write below a property -/
example : ∃ h', commitAll (P := Unit) (fun _ => [listed]) (depthClone 1 shop (.obj 0)).2 "order" (some ("customer", .obj 1))
      ([⟨3, (), [("total", .num 5)], [3]⟩, ⟨4, (), [("total", .num 7)], [4]⟩].map fun i : Inst Unit => (HVal.obj i.cell, i.pick))
      (depthClone 1 shop (.obj 0)).1 = (.ok (), h') ∧
    Made (P := Unit) (fun _ => [listed]) 5 "order" [("customer", .obj 1), ("rate", .num 3), ("$", .null)] (some ("customer", .obj 1)) h'
      ⟨4, (), [("total", .num 7)], [4]⟩ := by
  refine ⟨_, rfl, (C67_each_instance_deep (P := Unit) (fun _ => [listed]) shop _ 0 _ "order" (some ("customer", .obj 1))
    [⟨3, (), [("total", .num 5)], [3]⟩, ⟨4, (), [("total", .num 7)], [4]⟩] rfl ?_ ?_ ?_ rfl).1 _ (by simp)⟩
  · intro _ st hst
    simp only [List.mem_singleton] at hst
    subst hst
    exact listed_deep _
  · intro i hi
    simp only [List.mem_cons, List.not_mem_nil, or_false] at hi
    rcases hi with rfl | rfl
    · exact ⟨by simp, .obj (m := [("total", .num 5)]) rfl (.cons (.num 5) .nil), by simp⟩
    · exact ⟨by simp, .obj (m := [("total", .num 7)]) rfl (.cons (.num 7) .nil), by simp⟩
  · simp

/-- what `C67_entity_in_itself` is about happens: the run succeeds -/
example : (commitAll (fun _ : Unit => [intoItself (E := Unit) "order" "copy"]) (depthClone 1 shop (.obj 0)).2 "order" (some ("customer", .obj 1))
    [(.obj 3, ())] (depthClone 1 shop (.obj 0)).1).1 = .ok () := rfl

/-- the choices of both orders, by their totals -/
example : (selectAll (E := Unit) (fun h v => .ok (h.dot v ["order", "total"])) none (depthClone 1 shop (.obj 0)).2 "order" (some ("customer", .obj 1))
    [.obj 3, .obj 4] (depthClone 1 shop (.obj 0)).1).1 = .ok [some (.num 5), some (.num 7)] := rfl

/-- Below the owner's name the owner is written, by every order: the last one stays. -/
def ownerLast : Step Unit := fun h v => .ok (h, match h.dot v ["order", "total"] with
  | some x => [(["order", "customer", "last"], x)]
  | _ => [])

example : (runIterated (E := Unit) (P := Unit) false (fun _ _ => .ok ()) () (fun _ h => (.ok (), h)) (fun _ => [ownerLast]) (.obj 0) "order"
    ["customer", "orders"] (some "customer") shop).2.take 5 =
    [.obj [("customer", .obj 1), ("rate", .num 3), ("$", .null)], .obj [("name", .str "a"), ("orders", .arr 2), ("last", .num 7)], .arr [.obj 3, .obj 4],
      .obj [("total", .num 5)], .obj [("total", .num 7)]] := by rfl

/-- The owner under another name: the order then contains the customer, that contains the order. -/
def ownerToo : Step Unit := fun h v => .ok (h, match h.dot v ["order", "customer"] with
  | some x => [(["order", "buyer"], x)]
  | _ => [])

example : (runIterated (E := Unit) (P := Unit) false (fun _ _ => .ok ()) () (fun _ h => (.ok (), h)) (fun _ => [ownerToo]) (.obj 0) "order"
    ["customer", "orders"] (some "customer") shop).2.take 4 =
    [.obj [("customer", .obj 1), ("rate", .num 3), ("$", .null)], .obj [("name", .str "a"), ("orders", .arr 2)], .arr [.obj 3, .obj 4],
      .obj [("total", .num 5), ("buyer", .obj 1)]] := by rfl

/-- One order listed twice has two turns, and the second sees what the first wrote. -/
def plusOne : Step Unit := fun h v => .ok (h, match h.dot v ["order", "total"] with
  | some (.num x) => [(["order", "total"], .num (x + 1))]
  | _ => [])

example : (runIterated (E := Unit) (P := Unit) false (fun _ _ => .ok ()) () (fun _ h => (.ok (), h)) (fun _ => [plusOne]) (.obj 0) "order"
    ["customer", "orders"] (some "customer")
    [.obj [("customer", .obj 1)], .obj [("orders", .arr 2)], .arr [.obj 3, .obj 3], .obj [("total", .num 5)]]).2[3]? =
    some (.obj [("total", .num (5 + 1 + 1))]) := by rfl

/-- the hypotheses of `C67_through_the_copy`, with a write below a property -/
example : Clear (Bad 0 4 3) 3 (· = "customer") [.put ["size", "w"] (.num 1), .put ["due"] (.num 2)]
    (bind [.obj [("customer", .obj 1)], .obj [("orders", .arr 2)], .arr [.obj 3], .obj [("total", .num 5)]] (.obj 0) "order" (some ("customer", .obj 1)) (.obj 3)).1 := by
  refine ⟨⟨"size", ["w"], rfl, by decide, .inr fun mg y hm hy => ?_⟩, ⟨"due", [], rfl, by decide, .inl rfl⟩, trivial⟩
  cases hm
  simp [aGet] at hy

end Zen.Policy.Iter
