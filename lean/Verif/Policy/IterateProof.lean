import Verif.Policy.IterateLemmas
/- An instance that is bound as a copy with its owner: the writes end where they would without the copy. -/
namespace Zen.Policy.Iter
open Zen Heap

/-- what a block does to the heap: evaluation makes new cells, a write goes below the entity -/
inductive Ev where
  | alloc (cs : List Cell)
  | put (path : List String) (x : HVal)

/-- done on the properties of the value at a path -/
def Ev.run (t : HVal) (pre : List String) (h : Heap) : Ev → Heap
  | .alloc cs => h ++ cs
  | .put p x => (h.dotInsert t (pre ++ p) x).1

def play (t : HVal) (pre : List String) (evs : List Ev) (h : Heap) : Heap := evs.foldl (Ev.run t pre) h

/-- heaps while the block writes: `h` through the scope `s` on the copy `w`, `g` on the instance `a` itself -/
structure Inv (s w a : Nat) (e n : String) (o : HVal) (m : List (String × HVal)) (h g : Heap) : Prop where
  len : h.length = g.length
  agree : ∀ b, b ≠ w → b ≠ a → h[b]? = g[b]?
  hs : ∃ sc, h[s]? = some (.obj sc) ∧ aGet sc e = some (.obj w)
  ha : h[a]? = some (.obj m)
  hw : ∃ mw, h[w]? = some (.obj mw) ∧ aGet mw n = some o ∧ (aKeys mw).Nodup ∧ g[a]? = some (.obj (aErase mw n)) ∧
    aKeys m <+: aKeys (aErase mw n)
  sw : s ≠ w
  sa : s ≠ a
  wa : w ≠ a

theorem Inv.alloc {s w a e n o m} {h g : Heap} (I : Inv s w a e n o m h g) (cs : List Cell) : Inv s w a e n o m (h ++ cs) (g ++ cs) := by
  obtain ⟨sc, hs, hse⟩ := I.hs
  obtain ⟨mw, hw, hn, nd, ga, hk⟩ := I.hw
  have up : ∀ {h : Heap} {b : Nat} {c : Cell}, h[b]? = some c → (h ++ cs)[b]? = some c := fun {h b c} hb => by
    rw [List.getElem?_append_left (lt_of_get hb)]; exact hb
  refine ⟨by simp [I.len], ?_, ⟨sc, up hs, hse⟩, up I.ha, ⟨mw, up hw, hn, nd, up ga, hk⟩, I.sw, I.sa, I.wa⟩
  intro b h1 h2
  by_cases hb : b < h.length
  · rw [List.getElem?_append_left hb, List.getElem?_append_left (by rw [← I.len]; exact hb), I.agree b h1 h2]
  · rw [List.getElem?_append_right (by omega), List.getElem?_append_right (by rw [← I.len]; omega), I.len]

/-- what a write must not come back to -/
def Bad (s w a : Nat) (b : Nat) : Prop := b = w ∨ b = a ∨ b = s

theorem Inv.put {s w a e n o m} {h g : Heap} (I : Inv s w a e n o m h g) (k : String) (ps : List String) (x : HVal) (hkn : k ≠ n)
    (hc : ps = [] ∨ ∀ mg y, g[a]? = some (.obj mg) → aGet mg k = some y → Safe (Bad s w a) g y) :
    Inv s w a e n o m (Ev.run (.obj s) [e] h (.put (k :: ps) x)) (Ev.run (.obj a) [] g (.put (k :: ps) x)) := by
  obtain ⟨sc, hs, hse⟩ := I.hs
  obtain ⟨mw, hw, hn, nd, ga, hk⟩ := I.hw
  have hsl := lt_of_get hs
  have hal := lt_of_get I.ha
  have hwl := lt_of_get hw
  have hlen := I.len
  have hsw := I.sw
  have hsa := I.sa
  have hwa := I.wa
  have hgn : aGet (aSet mw k x) n = some o := by rw [aGet_aSet, if_neg hkn.symm]; exact hn
  -- the write reaches the copy through the scope
  have hthru : ∀ (q : List String), walk h (.obj s) (e :: q) = walk h (.obj w) q := by
    intro q; simp only [walk, objAt_of hs, hse]
  rcases List.eq_nil_or_concat ps with rfl | ⟨q, l, rfl⟩
  · have e1 : Ev.run (.obj s) [e] h (.put [k] x) = h.set w (.obj (aSet mw k x)) := by
      simp only [Ev.run, List.cons_append, List.nil_append]
      rw [show [e, k] = [e] ++ [k] from rfl, dotInsert_finish, hthru]
      simp only [walk, finish, objAt_of hw]
    have e2 : Ev.run (.obj a) [] g (.put [k] x) = g.set a (.obj (aSet (aErase mw n) k x)) := by
      simp only [Ev.run, List.nil_append]
      rw [show [k] = [] ++ [k] from rfl, dotInsert_finish]
      simp only [walk, finish, objAt_of ga]
    rw [e1, e2]
    refine ⟨by simp [hlen], ?_, ⟨sc, by rw [get_set_ne hsw]; exact hs, hse⟩, by rw [get_set_ne hwa.symm]; exact I.ha, ?_, hsw, hsa, hwa⟩
    · intro b h1 h2
      rw [get_set_ne h1, get_set_ne h2]; exact I.agree b h1 h2
    · refine ⟨aSet mw k x, get_set_eq hwl, hgn, aKeys_aSet_nodup k x nd, ?_, ?_⟩
      · rw [aErase_aSet x hkn]; exact get_set_eq (by omega)
      · rw [aErase_aSet x hkn]; exact hk.trans (aKeys_aSet_prefix _ _ _)
  · rw [List.concat_eq_append] at hc ⊢
    replace hc : ∀ mg y, g[a]? = some (.obj mg) → aGet mg k = some y → Safe (Bad s w a) g y := by
      rcases hc with hc | hc
      · simp at hc
      · exact hc
    have e1 : Ev.run (.obj s) [e] h (.put (k :: (q ++ [l])) x) = (finish (walk h (.obj w) (k :: q)) l x).1 := by
      simp only [Ev.run, List.cons_append, List.nil_append]
      rw [show e :: k :: (q ++ [l]) = (e :: k :: q) ++ [l] from rfl, dotInsert_finish, hthru]
    have e2 : Ev.run (.obj a) [] g (.put (k :: (q ++ [l])) x) = (finish (walk g (.obj a) (k :: q)) l x).1 := by
      simp only [Ev.run, List.nil_append]
      rw [show k :: (q ++ [l]) = (k :: q) ++ [l] from rfl, dotInsert_finish]
    rw [e1, e2]
    have hbl : ∀ b, Bad s w a b → b < g.length := by
      rintro b (rfl | rfl | rfl) <;> omega
    have hagB : ∀ b, ¬ Bad s w a b → h[b]? = g[b]? := fun b hb =>
      I.agree b (fun hh => hb (.inl hh)) (fun hh => hb (.inr (.inl hh)))
    cases hy : aGet mw k with
    | some y =>
      have hyg : aGet (aErase mw n) k = some y := by rw [aGet_erase_ne hkn]; exact hy
      obtain ⟨R, r1, r2, r3⟩ := hc _ y ga hyg
      have e3 : walk h (.obj w) (k :: q) = walk h y q := by simp only [walk, objAt_of hw, hy]
      have e4 : walk g (.obj a) (k :: q) = walk g y q := by simp only [walk, objAt_of ga, hyg]
      rw [e3, e4]
      obtain ⟨k1, k2, k3⟩ := write_agree (Bad s w a) q l x h g y R hlen hagB hbl r1 r2 r3
      refine ⟨k1, ?_, ⟨sc, by rw [(k3 s (.inr (.inr rfl))).1]; exact hs, hse⟩, by rw [(k3 a (.inr (.inl rfl))).1]; exact I.ha,
        ⟨mw, by rw [(k3 w (.inl rfl)).1]; exact hw, hn, nd, by rw [(k3 a (.inr (.inl rfl))).2]; exact ga, hk⟩, hsw, hsa, hwa⟩
      intro b h1 h2
      by_cases hbs : b = s
      · subst hbs
        rw [(k3 b (.inr (.inr rfl))).1, (k3 b (.inr (.inr rfl))).2]; exact I.agree b h1 h2
      · exact k2 b (by rintro (hh | hh | hh) <;> contradiction)
    | none =>
      have hyg : aGet (aErase mw n) k = none := by rw [aGet_erase_ne hkn]; exact hy
      have e3 : walk h (.obj w) (k :: q) = walk ((h ++ [Cell.obj []]).set w (.obj (aSet mw k (.obj g.length)))) (.obj g.length) q := by
        simp only [walk, objAt_of hw, hy, Heap.newObj, hlen]
      have e4 : walk g (.obj a) (k :: q) = walk ((g ++ [Cell.obj []]).set a (.obj (aSet (aErase mw n) k (.obj g.length)))) (.obj g.length) q := by
        simp only [walk, objAt_of ga, hyg, Heap.newObj]
      rw [e3, e4]
      have I1 : Inv s w a e n o m ((h ++ [Cell.obj []]).set w (.obj (aSet mw k (.obj g.length))))
          ((g ++ [Cell.obj []]).set a (.obj (aSet (aErase mw n) k (.obj g.length)))) := by
        have J := I.alloc [Cell.obj []]
        obtain ⟨sc', hs', hse'⟩ := J.hs
        refine ⟨by simp [hlen], ?_, ⟨sc', by rw [get_set_ne hsw]; exact hs', hse'⟩, by rw [get_set_ne hwa.symm]; exact J.ha, ?_, hsw, hsa, hwa⟩
        · intro b h1 h2
          rw [get_set_ne h1, get_set_ne h2]; exact J.agree b h1 h2
        · refine ⟨aSet mw k (.obj g.length), get_set_eq (by simp; omega), ?_, aKeys_aSet_nodup k _ nd, ?_, ?_⟩
          · rw [aGet_aSet, if_neg hkn.symm]; exact hn
          · rw [aErase_aSet _ hkn]; exact get_set_eq (by simp; omega)
          · rw [aErase_aSet _ hkn]; exact hk.trans (aKeys_aSet_prefix _ _ _)
      have hnew : ((g ++ [Cell.obj []]).set a (.obj (aSet (aErase mw n) k (.obj g.length))))[g.length]? = some (.obj []) := by
        rw [get_set_ne (by omega)]; simp
      generalize hh1 : (h ++ [Cell.obj []]).set w (.obj (aSet mw k (.obj g.length))) = h1 at I1 ⊢
      generalize hg1 : (g ++ [Cell.obj []]).set a (.obj (aSet (aErase mw n) k (.obj g.length))) = g1 at I1 hnew ⊢
      have hg1l : g1.length = g.length + 1 := by rw [← hg1]; simp
      obtain ⟨sc1, hs1, hse1⟩ := I1.hs
      obtain ⟨mw1, hw1, hn1, nd1, ga1, hk1⟩ := I1.hw
      obtain ⟨k1, k2, k3⟩ := write_agree (Bad s w a) q l x h1 g1 (.obj g.length) (fun b => b = g.length) I1.len
        (fun b hb => I1.agree b (fun hh => hb (.inl hh)) (fun hh => hb (.inr (.inl hh))))
        (fun b hb => by have := hbl b hb; omega)
        (by rintro b rfl hh; exact absurd (hbl _ hh) (by omega))
        (by
          rintro b c rfl eb v hv
          rw [hnew] at eb; cases eb
          simp [Cell.kids] at hv)
        (by intro b hb; simp only [HVal.ptr, Option.some.injEq] at hb; exact hb.symm)
      refine ⟨k1, ?_, ⟨sc1, by rw [(k3 s (.inr (.inr rfl))).1]; exact hs1, hse1⟩, by rw [(k3 a (.inr (.inl rfl))).1]; exact I1.ha,
        ⟨mw1, by rw [(k3 w (.inl rfl)).1]; exact hw1, hn1, nd1, by rw [(k3 a (.inr (.inl rfl))).2]; exact ga1, hk1⟩, hsw, hsa, hwa⟩
      intro b h1 h2
      by_cases hbs : b = s
      · subst hbs
        rw [(k3 b (.inr (.inr rfl))).1, (k3 b (.inr (.inr rfl))).2]; exact I1.agree b h1 h2
      · exact k2 b (by rintro (hh | hh | hh) <;> contradiction)

/-- every write has a property of the instance to go to, not the owner's name, and a longer one does not come back to the
instance, its copy or the scope; `g` is the heap in which the writes are done on the instance itself -/
def Clear (bad : Nat → Prop) (a : Nat) (skip : String → Prop) : List Ev → Heap → Prop
  | [], _ => True
  | .alloc cs :: es, g => Clear bad a skip es (g ++ cs)
  | .put p x :: es, g =>
    (∃ k ps, p = k :: ps ∧ ¬ skip k ∧ (ps = [] ∨ ∀ mg y, g[a]? = some (.obj mg) → aGet mg k = some y → Safe bad g y)) ∧
    Clear bad a skip es (Ev.run (.obj a) [] g (.put p x))

theorem Inv.play {s w a e n o m} : ∀ {evs : List Ev} {h g : Heap}, Inv s w a e n o m h g → Clear (Bad s w a) a (· = n) evs g →
    Inv s w a e n o m (play (.obj s) [e] evs h) (play (.obj a) [] evs g)
  | [], _, _, I, _ => I
  | .alloc cs :: es, _, _, I, hc => Inv.play (evs := es) (I.alloc cs) hc
  | .put p x :: es, _, _, I, hc => by
    obtain ⟨⟨k, ps, rfl, hk, hs⟩, hc⟩ := hc
    exact Inv.play (evs := es) (I.put k ps x hk hs) hc

/-! ### Writing back -/

theorem foldl_setKey (a : Nat) (skip : String × HVal → Bool) : ∀ (xs : List (String × HVal)) (h : Heap) (m : List (String × HVal)),
    h[a]? = some (.obj m) →
    xs.foldl (fun h e => if skip e then h else setKey h (.obj a) e.1 e.2) h =
      h.set a (.obj ((xs.filter fun e => !skip e).foldl (fun l e => aSet l e.1 e.2) m))
  | [], h, m, e => by
    simp only [List.foldl_nil, List.filter_nil]
    apply List.ext_getElem?
    intro b
    by_cases hb : b = a
    · subst hb; rw [get_set_eq (lt_of_get e), e]
    · rw [get_set_ne hb]
  | x :: xs, h, m, e => by
    simp only [List.foldl_cons]
    by_cases hx : skip x = true
    · rw [if_pos hx, foldl_setKey a skip xs h m e]; simp [hx]
    · have hx' : skip x = false := by simpa using hx
      rw [if_neg hx]
      have : setKey h (.obj a) x.1 x.2 = h.set a (.obj (aSet m x.1 x.2)) := by simp only [setKey, objAt_of e]
      rw [this, foldl_setKey a skip xs _ (aSet m x.1 x.2) (get_set_eq (lt_of_get e))]
      simp [hx']

theorem filter_injected {n : String} {o : HVal} : ∀ {mw : List (String × HVal)}, (aKeys mw).Nodup → aGet mw n = some o →
    mw.filter (fun e => !injected (n, o) e.1 e.2) = aErase mw n
  | [], _, h => by simp at h
  | (k, v) :: mw, nd, h => by
    simp only [aKeys_cons, List.nodup_cons] at nd
    simp only [aGet] at h
    by_cases hk : k = n
    · subst hk
      rw [if_pos rfl] at h
      cases h
      rw [List.filter_cons_of_neg (by simp [injected])]
      simp only [aErase, if_true]
      apply List.filter_eq_self.2
      rintro ⟨j, u⟩ hj
      have : k ≠ j := by
        rintro rfl
        exact nd.1 (List.mem_map.2 ⟨_, hj, rfl⟩)
      simp [injected, this]
    · rw [if_neg hk] at h
      rw [List.filter_cons_of_pos (by simp [injected, Ne.symm hk])]
      simp only [aErase, if_neg hk]
      rw [filter_injected nd.2 h]

theorem Inv.back {s w a e n o m} {h g : Heap} (I : Inv s w a e n o m h g) :
    (writeBack h (.wrapped (.obj w) (n, o)) (.obj a)).length = g.length ∧
    ∀ b, b ≠ w → (writeBack h (.wrapped (.obj w) (n, o)) (.obj a))[b]? = g[b]? := by
  obtain ⟨mw, hw, hn, nd, ga, hk⟩ := I.hw
  have e1 : writeBack h (.wrapped (.obj w) (n, o)) (.obj a) =
      h.set a (.obj ((mw.filter fun e => !injected (n, o) e.1 e.2).foldl (fun l e => aSet l e.1 e.2) m)) := by
    simp only [writeBack, objAt_of hw]
    exact foldl_setKey a (fun e => injected (n, o) e.1 e.2) mw h m I.ha
  have e2 : ((mw.filter fun e => !injected (n, o) e.1 e.2).foldl (fun l e => aSet l e.1 e.2) m) = aErase mw n := by
    rw [filter_injected nd hn]
    have := foldl_aSet_onto (aErase mw n) [] m hk (by simpa using aKeys_aErase_nodup n nd)
    simpa using this
  rw [e1, e2]
  refine ⟨by simp [I.len], fun b hb => ?_⟩
  by_cases hba : b = a
  · subst hba
    rw [get_set_eq (lt_of_get I.ha), ga]
  · rw [get_set_ne hba]; exact I.agree b hb hba

/-! ### Binding -/

theorem bind_direct {h : Heap} {s : Nat} {sc : List (String × HVal)} {e : String} {owner : Option (String × HVal)} {inst : HVal}
    (hs : h[s]? = some (.obj sc)) (hm : missingOwner h owner inst = none) :
    bind h (.obj s) e owner inst = (h.set s (.obj (aSet (aErase sc "$") e inst)), some .direct) := by
  have hsl := lt_of_get hs
  simp only [bind, stand, hm, dropKey, objAt_of hs]
  simp only [setKey, objAt_of (get_set_eq hsl), List.set_set]

theorem bind_wrapped {h : Heap} {s a : Nat} {sc m : List (String × HVal)} {e n : String} {o : HVal}
    (hs : h[s]? = some (.obj sc)) (ha : h[a]? = some (.obj m)) (hn : n ∉ aKeys m) :
    bind h (.obj s) e (some (n, o)) (.obj a) =
      ((h ++ [Cell.obj (m ++ [(n, o)])]).set s (.obj (aSet (aErase sc "$") e (.obj h.length))), some (.wrapped (.obj h.length) (n, o))) := by
  have hsl := lt_of_get hs
  have hg : aGet m n = none := (aGet_eq_none_iff m n).2 hn
  have hm : missingOwner h (some (n, o)) (.obj a) = some (n, o) := by simp [missingOwner, objAt_of ha, hg]
  simp only [bind, stand, hm, depthClone_one_obj (objAt_of ha), Heap.newObj]
  have e1 : setKey (h ++ [Cell.obj m]) (.obj h.length) n o = h ++ [.obj (m ++ [(n, o)])] := by
    simp only [setKey, Heap.objAt]
    simp [aSet, hg]
  rw [e1]
  have hs1 : (h ++ [Cell.obj (m ++ [(n, o)])])[s]? = some (.obj sc) := by rw [List.getElem?_append_left hsl]; exact hs
  simp only [dropKey, objAt_of hs1]
  simp only [setKey, objAt_of (get_set_eq (lt_of_get hs1)), List.set_set]

theorem Inv.start {h : Heap} {s a : Nat} {sc m : List (String × HVal)} {e n : String} {o : HVal}
    (hs : h[s]? = some (.obj sc)) (ha : h[a]? = some (.obj m)) (hn : n ∉ aKeys m) (nd : (aKeys m).Nodup) (hsa : s ≠ a) :
    Inv s h.length a e n o m (bind h (.obj s) e (some (n, o)) (.obj a)).1 (bind h (.obj s) e (some (n, o)) (.obj a)).1 := by
  rw [bind_wrapped hs ha hn]
  have hsl := lt_of_get hs
  have hal := lt_of_get ha
  have ha1 : ((h ++ [Cell.obj (m ++ [(n, o)])]).set s (.obj (aSet (aErase sc "$") e (.obj h.length))))[a]? = some (.obj m) := by
    rw [get_set_ne hsa.symm, List.getElem?_append_left hal]; exact ha
  refine ⟨rfl, fun _ _ _ => rfl, ⟨_, get_set_eq (by simp; omega), by rw [aGet_aSet]; simp⟩, ha1,
    ⟨m ++ [(n, o)], ?_, ?_, ?_, ?_, ?_⟩, by omega, hsa, by omega⟩
  · rw [get_set_ne (by omega)]; simp
  · rw [aGet_append, (aGet_eq_none_iff m n).2 hn]; simp [aGet]
  · rw [aKeys_append]
    exact List.nodup_append.2 ⟨nd, by simp [aKeys], fun x hx y hy => by
      simp only [aKeys, List.map_cons, List.map_nil, List.mem_singleton] at hy
      subst hy; rintro rfl; exact hn hx⟩
  · rw [aErase_last o hn]; exact ha1
  · rw [aErase_last o hn]; exact List.prefix_rfl

/-- an instance with a copy: the run through the scope, written back, is the run on the instance, except for the copy -/
theorem wrapped_same {h : Heap} {s a : Nat} {sc m : List (String × HVal)} {e n : String} {o : HVal} (evs : List Ev)
    (hs : h[s]? = some (.obj sc)) (ha : h[a]? = some (.obj m)) (hn : n ∉ aKeys m) (nd : (aKeys m).Nodup) (hsa : s ≠ a)
    (hc : Clear (Bad s h.length a) a (· = n) evs (bind h (.obj s) e (some (n, o)) (.obj a)).1) :
    let h1 := (bind h (.obj s) e (some (n, o)) (.obj a)).1
    let h2 := writeBack (play (.obj s) [e] evs h1) (.wrapped (.obj h.length) (n, o)) (.obj a)
    h2.length = (play (.obj a) [] evs h1).length ∧ (∀ b, b ≠ h.length → h2[b]? = (play (.obj a) [] evs h1)[b]?) ∧
    ∃ m', h2[a]? = some (.obj m') ∧ aGet m' n = none := by
  intro h1 h2
  have I := (Inv.start (e := e) (o := o) hs ha hn nd hsa).play hc
  obtain ⟨h3, h4⟩ := I.back
  refine ⟨h3, h4, ?_⟩
  obtain ⟨mw, hw, hnw, ndw, ga, hk⟩ := I.hw
  refine ⟨aErase mw n, by rw [h4 a (Ne.symm I.wa)]; exact ga, ?_⟩
  rw [aGet_aErase _ _ ndw]; simp

/-! ### Without a copy -/

/-- a write on the instance leaves the scope alone -/
theorem put_scope {s a : Nat} {g : Heap} {sc m : List (String × HVal)} (hs : g[s]? = some (.obj sc)) (ha : g[a]? = some (.obj m)) (hsa : s ≠ a)
    (k : String) (ps : List String) (x : HVal)
    (hc : ps = [] ∨ ∀ mg y, g[a]? = some (.obj mg) → aGet mg k = some y → Safe (fun b => b = a ∨ b = s) g y) :
    (Ev.run (.obj a) [] g (.put (k :: ps) x))[s]? = some (.obj sc) ∧
    ∃ m', (Ev.run (.obj a) [] g (.put (k :: ps) x))[a]? = some (.obj m') := by
  have hsl := lt_of_get hs
  have hal := lt_of_get ha
  rcases List.eq_nil_or_concat ps with rfl | ⟨q, l, rfl⟩
  · have e2 : Ev.run (.obj a) [] g (.put [k] x) = g.set a (.obj (aSet m k x)) := by
      simp only [Ev.run, List.nil_append]
      rw [show [k] = [] ++ [k] from rfl, dotInsert_finish]
      simp only [walk, finish, objAt_of ha]
    rw [e2]
    exact ⟨by rw [get_set_ne hsa]; exact hs, _, get_set_eq hal⟩
  · rw [List.concat_eq_append] at hc ⊢
    replace hc : ∀ mg y, g[a]? = some (.obj mg) → aGet mg k = some y → Safe (fun b => b = a ∨ b = s) g y := by
      rcases hc with hc | hc
      · simp at hc
      · exact hc
    have e2 : Ev.run (.obj a) [] g (.put (k :: (q ++ [l])) x) = (finish (walk g (.obj a) (k :: q)) l x).1 := by
      simp only [Ev.run, List.nil_append]
      rw [show k :: (q ++ [l]) = (k :: q) ++ [l] from rfl, dotInsert_finish]
    rw [e2]
    have hbl : ∀ b, (b = a ∨ b = s) → b < g.length := by rintro b (rfl | rfl) <;> omega
    cases hy : aGet m k with
    | some y =>
      obtain ⟨R, r1, r2, r3⟩ := hc _ y ha hy
      have e4 : walk g (.obj a) (k :: q) = walk g y q := by simp only [walk, objAt_of ha, hy]
      rw [e4]
      obtain ⟨_, _, k3⟩ := write_agree (fun b => b = a ∨ b = s) q l x g g y R rfl (fun _ _ => rfl) hbl r1 r2 r3
      exact ⟨by rw [(k3 s (.inr rfl)).1]; exact hs, m, by rw [(k3 a (.inl rfl)).1]; exact ha⟩
    | none =>
      have e4 : walk g (.obj a) (k :: q) = walk ((g ++ [Cell.obj []]).set a (.obj (aSet m k (.obj g.length)))) (.obj g.length) q := by
        simp only [walk, objAt_of ha, hy, Heap.newObj]
      rw [e4]
      have hnew : ((g ++ [Cell.obj []]).set a (.obj (aSet m k (.obj g.length))))[g.length]? = some (.obj []) := by
        rw [get_set_ne (by omega)]; simp
      have hs1 : ((g ++ [Cell.obj []]).set a (.obj (aSet m k (.obj g.length))))[s]? = some (.obj sc) := by
        rw [get_set_ne hsa, List.getElem?_append_left hsl]; exact hs
      have ha1 : ((g ++ [Cell.obj []]).set a (.obj (aSet m k (.obj g.length))))[a]? = some (.obj (aSet m k (.obj g.length))) :=
        get_set_eq (by simp; omega)
      have hl1 : ((g ++ [Cell.obj []]).set a (.obj (aSet m k (.obj g.length)))).length = g.length + 1 := by simp
      generalize (g ++ [Cell.obj []]).set a (.obj (aSet m k (.obj g.length))) = g1 at *
      obtain ⟨_, _, k3⟩ := write_agree (fun b => b = a ∨ b = s) q l x g1 g1 (.obj g.length) (fun b => b = g.length) rfl (fun _ _ => rfl)
        (fun b hb => by have := hbl b hb; omega)
        (by rintro b rfl hh; exact absurd (hbl _ hh) (by omega))
        (by
          rintro b c rfl eb v hv
          rw [hnew] at eb; cases eb
          simp [Cell.kids] at hv)
        (by intro b hb; simp only [HVal.ptr, Option.some.injEq] at hb; exact hb.symm)
      exact ⟨by rw [(k3 s (.inr rfl)).1]; exact hs1, _, by rw [(k3 a (.inl rfl)).1]; exact ha1⟩

/-- an instance without a copy: the run through the scope is the run on the instance -/
theorem direct_same {s a : Nat} {e : String} {skip : String → Prop} : ∀ (evs : List Ev) (g : Heap) (sc m : List (String × HVal)), g[s]? = some (.obj sc) →
    aGet sc e = some (.obj a) → g[a]? = some (.obj m) → s ≠ a → Clear (fun b => b = a ∨ b = s) a skip evs g →
    play (.obj s) [e] evs g = play (.obj a) [] evs g ∧ (play (.obj a) [] evs g)[s]? = some (.obj sc)
  | [], g, sc, m, hs, _, _, _, _ => ⟨rfl, hs⟩
  | .alloc cs :: es, g, sc, m, hs, he, ha, hsa, hc =>
    direct_same es (g ++ cs) sc m (by rw [List.getElem?_append_left (lt_of_get hs)]; exact hs) he
      (by rw [List.getElem?_append_left (lt_of_get ha)]; exact ha) hsa hc
  | .put p x :: es, g, sc, m, hs, he, ha, hsa, hc => by
    obtain ⟨⟨k, ps, rfl, _, hsf⟩, hc⟩ := hc
    obtain ⟨h1, m', h2⟩ := put_scope hs ha hsa k ps x hsf
    have e1 : Ev.run (.obj s) [e] g (.put (k :: ps) x) = Ev.run (.obj a) [] g (.put (k :: ps) x) := by
      simp only [Ev.run, List.cons_append, List.nil_append]
      rcases List.eq_nil_or_concat ps with rfl | ⟨q, l, rfl⟩
      · have e3 : Heap.dotInsert g (.obj s) [e, k] x = finish (walk g (.obj s) [e]) k x := dotInsert_finish g (.obj s) [e] k x
        have e4 : Heap.dotInsert g (.obj a) [k] x = finish (walk g (.obj a) []) k x := dotInsert_finish g (.obj a) [] k x
        rw [e3, e4]
        simp only [walk, objAt_of hs, he]
      · simp only [List.concat_eq_append]
        rw [show e :: k :: (q ++ [l]) = (e :: k :: q) ++ [l] from rfl, show k :: (q ++ [l]) = (k :: q) ++ [l] from rfl, dotInsert_finish, dotInsert_finish]
        simp only [walk, objAt_of hs, he]
    have := direct_same es (Ev.run (.obj a) [] g (.put (k :: ps) x)) sc m' h1 he h2 hsa hc
    simp only [play, List.foldl_cons] at this ⊢
    rw [e1]; exact this

end Zen.Policy.Iter
