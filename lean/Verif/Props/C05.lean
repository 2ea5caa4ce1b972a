import Verif.Heap.InPlace
import Verif.Heap.Clone
import Verif.Heap.MergeInPlace
import Verif.Props.C03
import Verif.Props.C04
/-
C05  Detached operations never mutate shared data.

`Sees h v x`: a holder of the stored value `v` sees the data `x` in the heap `h`. What an operation
returns is described by the operation on data (C03, C04).
-/
namespace Zen
open Heap
variable {h : Heap}

/-! ### nobody else sees a difference -/

/-- No cell that existed before a detached write changes, in any heap. -/
theorem C05_detached_write_frame (h : Heap) (v : HVal) (path : List String) (x : HVal) :
    ∀ a < h.length, (Heap.dotInsertDetached h v path x).1[a]? = h[a]? :=
  fun _ ha => get_ext (dotInsertDetached_ext h v path x) ha

/-- No cell that existed before a cloning merge changes, in any heap. -/
theorem C05_cloning_merge_frame (n : Nat) (h : Heap) (doc patch : HVal) {h' : Heap} {w : HVal}
    (he : Heap.mergeClone n h doc patch = some (h', w)) : ∀ a < h.length, h'[a]? = h[a]? := by
  have : h <+: h' := by
    unfold Heap.mergeClone at he
    split at he
    · cases he; exact List.prefix_refl _
    · next p =>
      cases hm : Heap.mergeC n h doc (.obj p) with
      | none => rw [hm] at he; cases he
      | some r =>
        rw [hm] at he
        cases he
        exact mergeC_ext n h doc (.obj p) _ _ _ hm
    · cases he; exact List.prefix_refl _
  exact fun _ ha => get_ext this ha

/-- Hence every holder of any value sees after a detached write what it saw before. -/
theorem C05_detached_write_unseen (v : HVal) (path : List String) (x : HVal) (w : HVal) (y : Val) (hw : Sees h w y) (z : Val) :
    Sees (Heap.dotInsertDetached h v path x).1 w z ↔ z = y := by
  obtain ⟨F, d⟩ := hw
  have d' := den_ext (dotInsertDetached_ext h v path x) d
  exact ⟨fun ⟨_, e⟩ => (den_fun e d').1, fun e => e ▸ ⟨_, d'⟩⟩

/-- ... and after a cloning merge. -/
theorem C05_cloning_merge_unseen (n : Nat) (doc patch : HVal) {h' : Heap} {r : HVal}
    (he : Heap.mergeClone n h doc patch = some (h', r)) (w : HVal) (y : Val) (hw : Sees h w y) (z : Val) :
    Sees h' w z ↔ z = y := by
  obtain ⟨F, d⟩ := hw
  have d' : Den h' w y F := den_frame d fun a ha => C05_cloning_merge_frame n h doc patch he a (den_lt d a ha)
  exact ⟨fun ⟨_, e⟩ => (den_fun e d').1, fun e => e ▸ ⟨_, d'⟩⟩

/-! ### the result -/

/-- A detached write returns the document with the path set: the data of the result is what the
write on data gives, however the document and the new value are shared. -/
theorem C05_detached_write_result (doc x : HVal) (d xv : Val) (path : List String) (hp : path ≠ []) (hd : Sees h doc d)
    (hx : Sees h x xv) :
    match (Heap.dotInsertDetached h doc path x).2 with
    | some w => ∃ r, d.dotInsertDetachedP path xv = some r ∧ Sees (Heap.dotInsertDetached h doc path x).1 w r
    | none => d.dotInsertDetachedP path xv = none := by
  obtain ⟨F, dd⟩ := hd
  obtain ⟨G, dx⟩ := hx
  obtain ⟨k, hk⟩ : ∃ k, path.getLast? = some k := by
    cases hg : path.getLast? with
    | none => rw [List.getLast?_eq_none_iff] at hg; exact absurd hg hp
    | some k => exact ⟨k, rfl⟩
  have scalar : (∀ a, doc ≠ .obj a) → d.isObj = false → (Heap.dotInsertDetached h doc path x).2 = none ∧
      d.dotInsertDetachedP path xv = none := by
    intro hne hdo
    constructor
    · have hw : ∀ (h1 : Heap) (v : HVal), (∀ a, v ≠ .obj a) → ∀ ps, ∀ a, (walkDetach h1 v ps).2 ≠ some (.obj a) := by
        intro h1 v hv ps a
        cases ps with
        | nil => simpa [walkDetach] using hv a
        | cons p ps =>
          cases v with
          | obj b => exact absurd rfl (hv b)
          | _ => simp [walkDetach]
      have hc : ∀ a, (depthClone 1 h doc).2 ≠ .obj a := by
        intro a
        cases doc with
        | obj b => exact absurd rfl (hne b)
        | arr b => simp only [depthClone]; split <;> simp [Heap.newArr]
        | _ => simp [depthClone]
      simp only [Heap.dotInsertDetached, hk]
      have := hw (depthClone 1 h doc).1 _ hc path.dropLast
      generalize walkDetach (depthClone 1 h doc).1 (depthClone 1 h doc).2 path.dropLast = w at this ⊢
      obtain ⟨w1, w2⟩ := w
      cases w2 with
      | none => rfl
      | some y =>
        cases y with
        | obj a => exact absurd rfl (this a)
        | _ => rfl
    · cases d <;> first | (simp [Val.isObj] at hdo; done) | (cases path with
        | nil => rfl
        | cons p ps => cases ps <;> rfl)
  cases dd with
  | obj ha de =>
    obtain ⟨h', r, F', h1, _, _, h2, h3⟩ := dotInsertDetached_obj path hp (objAt_of ha) de dx
    rw [h1]
    exact ⟨r, h2, _, h3⟩
  | null => obtain ⟨e1, e2⟩ := scalar (by simp) rfl; rw [e1]; exact e2
  | bool b => obtain ⟨e1, e2⟩ := scalar (by simp) rfl; rw [e1]; exact e2
  | num b => obtain ⟨e1, e2⟩ := scalar (by simp) rfl; rw [e1]; exact e2
  | str b => obtain ⟨e1, e2⟩ := scalar (by simp) rfl; rw [e1]; exact e2
  | dyn b => obtain ⟨e1, e2⟩ := scalar (by simp) rfl; rw [e1]; exact e2
  | arr _ _ => obtain ⟨e1, e2⟩ := scalar (by simp) rfl; rw [e1]; exact e2

/-- A cloning merge returns the merge of the data (C03), when objects that document and patch share
have no null property inside. (Without that see `C05_sharing_visible`.) -/
theorem C05_cloning_merge_result_partial (doc patch : HVal) (d p : Val) (Fd Fp : List Nat) (hd : Den h doc d Fd)
    (hp : Den h patch p Fp) (wd : d.Wf) (wp : p.Wf)
    (hs : ∀ a ∈ Fd, a ∈ Fp → ∀ e, Sees h (.obj a) e → e.nullFree = true) :
    ∃ h' w, Sees h' w (d.merge p) ∧ ∃ N, ∀ n, N ≤ n → Heap.mergeClone n h doc patch = some (h', w) := by
  cases hp with
  | @obj b m vs F hb dp =>
    obtain ⟨h', w, F', _, h1, N, hN⟩ := mergeC_den (.obj vs) h h doc (.obj b) d Fd (b :: F) (List.prefix_refl _) wd wp hd
      (.obj hb dp) (fun a h1 h2 e F he => hs a h1 h2 e ⟨F, he⟩)
    rw [← C03_merge_clone_agrees]
    refine ⟨h', w, ⟨F', h1⟩, N, fun n hn => ?_⟩
    simp [Heap.mergeClone, hN n hn]
  | @arr b xs vs F hb dp => exact ⟨h, .arr b, ⟨_, .arr hb dp⟩, 0, fun n _ => rfl⟩
  | null => exact ⟨h, doc, ⟨_, hd⟩, 0, fun n _ => rfl⟩
  | bool b => exact ⟨h, doc, ⟨_, hd⟩, 0, fun n _ => rfl⟩
  | num b => exact ⟨h, doc, ⟨_, hd⟩, 0, fun n _ => rfl⟩
  | str b => exact ⟨h, doc, ⟨_, hd⟩, 0, fun n _ => rfl⟩
  | dyn b => exact ⟨h, doc, ⟨_, hd⟩, 0, fun n _ => rfl⟩

/-! ### the operations in place -/

/-- A write in place to a document that is not shared inside, with a new value apart from it: the
holder of the document sees the write on data, the old value is returned, and no cell outside the
document changes. -/
theorem C05_write_in_place (a : Nat) (x : HVal) (d xv : Val) (F G : List Nat) (path : List String) (hp : path ≠ [])
    (hd : Den h (.obj a) d F) (hF : F.Nodup) (hx : Den h x xv G) (hG : ∀ b ∈ G, b ∉ F) :
    Sees (Heap.dotInsert h (.obj a) path x).1 (.obj a) (d.dotInsertP path xv).1 ∧
    OptSees (Heap.dotInsert h (.obj a) path x).1 (Heap.dotInsert h (.obj a) path x).2 (d.dotInsertP path xv).2.1 ∧
    ∀ b < h.length, b ∉ F → (Heap.dotInsert h (.obj a) path x).1[b]? = h[b]? := by
  obtain ⟨ps, k, rfl⟩ : ∃ ps k, path = ps ++ [k] :=
    ⟨path.dropLast, path.getLast hp, (List.dropLast_concat_getLast hp).symm⟩
  rw [dotInsert_finish]
  cases hd with
  | obj ha de =>
    obtain ⟨_, i2, i3, i4⟩ := insert_in_place ps k h a x _ _ _ xv G ha de hF hx hG
    exact ⟨i3, i4, fun b hb hn => i2 b hb hn⟩

theorem detached_eq_inplace (d : Val) (path : List String) (x : Val) (hp : path ≠ []) (hw : Walkable d path) :
    d.dotInsertDetachedP path x = some (d.dotInsertP path x).1 := by
  induction path generalizing d with
  | nil => exact absurd rfl hp
  | cons k ks ih =>
    have hobj := hw [] (by simp) (by simp) d (by simp [Val.dotP])
    cases d <;> simp [Val.isObj] at hobj
    next m =>
    cases ks with
    | nil => simp [Val.dotInsertDetachedP, Val.dotInsertP]
    | cons k' ks =>
      cases hg : aGet m k with
      | none =>
        have hw' : Walkable (.obj []) (k' :: ks) := by
          intro q hq hne y hy
          cases q with
          | nil => simp [Val.dotP] at hy; subst hy; rfl
          | cons q0 qs => simp [Val.dotP] at hy
        simp [Val.dotInsertDetachedP, Val.dotInsertP, hg, Val.detachChild, ih _ (by simp) hw']
      | some y =>
        have hy : y.isObj = true := hw [k] (by simp) (by simp) y (by simp [Val.dotP, hg])
        cases y <;> simp [Val.isObj] at hy
        next c =>
        simp [Val.dotInsertDetachedP, Val.dotInsertP, hg, Val.detachChild, ih _ (by simp) (walkable_cons hg hw)]

/-- On a document that is not shared inside, a detached write returns what the write in place leaves
behind (where the latter succeeds, C04). -/
theorem C05_same_write (a : Nat) (x : HVal) (d xv : Val) (F G : List Nat) (path : List String) (hp : path ≠ [])
    (hd : Den h (.obj a) d F) (hF : F.Nodup) (hx : Den h x xv G) (hG : ∀ b ∈ G, b ∉ F) (hw : Walkable d path) :
    ∃ r w, Sees (Heap.dotInsert h (.obj a) path x).1 (.obj a) r ∧
      (Heap.dotInsertDetached h (.obj a) path x).2 = some w ∧ Sees (Heap.dotInsertDetached h (.obj a) path x).1 w r := by
  have h1 := C05_write_in_place a x d xv F G path hp hd hF hx hG
  have h2 := C05_detached_write_result (.obj a) x d xv path hp ⟨_, hd⟩ ⟨_, hx⟩
  rw [detached_eq_inplace d path xv hp hw] at h2
  split at h2
  · next w hw =>
    obtain ⟨r, hr, hs⟩ := h2
    cases hr
    exact ⟨_, w, h1.1, hw, hs⟩
  · cases h2

/-- A merge in place into a document that is not shared inside and shares nothing with the patch:
no borrow fails, the result is the merge of the data, no cell outside the document changes. -/
theorem C05_merge_in_place (doc patch : HVal) (d p : Val) (Fd Fp : List Nat) (hd : Den h doc d Fd)
    (hp : Den h patch p Fp) (wd : d.Wf) (wp : p.Wf) (hF : Fd.Nodup) (hap : ∀ a ∈ Fd, a ∉ Fp) :
    ∃ h' w, Sees h' w (d.merge p) ∧ (∀ b, b ∉ Fd → h'[b]? = h[b]?) ∧
      ∃ N, ∀ n, N ≤ n → Heap.merge n h doc patch = some (.ok (h', w)) := by
  cases hp with
  | @obj b m vs F hb dp =>
    obtain ⟨h', w, F', _, h1, h2, _, N, hN⟩ := mergeI_den (.obj vs) h [] [] doc (.obj b) d Fd (b :: F) wd wp hd
      (.obj hb dp) hF (fun a ha => ⟨hap a ha, by simp, by simp⟩) (by simp)
    exact ⟨h', w, ⟨F', h2⟩, h1, N, fun n hn => by simp [Heap.merge, hN n hn]⟩
  | @arr b xs vs F hb dp => exact ⟨h, .arr b, ⟨_, .arr hb dp⟩, fun _ _ => rfl, 0, fun n _ => rfl⟩
  | null => exact ⟨h, doc, ⟨_, hd⟩, fun _ _ => rfl, 0, fun n _ => rfl⟩
  | bool b => exact ⟨h, doc, ⟨_, hd⟩, fun _ _ => rfl, 0, fun n _ => rfl⟩
  | num b => exact ⟨h, doc, ⟨_, hd⟩, fun _ _ => rfl, 0, fun n _ => rfl⟩
  | str b => exact ⟨h, doc, ⟨_, hd⟩, fun _ _ => rfl, 0, fun n _ => rfl⟩
  | dyn b => exact ⟨h, doc, ⟨_, hd⟩, fun _ _ => rfl, 0, fun n _ => rfl⟩

/-- On such a document both merges give the same data. -/
theorem C05_same_merge (doc patch : HVal) (d p : Val) (Fd Fp : List Nat) (hd : Den h doc d Fd)
    (hp : Den h patch p Fp) (wd : d.Wf) (wp : p.Wf) (hF : Fd.Nodup) (hap : ∀ a ∈ Fd, a ∉ Fp) :
    ∃ r h1 w1 h2 w2, Sees h1 w1 r ∧ Sees h2 w2 r ∧ ∃ N, ∀ n, N ≤ n →
      Heap.merge n h doc patch = some (.ok (h1, w1)) ∧ Heap.mergeClone n h doc patch = some (h2, w2) := by
  obtain ⟨h1, w1, s1, _, N1, e1⟩ := C05_merge_in_place doc patch d p Fd Fp hd hp wd wp hF hap
  obtain ⟨h2, w2, s2, N2, e2⟩ := C05_cloning_merge_result_partial doc patch d p Fd Fp hd hp wd wp
    (fun a ha hb => absurd hb (hap a ha))
  exact ⟨_, h1, w1, h2, w2, s1, s2, max N1 N2, fun n hn => ⟨e1 n (by omega), e2 n (by omega)⟩⟩

/-! ### copies -/

/-- A deep copy has the same data, consists of new cells, each met once, and leaves the old cells as
they are; so (`C05_write_in_place`, `C05_merge_in_place`) writing to the copy is not seen by the
holders of the original. -/
theorem C05_deep_clone (v : HVal) (x : Val) (hv : Sees h v x) :
    ∃ h' w F, Den h' w x F ∧ F.Nodup ∧ (∀ a ∈ F, h.length ≤ a) ∧ (∀ a < h.length, h'[a]? = h[a]?) ∧
      ∃ N, ∀ n, N ≤ n → Heap.deepClone n h v = some (h', w) := by
  obtain ⟨F, d⟩ := hv
  obtain ⟨h', w, F', h1, h2, h3, h4, h5⟩ := deepClone_den d h (List.prefix_refl _)
  exact ⟨h', w, F', h2, h3, h4, fun a ha => get_ext h1 ha, h5⟩

/-- A copy to any depth has the same data and leaves the old cells as they are. -/
theorem C05_depth_clone (n : Nat) (v : HVal) (x : Val) (hv : Sees h v x) :
    Sees (Heap.depthClone n h v).1 (Heap.depthClone n h v).2 x ∧
    ∀ a < h.length, (Heap.depthClone n h v).1[a]? = h[a]? := by
  obtain ⟨F, d⟩ := hv
  exact ⟨depthClone_den n d h (List.prefix_refl _), fun a ha => get_ext (depthClone_ext n h v) ha⟩

/-! ### where sharing shows -/

/-- NEGATIVE. In a document that holds one object under two keys, a write in place through one key
is seen under the other; the detached write is not. So the two do not give the same result. -/
theorem C05_in_place_differs :
    ∃ (h : Heap) (doc x : HVal) (r r' : Val) (w : HVal), Sees (Heap.dotInsert h doc ["a", "x"] x).1 doc r ∧
      (Heap.dotInsertDetached h doc ["a", "x"] x).2 = some w ∧
      Sees (Heap.dotInsertDetached h doc ["a", "x"] x).1 w r' ∧
      r.dotP ["b", "x"] = some (.num 1) ∧ r'.dotP ["b", "x"] = none := by
  refine ⟨[.obj [], .obj [("a", .obj 0), ("b", .obj 0)]], .obj 1, .num 1,
    .obj [("a", .obj [("x", .num 1)]), ("b", .obj [("x", .num 1)])], .obj [("a", .obj [("x", .num 1)]), ("b", .obj [])],
    .obj 2, ?_, by rfl, ?_, by rfl, by rfl⟩
  · rw [sees_iff_read]; exact ⟨4, by rfl⟩
  · rw [sees_iff_read]; exact ⟨4, by rfl⟩

/-- NEGATIVE. Whether data is shared decides the result of a merge: where document and patch hold the
*same* object it is kept with its null properties (mod.rs:381-383), where they hold equal ones the
null properties are dropped. -/
theorem C05_sharing_visible :
    ∃ (h : Heap) (doc p₁ p₂ : HVal) (d p r₁ r₂ : Val) (h₁ h₂ : Heap) (w₁ w₂ : HVal),
      Sees h doc d ∧ Sees h p₁ p ∧ Sees h p₂ p ∧
      Heap.mergeClone 9 h doc p₁ = some (h₁, w₁) ∧ Sees h₁ w₁ r₁ ∧
      Heap.mergeClone 9 h doc p₂ = some (h₂, w₂) ∧ Sees h₂ w₂ r₂ ∧
      r₁.dotP ["a", "x"] = some .null ∧ r₂.dotP ["a", "x"] = none := by
  refine ⟨[.obj [("x", .null)], .obj [("x", .null)], .obj [("a", .obj 0)], .obj [("a", .obj 0)], .obj [("a", .obj 1)]],
    .obj 2, .obj 3, .obj 4, .obj [("a", .obj [("x", .null)])], .obj [("a", .obj [("x", .null)])],
    .obj [("a", .obj [("x", .null)])], .obj [("a", .obj [])],
    [.obj [("x", .null)], .obj [("x", .null)], .obj [("a", .obj 0)], .obj [("a", .obj 0)], .obj [("a", .obj 1)]],
    [.obj [("x", .null)], .obj [("x", .null)], .obj [("a", .obj 0)], .obj [("a", .obj 0)], .obj [("a", .obj 1)], .obj [],
      .obj [("a", .obj 5)]], .obj 2, .obj 6, ?_, ?_, ?_, by rfl, ?_, by rfl, ?_, by rfl, by rfl⟩ <;>
  · rw [sees_iff_read]; exact ⟨4, by rfl⟩

/-- NEGATIVE. A merge in place fails on a borrow when the patch holds the document itself: merging
`{b: doc}` into `doc = {b: {}}` panics. -/
theorem C05_in_place_panics :
    ∃ (h : Heap) (doc patch : HVal) (d p : Val), Sees h doc d ∧ Sees h patch p ∧
      ∀ n, 2 ≤ n → Heap.merge n h doc patch = some (.error .borrow) := by
  refine ⟨[.obj [], .obj [("b", .obj 0)], .obj [("b", .obj 1)]], .obj 1, .obj 2, .obj [("b", .obj [])],
    .obj [("b", .obj [("b", .obj [])])], ?_, ?_, ?_⟩
  · rw [sees_iff_read]; exact ⟨4, by rfl⟩
  · rw [sees_iff_read]; exact ⟨4, by rfl⟩
  · intro n hn
    obtain ⟨n, rfl⟩ : ∃ k, n = k + 2 := ⟨n - 2, by omega⟩
    rfl

/-- NEGATIVE. Writing a value into itself in place makes it cyclic: afterwards it cannot be read to
the end. This is what an expression node does with an item whose value is `$` (the node's result so
far) and whose key is not the first. -/
theorem C05_cycle :
    ∃ (h : Heap) (doc : HVal) (d : Val), Sees h doc d ∧ ∀ r, ¬ Sees (Heap.dotInsert h doc ["k"] doc).1 doc r := by
  refine ⟨[.obj []], .obj 0, .obj [], ?_, fun r hr => ?_⟩
  · rw [sees_iff_read]; exact ⟨2, by rfl⟩
  · have hh : (Heap.dotInsert [.obj []] (.obj 0) ["k"] (.obj 0)).1 = [.obj [("k", .obj 0)]] := by rfl
    rw [hh, sees_iff_read] at hr
    obtain ⟨n, hn⟩ := hr
    have : ∀ n r, Heap.read n [.obj [("k", .obj 0)]] (.obj 0) ≠ some r := by
      intro n
      induction n with
      | zero => intro r; simp [Heap.read]
      | succ n ih =>
        intro r
        have h0 : Heap.objAt [.obj [("k", .obj 0)]] 0 = some [("k", .obj 0)] := rfl
        simp only [Heap.read, h0, Heap.readE]
        cases hr : Heap.read n [.obj [("k", .obj 0)]] (.obj 0) with
        | none => simp
        | some y => exact absurd hr (ih y)
    exact this n r hn

/-! instances -/

/-- a document `{a: s, b: s}` with a shared object `s = {x: 1}`, and the value `2` -/
def heapDemo : Heap := [.obj [("x", .num 1)], .obj [("a", .obj 0), ("b", .obj 0)], .obj [("a", .obj 3)], .obj [("y", .null), ("z", .arr 4)], .arr [.num 7]]

example : (Heap.dotInsertDetached heapDemo (.obj 1) ["a", "y"] (.num 2)).2 = some (.obj 5) ∧
    Sees (Heap.dotInsertDetached heapDemo (.obj 1) ["a", "y"] (.num 2)).1 (.obj 5)
      (.obj [("a", .obj [("x", .num 1), ("y", .num 2)]), ("b", .obj [("x", .num 1)])]) ∧
    Sees (Heap.dotInsertDetached heapDemo (.obj 1) ["a", "y"] (.num 2)).1 (.obj 1)
      (.obj [("a", .obj [("x", .num 1)]), ("b", .obj [("x", .num 1)])]) := by
  refine ⟨by rfl, ?_, ?_⟩ <;>
  · rw [sees_iff_read]; exact ⟨4, by rfl⟩

example : ∃ h' w, Heap.mergeClone 9 heapDemo (.obj 1) (.obj 2) = some (h', w) ∧
    Sees h' w (.obj [("a", .obj [("x", .num 1), ("z", .arr [.num 7])]), ("b", .obj [("x", .num 1)])]) ∧
    Sees h' (.obj 1) (.obj [("a", .obj [("x", .num 1)]), ("b", .obj [("x", .num 1)])]) := by
  refine ⟨_, _, rfl, ?_, ?_⟩ <;>
  · rw [sees_iff_read]; exact ⟨4, by rfl⟩

end Zen
