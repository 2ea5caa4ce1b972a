import Verif.Heap.RefRead
/-
C07: serializing a value in the reference-compressed wire format and reading it back gives an equal value, for every
sharing pattern and every string, and every reference written is in range.

Code: core/types/src/variable/ref_ser.rs, ref_deser.rs (model: Heap/RefWire).

The theorems hold for every order in which addresses compare (`rank`) and every order in which the reader meets the
entries of a hash map (`ord`). `Plain`: no date and no interval inside, which the format writes as strings
(`C07_date_becomes_string`). The table must not have more than 2^64 entries (ids are `usize`).
-/
namespace Zen
open RefWire

/-! ### Specification -/

/-- the table of references of a wire value -/
def refTable : RcVal → List RcVal
  | .obj m => match aGet m "$refs" with
    | some (.arr R) => R
    | _ => []
  | _ => []

/-- the string occurs in the wire value, as a string or as a key -/
inductive Mentions (s : String) : RcVal → Prop
  | str : Mentions s (.str s)
  | item {ws : List RcVal} {w : RcVal} : w ∈ ws → Mentions s w → Mentions s (.arr ws)
  | key {ws : List (String × RcVal)} {w : RcVal} : (s, w) ∈ ws → Mentions s (.obj ws)
  | field {ws : List (String × RcVal)} {k : String} {w : RcVal} : (k, w) ∈ ws → Mentions s w → Mentions s (.obj ws)

/-! ### Lemmas -/

namespace RefWire

theorem refTable_obj (R : List RcVal) (w : RcVal) :
    refTable (.obj (if R.isEmpty then [("$root", w)] else [("$refs", .arr R), ("$root", w)])) = R := by
  cases R with
  | nil => simp [refTable, aGet]
  | cons u R => simp [refTable, aGet]

theorem entry_of {h : Heap} {refs : List Addr} {R : List RcVal} (t : TableOk h refs R)
    (hf : ∀ i, i < R.length → ∃ u, Filled R i u) : TableWire R := by
  intro w hw
  obtain ⟨i, hi⟩ := List.getElem?_of_mem hw
  have hlt := (List.getElem?_eq_some_iff.1 hi).1
  obtain ⟨u, hu⟩ := hf i hlt
  have := hi.symm.trans hu.1
  cases this
  have hlt' : i < refs.length := by rw [← t.len]; exact hlt
  have := t.entry i w refs[i] hu (by rw [List.getElem?_eq_getElem hlt'])
  cases hr : refs[i] with
  | text s =>
    rw [hr] at this
    have : w = .str (escape s) := this
    subst this
    exact ⟨.str s, .str s, .str s, .str s⟩
  | cell c =>
    rw [hr] at this
    obtain ⟨x, F, hx, hd, hwx, hs⟩ := this
    refine ⟨?_, x, hx, hwx⟩
    cases hwx with
    | arr _ => exact .arr _
    | obj _ _ => exact .obj _
    | null => exact absurd rfl hu.2
    | bool b => rcases hd with hd | hd <;> cases hd
    | num b => rcases hd with hd | hd <;> cases hd
    | str b => exact absurd rfl (hs _)
    | ref _ _ _ => exact absurd rfl (hs _)

theorem reorderL_mem {ord : List (String × RcVal) → List (String × RcVal)} : ∀ {R : List RcVal} {w : RcVal}, w ∈ reorderL ord R →
    ∃ u ∈ R, w = reorder ord u
  | [], _, h => by simp [reorderL] at h
  | u :: R, w, h => by
    rw [reorderL] at h
    rcases List.mem_cons.1 h with rfl | h
    · exact ⟨u, by simp, rfl⟩
    · obtain ⟨v, hv, e⟩ := reorderL_mem h
      exact ⟨v, by simp [hv], e⟩

theorem tableWire_reorder {ord : List (String × RcVal) → List (String × RcVal)} (ho : ∀ l, (ord l).Perm l) {R : List RcVal}
    (t : TableWire R) : TableWire (reorderL ord R) := by
  intro w hw
  obtain ⟨u, hu, rfl⟩ := reorderL_mem hw
  obtain ⟨he, x, hx, hwx⟩ := t u hu
  refine ⟨?_, x, hx, wire_reorder ho hwx⟩
  cases he with
  | str s => exact .str s
  | arr ws => rw [reorder]; exact .arr _
  | obj ws => rw [reorder]; exact .obj _

theorem aGet_perm {α : Type} {m n : List (String × α)} (p : m.Perm n) (hn : (aKeys n).Nodup) (k : String) : aGet m k = aGet n k := by
  have hm : (aKeys m).Nodup := ((p.map Prod.fst).nodup_iff).2 hn
  cases h : aGet n k with
  | none =>
    rw [aGet_eq_none_iff] at h ⊢
    exact fun hk => h ((p.map Prod.fst).subset hk)
  | some v => exact aGet_of_mem hm (p.symm.subset (aGet_mem h))

/-- a right table and a root are read back -/
theorem deserialize_ok {ord : List (String × RcVal) → List (String × RcVal)} (ho : ∀ l, (ord l).Perm l) {R : List RcVal} {w : RcVal}
    (t : TableWire R) {x : Val} (hx : x.Wf) (hw : Wire R w x) (h : Heap) :
    ∃ H y x', deserialize ord (.obj (if R.isEmpty then [("$root", w)] else [("$refs", .arr R), ("$root", w)])) h = .ok (H, y) ∧
      Sees H y x' ∧ x'.Wf ∧ SameV x' x ∧ ∀ a, a < h.length → H[a]? = h[a]? := by
  have t' := tableWire_reorder ho t
  have hw' := wire_reorder ho hw
  have hroot : ∀ (refs : List (Option HVal)) (H0 H1 : Heap) (m : List (String × RcVal)), Slots h.length (reorderL ord R) refs H0 →
      (∀ (i : Nat) w v, (reorderL ord R)[i]? = some w → refs[i]? = some (some v) → EntryBuilt H0.length refs H1 w v) →
      H0.length ≤ H1.length → (∀ a, a < h.length → H1[a]? = h[a]?) → h.length ≤ H0.length →
      aGet m "$root" = some (reorder ord w) →
      ∃ H y x', readRoot refs m H1 = .ok (H, y) ∧ Sees H y x' ∧ x'.Wf ∧ SameV x' x ∧ ∀ a, a < h.length → H[a]? = h[a]? := by
    intro refs H0 H1 m s hb hl hfr hl0 hm
    obtain ⟨l, y, e, bt⟩ := read_ok (B := 0) s hw' hx H1 (Nat.zero_le _)
    obtain ⟨x', F, d, hwf, hs⟩ := den_built s (H := H1 ++ l) (by
      intro i u v h1 h2
      have hbt := hb i u v h1 h2
      have hb2 := hbt.keep (keeps_append _ H1 l) (fun a c _ hc => keeps_append 0 H1 l a c (Nat.zero_le _) hc)
      obtain ⟨v', hv', hsl⟩ := s.slot i u h1
      rw [h2] at hv'; cases hv'
      cases hsl with
      | str t => exact .str t
      | arr ws a =>
        obtain ⟨ys, hc, bl⟩ := hb2.1 ws a rfl rfl
        exact .arr (Nat.zero_le _) hc (bl.keep (Nat.zero_le _) (Keeps.refl _ _))
      | obj ws a =>
        obtain ⟨ys, hc, bl⟩ := hb2.2 ws a rfl rfl
        exact .obj (Nat.zero_le _) hc (bl.keep (Nat.zero_le _) (Keeps.refl _ _))) hw' hx y bt
    refine ⟨H1 ++ l, y, x', ?_, ⟨F, d⟩, hwf, hs, fun a ha => ?_⟩
    · simp only [readRoot, hm, e]
    · rw [List.getElem?_append_left (by omega), hfr a ha]
  cases hR : R with
  | nil =>
    subst hR
    have hm : ∀ k, aGet (ord (reorderE ord [("$root", w)])) k = aGet [("$root", reorder ord w)] k :=
      fun k => aGet_perm (ho [("$root", reorder ord w)]) (by simp [aKeys]) k
    have hmr : aGet (ord (reorderE ord [("$root", w)])) "$refs" = none := by rw [hm]; simp [aGet]
    simp only [List.isEmpty_nil, if_true, deserialize, reorder, hmr]
    refine hroot [] h h _ ⟨rfl, by simp [reorderL], by simp, by simp⟩ (by simp [reorderL]) (Nat.le_refl _) (fun _ _ => rfl)
      (Nat.le_refl _) (by rw [hm]; simp [aGet])
  | cons u Q =>
    rw [← hR]
    have hne : R.isEmpty = false := by rw [hR]; rfl
    have hm : ∀ k, aGet (ord (reorderE ord [("$refs", .arr R), ("$root", w)])) k =
        aGet [("$refs", .arr (reorderL ord R)), ("$root", reorder ord w)] k := fun k => by
      have e : reorderE ord [("$refs", .arr R), ("$root", w)] = [("$refs", .arr (reorderL ord R)), ("$root", reorder ord w)] := by
        simp [reorderE, reorder]
      rw [e]
      exact aGet_perm (ho _) (by simp [aKeys]) k
    have hmr : aGet (ord (reorderE ord [("$refs", .arr R), ("$root", w)])) "$refs" = some (.arr (reorderL ord R)) := by
      rw [hm]; simp [aGet]
    obtain ⟨l, refs, e, s⟩ := alloc_ok (b := h.length) (reorderL ord R) [] [] h ⟨rfl, by simp, by simp, by simp⟩ (Nat.le_refl _)
      (fun w hw => (t' w hw).1)
    rw [List.nil_append] at s
    obtain ⟨H2, e2, l2, b2, f2⟩ := fillRefs_ok s t' (reorderL ord R) 0 (h ++ l) rfl (Nat.le_refl _) (by omega)
    rw [List.drop_zero] at e2
    simp only [hne, Bool.false_eq_true, if_false, deserialize, reorder, hmr, e, e2]
    refine hroot refs (h ++ l) H2 _ s b2 l2 (fun a ha => ?_) (by simp) (by rw [hm]; simp [aGet])
    rw [List.getElem?_eq_getElem ha]
    refine f2 a _ (.inl ha) ?_
    rw [List.getElem?_append_left ha, List.getElem?_eq_getElem ha]

mutual
theorem range_of {R : List RcVal} : ∀ {w x}, Wire R w x → ∀ s, Mentions s w → ∀ i, parseRef s = some i → i < R.length
  | _, _, .null, _, hm, _, _ => by cases hm
  | _, _, .bool _, _, hm, _, _ => by cases hm
  | _, _, .num _, _, hm, _, _ => by cases hm
  | _, _, .str t, s, hm, i, hi => by
    cases hm with | str => rw [parseRef_escape] at hi; cases hi
  | _, _, .ref h64 hf _, s, hm, i, hi => by
    cases hm with
    | str =>
      rw [parseRef_refText h64] at hi; cases hi
      exact (List.getElem?_eq_some_iff.1 hf.1).1
  | _, _, .arr h, s, hm, i, hi => by
    cases hm with | item hw hm => exact rangeL_of h _ hw s hm i hi
  | _, _, .obj h _, s, hm, i, hi => by
    cases hm with
    | key hw => exact (rangeE_of h _ _ hw).1 i hi
    | field hw hm => exact (rangeE_of h _ _ hw).2 s hm i hi
theorem rangeL_of {R : List RcVal} : ∀ {w x}, WireL R w x → ∀ u ∈ w, ∀ s, Mentions s u → ∀ i, parseRef s = some i → i < R.length
  | _, _, .nil, _, hu, _, _, _, _ => by cases hu
  | _, _, .cons h t, u, hu, s, hm, i, hi => by
    rcases List.mem_cons.1 hu with e | hu
    · exact range_of h s (e ▸ hm) i hi
    · exact rangeL_of t u hu s hm i hi
theorem rangeE_of {R : List RcVal} : ∀ {w x}, WireE R w x → ∀ k u, (k, u) ∈ w → (∀ i, parseRef k = some i → i < R.length) ∧
    ∀ s, Mentions s u → ∀ i, parseRef s = some i → i < R.length
  | _, _, .nil, _, _, hu => by cases hu
  | _, _, .cons hk h t, k, u, hu => by
    rcases List.mem_cons.1 hu with e | hu
    · obtain ⟨e1, e2⟩ := Prod.mk.inj e
      refine ⟨fun i hi => ?_, fun s hm i hi => range_of h s (e2 ▸ hm) i hi⟩
      rw [e1] at hi
      rcases hk with rfl | ⟨j, hj, rfl, hf⟩
      · rw [parseRef_escape] at hi; cases hi
      · rw [parseRef_refText hj] at hi; cases hi
        exact (List.getElem?_eq_some_iff.1 hf.1).1
    · exact rangeE_of t k u hu
end

end RefWire

/-! ### Theorems -/

variable {dyn : Dyn → RcVal} {rank : Addr → Nat} {ord : List (String × RcVal) → List (String × RcVal)}

/-- The serializer gives a result for every value that is not cyclic. -/
theorem C07_total {h : Heap} {v : HVal} {x : Val} (hv : Sees h v x) : ∃ N, ∀ n, N ≤ n → (serialize dyn rank n h v).isSome :=
  hv.elim fun _ d => serialize_total d rank

/-- What was written is read back as an equal value, wherever it is read; reading changes no cell that was there. -/
theorem C07_round_trip (ho : ∀ l, (ord l).Perm l) {h : Heap} {v : HVal} {x : Val} (hv : Sees h v x) (hx : x.Wf) (hp : Plain x)
    {n : Nat} {W : RcVal} (hW : serialize dyn rank n h v = some W) (hs : (refTable W).length ≤ 2 ^ 64) (h' : Heap) :
    ∃ H y x', deserialize ord W h' = .ok (H, y) ∧ Sees H y x' ∧ SameV x' x ∧ Val.beq x' x = true ∧
      ∀ a, a < h'.length → H[a]? = h'[a]? := by
  obtain ⟨F, d⟩ := hv
  obtain ⟨w, R, refs, rfl, hf, hR⟩ := serialize_inv d hx hp hW
  rw [refTable_obj] at hs
  obtain ⟨t, hw⟩ := hR hs
  obtain ⟨H, y, x', e, hy, hwf, hsame, hfr⟩ := deserialize_ok ho (entry_of t hf) hx hw h'
  exact ⟨H, y, x', e, hy, hsame, (Val.beq_iff _ _ hwf hx).2 hsame, hfr⟩

/-- Every reference that is written, in a string or in a key, in the root or in the table, is the index of an entry
of the table. -/
theorem C07_in_range {h : Heap} {v : HVal} {x : Val} (hv : Sees h v x) (hx : x.Wf) (hp : Plain x)
    {n : Nat} {W : RcVal} (hW : serialize dyn rank n h v = some W) (hs : (refTable W).length ≤ 2 ^ 64) {s : String}
    (hm : Mentions s W) {i : Nat} (hi : parseRef s = some i) : i < (refTable W).length := by
  obtain ⟨F, d⟩ := hv
  obtain ⟨w, R, refs, rfl, hf, hR⟩ := serialize_inv d hx hp hW
  rw [refTable_obj] at hs ⊢
  obtain ⟨t, hw⟩ := hR hs
  have hroot : parseRef "$root" = none := by decide
  have hrefs : parseRef "$refs" = none := by decide
  have tw := entry_of t hf
  have main : ∀ ws : List (String × RcVal), (∀ k u, (k, u) ∈ ws → (k = "$root" ∧ u = w) ∨ (k = "$refs" ∧ u = .arr R)) →
      Mentions s (.obj ws) → i < R.length := by
    intro ws hws hm
    clear * - hws hm hi hroot hrefs hw tw
    cases hm with
    | key hk =>
      rcases hws _ _ hk with ⟨rfl, -⟩ | ⟨rfl, -⟩
      · rw [hroot] at hi; cases hi
      · rw [hrefs] at hi; cases hi
    | field hk hm =>
      rcases hws _ _ hk with ⟨-, e⟩ | ⟨-, e⟩
      · exact range_of hw s (e ▸ hm) i hi
      · rw [e] at hm
        cases hm with
        | item hu hm =>
          obtain ⟨-, y, -, hy⟩ := tw _ hu
          exact range_of hy s hm i hi
  refine main _ (fun k u hk => ?_) hm
  split at hk
  · simp at hk; exact .inl hk
  · simp at hk; rcases hk with hk | hk
    · exact .inr hk
    · exact .inl hk

/-- No text is taken for a reference after escaping, and unescaping gives the text back: this holds for every string,
in particular for those that look like references or like escaped ones. -/
theorem C07_escape (s : String) : parseRef (escape s) = none ∧ unescape (escape s) = s :=
  ⟨parseRef_escape s, unescape_escape s⟩

/-- A reference stands for its index, for every index a 64-bit machine can have. -/
theorem C07_ref {i : Nat} (h : i < 2 ^ 64) : parseRef (refText i) = some i := parseRef_refText h

/-! ### Findings and cases -/

/-- Finding: a wire value that refers to itself is accepted, and what is read is a cyclic value: no data corresponds to it
(and walking it does not end). -/
theorem C07_cyclic : ∃ H y, deserialize id (.obj [("$refs", .arr [.arr [.str "@0"]]), ("$root", .str "@0")]) [] = .ok (H, y) ∧
    ¬ ∃ x, Sees H y x := by
  refine ⟨[.arr [.arr 0]], .arr 0, by rfl, ?_⟩
  rintro ⟨x, F, d⟩
  have d0 := d
  cases d with
  | arr hc dl =>
    cases hc
    cases dl with
    | cons d' _ =>
      have h1 := (den_fun d0 d').1
      have h2 := congrArg sizeOf h1
      simp at h2
      omega

/-- Finding: a date or an interval is written as the plain value it converts to, without mark or escape: what comes back is
a string. -/
theorem C07_date_becomes_string (d : Dyn) {t : String} (ht : dyn d = .str t) (h2 : t.toList.head? ≠ some '@') (h h' : Heap) (n : Nat) :
    ∃ W, serialize dyn rank (n + 1) h (.dyn d) = some W ∧ deserialize id W h' = .ok (h', .str t) := by
  have he : escape t = t := by unfold escape; rw [if_neg h2]
  refine ⟨.obj [("$root", .str t)], ?_, ?_⟩
  · simp [serialize, count, write, assign, ht]
  · have hp := parseRef_escape t
    have hu := unescape_escape t
    rw [he] at hp hu
    simp [deserialize, reorder, reorderE, aGet, readRoot, readV, hp, hu]

/-- Finding: a string entry of the table may not refer to a later one (the order in which entries are resolved), although
such a reference is in range; arrays and objects may. -/
theorem C07_forward_string (rest : List RcVal) : alloc [] (.str "@1" :: .str "hello" :: rest) [] = .error (.unresolvedReference 1) := by
  have h : parseRef "@1" = some 1 := by decide
  simp [alloc, readV, h]

/-- a shared object, reached twice, with a key and texts that look like references -/
private def hC07 : Heap := [.obj [("@k", .str "@0"), ("items", .arr 1)], .arr [.num 1, .str "hello"], .arr [.obj 0, .obj 0, .arr 1, .str "hello"]]
private def inC07 : Val := .obj [("@k", .str "@0"), ("items", .arr [.num 1, .str "hello"])]

example : Sees hC07 (.arr 2) (.arr [inC07, inC07, .arr [.num 1, .str "hello"], .str "hello"]) :=
  have d1 : Den hC07 (.arr 1) (.arr [.num 1, .str "hello"]) _ := .arr rfl (.cons (.num 1) (.cons (.str "hello") .nil))
  have d0 : Den hC07 (.obj 0) inC07 _ := .obj rfl (.cons (.str "@0") (.cons d1 .nil))
  ⟨_, .arr rfl (.cons d0 (.cons d0 (.cons d1 (.cons (.str "hello") .nil))))⟩

private theorem wfC07 : inC07.Wf ∧ Plain inC07 := by
  have h1 : (Val.arr [.num 1, .str "hello"]).Wf := .arr _ (by
    intro x hx; simp at hx; rcases hx with rfl | rfl
    · exact .num _
    · exact .str _)
  have h2 : Plain (Val.arr [.num 1, .str "hello"]) := .arr _ (by
    intro x hx; simp at hx; rcases hx with rfl | rfl
    · exact .num _
    · exact .str _)
  constructor
  · refine .obj _ (by decide) ?_
    intro k x hx; simp at hx; rcases hx with ⟨-, rfl⟩ | ⟨-, rfl⟩
    · exact .str _
    · exact h1
  · refine .obj _ ?_
    intro k x hx; simp at hx; rcases hx with ⟨-, rfl⟩ | ⟨-, rfl⟩
    · exact .str _
    · exact h2

/-- what is written for it -/
private def wC07 : RcVal := .obj [
  ("$refs", .arr [.str "hello", .arr [.num 1, .str "@0"], .str "items", .str "@@k", .obj [("@3", .str "@@0"), ("@2", .str "@1")]]),
  ("$root", .arr [.str "@4", .str "@4", .str "@1", .str "@0"])]

set_option maxRecDepth 4000 in
example : serialize (fun _ => .null) (fun a => match a with | .cell a => a | .text s => s.length) 10 hC07 (.arr 2) = some wC07 := by
  have h1 : refText 0 = "@0" := by rw [refText, digits]; decide
  have h2 : refText 1 = "@1" := by rw [refText, digits]; decide
  have h3 : refText 2 = "@2" := by rw [refText, digits]; decide
  have h4 : refText 3 = "@3" := by rw [refText, digits]; decide
  have h5 : refText 4 = "@4" := by rw [refText, digits]; decide
  have e1 : escape "hello" = "hello" := by decide
  have e2 : escape "items" = "items" := by decide
  have e3 : escape "@k" = "@@k" := by decide
  have e4 : escape "@0" = "@@0" := by decide
  have l1 : byteLen "hello" = 5 := by decide
  have l2 : byteLen "@0" = 2 := by decide
  have hc : count 10 hC07 [] (.arr 2) = some [(.cell 2, 1), (.cell 0, 2), (.text "@k", 2), (.text "items", 2), (.cell 1, 3), (.text "hello", 4)] := by
    simp [count, countL, countE, hC07, bump, Heap.objAt, l1, l2]
  have ha : assign (fun a => match a with | .cell a => a | .text s => s.length)
      [(.cell 2, 1), (.cell 0, 2), (.text "@k", 2), (.text "items", 2), (.cell 1, 3), (.text "hello", 4)] =
      [.text "hello", .cell 1, .text "items", .text "@k", .cell 0] := by
    have i1 : "items".length = 5 := by decide
    have i2 : "@k".length = 2 := by decide
    simp [i1, i2, assign, List.mergeSort, List.MergeSort.Internal.splitInTwo, before]
  simp only [serialize, hc, ha]
  simp [write, writeL, writeE, hC07, put, putKey, idOf, Heap.objAt, fill, aSet, aGet, h1, h2, h3, h4, h5, e1, e2, e3, e4, List.findIdx?_cons, wC07]

set_option maxRecDepth 4000 in
/-- and what is read: the shared object is one cell again -/
example : deserialize id wC07 [] = .ok ([.arr [.num 1, .str "hello"], .obj [("@k", .str "@0"), ("items", .arr 0)],
    .arr [.obj 1, .obj 1, .arr 0, .str "hello"]], .arr 2) := by rfl

end Zen
