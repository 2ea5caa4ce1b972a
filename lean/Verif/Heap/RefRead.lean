import Verif.Heap.RefWrite
/- Lemmas about the reference-compressed wire format: what the deserializer reads. -/
namespace Zen
namespace RefWire

/-! ### the reader's order -/

theorem WireE.perm {R : List RcVal} {ws ws' : List (String × RcVal)} (p : ws.Perm ws') :
    ∀ {es}, WireE R ws es → ∃ es', WireE R ws' es' ∧ es.Perm es' := by
  induction p with
  | nil => intro es h; exact ⟨es, h, .refl _⟩
  | cons x _ ih =>
    intro es h
    cases h with
    | cons k h t =>
      obtain ⟨es', h', p'⟩ := ih t
      exact ⟨_, .cons k h h', p'.cons _⟩
  | swap x y l =>
    intro es h
    cases h with
    | cons k h t =>
      cases t with
      | cons k2 h2 t => exact ⟨_, .cons k2 h2 (.cons k h t), .swap _ _ _⟩
  | trans _ _ ih1 ih2 =>
    intro es h
    obtain ⟨e1, h1, p1⟩ := ih1 h
    obtain ⟨e2, h2, p2⟩ := ih2 h1
    exact ⟨e2, h2, p1.trans p2⟩

theorem reorderL_get (ord : List (String × RcVal) → List (String × RcVal)) :
    ∀ (R : List RcVal) (i : Nat), (reorderL ord R)[i]? = R[i]?.map (reorder ord)
  | [], i => by simp [reorderL]
  | w :: R, 0 => by simp [reorderL]
  | w :: R, i + 1 => by simpa [reorderL] using reorderL_get ord R i

theorem reorder_ne {ord : List (String × RcVal) → List (String × RcVal)} {w : RcVal} (h : w ≠ .null) : reorder ord w ≠ .null := by
  cases w <;> simp_all [reorder]

theorem filled_reorder {ord : List (String × RcVal) → List (String × RcVal)} {R : List RcVal} {i : Nat} {w : RcVal}
    (h : Filled R i w) : Filled (reorderL ord R) i (reorder ord w) :=
  ⟨by rw [reorderL_get, h.1]; rfl, reorder_ne h.2⟩

theorem keyWire_reorder {ord : List (String × RcVal) → List (String × RcVal)} {R : List RcVal} {k' k : String}
    (h : KeyWire R k' k) : KeyWire (reorderL ord R) k' k := by
  rcases h with h | ⟨i, hi, h, hf⟩
  · exact .inl h
  · exact .inr ⟨i, hi, h, by simpa [reorder] using filled_reorder (ord := ord) hf⟩

mutual
theorem wire_reorder {ord : List (String × RcVal) → List (String × RcVal)} (ho : ∀ l, (ord l).Perm l) {R : List RcVal} :
    ∀ {w x}, Wire R w x → Wire (reorderL ord R) (reorder ord w) x
  | _, _, .null => .null
  | _, _, .bool b => .bool b
  | _, _, .num b => .num b
  | _, _, .str b => .str b
  | _, _, .arr h => by rw [reorder]; exact .arr (wireL_reorder ho h)
  | _, _, .obj h p => by
    rw [reorder]
    obtain ⟨es', h', p'⟩ := (wireE_reorder ho h).perm (ho _).symm
    exact .obj h' (p'.symm.trans p)
  | _, _, .ref hi hf h => by
    rw [reorder]
    · exact .ref hi (filled_reorder hf) (wire_reorder ho h)
    · simp
    · simp
theorem wireL_reorder {ord : List (String × RcVal) → List (String × RcVal)} (ho : ∀ l, (ord l).Perm l) {R : List RcVal} :
    ∀ {w x}, WireL R w x → WireL (reorderL ord R) (reorderL ord w) x
  | _, _, .nil => by rw [reorderL]; exact .nil
  | _, _, .cons h t => by rw [reorderL]; exact .cons (wire_reorder ho h) (wireL_reorder ho t)
theorem wireE_reorder {ord : List (String × RcVal) → List (String × RcVal)} (ho : ∀ l, (ord l).Perm l) {R : List RcVal} :
    ∀ {w x}, WireE R w x → WireE (reorderL ord R) (reorderE ord w) x
  | _, _, .nil => by rw [reorderE]; exact .nil
  | _, _, .cons k h t => by
    rw [reorderE]; exact .cons (keyWire_reorder k) (wire_reorder ho h) (wireE_reorder ho t)
end

/-! ### what has been read -/

mutual
/-- `y` was read from the wire value; every cell made for it is at least `B` -/
inductive Built (B : Nat) (refs : List (Option HVal)) (H : Heap) : RcVal → HVal → Prop
  | null : Built B refs H .null .null
  | bool (b : Bool) : Built B refs H (.bool b) (.bool b)
  | num (n : Rat) : Built B refs H (.num n) (.num n)
  | str (s : String) : Built B refs H (.str (escape s)) (.str s)
  | ref {i : Nat} {v : HVal} : i < 2 ^ 64 → refs[i]? = some (some v) → Built B refs H (.str (refText i)) v
  | arr {a : Nat} {ws : List RcVal} {ys : List HVal} : B ≤ a → H[a]? = some (.arr ys) → BuiltL B refs H ws ys →
      Built B refs H (.arr ws) (.arr a)
  | obj {a : Nat} {ws : List (String × RcVal)} {m : List (String × HVal)} : B ≤ a → H[a]? = some (.obj m) →
      BuiltE B refs H ws m → Built B refs H (.obj ws) (.obj a)
inductive BuiltL (B : Nat) (refs : List (Option HVal)) (H : Heap) : List RcVal → List HVal → Prop
  | nil : BuiltL B refs H [] []
  | cons {w ws y ys} : Built B refs H w y → BuiltL B refs H ws ys → BuiltL B refs H (w :: ws) (y :: ys)
inductive BuiltE (B : Nat) (refs : List (Option HVal)) (H : Heap) : List (String × RcVal) → List (String × HVal) → Prop
  | nil : BuiltE B refs H [] []
  | cons {k' k w ws y ys} : readKey refs k' = .ok k → Built B refs H w y → BuiltE B refs H ws ys →
      BuiltE B refs H ((k', w) :: ws) ((k, y) :: ys)
end

/-- the cells from `B` on are kept -/
def Keeps (B : Nat) (H H' : Heap) : Prop := ∀ a c, B ≤ a → H[a]? = some c → H'[a]? = some c

theorem Keeps.refl (B : Nat) (H : Heap) : Keeps B H H := fun _ _ _ h => h
theorem Keeps.trans {B : Nat} {a b c : Heap} (h : Keeps B a b) (h' : Keeps B b c) : Keeps B a c :=
  fun i x hi hx => h' i x hi (h i x hi hx)

section
variable {B B' : Nat} {refs : List (Option HVal)} {H H' : Heap}

mutual
theorem Built.keep (hb : B' ≤ B) (k : Keeps B H H') : ∀ {w y}, Built B refs H w y → Built B' refs H' w y
  | _, _, .null => .null
  | _, _, .bool b => .bool b
  | _, _, .num b => .num b
  | _, _, .str b => .str b
  | _, _, .ref hi h => .ref hi h
  | _, _, .arr ha hc h => .arr (Nat.le_trans hb ha) (k _ _ ha hc) (BuiltL.keep hb k h)
  | _, _, .obj ha hc h => .obj (Nat.le_trans hb ha) (k _ _ ha hc) (BuiltE.keep hb k h)
theorem BuiltL.keep (hb : B' ≤ B) (k : Keeps B H H') : ∀ {w y}, BuiltL B refs H w y → BuiltL B' refs H' w y
  | _, _, .nil => .nil
  | _, _, .cons h t => .cons (Built.keep hb k h) (BuiltL.keep hb k t)
theorem BuiltE.keep (hb : B' ≤ B) (k : Keeps B H H') : ∀ {w y}, BuiltE B refs H w y → BuiltE B' refs H' w y
  | _, _, .nil => .nil
  | _, _, .cons hk h t => .cons hk (Built.keep hb k h) (BuiltE.keep hb k t)
end

theorem BuiltE.append : ∀ {a b x y}, BuiltE B refs H a x → BuiltE B refs H b y → BuiltE B refs H (a ++ b) (x ++ y)
  | _, _, _, _, .nil, h => h
  | _, _, _, _, .cons k h t, h' => .cons k h (BuiltE.append t h')
end

theorem keeps_append (B : Nat) (h l : Heap) : Keeps B h (h ++ l) := by
  intro a c _ hc
  rw [List.getElem?_append_left (List.getElem?_eq_some_iff.1 hc).1, hc]

/-! ### the first pass -/

/-- an entry of the table and what the first pass makes of it -/
inductive Slot : RcVal → HVal → Prop
  | str (s : String) : Slot (.str (escape s)) (.str s)
  | arr (ws : List RcVal) (a : Nat) : Slot (.arr ws) (.arr a)
  | obj (ws : List (String × RcVal)) (a : Nat) : Slot (.obj ws) (.obj a)

/-- an entry the first pass can resolve -/
inductive Entry : RcVal → Prop
  | str (s : String) : Entry (.str (escape s))
  | arr (ws : List RcVal) : Entry (.arr ws)
  | obj (ws : List (String × RcVal)) : Entry (.obj ws)

/-- the cell a value is stored in -/
def cellOf : HVal → Option Nat
  | .arr a => some a
  | .obj a => some a
  | _ => none

/-- what is known of the references after the first pass, started with `b` cells -/
structure Slots (b : Nat) (R : List RcVal) (refs : List (Option HVal)) (H : Heap) : Prop where
  len : refs.length = R.length
  slot : ∀ (i : Nat) (w : RcVal), R[i]? = some w → ∃ v, refs[i]? = some (some v) ∧ Slot w v
  cell : ∀ (i : Nat) (v : HVal) (a : Nat), refs[i]? = some (some v) → cellOf v = some a → b ≤ a ∧ a < H.length
  apart : ∀ (i j : Nat) (v u : HVal) (a : Nat), refs[i]? = some (some v) → refs[j]? = some (some u) → cellOf v = some a →
    cellOf u = some a → i = j

theorem Slots.snoc {b : Nat} {R : List RcVal} {refs : List (Option HVal)} {H : Heap} (s : Slots b R refs H) {w : RcVal} {v : HVal}
    {l : Heap} (hs : Slot w v) (hc : ∀ a, cellOf v = some a → a = H.length ∧ b ≤ a ∧ l ≠ []) :
    Slots b (R ++ [w]) (refs ++ [some v]) (H ++ l) := by
  have key : ∀ (i : Nat) (u : HVal), (refs ++ [some v])[i]? = some (some u) →
      refs[i]? = some (some u) ∨ (i = refs.length ∧ u = v) := by
    intro i u h
    rcases Nat.lt_trichotomy i refs.length with h1 | h1 | h1
    · rw [List.getElem?_append_left h1] at h; exact .inl h
    · subst h1; simp at h; exact .inr ⟨rfl, h.symm⟩
    · rw [List.getElem?_eq_none (by simp; omega)] at h; cases h
  refine ⟨by simp [s.len], fun i u h => ?_, fun i u a h ha => ?_, fun i j u t a h1 h2 h3 h4 => ?_⟩
  · rcases Nat.lt_trichotomy i R.length with h1 | h1 | h1
    · rw [List.getElem?_append_left h1] at h
      obtain ⟨x, hx, hsx⟩ := s.slot i u h
      exact ⟨x, by rw [List.getElem?_append_left (by rw [s.len]; exact h1), hx], hsx⟩
    · subst h1
      simp at h; subst h
      exact ⟨v, by rw [← s.len]; simp, hs⟩
    · rw [List.getElem?_eq_none (by simp; omega)] at h; cases h
  · rcases key i u h with h | ⟨rfl, rfl⟩
    · have := s.cell i u a h ha
      simp; omega
    · obtain ⟨rfl, h1, h2⟩ := hc a ha
      refine ⟨h1, ?_⟩
      have := List.length_pos_iff.2 h2
      simp; omega
  · rcases key i u h1 with g1 | ⟨e1, rfl⟩ <;> rcases key j t h2 with g2 | ⟨e2, rfl⟩
    · exact s.apart i j u t a g1 g2 h3 h4
    · have := s.cell i u a g1 h3
      have := hc a h4
      omega
    · have := s.cell j t a g2 h4
      have := hc a h3
      omega
    · rw [e1, e2]

theorem alloc_ok {b : Nat} : ∀ (todo : List RcVal) (R : List RcVal) (done : List (Option HVal)) (H : Heap), Slots b R done H → b ≤ H.length →
    (∀ w ∈ todo, Entry w) →
    ∃ l refs, alloc done todo H = .ok (H ++ l, refs) ∧ Slots b (R ++ todo) refs (H ++ l)
  | [], R, done, H, s, hb, he => ⟨[], done, by simp [alloc], by simpa using s⟩
  | w :: todo, R, done, H, s, hb, he => by
    have he' : ∀ w ∈ todo, Entry w := fun w hw => he w (by simp [hw])
    cases he w (by simp) with
    | str t =>
      obtain ⟨l, refs, e, s'⟩ := alloc_ok todo (R ++ [.str (escape t)]) (done ++ [some (.str t)]) (H ++ [])
        (s.snoc (.str t) (by simp [cellOf])) (by simpa using hb) he'
      refine ⟨l, refs, ?_, by simpa using s'⟩
      simp only [alloc, readV, parseRef_escape, unescape_escape]
      simpa using e
    | arr ws =>
      obtain ⟨l, refs, e, s'⟩ := alloc_ok todo (R ++ [.arr ws]) (done ++ [some (.arr H.length)]) (H ++ [.arr []])
        (s.snoc (.arr ws H.length) (by simp [cellOf, hb])) (by simp; omega) he'
      refine ⟨.arr [] :: l, refs, ?_, by simpa using s'⟩
      simp only [alloc, Heap.newArr]
      simpa using e
    | obj ws =>
      obtain ⟨l, refs, e, s'⟩ := alloc_ok todo (R ++ [.obj ws]) (done ++ [some (.obj H.length)]) (H ++ [.obj []])
        (s.snoc (.obj ws H.length) (by simp [cellOf, hb])) (by simp; omega) he'
      refine ⟨.obj [] :: l, refs, ?_, by simpa using s'⟩
      simp only [alloc, Heap.newObj]
      simpa using e

/-! ### reading a value -/

section
variable {b : Nat} {R : List RcVal} {refs : List (Option HVal)} {H0 : Heap}

theorem readKey_ok (s : Slots b R refs H0) {k' k : String} (h : KeyWire R k' k) : readKey refs k' = .ok k := by
  unfold readKey
  rcases h with rfl | ⟨i, hi, rfl, hf⟩
  · rw [parseRef_escape, unescape_escape]
  · rw [parseRef_refText hi]
    obtain ⟨v, hv, hs⟩ := s.slot i _ hf.1
    simp only [hv]
    generalize hw : RcVal.str (escape k) = w at hs
    cases hs with
    | str t =>
      simp only [RcVal.str.injEq] at hw
      have : k = t := by rw [← unescape_escape k, hw, unescape_escape]
      subst this; rfl
    | arr ws a => cases hw
    | obj ws a => cases hw

mutual
/-- What the serializer writes can be read; reading adds cells at the end. -/
theorem read_ok (s : Slots b R refs H0) {B : Nat} : ∀ {w x}, Wire R w x → x.Wf → ∀ h : Heap, B ≤ h.length →
    ∃ l y, readV refs w h = .ok (h ++ l, y) ∧ Built B refs (h ++ l) w y
  | _, _, .null, _, h, hb => ⟨[], _, by simp only [readV, List.append_nil], .null⟩
  | _, _, .bool c, _, h, hb => ⟨[], _, by simp only [readV, List.append_nil], .bool c⟩
  | _, _, .num c, _, h, hb => ⟨[], _, by simp only [readV, List.append_nil], .num c⟩
  | _, _, .str c, _, h, hb => ⟨[], .str c, by simp only [readV, parseRef_escape, unescape_escape, List.append_nil], .str c⟩
  | _, _, .ref hi hf hw, _, h, hb => by
    obtain ⟨v, hv, -⟩ := s.slot _ _ hf.1
    exact ⟨[], v, by simp only [readV, parseRef_refText hi, hv, List.append_nil], .ref hi hv⟩
  | _, _, .arr hw, hx, h, hb => by
    obtain ⟨l, ys, e, bt⟩ := readL_ok s hw (wf_arr hx) h hb
    refine ⟨l ++ [.arr ys], .arr (h ++ l).length, ?_, ?_⟩
    · simp only [readV, e, Heap.newArr, List.append_assoc]
    · rw [← List.append_assoc]
      exact .arr (by simp; omega) (by simp) (bt.keep (Nat.le_refl _) (keeps_append _ _ _))
  | _, _, .obj hw p, hx, h, hb => by
    obtain ⟨hk, hx'⟩ := hx.obj_inv
    have hk' : (aKeys _).Nodup := ((p.map Prod.fst).nodup_iff).2 hk
    obtain ⟨l, ys, e, bt⟩ := readE_ok s hw (fun k y hy => hx' k y (p.subset hy)) [] [] h hb .nil (by simpa using hk')
    refine ⟨l ++ [.obj ys], .obj (h ++ l).length, ?_, ?_⟩
    · simp only [readV, e, Heap.newObj, List.append_assoc]
    · rw [← List.append_assoc]
      exact .obj (by simp; omega) (by simp) (bt.keep (Nat.le_refl _) (keeps_append _ _ _))
theorem readL_ok (s : Slots b R refs H0) {B : Nat} : ∀ {w x}, WireL R w x → (∀ y ∈ x, y.Wf) → ∀ h : Heap, B ≤ h.length →
    ∃ l y, readL refs w h = .ok (h ++ l, y) ∧ BuiltL B refs (h ++ l) w y
  | _, _, .nil, _, h, hb => ⟨[], [], by simp only [readL, List.append_nil], .nil⟩
  | _, _, .cons hw t, hx, h, hb => by
    obtain ⟨l1, y, e1, b1⟩ := read_ok s hw (hx _ (by simp)) h hb
    obtain ⟨l2, ys, e2, b2⟩ := readL_ok (B := B) s t (fun y hy => hx y (by simp [hy])) (h ++ l1) (by simp; omega)
    refine ⟨l1 ++ l2, y :: ys, ?_, ?_⟩
    · simp only [readL, e1, e2, List.append_assoc]
    · rw [← List.append_assoc]
      exact .cons (b1.keep (Nat.le_refl _) (keeps_append _ _ _)) b2
theorem readE_ok (s : Slots b R refs H0) {B : Nat} : ∀ {w x}, WireE R w x → (∀ k y, (k, y) ∈ x → y.Wf) →
    ∀ (accw : List (String × RcVal)) (acc : List (String × HVal)) (h : Heap), B ≤ h.length → BuiltE B refs h accw acc →
    (aKeys acc ++ aKeys x).Nodup →
    ∃ l y, readE refs w acc h = .ok (h ++ l, y) ∧ BuiltE B refs (h ++ l) (accw ++ w) y
  | _, _, .nil, _, accw, acc, h, hb, ha, _ => ⟨[], acc, by simp only [readE, List.append_nil], by simpa using ha⟩
  | _, _, .cons (k' := k') (k := k) (w := w) kw hw t, hx, accw, acc, h, hb, ha, hn => by
    obtain ⟨l1, y, e1, b1⟩ := read_ok s hw (hx k _ (by simp)) h hb
    have hnew : aGet acc k = none := by
      rw [aGet_eq_none_iff]
      intro hm
      exact (List.nodup_append.1 hn).2.2 k hm k (by simp) rfl
    have hset : aSet acc k y = acc ++ [(k, y)] := by simp [aSet, hnew]
    obtain ⟨l2, ys, e2, b2⟩ := readE_ok s t (fun k y hy => hx k y (by simp [hy])) (accw ++ [(k', w)]) (acc ++ [(k, y)]) (h ++ l1)
      (by simp; omega) ((ha.keep (Nat.le_refl _) (keeps_append _ _ _)).append (.cons (readKey_ok s kw) b1 .nil)) (by simpa using hn)
    refine ⟨l1 ++ l2, ys, ?_, ?_⟩
    · simp only [readE, readKey_ok s kw, e1, hset, e2, List.append_assoc]
    · rw [← List.append_assoc]
      simpa using b2
end


/-! ### the second pass -/

/-- the entry has its contents -/
def EntryBuilt (B : Nat) (refs : List (Option HVal)) (H : Heap) (w : RcVal) (v : HVal) : Prop :=
  (∀ ws a, w = .arr ws → v = .arr a → ∃ ys, H[a]? = some (.arr ys) ∧ BuiltL B refs H ws ys) ∧
  (∀ ws a, w = .obj ws → v = .obj a → ∃ ys, H[a]? = some (.obj ys) ∧ BuiltE B refs H ws ys)

theorem EntryBuilt.keep {B : Nat} {H H' : Heap} {w : RcVal} {v : HVal} (e : EntryBuilt B refs H w v) (k : Keeps B H H')
    (hc : ∀ a c, cellOf v = some a → H[a]? = some c → H'[a]? = some c) : EntryBuilt B refs H' w v := by
  refine ⟨fun ws a h1 h2 => ?_, fun ws a h1 h2 => ?_⟩
  · obtain ⟨ys, h, bt⟩ := e.1 ws a h1 h2
    exact ⟨ys, hc a _ (by rw [h2]; rfl) h, bt.keep (Nat.le_refl _) k⟩
  · obtain ⟨ys, h, bt⟩ := e.2 ws a h1 h2
    exact ⟨ys, hc a _ (by rw [h2]; rfl) h, bt.keep (Nat.le_refl _) k⟩

/-- what a table must satisfy to be read -/
def TableWire (R : List RcVal) : Prop := ∀ w ∈ R, Entry w ∧ ∃ x, x.Wf ∧ Wire R w x

/-- one entry: only its own cell changes, and new cells are added -/
theorem fillRef_ok (s : Slots b R refs H0) {w : RcVal} {v : HVal} (hs : Slot w v) {x : Val} (hx : x.Wf) (hw : Wire R w x) (H : Heap)
    (hH : H0.length ≤ H.length) (hv : ∀ a, cellOf v = some a → a < H0.length) :
    ∃ H', fillRef refs (some v) w H = .ok H' ∧ H.length ≤ H'.length ∧ EntryBuilt H0.length refs H' w v ∧
      ∀ a c, cellOf v ≠ some a → H[a]? = some c → H'[a]? = some c := by
  cases hs with
  | str t =>
    refine ⟨H, by simp [fillRef], Nat.le_refl _, ⟨by simp, by simp⟩, fun a c _ h => h⟩
  | arr ws a =>
    have ha : a < H0.length := hv a rfl
    cases hw with
    | arr hw =>
      obtain ⟨l, ys, e, bt⟩ := readL_ok (B := H0.length) s hw (wf_arr hx) H hH
      refine ⟨(H ++ l).set a (.arr ys), by simp [fillRef, e], by simp, ⟨fun ws' a' h1 h2 => ?_, by simp⟩, fun c d hc hd => ?_⟩
      · cases h1; cases h2
        refine ⟨ys, by rw [List.getElem?_set_self (by simp; omega)], bt.keep (Nat.le_refl _) ?_⟩
        intro i c hi hc
        rw [List.getElem?_set_ne (by omega), hc]
      · rw [List.getElem?_set_ne (by simpa [cellOf] using hc)]
        exact keeps_append 0 H l c d (Nat.zero_le _) hd
  | obj ws a =>
    have ha : a < H0.length := hv a rfl
    cases hw with
    | obj hw p =>
      obtain ⟨hk, hx'⟩ := hx.obj_inv
      have hk' : (aKeys _).Nodup := ((p.map Prod.fst).nodup_iff).2 hk
      obtain ⟨l, ys, e, bt⟩ := readE_ok (B := H0.length) s hw (fun k y hy => hx' k y (p.subset hy)) [] [] H hH .nil (by simpa using hk')
      refine ⟨(H ++ l).set a (.obj ys), by simp [fillRef, e], by simp, ⟨by simp, fun ws' a' h1 h2 => ?_⟩, fun c d hc hd => ?_⟩
      · cases h1; cases h2
        refine ⟨ys, by rw [List.getElem?_set_self (by simp; omega)], ?_⟩
        refine BuiltE.keep (Nat.le_refl _) ?_ (by simpa using bt)
        intro i c hi hc
        rw [List.getElem?_set_ne (by omega), hc]
      · rw [List.getElem?_set_ne (by simpa [cellOf] using hc)]
        exact keeps_append 0 H l c d (Nat.zero_le _) hd

theorem fillRefs_ok (s : Slots b R refs H0) (ht : TableWire R) : ∀ (ws : List RcVal) (k : Nat) (H : Heap), R.drop k = ws →
    H0.length ≤ H.length →
    (∀ (i : Nat) w v, i < k → R[i]? = some w → refs[i]? = some (some v) → EntryBuilt H0.length refs H w v) →
    ∃ H', fillRefs refs (refs.drop k) ws H = .ok H' ∧ H.length ≤ H'.length ∧
      (∀ (i : Nat) w v, R[i]? = some w → refs[i]? = some (some v) → EntryBuilt H0.length refs H' w v) ∧
      ∀ a c, (a < b ∨ H0.length ≤ a) → H[a]? = some c → H'[a]? = some c
  | [], k, H, hd, hH, hb => by
    have hk := List.drop_eq_nil_iff.1 hd
    refine ⟨H, ?_, Nat.le_refl _, fun i w v h1 h2 => hb i w v ?_ h1 h2, fun a c _ h => h⟩
    · cases refs.drop k <;> simp [fillRefs]
    · have := (List.getElem?_eq_some_iff.1 h1).1; omega
  | w :: ws, k, H, hd, hH, hb => by
    have hk : k < R.length := by
      rcases Nat.lt_or_ge k R.length with h | h
      · exact h
      · rw [List.drop_eq_nil_iff.2 h] at hd; cases hd
    rw [List.drop_eq_getElem_cons hk] at hd
    obtain ⟨hw, hd⟩ := List.cons.inj hd
    have hwk : R[k]? = some w := by rw [List.getElem?_eq_getElem hk, hw]
    obtain ⟨-, x, hx, hwx⟩ := ht w (List.mem_of_getElem? hwk)
    obtain ⟨v, hv, hs⟩ := s.slot k w hwk
    obtain ⟨H1, e1, l1, b1, f1⟩ := fillRef_ok s hs hx hwx H hH (fun a ha => (s.cell k v a hv ha).2)
    have hk2 : Keeps H0.length H H1 := by
      intro a c ha hc
      refine f1 a c (fun hcell => ?_) hc
      have := s.cell k v a hv hcell; omega
    obtain ⟨H2, e2, l2, b2, f2⟩ := fillRefs_ok s ht ws (k + 1) H1 hd (by omega) (by
      intro i u t hi h1 h2
      rcases Nat.lt_or_ge i k with h | h
      · refine (hb i u t h h1 h2).keep hk2 (fun a c ha hc => f1 a c (fun hcell => ?_) hc)
        have := s.apart i k t v a h2 hv ha hcell; omega
      · obtain rfl : i = k := by omega
        rw [hwk] at h1; cases h1
        rw [hv] at h2; cases h2
        exact b1)
    refine ⟨H2, ?_, by omega, b2, fun a c ha hc => f2 a c ha (f1 a c (fun hcell => ?_) hc)⟩
    · have hkr : k < refs.length := by rw [s.len]; exact hk
      rw [List.drop_eq_getElem_cons hkr]
      have hrk : refs[k] = some v := by rw [List.getElem?_eq_getElem hkr] at hv; exact Option.some.inj hv
      simp only [fillRefs, hrk, e1]
      exact e2
    · have := s.cell k v a hv hcell; omega

/-! ### what the result holds -/

theorem escape_ne_ref {t : String} {i : Nat} (hi : i < 2 ^ 64) : escape t ≠ refText i := by
  intro h
  have := parseRef_escape t
  rw [h, parseRef_refText hi] at this; cases this

theorem refText_inj {i j : Nat} (hi : i < 2 ^ 64) (hj : j < 2 ^ 64) (h : refText i = refText j) : i = j := by
  have : some i = some j := by rw [← parseRef_refText hi, h, parseRef_refText hj]
  exact Option.some.inj this

theorem escape_inj {s t : String} (h : escape s = escape t) : s = t := by
  rw [← unescape_escape s, h, unescape_escape]

theorem sameV_arr {xs ys : List Val} (h : List.Forall₂ SameV xs ys) : SameV (.arr xs) (.arr ys) := by
  refine .arr _ _ h.length_eq fun i a c ha hc => ?_
  induction h generalizing i with
  | nil => cases ha
  | cons hh _ ih =>
    cases i with
    | zero => simp at ha hc; subst ha hc; exact hh
    | succ i => exact ih i (by simpa using ha) (by simpa using hc)

theorem sameV_obj {es xs : List (String × Val)} {m : List (String × Val)}
    (h : List.Forall₂ (fun a b => a.1 = b.1 ∧ SameV a.2 b.2) m es) (p : es.Perm xs) (hx : (aKeys xs).Nodup) :
    (aKeys m).Nodup ∧ SameV (.obj m) (.obj xs) := by
  have hkeys : aKeys m = aKeys es := by
    clear hx p
    induction h with
    | nil => rfl
    | cons hh _ ih => simp only [aKeys, List.map_cons] at ih ⊢; rw [hh.1, ih]
  have hes : (aKeys es).Nodup := ((p.map Prod.fst).nodup_iff).2 hx
  have hm : (aKeys m).Nodup := hkeys ▸ hes
  refine ⟨hm, ?_⟩
  obtain ⟨h1, h2⟩ := (entries_agree_iff SameV hm hx).1 ⟨by rw [h.length_eq, p.length_eq], fun k v hv => by
    clear hkeys hm
    have : ∃ o, (k, o) ∈ es ∧ SameV v o := by
      clear hes p
      induction h with
      | nil => cases hv
      | @cons a c l l' hh _ ih =>
        rcases List.mem_cons.1 hv with e | hv
        · obtain ⟨c1, c2⟩ := c
          subst e
          exact ⟨c2, by have := hh.1; simp at this; simp [this], hh.2⟩
        · obtain ⟨o, h1, h2⟩ := ih hv
          exact ⟨o, by simp [h1], h2⟩
    obtain ⟨o, ho, hs⟩ := this
    exact ⟨o, aGet_of_mem hx (p.subset ho), hs⟩⟩
  exact .obj _ _ h1 h2

mutual
theorem den_built (s : Slots b R refs H0) {H : Heap}
    (ht : ∀ (i : Nat) w v, R[i]? = some w → refs[i]? = some (some v) → Built 0 refs H w v) :
    ∀ {w x}, Wire R w x → x.Wf → ∀ y, Built 0 refs H w y → ∃ x' F, Den H y x' F ∧ x'.Wf ∧ SameV x' x
  | _, _, .null, _, _, .null => ⟨_, _, .null, .null, .null⟩
  | _, _, .bool c, _, _, .bool _ => ⟨_, _, .bool c, .bool c, .bool c⟩
  | _, _, .num c, _, _, .num _ => ⟨_, _, .num c, .num c, .num c⟩
  | _, _, .str c, _, y, bt => by
    generalize hw : RcVal.str (escape c) = w at bt
    cases bt with
    | str t =>
      simp only [RcVal.str.injEq] at hw
      obtain rfl := escape_inj hw
      exact ⟨_, _, .str c, .str c, .str c⟩
    | ref hi _ =>
      simp only [RcVal.str.injEq] at hw
      exact absurd hw (escape_ne_ref hi)
    | _ => cases hw
  | _, _, .ref (i := i) hi hf h, hx, y, bt => by
    generalize hw : RcVal.str (refText i) = w at bt
    cases bt with
    | str t =>
      simp only [RcVal.str.injEq] at hw
      exact absurd hw.symm (escape_ne_ref hi)
    | ref hj hv =>
      simp only [RcVal.str.injEq] at hw
      obtain rfl := refText_inj hi hj hw
      exact den_built s ht h hx y (ht _ _ _ hf.1 hv)
    | _ => cases hw
  | _, _, .arr h, hx, _, .arr _ hc bt => by
    obtain ⟨xs', F, d, hwf, hs⟩ := den_builtL s ht h (wf_arr hx) _ bt
    exact ⟨_, _, .arr hc d, .arr _ hwf, sameV_arr hs⟩
  | _, _, .obj h p, hx, _, .obj _ hc bt => by
    obtain ⟨hk, hx'⟩ := hx.obj_inv
    obtain ⟨xs', F, d, hwf, hs⟩ := den_builtE s ht h (fun k y hy => hx' k y (p.subset hy)) _ bt
    obtain ⟨hn, hsame⟩ := sameV_obj hs p hk
    exact ⟨_, _, .obj hc d, .obj _ hn hwf, hsame⟩
theorem den_builtL (s : Slots b R refs H0) {H : Heap}
    (ht : ∀ (i : Nat) w v, R[i]? = some w → refs[i]? = some (some v) → Built 0 refs H w v) :
    ∀ {w x}, WireL R w x → (∀ y ∈ x, y.Wf) → ∀ y, BuiltL 0 refs H w y →
    ∃ x' F, DenL H y x' F ∧ (∀ z ∈ x', z.Wf) ∧ List.Forall₂ SameV x' x
  | _, _, .nil, _, _, .nil => ⟨[], [], .nil, by simp, .nil⟩
  | _, _, .cons h t, hx, _, .cons b1 b2 => by
    obtain ⟨x1, F1, d1, f1, s1⟩ := den_built s ht h (hx _ (by simp)) _ b1
    obtain ⟨x2, F2, d2, f2, s2⟩ := den_builtL s ht t (fun y hy => hx y (by simp [hy])) _ b2
    refine ⟨x1 :: x2, _, .cons d1 d2, fun z hz => ?_, .cons s1 s2⟩
    rcases List.mem_cons.1 hz with rfl | hz
    · exact f1
    · exact f2 z hz
theorem den_builtE (s : Slots b R refs H0) {H : Heap}
    (ht : ∀ (i : Nat) w v, R[i]? = some w → refs[i]? = some (some v) → Built 0 refs H w v) :
    ∀ {w x}, WireE R w x → (∀ k y, (k, y) ∈ x → y.Wf) → ∀ y, BuiltE 0 refs H w y →
    ∃ x' F, DenE H y x' F ∧ (∀ k z, (k, z) ∈ x' → z.Wf) ∧ List.Forall₂ (fun a b => a.1 = b.1 ∧ SameV a.2 b.2) x' x
  | _, _, .nil, _, _, .nil => ⟨[], [], .nil, by simp, .nil⟩
  | _, _, .cons (k := k) kw h t, hx, _, .cons hk b1 b2 => by
    obtain ⟨x1, F1, d1, f1, s1⟩ := den_built s ht h (hx k _ (by simp)) _ b1
    obtain ⟨x2, F2, d2, f2, s2⟩ := den_builtE s ht t (fun k y hy => hx k y (by simp [hy])) _ b2
    rw [readKey_ok s kw] at hk
    cases hk
    refine ⟨(k, x1) :: x2, _, .cons d1 d2, fun k' z hz => ?_, .cons ⟨rfl, s1⟩ s2⟩
    rcases List.mem_cons.1 hz with e | hz
    · cases e; exact f1
    · exact f2 k' z hz
end

end

end RefWire
end Zen
