import Verif.Heap.RefWire
import Verif.Heap.Lemmas
import Mathlib.Data.List.Nodup
import Mathlib.Tactic.Tauto
/- Lemmas about the reference-compressed wire format: strings, and what the serializer writes. -/
namespace Zen
namespace RefWire

/-! ### strings -/

theorem digit_ofNat {n : Nat} (h : n < 10) : digitVal (Char.ofNat (48 + n)) = some n := by
  have : n = 0 ∨ n = 1 ∨ n = 2 ∨ n = 3 ∨ n = 4 ∨ n = 5 ∨ n = 6 ∨ n = 7 ∨ n = 8 ∨ n = 9 := by omega
  rcases this with rfl | rfl | rfl | rfl | rfl | rfl | rfl | rfl | rfl | rfl <;> rfl

theorem parseDigits_append (l r : List Char) (acc : Nat) :
    parseDigits acc (l ++ r) = (parseDigits acc l).bind fun a => parseDigits a r := by
  induction l generalizing acc with
  | nil => rfl
  | cons c l ih =>
    simp only [List.cons_append, parseDigits]
    cases digitVal c with
    | none => rfl
    | some d =>
      simp only
      split
      · exact ih _
      · rfl

theorem parseDigits_digits (n : Nat) (h : n < 2 ^ 64) : parseDigits 0 (digits n) = some n := by
  induction n using Nat.strongRecOn with
  | _ n ih =>
    rw [digits]
    split
    · next hn =>
      simp only [parseDigits, digit_ofNat hn]
      rw [if_pos (by omega)]; simp
    · next hn =>
      rw [parseDigits_append, ih (n / 10) (by omega) (by omega)]
      simp only [Option.bind_some, parseDigits, digit_ofNat (Nat.mod_lt n (by omega : 0 < 10))]
      rw [if_pos (by omega)]
      congr 1; omega

theorem digits_head (n : Nat) : ∃ c r, digits n = c :: r ∧ digitVal c ≠ none := by
  induction n using Nat.strongRecOn with
  | _ n ih =>
    rw [digits]
    split
    · next hn => exact ⟨_, _, rfl, by rw [digit_ofNat hn]; simp⟩
    · next hn =>
      obtain ⟨c, r, h, hc⟩ := ih (n / 10) (by omega)
      exact ⟨c, _, by rw [h]; rfl, hc⟩

theorem parseRef_refText {i : Nat} (h : i < 2 ^ 64) : parseRef (refText i) = some i := by
  unfold parseRef refText
  rw [String.toList_ofList]
  show parseUsize (digits i) = some i
  obtain ⟨c, r, hd, hc⟩ := digits_head i
  have hp := parseDigits_digits i h
  rw [hd] at hp ⊢
  unfold parseUsize
  split
  · next e => cases e
  · next e => cases e; exact absurd rfl hc
  · next e => cases e; exact absurd rfl hc
  · exact hp

theorem escape_cases (s : String) : (∃ r, s.toList = '@' :: r ∧ (escape s).toList = '@' :: '@' :: r) ∨
    (s.toList.head? ≠ some '@' ∧ escape s = s) := by
  unfold escape
  by_cases h : s.toList.head? = some '@'
  · left
    rw [if_pos h]
    cases hs : s.toList with
    | nil => rw [hs] at h; cases h
    | cons c r => rw [hs] at h; cases h; exact ⟨r, rfl, by simp⟩
  · right; rw [if_neg h]; exact ⟨h, rfl⟩

theorem parseRef_escape (s : String) : parseRef (escape s) = none := by
  unfold parseRef
  rcases escape_cases s with ⟨r, -, h⟩ | ⟨h, e⟩
  · rw [h]
    show parseUsize ('@' :: r) = none
    unfold parseUsize
    split
    · next e => cases e
    · next e => cases e
    · next e => cases e
    · rfl
  · rw [e]
    split
    · next e => rw [e] at h; exact absurd rfl h
    · rfl

theorem unescape_escape (s : String) : unescape (escape s) = s := by
  unfold unescape
  rcases escape_cases s with ⟨r, hs, h⟩ | ⟨h, e⟩
  · rw [h]
    simp only
    rw [← hs, String.ofList_toList]
  · rw [e]
    split
    · next e => rw [e] at h; exact absurd rfl h
    · rfl

/-! ### what a wire value stands for -/

/-- entry `i` of the reference table has been written -/
def Filled (R : List RcVal) (i : Nat) (w : RcVal) : Prop := R[i]? = some w ∧ w ≠ .null

/-- a key on the wire -/
def KeyWire (R : List RcVal) (k' k : String) : Prop :=
  k' = escape k ∨ ∃ i, i < 2 ^ 64 ∧ k' = refText i ∧ Filled R i (.str (escape k))

mutual
/-- With the table `R`, the wire value stands for the data. The references inside are followed finitely often. -/
inductive Wire (R : List RcVal) : RcVal → Val → Prop
  | null : Wire R .null .null
  | bool (b : Bool) : Wire R (.bool b) (.bool b)
  | num (n : Rat) : Wire R (.num n) (.num n)
  | str (s : String) : Wire R (.str (escape s)) (.str s)
  | arr {ws : List RcVal} {xs : List Val} : WireL R ws xs → Wire R (.arr ws) (.arr xs)
  | obj {ws : List (String × RcVal)} {es xs : List (String × Val)} : WireE R ws es → es.Perm xs → Wire R (.obj ws) (.obj xs)
  | ref {i : Nat} {w : RcVal} {x : Val} : i < 2 ^ 64 → Filled R i w → Wire R w x → Wire R (.str (refText i)) x
inductive WireL (R : List RcVal) : List RcVal → List Val → Prop
  | nil : WireL R [] []
  | cons {w ws x xs} : Wire R w x → WireL R ws xs → WireL R (w :: ws) (x :: xs)
inductive WireE (R : List RcVal) : List (String × RcVal) → List (String × Val) → Prop
  | nil : WireE R [] []
  | cons {k' k w ws x xs} : KeyWire R k' k → Wire R w x → WireE R ws xs → WireE R ((k', w) :: ws) ((k, x) :: xs)
end

/-- the table only gains entries -/
def Grows (R R' : List RcVal) : Prop := ∀ i w, Filled R i w → Filled R' i w

theorem Grows.refl (R : List RcVal) : Grows R R := fun _ _ h => h
theorem Grows.trans {A B C : List RcVal} (h : Grows A B) (h' : Grows B C) : Grows A C := fun i w x => h' i w (h i w x)

theorem KeyWire.grow {R R' : List RcVal} (g : Grows R R') {k' k} (h : KeyWire R k' k) : KeyWire R' k' k := by
  rcases h with h | ⟨i, hi, h, hf⟩
  · exact .inl h
  · exact .inr ⟨i, hi, h, g _ _ hf⟩

mutual
theorem Wire.grow {R R' : List RcVal} (g : Grows R R') : ∀ {w x}, Wire R w x → Wire R' w x
  | _, _, .null => .null
  | _, _, .bool b => .bool b
  | _, _, .num b => .num b
  | _, _, .str b => .str b
  | _, _, .arr h => .arr (WireL.grow g h)
  | _, _, .obj h p => .obj (WireE.grow g h) p
  | _, _, .ref hi hf h => .ref hi (g _ _ hf) (Wire.grow g h)
theorem WireL.grow {R R' : List RcVal} (g : Grows R R') : ∀ {w x}, WireL R w x → WireL R' w x
  | _, _, .nil => .nil
  | _, _, .cons h t => .cons (Wire.grow g h) (WireL.grow g t)
theorem WireE.grow {R R' : List RcVal} (g : Grows R R') : ∀ {w x}, WireE R w x → WireE R' w x
  | _, _, .nil => .nil
  | _, _, .cons k h t => .cons (k.grow g) (Wire.grow g h) (WireE.grow g t)
end

theorem WireE.append {R : List RcVal} : ∀ {a b x y}, WireE R a x → WireE R b y → WireE R (a ++ b) (x ++ y)
  | _, _, _, _, .nil, h => h
  | _, _, _, _, .cons k h t, h' => .cons k h (WireE.append t h')

/-- different keys are written differently -/
theorem KeyWire.inj {R : List RcVal} {k' a b : String} (ha : KeyWire R k' a) (hb : KeyWire R k' b) : a = b := by
  rcases ha with rfl | ⟨i, hi, rfl, hf⟩
  · rcases hb with h | ⟨j, hj, h, -⟩
    · rw [← unescape_escape a, h, unescape_escape]
    · have := parseRef_escape a
      rw [h, parseRef_refText hj] at this; cases this
  · rcases hb with h | ⟨j, hj, h, hf'⟩
    · have := parseRef_escape b
      rw [← h, parseRef_refText hi] at this; cases this
    · have : some i = some j := by rw [← parseRef_refText hi, h, parseRef_refText hj]
      cases this
      have h2 := hf.1.symm.trans hf'.1
      simp only [Option.some.injEq, RcVal.str.injEq] at h2
      rw [← unescape_escape a, h2, unescape_escape]

theorem WireE.key_of_mem {R : List RcVal} : ∀ {ws es}, WireE R ws es → ∀ k' ∈ aKeys ws, ∃ k ∈ aKeys es, KeyWire R k' k
  | _, _, .nil, _, h => nomatch h
  | _, _, .cons k h t, k', hk => by
    rw [aKeys_cons] at hk
    rcases List.mem_cons.1 hk with e | hk
    · cases e; exact ⟨_, by simp, k⟩
    · obtain ⟨x, hx, hw⟩ := WireE.key_of_mem t k' hk
      exact ⟨x, by simp [hx], hw⟩

/-! ### the table -/

theorem idOf_some {refs : List Addr} {a : Addr} {i : Nat} (h : idOf refs a = some i) : refs[i]? = some a := by
  unfold idOf at h
  rw [List.findIdx?_eq_some_iff_getElem] at h
  obtain ⟨hi, h, -⟩ := h
  rw [List.getElem?_eq_getElem hi, eq_of_beq h]

theorem idOf_lt {refs : List Addr} {a : Addr} {i : Nat} (h : idOf refs a = some i) : i < refs.length :=
  (List.getElem?_eq_some_iff.1 (idOf_some h)).1

theorem idOf_of_get {refs : List Addr} (nd : refs.Nodup) {a : Addr} {i : Nat} (h : refs[i]? = some a) :
    idOf refs a = some i := by
  unfold idOf
  rw [List.findIdx?_eq_some_iff_getElem]
  obtain ⟨hi, h⟩ := List.getElem?_eq_some_iff.1 h
  refine ⟨hi, by simp [h], fun j hj => ?_⟩
  have hne : refs[j]'(by omega) ≠ a := by
    intro e
    have := (List.nodup_iff_injective_get.1 nd) (a₁ := ⟨j, by omega⟩) (a₂ := ⟨i, hi⟩) (by simp [e, h])
    simp at this; omega
  simpa using hne

theorem length_fill (R : List RcVal) (i : Nat) (w : RcVal) : (fill R i w).length = R.length := by
  unfold fill; split <;> simp

theorem grows_fill (R : List RcVal) (i : Nat) (w : RcVal) : Grows R (fill R i w) := by
  intro j u ⟨h1, h2⟩
  unfold fill
  split
  · next h =>
    refine ⟨?_, h2⟩
    rw [List.getElem?_set_ne, h1]
    rintro rfl
    rw [h] at h1; cases h1; exact h2 rfl
  · exact ⟨h1, h2⟩

/-- after filling, the entry is the new or an older one -/
theorem fill_filled {R : List RcVal} {i : Nat} {w : RcVal} (hi : i < R.length) (hw : w ≠ .null) :
    (Filled (fill R i w) i w ∧ R[i]? = some .null) ∨ ∃ u, Filled R i u := by
  cases h : R[i]? with
  | none => rw [List.getElem?_eq_none_iff] at h; omega
  | some u =>
    cases u with
    | null =>
      left
      refine ⟨⟨?_, hw⟩, rfl⟩
      unfold fill; rw [h]; simp [hi]
    | _ => right; exact ⟨_, h, by simp⟩

theorem fill_cases {R : List RcVal} {i j : Nat} {w u : RcVal} (h : Filled (fill R i w) j u) :
    Filled R j u ∨ (j = i ∧ u = w) := by
  unfold fill at h
  split at h
  · next hn =>
    obtain ⟨h1, h2⟩ := h
    by_cases e : i = j
    · subst e
      rw [List.getElem?_set_self (List.getElem?_eq_some_iff.1 hn).1] at h1
      cases h1; exact .inr ⟨rfl, rfl⟩
    · rw [List.getElem?_set_ne e] at h1
      exact .inl ⟨h1, h2⟩
  · exact .inl h

/-- values without dates and intervals -/
inductive Plain : Val → Prop
  | null : Plain .null
  | bool b : Plain (.bool b)
  | num n : Plain (.num n)
  | str s : Plain (.str s)
  | arr xs : (∀ x ∈ xs, Plain x) → Plain (.arr xs)
  | obj m : (∀ k x, (k, x) ∈ m → Plain x) → Plain (.obj m)

theorem wf_arr {xs : List Val} (h : (Val.arr xs).Wf) : ∀ x ∈ xs, x.Wf := by cases h; assumption

theorem Plain.of_arr {xs : List Val} (h : Plain (.arr xs)) : ∀ x ∈ xs, Plain x := by cases h; assumption
theorem Plain.of_obj {m : List (String × Val)} (h : Plain (.obj m)) : ∀ k x, (k, x) ∈ m → Plain x := by
  cases h; assumption

/-- what an entry of the table stands for -/
def EntryOk (h : Heap) (R : List RcVal) (a : Addr) (w : RcVal) : Prop :=
  match a with
  | .text s => w = .str (escape s)
  | .cell c => ∃ x F, x.Wf ∧ (Den h (.arr c) x F ∨ Den h (.obj c) x F) ∧ Wire R w x ∧ ∀ s, w ≠ .str s

/-- the table is right as far as it is written -/
structure TableOk (h : Heap) (refs : List Addr) (R : List RcVal) : Prop where
  len : R.length = refs.length
  small : refs.length ≤ 2 ^ 64
  nodup : refs.Nodup
  entry : ∀ i w a, Filled R i w → refs[i]? = some a → EntryOk h R a w

theorem EntryOk.grow {h : Heap} {R R' : List RcVal} (g : Grows R R') {a : Addr} {w : RcVal} (e : EntryOk h R a w) :
    EntryOk h R' a w := by
  cases a with
  | text s => exact e
  | cell c =>
    obtain ⟨x, F, hx, hd, hw, hs⟩ := e
    exact ⟨x, F, hx, hd, hw.grow g, hs⟩

theorem TableOk.fill {h : Heap} {refs : List Addr} {R : List RcVal} (t : TableOk h refs R) {a : Addr} {i : Nat}
    (hi : idOf refs a = some i) {w : RcVal} (e : EntryOk h R a w) : TableOk h refs (fill R i w) := by
  refine ⟨by rw [length_fill, t.len], t.small, t.nodup, fun j u b hf hb => ?_⟩
  rcases fill_cases hf with hf | ⟨rfl, rfl⟩
  · exact (t.entry j u b hf hb).grow (grows_fill _ _ _)
  · rw [idOf_some hi] at hb; cases hb
    exact e.grow (grows_fill _ _ _)

/-- writing a string -/
theorem putText_ok {h : Heap} {refs : List Addr} {R : List RcVal} (t : TableOk h refs R) (s : String) :
    ∀ w R', put refs (.text s) (.str (escape s)) R = (w, R') → TableOk h refs R' ∧ Grows R R' ∧ Wire R' w (.str s) := by
  intro w R' e
  unfold put at e
  cases hi : idOf refs (.text s) with
  | none => rw [hi] at e; cases e; exact ⟨t, .refl _, .str s⟩
  | some i =>
    rw [hi] at e; cases e
    refine ⟨t.fill hi rfl, grows_fill _ _ _, ?_⟩
    have hlt := idOf_lt hi
    have hs := t.small
    rcases fill_filled (R := R) (w := .str (escape s)) (by rw [t.len]; exact hlt) (by simp) with hf | ⟨u, hu⟩
    · exact .ref (by omega) hf.1 (.str s)
    · have := t.entry i u _ hu (idOf_some hi)
      have : u = .str (escape s) := this
      subst this
      exact .ref (by omega) (grows_fill _ _ _ _ _ hu) (.str s)

theorem putKey_ok {h : Heap} {refs : List Addr} {R : List RcVal} (t : TableOk h refs R) (k : String) :
    TableOk h refs (putKey refs k R).2 ∧ Grows R (putKey refs k R).2 ∧ KeyWire (putKey refs k R).2 (putKey refs k R).1 k := by
  unfold putKey
  cases hi : idOf refs (.text k) with
  | none => exact ⟨t, .refl _, .inl rfl⟩
  | some i =>
    refine ⟨t.fill hi rfl, grows_fill _ _ _, ?_⟩
    have hlt := idOf_lt hi
    have hs := t.small
    rcases fill_filled (R := R) (w := .str (escape k)) (by rw [t.len]; exact hlt) (by simp) with hf | ⟨u, hu⟩
    · exact .inr ⟨i, by omega, rfl, hf.1⟩
    · have := t.entry i u _ hu (idOf_some hi)
      have : u = .str (escape k) := this
      subst this
      exact .inr ⟨i, by omega, rfl, grows_fill _ _ _ _ _ hu⟩

/-- writing an array or object -/
theorem putCell_ok {h : Heap} {refs : List Addr} {R : List RcVal} (t : TableOk h refs R) {c : Nat} {x : Val} {F}
    (hx : x.Wf) (hd : Den h (.arr c) x F ∨ Den h (.obj c) x F) {u : RcVal} (hu : Wire R u x) (hs : ∀ s, u ≠ .str s)
    (hn : u ≠ .null) :
    ∀ w R', put refs (.cell c) u R = (w, R') → TableOk h refs R' ∧ Grows R R' ∧ Wire R' w x := by
  intro w R' e
  unfold put at e
  cases hi : idOf refs (.cell c) with
  | none => rw [hi] at e; cases e; exact ⟨t, .refl _, hu⟩
  | some i =>
    rw [hi] at e; cases e
    refine ⟨t.fill hi ⟨x, F, hx, hd, hu, hs⟩, grows_fill _ _ _, ?_⟩
    have hlt := idOf_lt hi
    have hsm := t.small
    rcases fill_filled (R := R) (w := u) (by rw [t.len]; exact hlt) hn with hf | ⟨v, hv⟩
    · exact .ref (by omega) hf.1 (hu.grow (grows_fill _ _ _))
    · obtain ⟨y, G, hy, hdy, hwy, -⟩ := t.entry i v _ hv (idOf_some hi)
      have : y = x := by
        rcases hd with hd | hd <;> rcases hdy with hdy | hdy
        · exact (den_fun hdy hd).1
        · cases hd; cases hdy; simp_all
        · cases hd; cases hdy; simp_all
        · exact (den_fun hdy hd).1
      subst this
      exact .ref (by omega) (grows_fill _ _ _ _ _ hv) (hwy.grow (grows_fill _ _ _))

variable {dyn : Dyn → RcVal} {refs : List Addr} {h : Heap}

mutual
/-- What the serializer writes stands for what the value holds. -/
theorem write_ok : ∀ {v : HVal} {x : Val} {F : List Nat}, Den h v x F → x.Wf → Plain x → ∀ (n : Nat) (R : List RcVal) (w : RcVal)
    (R' : List RcVal), TableOk h refs R → write dyn refs n h v R = some (w, R') →
    TableOk h refs R' ∧ Grows R R' ∧ Wire R' w x
  | v, x, F, d, hx, hp, 0, R, w, R', t, e => by simp [write] at e
  | _, _, _, .null, hx, hp, n + 1, R, w, R', t, e => by
    simp only [write, Option.some.injEq, Prod.mk.injEq] at e
    obtain ⟨rfl, rfl⟩ := e
    exact ⟨t, .refl _, .null⟩
  | _, _, _, .bool b, hx, hp, n + 1, R, w, R', t, e => by
    simp only [write, Option.some.injEq, Prod.mk.injEq] at e
    obtain ⟨rfl, rfl⟩ := e
    exact ⟨t, .refl _, .bool b⟩
  | _, _, _, .num b, hx, hp, n + 1, R, w, R', t, e => by
    simp only [write, Option.some.injEq, Prod.mk.injEq] at e
    obtain ⟨rfl, rfl⟩ := e
    exact ⟨t, .refl _, .num b⟩
  | _, _, _, .str s, hx, hp, n + 1, R, w, R', t, e => by
    simp only [write, Option.some.injEq] at e
    exact putText_ok t s w R' e
  | _, _, _, .dyn b, hx, hp, n + 1, R, w, R', t, e => by cases hp
  | _, _, _, .arr (a := a) (xs := xs) ha d, hx, hp, n + 1, R, w, R', t, e => by
    simp only [write, ha] at e
    cases hl : writeL dyn refs n h xs R with
    | none => rw [hl] at e; cases e
    | some r =>
      obtain ⟨ws, R1⟩ := r
      rw [hl] at e
      simp only [Option.some.injEq] at e
      obtain ⟨t1, g1, w1⟩ := writeL_ok d (wf_arr hx) hp.of_arr n R ws R1 t hl
      obtain ⟨t2, g2, w2⟩ := putCell_ok t1 hx (.inl (.arr ha d)) (.arr w1) (by simp) (by simp) w R' e
      exact ⟨t2, g1.trans g2, w2⟩
  | _, _, _, .obj (a := a) (m := m) ha d, hx, hp, n + 1, R, w, R', t, e => by
    simp only [write, objAt_of ha] at e
    cases hl : writeE dyn refs n h m [] R with
    | none => rw [hl] at e; cases e
    | some r =>
      obtain ⟨ws, R1⟩ := r
      rw [hl] at e
      simp only [Option.some.injEq] at e
      obtain ⟨hk, hx'⟩ := hx.obj_inv
      obtain ⟨t1, g1, w1⟩ := writeE_ok d hx' hp.of_obj n R [] [] ws R1 t .nil (by simpa using hk) hl
      obtain ⟨t2, g2, w2⟩ := putCell_ok t1 hx (.inr (.obj ha d)) (.obj w1 (.refl _)) (by simp) (by simp) w R' e
      exact ⟨t2, g1.trans g2, w2⟩
theorem writeL_ok : ∀ {v : List HVal} {x : List Val} {F : List Nat}, DenL h v x F → (∀ y ∈ x, y.Wf) → (∀ y ∈ x, Plain y) →
    ∀ (n : Nat) (R : List RcVal) (w : List RcVal) (R' : List RcVal), TableOk h refs R → writeL dyn refs n h v R = some (w, R') →
    TableOk h refs R' ∧ Grows R R' ∧ WireL R' w x
  | _, _, _, .nil, hx, hp, n, R, w, R', t, e => by
    simp only [writeL, Option.some.injEq, Prod.mk.injEq] at e
    obtain ⟨rfl, rfl⟩ := e
    exact ⟨t, .refl _, .nil⟩
  | _, _, _, .cons (x := v) (xs := vs) d ds, hx, hp, n, R, w, R', t, e => by
    simp only [writeL] at e
    cases h1 : write dyn refs n h v R with
    | none => rw [h1] at e; cases e
    | some r =>
      obtain ⟨w1, R1⟩ := r
      rw [h1] at e
      simp only at e
      cases h2 : writeL dyn refs n h vs R1 with
      | none => rw [h2] at e; cases e
      | some r =>
        obtain ⟨ws, R2⟩ := r
        rw [h2] at e
        simp only [Option.some.injEq, Prod.mk.injEq] at e
        obtain ⟨rfl, rfl⟩ := e
        obtain ⟨t1, g1, a1⟩ := write_ok d (hx _ (by simp)) (hp _ (by simp)) n R w1 R1 t h1
        obtain ⟨t2, g2, a2⟩ := writeL_ok ds (fun y hy => hx y (by simp [hy])) (fun y hy => hp y (by simp [hy])) n R1 ws R2 t1 h2
        exact ⟨t2, g1.trans g2, .cons (a1.grow g2) a2⟩
theorem writeE_ok : ∀ {v : List (String × HVal)} {x : List (String × Val)} {F : List Nat}, DenE h v x F →
    (∀ k y, (k, y) ∈ x → y.Wf) → (∀ k y, (k, y) ∈ x → Plain y) →
    ∀ (n : Nat) (R : List RcVal) (acc : List (String × RcVal)) (accx : List (String × Val)) (w : List (String × RcVal))
    (R' : List RcVal), TableOk h refs R → WireE R acc accx → (aKeys (accx ++ x)).Nodup →
    writeE dyn refs n h v acc R = some (w, R') →
    TableOk h refs R' ∧ Grows R R' ∧ WireE R' w (accx ++ x)
  | _, _, _, .nil, hx, hp, n, R, acc, accx, w, R', t, ha, hk, e => by
    simp only [writeE, Option.some.injEq, Prod.mk.injEq] at e
    obtain ⟨rfl, rfl⟩ := e
    exact ⟨t, .refl _, by simpa using ha⟩
  | _, _, _, .cons (k := k) (x := v) (v := y) (m := m) (vs := ys) d ds, hx, hp, n, R, acc, accx, w, R', t, ha, hk, e => by
    simp only [writeE] at e
    obtain ⟨t0, g0, k0⟩ := putKey_ok t k
    generalize hpk : putKey refs k R = pk at e t0 g0 k0
    obtain ⟨k', R0⟩ := pk
    simp only at e t0 g0 k0
    cases h1 : write dyn refs n h v R0 with
    | none => rw [h1] at e; cases e
    | some r =>
      obtain ⟨w1, R1⟩ := r
      rw [h1] at e
      simp only at e
      obtain ⟨t1, g1, a1⟩ := write_ok d (hx k _ (by simp)) (hp k _ (by simp)) n R0 w1 R1 t0 h1
      have hacc : WireE R1 acc accx := (ha.grow g0).grow g1
      have hk1 : KeyWire R1 k' k := k0.grow g1
      have hnew : aGet acc k' = none := by
        rw [aGet_eq_none_iff]
        intro hm
        obtain ⟨k2, hk2, hkw⟩ := hacc.key_of_mem k' hm
        have := hkw.inj hk1
        subst this
        simp only [aKeys_append, aKeys_cons, List.nodup_append] at hk
        exact hk.2.2 _ hk2 _ (by simp) rfl
      have hset : aSet acc k' w1 = acc ++ [(k', w1)] := by simp [aSet, hnew]
      rw [hset] at e
      obtain ⟨t2, g2, a2⟩ := writeE_ok ds (fun k y hy => hx k y (by simp [hy])) (fun k y hy => hp k y (by simp [hy])) n R1
        (acc ++ [(k', w1)]) (accx ++ [(k, y)]) w R' t1 (hacc.append (.cons hk1 a1 .nil)) (by simpa using hk) e
      exact ⟨t2, (g0.trans g1).trans g2, by simpa using a2⟩
end

/-! ### every reference is written -/

/-- the address has no id or its entry is written -/
def Done (refs : List Addr) (R : List RcVal) (a : Addr) : Prop := ∀ i, idOf refs a = some i → ∃ w, Filled R i w

theorem Done.grow {R R' : List RcVal} (g : Grows R R') {a : Addr} (d : Done refs R a) : Done refs R' a :=
  fun i hi => (d i hi).imp fun w hw => g i w hw

theorem fill_done {R : List RcVal} (hl : R.length = refs.length) {a : Addr} {i : Nat} (hi : idOf refs a = some i)
    {w : RcVal} (hw : w ≠ .null) : Done refs (fill R i w) a := by
  intro j hj
  rw [hi] at hj; cases hj
  rcases fill_filled (R := R) (w := w) (by rw [hl]; exact idOf_lt hi) hw with hf | ⟨u, hu⟩
  · exact ⟨_, hf.1⟩
  · exact ⟨u, grows_fill _ _ _ _ _ hu⟩

theorem put_done {R R' : List RcVal} (hl : R.length = refs.length) {a : Addr} {u w : RcVal} (hu : u ≠ .null)
    (e : put refs a u R = (w, R')) : R'.length = refs.length ∧ Grows R R' ∧ Done refs R' a := by
  unfold put at e
  cases hi : idOf refs a with
  | none => rw [hi] at e; cases e; exact ⟨hl, .refl _, fun i h => by rw [hi] at h; cases h⟩
  | some i =>
    rw [hi] at e; cases e
    exact ⟨by rw [length_fill, hl], grows_fill _ _ _, fill_done hl hi hu⟩

theorem putKey_done {R : List RcVal} (hl : R.length = refs.length) (k : String) :
    (putKey refs k R).2.length = refs.length ∧ Grows R (putKey refs k R).2 ∧ Done refs (putKey refs k R).2 (.text k) := by
  unfold putKey
  cases hi : idOf refs (.text k) with
  | none => exact ⟨hl, .refl _, fun i h => by rw [hi] at h; cases h⟩
  | some i => exact ⟨by rw [length_fill, hl], grows_fill _ _ _, fill_done hl hi (by simp)⟩

theorem mem_bump {c : List (Addr × Nat)} {a b : Addr} : b ∈ (bump c a).map Prod.fst ↔ b = a ∨ b ∈ c.map Prod.fst := by
  induction c with
  | nil => simp [bump]
  | cons e c ih =>
    obtain ⟨x, n⟩ := e
    simp only [bump]
    split
    · next h => subst h; simp
    · simp only [List.map_cons, List.mem_cons, ih]; tauto

theorem bump_nodup {c : List (Addr × Nat)} (h : (c.map Prod.fst).Nodup) (a : Addr) : ((bump c a).map Prod.fst).Nodup := by
  induction c with
  | nil => simp [bump]
  | cons e c ih =>
    obtain ⟨x, n⟩ := e
    simp only [List.map_cons, List.nodup_cons] at h
    simp only [bump]
    split
    · simpa using h
    · next hne =>
      simp only [List.map_cons, List.nodup_cons]
      refine ⟨fun hm => ?_, ih h.2⟩
      rcases mem_bump.1 hm with e | e
      · exact hne e
      · exact h.1 e

/-- what counting adds, writing writes -/
def Covers (refs : List Addr) (c c' : List (Addr × Nat)) (R' : List RcVal) : Prop :=
  ∀ a ∈ c'.map Prod.fst, a ∈ c.map Prod.fst ∨ Done refs R' a

theorem Covers.trans {c c1 c2 : List (Addr × Nat)} {R1 R2 : List RcVal} (h : Covers refs c c1 R1) (g : Grows R1 R2)
    (h' : Covers refs c1 c2 R2) : Covers refs c c2 R2 := by
  intro a ha
  rcases h' a ha with h1 | h1
  · rcases h a h1 with h2 | h2
    · exact .inl h2
    · exact .inr (h2.grow g)
  · exact .inr h1

theorem covers_bump {c : List (Addr × Nat)} {a : Addr} {R : List RcVal} (h : Done refs R a) : Covers refs c (bump c a) R := by
  intro b hb
  rcases mem_bump.1 hb with rfl | hb
  · exact .inr h
  · exact .inl hb

theorem Covers.grow {c c' : List (Addr × Nat)} {R R' : List RcVal} (h : Covers refs c c' R) (g : Grows R R') : Covers refs c c' R' :=
  fun a ha => (h a ha).imp id (·.grow g)

/-- the tables of elements, given one for a value -/
theorem coverL {n : Nat} (ih : ∀ (v : HVal) c c' R w R', R.length = refs.length → count n h c v = some c' →
      write dyn refs n h v R = some (w, R') → R'.length = refs.length ∧ Grows R R' ∧ Covers refs c c' R') :
    ∀ (xs : List HVal) c c' R ws R', R.length = refs.length → countL n h c xs = some c' →
      writeL dyn refs n h xs R = some (ws, R') → R'.length = refs.length ∧ Grows R R' ∧ Covers refs c c' R' := by
  intro xs
  induction xs with
  | nil =>
    intro c c' R ws R' hl hc hw
    simp only [countL, Option.some.injEq] at hc
    simp only [writeL, Option.some.injEq, Prod.mk.injEq] at hw
    subst hc; rw [← hw.2]
    exact ⟨hl, .refl _, fun a ha => .inl ha⟩
  | cons x xs ihx =>
    intro c c' R ws R' hl hc hw
    simp only [countL] at hc
    simp only [writeL] at hw
    cases h1 : count n h c x with
    | none => rw [h1] at hc; cases hc
    | some c1 =>
      rw [h1] at hc
      cases h2 : write dyn refs n h x R with
      | none => rw [h2] at hw; cases hw
      | some r =>
        obtain ⟨w1, R1⟩ := r
        rw [h2] at hw
        simp only at hw
        cases h3 : writeL dyn refs n h xs R1 with
        | none => rw [h3] at hw; cases hw
        | some r =>
          obtain ⟨ws2, R2⟩ := r
          rw [h3] at hw
          simp only [Option.some.injEq, Prod.mk.injEq] at hw
          obtain ⟨-, rfl⟩ := hw
          obtain ⟨l1, g1, v1⟩ := ih x c c1 R w1 R1 hl h1 h2
          obtain ⟨l2, g2, v2⟩ := ihx c1 c' R1 ws2 R2 l1 hc h3
          exact ⟨l2, g1.trans g2, v1.trans g2 v2⟩

theorem coverE {n : Nat} (ih : ∀ (v : HVal) c c' R w R', R.length = refs.length → count n h c v = some c' →
      write dyn refs n h v R = some (w, R') → R'.length = refs.length ∧ Grows R R' ∧ Covers refs c c' R') :
    ∀ (m : List (String × HVal)) c c' R acc ws R', R.length = refs.length → countE n h c m = some c' →
      writeE dyn refs n h m acc R = some (ws, R') → R'.length = refs.length ∧ Grows R R' ∧ Covers refs c c' R' := by
  intro m
  induction m with
  | nil =>
    intro c c' R acc ws R' hl hc hw
    simp only [countE, Option.some.injEq] at hc
    simp only [writeE, Option.some.injEq, Prod.mk.injEq] at hw
    subst hc; rw [← hw.2]
    exact ⟨hl, .refl _, fun a ha => .inl ha⟩
  | cons e m ihx =>
    obtain ⟨k, x⟩ := e
    intro c c' R acc ws R' hl hc hw
    simp only [countE] at hc
    simp only [writeE] at hw
    obtain ⟨l0, g0, d0⟩ := putKey_done hl k
    cases h1 : count n h (bump c (.text k)) x with
    | none => rw [h1] at hc; cases hc
    | some c1 =>
      rw [h1] at hc
      cases h2 : write dyn refs n h x (putKey refs k R).2 with
      | none => rw [h2] at hw; cases hw
      | some r =>
        obtain ⟨w1, R1⟩ := r
        rw [h2] at hw
        simp only at hw
        obtain ⟨l1, g1, v1⟩ := ih x _ c1 _ w1 R1 l0 h1 h2
        obtain ⟨l2, g2, v2⟩ := ihx c1 c' R1 _ ws R' l1 hc hw
        exact ⟨l2, (g0.trans g1).trans g2, ((covers_bump d0).trans g1 v1).trans g2 v2⟩

/-- Everything that is counted gets its entry written. -/
theorem cover : ∀ (n : Nat) (v : HVal) c c' R w R', R.length = refs.length → count n h c v = some c' →
    write dyn refs n h v R = some (w, R') → R'.length = refs.length ∧ Grows R R' ∧ Covers refs c c' R'
  | 0, _, _, _, _, _, _, _, hc, _ => by simp [count] at hc
  | n + 1, v, c, c', R, w, R', hl, hc, hw => by
    cases v with
    | null | bool b | num q | dyn d =>
      simp only [count, Option.some.injEq] at hc
      simp only [write, Option.some.injEq, Prod.mk.injEq] at hw
      subst hc; rw [← hw.2]
      exact ⟨hl, .refl _, fun a ha => .inl ha⟩
    | str s =>
      simp only [count, Option.some.injEq] at hc
      simp only [write, Option.some.injEq] at hw
      obtain ⟨l1, g1, d1⟩ := put_done hl (by simp) hw
      refine ⟨l1, g1, ?_⟩
      split at hc
      · subst hc; exact fun a ha => .inl ha
      · subst hc; exact covers_bump d1
    | arr a =>
      simp only [count] at hc
      simp only [write] at hw
      cases ha : h[a]? with
      | none => rw [ha] at hc; cases hc
      | some cell =>
        cases cell with
        | obj m => rw [ha] at hc; cases hc
        | arr xs =>
          rw [ha] at hc hw
          simp only at hc hw
          cases h2 : writeL dyn refs n h xs R with
          | none => rw [h2] at hw; cases hw
          | some r =>
            obtain ⟨ws, R1⟩ := r
            rw [h2] at hw
            simp only [Option.some.injEq] at hw
            obtain ⟨l1, g1, v1⟩ := coverL (fun v => cover n v) xs _ c' R ws R1 hl hc h2
            obtain ⟨l2, g2, d2⟩ := put_done l1 (by simp) hw
            refine ⟨l2, g1.trans g2, fun b hb => ?_⟩
            rcases v1 b hb with h | h
            · exact covers_bump d2 b h
            · exact .inr (h.grow g2)
    | obj a =>
      simp only [count] at hc
      simp only [write] at hw
      cases ha : h.objAt a with
      | none => rw [ha] at hc; cases hc
      | some m =>
        rw [ha] at hc hw
        simp only at hc hw
        cases h2 : writeE dyn refs n h m [] R with
        | none => rw [h2] at hw; cases hw
        | some r =>
          obtain ⟨ws, R1⟩ := r
          rw [h2] at hw
          simp only [Option.some.injEq] at hw
          obtain ⟨l1, g1, v1⟩ := coverE (fun v => cover n v) m _ c' R [] ws R1 hl hc h2
          obtain ⟨l2, g2, d2⟩ := put_done l1 (by simp) hw
          refine ⟨l2, g1.trans g2, fun b hb => ?_⟩
          rcases v1 b hb with h | h
          · exact covers_bump d2 b h
          · exact .inr (h.grow g2)


/-! ### the serializer finishes -/

mutual
theorem write_total : ∀ {v : HVal} {x : Val} {F : List Nat}, Den h v x F → ∃ N, ∀ n, N ≤ n →
    (∀ c, (count n h c v).isSome) ∧ ∀ refs R, (write dyn refs n h v R).isSome
  | _, _, _, .null => ⟨1, fun n hn => by cases n with | zero => omega | succ n => simp [count, write]⟩
  | _, _, _, .bool b => ⟨1, fun n hn => by cases n with | zero => omega | succ n => simp [count, write]⟩
  | _, _, _, .num b => ⟨1, fun n hn => by cases n with | zero => omega | succ n => simp [count, write]⟩
  | _, _, _, .str b => ⟨1, fun n hn => by cases n with | zero => omega | succ n => simp [count, write]⟩
  | _, _, _, .dyn b => ⟨1, fun n hn => by cases n with | zero => omega | succ n => simp [count, write]⟩
  | _, _, _, .arr (a := a) (xs := xs) ha d => by
    obtain ⟨N, hN⟩ := writeL_total d
    refine ⟨N + 1, fun n hn => ?_⟩
    cases n with
    | zero => omega
    | succ n =>
      obtain ⟨h1, h2⟩ := hN n (by omega)
      refine ⟨fun c => by simp only [count, ha]; exact h1 _, fun refs R => ?_⟩
      simp only [write, ha]
      have := h2 refs R
      cases hl : writeL dyn refs n h xs R with
      | none => rw [hl] at this; cases this
      | some r => rfl
  | _, _, _, .obj (a := a) (m := m) ha d => by
    obtain ⟨N, hN⟩ := writeE_total d
    refine ⟨N + 1, fun n hn => ?_⟩
    cases n with
    | zero => omega
    | succ n =>
      obtain ⟨h1, h2⟩ := hN n (by omega)
      refine ⟨fun c => by simp only [count, objAt_of ha]; exact h1 _, fun refs R => ?_⟩
      simp only [write, objAt_of ha]
      have := h2 refs [] R
      cases hl : writeE dyn refs n h m [] R with
      | none => rw [hl] at this; cases this
      | some r => rfl
theorem writeL_total : ∀ {v : List HVal} {x : List Val} {F : List Nat}, DenL h v x F → ∃ N, ∀ n, N ≤ n →
    (∀ c, (countL n h c v).isSome) ∧ ∀ refs R, (writeL dyn refs n h v R).isSome
  | _, _, _, .nil => ⟨0, fun n hn => by simp [countL, writeL]⟩
  | _, _, _, .cons (x := v) (xs := vs) d ds => by
    obtain ⟨N, hN⟩ := write_total d
    obtain ⟨M, hM⟩ := writeL_total ds
    refine ⟨max N M, fun n hn => ?_⟩
    obtain ⟨a1, a2⟩ := hN n (by omega)
    obtain ⟨b1, b2⟩ := hM n (by omega)
    refine ⟨fun c => ?_, fun refs R => ?_⟩
    · simp only [countL]
      have := a1 c
      cases hl : count n h c v with
      | none => rw [hl] at this; cases this
      | some r => exact b1 r
    · simp only [writeL]
      have := a2 refs R
      cases hl : write dyn refs n h v R with
      | none => rw [hl] at this; cases this
      | some r =>
        obtain ⟨w, R1⟩ := r
        simp only
        have := b2 refs R1
        cases hl : writeL dyn refs n h vs R1 with
        | none => rw [hl] at this; cases this
        | some r => rfl
theorem writeE_total : ∀ {v : List (String × HVal)} {x : List (String × Val)} {F : List Nat}, DenE h v x F → ∃ N, ∀ n, N ≤ n →
    (∀ c, (countE n h c v).isSome) ∧ ∀ refs acc R, (writeE dyn refs n h v acc R).isSome
  | _, _, _, .nil => ⟨0, fun n hn => by simp [countE, writeE]⟩
  | _, _, _, .cons (k := k) (x := v) (m := vs) d ds => by
    obtain ⟨N, hN⟩ := write_total d
    obtain ⟨M, hM⟩ := writeE_total ds
    refine ⟨max N M, fun n hn => ?_⟩
    obtain ⟨a1, a2⟩ := hN n (by omega)
    obtain ⟨b1, b2⟩ := hM n (by omega)
    refine ⟨fun c => ?_, fun refs acc R => ?_⟩
    · simp only [countE]
      have := a1 (bump c (.text k))
      cases hl : count n h (bump c (.text k)) v with
      | none => rw [hl] at this; cases this
      | some r => exact b1 r
    · simp only [writeE]
      have := a2 refs (putKey refs k R).2
      cases hl : write dyn refs n h v (putKey refs k R).2 with
      | none => rw [hl] at this; cases this
      | some r => exact b2 refs _ _
end

/-! ### ids -/

theorem count_nodup : ∀ (n : Nat) (v : HVal) c c', (c.map Prod.fst).Nodup → count n h c v = some c' → (c'.map Prod.fst).Nodup
  | 0, _, _, _, _, hc => by simp [count] at hc
  | n + 1, v, c, c', hn, hc => by
    have hL : ∀ (xs : List HVal) c, (c.map Prod.fst).Nodup → countL n h c xs = some c' → (c'.map Prod.fst).Nodup := by
      intro xs
      induction xs with
      | nil => intro c hn hc; simp only [countL, Option.some.injEq] at hc; subst hc; exact hn
      | cons x xs ih =>
        intro c hn hc
        simp only [countL] at hc
        cases h1 : count n h c x with
        | none => rw [h1] at hc; cases hc
        | some c1 => rw [h1] at hc; exact ih c1 (count_nodup n x c c1 hn h1) hc
    have hE : ∀ (xs : List (String × HVal)) c, (c.map Prod.fst).Nodup → countE n h c xs = some c' → (c'.map Prod.fst).Nodup := by
      intro xs
      induction xs with
      | nil => intro c hn hc; simp only [countE, Option.some.injEq] at hc; subst hc; exact hn
      | cons x xs ih =>
        obtain ⟨k, x⟩ := x
        intro c hn hc
        simp only [countE] at hc
        cases h1 : count n h (bump c (.text k)) x with
        | none => rw [h1] at hc; cases hc
        | some c1 => rw [h1] at hc; exact ih c1 (count_nodup n x _ c1 (bump_nodup hn _) h1) hc
    cases v with
    | null | bool b | num q | dyn d => simp only [count, Option.some.injEq] at hc; subst hc; exact hn
    | str s =>
      simp only [count, Option.some.injEq] at hc
      split at hc <;> subst hc
      · exact hn
      · exact bump_nodup hn _
    | arr a =>
      simp only [count] at hc
      split at hc
      · exact hL _ _ (bump_nodup hn _) hc
      · cases hc
    | obj a =>
      simp only [count] at hc
      split at hc
      · exact hE _ _ (bump_nodup hn _) hc
      · cases hc

theorem assign_nodup {rank : Addr → Nat} {c : List (Addr × Nat)} (hn : (c.map Prod.fst).Nodup) : (assign rank c).Nodup := by
  unfold assign
  have hp := (List.mergeSort_perm (c.filter fun e => decide (2 ≤ e.2)) (before rank)).map Prod.fst
  rw [hp.nodup_iff]
  exact List.Nodup.sublist (List.Sublist.map _ List.filter_sublist) hn

theorem mem_assign {rank : Addr → Nat} {c : List (Addr × Nat)} {a : Addr} :
    a ∈ assign rank c ↔ ∃ n, 2 ≤ n ∧ (a, n) ∈ c := by
  unfold assign
  simp only [List.mem_map, List.mem_mergeSort, List.mem_filter, decide_eq_true_eq, Prod.exists]
  constructor
  · rintro ⟨a, n, ⟨h1, h2⟩, rfl⟩; exact ⟨n, h2, h1⟩
  · rintro ⟨n, h2, h1⟩; exact ⟨a, n, ⟨h1, h2⟩, rfl⟩

/-- What the serializer gives: a table all of whose entries are right, and a root that stands for the value. -/
theorem serialize_inv {v : HVal} {x : Val} {F : List Nat} (d : Den h v x F) (hx : x.Wf) (hp : Plain x) {rank : Addr → Nat} {n : Nat}
    {W : RcVal} (hW : serialize dyn rank n h v = some W) :
    ∃ w R refs, W = .obj (if R.isEmpty then [("$root", w)] else [("$refs", .arr R), ("$root", w)]) ∧
      (∀ i, i < R.length → ∃ u, Filled R i u) ∧ (R.length ≤ 2 ^ 64 → TableOk h refs R ∧ Wire R w x) := by
  unfold serialize at hW
  cases hc : count n h [] v with
  | none => rw [hc] at hW; cases hW
  | some c =>
    rw [hc] at hW
    simp only at hW
    have hnd : (assign rank c).Nodup := assign_nodup (count_nodup n v [] c (by simp) hc)
    have hmem : ∀ a ∈ assign rank c, a ∈ c.map Prod.fst := fun a ha => by
      obtain ⟨k, -, hk⟩ := mem_assign.1 ha
      exact List.mem_map.2 ⟨_, hk, rfl⟩
    generalize assign rank c = refs at hW hnd hmem
    cases hw : write dyn refs n h v (refs.map fun _ => .null) with
    | none => rw [hw] at hW; cases hW
    | some r =>
      obtain ⟨w, R⟩ := r
      rw [hw] at hW
      simp only [Option.some.injEq] at hW
      have hnf : ∀ i w, ¬ Filled (refs.map fun _ => RcVal.null) i w := by
        rintro i w ⟨h1, h2⟩
        rw [List.getElem?_map] at h1
        cases hg : refs[i]? with
        | none => rw [hg] at h1; cases h1
        | some b => rw [hg] at h1; cases h1; exact h2 rfl
      obtain ⟨l1, -, cv⟩ := cover n v [] c _ w R (by simp) hc hw
      refine ⟨w, R, refs, hW.symm, fun i hi => ?_, fun hs => ?_⟩
      · obtain ⟨a, ha⟩ : ∃ a, refs[i]? = some a := ⟨refs[i]'(by omega), by rw [List.getElem?_eq_getElem]⟩
        rcases cv a (hmem a (List.mem_of_getElem? ha)) with h | h
        · cases h
        · exact h i (idOf_of_get hnd ha)
      · have t0 : TableOk h refs (refs.map fun _ => .null) :=
          ⟨by simp, by omega, hnd, fun i w a hf _ => absurd hf (hnf i w)⟩
        obtain ⟨t1, -, w1⟩ := write_ok d hx hp n _ w R t0 hw
        exact ⟨t1, w1⟩

theorem serialize_total {v : HVal} {x : Val} {F : List Nat} (d : Den h v x F) (rank : Addr → Nat) :
    ∃ N, ∀ n, N ≤ n → (serialize dyn rank n h v).isSome := by
  obtain ⟨N, hN⟩ := write_total (dyn := dyn) d
  refine ⟨N, fun n hn => ?_⟩
  obtain ⟨h1, h2⟩ := hN n hn
  have := h1 []
  cases hc : count n h [] v with
  | none => rw [hc] at this; cases this
  | some c =>
    have := h2 (assign rank c) ((assign rank c).map fun _ => .null)
    cases hw : write dyn (assign rank c) n h v ((assign rank c).map fun _ => .null) with
    | none => rw [hw] at this; cases this
    | some r => simp only [serialize, hc, hw, Option.isSome_some]

end RefWire
end Zen
