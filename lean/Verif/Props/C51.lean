import Verif.Builtins.Funcs
/-
C51  String built-ins: startsWith, endsWith, contains, trim, split, len.

Strings are compared as lists of characters. `split` is specified by the first occurrence of the separator
(`Splits`), which determines the parts.
-/
namespace Zen
open Fn

/-- `p` occurs in `s` -/
def Within (p s : List Char) : Prop := ∃ a b, s = a ++ p ++ b

/-- the parts of `s` between the occurrences of `sep`, found from left to right without overlap -/
inductive Splits (sep : List Char) : List Char → List (List Char) → Prop
  | last {s : List Char} : ¬ Within sep s → Splits sep s [s]
  | more {p r : List Char} {ps : List (List Char)} :
      (∀ p' r', p ++ sep ++ r = p' ++ sep ++ r' → p.length ≤ p'.length) →
      Splits sep r ps → Splits sep (p ++ sep ++ r) (p :: ps)

namespace Str

theorem prefix_iff {p s : List Char} : p.isPrefixOf s = true ↔ ∃ r, s = p ++ r := by
  rw [List.isPrefixOf_iff_prefix]
  exact ⟨fun ⟨r, h⟩ => ⟨r, h.symm⟩, fun ⟨r, h⟩ => ⟨r, h.symm⟩⟩

theorem suffix_iff {p s : List Char} : p.isSuffixOf s = true ↔ ∃ r, s = r ++ p := by
  rw [List.isSuffixOf_iff_suffix]
  exact ⟨fun ⟨r, h⟩ => ⟨r, h.symm⟩, fun ⟨r, h⟩ => ⟨r, h.symm⟩⟩

theorem within_iff {p s : List Char} : hasInfix p s = true ↔ Within p s := by
  induction s with
  | nil =>
    simp only [hasInfix, List.isEmpty_iff]
    constructor
    · rintro rfl; exact ⟨[], [], rfl⟩
    · rintro ⟨a, b, h⟩
      simp at h; exact h.2.1
  | cons c s ih =>
    simp only [hasInfix, Bool.or_eq_true, ih, prefix_iff]
    constructor
    · rintro (⟨r, h⟩ | ⟨a, b, h⟩)
      · exact ⟨[], r, by simpa using h⟩
      · exact ⟨c :: a, b, by rw [h]; rfl⟩
    · rintro ⟨a, b, h⟩
      cases a with
      | nil => exact .inl ⟨b, by simpa using h⟩
      | cons x a =>
        simp only [List.cons_append, List.cons.injEq] at h
        exact .inr ⟨a, b, h.2⟩

theorem takeWhile_ws {s : List Char} {c : Char} (h : c ∈ s.takeWhile Bytes.isWs) : Bytes.isWs c = true := by
  induction s with
  | nil => cases h
  | cons x s ih =>
    rw [List.takeWhile_cons] at h
    split at h
    · rcases List.mem_cons.1 h with rfl | h
      · assumption
      · exact ih h
    · cases h

/-- what the loop of `split` returns, from a state without skipping: `cur` holds no occurrence that starts in it -/
theorem splitGo_spec (sep : List Char) (hs : sep ≠ []) : ∀ (n : Nat) (s cur : List Char), s.length = n →
    (∀ p' r', cur.reverse ++ s = p' ++ sep ++ r' → cur.length ≤ p'.length) →
    Splits sep (cur.reverse ++ s) (splitGo sep s 0 cur) := by
  have skip : ∀ (k : Nat) (s cur : List Char), k ≤ s.length → splitGo sep s k cur = splitGo sep (s.drop k) 0 cur := by
    intro k
    induction k with
    | zero => intro s cur _; rfl
    | succ k ih =>
      intro s cur h
      cases s with
      | nil => simp at h
      | cons c s => rw [splitGo]; exact ih s cur (by simpa using h)
  intro n
  induction n using Nat.strong_induction_on with
  | _ n ih =>
    intro s cur hn hc
    cases s with
    | nil =>
      rw [splitGo, List.append_nil]
      refine .last ?_
      rintro ⟨a, b, h⟩
      have h1 := hc a b (by simpa using h)
      have h2 := congrArg List.length h
      simp only [List.length_append, List.length_reverse] at h2
      have : 0 < sep.length := List.length_pos_iff.2 hs
      omega
    | cons c s =>
      rw [splitGo]
      split_ifs with hp
      · obtain ⟨r, hr⟩ := prefix_iff.1 hp
        have hl : 0 < sep.length := List.length_pos_iff.2 hs
        have hlen := congrArg List.length hr
        simp only [List.length_cons, List.length_append] at hlen
        rw [skip _ _ _ (by omega)]
        have hd : s.drop (sep.length - 1) = r := by
          have : (c :: s).drop sep.length = r := by rw [hr]; simp
          obtain ⟨m, hm⟩ : ∃ m, sep.length = m + 1 := ⟨sep.length - 1, by omega⟩
          rw [hm] at this ⊢
          simpa using this
        rw [hd, hr, ← List.append_assoc]
        refine .more ?_ ?_
        · intro p' r' h
          rw [List.length_reverse]
          exact hc p' r' (by rw [hr, ← List.append_assoc]; exact h)
        · have := ih r.length (by simp only [List.length_cons] at hn; omega) r [] rfl (by intro _ _ _; simp)
          simpa using this
      · have := ih s.length (by simp only [List.length_cons] at hn; omega) s (c :: cur) rfl (by
          intro p' r' h
          simp only [List.reverse_cons, List.append_assoc, List.singleton_append, List.length_cons] at h ⊢
          have h1 := hc p' r' (by simpa using h)
          rcases Nat.lt_or_eq_of_le h1 with h2 | h2
          · omega
          · exfalso
            apply hp
            rw [prefix_iff]
            refine ⟨r', ?_⟩
            have h3 := List.append_inj (s₁ := cur.reverse) (t₁ := c :: s) (s₂ := p') (t₂ := sep ++ r') h
              (by simpa using h2)
            exact h3.2)
        simpa using this

end Str

/-- The parts are determined by the text and the separator. -/
theorem C51_splits_unique {sep s : List Char} {ps qs : List (List Char)} (h : Splits sep s ps)
    (h' : Splits sep s qs) : ps = qs := by
  induction h generalizing qs with
  | last hn =>
    cases h' with
    | last => rfl
    | more h1 h2 => exact absurd ⟨_, _, rfl⟩ hn
  | @more p r ps h1 h2 ih =>
    generalize he : p ++ sep ++ r = t at h'
    cases h' with
    | last hn => exact absurd ⟨p, r, he.symm⟩ hn
    | @more p' r' qs' h1' h2' =>
      have a := h1 _ _ he
      have b := h1' _ _ he.symm
      have e : p = p' ∧ sep ++ r = sep ++ r' :=
        List.append_inj (by simpa using he) (by omega)
      obtain ⟨rfl, e2⟩ := e
      have : r = r' := by simpa using e2
      subst this
      rw [ih h2']

/-- `split` with a non-empty separator gives the parts between its occurrences. -/
theorem C51_split (s sep : String) (hs : sep ≠ "") :
    ∃ ps, split [.str s, .str sep] = .ok (.arr (ps.map fun p => .str (String.ofList p))) ∧
      Splits sep.toList s.toList ps := by
  have hs' : sep.toList ≠ [] := by simpa using hs
  refine ⟨splitC s.toList sep.toList, rfl, ?_⟩
  unfold splitC
  rw [if_neg hs']
  have := Str.splitGo_spec sep.toList hs' s.toList.length s.toList [] rfl (by intro _ _ _; simp)
  simpa using this

/-- The parts, with the separator between them, are the text again; none of them contains the separator. -/
theorem C51_split_join {sep s : List Char} {ps : List (List Char)} (hs : sep ≠ []) (h : Splits sep s ps) :
    sep.intercalate ps = s ∧ (∀ p ∈ ps, ¬ Within sep p) ∧ ps ≠ [] := by
  induction h with
  | @last s hn => exact ⟨by simp [List.intercalate], by simpa using hn, by simp⟩
  | @more p r ps h1 h2 ih =>
    obtain ⟨i1, i2, i3⟩ := ih
    refine ⟨?_, ?_, by simp⟩
    · cases ps with
      | nil => exact absurd rfl i3
      | cons q ps =>
        rw [List.intercalate, List.intersperse_cons_cons, List.flatten_cons, List.flatten_cons]
        rw [List.intercalate] at i1
        rw [i1, List.append_assoc]
    · intro q hq
      rcases List.mem_cons.1 hq with rfl | hq
      · rintro ⟨a, b, rfl⟩
        have := h1 a (b ++ sep ++ r) (by simp)
        have hl : 0 < sep.length := List.length_pos_iff.2 hs
        simp only [List.length_append] at this
        omega
      · exact i2 q hq

/-- The empty separator splits before and after every character. -/
theorem C51_split_empty (s : String) :
    split [.str s, .str ""] =
      .ok (.arr ([.str ""] ++ s.toList.map (fun c => .str (String.ofList [c])) ++ [.str ""])) := by
  simp only [split, argStr, List.getElem?_cons_zero, List.getElem?_cons_succ, bind, Except.bind, pure, Except.pure]
  simp [splitC]

/-- `startsWith`, `endsWith` and `contains` on strings. -/
theorem C51_parts (s p : String) :
    (startsWith [.str s, .str p] = .ok (.bool true) ↔ ∃ r, s = p ++ r) ∧
    (endsWith [.str s, .str p] = .ok (.bool true) ↔ ∃ r, s = r ++ p) ∧
    (contains [.str s, .str p] = .ok (.bool true) ↔ ∃ a b, s = a ++ p ++ b) ∧
    (∃ b, startsWith [.str s, .str p] = .ok (.bool b)) ∧ (∃ b, endsWith [.str s, .str p] = .ok (.bool b)) ∧
    (∃ b, contains [.str s, .str p] = .ok (.bool b)) := by
  have inj : ∀ a b : String, a = b ↔ a.toList = b.toList := fun a b => String.toList_inj.symm
  have lift : ∀ l : List Char, ∃ r : String, r.toList = l := fun l => ⟨String.ofList l, by simp⟩
  refine ⟨?_, ?_, ?_, ⟨_, rfl⟩, ⟨_, rfl⟩, ⟨_, rfl⟩⟩
  · show (Except.ok (Val.bool (p.toList.isPrefixOf s.toList)) : Fn.Res Val) = _ ↔ _
    rw [Except.ok.injEq, Val.bool.injEq, Str.prefix_iff]
    constructor
    · rintro ⟨r, h⟩; obtain ⟨r, rfl⟩ := lift r; exact ⟨r, by rw [inj]; simpa using h⟩
    · rintro ⟨r, rfl⟩; exact ⟨r.toList, by simp⟩
  · show (Except.ok (Val.bool (p.toList.isSuffixOf s.toList)) : Fn.Res Val) = _ ↔ _
    rw [Except.ok.injEq, Val.bool.injEq, Str.suffix_iff]
    constructor
    · rintro ⟨r, h⟩; obtain ⟨r, rfl⟩ := lift r; exact ⟨r, by rw [inj]; simpa using h⟩
    · rintro ⟨r, rfl⟩; exact ⟨r.toList, by simp⟩
  · show (Except.ok (Val.bool (hasInfix p.toList s.toList)) : Fn.Res Val) = _ ↔ _
    rw [Except.ok.injEq, Val.bool.injEq, Str.within_iff]
    constructor
    · rintro ⟨a, b, h⟩
      obtain ⟨a, rfl⟩ := lift a
      obtain ⟨b, rfl⟩ := lift b
      exact ⟨a, b, by rw [inj]; simpa using h⟩
    · rintro ⟨a, b, rfl⟩; exact ⟨a.toList, b.toList, by simp⟩

/-- `trim` removes the white space at both ends and nothing else: the result is the middle part, and neither
begins nor ends with white space. -/
theorem C51_trim (s : String) :
    ∃ (t : String) (a b : List Char), trim [.str s] = .ok (.str t) ∧ s.toList = a ++ t.toList ++ b ∧
      (∀ c ∈ a, Bytes.isWs c = true) ∧ (∀ c ∈ b, Bytes.isWs c = true) ∧
      (∀ c ∈ t.toList.head?, Bytes.isWs c = false) ∧ (∀ c ∈ t.toList.getLast?, Bytes.isWs c = false) := by
  refine ⟨String.ofList (trimC s.toList), s.toList.takeWhile Bytes.isWs,
    ((s.toList.dropWhile Bytes.isWs).reverse.takeWhile Bytes.isWs).reverse, rfl, ?_, ?_, ?_, ?_, ?_⟩
  · rw [String.toList_ofList, trimC, List.append_assoc, ← List.reverse_append, List.takeWhile_append_dropWhile,
      List.reverse_reverse, List.takeWhile_append_dropWhile]
  · intro c hc; exact Str.takeWhile_ws hc
  · intro c hc; exact Str.takeWhile_ws (List.mem_reverse.1 hc)
  · intro c hc
    rw [String.toList_ofList, trimC] at hc
    -- the first character of a prefix of the text without leading white space
    have hpre : ((s.toList.dropWhile Bytes.isWs).reverse.dropWhile Bytes.isWs).reverse <+: s.toList.dropWhile Bytes.isWs := by
      have := List.dropWhile_suffix (l := (s.toList.dropWhile Bytes.isWs).reverse) Bytes.isWs
      have := List.reverse_prefix.2 this
      simpa using this
    obtain ⟨r, hr⟩ := hpre
    have hh := List.head?_dropWhile_not Bytes.isWs s.toList
    rw [← hr] at hh
    cases hq : ((s.toList.dropWhile Bytes.isWs).reverse.dropWhile Bytes.isWs).reverse with
    | nil => rw [hq] at hc; cases hc
    | cons x xs =>
      rw [hq] at hc hh
      cases hc
      simpa using hh
  · intro c hc
    rw [String.toList_ofList, trimC, List.getLast?_reverse] at hc
    have hh := List.head?_dropWhile_not Bytes.isWs (s.toList.dropWhile Bytes.isWs).reverse
    cases hq : (s.toList.dropWhile Bytes.isWs).reverse.dropWhile Bytes.isWs with
    | nil => rw [hq] at hc; cases hc
    | cons x xs =>
      rw [hq] at hc hh
      cases hc
      simpa using hh

/-- These conditions determine the result: trimming a text that has no white space at its ends, with white space
added at both ends, gives that text. -/
theorem C51_trim_determined (a t b : List Char) (ha : ∀ c ∈ a, Bytes.isWs c = true)
    (hb : ∀ c ∈ b, Bytes.isWs c = true) (h1 : ∀ c ∈ t.head?, Bytes.isWs c = false)
    (h2 : ∀ c ∈ t.getLast?, Bytes.isWs c = false) :
    trim [.str (String.ofList (a ++ t ++ b))] = .ok (.str (String.ofList t)) := by
  have drop : ∀ (w r : List Char), (∀ c ∈ w, Bytes.isWs c = true) → (∀ c ∈ r.head?, Bytes.isWs c = false) →
      (w ++ r).dropWhile Bytes.isWs = r := by
    intro w r hw hr
    induction w with
    | nil =>
      cases r with
      | nil => rfl
      | cons c r => rw [List.nil_append, List.dropWhile_cons, hr c rfl]; rfl
    | cons c w ih =>
      rw [List.cons_append, List.dropWhile_cons, if_pos (hw c (by simp))]
      exact ih fun x hx => hw x (by simp [hx])
  show Except.ok (Val.str (String.ofList (trimC (String.ofList (a ++ t ++ b)).toList))) = _
  rw [String.toList_ofList]
  congr 3
  unfold trimC
  cases t with
  | nil =>
    have : ∀ c ∈ a ++ b, Bytes.isWs c = true := by
      intro c hc; rcases List.mem_append.1 hc with h | h; exacts [ha c h, hb c h]
    have h0 := drop (a ++ b) [] this (by simp)
    simp only [List.append_nil] at h0 ⊢
    rw [h0]; rfl
  | cons c t =>
    rw [List.append_assoc, drop a ((c :: t) ++ b) ha (by intro x hx; exact h1 x (by simpa using hx)), List.reverse_append,
      drop b.reverse (c :: t).reverse (by intro x hx; exact hb x (List.mem_reverse.1 hx)) (by
        intro x hx; rw [List.head?_reverse] at hx; exact h2 x hx), List.reverse_reverse]

/-- Trimming twice is trimming once. -/
theorem C51_trim_idempotent (s t : String) (h : trim [.str s] = .ok (.str t)) :
    trim [.str t] = .ok (.str t) := by
  obtain ⟨t', a, b, h1, -, -, -, h5, h6⟩ := C51_trim s
  rw [h] at h1
  cases h1
  have := C51_trim_determined [] t.toList [] (by simp) (by simp) h5 h6
  simpa using this

/-- `contains` on an array: whether an element is the number, string, boolean or null looked for. Arrays, objects
and dates are never found. -/
theorem C51_contains_array (xs : List Val) (v : Val) :
    ∃ b, contains [.arr xs, v] = .ok (.bool b) ∧
      (b = true ↔ v ∈ xs ∧ (v = .null ∨ (∃ x, v = .bool x) ∨ (∃ x, v = .num x) ∨ ∃ x, v = .str x)) := by
  have he : ∀ x v, elemEq x v = true ↔
      x = v ∧ (v = .null ∨ (∃ x, v = .bool x) ∨ (∃ x, v = .num x) ∨ ∃ x, v = .str x) := by
    intro x v
    cases x <;> cases v <;> simp [elemEq]
  refine ⟨xs.any fun x => elemEq x v, ?_, ?_⟩
  · simp only [contains, argVar, List.getElem?_cons_zero, List.getElem?_cons_succ, bind, Except.bind, pure, Except.pure]
  · rw [List.any_eq_true]
    constructor
    · rintro ⟨x, hx, h⟩
      obtain ⟨rfl, h2⟩ := (he x v).1 h
      exact ⟨hx, h2⟩
    · rintro ⟨hx, h2⟩; exact ⟨v, hx, (he v v).2 ⟨rfl, h2⟩⟩

/-- The length of an array is its number of elements; that of a string its number of bytes in UTF-8, which is the
number of characters only for ASCII text. -/
theorem C51_len (xs : List Val) (s : String) :
    len [.arr xs] = .ok (.num xs.length) ∧ len [.str s] = .ok (.num s.utf8ByteSize) ∧
    (s.utf8ByteSize = s.length ↔ ∀ c ∈ s.toList, c.toNat < 128) := by
  have hb : Zen.byteLen s = s.utf8ByteSize := by
    have : ∀ l : List Char, (l.map Char.utf8Size).sum = (String.ofList l).utf8ByteSize := by
      intro l
      induction l with
      | nil => rfl
      | cons c l ih =>
        rw [List.map_cons, List.sum_cons, ih, String.ofList_cons, String.utf8ByteSize_append,
          String.utf8ByteSize_singleton]
    have h := this s.toList
    rwa [String.ofList_toList] at h
  refine ⟨rfl, ?_, ?_⟩
  · show Except.ok (Val.num (Zen.byteLen s : Rat)) = _
    rw [hb]
  · rw [← hb, ← String.length_toList]
    unfold Zen.byteLen
    have h1 : ∀ c : Char, c.utf8Size = 1 ↔ c.toNat < 128 := by
      intro c
      rw [Char.utf8Size_eq_one_iff]
      show c.val.toNat ≤ 127 ↔ _
      exact Nat.lt_succ_iff.symm
    have h2 : ∀ l : List Char, l.length ≤ (l.map Char.utf8Size).sum := by
      intro l
      induction l with
      | nil => simp
      | cons c l ih =>
        rw [List.map_cons, List.sum_cons, List.length_cons]
        have := c.utf8Size_pos
        omega
    have h3 : ∀ l : List Char, (l.map Char.utf8Size).sum = l.length ↔ ∀ c ∈ l, c.toNat < 128 := by
      intro l
      induction l with
      | nil => simp
      | cons c l ih =>
        rw [List.map_cons, List.sum_cons, List.length_cons, List.forall_mem_cons, ← h1]
        have := c.utf8Size_pos
        have := h2 l
        constructor
        · intro h
          exact ⟨by omega, ih.1 (by omega)⟩
        · rintro ⟨h, h'⟩
          have := ih.2 h'
          omega
    exact h3 s.toList

/-- What is no string has no beginning, end or middle: the functions on strings fail on other kinds of values. -/
theorem C51_kinds (L : Lib) (a b : Val) :
    ((∃ v, startsWith [a, b] = .ok v) ↔ (∃ s, a = .str s) ∧ ∃ p, b = .str p) ∧
    ((∃ v, endsWith [a, b] = .ok v) ↔ (∃ s, a = .str s) ∧ ∃ p, b = .str p) ∧
    ((∃ v, split [a, b] = .ok v) ↔ (∃ s, a = .str s) ∧ ∃ p, b = .str p) ∧
    ((∃ v, contains [a, b] = .ok v) ↔ ((∃ s, a = .str s) ∧ ∃ p, b = .str p) ∨ ∃ xs, a = .arr xs) ∧
    ((∃ v, trim [a] = .ok v) ↔ ∃ s, a = .str s) ∧
    ((∃ v, upper L [a] = .ok v) ↔ ∃ s, a = .str s) ∧
    ((∃ v, lower L [a] = .ok v) ↔ ∃ s, a = .str s) ∧
    ((∃ v, len [a] = .ok v) ↔ (∃ s, a = .str s) ∨ ∃ xs, a = .arr xs) := by
  refine ⟨?_, ?_, ?_, ?_, ?_, ?_, ?_, ?_⟩
  · cases a <;> cases b <;> simp [startsWith, argStr, bind, Except.bind, pure, Except.pure]
  · cases a <;> cases b <;> simp [endsWith, argStr, bind, Except.bind, pure, Except.pure]
  · cases a <;> cases b <;> simp [split, argStr, bind, Except.bind, pure, Except.pure]
  · cases a <;> cases b <;> simp [contains, argVar, bind, Except.bind, pure, Except.pure]
  · cases a <;> simp [trim, argStr, bind, Except.bind, pure, Except.pure]
  · cases a <;> simp [upper, argStr, bind, Except.bind, pure, Except.pure]
  · cases a <;> simp [lower, argStr, bind, Except.bind, pure, Except.pure]
  · cases a <;> simp [len, argVar, bind, Except.bind, pure, Except.pure]

/-- Regular expressions: a pattern the library refuses is an error; else `matches` tells what the library tells, and
`extract` lists the groups that took part in the first match. -/
theorem C51_regex (L : Lib) (s p : String) :
    (L.regex p = none → (∃ m, matches_ L [.str s, .str p] = .error (.err m)) ∧
      ∃ m, extract L [.str s, .str p] = .error (.err m)) ∧
    (∀ r, L.regex p = some r →
      matches_ L [.str s, .str p] = .ok (.bool (r.isMatch s)) ∧
      (r.captures s = none → extract L [.str s, .str p] = .ok (.arr [])) ∧
      ∀ gs, r.captures s = some gs →
        extract L [.str s, .str p] = .ok (.arr ((gs.filterMap id).map .str))) := by
  refine ⟨fun h => ?_, fun r h => ⟨?_, fun hc => ?_, fun gs hc => ?_⟩⟩
  · simp [matches_, extract, argStr, h, bind, Except.bind]
  · simp [matches_, argStr, h, bind, Except.bind, pure, Except.pure]
  · simp [extract, argStr, h, hc, bind, Except.bind, pure, Except.pure]
  · simp only [extract, argStr, h, hc, bind, Except.bind, pure, Except.pure, List.getElem?_cons_zero,
      List.getElem?_cons_succ, Option.getD_some, Except.ok.injEq, Val.arr.injEq]
    rw [List.map_filterMap]
    rfl

/-! ### cases -/

example : split [.str "a,b,,c", .str ","] = .ok (.arr [.str "a", .str "b", .str "", .str "c"]) := by rfl
-- occurrences do not overlap, the first one counts
example : split [.str "aaa", .str "aa"] = .ok (.arr [.str "", .str "a"]) := by rfl
example : split [.str "", .str ","] = .ok (.arr [.str ""]) := by rfl
example : split [.str "ab", .str ""] = .ok (.arr [.str "", .str "a", .str "b", .str ""]) := by rfl
example : trim [.str " \t a b\n"] = .ok (.str "a b") := by rfl
example : len [.str "é"] = .ok (.num 2) := by rfl
example : contains [.str "decision", .str "cis"] = .ok (.bool true) := by rfl
example : contains [.arr [.arr [.num 1]], .arr [.num 1]] = .ok (.bool false) := by rfl
example : startsWith [.str "abc", .str "ab"] = .ok (.bool true) := by rfl
example : endsWith [.str "abc", .str "ab"] = .ok (.bool false) := by rfl

end Zen
