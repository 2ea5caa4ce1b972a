import Verif.Workspace.SearchLemmas
import Mathlib.Data.List.Forall2
import Mathlib.Data.List.Pairwise
import Mathlib.Algebra.BigOperators.Group.List.Basic
import Mathlib.Tactic.Ring
import Mathlib.Tactic.Linarith

/-!
# C75: a search gives the texts in which every word of the query is found, the best first

The specification: which words a query has (`Words`), when and where a word is found in a text and what it scores (`Found`,
`Rank`), which texts a document has (`Has`), what a hit is (`IsHit`).
-/

namespace Zen.Search

open scoped List

/-! ### the words of a query -/

/-- `ws` are the words of `q`: the parts between white space -/
inductive Words (white : Char → Bool) : Text → List Text → Prop
  | nil {s : Text} : (∀ c ∈ s, white c = true) → Words white s []
  | cons {s w r : Text} {ws : List Text} : (∀ c ∈ s, white c = true) → w ≠ [] → (∀ c ∈ w, white c = false) →
      (∀ c, r.head? = some c → white c = true) → Words white r ws → Words white (s ++ w ++ r) (w :: ws)

theorem words_white {p : Char → Bool} : ∀ {s : Text} (r : Text), (∀ c ∈ s, p c = true) → words p [] (s ++ r) = words p [] r
  | [], _, _ => rfl
  | c :: s, r, h => by
    show words p [] (c :: (s ++ r)) = _
    rw [words, if_pos (h c List.mem_cons_self)]
    simpa using words_white r (fun c hc => h c (List.mem_cons_of_mem _ hc))

theorem words_word {p : Char → Bool} : ∀ {w : Text} (cur r : Text), (∀ c ∈ w, p c = false) →
    words p cur (w ++ r) = words p (cur ++ w) r
  | [], cur, r, _ => by simp
  | c :: w, cur, r, h => by
    show words p cur (c :: (w ++ r)) = _
    rw [words, if_neg (by simp [h c List.mem_cons_self]), words_word _ r (fun c hc => h c (List.mem_cons_of_mem _ hc))]
    simp

theorem words_end {p : Char → Bool} {w r : Text} (hw : w ≠ []) (hr : ∀ c, r.head? = some c → p c = true) :
    words p w r = w :: words p [] r := by
  cases r with
  | nil => simp [words, hw]
  | cons c r =>
    have hc := hr c rfl
    rw [words, if_pos hc, if_neg hw, words, if_pos hc]
    simp

theorem words_of {p : Char → Bool} {q : Text} {ws : List Text} (h : Words p q ws) : words p [] q = ws := by
  induction h with
  | nil hs => simpa [words] using words_white [] hs
  | cons hs hw hc hr _ ih =>
    rw [List.append_assoc, words_white _ hs, words_word _ _ hc, List.nil_append, words_end hw hr, ih]

theorem words_exist (p : Char → Bool) : ∀ (n : Nat) (q : Text), q.length ≤ n → ∃ ws, Words p q ws
  | 0, q, h => ⟨[], .nil (by intro c hc; have := List.length_pos_of_mem hc; omega)⟩
  | n + 1, q, h => by
    have e1 : q.takeWhile p ++ q.dropWhile p = q := List.takeWhile_append_dropWhile
    have hs : ∀ c ∈ q.takeWhile p, p c = true := fun c hc => List.all_eq_true.1 List.all_takeWhile c hc
    cases hd : q.dropWhile p with
    | nil =>
      rw [hd, List.append_nil] at e1
      exact ⟨[], .nil (by rw [← e1]; exact hs)⟩
    | cons c r =>
      have hc : p c = false := by
        have := List.head?_dropWhile_not p q
        rw [hd] at this
        simpa using this
      have e2 : (c :: r).takeWhile (fun x => !p x) ++ (c :: r).dropWhile (fun x => !p x) = c :: r :=
        List.takeWhile_append_dropWhile
      have hw : (c :: r).takeWhile (fun x => !p x) ≠ [] := by simp [hc]
      have hlen : ((c :: r).dropWhile (fun x => !p x)).length ≤ n := by
        have l1 := congrArg List.length e1
        have l2 := congrArg List.length e2
        have l3 := List.length_pos_iff.2 hw
        rw [hd] at l1
        simp only [List.length_append] at l1 l2
        omega
      obtain ⟨ws, hws⟩ := words_exist p n _ hlen
      refine ⟨(c :: r).takeWhile (fun x => !p x) :: ws, ?_⟩
      have := Words.cons hs hw (fun x hx => by simpa using List.all_eq_true.1 (List.all_takeWhile (p := fun x => !p x)) x hx)
        (fun x hx => by
          have := List.head?_dropWhile_not (fun x => !p x) (c :: r)
          rw [hx] at this
          simpa using this) hws
      rw [List.append_assoc, e2] at this
      have e3 : q.takeWhile p ++ c :: r = q := by rw [← hd]; exact e1
      rwa [e3] at this

/-- the words that the search reads are the words of the query -/
theorem C75_words (p : Char → Bool) (q : Text) (ws : List Text) : words p [] q = ws ↔ Words p q ws := by
  constructor
  · rintro rfl
    obtain ⟨ws, h⟩ := words_exist p _ q (Nat.le_refl _)
    rw [words_of h]; exact h
  · exact words_of

/-! ### a word in a text -/

/-- what a word scores that stands in a text: the whole text, its beginning, the beginning of a word, within a word -/
inductive Rank (C : Chars) (hay tok : Text) : Nat → Nat → Prop
  | whole : hay = tok → Rank C hay tok 0 1000
  | start : hay ≠ tok → Rank C hay tok 0 800
  | word {a : Nat} {c : Char} : hay[a]? = some c → C.alnum c = false → Rank C hay tok (a + 1) (650 - min (a + 1) 150)
  | inside {a : Nat} {c : Char} : hay[a]? = some c → C.alnum c = true → Rank C hay tok (a + 1) (500 - min (a + 1) 400)

/-- the word `tok` is found in `hay` from `a` to `b` with score `s`: it stands there, or (if it stands nowhere) its letters occur
one after the other, from the first place where its first letter occurs to the first place where all have occurred, in at most
three times its length -/
inductive Found (C : Chars) (hay tok : Text) : Nat → Nat → Nat → Prop
  | within {s a : Nat} : tok ≠ [] → At hay tok a → (∀ i < a, ¬ At hay tok i) → Rank C hay tok a s →
      Found C hay tok s a (a + tok.length)
  | scattered {t : Char} {a b : Nat} : tok.head? = some t → (∀ i, ¬ At hay tok i) →
      hay[a]? = some t → (∀ i < a, hay[i]? ≠ some t) → tok <+ hay.take b → (∀ j < b, ¬ tok <+ hay.take j) →
      b ≤ a + 3 * tok.length → Found C hay tok (100 + 100 * tok.length / (b - a)) a b

theorem rank_iff {C : Chars} {hay tok : Text} {a s : Nat} (hne : tok ≠ []) (h : At hay tok a) :
    Rank C hay tok a s ↔ s = (if a = 0 ∧ tok.length = hay.length then 1000
       else if a = 0 then 800
       else if !(hay[a - 1]?.any C.alnum) then 650 - min a 150
       else 500 - min a 400) := by
  have hb := h.bound hne
  cases a with
  | zero =>
    have e : tok.length = hay.length ↔ hay = tok := by
      constructor
      · intro hl
        have h' : tok <+: hay := by simpa [At] using h
        exact (h'.eq_of_length hl).symm
      · rintro rfl; rfl
    simp only [true_and, if_true, e]
    constructor
    · intro hr
      cases hr with
      | whole hw => rw [if_pos hw]
      | start hw => rw [if_neg hw]
    · rintro rfl
      split
      · exact .whole ‹_›
      · exact .start ‹_›
  | succ a =>
    have hl : a < hay.length := by omega
    have hg : hay[a]? = some hay[a] := List.getElem?_eq_getElem hl
    simp only [Nat.add_eq_zero_iff, Nat.one_ne_zero, and_false, false_and, if_false, Nat.add_sub_cancel, hg, Option.any_some]
    constructor
    · intro hr
      cases hr with
      | word hc ha => rw [hg] at hc; cases hc; simp [ha]
      | inside hc ha => rw [hg] at hc; cases hc; simp [ha]
    · rintro rfl
      cases ha : C.alnum hay[a]
      · simpa using Rank.word hg ha
      · simpa using Rank.inside hg ha

/-- a word scores what is said, and where is said -/
theorem C75_word (C : Chars) (hay tok : Text) (s a b : Nat) :
    scoreToken C hay tok = some (s, a, b) ↔ Found C hay tok s a b := by
  unfold scoreToken
  cases e : findSub hay tok with
  | some i =>
    obtain ⟨hne, ha, hf⟩ := findSub_some.1 e
    simp only [Option.some.injEq, Prod.mk.injEq]
    constructor
    · rintro ⟨hs, rfl, rfl⟩
      exact .within hne ha hf ((rank_iff hne ha).2 hs.symm)
    · intro h
      cases h with
      | within _ ha' hf' hr =>
        have : i = a := by
          rcases Nat.lt_trichotomy i a with hl | hl | hl
          · exact absurd ha (hf' i hl)
          · exact hl
          · exact absurd ha' (hf a hl)
        subst this
        exact ⟨((rank_iff hne ha).1 hr).symm, rfl, rfl⟩
      | scattered _ hn _ _ _ _ _ => exact absurd ha (hn i)
  | none =>
    cases tok with
    | nil =>
      simp only [scan]
      constructor
      · intro h; cases h
      · intro h
        cases h with
        | within hne => exact absurd rfl hne
        | scattered ht => cases ht
    | cons t ts =>
      have hn := (findSub_none (List.cons_ne_nil t ts)).1 e
      rcases hs : scan 0 none 0 (t :: ts) hay with ⟨f, l, r⟩
      cases r with
      | cons x r =>
        have hns := scan_none _ _ _ _ _ _ _ _ _ _ hs
        constructor
        · intro h
          cases f <;> cases h
        · intro h
          cases h with
          | within _ ha _ _ => exact absurd ha (hn _)
          | scattered _ _ _ _ h5 _ _ => exact absurd (h5.trans (List.take_sublist _ _)) hns
      | nil =>
        obtain ⟨a', b', h1, h2, h3, h4, h5, h6⟩ := scan_some _ _ _ _ _ _ _ _ hs
        simp only [Option.none_or, Nat.zero_add] at h1 h2
        subst h1
        have h7 : (t :: ts) <+ (hay.take b').drop a' := by
          refine sublist_drop_first _ t ts a' (fun j hj hg => h4 j hj ?_) h5
          rw [List.getElem?_take] at hg
          split at hg
          · exact hg
          · cases hg
        have h8 : a' + (t :: ts).length ≤ b' := by
          have := h7.length_le
          have hp : 0 < (t :: ts).length := Nat.succ_pos _
          simp only [List.length_drop, List.length_take] at this
          omega
        have hp : 0 < (t :: ts).length := Nat.succ_pos _
        have e1 : l - a' + 1 = b' - a' := by omega
        dsimp only
        rw [e1]
        have e2 : min ((t :: ts).length * 100 / (b' - a')) 100 = 100 * (t :: ts).length / (b' - a') := by
          rw [Nat.mul_comm, Nat.min_eq_left]
          apply Nat.div_le_of_le_mul
          nlinarith [Nat.le_sub_of_add_le' h8]
        rw [e2]
        constructor
        · intro h
          split at h
          · cases h
          · rename_i hle
            simp only [Option.some.injEq, Prod.mk.injEq] at h
            obtain ⟨rfl, rfl, rfl⟩ := h
            rw [h2]
            exact .scattered rfl hn h3 h4 h5 h6 (by omega)
        · intro h
          cases h with
          | within _ ha _ _ => exact absurd ha (hn _)
          | scattered ht _ g3 g4 g5 g6 g7 =>
            cases ht
            have : a = a' := first_unique g3 g4 h3 h4
            subst this
            have : b = b' := by
              rcases Nat.lt_trichotomy b b' with hl | hl | hl
              · exact absurd g5 (h6 b hl)
              · exact hl
              · exact absurd h5 (g6 b' hl)
            subst this
            rw [if_neg (by omega), h2]

/-- the places of a word that is found are in the text, and the first of them has its first letter -/
theorem C75_place (C : Chars) (hay tok : Text) (s a b : Nat) (h : Found C hay tok s a b) :
    a + tok.length ≤ b ∧ b ≤ hay.length ∧ tok ≠ [] ∧ hay[a]? = tok.head? ∧ tok <+ (hay.take b).drop a := by
  cases h with
  | within hne ha hf hr =>
    have hb := ha.bound hne
    refine ⟨Nat.le_refl _, hb, hne, ?_, ?_⟩
    · obtain ⟨r, hr⟩ := ha
      have := congrArg List.head? hr
      rw [List.head?_drop] at this
      rw [← this]
      cases tok with
      | nil => exact absurd rfl hne
      | cons => rfl
    · have := at_take.2 ha
      rw [List.drop_take, Nat.add_sub_cancel_left, this]
  | scattered ht hn h3 h4 h5 h6 h7 =>
    rename_i t
    cases tok with
    | nil => cases ht
    | cons t' ts =>
      cases ht
      have hs : (t :: ts) <+ (hay.take b).drop a := by
        refine sublist_drop_first _ t ts a (fun j hj hg => h4 j hj ?_) h5
        rw [List.getElem?_take] at hg
        split at hg
        · exact hg
        · cases hg
      have hl := hs.length_le
      have hp : 0 < (t :: ts).length := Nat.succ_pos _
      refine ⟨?_, ?_, by simp, h3, hs⟩
      · simp only [List.length_drop, List.length_take] at hl; omega
      · by_contra hc
        refine h6 hay.length (by omega) ?_
        rw [List.take_length]
        exact h5.trans (List.take_sublist _ _)

/-- what words score: the whole text most, then its beginning, then the beginning of a word, then any other place; scattered
letters always less than the beginning of a word -/
theorem C75_ranks (C : Chars) (hay tok : Text) (s a b : Nat) (h : Found C hay tok s a b) :
    (s = 1000 ∧ hay = tok) ∨ (s = 800 ∧ tok <+: hay ∧ hay ≠ tok) ∨
    (500 ≤ s ∧ s < 650 ∧ At hay tok a ∧ ∃ c, hay[a - 1]? = some c ∧ 0 < a ∧ C.alnum c = false) ∨
    (100 ≤ s ∧ s < 500 ∧ At hay tok a ∧ ∃ c, hay[a - 1]? = some c ∧ 0 < a ∧ C.alnum c = true) ∨
    (133 ≤ s ∧ s < 200 ∧ ∀ i, ¬ At hay tok i) := by
  have hp := C75_place C hay tok s a b h
  cases h with
  | within hne ha hf hr =>
    cases hr with
    | whole hw => exact Or.inl ⟨rfl, hw⟩
    | start hw => exact Or.inr (Or.inl ⟨rfl, by simpa [At] using ha, hw⟩)
    | word hc hq => exact Or.inr (Or.inr (Or.inl ⟨by omega, by omega, ha, _, hc, by omega, hq⟩))
    | inside hc hq => exact Or.inr (Or.inr (Or.inr (Or.inl ⟨by omega, by omega, ha, _, hc, by omega, hq⟩)))
  | scattered ht hn h3 h4 h5 h6 h7 =>
    refine Or.inr (Or.inr (Or.inr (Or.inr ⟨?_, ?_, hn⟩)))
    · have : 33 ≤ 100 * tok.length / (b - a) := by
        rw [Nat.le_div_iff_mul_le]
        · have : b - a ≤ 3 * tok.length := by omega
          nlinarith
        · have := List.length_pos_iff.2 hp.2.2.1
          omega
      omega
    · have hlt : tok.length < b - a := by
        rcases Nat.lt_or_ge tok.length (b - a) with hl | hl
        · exact hl
        · exfalso
          have hs := hp.2.2.2.2
          have hle : ((hay.take b).drop a).length ≤ tok.length := by
            simp only [List.length_drop, List.length_take]; omega
          have he := hs.eq_of_length_le hle
          refine hn a ?_
          rw [← at_take]
          rw [List.drop_take] at he
          rw [show tok.length = b - a by omega]
          exact he.symm
      have : 100 * tok.length / (b - a) < 100 := by
        rw [Nat.div_lt_iff_lt_mul (by omega)]
        nlinarith
      omega

/-! ### all words of a query in a text -/

/-- `(a, b)` is the place of the word that is found earliest, of several the first in the query -/
def Earliest (fs : List (Nat × Nat × Nat)) (a b : Nat) : Prop :=
  ∃ (i : Nat) (f : Nat × Nat × Nat), fs[i]? = some f ∧ f.2 = (a, b) ∧ (∀ g ∈ fs, a ≤ g.2.1) ∧
    ∀ (j : Nat) (g : Nat × Nat × Nat), j < i → fs[j]? = some g → a < g.2.1

/-- every one of the words is found in the text: the scores are added, less an eighth of the length of the text (40 at most) -/
def TextFound (C : Chars) (toks : List Text) (text : Text) (s a b : Nat) : Prop :=
  ∃ fs : List (Nat × Nat × Nat), List.Forall₂ (fun t f => Found C (text.map C.lower) t f.1 f.2.1 f.2.2) toks fs ∧
    s = (fs.map (·.1)).sum - min (text.length / 8) 40 ∧ Earliest fs a b

/-- the step of the loop of `SearchMatcher::score` -/
def pick (span : Option (Nat × Nat)) (f : Nat × Nat × Nat) : Option (Nat × Nat) :=
  some (match span with | some cur => if cur.1 ≤ f.2.1 then cur else f.2 | none => f.2)

theorem scoreAll_iff {C : Chars} {hay : Text} : ∀ {toks : List Text} {total : Nat} {span : Option (Nat × Nat)} {tot : Nat}
    {sp : Option (Nat × Nat)}, scoreAll C hay toks total span = some (tot, sp) ↔
      ∃ fs : List (Nat × Nat × Nat), List.Forall₂ (fun t f => Found C hay t f.1 f.2.1 f.2.2) toks fs ∧
        tot = total + (fs.map (·.1)).sum ∧ sp = fs.foldl pick span
  | [], total, span, tot, sp => by
    rw [scoreAll]
    constructor
    · intro h; cases h; exact ⟨[], .nil, by simp, rfl⟩
    · rintro ⟨fs, h1, h2, h3⟩
      cases h1
      simp at h2 h3
      rw [h2, h3]
  | t :: ts, total, span, tot, sp => by
    rw [scoreAll]
    cases e : scoreToken C hay t with
    | none =>
      constructor
      · intro h; cases h
      · rintro ⟨fs, h1, h2, h3⟩
        cases h1 with
        | cons h _ => rw [(C75_word _ _ _ _ _ _).2 h] at e; cases e
    | some r =>
      obtain ⟨s, a, b⟩ := r
      have hf := (C75_word _ _ _ _ _ _).1 e
      show scoreAll C hay ts (total + s) (pick span (s, a, b)) = _ ↔ _
      rw [scoreAll_iff]
      constructor
      · rintro ⟨fs, h1, h2, h3⟩
        exact ⟨(s, a, b) :: fs, .cons hf h1, by simp [h2]; omega, by simpa using h3⟩
      · rintro ⟨fs, h1, h2, h3⟩
        cases h1 with
        | cons h h' =>
          rename_i f fs
          obtain ⟨s', a', b'⟩ := f
          have := (C75_word _ _ _ _ _ _).2 h
          rw [e] at this
          cases this
          exact ⟨fs, h', by simp at h2; omega, by simpa using h3⟩

theorem fold_pick : ∀ (fs : List (Nat × Nat × Nat)) (cur : Nat × Nat), ∃ r, fs.foldl pick (some cur) = some r ∧
    ((r = cur ∧ ∀ g ∈ fs, r.1 ≤ g.2.1) ∨
     (r.1 < cur.1 ∧ ∃ (i : Nat) (f : Nat × Nat × Nat), fs[i]? = some f ∧ f.2 = r ∧ (∀ g ∈ fs, r.1 ≤ g.2.1) ∧
        ∀ (j : Nat) (g : Nat × Nat × Nat), j < i → fs[j]? = some g → r.1 < g.2.1))
  | [], cur => ⟨cur, rfl, Or.inl ⟨rfl, by simp⟩⟩
  | f :: fs, cur => by
    show ∃ r, fs.foldl pick (pick (some cur) f) = some r ∧ _
    by_cases hc : cur.1 ≤ f.2.1
    · have e : pick (some cur) f = some cur := by simp [pick, hc]
      rw [e]
      obtain ⟨r, h1, h2⟩ := fold_pick fs cur
      refine ⟨r, h1, ?_⟩
      rcases h2 with ⟨rfl, h2⟩ | ⟨h2, i, g, h3, h4, h5, h6⟩
      · exact Or.inl ⟨rfl, by simpa using ⟨hc, fun a b c hm => h2 (a, b, c) hm⟩⟩
      · refine Or.inr ⟨h2, i + 1, g, by simpa using h3, h4, ?_, ?_⟩
        · intro x hx
          rcases List.mem_cons.1 hx with rfl | hx
          · omega
          · exact h5 x hx
        · intro j x hj hx
          cases j with
          | zero => simp at hx; subst hx; omega
          | succ j => exact h6 j x (by omega) (by simpa using hx)
    · have e : pick (some cur) f = some f.2 := by simp [pick, hc]
      rw [e]
      obtain ⟨r, h1, h2⟩ := fold_pick fs f.2
      refine ⟨r, h1, ?_⟩
      rcases h2 with ⟨rfl, h2⟩ | ⟨h2, i, g, h3, h4, h5, h6⟩
      · refine Or.inr ⟨by omega, 0, f, rfl, rfl, ?_, by intro j g hj; omega⟩
        intro x hx
        rcases List.mem_cons.1 hx with rfl | hx
        · exact Nat.le_refl _
        · exact h2 x hx
      · refine Or.inr ⟨by omega, i + 1, g, by simpa using h3, h4, ?_, ?_⟩
        · intro x hx
          rcases List.mem_cons.1 hx with rfl | hx
          · omega
          · exact h5 x hx
        · intro j x hj hx
          cases j with
          | zero => simp at hx; subst hx; exact h2
          | succ j => exact h6 j x (by omega) (by simpa using hx)

theorem Earliest.unique {fs : List (Nat × Nat × Nat)} {a b a' b' : Nat} (h : Earliest fs a b) (h' : Earliest fs a' b') :
    a = a' ∧ b = b' := by
  obtain ⟨i, f, h1, h2, h3, h4⟩ := h
  obtain ⟨i', f', g1, g2, g3, g4⟩ := h'
  have e1 : f.2.1 = a := by rw [h2]
  have e2 : f'.2.1 = a' := by rw [g2]
  have l1 := h3 f' (List.mem_of_getElem? g1)
  have l2 := g3 f (List.mem_of_getElem? h1)
  have ea : a = a' := by omega
  rcases Nat.lt_trichotomy i i' with hl | hl | hl
  · have := g4 i f hl h1; omega
  · subst hl
    rw [h1] at g1
    cases g1
    rw [h2] at g2
    cases g2
    exact ⟨rfl, rfl⟩
  · have := h4 i' f' hl g1; omega

theorem fold_earliest {fs : List (Nat × Nat × Nat)} {a b : Nat} : fs.foldl pick none = some (a, b) ↔ Earliest fs a b := by
  have key : ∀ r : Nat × Nat, fs.foldl pick none = some r → Earliest fs r.1 r.2 := by
    intro r hr
    cases fs with
    | nil => cases hr
    | cons f fs =>
      change fs.foldl pick (some f.2) = some r at hr
      obtain ⟨r', h1, h2⟩ := fold_pick fs f.2
      rw [hr] at h1
      cases h1
      rcases h2 with ⟨rfl, h2⟩ | ⟨h2, i, g, h3, h4, h5, h6⟩
      · refine ⟨0, f, rfl, rfl, ?_, by intro j g hj; omega⟩
        intro x hx
        rcases List.mem_cons.1 hx with rfl | hx
        · exact Nat.le_refl _
        · exact h2 x hx
      · refine ⟨i + 1, g, by simpa using h3, h4, ?_, ?_⟩
        · intro x hx
          rcases List.mem_cons.1 hx with rfl | hx
          · omega
          · exact h5 x hx
        · intro j x hj hx
          cases j with
          | zero => simp at hx; subst hx; exact h2
          | succ j => exact h6 j x (by omega) (by simpa using hx)
  constructor
  · exact key (a, b)
  · intro h
    cases hf : fs.foldl pick none with
    | none =>
      obtain ⟨i, f, h1, _⟩ := h
      cases fs with
      | nil => simp at h1
      | cons f fs =>
        change fs.foldl pick (some f.2) = none at hf
        obtain ⟨r', h1, _⟩ := fold_pick fs f.2
        rw [hf] at h1; cases h1
    | some r =>
      obtain ⟨rfl, rfl⟩ := (key r hf).unique h
      rfl

/-- a text is found with the score and the place that are said -/
theorem C75_text (C : Chars) (toks : List Text) (text : Text) (s a b : Nat) :
    score C toks text = some (s, a, b) ↔ TextFound C toks text s a b := by
  unfold score
  split
  · rename_i ht
    subst ht
    constructor
    · intro h; cases h
    · rintro ⟨fs, h1, _, i, f, h3, _⟩
      cases h1 with
      | nil => simp at h3
      | cons h _ =>
        have := C75_place _ _ _ _ _ _ h
        have hp := List.length_pos_iff.2 this.2.2.1
        simp at this
        omega
  · constructor
    · intro h
      cases e : scoreAll C (text.map C.lower) toks 0 none with
      | none => rw [e] at h; cases h
      | some r =>
        obtain ⟨tot, sp⟩ := r
        rw [e] at h
        cases sp with
        | none => cases h
        | some sp =>
          obtain ⟨fs, h1, h2, h3⟩ := scoreAll_iff.1 e
          simp only [Option.some.injEq, Prod.mk.injEq] at h
          obtain ⟨rfl, rfl⟩ := h
          exact ⟨fs, h1, by rw [h2, Nat.zero_add], fold_earliest.1 h3.symm⟩
    · rintro ⟨fs, h1, h2, h3⟩
      rw [scoreAll_iff.2 ⟨fs, h1, rfl, (fold_earliest.2 h3).symm⟩]
      simp [h2]

/-- a text is found if and only if the query has a word and every word of it is found -/
theorem C75_every_word (C : Chars) (toks : List Text) (text : Text) :
    (score C toks text).isSome ↔ toks ≠ [] ∧ ∀ t ∈ toks, ∃ s a b, Found C (text.map C.lower) t s a b := by
  rw [Option.isSome_iff_exists]
  constructor
  · rintro ⟨⟨s, a, b⟩, h⟩
    obtain ⟨fs, h1, -, i, f, h3, -⟩ := (C75_text _ _ _ _ _ _).1 h
    constructor
    · rintro rfl
      cases h1
      simp at h3
    · intro t ht
      clear h3 h
      induction h1 with
      | nil => cases ht
      | cons hx _ ih =>
        rcases List.mem_cons.1 ht with rfl | ht
        · exact ⟨_, _, _, hx⟩
        · exact ih ht
  · rintro ⟨hne, h⟩
    have : ∃ fs : List (Nat × Nat × Nat), List.Forall₂ (fun t f => Found C (text.map C.lower) t f.1 f.2.1 f.2.2) toks fs := by
      clear hne
      induction toks with
      | nil => exact ⟨[], .nil⟩
      | cons t ts ih =>
        obtain ⟨fs, hfs⟩ := ih (fun t ht => h t (List.mem_cons_of_mem _ ht))
        obtain ⟨s, a, b, hf⟩ := h t List.mem_cons_self
        exact ⟨(s, a, b) :: fs, .cons hf hfs⟩
    obtain ⟨fs, hfs⟩ := this
    have hfn : fs ≠ [] := by
      rintro rfl
      cases hfs
      exact hne rfl
    obtain ⟨r, hr⟩ : ∃ r, fs.foldl pick none = some r := by
      cases fs with
      | nil => exact absurd rfl hfn
      | cons f fs =>
        obtain ⟨r, h1, _⟩ := fold_pick fs f.2
        exact ⟨r, h1⟩
    exact ⟨_, (C75_text _ _ _ _ _ _).2 ⟨fs, hfs, rfl, fold_earliest.1 hr⟩⟩

/-- a text in which every word of the query stands is found -/
theorem C75_contains (C : Chars) (toks : List Text) (text : Text) (hne : toks ≠ []) (hw : ∀ t ∈ toks, t ≠ [])
    (h : ∀ t ∈ toks, t <:+: text.map C.lower) : (score C toks text).isSome := by
  refine (C75_every_word _ _ _).2 ⟨hne, fun t ht => ?_⟩
  obtain ⟨p, q, e⟩ := h t ht
  have hat : At (text.map C.lower) t p.length := ⟨q, by rw [← e]; simp⟩
  cases e' : findSub (text.map C.lower) t with
  | none => exact absurd hat ((findSub_none (hw t ht)).1 e' _)
  | some i =>
    obtain ⟨h1, h2, h3⟩ := findSub_some.1 e'
    exact ⟨_, _, _, .within h1 h2 h3 ((rank_iff h1 h2).2 rfl)⟩

/-- a query with more words finds no more -/
theorem C75_narrows (C : Chars) (toks toks' : List Text) (text : Text) (hne : toks ≠ []) (h : toks ⊆ toks')
    (hf : (score C toks' text).isSome) : (score C toks text).isSome :=
  (C75_every_word _ _ _).2 ⟨hne, fun t ht => ((C75_every_word _ _ _).1 hf).2 t (h ht)⟩

/-- the order of the words changes neither what is found nor the score nor where the place begins -/
theorem C75_word_order (C : Chars) (toks toks' : List Text) (text : Text) (h : toks.Perm toks') :
    (score C toks text).map (fun r => (r.1, r.2.1)) = (score C toks' text).map (fun r => (r.1, r.2.1)) := by
  have key : ∀ {l l' : List Text} {r : Nat × Nat}, l.Perm l' → (score C l text).map (fun r => (r.1, r.2.1)) = some r →
      (score C l' text).map (fun r => (r.1, r.2.1)) = some r := by
    intro l l' r hp hs
    rw [Option.map_eq_some_iff] at hs
    obtain ⟨⟨s, a, b⟩, hs, rfl⟩ := hs
    obtain ⟨fs, h1, h2, h3⟩ := (C75_text _ _ _ _ _ _).1 hs
    obtain ⟨fs', g1, g2⟩ := List.perm_comp_forall₂ hp.symm h1
    have hn : fs'.foldl pick none ≠ none := by
      obtain ⟨i, f, hi, _⟩ := h3
      have := g2.symm.subset (List.mem_of_getElem? hi)
      cases fs' with
      | nil => cases this
      | cons f fs =>
        obtain ⟨r, h1, _⟩ := fold_pick fs f.2
        intro hc
        change fs.foldl pick (some f.2) = none at hc
        rw [h1] at hc; cases hc
    obtain ⟨⟨a', b'⟩, hr⟩ := Option.ne_none_iff_exists'.1 hn
    have he := fold_earliest.1 hr
    rw [(C75_text _ _ _ _ _ _).2 ⟨fs', g1, rfl, he⟩]
    have es : (fs'.map (·.1)).sum = (fs.map (·.1)).sum := (g2.map _).sum_eq
    have ea : a' = a := by
      obtain ⟨i, f, k1, k2, k3, _⟩ := h3
      obtain ⟨i', f', m1, m2, m3, _⟩ := he
      have l1 := k3 f' (g2.subset (List.mem_of_getElem? m1))
      have l2 := m3 f (g2.symm.subset (List.mem_of_getElem? k1))
      rw [m2] at l1
      rw [k2] at l2
      exact Nat.le_antisymm l2 l1
    simp [es, h2, ea]
  cases e : (score C toks text).map (fun r => (r.1, r.2.1)) with
  | some r => exact (key h e).symm
  | none =>
    cases e' : (score C toks' text).map (fun r => (r.1, r.2.1)) with
    | none => rfl
    | some r => rw [key h.symm e'] at e; cases e

/-- only the text in lower case matters -/
theorem C75_case (C : Chars) (toks : List Text) (text text' : Text) (h : text.map C.lower = text'.map C.lower) :
    score C toks text = score C toks text' := by
  have hl : text.length = text'.length := by simpa using congrArg List.length h
  have hn : text = [] ↔ text' = [] := by rw [← List.length_eq_zero_iff, hl, List.length_eq_zero_iff]
  unfold score
  rw [h, hl]
  simp only [hn]

/-! ### what is shown of a text -/

/-- what is shown of a text that is found from `a` to `b`: all of it, or two hundred characters around the middle of the place -/
inductive Shown (text : Text) (a b : Nat) : Text → Nat → Nat → Prop
  | all : text.length ≤ 200 → Shown text a b text a b
  | part {i : Nat} : 200 < text.length → i = min ((a + b) / 2 - 100) (text.length - 200) →
      Shown text a b ((text.drop i).take 200) (a - i) (min (b - i) 200)

theorem snippet_iff {text t : Text} {a b a' b' : Nat} : snippet text (a, b) = (t, a', b') ↔ Shown text a b t a' b' := by
  unfold snippet SNIPPET
  split
  · rename_i hl
    constructor
    · intro h; cases h; exact .all hl
    · intro h
      cases h with
      | all => rfl
      | part hl' => omega
  · rename_i hl
    dsimp only
    have e : min (min ((a + b) / 2 - 200 / 2) (text.length - 200) + 200) text.length =
        min ((a + b) / 2 - 100) (text.length - 200) + 200 := by omega
    rw [e, Nat.add_sub_cancel_left]
    have e2 : ∀ i, (text.take (i + 200)).drop i = (text.drop i).take 200 := by
      intro i; rw [List.drop_take, Nat.add_sub_cancel_left]
    rw [e2]
    constructor
    · intro h; cases h; exact .part (by omega) rfl
    · intro h
      cases h with
      | all hl' => omega
      | part _ hi => subst hi; rfl

/-- what is shown is a part of the text, and the place in it is in what is shown: it has what is found, if that has no more than
two hundred characters, and otherwise two hundred characters (or one less) of it -/
theorem C75_shown (text t : Text) (a b a' b' : Nat) (hab : a < b) (hb : b ≤ text.length) (h : Shown text a b t a' b') :
    t <:+: text ∧ t.length ≤ 200 ∧ a' < b' ∧ b' ≤ t.length ∧
    (b ≤ a + 200 → (t.drop a').take (b' - a') = (text.drop a).take (b - a)) ∧
    (a + 200 < b → a' = 0 ∧ b' = 200 ∧ t <:+: (text.drop a).take (b - a)) := by
  cases h with
  | all hl => exact ⟨List.infix_rfl, hl, hab, hb, fun _ => rfl, fun hc => by omega⟩
  | @part i hl hi =>
    have hlen : ((text.drop i).take 200).length = 200 := by simp; omega
    refine ⟨(List.take_prefix _ _).isInfix.trans (List.drop_suffix _ _).isInfix, by omega, by omega, by omega, ?_, ?_⟩
    · intro hc
      rw [List.drop_take, List.drop_drop, List.take_take]
      congr 1
      · omega
      · congr 1; omega
    · intro hc
      refine ⟨by omega, by omega, ?_⟩
      have e : (text.drop i).take 200 = (((text.drop a).take (b - a)).drop (i - a)).take 200 := by
        rw [List.drop_take, List.drop_drop, List.take_take]
        congr 1
        · omega
        · congr 1; omega
      rw [e]
      exact (List.take_prefix _ _).isInfix.trans (List.drop_suffix _ _).isInfix

/-! ### the texts of a document -/

/-- the columns of a table: id, name and field -/
def Table.columns (t : Table) : List (String × Text × Text) :=
  t.inputs.map (fun c => (c.1, c.2.1, c.2.2.getD [])) ++ t.outputs

/-- `ctx` is what the column `id` is called: the name of the first column with that id, its field if the name is empty -/
def Called (t : Table) (id : String) (ctx : Option Text) : Prop :=
  (∃ before name field after, t.columns = before ++ (id, name, field) :: after ∧ (∀ c ∈ before, c.1 ≠ id) ∧
    ((name ≠ [] ∧ ctx = some name) ∨ (name = [] ∧ ctx = some field))) ∨
  ((∀ c ∈ t.columns, c.1 ≠ id) ∧ ctx = none)

/-- the texts of a table and their places: name and field of every column, every cell whose column does not begin with `_` -/
inductive TableHas (t : Table) (base : Site) (ctx : Option Text) : Kind → List Text → Site → Prop
  | column {id : String} {name field : Text} : (id, name, field) ∈ t.columns →
      TableHas t base ctx .tableColumn [name, field] { base with column := some id, context := ctx }
  | cell {n : Nat} {row : List (String × Text)} {id : String} {text : Text} {c : Option Text} : t.rules[n]? = some row →
      (id, text) ∈ row → id.startsWith '_' = false → Called t id c →
      TableHas t base ctx .tableCell [text] { base with row := some n, column := some id, context := c }

/-- `v` has the text `s` under the keys `ks` -/
inductive Under : J → List String → J → Prop
  | here {v : J} : Under v [] v
  | key {m : List (String × J)} {k : String} {ks : List String} {x v : J} : m.lookup k = some x → Under x ks v →
      Under (.obj m) (k :: ks) v

/-- the text of a run of prose: of a text its text, of a link the texts in it, of a reference to a file its label -/
inductive RunText : J → Text → Prop
  | text {v : J} {s : String} : Under v ["type"] (.str "text") → Under v ["text"] (.str s) → RunText v s.toList
  | link {v : J} {xs : List J} {ts : List Text} : Under v ["type"] (.str "link") → Under v ["content"] (.arr xs) →
      List.Forall₂ (fun x t => (∃ s, Under x ["text"] (.str s) ∧ t = s.toList) ∨
        ((∀ s, ¬ Under x ["text"] (.str s)) ∧ t = [])) xs ts → RunText v ts.flatten
  | ref {v : J} {s : String} : Under v ["type"] (.str "fileRef") → Under v ["props", "label"] (.str s) → RunText v s.toList

/-- the prose of a block: the texts of its runs one after the other -/
def Prose (v : J) (text : Text) : Prop :=
  ∃ xs ts, Under v ["content"] (.arr xs) ∧
    List.Forall₂ (fun x t => RunText x t ∨ ((∀ s, ¬ RunText x s) ∧ t = [])) xs ts ∧ text = ts.flatten

/-- the block of a JSON value -/
def IdOf (v : J) (id : Option String) : Prop :=
  (∃ s, Under v ["id"] (.str s) ∧ id = some s) ∨ ((∀ s, ¬ Under v ["id"] (.str s)) ∧ id = none)

/-- the texts of a block of a policy -/
inductive BlockHas (C : Chars) : Block → Kind → List Text → Site → Prop
  | output {id out cs} : BlockHas C (.assertion id out cs) .assertionOutput [out] { block := some id }
  | condition {id out cs c text} : (c, text) ∈ cs →
      BlockHas C (.assertion id out cs) .assertionCondition [text] { block := some id, expr := some c }
  | key {id k v} : BlockHas C (.expression id k v) .expressionKey [k] { block := some id }
  | value {id k v} : BlockHas C (.expression id k v) .expression [v] { block := some id }
  | matchKey {id k arms} : BlockHas C (.match_ id k arms) .matchKey [k] { block := some id }
  | matchCondition {id k arms a c v} : (a, c, v) ∈ arms →
      BlockHas C (.match_ id k arms) .matchCondition [c] { block := some id, expr := some a }
  | matchValue {id k arms a c v} : (a, c, v) ∈ arms →
      BlockHas C (.match_ id k arms) .matchValue [v] { block := some id, expr := some a }
  | table {id t k cs s} : TableHas t { block := some id } none k cs s → BlockHas C (.table id t) k cs s
  | model {id name ps} : BlockHas C (.dataModel id name ps) .dataModel [name] { block := some id }
  | property {id name ps p text} : (p, text) ∈ ps → BlockHas C (.dataModel id name ps) .dataModelProperty [text]
      { block := some id, expr := some p, context := some name }
  | dictionary {id name es} : BlockHas C (.dictionary id name es) .dictionary [name] { block := some id }
  | entry {id name es e label value} : (e, label, value) ∈ es → BlockHas C (.dictionary id name es) .dictionaryEntry
      [label, value] { block := some id, expr := some e, context := some name }
  | prose {v ty k text id} : Under v ["type"] (.str ty) →
      (ty, k) ∈ [("heading", Kind.heading), ("paragraph", .paragraph), ("bulletListItem", .listItem),
        ("numberedListItem", .listItem)] → Prose v text → (∃ c ∈ text, C.white c = false) → IdOf v id →
      BlockHas C (.ignored v) k [text] { block := id }
  | code {v s id} : Under v ["type"] (.str "codeBlock") → Under v ["props", "data", "code"] (.str s) → IdOf v id →
      BlockHas C (.ignored v) .codeBlock [s.toList] { block := id }

/-- the texts of a node of a graph -/
inductive NodeHas (n : Node) : Kind → List Text → Site → Prop
  | name : NodeHas n .graphNode [n.name] { node := some n.id }
  | key {es e k v} : n.kind = .expression es → (e, k, v) ∈ es → NodeHas n .expressionKey [k]
      { node := some n.id, expr := some e, context := some n.name }
  | value {es e k v} : n.kind = .expression es → (e, k, v) ∈ es → NodeHas n .expression [v]
      { node := some n.id, expr := some e, context := some n.name }
  | table {t k cs s} : n.kind = .table t → TableHas t { node := some n.id } (some n.name) k cs s → NodeHas n k cs s
  | condition {ss s text} : n.kind = .switch ss → (s, text) ∈ ss → NodeHas n .switchCondition [text]
      { node := some n.id, expr := some s, context := some n.name }
  | source {text} : n.kind = .function text → NodeHas n .function [text] { node := some n.id, context := some n.name }

/-- the texts of a document: the last part of its path, those of its blocks or nodes -/
inductive Has (C : Chars) (path : String) : Doc → Kind → List Text → Site → Prop
  | path {d : Doc} {dir name : Text} : path.toList = dir ++ name → '/' ∉ name → (dir = [] ∨ dir.getLast? = some '/') →
      Has C path d .document [name] {}
  | block {bs b k cs s} : b ∈ bs → BlockHas C b k cs s → Has C path (.policy bs) k cs s
  | node {ns n k cs s} : n ∈ ns → NodeHas n k cs s → Has C path (.graph ns) k cs s

/-- a hit for a text of a document (of several texts the one that scores most, of several such the last) -/
inductive IsHit (C : Chars) (toks : List Text) (path : String) (d : Doc) : Hit → Prop
  | mk {k : Kind} {before after : List Text} {text : Text} {site : Site} {s a b : Nat} {t : Text} {a' b' : Nat} :
      Has C path d k (before ++ text :: after) site → TextFound C toks text s a b →
      (∀ x ∈ before, ∀ s' a b, TextFound C toks x s' a b → s' ≤ s) →
      (∀ x ∈ after, ∀ s' a b, TextFound C toks x s' a b → s' < s) → Shown text a b t a' b' →
      IsHit C toks path d ⟨path, site, k, t, (a', b'), s * k.weight / 100⟩

/-- a hit for one of the texts `cs` -/
def HitOf (C : Chars) (toks : List Text) (path : String) (k : Kind) (cs : List Text) (site : Site) (h : Hit) : Prop :=
  ∃ before text after s a b t a' b', cs = before ++ text :: after ∧ TextFound C toks text s a b ∧
    (∀ x ∈ before, ∀ s' a b, TextFound C toks x s' a b → s' ≤ s) ∧
    (∀ x ∈ after, ∀ s' a b, TextFound C toks x s' a b → s' < s) ∧ Shown text a b t a' b' ∧
    h = ⟨path, site, k, t, (a', b'), s * k.weight / 100⟩

theorem mem_add' {C : Chars} {M : List Text} {path : String} {k : Kind} {text : Text} {site : Site} {h : Hit} :
    h ∈ add C M path k text site ↔ ∃ s a b t a' b', TextFound C M text s a b ∧ Shown text a b t a' b' ∧
      h = ⟨path, site, k, t, (a', b'), s * k.weight / 100⟩ := by
  unfold add
  cases e : score C M text with
  | none =>
    simp only [List.not_mem_nil, false_iff, not_exists, not_and]
    intro s a b t a' b' hf
    rw [(C75_text _ _ _ _ _ _).2 hf] at e
    cases e
  | some r =>
    obtain ⟨s, a, b⟩ := r
    have hf := (C75_text _ _ _ _ _ _).1 e
    rcases hs : snippet text (a, b) with ⟨t, a', b'⟩
    simp only [hs, List.mem_singleton]
    constructor
    · rintro rfl
      exact ⟨s, a, b, t, a', b', hf, snippet_iff.1 hs, rfl⟩
    · rintro ⟨s', a1, b1, t1, a1', b1', g1, g2, rfl⟩
      have := (C75_text _ _ _ _ _ _).2 g1
      rw [e] at this
      cases this
      have := snippet_iff.2 g2
      rw [hs] at this
      cases this
      rfl

theorem mem_add {C : Chars} {M : List Text} {path : String} {k : Kind} {text : Text} {site : Site} {h : Hit} :
    h ∈ add C M path k text site ↔ HitOf C M path k [text] site h := by
  rw [mem_add']
  constructor
  · rintro ⟨s, a, b, t, a', b', g1, g2, g3⟩
    exact ⟨[], text, [], s, a, b, t, a', b', rfl, g1, by simp, by simp, g2, g3⟩
  · rintro ⟨before, text', after, s, a, b, t, a', b', e, g1, _, _, g2, g3⟩
    cases before with
    | nil => cases e; exact ⟨s, a, b, t, a', b', g1, g2, g3⟩
    | cons x before =>
      have := congrArg List.length e
      simp at this

theorem best_of {C : Chars} {M : List Text} : ∀ {cs : List Text} {s : Nat} {x : Text}, best C M cs = some (s, x) →
    ∃ before after, cs = before ++ x :: after ∧ (∃ a b, score C M x = some (s, a, b)) ∧
      (∀ y ∈ before, ∀ r, score C M y = some r → r.1 ≤ s) ∧ (∀ y ∈ after, ∀ r, score C M y = some r → r.1 < s)
  | [], _, _, h => by rw [best] at h; cases h
  | t :: r, s, x, h => by
    rw [best] at h
    split at h
    · rename_i e
      obtain ⟨b, a, h1, h2, h3, h4⟩ := best_of h
      refine ⟨t :: b, a, by rw [h1]; rfl, h2, ?_, h4⟩
      intro y hy z hz
      rcases List.mem_cons.1 hy with rfl | hy
      · rw [e] at hz; cases hz
      · exact h3 y hy z hz
    · rename_i s' sp e eb
      cases h
      obtain ⟨a, b⟩ := sp
      refine ⟨[], r, rfl, ⟨a, b, e⟩, by simp, ?_⟩
      intro y hy z hz
      exfalso
      clear e
      induction r with
      | nil => cases hy
      | cons u r ih =>
        rw [best] at eb
        split at eb
        · rename_i e
          rcases List.mem_cons.1 hy with rfl | hy
          · rw [e] at hz; cases hz
          · exact ih eb hy
        · cases eb
        · split at eb <;> cases eb
    · rename_i s1 sp s2 t2 e eb
      obtain ⟨sa, sb⟩ := sp
      obtain ⟨b, a, h1, h2, h3, h4⟩ := best_of eb
      split at h
      · rename_i hle
        cases h
        refine ⟨t :: b, a, by rw [h1]; rfl, h2, ?_, h4⟩
        intro y hy z hz
        rcases List.mem_cons.1 hy with rfl | hy
        · rw [e] at hz; cases hz; exact hle
        · exact h3 y hy z hz
      · rename_i hle
        cases h
        refine ⟨[], r, rfl, ⟨sa, sb, e⟩, by simp, ?_⟩
        intro y hy z hz
        rw [h1] at hy
        obtain ⟨_, _, h2⟩ := h2
        rcases List.mem_append.1 hy with hy | hy
        · have := h3 y hy z hz; omega
        · rcases List.mem_cons.1 hy with rfl | hy
          · rw [h2] at hz; cases hz; omega
          · have := h4 y hy z hz; omega

theorem best_none {C : Chars} {M : List Text} : ∀ {cs : List Text}, best C M cs = none → ∀ y ∈ cs, score C M y = none
  | [], _, _, hy => by cases hy
  | t :: r, h, y, hy => by
    rw [best] at h
    split at h
    · rename_i e
      rcases List.mem_cons.1 hy with rfl | hy
      · exact e
      · exact best_none h y hy
    · cases h
    · split at h <;> cases h

theorem best_is {C : Chars} {M : List Text} : ∀ {before after : List Text} {x : Text} {s a b : Nat},
    score C M x = some (s, a, b) → (∀ y ∈ before, ∀ r, score C M y = some r → r.1 ≤ s) →
    (∀ y ∈ after, ∀ r, score C M y = some r → r.1 < s) → best C M (before ++ x :: after) = some (s, x)
  | [], after, x, s, a, b, e, _, h => by
    show best C M (x :: after) = _
    rw [best, e]
    cases eb : best C M after with
    | none => rfl
    | some r =>
      obtain ⟨s', x'⟩ := r
      obtain ⟨p, q, h1, ⟨a', b', h2⟩, _, _⟩ := best_of eb
      have := h x' (by rw [h1]; simp) _ h2
      show (if s ≤ s' then some (s', x') else some (s, x)) = _
      rw [if_neg (by simpa using this)]
  | y :: before, after, x, s, a, b, e, h, h' => by
    show best C M (y :: (before ++ x :: after)) = _
    rw [best, best_is e (fun z hz => h z (List.mem_cons_of_mem _ hz)) h']
    cases ey : score C M y with
    | none => rfl
    | some r =>
      obtain ⟨s', sp⟩ := r
      have := h y List.mem_cons_self _ ey
      show (if s' ≤ s then some (s, x) else some (s', y)) = _
      rw [if_pos (by simpa using this)]

theorem mem_addBest {C : Chars} {M : List Text} {path : String} {k : Kind} {cs : List Text} {site : Site} {h : Hit} :
    h ∈ addBest C M path k cs site ↔ HitOf C M path k cs site h := by
  unfold addBest
  cases e : best C M cs with
  | none =>
    simp only [List.not_mem_nil, false_iff]
    rintro ⟨before, text, after, s, a, b, t, a', b', rfl, g1, _⟩
    have := best_none e text (by simp)
    rw [(C75_text _ _ _ _ _ _).2 g1] at this
    cases this
  | some r =>
    obtain ⟨s, x⟩ := r
    show h ∈ add C M path k x site ↔ _
    rw [mem_add']
    constructor
    · rintro ⟨s', a, b, t, a', b', g1, g2, g3⟩
      obtain ⟨p, q, h1, ⟨a2, b2, h2⟩, h3, h4⟩ := best_of e
      have := (C75_text _ _ _ _ _ _).2 g1
      rw [h2] at this
      cases this
      exact ⟨p, x, q, s, a, b, t, a', b', h1, g1, fun y hy s' a b hf => h3 y hy _ ((C75_text _ _ _ _ _ _).2 hf),
        fun y hy s' a b hf => h4 y hy _ ((C75_text _ _ _ _ _ _).2 hf), g2, g3⟩
    · rintro ⟨p, text, q, s', a, b, t, a', b', rfl, g1, h3, h4, g2, g3⟩
      have := best_is (before := p) (after := q) ((C75_text _ _ _ _ _ _).2 g1)
        (fun y hy r hr => h3 y hy r.1 r.2.1 r.2.2 ((C75_text _ _ _ _ _ _).1 hr))
        (fun y hy r hr => h4 y hy r.1 r.2.1 r.2.2 ((C75_text _ _ _ _ _ _).1 hr))
      rw [e] at this
      cases this
      exact ⟨s, a, b, t, a', b', g1, g2, g3⟩

/-! ### the texts that are read are those of the document -/

theorem called_iff {t : Table} {id : String} {ctx : Option Text} :
    Called t id ctx ↔ ctx = ((columnNames t).find? (·.1 = id)).map (·.2) := by
  have e : columnNames t = t.columns.map (fun c => (c.1, displayName c.2.1 c.2.2)) := by
    simp [columnNames, Table.columns, Function.comp_def]
  rw [e, List.find?_map]
  have hf : t.columns.find? ((fun x : String × Text => decide (x.1 = id)) ∘ fun c => (c.1, displayName c.2.1 c.2.2)) =
      t.columns.find? (fun c => decide (c.1 = id)) := rfl
  rw [hf]
  constructor
  · rintro (⟨p, name, field, q, h1, h2, h3⟩ | ⟨h1, rfl⟩)
    · have : t.columns.find? (fun c => decide (c.1 = id)) = some (id, name, field) := by
        rw [List.find?_eq_some_iff_append]
        exact ⟨by simp, p, q, h1, fun c hc => by simpa using h2 c hc⟩
      rw [this]
      rcases h3 with ⟨hn, rfl⟩ | ⟨hn, rfl⟩ <;> simp [displayName, hn]
    · have : t.columns.find? (fun c => decide (c.1 = id)) = none := by
        rw [List.find?_eq_none]
        intro c hc
        simpa using h1 c hc
      rw [this]; rfl
  · rintro rfl
    cases hc : t.columns.find? (fun c => decide (c.1 = id)) with
    | none =>
      rw [List.find?_eq_none] at hc
      exact Or.inr ⟨fun c h => by simpa using hc c h, rfl⟩
    | some c =>
      rw [List.find?_eq_some_iff_append] at hc
      obtain ⟨h1, p, q, h2, h3⟩ := hc
      obtain ⟨i, name, field⟩ := c
      simp at h1
      subst h1
      refine Or.inl ⟨p, name, field, q, h2, fun c hc => by simpa using h3 c hc, ?_⟩
      by_cases hn : name = [] <;> simp [displayName, hn]

theorem mem_table {C : Chars} {M : List Text} {path : String} {base : Site} {ctx : Option Text} {t : Table} {h : Hit} :
    h ∈ searchTable C M path base ctx t ↔ ∃ k cs s, TableHas t base ctx k cs s ∧ HitOf C M path k cs s h := by
  unfold searchTable
  simp only [List.mem_append, List.mem_flatMap, mem_addBest]
  constructor
  · rintro ((⟨⟨id, name, field⟩, h1, h2⟩ | ⟨⟨id, name, field⟩, h1, h2⟩) | ⟨⟨row, n⟩, h1, ⟨id, text⟩, h2, h3⟩)
    · exact ⟨_, _, _, .column (List.mem_append_left _ (List.mem_map.2 ⟨_, h1, rfl⟩)), h2⟩
    · exact ⟨_, _, _, .column (List.mem_append_right _ h1), h2⟩
    · split at h3
      · cases h3
      · rename_i hn
        rw [mem_add] at h3
        exact ⟨_, _, _, .cell (List.mem_zipIdx_iff_getElem?.1 h1) h2 (by simpa using hn) (called_iff.2 rfl), h3⟩
  · rintro ⟨k, cs, s, h1, h2⟩
    cases h1 with
    | column hc =>
      rename_i id name field
      rcases List.mem_append.1 hc with hc | hc
      · obtain ⟨⟨i, n, f⟩, hm, e⟩ := List.mem_map.1 hc
        cases e
        exact Or.inl (Or.inl ⟨_, hm, h2⟩)
      · exact Or.inl (Or.inr ⟨_, hc, h2⟩)
    | cell hr hm hn hc =>
      rename_i n row id text c
      refine Or.inr ⟨(row, n), List.mem_zipIdx_iff_getElem?.2 hr, (id, text), hm, ?_⟩
      rw [if_neg (by simp [hn]), mem_add, ← called_iff.1 hc]
      exact h2

theorem under_cons {v x : J} {k : String} {ks : List String} : Under v (k :: ks) x ↔ ∃ y, get v k = some y ∧ Under y ks x := by
  constructor
  · intro h
    cases h with
    | key h1 h2 => exact ⟨_, h1, h2⟩
  · rintro ⟨y, h1, h2⟩
    cases v with
    | obj m => exact .key h1 h2
    | _ => cases h1

theorem under_nil {v x : J} : Under v [] x ↔ v = x := by
  constructor
  · intro h; cases h; rfl
  · rintro rfl; exact .here

theorem asStr_iff {v : J} {s : String} : asStr v = some s ↔ v = .str s := by
  cases v <;> simp [asStr]

theorem asArr_iff {v : J} {s : List J} : asArr v = some s ↔ v = .arr s := by
  cases v <;> simp [asArr]

theorem under_str {v : J} {k s : String} : Under v [k] (.str s) ↔ (get v k).bind asStr = some s := by
  simp only [under_cons, under_nil, Option.bind_eq_some_iff, asStr_iff]

theorem under_str2 {v : J} {k l s : String} : Under v [k, l] (.str s) ↔ ((get v k).bind (get · l)).bind asStr = some s := by
  simp only [under_cons, under_nil, Option.bind_eq_some_iff, asStr_iff]
  aesop

theorem under_str3 {v : J} {k l m s : String} :
    Under v [k, l, m] (.str s) ↔ (((get v k).bind (get · l)).bind (get · m)).bind asStr = some s := by
  simp only [under_cons, under_nil, Option.bind_eq_some_iff, asStr_iff]
  aesop

theorem under_arr {v : J} {k : String} {s : List J} : Under v [k] (.arr s) ↔ (get v k).bind asArr = some s := by
  simp only [under_cons, under_nil, Option.bind_eq_some_iff, asArr_iff]

theorem forall₂_fun {α β : Type} {R : α → β → Prop} {f : α → β} (h : ∀ x y, R x y ↔ y = f x) (xs : List α) (ys : List β) :
    List.Forall₂ R xs ys ↔ ys = xs.map f := by
  induction xs generalizing ys with
  | nil => cases ys <;> simp
  | cons x xs ih => cases ys <;> simp [ih, h]

theorem inner_iff {x : J} {t : Text} : ((∃ s, Under x ["text"] (.str s) ∧ t = s.toList) ∨
    ((∀ s, ¬ Under x ["text"] (.str s)) ∧ t = [])) ↔ t = (((get x "text").bind asStr).map String.toList).getD [] := by
  simp only [under_str]
  cases (get x "text").bind asStr with
  | none => simp
  | some s => simp

theorem run_iff {v : J} {t : Text} : (RunText v t ∨ ((∀ s, ¬ RunText v s) ∧ t = [])) ↔ t = runText v := by
  have key : ∀ {s}, RunText v s → s = runText v := by
    intro s h
    cases h with
    | text h1 h2 =>
      rw [under_str] at h1 h2
      simp [runText, h1, h2]
    | link h1 h2 h3 =>
      rw [under_str] at h1
      rw [under_arr] at h2
      rw [forall₂_fun (fun x y => @inner_iff x y)] at h3
      simp [runText, h1, h2, h3, List.flatMap]
    | ref h1 h2 =>
      rw [under_str] at h1
      rw [under_str2] at h2
      simp [runText, h1, h2]
  have ex : (∃ s, RunText v s) ∨ runText v = [] := by
    unfold runText
    split
    · rename_i e
      cases h : (get v "text").bind asStr with
      | none => exact Or.inr rfl
      | some s => exact Or.inl ⟨_, .text (under_str.2 e) (under_str.2 h)⟩
    · rename_i e
      cases h : (get v "content").bind asArr with
      | none => exact Or.inr rfl
      | some s => exact Or.inl ⟨_, .link (under_str.2 e) (under_arr.2 h) ((forall₂_fun (fun x y => @inner_iff x y) _ _).2 rfl)⟩
    · rename_i e
      cases h : ((get v "props").bind (get · "label")).bind asStr with
      | none => exact Or.inr (by simp)
      | some s => exact Or.inl ⟨_, .ref (under_str.2 e) (under_str2.2 h)⟩
    · exact Or.inr rfl
  constructor
  · rintro (h | ⟨h, rfl⟩)
    · exact key h
    · rcases ex with ⟨s, hs⟩ | he
      · exact absurd hs (h s)
      · exact he.symm
  · rintro rfl
    by_cases h : ∃ s, RunText v s
    · obtain ⟨s, hs⟩ := h
      have := key hs
      subst this
      exact Or.inl hs
    · rcases ex with hs | he
      · exact absurd hs h
      · exact Or.inr ⟨fun s hs => h ⟨s, hs⟩, he⟩

theorem prose_iff {C : Chars} {v : J} {text : Text} :
    (Prose v text ∧ ∃ c ∈ text, C.white c = false) ↔ proseText C v = some text := by
  unfold proseText Prose
  simp only [under_arr, forall₂_fun (fun x y => @run_iff x y)]
  cases (get v "content").bind asArr with
  | none => simp
  | some xs =>
    simp only [Option.some.injEq, Option.bind_eq_bind, Option.bind_some, List.flatMap]
    constructor
    · rintro ⟨⟨_, _, rfl, rfl, rfl⟩, c, hc, hw⟩
      rw [if_neg]
      rw [List.all_eq_true]
      intro h
      rw [h c hc] at hw
      cases hw
    · intro h
      split at h
      · cases h
      · rename_i hn
        cases h
        refine ⟨⟨_, _, rfl, rfl, rfl⟩, ?_⟩
        by_contra hc
        refine hn (List.all_eq_true.2 fun c hm => ?_)
        by_contra hw
        exact hc ⟨c, hm, by simpa using hw⟩

theorem idOf_iff {v : J} {id : Option String} : IdOf v id ↔ id = (get v "id").bind asStr := by
  unfold IdOf
  simp only [under_str]
  cases (get v "id").bind asStr with
  | none => simp
  | some s => simp

theorem mem_ignored {C : Chars} {M : List Text} {path : String} {v : J} {h : Hit} :
    h ∈ searchIgnored C M path v ↔ ∃ k cs s, BlockHas C (.ignored v) k cs s ∧ HitOf C M path k cs s h := by
  have pr : ∀ k, h ∈ addProse C M path v { block := (get v "id").bind asStr } k ↔
      ∃ text id, Prose v text ∧ (∃ c ∈ text, C.white c = false) ∧ IdOf v id ∧
        HitOf C M path k [text] { block := id } h := by
    intro k
    unfold addProse
    cases e : proseText C v with
    | none =>
      simp only [List.not_mem_nil, false_iff, not_exists, not_and]
      intro text id h1 h2
      rw [prose_iff.1 ⟨h1, h2⟩] at e
      cases e
    | some t =>
      obtain ⟨h1, h2⟩ := prose_iff.2 e
      simp only [mem_add]
      constructor
      · exact fun hh => ⟨t, _, h1, h2, idOf_iff.2 rfl, hh⟩
      · rintro ⟨t', id, g1, g2, g3, g4⟩
        rw [prose_iff.1 ⟨g1, g2⟩] at e
        cases e
        rw [idOf_iff.1 g3] at g4
        exact g4
  have pc : ∀ {ty k}, (get v "type").bind asStr = some ty → ty ≠ "codeBlock" →
      (∀ k', (ty, k') ∈ [("heading", Kind.heading), ("paragraph", .paragraph), ("bulletListItem", .listItem),
        ("numberedListItem", .listItem)] ↔ k' = k) →
      (h ∈ addProse C M path v { block := (get v "id").bind asStr } k ↔
        ∃ k cs s, BlockHas C (.ignored v) k cs s ∧ HitOf C M path k cs s h) := by
    intro ty k e hn hu
    rw [pr]
    constructor
    · rintro ⟨text, id, h1, h2, h3, h4⟩
      exact ⟨_, _, _, .prose (under_str.2 e) ((hu k).2 rfl) h1 h2 h3, h4⟩
    · rintro ⟨k, cs, s, h1, h2⟩
      cases h1 with
      | prose ht hk g1 g2 g3 =>
        rw [under_str, e] at ht
        cases ht
        rw [(hu _).1 hk] at h2
        exact ⟨_, _, g1, g2, g3, h2⟩
      | code ht => rw [under_str, e] at ht; exact absurd (Option.some.inj ht) hn
  unfold searchIgnored
  dsimp only
  split
  · exact pc ‹_› (by decide) (by simp)
  · exact pc ‹_› (by decide) (by simp)
  · exact pc ‹_› (by decide) (by simp)
  · exact pc ‹_› (by decide) (by simp)
  · rename_i e
    cases hc : (((get v "props").bind (get · "data")).bind (get · "code")).bind asStr with
    | none =>
      simp only [List.not_mem_nil, false_iff, not_exists, not_and]
      intro k cs s h1
      cases h1 with
      | prose ht hk =>
        rw [under_str, e] at ht
        cases ht
        simp at hk
      | code ht h2 => rw [under_str3, hc] at h2; cases h2
    | some code =>
      simp only [mem_add]
      constructor
      · exact fun h1 => ⟨_, _, _, .code (under_str.2 e) (under_str3.2 hc) (idOf_iff.2 rfl), h1⟩
      · rintro ⟨k, cs, s, h1, h2⟩
        cases h1 with
        | prose ht hk =>
          rw [under_str, e] at ht
          cases ht
          simp at hk
        | code ht g2 g3 =>
          rw [under_str3, hc] at g2
          cases g2
          rw [idOf_iff.1 g3] at h2
          exact h2
  · rename_i n1 n2 n3 n4 n5
    simp only [List.not_mem_nil, false_iff, not_exists, not_and]
    intro k cs s h1
    cases h1 with
    | prose ht hk =>
      rw [under_str] at ht
      simp at hk
      rcases hk with ⟨rfl, _⟩ | ⟨rfl, _⟩ | ⟨rfl, _⟩ | ⟨rfl, _⟩
      · exact absurd ht n1
      · exact absurd ht n2
      · exact absurd ht n3
      · exact absurd ht n4
    | code ht => exact absurd (under_str.1 ht) n5

theorem mem_block {C : Chars} {M : List Text} {path : String} {b : Block} {h : Hit} :
    h ∈ searchBlock C M path b ↔ ∃ k cs s, BlockHas C b k cs s ∧ HitOf C M path k cs s h := by
  cases b with
  | ignored v => exact mem_ignored
  | table id t =>
    show h ∈ searchTable _ _ _ _ _ _ ↔ _
    rw [mem_table]
    constructor
    · rintro ⟨k, cs, s, h1, h2⟩; exact ⟨k, cs, s, .table h1, h2⟩
    · rintro ⟨k, cs, s, h1, h2⟩; cases h1; exact ⟨k, cs, s, ‹_›, h2⟩
  | assertion id out cs =>
    simp only [searchBlock, List.mem_append, List.mem_flatMap, mem_add]
    constructor
    · rintro (h1 | ⟨⟨c, t⟩, h1, h2⟩)
      · exact ⟨_, _, _, .output, h1⟩
      · exact ⟨_, _, _, .condition h1, h2⟩
    · rintro ⟨k, cs, s, h1, h2⟩
      cases h1 with
      | output => exact Or.inl h2
      | condition hm => exact Or.inr ⟨_, hm, h2⟩
  | expression id key value =>
    simp only [searchBlock, List.mem_append, mem_add]
    constructor
    · rintro (h1 | h1)
      · exact ⟨_, _, _, .key, h1⟩
      · exact ⟨_, _, _, .value, h1⟩
    · rintro ⟨k, cs, s, h1, h2⟩
      cases h1 with
      | key => exact Or.inl h2
      | value => exact Or.inr h2
  | match_ id key arms =>
    simp only [searchBlock, List.mem_append, List.mem_flatMap, mem_add]
    constructor
    · rintro (h1 | ⟨⟨a, c, v⟩, hm, h1 | h1⟩)
      · exact ⟨_, _, _, .matchKey, h1⟩
      · exact ⟨_, _, _, .matchCondition hm, h1⟩
      · exact ⟨_, _, _, .matchValue hm, h1⟩
    · rintro ⟨k, cs, s, h1, h2⟩
      cases h1 with
      | matchKey => exact Or.inl h2
      | matchCondition hm => exact Or.inr ⟨_, hm, Or.inl h2⟩
      | matchValue hm => exact Or.inr ⟨_, hm, Or.inr h2⟩
  | dataModel id name ps =>
    simp only [searchBlock, List.mem_append, List.mem_flatMap, mem_add]
    constructor
    · rintro (h1 | ⟨⟨c, t⟩, h1, h2⟩)
      · exact ⟨_, _, _, .model, h1⟩
      · exact ⟨_, _, _, .property h1, h2⟩
    · rintro ⟨k, cs, s, h1, h2⟩
      cases h1 with
      | model => exact Or.inl h2
      | property hm => exact Or.inr ⟨_, hm, h2⟩
  | dictionary id name es =>
    simp only [searchBlock, List.mem_append, List.mem_flatMap, mem_add, mem_addBest]
    constructor
    · rintro (h1 | ⟨⟨c, l, v⟩, h1, h2⟩)
      · exact ⟨_, _, _, .dictionary, h1⟩
      · exact ⟨_, _, _, .entry h1, h2⟩
    · rintro ⟨k, cs, s, h1, h2⟩
      cases h1 with
      | dictionary => exact Or.inl h2
      | entry hm => exact Or.inr ⟨_, hm, h2⟩

theorem mem_node {C : Chars} {M : List Text} {path : String} {n : Node} {h : Hit} :
    h ∈ searchNode C M path n ↔ ∃ k cs s, NodeHas n k cs s ∧ HitOf C M path k cs s h := by
  unfold searchNode
  rw [List.mem_append, mem_add]
  constructor
  · rintro (h1 | h1)
    · exact ⟨_, _, _, .name, h1⟩
    · cases e : n.kind with
      | expression es =>
        simp only [e, List.mem_flatMap, List.mem_append, mem_add] at h1
        obtain ⟨⟨x, k, v⟩, hm, h1 | h1⟩ := h1
        · exact ⟨_, _, _, .key e hm, h1⟩
        · exact ⟨_, _, _, .value e hm, h1⟩
      | table t =>
        simp only [e, mem_table] at h1
        obtain ⟨k, cs, s, h1, h2⟩ := h1
        exact ⟨_, _, _, .table e h1, h2⟩
      | switch ss =>
        simp only [e, List.mem_flatMap, mem_add] at h1
        obtain ⟨⟨x, v⟩, hm, h1⟩ := h1
        exact ⟨_, _, _, .condition e hm, h1⟩
      | function src =>
        simp only [e, mem_add] at h1
        exact ⟨_, _, _, .source e, h1⟩
      | other => simp only [e, List.not_mem_nil] at h1
  · rintro ⟨k, cs, s, h1, h2⟩
    cases h1 with
    | name => exact Or.inl h2
    | key e hm =>
      right
      simp only [e, List.mem_flatMap, List.mem_append, mem_add]
      exact ⟨_, hm, Or.inl h2⟩
    | value e hm =>
      right
      simp only [e, List.mem_flatMap, List.mem_append, mem_add]
      exact ⟨_, hm, Or.inr h2⟩
    | table e ht =>
      right
      simp only [e, mem_table]
      exact ⟨_, _, _, ht, h2⟩
    | condition e hm =>
      right
      simp only [e, List.mem_flatMap, mem_add]
      exact ⟨_, hm, h2⟩
    | source e =>
      right
      simp only [e, mem_add]
      exact h2

theorem fileName_iff {path : String} {name : Text} : (∃ dir, path.toList = dir ++ name ∧ '/' ∉ name ∧
    (dir = [] ∨ dir.getLast? = some '/')) ↔ name = fileName path := by
  unfold fileName
  constructor
  · rintro ⟨dir, h1, h2, h3⟩
    rw [h1, List.reverse_append]
    have e : (name.reverse ++ dir.reverse).takeWhile (fun c => decide (c ≠ '/')) = name.reverse := by
      rw [List.takeWhile_append_of_pos (by
        intro c hc
        have : c ∈ name := by simpa using hc
        simp only [decide_eq_true_eq]
        rintro rfl
        exact h2 this)]
      have : dir.reverse.takeWhile (fun c => decide (c ≠ '/')) = [] := by
        rcases h3 with rfl | h3
        · rfl
        · rw [← List.head?_reverse] at h3
          cases hd : dir.reverse with
          | nil => rfl
          | cons c r => rw [hd] at h3; simp at h3; subst h3; simp
      rw [this, List.append_nil]
    rw [e, List.reverse_reverse]
  · rintro rfl
    refine ⟨(path.toList.reverse.dropWhile (fun c => decide (c ≠ '/'))).reverse, ?_, ?_, ?_⟩
    · rw [← List.reverse_append, List.takeWhile_append_dropWhile, List.reverse_reverse]
    · intro hm
      rw [List.mem_reverse] at hm
      have := List.all_eq_true.1 (List.all_takeWhile (p := fun c => decide (c ≠ '/'))) '/' hm
      simp at this
    · cases hd : path.toList.reverse.dropWhile (fun c => decide (c ≠ '/')) with
      | nil => exact Or.inl rfl
      | cons c r =>
        right
        have := List.head?_dropWhile_not (fun c => decide (c ≠ '/')) path.toList.reverse
        rw [hd] at this
        simp at this
        simp [this]

/-- the hits of a document are those for its texts -/
theorem C75_document (C : Chars) (toks : List Text) (path : String) (d : Doc) (h : Hit) :
    h ∈ searchDoc C toks path d ↔ IsHit C toks path d h := by
  have e : IsHit C toks path d h ↔ ∃ k cs s, Has C path d k cs s ∧ HitOf C toks path k cs s h := by
    constructor
    · intro hh
      cases hh with
      | mk h1 h2 h3 h4 h5 => exact ⟨_, _, _, h1, _, _, _, _, _, _, _, _, _, rfl, h2, h3, h4, h5, rfl⟩
    · rintro ⟨k, cs, s, h1, _, _, _, _, _, _, _, _, _, rfl, h2, h3, h4, h5, rfl⟩
      exact .mk h1 h2 h3 h4 h5
  rw [e]
  unfold searchDoc
  rw [List.mem_append, mem_add]
  constructor
  · rintro (h1 | h1)
    · obtain ⟨dir, g1, g2, g3⟩ := fileName_iff.2 (rfl : fileName path = fileName path)
      exact ⟨_, _, _, .path g1 g2 g3, h1⟩
    · cases d with
      | policy bs =>
        simp only [List.mem_flatMap, mem_block] at h1
        obtain ⟨b, hb, k, cs, s, h1, h2⟩ := h1
        exact ⟨_, _, _, .block hb h1, h2⟩
      | graph ns =>
        simp only [List.mem_flatMap, mem_node] at h1
        obtain ⟨b, hb, k, cs, s, h1, h2⟩ := h1
        exact ⟨_, _, _, .node hb h1, h2⟩
  · rintro ⟨k, cs, s, h1, h2⟩
    cases h1 with
    | path g1 g2 g3 =>
      rw [fileName_iff.1 ⟨_, g1, g2, g3⟩] at h2
      exact Or.inl h2
    | block hb h1 =>
      right
      simp only [List.mem_flatMap, mem_block]
      exact ⟨_, hb, _, _, _, h1, h2⟩
    | node hb h1 =>
      right
      simp only [List.mem_flatMap, mem_node]
      exact ⟨_, hb, _, _, _, h1, h2⟩

/-! ### the order of the hits -/

/-- `a` ranks before `b`: it scores more, or as much and its path is before (then its block, its node, its row, its place) -/
def Before (a b : Hit) : Prop :=
  b.score < a.score ∨ a.score = b.score ∧
  (a.path < b.path ∨ a.path = b.path ∧
  (compare a.site.block b.site.block = .lt ∨ a.site.block = b.site.block ∧
  (compare a.site.node b.site.node = .lt ∨ a.site.node = b.site.node ∧
  (compare a.site.row b.site.row = .lt ∨ a.site.row = b.site.row ∧ a.span.1 < b.span.1))))

theorem before_iff {a b : Hit} : cmpHit a b = .lt ↔ Before a b := by
  unfold cmpHit Before
  simp only [compareLex, compareOn, Ordering.then_eq_lt, Std.LawfulEqCmp.compare_eq_iff_eq, compare_lt_iff_lt]
  have e : compare a.path b.path = .lt ↔ a.path < b.path := compareOfLessAndEq_eq_lt
  rw [eq_comm (a := b.score), e]

instance : Std.TransCmp (fun a b : Hit => compare b.score a.score) where
  eq_swap := Std.OrientedCmp.eq_swap
  isLE_trans h1 h2 := Std.TransCmp.isLE_trans h2 h1

instance : Std.TransCmp cmpHit := by unfold cmpHit; infer_instance

theorem sorted_hits (l : List Hit) : (l.mergeSort fun a b => (cmpHit a b).isLE).Pairwise (fun a b => ¬ Before b a) := by
  have := List.pairwise_mergeSort (le := fun a b => (cmpHit a b).isLE)
    (fun a b c h1 h2 => Std.TransCmp.isLE_trans h1 h2)
    (fun a b => by
      rw [Std.OrientedCmp.eq_swap (cmp := cmpHit) (a := b) (b := a)]
      cases cmpHit a b <;> rfl) l
  refine this.imp ?_
  intro a b h hb
  rw [← before_iff, Std.OrientedCmp.eq_swap (cmp := cmpHit)] at hb
  cases hc : cmpHit a b <;> rw [hc] at hb h <;> simp at hb h

/-- A search gives nothing for a query without words. For any other it gives the best of all hits in the documents: as many as
are asked for (50 if nothing is said, 500 at most) or as there are, none ranks before one that stands before it, and none that is
not given ranks before one that is. -/
theorem C75_search (C : Chars) (docs : List (String × Doc)) (query : Text) (limit : Option Nat) (ws : List Text)
    (hw : Words C.white query ws) :
    (ws = [] → search C docs query limit = []) ∧
    (ws ≠ [] → ∃ all rest,
      (∀ h, h ∈ all ↔ ∃ path d, (path, d) ∈ docs ∧ IsHit C (ws.map (·.map C.lower)) path d h) ∧
      (search C docs query limit ++ rest).Perm all ∧
      (search C docs query limit).length = min (min (limit.getD 50) 500) all.length ∧
      (search C docs query limit ++ rest).Pairwise (fun a b => ¬ Before b a)) := by
  have e : words C.white [] query = ws := words_of hw
  have hf : ∀ ws : List Text, (∀ w ∈ ws, w ≠ []) → (ws.map (·.map C.lower)).filter (· ≠ []) = ws.map (·.map C.lower) := by
    intro ws h
    rw [List.filter_eq_self]
    intro t ht
    obtain ⟨w, hm, rfl⟩ := List.mem_map.1 ht
    simpa using h w hm
  have hne : ∀ w ∈ ws, w ≠ [] := by
    clear e
    induction hw with
    | nil => simp
    | cons _ h1 _ _ _ ih => simpa using ⟨h1, ih⟩
  constructor
  · rintro rfl
    simp [search, matcher, e]
  · intro hn
    have hm : matcher C query = some (ws.map (·.map C.lower)) := by
      unfold matcher
      simp only [e, hf ws hne]
      rw [if_neg (by simpa using hn)]
    unfold search
    simp only [hm]
    generalize hall : ((docs.mergeSort fun a b => (compare a.1 b.1).isLE).flatMap fun d =>
      searchDoc C (ws.map (·.map C.lower)) d.1 d.2) = all
    refine ⟨all, (all.mergeSort fun a b => (cmpHit a b).isLE).drop (min (limit.getD 50) 500), ?_, ?_, ?_, ?_⟩
    · intro h
      rw [← hall]
      simp only [List.mem_flatMap, List.mem_mergeSort, C75_document, Prod.exists]
    · rw [List.take_append_drop]
      exact List.mergeSort_perm _ _
    · rw [List.length_take, List.length_mergeSort]
    · rw [List.take_append_drop]
      exact sorted_hits _

/-- the order in which the workspace keeps its documents does not matter -/
theorem C75_documents (C : Chars) (docs docs' : List (String × Doc)) (query : Text) (limit : Option Nat)
    (hd : docs.Pairwise (fun a b => a.1 ≠ b.1)) (hp : docs.Perm docs') :
    search C docs query limit = search C docs' query limit := by
  have : docs.mergeSort (fun a b => (compare a.1 b.1).isLE) = docs'.mergeSort (fun a b => (compare a.1 b.1).isLE) := by
    have hs : ∀ l : List (String × Doc), (l.mergeSort fun a b => (compare a.1 b.1).isLE).Pairwise
        (fun a b => (compare a.1 b.1).isLE = true) := fun l => List.pairwise_mergeSort
      (le := fun a b : String × Doc => (compare a.1 b.1).isLE)
      (fun a b c h1 h2 => Std.TransCmp.isLE_trans h1 h2)
      (fun a b => by
        rw [Std.OrientedCmp.eq_swap (cmp := compare) (a := b.1) (b := a.1)]
        cases compare a.1 b.1 <;> rfl) l
    refine List.Perm.eq_of_pairwise (le := fun a b => (compare a.1 b.1).isLE = true) ?_ (hs docs) (hs docs')
      ((List.mergeSort_perm _ _).trans (hp.trans (List.mergeSort_perm _ _).symm))
    intro a b ha hb h1 h2
    rw [List.mem_mergeSort] at ha hb
    have hb := hp.symm.subset hb
    have he : a.1 = b.1 := by
      rw [Std.OrientedCmp.eq_swap (cmp := compare) (a := b.1) (b := a.1)] at h2
      have : compare a.1 b.1 = .eq := by
        cases hc : compare a.1 b.1 <;> rw [hc] at h1 h2 <;> simp at h1 h2
      exact Std.LawfulEqCmp.compare_eq_iff_eq.1 this
    by_contra hne
    have : Std.Symm (fun a b : String × Doc => a.1 ≠ b.1) := ⟨fun _ _ h => h.symm⟩
    exact hd.forall ha hb hne he
  unfold search
  rw [this]

/-! ### findings -/

/-- the characters of the examples -/
def ascii : Chars := ⟨Char.toLower, Char.isAlphanum, Char.isWhitespace⟩

/-- letters are looked for from the first place where the first letter occurs: a word whose letters occur close to each other
further on is not found -/
theorem C75_missed : ∃ hay tok : Text, scoreToken ascii hay tok = none ∧
    ∃ a b, b - a ≤ tok.length * 3 ∧ tok <+ (hay.take b).drop a :=
  ⟨"a.........ab.c".toList, "abc".toList, by decide, 10, 14, by decide, by decide⟩

theorem deep_score (n : Nat) (h : 400 ≤ n) :
    scoreToken ascii (List.replicate n 'x' ++ ['a', 'b']) ['a', 'b'] = some (100, n, n + 2) := by
  rw [C75_word]
  have hat : At (List.replicate n 'x' ++ ['a', 'b']) ['a', 'b'] n := ⟨[], by simp⟩
  refine .within (by simp) hat ?_ ?_
  · rintro i hi ⟨r, hr⟩
    have := congrArg List.head? hr
    rw [List.head?_drop, List.getElem?_append_left (by simpa using hi), List.getElem?_replicate, if_pos hi] at this
    simp at this
  · obtain ⟨m, rfl⟩ : ∃ m, n = m + 1 := ⟨n - 1, by omega⟩
    have := Rank.inside (C := ascii) (hay := List.replicate (m + 1) 'x' ++ ['a', 'b']) (tok := ['a', 'b']) (a := m) (c := 'x')
      (by rw [List.getElem?_append_left (by simp)]; simp) rfl
    rwa [Nat.min_eq_right h] at this

/-- a word that stands far within a text scores less than scattered letters -/
theorem C75_scattered_first (n : Nat) (h : 400 ≤ n) : ∃ hay hay' tok : Text, n ≤ hay.length ∧ tok <:+: hay ∧ ¬ tok <:+: hay' ∧
    ∃ s a b s' a' b', scoreToken ascii hay tok = some (s, a, b) ∧ scoreToken ascii hay' tok = some (s', a', b') ∧ s < s' :=
  ⟨List.replicate n 'x' ++ ['a', 'b'], "a.b".toList, ['a', 'b'], by simp, ⟨List.replicate n 'x', [], by simp⟩, by decide,
    100, n, n + 2, 166, 0, 3, deep_score n h, by decide, by decide⟩

/-- Two cells of a row that score the same stand in the order in which the hash map of the row gives them: the order of the hits,
and which of them are given, depends on it. -/
theorem C75_cells : ∃ (row : List (String × Text)) (row' : List (String × Text)) (query : Text), row.Perm row' ∧
    row.Pairwise (fun a b => a.1 ≠ b.1) ∧
    (search ascii [("p", .policy [.table "t" ⟨[], [], [row]⟩])] query (some 1)).map (·.site.column) = [some "a"] ∧
    (search ascii [("p", .policy [.table "t" ⟨[], [], [row']⟩])] query (some 1)).map (·.site.column) = [some "b"] := by
  have key : ∀ (x y : String), x.startsWith '_' = false → y.startsWith '_' = false →
      (search ascii [("p", .policy [.table "t" ⟨[], [], [[(x, ['1']), (y, ['1'])]]⟩])] ['1'] (some 1)).map (·.site.column) =
        [some x] := by
    intro x y hx hy
    have hm : matcher ascii ['1'] = some [['1']] := by decide
    have hs : score ascii [['1']] ['1'] = some (1000, 0, 1) := by decide
    have hp : score ascii [['1']] (fileName "p") = none := by decide
    simp only [search, hm, List.mergeSort_singleton, List.flatMap_cons, List.flatMap_nil, searchDoc, add, hp, searchBlock,
      searchTable, List.zipIdx_cons, List.zipIdx_nil, hx, hy, hs, List.nil_append, List.append_nil, Bool.false_eq_true, if_false,
      List.singleton_append, columnNames, List.map_nil, List.find?_nil, Option.map_none]
    rw [List.mergeSort_of_pairwise]
    · simp
    · simp [cmpHit, compareLex, compareOn, snippet, SNIPPET]
  refine ⟨[("a", ['1']), ("b", ['1'])], [("b", ['1']), ("a", ['1'])], ['1'], List.Perm.swap _ _ _, by decide,
    key "a" "b" (by decide) (by decide), key "b" "a" (by decide) (by decide)⟩

/-! ### cases -/

-- words, their case, white space
example : words Char.isWhitespace [] "  Gold  tier ".toList = ["Gold".toList, "tier".toList] := by decide

-- the whole text, its beginning, the beginning of a word, within a word, scattered letters, too far apart
example : scoreToken ascii "gold".toList "gold".toList = some (1000, 0, 4) := by decide
example : scoreToken ascii "gold tier".toList "gold".toList = some (800, 0, 4) := by decide
example : scoreToken ascii "gold tier".toList "tier".toList = some (645, 5, 9) := by decide
example : scoreToken ascii "gold tier".toList "old".toList = some (499, 1, 4) := by decide
example : scoreToken ascii "discount amount".toList "dscamt".toList = some (140, 0, 15) := by decide
example : scoreToken ascii "discounts apply to loyal customers".toList "dplc".toList = none := by decide

-- all words, in any order
example : score ascii ["tier".toList, "gold".toList] "Gold Tier".toList = some (1444, 0, 4) := by decide
example : score ascii ["tier".toList, "silver".toList] "Gold Tier".toList = none := by decide

-- every hypothesis of `C75_shown` holds of a text of more than 250 characters
example (n : Nat) (hn : 250 ≤ n) : Shown (List.replicate n 'x') 140 160 (List.replicate 200 'x') 90 110 := by
  have := Shown.part (text := List.replicate n 'x') (a := 140) (b := 160) (i := 50) (by rw [List.length_replicate]; omega)
    (by rw [List.length_replicate]; omega)
  rw [List.drop_replicate, List.take_replicate, Nat.min_eq_left (by omega : 200 ≤ n - 50)] at this
  exact this

-- a column is found by its name or its field, a cell by its text, prose by its text
example : (searchBlock ascii ["tier".toList] "p" (.table "t" ⟨[("c", "Tier".toList, some "customer.tier".toList)], [],
    [[("_id", "tier".toList), ("c", "'tier 1'".toList)]]⟩)).map (fun h => (h.kind, h.score, h.site.row, h.site.context)) =
    [(.tableColumn, 1300, none, none), (.tableCell, 583, some 0, some "Tier".toList)] := by decide
example : (searchIgnored ascii ["loyal".toList] "p" (.obj [("type", .str "paragraph"), ("id", .str "b"), ("content",
    .arr [.obj [("type", .str "text"), ("text", .str "for lo")], .obj [("type", .str "text"), ("text", .str "yal")]])])).map
      (fun h => (h.kind, h.span, h.site.block)) = [(.paragraph, (4, 9), some "b")] := by decide

end Zen.Search
