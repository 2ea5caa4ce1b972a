import Verif.Edit.Text
/-
Replacing spans: every character inside a replaced span goes, and the new text stands where the span began.
-/
namespace Zen.Edit
open Zen

/-- What becomes of the character at position `i`: the new text where a span begins, nothing further inside a span,
otherwise itself. -/
def mark (spans : List Span) (new : List Char) (i : Nat) (c : Char) : List Char :=
  if spans.any (·.1 == i) then new
  else if spans.any (fun s => s.1 < i && i < s.2) then []
  else [c]

/-- the text from position `i` on, with the spans replaced -/
def splice (spans : List Span) (new : List Char) : Nat → List Char → List Char
  | _, [] => []
  | i, c :: cs => mark spans new i c ++ splice spans new (i + 1) cs

variable {new : List Char}

theorem splice_append (S : List Span) (a b : List Char) : ∀ i, splice S new i (a ++ b) = splice S new i a ++ splice S new (i + a.length) b := by
  induction a with
  | nil => intro i; rfl
  | cons c cs ih =>
    intro i
    simp only [List.cons_append, splice, ih, List.append_assoc, List.length_cons]
    rw [show i + 1 + cs.length = i + (cs.length + 1) by omega]

theorem splice_congr (S T : List Span) (a : List Char) : ∀ i, (∀ j c, i ≤ j → j < i + a.length → mark S new j c = mark T new j c) →
    splice S new i a = splice T new i a := by
  induction a with
  | nil => intro i _; rfl
  | cons c cs ih =>
    intro i h
    simp only [splice]
    rw [h i c (Nat.le_refl _) (by simp), ih (i + 1) fun j c h1 h2 => h j c (by omega) (by simp; omega)]

theorem splice_out (S : List Span) (a : List Char) : ∀ i, (∀ s ∈ S, ∀ j, i ≤ j → j < i + a.length → ¬ (s.1 ≤ j ∧ j < s.2)) →
    (∀ s ∈ S, s.1 < s.2) → splice S new i a = a := by
  induction a with
  | nil => intro i _ _; rfl
  | cons c cs ih =>
    intro i h hp
    have hm : mark S new i c = [c] := by
      unfold mark
      rw [if_neg, if_neg]
      · rw [Bool.not_eq_true, List.any_eq_false]
        intro s hs he
        simp at he
        exact h s hs i (Nat.le_refl _) (by simp) ⟨by omega, he.2⟩
      · rw [Bool.not_eq_true, List.any_eq_false]
        intro s hs he
        simp at he
        exact h s hs i (Nat.le_refl _) (by simp) ⟨by omega, by have := hp s hs; omega⟩
    simp only [splice, hm]
    rw [ih (i + 1) (fun s hs j h1 h2 => h s hs j (by omega) (by simp; omega)) hp]
    rfl

theorem splice_in (S : List Span) (s : Span) (hs : s ∈ S) (a : List Char) : ∀ i, s.1 < i → i + a.length ≤ s.2 →
    (∀ t ∈ S, t = s ∨ t.2 ≤ s.1 ∨ s.2 ≤ t.1) → (∀ t ∈ S, t.1 < t.2) → splice S new i a = [] := by
  induction a with
  | nil => intro i _ _ _ _; rfl
  | cons c cs ih =>
    intro i h1 h2 hd hp
    simp only [List.length_cons] at h2
    have hm : mark S new i c = [] := by
      unfold mark
      rw [if_neg, if_pos]
      · rw [List.any_eq_true]
        exact ⟨s, hs, by simp; omega⟩
      · rw [Bool.not_eq_true, List.any_eq_false]
        intro t ht he
        simp at he
        have := hp t ht
        rcases hd t ht with rfl | h | h <;> omega
    simp only [splice, hm, List.nil_append]
    exact ih (i + 1) (by omega) (by omega) hd hp

theorem splice_at (S : List Span) (s : Span) (hs : s ∈ S) (a : List Char) (ha : s.1 + a.length = s.2) 
    (hd : ∀ t ∈ S, t = s ∨ t.2 ≤ s.1 ∨ s.2 ≤ t.1) (hp : ∀ t ∈ S, t.1 < t.2) : splice S new s.1 a = new := by
  cases a with
  | nil => have := hp s hs; simp at ha; omega
  | cons c cs =>
    simp only [splice]
    have hm : mark S new s.1 c = new := by
      unfold mark
      rw [if_pos]
      rw [List.any_eq_true]
      exact ⟨s, hs, by simp⟩
    simp only [List.length_cons] at ha
    rw [hm, splice_in S s hs cs (s.1 + 1) (by omega) (by omega) hd hp, List.append_nil]

/-- spans one after the other -/
def Apart : List Span → Prop
  | [] => True
  | s :: r => (∀ t ∈ r, s.2 ≤ t.1) ∧ Apart r

theorem apart_rel : ∀ {S : List Span}, Apart S → (∀ s ∈ S, s.1 < s.2) → ∀ s ∈ S, ∀ t ∈ S, t = s ∨ t.2 ≤ s.1 ∨ s.2 ≤ t.1
  | [], _, _, _, h, _, _ => nomatch h
  | a :: S, h, hp, s, hs, t, ht => by
    rcases List.mem_cons.1 hs with e | hs' <;> rcases List.mem_cons.1 ht with e' | ht'
    · exact .inl (e'.trans e.symm)
    · exact .inr (.inr (e ▸ h.1 t ht'))
    · exact .inr (.inl (e' ▸ h.1 s hs'))
    · exact apart_rel h.2 (fun s hs => hp s (by simp [hs])) s hs' t ht'

/-- Replacing from the last span to the first. -/
theorem foldr_splice (src : List Char) : ∀ S : List Span, Apart S → (∀ s ∈ S, s.1 < s.2 ∧ s.2 ≤ src.length) →
    S.foldr (fun s out => out.bind (cut new s)) (some src) = some (splice S new 0 src)
  | [], _, _ => by
    simp only [List.foldr_nil]
    rw [splice_out]
    · intro s hs; cases hs
    · intro s hs; cases hs
  | s :: S, h, hb => by
    have hs := hb s (by simp)
    rw [List.foldr_cons, foldr_splice src S h.2 fun t ht => hb t (by simp [ht]), Option.bind_some]
    have e1 : src = src.take s.1 ++ ((src.drop s.1).take (s.2 - s.1) ++ src.drop s.2) := by
      conv => lhs; rw [← List.take_append_drop s.1 src, ← List.take_append_drop (s.2 - s.1) (src.drop s.1), List.drop_drop]
      rw [show s.1 + (s.2 - s.1) = s.2 by omega]
    have l1 : (src.take s.1).length = s.1 := by rw [List.length_take]; omega
    have l2 : ((src.drop s.1).take (s.2 - s.1)).length = s.2 - s.1 := by
      rw [List.length_take, List.length_drop]; omega
    have hp : ∀ t ∈ s :: S, t.1 < t.2 := fun t ht => (hb t ht).1
    have hp' : ∀ t ∈ S, t.1 < t.2 := fun t ht => (hb t (by simp [ht])).1
    have a1 : splice S new 0 (src.take s.1) = src.take s.1 := by
      refine splice_out S _ 0 ?_ hp'
      intro t ht j _ h2 h3
      have := h.1 t ht
      omega
    have a2 : splice S new s.1 ((src.drop s.1).take (s.2 - s.1)) = (src.drop s.1).take (s.2 - s.1) := by
      refine splice_out S _ s.1 ?_ hp'
      intro t ht j _ h2 h3
      have := h.1 t ht
      omega
    have b1 : splice (s :: S) new 0 (src.take s.1) = src.take s.1 := by
      refine splice_out _ _ 0 ?_ hp
      intro t ht j _ h2 h3
      rcases List.mem_cons.1 ht with rfl | ht
      · omega
      · have := h.1 t ht
        omega
    have b2 : splice (s :: S) new s.1 ((src.drop s.1).take (s.2 - s.1)) = new :=
      splice_at _ s (by simp) _ (by omega) (apart_rel h hp s (by simp)) hp
    have b3 : splice (s :: S) new s.2 (src.drop s.2) = splice S new s.2 (src.drop s.2) := by
      refine splice_congr _ _ _ _ fun j c h1 h2 => ?_
      have q1 : (s.1 == j) = false := by simp; omega
      have q2 : (decide (s.1 < j) && decide (j < s.2)) = false := by simp; omega
      simp only [mark, List.any_cons, q1, q2, Bool.false_or]
    have full : splice S new 0 src = src.take s.1 ++ ((src.drop s.1).take (s.2 - s.1) ++ splice S new s.2 (src.drop s.2)) := by
      conv => lhs; rw [e1]
      rw [splice_append, splice_append, a1, l1, l2, Nat.zero_add, a2, show s.1 + (s.2 - s.1) = s.2 by omega]
    have goal : splice (s :: S) new 0 src = src.take s.1 ++ (new ++ splice S new s.2 (src.drop s.2)) := by
      conv => lhs; rw [e1]
      rw [splice_append, splice_append, b1, l1, l2, Nat.zero_add, b2, show s.1 + (s.2 - s.1) = s.2 by omega, b3]
    rw [full, goal]
    generalize splice S new s.2 (src.drop s.2) = z
    have len : s.2 ≤ (src.take s.1 ++ ((src.drop s.1).take (s.2 - s.1) ++ z)).length := by
      rw [List.length_append, List.length_append, l1, l2]; omega
    unfold cut
    simp only
    rw [Nat.min_eq_left (by omega), Nat.min_eq_left len, if_pos (by omega)]
    congr 1
    rw [List.take_append, l1, List.take_of_length_le (by omega), Nat.sub_self, List.take_zero, List.append_nil]
    rw [← List.append_assoc (src.take s.1), List.drop_append, List.length_append, l1, l2, show s.1 + (s.2 - s.1) = s.2 by omega,
      List.drop_of_length_le (by rw [List.length_append]; omega), Nat.sub_self, List.drop_zero, List.nil_append, List.append_assoc]

/-! ## Which spans are kept -/

theorem mem_dedup : ∀ (l : List Span) (s : Span), s ∈ dedup l ↔ s ∈ l
  | [], s => Iff.rfl
  | [a], s => Iff.rfl
  | a :: b :: r, s => by
    unfold dedup
    split
    · rename_i h
      rw [mem_dedup (b :: r) s]
      subst h
      simp
    · rw [List.mem_cons, mem_dedup (b :: r) s, ← List.mem_cons]

theorem sorted_dedup : ∀ (l : List Span), l.Pairwise (fun a b => spanLe a b = true) → (dedup l).Pairwise fun a b => spanLe a b = true
  | [], h => h
  | [a], h => h
  | a :: b :: r, h => by
    unfold dedup
    have h' := List.pairwise_cons.1 h
    split
    · exact sorted_dedup (b :: r) h'.2
    · refine List.pairwise_cons.2 ⟨fun s hs => ?_, sorted_dedup (b :: r) h'.2⟩
      exact h'.1 s ((mem_dedup _ _).1 hs)

theorem keep_sub : ∀ (l : List Span) (o : Option Nat), ∀ s ∈ keep o l, s ∈ l
  | [], _, _, h => h
  | (a, b) :: r, o, s, h => by
    unfold keep at h
    split at h
    · split at h
      · exact List.mem_cons_of_mem _ (keep_sub r _ s h)
      · rcases List.mem_cons.1 h with rfl | h
        · simp
        · exact List.mem_cons_of_mem _ (keep_sub r _ s h)
    · rcases List.mem_cons.1 h with rfl | h
      · simp
      · exact List.mem_cons_of_mem _ (keep_sub r _ s h)

theorem keep_from : ∀ (l : List Span) (p : Nat), (∀ s ∈ l, s.1 < s.2) → (∀ s ∈ keep (some p) l, p ≤ s.1) ∧ Apart (keep (some p) l)
  | [], _, _ => ⟨fun _ h => (nomatch h), trivial⟩
  | (a, b) :: r, p, hp => by
    have hr : ∀ s ∈ r, s.1 < s.2 := fun s hs => hp s (by simp [hs])
    have hab : a < b := hp (a, b) (by simp)
    unfold keep
    simp only
    split
    · exact keep_from r p hr
    · obtain ⟨h1, h2⟩ := keep_from r b hr
      refine ⟨fun s hs => ?_, h1, h2⟩
      rcases List.mem_cons.1 hs with rfl | hs
      · simp only; omega
      · have := h1 s hs; omega

theorem keep_apart : ∀ (l : List Span), (∀ s ∈ l, s.1 < s.2) → Apart (keep none l)
  | [], _ => trivial
  | (a, b) :: r, hp => by
    unfold keep
    exact keep_from r b fun s hs => hp s (by simp [hs])

/-- every span is kept or overlaps one that is, or `p` -/
theorem keep_all : ∀ (l : List Span) (o : Option Nat), (∀ s ∈ l, s.1 < s.2) → l.Pairwise (fun a b => spanLe a b = true) →
    ∀ s ∈ l, (∃ t ∈ keep o l, s = t ∨ (t.1 ≤ s.1 ∧ s.1 < t.2)) ∨ ∃ p, o = some p ∧ s.1 < p
  | [], _, _, _, _, h => nomatch h
  | (a, b) :: r, o, hp, hs, s, hm => by
    have hr : ∀ s ∈ r, s.1 < s.2 := fun s hs => hp s (by simp [hs])
    have hs' := List.pairwise_cons.1 hs
    have step : ∀ s ∈ (a, b) :: r, ∃ t ∈ (a, b) :: keep (some b) r, s = t ∨ (t.1 ≤ s.1 ∧ s.1 < t.2) := by
      intro s hm
      rcases List.mem_cons.1 hm with rfl | hm
      · exact ⟨(a, b), by simp, .inl rfl⟩
      · rcases keep_all r (some b) hr hs'.2 s hm with ⟨t, ht, h⟩ | ⟨p, e, h⟩
        · exact ⟨t, by simp [ht], h⟩
        · injection e with e
          subst e
          refine ⟨(a, b), by simp, .inr ⟨?_, h⟩⟩
          have := hs'.1 s hm
          simp [spanLe] at this
          rcases this with h | h
          · simp only; omega
          · simp only; omega
    unfold keep
    split
    · rename_i p
      split
      · rename_i hlt
        rcases List.mem_cons.1 hm with rfl | hm
        · exact .inr ⟨p, rfl, hlt⟩
        · exact keep_all r (some p) hr hs'.2 s hm
      · exact .inl (step s hm)
    · exact .inl (step s hm)

theorem spanLe_trans (a b c : Span) (h1 : spanLe a b = true) (h2 : spanLe b c = true) : spanLe a c = true := by
  simp [spanLe] at *
  omega

theorem spanLe_total (a b : Span) : (spanLe a b || spanLe b a) = true := by
  simp [spanLe]
  omega

theorem sorted_sort (spans : List Span) : (dedup (spans.mergeSort spanLe)).Pairwise fun a b => spanLe a b = true :=
  sorted_dedup _ (List.pairwise_mergeSort spanLe_trans spanLe_total spans)

theorem mem_sort (spans : List Span) (s : Span) : s ∈ dedup (spans.mergeSort spanLe) ↔ s ∈ spans := by
  rw [mem_dedup, List.mem_mergeSort]

theorem kept_sub {spans : List Span} {s : Span} (h : s ∈ kept spans) : s ∈ spans := (mem_sort spans s).1 (keep_sub _ _ s h)

theorem kept_apart {spans : List Span} (h : ∀ s ∈ spans, s.1 < s.2) : Apart (kept spans) :=
  keep_apart _ fun s hs => h s ((mem_sort spans s).1 hs)

theorem kept_all {spans : List Span} (h : ∀ s ∈ spans, s.1 < s.2) : ∀ s ∈ spans,
    ∃ t ∈ kept spans, s = t ∨ (t.1 ≤ s.1 ∧ s.1 < t.2) := by
  intro s hs
  rcases keep_all _ none (fun s hs => h s ((mem_sort spans s).1 hs)) (sorted_sort spans) s ((mem_sort spans s).2 hs) with h | ⟨p, e, _⟩
  · exact h
  · cases e

theorem replaceAt_eq (src : List Char) (spans : List Span) (h : ∀ s ∈ spans, s.1 < s.2 ∧ s.2 ≤ src.length) :
    replaceAt src spans new = some (splice (kept spans) new 0 src) := by
  unfold replaceAt
  rw [List.foldl_reverse]
  exact foldr_splice src _ (kept_apart fun s hs => (h s hs).1) fun s hs => h s (kept_sub hs)

/-- Spans of which no two overlap, except equal ones, are all replaced. -/
theorem replaceAt_all (src : List Char) (spans : List Span) (h : ∀ s ∈ spans, s.1 < s.2 ∧ s.2 ≤ src.length)
    (hd : ∀ s ∈ spans, ∀ t ∈ spans, t = s ∨ t.2 ≤ s.1 ∨ s.2 ≤ t.1) :
    replaceAt src spans new = some (splice spans new 0 src) := by
  rw [replaceAt_eq src spans h]
  have hm : ∀ s, s ∈ kept spans ↔ s ∈ spans := by
    intro s
    refine ⟨kept_sub, fun hs => ?_⟩
    obtain ⟨t, ht, rfl | h1⟩ := kept_all (fun s hs => (h s hs).1) s hs
    · exact ht
    · have := hd t (kept_sub ht) s hs
      rcases this with rfl | h2 | h2
      · exact ht
      · have := (h s hs).1; omega
      · omega
  congr 1
  refine splice_congr _ _ _ _ fun j c _ _ => ?_
  have ha : ∀ f : Span → Bool, (kept spans).any f = spans.any f := by
    intro f
    rw [Bool.eq_iff_iff, List.any_eq_true, List.any_eq_true]
    constructor
    · rintro ⟨s, hs, h⟩; exact ⟨s, (hm s).1 hs, h⟩
    · rintro ⟨s, hs, h⟩; exact ⟨s, (hm s).2 hs, h⟩
  simp only [mark, ha]

/-! ## A text made of pieces -/

/-- a text: pieces, each followed by an occurrence, and the rest -/
def text : List (List Char × List Char) → List Char → List Char
  | [], rest => rest
  | (gap, old) :: r, rest => gap ++ (old ++ text r rest)

/-- where the occurrences are, when the text begins at `i` -/
def places : Nat → List (List Char × List Char) → List Span
  | _, [] => []
  | i, (gap, old) :: r => (i + gap.length, i + gap.length + old.length) :: places (i + gap.length + old.length) r

theorem places_le : ∀ (ps : List (List Char × List Char)) (i : Nat), ∀ s ∈ places i ps, i ≤ s.1
  | [], _, _, h => nomatch h
  | (g, o) :: r, i, s, h => by
    rcases List.mem_cons.1 h with rfl | h
    · simp
    · have := places_le r _ s h; omega

theorem places_apart : ∀ (ps : List (List Char × List Char)) (i : Nat), Apart (places i ps)
  | [], _ => trivial
  | (g, o) :: r, i => ⟨fun t ht => places_le r _ t ht, places_apart r _⟩

theorem places_in : ∀ (ps : List (List Char × List Char)) (rest : List Char) (i : Nat), (∀ p ∈ ps, p.2 ≠ []) →
    ∀ s ∈ places i ps, s.1 < s.2 ∧ s.2 ≤ i + (text ps rest).length
  | [], _, _, _, _, h => nomatch h
  | (g, o) :: r, rest, i, hne, s, h => by
    have ho : 0 < o.length := List.length_pos_iff.2 (hne (g, o) (by simp))
    simp only [text, List.length_append]
    rcases List.mem_cons.1 h with rfl | h
    · simp only; omega
    · have := places_in r rest _ (fun p hp => hne p (by simp [hp])) s h
      omega

theorem splice_text : ∀ (ps : List (List Char × List Char)) (rest : List Char) (i : Nat), (∀ p ∈ ps, p.2 ≠ []) →
    splice (places i ps) new i (text ps rest) = text (ps.map fun p => (p.1, new)) rest
  | [], rest, i, _ => splice_out _ _ _ (fun s hs => nomatch hs) fun s hs => nomatch hs
  | (g, o) :: r, rest, i, hne => by
    have hp : ∀ s ∈ places i ((g, o) :: r), s.1 < s.2 := fun s hs => (places_in _ rest i hne s hs).1
    have hr : ∀ p ∈ r, p.2 ≠ [] := fun p hp => hne p (by simp [hp])
    simp only [text, List.map_cons]
    rw [splice_append, splice_append, splice_out _ g]
    · have hat := splice_at (new := new) (places i ((g, o) :: r)) (i + g.length, i + g.length + o.length) (by simp [places]) o rfl
        (apart_rel (places_apart _ i) hp _ (by simp [places])) hp
      simp only at hat
      rw [hat]
      congr 2
      rw [← splice_text r rest _ hr]
      refine splice_congr _ _ _ _ fun j c h1 h2 => ?_
      have ho : 0 < o.length := List.length_pos_iff.2 (hne (g, o) (by simp))
      have q1 : (i + g.length == j) = false := by simp; omega
      have q2 : (decide (i + g.length < j) && decide (j < i + g.length + o.length)) = false := by simp; omega
      simp only [mark, places, List.any_cons, q1, q2, Bool.false_or]
    · intro s hs j _ h2 h3
      rcases List.mem_cons.1 hs with rfl | hs
      · simp only at h3; omega
      · have := places_le r _ s hs; omega
    · exact hp

theorem replace_text (ps : List (List Char × List Char)) (rest : List Char) (spans : List Span) (hne : ∀ p ∈ ps, p.2 ≠ [])
    (hs : ∀ s, s ∈ spans ↔ s ∈ places 0 ps) :
    replaceAt (text ps rest) spans new = some (text (ps.map fun p => (p.1, new)) rest) := by
  have hin : ∀ s ∈ spans, s.1 < s.2 ∧ s.2 ≤ (text ps rest).length := fun s h => by
    have := places_in ps rest 0 hne s ((hs s).1 h)
    omega
  rw [replaceAt_all _ spans hin, ← splice_text ps rest 0 hne]
  · congr 1
    refine splice_congr _ _ _ _ fun j c _ _ => ?_
    have ha : ∀ f : Span → Bool, spans.any f = (places 0 ps).any f := by
      intro f
      rw [Bool.eq_iff_iff, List.any_eq_true, List.any_eq_true]
      constructor
      · rintro ⟨s, h, h'⟩; exact ⟨s, (hs s).1 h, h'⟩
      · rintro ⟨s, h, h'⟩; exact ⟨s, (hs s).2 h, h'⟩
    simp only [mark, ha]
  · intro s h t h'
    exact apart_rel (places_apart ps 0) (fun s h => (places_in ps rest 0 hne s h).1) s ((hs s).1 h) t ((hs t).1 h')

/-! ## Bytes and characters -/

theorem bytes_append (a b : List Char) : bytes (a ++ b) = bytes a + bytes b := by simp [bytes]

theorem before_prefix (a b : List Char) : ∀ i, before (i + bytes a) i (a ++ b) = a.length + before (i + bytes a) (i + bytes a) b := by
  induction a with
  | nil => intro i; simp [bytes]
  | cons c cs ih =>
    intro i
    have hc : 0 < c.utf8Size := Char.utf8Size_pos c
    have e : bytes (c :: cs) = c.utf8Size + bytes cs := by simp [bytes]
    simp only [List.cons_append, before, e]
    rw [if_pos (by omega)]
    have := ih (i + c.utf8Size)
    rw [show i + c.utf8Size + bytes cs = i + (c.utf8Size + bytes cs) by omega] at this
    rw [this, List.length_cons]
    omega

theorem before_self (i : Nat) (b : List Char) : before i i b = 0 := by
  cases b <;> simp [before]

theorem ascii_bytes (a : List Char) (h : ∀ c ∈ a, c.toNat < 128) : bytes a = a.length := by
  induction a with
  | nil => rfl
  | cons c cs ih =>
    have e : bytes (c :: cs) = c.utf8Size + bytes cs := by simp [bytes]
    have h1 : c.utf8Size = 1 := by
      have := h c (by simp)
      unfold Char.utf8Size
      rw [if_pos]
      exact UInt32.le_iff_toNat_le.2 (Nat.le_of_lt_succ this)
    rw [e, h1, ih fun c hc => h c (by simp [hc]), List.length_cons]
    omega

/-- The span of a part of a text, in characters. -/
theorem charSpan_part (a m b : List Char) :
    charSpan (a ++ (m ++ b)) (bytes a, bytes a + bytes m) = (a.length, a.length + m.length) := by
  unfold charSpan
  split
  · rename_i h
    rw [List.all_eq_true] at h
    rw [ascii_bytes a fun c hc => by simpa using h c (by simp [hc]), ascii_bytes m fun c hc => by simpa using h c (by simp [hc])]
  · have h1 := before_prefix a (m ++ b) 0
    have h2 := before_prefix (a ++ m) b 0
    simp only [Nat.zero_add, before_self, Nat.add_zero, bytes_append, List.length_append, List.append_assoc] at h1 h2
    rw [h1, h2]

/-! ## Keys -/

theorem stripBrackets_some (s : List Char) : stripBrackets (s ++ ['[', ']']) = s := by simp [stripBrackets]

theorem stripBrackets_none {x : List Char} (h : ∀ s, x ≠ s ++ ['[', ']']) : stripBrackets x = x := by
  unfold stripBrackets
  rw [if_neg]
  intro e
  refine h (x.take (x.length - 2)) ?_
  rw [← e, List.take_append_drop]

theorem strip_dot (x rest : List Char) : ∃ r, stripBrackets (x ++ '.' :: rest) = x ++ '.' :: r := by
  by_cases h : ∃ s, x ++ '.' :: rest = s ++ ['[', ']']
  · obtain ⟨s, hs⟩ := h
    rw [hs, stripBrackets_some]
    obtain ⟨t, ht⟩ : ∃ t, rest = t ++ ['[', ']'] := by
      have h1 : ['[', ']'] <:+ rest := by
        rcases List.suffix_or_suffix_of_suffix (l₃ := x ++ '.' :: rest) ⟨s, hs.symm⟩ (List.suffix_append_of_suffix (List.suffix_cons ..)) with h | h
        · exact h
        · rcases rest with _ | ⟨a, _ | ⟨b, _ | ⟨c, r⟩⟩⟩
          · have := congrArg List.reverse hs
            simp at this
          · have := congrArg List.reverse hs
            simp at this
          · obtain ⟨u, hu⟩ := h
            cases u with
            | nil => rw [List.nil_append] at hu; exact hu ▸ List.suffix_rfl
            | cons c u => simpa using congrArg List.length hu
          · have := h.length_le; simp at this
      exact ⟨_, h1.choose_spec.symm⟩
    subst ht
    refine ⟨t, ?_⟩
    have : x ++ '.' :: t ++ ['[', ']'] = s ++ ['[', ']'] := by simpa using hs
    exact (List.append_cancel_right this).symm
  · exact ⟨rest, stripBrackets_none fun s e => h ⟨s, e⟩⟩

theorem writeKeySpan_entity (x rest : List Char) (hdot : '.' ∉ x) : writeKeySpan false x (x ++ '.' :: rest) = some (0, x.length) := by
  have key : ∀ r : List Char, (x ++ '.' :: r).takeWhile (· != '.') = x := by
    intro r
    rw [List.takeWhile_append_of_pos]
    · simp
    · intro c hc
      have : c ≠ '.' := fun e => hdot (e ▸ hc)
      simpa using this
  obtain ⟨r, hr⟩ := strip_dot x rest
  simp [writeKeySpan, hr, key]

end Zen.Edit
