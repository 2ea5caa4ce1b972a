import Verif.Template.Template
import Mathlib.Data.List.Chain
/-
Lemmas on templates: the lexer on byte offsets computes what a recursion over the characters
computes, and its output is characterised.
-/
namespace Zen.Tmpl
open Bytes

/-! ### the lexer as a recursion over characters -/

def flushT : List Char → List Token
  | [] => []
  | c :: r => [.text (c :: r)]

def lx : List Char → List Char → List Token
  | acc, [] => flushT acc
  | acc, [c] => flushT (acc ++ [c])
  | acc, c :: c' :: r =>
    if c = '{' ∧ c' = '{' then flushT acc ++ .openBracket :: lx [] r
    else if c = '}' ∧ c' = '}' then flushT acc ++ .closeBracket :: lx [] r
    else lx (acc ++ [c]) (c' :: r)
termination_by _ r => r.length

def startOf (pre acc : List Char) : Option Nat := if acc = [] then none else some (byteLen pre)

theorem flush_eq (pre acc rest : List Char) (ts : List Token) :
    Lexer.flush (pre ++ acc ++ rest) ⟨ts, startOf pre acc⟩ (byteLen (pre ++ acc))
      = some ⟨ts ++ flushT acc, none⟩ := by
  cases acc with
  | nil => simp [Lexer.flush, startOf, flushT]
  | cons c r =>
    simp only [Lexer.flush, startOf, reduceCtorEq, if_false]
    rw [slice_mid]
    rfl

theorem startOf_getD (pre acc : List Char) (c : Char) :
    some ((startOf pre acc).getD (byteLen (pre ++ acc))) = startOf pre (acc ++ [c]) := by
  cases acc <;> simp [startOf]

theorem loop_eq (source : List Char) : ∀ (n : Nat) (pre acc rest : List Char) (ts : List Token),
    rest.length = n → source = pre ++ acc ++ rest →
    ((Lexer.loop source ⟨ts, startOf pre acc⟩ (charIndices (byteLen (pre ++ acc)) rest)).bind fun l =>
      l.flush source (byteLen source)) = some ⟨ts ++ lx acc rest, none⟩ := by
  intro n
  induction n using Nat.strong_induction_on with
  | _ n ih =>
    intro pre acc rest ts hn hs
    match rest, hn, hs with
    | [], hn, hs =>
      simp only [charIndices, Lexer.loop, Option.bind_some, lx]
      have := flush_eq pre acc [] ts
      rw [hs]
      rw [List.append_nil] at *
      exact this
    | [c], hn, hs =>
      simp only [charIndices, Lexer.loop, Option.bind_some, lx]
      rw [startOf_getD pre acc c]
      have := flush_eq pre (acc ++ [c]) [] ts
      rw [hs]
      simp only [List.append_assoc, List.append_nil] at *
      exact this
    | c :: c' :: r, hn, hs =>
      simp only [charIndices, Lexer.loop]
      rw [lx]
      by_cases h1 : c = '{' ∧ c' = '{'
      · rw [if_pos h1, if_pos h1]
        have hf := flush_eq pre acc (c :: c' :: r) ts
        rw [← hs] at hf
        rw [hf, Option.bind_some]
        have := ih r.length (by rw [← hn]; simp; omega) (pre ++ acc ++ [c, c']) [] r
          (ts ++ flushT acc ++ [.openBracket]) rfl (by rw [hs]; simp)
        simp only [startOf, if_true, List.append_nil] at this
        have hb : byteLen (pre ++ acc ++ [c, c']) = byteLen (pre ++ acc) + c.utf8Size + c'.utf8Size := by
          rw [byteLen_append (pre ++ acc)]; simp [byteLen]; omega
        rw [hb] at this
        rw [this]
        simp
      · rw [if_neg h1, if_neg h1]
        by_cases h2 : c = '}' ∧ c' = '}'
        · rw [if_pos h2, if_pos h2]
          have hf := flush_eq pre acc (c :: c' :: r) ts
          rw [← hs] at hf
          rw [hf, Option.bind_some]
          have := ih r.length (by rw [← hn]; simp; omega) (pre ++ acc ++ [c, c']) [] r
            (ts ++ flushT acc ++ [.closeBracket]) rfl (by rw [hs]; simp)
          simp only [startOf, if_true, List.append_nil] at this
          have hb : byteLen (pre ++ acc ++ [c, c']) = byteLen (pre ++ acc) + c.utf8Size + c'.utf8Size := by
            rw [byteLen_append (pre ++ acc)]; simp [byteLen]; omega
          rw [hb] at this
          rw [this]
          simp
        · rw [if_neg h2, if_neg h2]
          have := ih (c' :: r).length (by rw [← hn]; simp) pre (acc ++ [c]) (c' :: r) ts rfl
            (by rw [hs]; simp)
          have hb : byteLen (pre ++ (acc ++ [c])) = byteLen (pre ++ acc) + c.utf8Size := by
            rw [← List.append_assoc, byteLen_append (pre ++ acc)]; simp [byteLen]
          rw [hb, ← startOf_getD, charIndices] at this
          exact this

theorem lex_eq (source : List Char) : lex source = some (lx [] source) := by
  have := loop_eq source source.length [] [] source [] rfl rfl
  simp only [startOf, if_true, List.append_nil, byteLen, List.nil_append] at this
  unfold lex
  rw [show ({} : Lexer) = ⟨[], none⟩ from rfl, this]
  rfl

/-! ### what the lexer returns -/

/-- the text of a token -/
def Token.source : Token → List Char
  | .text s => s
  | .openBracket => ['{', '{']
  | .closeBracket => ['}', '}']

/-- two characters that do not form a bracket -/
def Apart (a b : Char) : Prop := ¬(a = '{' ∧ b = '{') ∧ ¬(a = '}' ∧ b = '}')

/-- neither `{{` nor `}}` occurs in the text -/
def Plain (s : List Char) : Prop := ¬ ['{', '{'] <:+: s ∧ ¬ ['}', '}'] <:+: s

theorem plain_iff (s : List Char) : Plain s ↔ s.IsChain Apart := by
  rw [List.isChain_iff_forall_rel_of_append_cons_cons]
  constructor
  · intro ⟨h1, h2⟩ a b l1 l2 e
    constructor
    · rintro ⟨rfl, rfl⟩
      exact h1 ⟨l1, l2, by rw [e]; simp⟩
    · rintro ⟨rfl, rfl⟩
      exact h2 ⟨l1, l2, by rw [e]; simp⟩
  · intro h
    constructor
    · rintro ⟨l1, l2, e⟩
      exact (@h '{' '{' l1 l2 (by rw [← e]; simp)).1 ⟨rfl, rfl⟩
    · rintro ⟨l1, l2, e⟩
      exact (@h '}' '}' l1 l2 (by rw [← e]; simp)).2 ⟨rfl, rfl⟩

/-- tokens that may follow each other: texts are never adjacent, and the last character of a text
does not combine with the bracket behind it -/
def Follows : Token → Token → Prop
  | .text _, .text _ => False
  | .text t, .openBracket => t.getLast? ≠ some '{'
  | .text t, .closeBracket => t.getLast? ≠ some '}'
  | _, _ => True

/-- a list of tokens as the lexer writes them: leftmost brackets and longest texts -/
structure Canonical (ts : List Token) : Prop where
  chain : ts.IsChain Follows
  texts : ∀ t, Token.text t ∈ ts → t ≠ [] ∧ Plain t

theorem flat_flushT (acc : List Char) : (flushT acc).flatMap Token.source = acc := by
  cases acc <;> simp [flushT, Token.source]

theorem flat_lx : ∀ (n : Nat) (acc rest : List Char), rest.length = n →
    (lx acc rest).flatMap Token.source = acc ++ rest := by
  intro n
  induction n using Nat.strong_induction_on with
  | _ n ih =>
    intro acc rest hn
    match rest, hn with
    | [], _ => simp [lx, flat_flushT]
    | [c], _ => simp [lx, flat_flushT]
    | c :: c' :: r, hn =>
      rw [lx]
      split
      · rename_i h
        simp [flat_flushT, ih r.length (by rw [← hn]; simp; omega) [] r rfl, Token.source, h.1, h.2]
      · split
        · rename_i h
          simp [flat_flushT, ih r.length (by rw [← hn]; simp; omega) [] r rfl, Token.source, h.1, h.2]
        · rw [ih (c' :: r).length (by rw [← hn]; simp) _ _ rfl]
          simp

theorem canonical_nil : Canonical [] := ⟨.nil, fun _ h => nomatch h⟩

theorem canonical_flushT (acc : List Char) (h : acc.IsChain Apart) : Canonical (flushT acc) := by
  cases acc with
  | nil => exact canonical_nil
  | cons c r =>
    refine ⟨.singleton _, fun t ht => ?_⟩
    simp only [flushT, List.mem_singleton, Token.text.injEq] at ht
    subst ht
    exact ⟨by simp, (plain_iff _).2 h⟩

theorem canonical_bracket (acc : List Char) (h : acc.IsChain Apart) (k : Token) (ts : List Token)
    (hk : k = .openBracket ∧ acc.getLast? ≠ some '{' ∨ k = .closeBracket ∧ acc.getLast? ≠ some '}')
    (hts : Canonical ts) : Canonical (flushT acc ++ k :: ts) := by
  have hkts : (k :: ts).IsChain Follows := by
    cases ts with
    | nil => exact .singleton _
    | cons t r =>
      refine List.isChain_cons_cons.2 ⟨?_, hts.chain⟩
      rcases hk with ⟨rfl, _⟩ | ⟨rfl, _⟩ <;> simp [Follows]
  constructor
  · cases acc with
    | nil => simpa [flushT] using hkts
    | cons c r =>
      refine List.isChain_cons_cons.2 ⟨?_, hkts⟩
      rcases hk with ⟨rfl, h2⟩ | ⟨rfl, h2⟩ <;> exact h2
  · intro t ht
    rcases List.mem_append.1 ht with ht | ht
    · exact (canonical_flushT acc h).texts t ht
    · rcases List.mem_cons.1 ht with ht | ht
      · rcases hk with ⟨rfl, _⟩ | ⟨rfl, _⟩ <;> cases ht
      · exact hts.texts t ht

theorem canonical_lx : ∀ (n : Nat) (acc rest : List Char), rest.length = n → acc.IsChain Apart →
    (∀ a ∈ acc.getLast?, ∀ b ∈ rest.head?, Apart a b) → Canonical (lx acc rest) := by
  intro n
  induction n using Nat.strong_induction_on with
  | _ n ih =>
    intro acc rest hn ha he
    match rest, hn, he with
    | [], _, _ => simpa [lx] using canonical_flushT acc ha
    | [c], _, he =>
      rw [lx]
      exact canonical_flushT _ (List.isChain_append.2 ⟨ha, .singleton _, he⟩)
    | c :: c' :: r, hn, he =>
      have hr : ∀ acc' : List Char, acc' = [] → Canonical (lx acc' r) := by
        rintro _ rfl
        exact ih r.length (by rw [← hn]; simp; omega) [] r rfl .nil (fun a h => by simp at h)
      rw [lx]
      split
      · rename_i h
        refine canonical_bracket acc ha _ _ (.inl ⟨rfl, fun hl => ?_⟩) (hr [] rfl)
        exact (he _ hl c rfl).1 ⟨rfl, h.1⟩
      · rename_i h1
        split
        · rename_i h
          refine canonical_bracket acc ha _ _ (.inr ⟨rfl, fun hl => ?_⟩) (hr [] rfl)
          exact (he _ hl c rfl).2 ⟨rfl, h.1⟩
        · rename_i h2
          refine ih (c' :: r).length (by rw [← hn]; simp) _ _ rfl
            (List.isChain_append.2 ⟨ha, .singleton _, he⟩) ?_
          intro a h b h'
          simp only [List.getLast?_append, List.getLast?_singleton, Option.some_or, Option.mem_def,
            Option.some.injEq, List.head?_cons] at h h'
          subst h; subst h'
          exact ⟨h1, h2⟩

/-- a text without brackets is read in one piece -/
theorem lx_text : ∀ (t acc rest : List Char), t.IsChain Apart →
    (∀ a ∈ t.getLast?, ∀ b ∈ rest.head?, Apart a b) → lx acc (t ++ rest) = lx (acc ++ t) rest := by
  intro t
  induction t with
  | nil => intro acc rest _ _; simp
  | cons c r ih =>
    intro acc rest hc he
    have hstep : ∀ x xs, r ++ rest = x :: xs → Apart c x → lx acc (c :: (r ++ rest)) = lx (acc ++ [c]) (r ++ rest) := by
      intro x xs hx hap
      rw [hx, lx, if_neg hap.1, if_neg hap.2]
    cases r with
    | nil =>
      cases rest with
      | nil => simp [lx]
      | cons b bs =>
        simpa using hstep b bs rfl (he c rfl b rfl)
    | cons d r' =>
      rw [List.cons_append, hstep d (r' ++ rest) rfl (List.isChain_cons_cons.1 hc).1]
      rw [ih (acc ++ [c]) rest (List.isChain_cons_cons.1 hc).2 (fun a h b hb => he a (by simpa using h) b hb)]
      simp

theorem flushT_ne {t : List Char} (h : t ≠ []) : flushT t = [.text t] := by
  cases t with
  | nil => exact absurd rfl h
  | cons => rfl

theorem canonical_tail {a : Token} {ts : List Token} (h : Canonical (a :: ts)) : Canonical ts :=
  ⟨h.chain.tail, fun t ht => h.texts t (List.mem_cons_of_mem _ ht)⟩

theorem lx_canonical : ∀ (n : Nat) (ts : List Token), ts.length = n → Canonical ts →
    lx [] (ts.flatMap Token.source) = ts := by
  intro n
  induction n using Nat.strong_induction_on with
  | _ n ih =>
    intro ts hn hc
    match ts, hn, hc with
    | [], _, _ => simp [lx, flushT]
    | .openBracket :: r, hn, hc =>
      have := ih r.length (by rw [← hn]; simp) r rfl (canonical_tail hc)
      simp only [List.flatMap_cons, Token.source, List.cons_append, List.nil_append]
      rw [lx, if_pos ⟨rfl, rfl⟩, this]; rfl
    | .closeBracket :: r, hn, hc =>
      have := ih r.length (by rw [← hn]; simp) r rfl (canonical_tail hc)
      simp only [List.flatMap_cons, Token.source, List.cons_append, List.nil_append]
      rw [lx, if_neg (by simp), if_pos ⟨rfl, rfl⟩, this]; rfl
    | .text t :: r, hn, hc =>
      obtain ⟨ht0, ht⟩ := hc.texts t (List.mem_cons_self ..)
      rw [plain_iff] at ht
      match r, hn, hc with
      | [], _, _ =>
        have := lx_text t [] [] ht (fun a _ b hb => by simp at hb)
        simp only [List.append_nil, List.nil_append] at this
        simp [Token.source, this, lx, flushT_ne ht0]
      | .text _ :: _, _, hc => exact ((List.isChain_cons_cons.1 hc.chain).1).elim
      | .openBracket :: r', hn, hc =>
        have h1 := ih r'.length (by rw [← hn]; simp; omega) r' rfl (canonical_tail (canonical_tail hc))
        have he : t.getLast? ≠ some '{' := (List.isChain_cons_cons.1 hc.chain).1
        simp only [List.flatMap_cons, Token.source, List.cons_append, List.nil_append]
        rw [lx_text t [] _ ht, lx, if_pos ⟨rfl, rfl⟩, h1, List.nil_append, flushT_ne ht0]; rfl
        intro a ha b hb
        simp only [List.head?_cons, Option.mem_def, Option.some.injEq] at hb
        subst hb
        refine ⟨?_, fun h => by simp at h⟩
        rintro ⟨rfl, _⟩
        exact he ha
      | .closeBracket :: r', hn, hc =>
        have h1 := ih r'.length (by rw [← hn]; simp; omega) r' rfl (canonical_tail (canonical_tail hc))
        have he : t.getLast? ≠ some '}' := (List.isChain_cons_cons.1 hc.chain).1
        simp only [List.flatMap_cons, Token.source, List.cons_append, List.nil_append]
        rw [lx_text t [] _ ht, lx, if_neg (by simp), if_pos ⟨rfl, rfl⟩, h1, List.nil_append, flushT_ne ht0]; rfl
        intro a ha b hb
        simp only [List.head?_cons, Option.mem_def, Option.some.injEq] at hb
        subst hb
        refine ⟨fun h => by simp at h, ?_⟩
        rintro ⟨rfl, _⟩
        exact he ha

end Zen.Tmpl
