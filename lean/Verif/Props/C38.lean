import Verif.Template.Lemmas
import Verif.Expr.Ev
/-
C38 Template rendering.

The claim holds up to four facts about the code that the theorems below state: the template is
trimmed first (so text without `{{` comes back without its outer white space, and empty text
comes back as null), text without `{{` that contains `}}` is rejected, `{{}}` contributes nothing,
and a `{{` that is never closed is accepted. The lexer does not know string literals or braces of
the expression language.
-/
namespace Zen.Tmpl
open Bytes

/-! ### the lexer -/

/-- the lexer never slices inside a character: rendering does not panic -/
theorem C38_no_panic {σ ε : Type} (S : Show) (run : Evaluator σ ε) (st : σ) (t : List Char) :
    ∃ r, render S run st t = some r := by
  rw [render, lex_eq]
  exact ⟨_, rfl⟩

/-- segmentation is lossless: the tokens put side by side are the source -/
theorem C38_lossless (s : List Char) (ts : List Token) (h : lex s = some ts) :
    ts.flatMap Token.source = s := by
  rw [lex_eq] at h
  cases h
  exact flat_lx _ [] s rfl

/-- the tokens of a source are exactly the canonical list that spells it -/
theorem C38_lex_iff (s : List Char) (ts : List Token) :
    lex s = some ts ↔ ts.flatMap Token.source = s ∧ Canonical ts := by
  constructor
  · intro h
    refine ⟨C38_lossless s ts h, ?_⟩
    rw [lex_eq] at h
    cases h
    exact canonical_lx _ [] s rfl .nil (fun a h => by simp at h)
  · rintro ⟨rfl, hc⟩
    rw [lex_eq, lx_canonical _ ts rfl hc]

example : lex "a{{b}}é}}".toList = some [.text ['a'], .openBracket, .text ['b'], .closeBracket,
    .text ['é'], .closeBracket] := by decide
/-- three braces: the first two are the bracket -/
example : lex "{{{".toList = some [.openBracket, .text ['{']] := by decide

/-! ### the parser -/

/-- brackets opened and not closed -/
def depth (ts : List Token) : Int :=
  (ts.countP (· = .openBracket) : Int) - (ts.countP (· = .closeBracket) : Int)

/-- every bracket that closes was opened, and none is opened inside another -/
def Balanced (ts : List Token) : Prop := ∀ p, p <+: ts → 0 ≤ depth p ∧ depth p ≤ 1

/-- the segment at a position: a text, which is an expression inside brackets -/
def nodeAt (ts : List Token) (i : Nat) : Option Node :=
  match ts[i]? with
  | some (.text t) => some (if depth (ts.take i) = 1 then .expression t else .text t)
  | _ => none

/-- the segments in order -/
def nodesOf (ts : List Token) : List Node := (List.range ts.length).filterMap (nodeAt ts)

theorem depth_nil : depth [] = 0 := rfl
theorem depth_append (a b : List Token) : depth (a ++ b) = depth a + depth b := by
  simp only [depth, List.countP_append]; push_cast; omega

def stateOf (p : List Token) : PState := if depth p = 1 then .expression else .text

theorem balanced_of_prefix {p ts : List Token} (h : Balanced ts) (hp : p <+: ts) : Balanced p :=
  fun q hq => h q (hq.trans hp)

theorem balanced_snoc {p : List Token} {t : Token} (h : Balanced p)
    (hd : 0 ≤ depth (p ++ [t]) ∧ depth (p ++ [t]) ≤ 1) : Balanced (p ++ [t]) := by
  intro q hq
  rcases List.prefix_concat_iff.1 hq with rfl | hq
  · exact hd
  · exact h q hq

theorem nodesOf_snoc (p : List Token) (t : Token) :
    nodesOf (p ++ [t]) = nodesOf p ++ (match t with
      | .text s => [if depth p = 1 then .expression s else .text s]
      | _ => []) := by
  unfold nodesOf
  rw [List.length_append, List.length_singleton, List.range_succ, List.filterMap_append]
  congr 1
  · apply List.filterMap_congr
    intro i hi
    rw [List.mem_range] at hi
    unfold nodeAt
    rw [List.getElem?_append_left hi, List.take_append_of_le_length (Nat.le_of_lt hi)]
  · cases t <;> simp [nodeAt]

theorem parseLoop_spec (ts : List Token) : ∀ (r p : List Token), ts = p ++ r → Balanced p →
    (Balanced ts ∧ parseLoop (stateOf p) (nodesOf p) r = .ok (nodesOf ts)) ∨
    (∃ q r', ts = q ++ .closeBracket :: r' ∧ Balanced q ∧ depth q = 0 ∧
      parseLoop (stateOf p) (nodesOf p) r = .error .closeBracket) ∨
    (∃ q r', ts = q ++ .openBracket :: r' ∧ Balanced q ∧ depth q = 1 ∧
      parseLoop (stateOf p) (nodesOf p) r = .error .openBracket) := by
  intro r
  induction r with
  | nil =>
    intro p he hb
    simp only [List.append_nil] at he
    subst he
    exact .inl ⟨hb, by cases h : stateOf ts <;> rfl⟩
  | cons t r ih =>
    intro p he hb
    have hd := hb p (List.prefix_refl _)
    have he' : ts = (p ++ [t]) ++ r := by rw [he]; simp
    rcases (by omega : depth p = 0 ∨ depth p = 1) with h0 | h1
    · have hst : stateOf p = .text := by simp [stateOf, h0]
      cases t with
      | text s =>
        have hd' : depth (p ++ [.text s]) = 0 := by rw [depth_append, h0]; rfl
        have := ih _ he' (balanced_snoc hb (by omega))
        rw [nodesOf_snoc] at this
        simp only [stateOf, h0, hd', Int.zero_ne_one, if_false] at this ⊢
        exact this
      | openBracket =>
        have hd' : depth (p ++ [.openBracket]) = 1 := by rw [depth_append, h0]; rfl
        have := ih _ he' (balanced_snoc hb (by omega))
        rw [nodesOf_snoc] at this
        simp only [stateOf, h0, hd', Int.zero_ne_one, if_false, if_true, List.append_nil] at this ⊢
        simpa [parseLoop] using this
      | closeBracket =>
        exact .inr (.inl ⟨p, r, he, hb, h0, by rw [hst]; rfl⟩)
    · have hst : stateOf p = .expression := by simp [stateOf, h1]
      cases t with
      | text s =>
        have hd' : depth (p ++ [.text s]) = 1 := by rw [depth_append, h1]; rfl
        have := ih _ he' (balanced_snoc hb (by omega))
        rw [nodesOf_snoc] at this
        simp only [stateOf, h1, hd', if_true] at this ⊢
        exact this
      | openBracket =>
        exact .inr (.inr ⟨p, r, he, hb, h1, by rw [hst]; rfl⟩)
      | closeBracket =>
        have hd' : depth (p ++ [.closeBracket]) = 0 := by rw [depth_append, h1]; rfl
        have := ih _ he' (balanced_snoc hb (by omega))
        rw [nodesOf_snoc] at this
        simp only [stateOf, h1, hd', Int.zero_ne_one, if_false, if_true, List.append_nil] at this ⊢
        simpa [parseLoop] using this

theorem balanced_nil : Balanced [] := by
  intro p hp
  rw [List.prefix_nil.1 hp]
  decide

theorem parse_spec (ts : List Token) :
    (Balanced ts ∧ parse ts = .ok (nodesOf ts)) ∨
    (∃ q r, ts = q ++ .closeBracket :: r ∧ Balanced q ∧ depth q = 0 ∧ parse ts = .error .closeBracket) ∨
    (∃ q r, ts = q ++ .openBracket :: r ∧ Balanced q ∧ depth q = 1 ∧ parse ts = .error .openBracket) :=
  parseLoop_spec ts ts [] rfl balanced_nil

theorem not_balanced_close {q r : List Token} (h0 : depth q = 0) :
    ¬ Balanced (q ++ .closeBracket :: r) := by
  intro h
  have h1 := h (q ++ [.closeBracket]) ⟨r, by simp⟩
  rw [depth_append, h0] at h1
  have : depth [.closeBracket] = -1 := rfl
  omega

theorem not_balanced_open {q r : List Token} (h0 : depth q = 1) :
    ¬ Balanced (q ++ .openBracket :: r) := by
  intro h
  have h1 := h (q ++ [.openBracket]) ⟨r, by simp⟩
  rw [depth_append, h0] at h1
  have : depth [.openBracket] = 1 := rfl
  omega

/-- a template is accepted exactly when its brackets are balanced and not nested; an open bracket
at the end is allowed -/
theorem C38_accepts_iff (ts : List Token) : (∃ ns, parse ts = .ok ns) ↔ Balanced ts := by
  constructor
  · rintro ⟨ns, h⟩
    rcases parse_spec ts with ⟨hb, _⟩ | ⟨q, r, _, _, _, he⟩ | ⟨q, r, _, _, _, he⟩
    · exact hb
    · rw [he] at h; cases h
    · rw [he] at h; cases h
  · intro hb
    rcases parse_spec ts with ⟨_, h⟩ | ⟨q, r, rfl, _, h0, _⟩ | ⟨q, r, rfl, _, h1, _⟩
    · exact ⟨_, h⟩
    · exact (not_balanced_close h0 hb).elim
    · exact (not_balanced_open h1 hb).elim

/-- the segments are the texts in order, and those between `{{` and `}}` are the expressions -/
theorem C38_nodes (ts : List Token) (ns : List Node) (h : parse ts = .ok ns) : ns = nodesOf ts := by
  rcases parse_spec ts with ⟨_, h'⟩ | ⟨q, r, _, _, _, he⟩ | ⟨q, r, _, _, _, he⟩
  · rw [h'] at h; cases h; rfl
  · rw [he] at h; cases h
  · rw [he] at h; cases h

theorem prefix_split {α : Type} {a b : List α} {x y : α} {r s : List α}
    (h : a ++ x :: r = b ++ y :: s) : (a = b ∧ x = y) ∨ a ++ [x] <+: b ∨ b ++ [y] <+: a := by
  rcases List.append_eq_append_iff.1 h with ⟨c, hb, hx⟩ | ⟨c, ha, hy⟩
  · cases c with
    | nil => simp at hb hx; exact .inl ⟨hb.symm, hx.1⟩
    | cons z c =>
      simp at hx
      refine .inr (.inl ⟨c, ?_⟩)
      rw [hb, hx.1]; simp
  · cases c with
    | nil => simp at ha hy; exact .inl ⟨ha, hy.1.symm⟩
    | cons z c =>
      simp at hy
      refine .inr (.inr ⟨c, ?_⟩)
      rw [ha, hy.1]; simp

/-- `}}` without an opening is what the error `closeBracket` means -/
theorem C38_close_iff (ts : List Token) :
    parse ts = .error .closeBracket ↔
      ∃ q r, ts = q ++ .closeBracket :: r ∧ Balanced q ∧ depth q = 0 := by
  constructor
  · intro h
    rcases parse_spec ts with ⟨_, h'⟩ | ⟨q, r, h1, h2, h3, he⟩ | ⟨q, r, _, _, _, he⟩
    · rw [h'] at h; cases h
    · exact ⟨q, r, h1, h2, h3⟩
    · rw [he] at h; cases h
  · rintro ⟨q, r, rfl, hb, h0⟩
    rcases parse_spec (q ++ .closeBracket :: r) with ⟨hb', _⟩ | ⟨_, _, _, _, _, he⟩ | ⟨q', r', h1, h2, h3, he⟩
    · exact (not_balanced_close h0 hb').elim
    · exact he
    · rcases prefix_split h1 with ⟨_, hx⟩ | hp | hp
      · cases hx
      · exact (not_balanced_close h0 (balanced_of_prefix h2 hp)).elim
      · exact (not_balanced_open h3 (balanced_of_prefix hb hp)).elim

/-- `{{` inside an expression is what the error `openBracket` means -/
theorem C38_open_iff (ts : List Token) :
    parse ts = .error .openBracket ↔
      ∃ q r, ts = q ++ .openBracket :: r ∧ Balanced q ∧ depth q = 1 := by
  constructor
  · intro h
    rcases parse_spec ts with ⟨_, h'⟩ | ⟨q, r, _, _, _, he⟩ | ⟨q, r, h1, h2, h3, he⟩
    · rw [h'] at h; cases h
    · rw [he] at h; cases h
    · exact ⟨q, r, h1, h2, h3⟩
  · rintro ⟨q, r, rfl, hb, h0⟩
    rcases parse_spec (q ++ .openBracket :: r) with ⟨hb', _⟩ | ⟨q', r', h1, h2, h3, he⟩ | ⟨_, _, _, _, _, he⟩
    · exact (not_balanced_open h0 hb').elim
    · rcases prefix_split h1 with ⟨_, hx⟩ | hp | hp
      · cases hx
      · exact (not_balanced_open h0 (balanced_of_prefix h2 hp)).elim
      · exact (not_balanced_close h3 (balanced_of_prefix hb hp)).elim
    · exact he

example : parse [.text ['a'], .closeBracket] = .error .closeBracket := rfl
example : parse [.openBracket, .text ['a'], .openBracket] = .error .openBracket := rfl
example : parse [.text ['a'], .openBracket, .text ['b'], .closeBracket, .text ['c']]
    = .ok [.text ['a'], .expression ['b'], .text ['c']] := rfl

/-! ### trimming -/

theorem dropWhile_all (p : Char → Bool) (a b : List Char) (ha : ∀ c ∈ a, p c = true) :
    (a ++ b).dropWhile p = b.dropWhile p := by
  induction a with
  | nil => rfl
  | cons c r ih =>
    rw [List.cons_append, List.dropWhile_cons_of_pos (ha c (List.mem_cons_self ..))]
    exact ih fun d hd => ha d (List.mem_cons_of_mem _ hd)

theorem dropWhile_id (p : Char → Bool) (b : List Char) (hb : ∀ c ∈ b.head?, p c = false) :
    b.dropWhile p = b := by
  cases b with
  | nil => rfl
  | cons c r => rw [List.dropWhile_cons_of_neg]; simp [hb c rfl]

/-- white space on both sides is removed, nothing else -/
theorem C38_trim (a t b : List Char) (ha : ∀ c ∈ a, isWs c = true) (hb : ∀ c ∈ b, isWs c = true)
    (h1 : ∀ c ∈ t.head?, isWs c = false) (h2 : ∀ c ∈ t.getLast?, isWs c = false) :
    trim (a ++ t ++ b) = t := by
  unfold trim
  rw [List.append_assoc, dropWhile_all _ _ _ ha]
  cases t with
  | nil =>
    have : b.dropWhile isWs = [] := by
      have := dropWhile_all isWs b [] hb
      simpa using this
    simp [this]
  | cons c r =>
    rw [List.cons_append, List.dropWhile_cons_of_neg (by simp [h1 c rfl])]
    rw [← List.cons_append, List.reverse_append, dropWhile_all _ _ _ (fun d hd => hb d (by simpa using hd))]
    rw [dropWhile_id, List.reverse_reverse]
    intro d hd
    rw [List.head?_reverse] at hd
    exact h2 d hd

/-- a text that does not begin or end with white space is not changed -/
theorem trim_id (t : List Char) (h1 : ∀ c ∈ t.head?, isWs c = false)
    (h2 : ∀ c ∈ t.getLast?, isWs c = false) : trim t = t := by
  simpa using C38_trim [] t [] (fun _ h => nomatch h) (fun _ h => nomatch h) h1 h2

theorem dropWhile_split (p : Char → Bool) (s : List Char) : ∃ a, s = a ++ s.dropWhile p ∧
    (∀ c ∈ a, p c = true) ∧ ∀ c ∈ (s.dropWhile p).head?, p c = false := by
  induction s with
  | nil => exact ⟨[], rfl, (fun _ h => nomatch h), (fun _ h => nomatch h)⟩
  | cons c r ih =>
    by_cases hc : p c = true
    · obtain ⟨a, h1, h2, h3⟩ := ih
      rw [List.dropWhile_cons_of_pos hc]
      refine ⟨c :: a, by rw [List.cons_append, ← h1], ?_, h3⟩
      intro d hd
      rcases List.mem_cons.1 hd with rfl | hd
      · exact hc
      · exact h2 d hd
    · rw [List.dropWhile_cons_of_neg hc]
      refine ⟨[], rfl, (fun _ h => nomatch h), fun d hd => ?_⟩
      simp only [List.head?_cons, Option.mem_def, Option.some.injEq] at hd
      subst hd; simpa using hc

/-- every template is white space, the trimmed template and white space -/
theorem C38_trim_split (s : List Char) : ∃ a b, s = a ++ trim s ++ b ∧
    (∀ c ∈ a, isWs c = true) ∧ (∀ c ∈ b, isWs c = true) ∧
    (∀ c ∈ (trim s).head?, isWs c = false) ∧ (∀ c ∈ (trim s).getLast?, isWs c = false) := by
  obtain ⟨a, ha, ha1, ha2⟩ := dropWhile_split isWs s
  obtain ⟨b, hb, hb1, hb2⟩ := dropWhile_split isWs (s.dropWhile isWs).reverse
  have hs : s.dropWhile isWs = trim s ++ b.reverse := by
    have := congrArg List.reverse hb
    rw [List.reverse_reverse, List.reverse_append] at this
    exact this
  refine ⟨a, b.reverse, ?_, ha1, fun c hc => hb1 c (by simpa using hc), ?_, ?_⟩
  · rw [List.append_assoc, ← hs]; exact ha
  · intro c hc
    refine ha2 c ?_
    rw [hs]
    cases h : trim s with
    | nil => rw [h] at hc; cases hc
    | cons d r => rw [h] at hc; exact hc
  · intro c hc
    unfold trim at hc
    rw [List.getLast?_reverse] at hc
    exact hb2 c hc

/-- outer white space does not matter -/
theorem C38_outer_space {σ ε : Type} (S : Show) (run : Evaluator σ ε) (st : σ) (a t b : List Char)
    (ha : ∀ c ∈ a, isWs c = true) (hb : ∀ c ∈ b, isWs c = true) :
    render S run st (a ++ t ++ b) = render S run st t := by
  obtain ⟨x, y, ht, hx, hy, h1, h2⟩ := C38_trim_split t
  have : trim (a ++ t ++ b) = trim t := by
    have h := C38_trim (a ++ x) (trim t) (y ++ b) ?_ ?_ h1 h2
    · rw [← h]
      congr 1
      conv_lhs => rw [ht]
      simp
    · intro c hc
      rcases List.mem_append.1 hc with hc | hc
      · exact ha c hc
      · exact hx c hc
    · intro c hc
      rcases List.mem_append.1 hc with hc | hc
      · exact hy c hc
      · exact hb c hc
  simp only [render, this]

/-! ### rendering -/

theorem render_of {σ ε : Type} (S : Show) (run : Evaluator σ ε) (st : σ) (t : List Char)
    (ts : List Token) (h : lex (trim t) = some ts) :
    render S run st t = some (match parse ts with
      | .error e => .error (.parser e)
      | .ok nodes => match interpLoop run [] st nodes with
        | .error e => .error e
        | .ok results => .ok (finish S results)) := by
  rw [render, h]; rfl

theorem plain_infix {s t : List Char} (h : Plain s) (ht : t <:+: s) : Plain t :=
  ⟨fun h' => h.1 (h'.trans ht), fun h' => h.2 (h'.trans ht)⟩

theorem trim_infix (s : List Char) : trim s <:+: s := by
  obtain ⟨a, b, h, _⟩ := C38_trim_split s
  exact ⟨a, b, h.symm⟩

theorem lex_plain (t : List Char) (h : Plain t) : lex t = some (flushT t) := by
  have hc := (plain_iff t).1 h
  rw [C38_lex_iff]
  exact ⟨flat_flushT t, canonical_flushT t hc⟩

/-- text without brackets comes back as a string, without its outer white space; nothing is
evaluated -/
theorem C38_text {σ ε : Type} (S : Show) (run : Evaluator σ ε) (st : σ) (t : List Char)
    (h : Plain t) (hne : trim t ≠ []) :
    render S run st t = some (.ok (.str (String.ofList (trim t)))) := by
  rw [render_of S run st t _ (lex_plain _ (plain_infix h (trim_infix t))), flushT_ne hne]
  rfl

/-- the claim as stated, for text that has no outer white space -/
theorem C38_text_exact {σ ε : Type} (S : Show) (run : Evaluator σ ε) (st : σ) (t : List Char)
    (h : Plain t) (hne : t ≠ []) (h1 : ∀ c ∈ t.head?, isWs c = false)
    (h2 : ∀ c ∈ t.getLast?, isWs c = false) :
    render S run st t = some (.ok (.str (String.ofList t))) := by
  have := C38_text S run st t h (by rw [trim_id t h1 h2]; exact hne)
  rwa [trim_id t h1 h2] at this

/-- finding: blank text renders as null, not as the empty string -/
theorem C38_blank {σ ε : Type} (S : Show) (run : Evaluator σ ε) (st : σ) (t : List Char)
    (h : ∀ c ∈ t, isWs c = true) : render S run st t = some (.ok .null) := by
  have h0 : trim t = [] := by
    have := C38_trim t [] [] h (fun _ h => nomatch h) (fun _ h => nomatch h) (fun _ h => nomatch h)
    simpa using this
  rw [render_of S run st t [] (by rw [h0]; rfl)]
  rfl

def demoS : Show := ⟨fun _ => "?", fun _ => "?"⟩
/-- an evaluator that returns true on `1`, fails on `!` and returns the source elsewhere -/
def demoRun : Evaluator Unit String := fun s _ =>
  if s = ['!'] then .error "bad" else if s = ['1'] then .ok (.bool true, ()) else .ok (.str (String.ofList s), ())

instance (a b : Char) : Decidable (Apart a b) := inferInstanceAs (Decidable (_ ∧ _))
example : Plain "a { b }".toList := by
  rw [plain_iff]
  decide
example : render demoS demoRun () " a { b } c ".toList = some (.ok (.str "a { b } c")) := rfl
example : render demoS demoRun () "  ".toList = some (.ok .null) := rfl

/-- a first bracket: what precedes it has none -/
theorem first_pair : ∀ (s : List Char), ¬ s.IsChain Apart → ∃ a r k, a.IsChain Apart ∧
    (k = Token.openBracket ∧ s = a ++ '{' :: '{' :: r ∧ a.getLast? ≠ some '{' ∨
     k = Token.closeBracket ∧ s = a ++ '}' :: '}' :: r ∧ a.getLast? ≠ some '}') := by
  intro s hs
  induction s with
  | nil => exact absurd .nil hs
  | cons c t ih =>
    cases t with
    | nil => exact absurd (.singleton _) hs
    | cons d t =>
      by_cases hcd : Apart c d
      · have hs' : ¬ (d :: t).IsChain Apart := fun h => hs (List.isChain_cons_cons.2 ⟨hcd, h⟩)
        obtain ⟨a, r, k, ha, h⟩ := ih hs'
        cases a with
        | nil =>
          refine ⟨[c], r, k, .singleton _, ?_⟩
          rcases h with ⟨rfl, h, _⟩ | ⟨rfl, h, _⟩
          · simp only [List.nil_append, List.cons.injEq] at h
            obtain ⟨rfl, rfl⟩ := h
            refine .inl ⟨rfl, rfl, fun h => hcd.1 ⟨?_, rfl⟩⟩
            simpa using h
          · simp only [List.nil_append, List.cons.injEq] at h
            obtain ⟨rfl, rfl⟩ := h
            refine .inr ⟨rfl, rfl, fun h => hcd.2 ⟨?_, rfl⟩⟩
            simpa using h
        | cons x a =>
          refine ⟨c :: x :: a, r, k, ?_, ?_⟩
          · refine List.isChain_cons_cons.2 ⟨?_, ha⟩
            rcases h with ⟨_, h, _⟩ | ⟨_, h, _⟩ <;>
            · simp only [List.cons_append, List.cons.injEq] at h
              rw [← h.1]; exact hcd
          · rcases h with ⟨hk, h, hl⟩ | ⟨hk, h, hl⟩
            · exact .inl ⟨hk, by rw [h]; rfl, by simpa using hl⟩
            · exact .inr ⟨hk, by rw [h]; rfl, by simpa using hl⟩
      · have : (c = '{' ∧ d = '{') ∨ (c = '}' ∧ d = '}') := by
          by_contra hn
          exact hcd ⟨fun h => hn (.inl h), fun h => hn (.inr h)⟩
        rcases this with ⟨rfl, rfl⟩ | ⟨rfl, rfl⟩
        · exact ⟨[], t, _, .nil, .inl ⟨rfl, rfl, by simp⟩⟩
        · exact ⟨[], t, _, .nil, .inr ⟨rfl, rfl, by simp⟩⟩

theorem lx_first (a r : List Char) (ha : a.IsChain Apart) :
    (a.getLast? ≠ some '{' → lx [] (a ++ '{' :: '{' :: r) = flushT a ++ .openBracket :: lx [] r) ∧
    (a.getLast? ≠ some '}' → lx [] (a ++ '}' :: '}' :: r) = flushT a ++ .closeBracket :: lx [] r) := by
  constructor
  · intro hl
    rw [lx_text a [] _ ha, lx, if_pos ⟨rfl, rfl⟩]
    · rfl
    · intro x hx y hy
      simp only [List.head?_cons, Option.mem_def, Option.some.injEq] at hy
      subst hy
      refine ⟨?_, fun h => by simp at h⟩
      rintro ⟨rfl, _⟩; exact hl hx
  · intro hl
    rw [lx_text a [] _ ha, lx, if_neg (by simp), if_pos ⟨rfl, rfl⟩]
    · rfl
    · intro x hx y hy
      simp only [List.head?_cons, Option.mem_def, Option.some.injEq] at hy
      subst hy
      refine ⟨fun h => by simp at h, ?_⟩
      rintro ⟨rfl, _⟩; exact hl hx

theorem balanced_flushT (a : List Char) : Balanced (flushT a) ∧ depth (flushT a) = 0 := by
  cases a with
  | nil => exact ⟨balanced_nil, rfl⟩
  | cons c r =>
    refine ⟨balanced_snoc (p := []) balanced_nil ⟨Int.le_refl 0, Int.zero_le_ofNat 1⟩, rfl⟩

/-- if `{{` occurs and no `}}` before it, the first bracket is `{{` -/
theorem first_open (s a b : List Char) (hs : s = a ++ '{' :: '{' :: b) (ha : ¬ ['}', '}'] <:+: a) :
    ∃ x r, s = x ++ '{' :: '{' :: r ∧ x.IsChain Apart ∧ x.getLast? ≠ some '{' := by
  have hp : ¬ s.IsChain Apart := by
    rw [← plain_iff]
    intro h
    exact h.1 ⟨a, b, by rw [hs]; simp⟩
  obtain ⟨x, r, k, hx, h⟩ := first_pair _ hp
  rcases h with ⟨rfl, he, hl⟩ | ⟨rfl, he, hl⟩
  · exact ⟨x, r, he, hx, hl⟩
  · exfalso
    rw [hs] at he
    rcases List.append_eq_append_iff.1 he with ⟨c, h1, h2⟩ | ⟨c, h1, h2⟩
    · match c, h1, h2 with
      | [], _, h2 => simp at h2
      | [_], _, h2 => simp at h2
      | y :: z :: c, h1, h2 =>
        simp only [List.cons_append, List.cons.injEq] at h2
        have : Plain x := (plain_iff x).2 hx
        refine this.1 ⟨a, c, ?_⟩
        rw [h1, ← h2.1, ← h2.2.1]; simp
    · match c, h1, h2 with
      | [], _, h2 => simp at h2
      | [_], _, h2 => simp at h2
      | y :: z :: c, h1, h2 =>
        simp only [List.cons_append, List.cons.injEq] at h2
        refine ha ⟨x, c, ?_⟩
        rw [h1, ← h2.1, ← h2.2.1]; simp

/-- if `}}` occurs and no `{{` before it, the first bracket is `}}` -/
theorem first_close (s a b : List Char) (hs : s = a ++ '}' :: '}' :: b) (ha : ¬ ['{', '{'] <:+: a) :
    ∃ x r, s = x ++ '}' :: '}' :: r ∧ x.IsChain Apart ∧ x.getLast? ≠ some '}' := by
  have hp : ¬ s.IsChain Apart := by
    rw [← plain_iff]
    intro h
    exact h.2 ⟨a, b, by rw [hs]; simp⟩
  obtain ⟨x, r, k, hx, h⟩ := first_pair _ hp
  rcases h with ⟨rfl, he, hl⟩ | ⟨rfl, he, hl⟩
  · exfalso
    rw [hs] at he
    rcases List.append_eq_append_iff.1 he with ⟨c, h1, h2⟩ | ⟨c, h1, h2⟩
    · match c, h1, h2 with
      | [], _, h2 => simp at h2
      | [_], _, h2 => simp at h2
      | y :: z :: c, h1, h2 =>
        simp only [List.cons_append, List.cons.injEq] at h2
        have : Plain x := (plain_iff x).2 hx
        refine this.2 ⟨a, c, ?_⟩
        rw [h1, ← h2.1, ← h2.2.1]; simp
    · match c, h1, h2 with
      | [], _, h2 => simp at h2
      | [_], _, h2 => simp at h2
      | y :: z :: c, h1, h2 =>
        simp only [List.cons_append, List.cons.injEq] at h2
        refine ha ⟨x, c, ?_⟩
        rw [h1, ← h2.1, ← h2.2.1]; simp
  · exact ⟨x, r, he, hx, hl⟩

/-- `}}` before any `{{` is rejected -/
theorem C38_reject_close {σ ε : Type} (S : Show) (run : Evaluator σ ε) (st : σ)
    (t a b : List Char) (ht : trim t = a ++ '}' :: '}' :: b) (ha : ¬ ['{', '{'] <:+: a) :
    render S run st t = some (.error (.parser .closeBracket)) := by
  obtain ⟨x, r, he, hx, hl⟩ := first_close _ a b ht ha
  rw [render_of S run st t _ (lex_eq _), he, (lx_first x r hx).2 hl]
  have := (C38_close_iff (flushT x ++ .closeBracket :: lx [] r)).2
    ⟨_, _, rfl, (balanced_flushT x).1, (balanced_flushT x).2⟩
  rw [this]

theorem open_flushT (x y : List Char) :
    Balanced (flushT x ++ .openBracket :: flushT y) ∧ depth (flushT x ++ .openBracket :: flushT y) = 1 := by
  have h1 : depth (flushT x ++ [.openBracket]) = 1 := by
    rw [depth_append, (balanced_flushT x).2]; rfl
  have hb : Balanced (flushT x ++ [.openBracket]) := balanced_snoc (balanced_flushT x).1 (by omega)
  cases y with
  | nil => exact ⟨hb, h1⟩
  | cons c r =>
    have h2 : depth (flushT x ++ [.openBracket] ++ [.text (c :: r)]) = 1 := by
      rw [depth_append, h1]; rfl
    have := balanced_snoc hb (t := .text (c :: r)) (by omega)
    simp only [List.append_assoc, List.cons_append, List.nil_append] at this h2
    exact ⟨this, h2⟩

/-- the first expression: a `{{` with no bracket before it is where the expression begins, except
that with three or more braces in a row the first two count -/
theorem first_expr (a b : List Char) (ha : Plain a) :
    ∃ x r, a ++ '{' :: '{' :: b = x ++ '{' :: '{' :: r ∧ x.IsChain Apart ∧ x.getLast? ≠ some '{' ∧
      (r = b ∨ r = '{' :: b) := by
  obtain ⟨x, r, he, hx, hl⟩ := first_open _ a b rfl ha.2
  refine ⟨x, r, he, hx, hl, ?_⟩
  rcases List.append_eq_append_iff.1 he with ⟨c, h1, h2⟩ | ⟨c, h1, h2⟩
  · match c, h1, h2 with
    | [], _, h2 => left; simpa using h2.symm
    | y :: c, h1, h2 =>
      exfalso
      simp only [List.cons_append, List.cons.injEq] at h2
      obtain ⟨rfl, h2⟩ := h2
      cases c with
      | nil => exact hl (by rw [h1]; simp)
      | cons z c =>
        simp only [List.cons_append, List.cons.injEq] at h2
        refine ((plain_iff x).2 hx).1 ⟨a, c, ?_⟩
        rw [h1, ← h2.1]; simp
  · match c, h1, h2 with
    | [], _, h2 => left; simpa using h2
    | [y], h1, h2 =>
      right
      simp only [List.cons_append, List.nil_append, List.cons.injEq] at h2
      exact h2.2.2
    | y :: z :: c, h1, h2 =>
      exfalso
      simp only [List.cons_append, List.cons.injEq] at h2
      refine ha.1 ⟨x, c, ?_⟩
      rw [h1, ← h2.1, ← h2.2.1]; simp

/-- `{{` inside an expression is rejected -/
theorem C38_reject_open {σ ε : Type} (S : Show) (run : Evaluator σ ε) (st : σ)
    (t a e b : List Char) (ht : trim t = a ++ '{' :: '{' :: (e ++ '{' :: '{' :: b)) (ha : Plain a)
    (he : ¬ ['}', '}'] <:+: e) :
    render S run st t = some (.error (.parser .openBracket)) := by
  obtain ⟨x, r, h1, hx, hl, hr⟩ := first_expr a (e ++ '{' :: '{' :: b) ha
  have : ∃ e', r = e' ++ '{' :: '{' :: b ∧ ¬ ['}', '}'] <:+: e' := by
    rcases hr with rfl | rfl
    · exact ⟨e, rfl, he⟩
    · refine ⟨'{' :: e, rfl, ?_⟩
      intro h
      rcases List.infix_cons_iff.1 h with h | h
      · rcases h with ⟨u, h⟩; simp at h
      · exact he h
  obtain ⟨e', hr', he'⟩ := this
  obtain ⟨y, r', h2, hy, hl2⟩ := first_open r e' b hr' he'
  rw [render_of S run st t _ (lex_eq _), ht, h1, (lx_first x r hx).1 hl, h2, (lx_first y r' hy).1 hl2]
  have := (C38_open_iff (flushT x ++ .openBracket :: (flushT y ++ .openBracket :: lx [] r'))).2
    ⟨flushT x ++ .openBracket :: flushT y, lx [] r', by simp, (open_flushT x y).1, (open_flushT x y).2⟩
  rw [this]

/-- text without `{{` is returned or, if it contains `}}`, rejected: nothing is evaluated -/
theorem C38_no_open {σ ε : Type} (S : Show) (run : Evaluator σ ε) (st : σ) (t : List Char)
    (h : ¬ ['{', '{'] <:+: trim t) :
    (['}', '}'] <:+: trim t → render S run st t = some (.error (.parser .closeBracket))) ∧
    (¬ ['}', '}'] <:+: trim t → trim t ≠ [] →
      render S run st t = some (.ok (.str (String.ofList (trim t))))) := by
  constructor
  · rintro ⟨a, b, hab⟩
    refine C38_reject_close S run st t a b (by rw [← hab]; simp) fun ha => h ?_
    rw [← hab]
    exact ha.trans ⟨[], ['}', '}'] ++ b, by simp⟩
  · intro h2 hne
    rw [render_of S run st t _ (lex_plain _ ⟨h, h2⟩), flushT_ne hne]
    rfl

example : render demoS demoRun () "a }} b {{c}}".toList = some (.error (.parser .closeBracket)) := rfl
example : render demoS demoRun () "a {{ b {{ c }} }}".toList = some (.error (.parser .openBracket)) := rfl

/-! ### segments -/

/-- the text of a segment -/
def Node.source : Node → List Char
  | .text t => t
  | .expression e => '{' :: '{' :: (e ++ ['}', '}'])

/-- segments that may follow each other -/
def SegFollows : Node → Node → Prop
  | .text _, .text _ => False
  | .text t, .expression _ => t.getLast? ≠ some '{'
  | _, _ => True

/-- segments that a template can spell: texts are joined, and no brackets arise from their
characters -/
structure Segments (ns : List Node) : Prop where
  chain : ns.IsChain SegFollows
  texts : ∀ t, Node.text t ∈ ns → t ≠ [] ∧ Plain t
  exprs : ∀ e, Node.expression e ∈ ns → e ≠ [] ∧ Plain e ∧ e.getLast? ≠ some '}'

def Node.tokens : Node → List Token
  | .text t => [.text t]
  | .expression e => [.openBracket, .text e, .closeBracket]

theorem Segments.tail {n : Node} {ns : List Node} (h : Segments (n :: ns)) : Segments ns :=
  ⟨h.chain.tail, fun t ht => h.texts t (List.mem_cons_of_mem _ ht),
    fun t ht => h.exprs t (List.mem_cons_of_mem _ ht)⟩

theorem canonical_cons {k : Token} {ts : List Token} (hk : ∀ t, k = .text t → t ≠ [] ∧ Plain t)
    (hf : ∀ x ∈ ts.head?, Follows k x) (h : Canonical ts) : Canonical (k :: ts) := by
  constructor
  · cases ts with
    | nil => exact .singleton _
    | cons a r => exact List.isChain_cons_cons.2 ⟨hf a rfl, h.chain⟩
  · intro t ht
    rcases List.mem_cons.1 ht with ht | ht
    · exact hk t ht.symm
    · exact h.texts t ht

theorem segments_canonical (ns : List Node) (h : Segments ns) : Canonical (ns.flatMap Node.tokens) := by
  induction ns with
  | nil => exact canonical_nil
  | cons n r ih =>
    have hr := ih h.tail
    cases n with
    | text t =>
      refine canonical_cons (fun t' ht => ?_) ?_ hr
      · cases ht; exact h.texts t (List.mem_cons_self ..)
      · intro x hx
        cases r with
        | nil => simp at hx
        | cons m r =>
          have := (List.isChain_cons_cons.1 h.chain).1
          cases m with
          | text _ => exact this.elim
          | expression e =>
            have hx' : some Token.openBracket = some x := hx
            rw [← Option.some.inj hx']; exact this
    | expression e =>
      obtain ⟨h1, h2, h3⟩ := h.exprs e (List.mem_cons_self ..)
      refine canonical_cons (fun t' ht => nomatch ht) (fun x _ => by cases x <;> trivial) ?_
      refine canonical_cons (fun t' ht => ?_) (fun x hx => ?_) ?_
      · cases ht; exact ⟨h1, h2⟩
      · have hx' : some Token.closeBracket = some x := hx
        rw [← Option.some.inj hx']; exact h3
      · exact canonical_cons (fun t' ht => nomatch ht) (fun x _ => by cases x <;> trivial) hr

theorem tokens_source (n : Node) : n.tokens.flatMap Token.source = n.source := by
  cases n <;> simp [Node.tokens, Token.source, Node.source]

theorem segments_flat (ns : List Node) :
    (ns.flatMap Node.tokens).flatMap Token.source = ns.flatMap Node.source := by
  induction ns with
  | nil => rfl
  | cons n r ih => rw [List.flatMap_cons, List.flatMap_append, ih, tokens_source]; rfl

theorem parse_segments (ns : List Node) : ∀ acc, parseLoop .text acc (ns.flatMap Node.tokens) = .ok (acc ++ ns) := by
  induction ns with
  | nil => intro acc; simp [parseLoop]
  | cons n r ih =>
    intro acc
    cases n with
    | text t => simp [Node.tokens, parseLoop, ih]
    | expression e => simp [Node.tokens, parseLoop, ih]

/-- every sequence of segments is read back from the template that spells it -/
theorem C38_segments (ns : List Node) (h : Segments ns) :
    ∃ ts, lex (ns.flatMap Node.source) = some ts ∧ parse ts = .ok ns :=
  ⟨_, (C38_lex_iff _ _).2 ⟨segments_flat ns, segments_canonical ns h⟩, parse_segments ns []⟩

theorem lossless_aux : ∀ (n : Nat) (ts : List Token) (acc ns : List Node), ts.length = n →
    Canonical ts → depth ts = 0 → ¬ [Token.openBracket, Token.closeBracket] <:+: ts →
    parseLoop .text acc ts = .ok ns → ∃ ms, ns = acc ++ ms ∧ ms.flatMap Node.source = ts.flatMap Token.source := by
  intro n
  induction n using Nat.strong_induction_on with
  | _ n ih =>
    intro ts acc ns hn hc hd he hp
    match ts, hn, hc, hd, he, hp with
    | [], _, _, _, _, hp =>
      simp only [parseLoop, Except.ok.injEq] at hp
      exact ⟨[], by simp [hp], rfl⟩
    | .text t :: r, hn, hc, hd, he, hp =>
      rw [parseLoop] at hp
      have hd' : depth r = 0 := by
        have := depth_append [.text t] r
        rw [show depth [.text t] = 0 from rfl, List.singleton_append, hd] at this
        omega
      obtain ⟨ms, h1, h2⟩ := ih r.length (by rw [← hn]; simp) r _ ns rfl (canonical_tail hc) hd'
        (fun h => he (h.trans ⟨[.text t], [], by simp⟩)) hp
      exact ⟨.text t :: ms, by rw [h1]; simp, by simp [h2, Node.source, Token.source]⟩
    | .closeBracket :: r, _, _, _, _, hp => simp [parseLoop] at hp
    | [.openBracket], _, _, hd, _, _ => exact absurd hd (by decide)
    | .openBracket :: .openBracket :: r, _, _, _, _, hp => simp [parseLoop] at hp
    | .openBracket :: .closeBracket :: r, _, _, _, he, _ => exact (he ⟨[], r, by simp⟩).elim
    | [.openBracket, .text t], _, _, hd, _, _ =>
      exact absurd hd (by show ¬ ((1 : Int) = 0); decide)
    | .openBracket :: .text t :: .text t' :: r, _, hc, _, _, _ =>
      exact ((List.isChain_cons_cons.1 (List.isChain_cons_cons.1 hc.chain).2).1).elim
    | .openBracket :: .text t :: .openBracket :: r, _, _, _, _, hp => simp [parseLoop] at hp
    | .openBracket :: .text t :: .closeBracket :: r, hn, hc, hd, he, hp =>
      simp only [parseLoop, reduceCtorEq, if_false, ne_eq, not_true_eq_false] at hp
      have hd' : depth r = 0 := by
        have := depth_append [.openBracket, .text t, .closeBracket] r
        rw [show depth [.openBracket, .text t, .closeBracket] = 0 from rfl] at this
        simp only [List.cons_append, List.nil_append] at this
        omega
      obtain ⟨ms, h1, h2⟩ := ih r.length (by rw [← hn]; simp; omega) r _ ns rfl
        (canonical_tail (canonical_tail (canonical_tail hc))) hd'
        (fun h => he (h.trans ⟨[.openBracket, .text t, .closeBracket], [], by simp⟩)) hp
      exact ⟨.expression t :: ms, by rw [h1]; simp, by simp [h2, Node.source, Token.source]⟩

/-- the segments put side by side are the source, if every bracket is closed and none is empty -/
theorem C38_segments_lossless (s : List Char) (ts : List Token) (ns : List Node)
    (hl : lex s = some ts) (hp : parse ts = .ok ns) (hd : depth ts = 0)
    (he : ¬ [Token.openBracket, Token.closeBracket] <:+: ts) : ns.flatMap Node.source = s := by
  obtain ⟨h1, h2⟩ := (C38_lex_iff s ts).1 hl
  obtain ⟨ms, h3, h4⟩ := lossless_aux _ ts [] ns rfl h2 hd he hp
  rw [h3, List.nil_append, h4, h1]

/-! ### evaluation -/

/-- the segments are evaluated from left to right, each in the state its predecessors left -/
inductive Steps {σ ε : Type} (run : Evaluator σ ε) : σ → List Node → List IResult → σ → Prop
  | nil st : Steps run st [] [] st
  | text st st' t ns ps : Steps run st ns ps st' → Steps run st (.text t :: ns) (.string t :: ps) st'
  | expr st st' st'' e v ns ps : run e st = .ok (v, st') → Steps run st' ns ps st'' →
      Steps run st (.expression e :: ns) (.value v :: ps) st''

theorem interp_spec {σ ε : Type} (run : Evaluator σ ε) : ∀ (ns : List Node) (acc : List IResult) (st : σ),
    (∃ ps st', Steps run st ns ps st' ∧ interpLoop run acc st ns = .ok (acc ++ ps)) ∨
    (∃ pre e post ps st' err, ns = pre ++ .expression e :: post ∧ Steps run st pre ps st' ∧
      run e st' = .error err ∧ interpLoop run acc st ns = .error (.isolate err)) := by
  intro ns
  induction ns with
  | nil => intro acc st; exact .inl ⟨[], st, .nil st, by simp [interpLoop]⟩
  | cons n r ih =>
    intro acc st
    cases n with
    | text t =>
      rcases ih (acc ++ [.string t]) st with ⟨ps, st', h1, h2⟩ | ⟨pre, e, post, ps, st', err, h1, h2, h3, h4⟩
      · exact .inl ⟨.string t :: ps, st', .text _ _ _ _ _ h1, by simp [interpLoop, h2]⟩
      · exact .inr ⟨.text t :: pre, e, post, .string t :: ps, st', err, by simp [h1], .text _ _ _ _ _ h2, h3,
          by simp [interpLoop, h4]⟩
    | expression d =>
      cases hr : run d st with
      | error err => exact .inr ⟨[], d, r, [], st, err, rfl, .nil st, hr, by simp [interpLoop, hr]⟩
      | ok x =>
        obtain ⟨v, st1⟩ := x
        rcases ih (acc ++ [.value v]) st1 with ⟨ps, st', h1, h2⟩ | ⟨pre, e, post, ps, st', err, h1, h2, h3, h4⟩
        · exact .inl ⟨.value v :: ps, st', .expr _ _ _ _ _ _ _ hr h1, by simp [interpLoop, hr, h2]⟩
        · exact .inr ⟨.expression d :: pre, e, post, .value v :: ps, st', err, by simp [h1],
            .expr _ _ _ _ _ _ _ hr h2, h3, by simp [interpLoop, hr, h4]⟩

theorem steps_fun {σ ε : Type} {run : Evaluator σ ε} {st : σ} {ns : List Node} {ps : List IResult} {s1 : σ}
    (h : Steps run st ns ps s1) : ∀ {qs s2}, Steps run st ns qs s2 → ps = qs ∧ s1 = s2 := by
  induction h with
  | nil st => intro qs s2 h; cases h; exact ⟨rfl, rfl⟩
  | text st st' t ns ps _ ih =>
    intro qs s2 h
    cases h with
    | text _ _ _ _ ps' h => obtain ⟨rfl, rfl⟩ := ih h; exact ⟨rfl, rfl⟩
  | expr st st' st'' e v ns ps hr _ ih =>
    intro qs s2 h
    cases h with
    | expr _ st1 _ _ v1 _ ps' hr' h =>
      rw [hr] at hr'
      cases hr'
      obtain ⟨rfl, rfl⟩ := ih h; exact ⟨rfl, rfl⟩

/-- evaluation cannot pass an expression that fails -/
theorem steps_stuck {σ ε : Type} {run : Evaluator σ ε} {st s1 s2 : σ} {pre post : List Node}
    {ps qs : List IResult} {e : List Char} {err : ε} (h : Steps run st pre ps s1)
    (he : run e s1 = .error err) (h2 : Steps run st (pre ++ .expression e :: post) qs s2) : False := by
  induction h generalizing qs with
  | nil st => cases h2 with | expr _ _ _ _ _ _ _ hr _ => rw [he] at hr; cases hr
  | text _ _ _ _ _ _ ih => cases h2 with | text _ _ _ _ _ h => exact ih he h
  | expr _ _ _ _ _ _ _ hr0 _ ih =>
    cases h2 with
    | expr _ _ _ _ _ _ _ hr h =>
      rw [hr0] at hr
      cases hr
      exact ih he h

theorem steps_length {σ ε : Type} {run : Evaluator σ ε} {st s1 : σ} {ns : List Node}
    {ps : List IResult} (h : Steps run st ns ps s1) : ns.length = ps.length := by
  induction h with
  | nil => rfl
  | text _ _ _ _ _ _ ih => simp [ih]
  | expr _ _ _ _ _ _ _ _ _ ih => simp [ih]

/-- what a piece contributes to a string: texts and strings as they are, other values printed -/
def piece (S : Show) : IResult → String
  | .string s => String.ofList s
  | .value (.str s) => s
  | .value v => display S v

/-- the value of a template: null without pieces, a single piece itself, otherwise the pieces side
by side -/
def Combined (S : Show) (ps : List IResult) (v : Val) : Prop :=
  (ps = [] ∧ v = .null) ∨ (∃ x, ps = [.value x] ∧ v = x) ∨
  (∃ s, ps = [.string s] ∧ v = .str (String.ofList s)) ∨
  (2 ≤ ps.length ∧ v = .str (String.join (ps.map (piece S))))

theorem combined_iff (S : Show) (ps : List IResult) (v : Val) : Combined S ps v ↔ v = finish S ps := by
  have hp : ∀ p, piece S p = (match p with
      | .string s => String.ofList s
      | .value v => varToString S v) := by
    intro p
    cases p with
    | string s => rfl
    | value v => cases v <;> rfl
  match ps with
  | [] => simp [Combined, finish]
  | [.value x] => simp [Combined, finish, eq_comm]
  | [.string s] => simp [Combined, finish]
  | a :: b :: r =>
    have : finish S (a :: b :: r) = .str (String.join ((a :: b :: r).map (piece S))) := by
      rw [show piece S = _ from funext hp]
      cases a <;> rfl
    rw [this]
    simp [Combined]

/-- rendering, completely: the brackets are balanced, the expressions evaluate from left to right,
and the pieces are combined -/
theorem C38_render_iff {σ ε : Type} (S : Show) (run : Evaluator σ ε) (st : σ) (t : List Char) (v : Val) :
    render S run st t = some (.ok v) ↔ ∃ ts ps st', ts.flatMap Token.source = trim t ∧ Canonical ts ∧
      Balanced ts ∧ Steps run st (nodesOf ts) ps st' ∧ Combined S ps v := by
  constructor
  · intro h
    have hl := lex_eq (trim t)
    rw [render_of S run st t _ hl] at h
    obtain ⟨h1, h2⟩ := (C38_lex_iff _ _).1 hl
    refine ⟨lx [] (trim t), ?_⟩
    rcases parse_spec (lx [] (trim t)) with ⟨hb, hp⟩ | ⟨_, _, _, _, _, hp⟩ | ⟨_, _, _, _, _, hp⟩
    · rw [hp] at h
      simp only at h
      rcases interp_spec run (nodesOf (lx [] (trim t))) [] st with ⟨ps, st', h3, h4⟩ | ⟨_, _, _, _, _, _, _, _, _, h4⟩
      · rw [h4] at h
        refine ⟨ps, st', h1, h2, hb, h3, ?_⟩
        rw [combined_iff]
        cases h; rfl
      · rw [h4] at h; cases h
    · rw [hp] at h; cases h
    · rw [hp] at h; cases h
  · rintro ⟨ts, ps, st', h1, h2, hb, h3, h4⟩
    rw [render_of S run st t ts ((C38_lex_iff _ _).2 ⟨h1, h2⟩)]
    obtain ⟨ns, hns⟩ := (C38_accepts_iff ts).2 hb
    rw [hns, C38_nodes ts ns hns]
    simp only
    rcases interp_spec run (nodesOf ts) [] st with ⟨ps', s', h5, h6⟩ | ⟨pre, e, post, ps', s', err, h5, h6, h7, h8⟩
    · obtain ⟨rfl, _⟩ := steps_fun h3 h5
      rw [h6, (combined_iff S ps v).1 h4]; rfl
    · exfalso
      rw [h5] at h3
      exact steps_stuck h6 h7 h3

/-- errors, completely: the first expression that fails ends the rendering with its error -/
theorem C38_error_iff {σ ε : Type} (S : Show) (run : Evaluator σ ε) (st : σ) (t : List Char) (err : ε) :
    render S run st t = some (.error (.isolate err)) ↔ ∃ ts pre e post ps st',
      ts.flatMap Token.source = trim t ∧ Canonical ts ∧ Balanced ts ∧
      nodesOf ts = pre ++ .expression e :: post ∧ Steps run st pre ps st' ∧ run e st' = .error err := by
  constructor
  · intro h
    have hl := lex_eq (trim t)
    rw [render_of S run st t _ hl] at h
    obtain ⟨h1, h2⟩ := (C38_lex_iff _ _).1 hl
    refine ⟨lx [] (trim t), ?_⟩
    rcases parse_spec (lx [] (trim t)) with ⟨hb, hp⟩ | ⟨_, _, _, _, _, hp⟩ | ⟨_, _, _, _, _, hp⟩
    · rw [hp] at h
      simp only at h
      rcases interp_spec run (nodesOf (lx [] (trim t))) [] st with ⟨ps, st', h3, h4⟩ | ⟨pre, e, post, ps, st', er, h3, h4, h5, h6⟩
      · rw [h4] at h; cases h
      · rw [h6] at h; cases h
        exact ⟨pre, e, post, ps, st', h1, h2, hb, h3, h4, h5⟩
    · rw [hp] at h; cases h
    · rw [hp] at h; cases h
  · rintro ⟨ts, pre, e, post, ps, st', h1, h2, hb, h3, h4, h5⟩
    rw [render_of S run st t ts ((C38_lex_iff _ _).2 ⟨h1, h2⟩)]
    obtain ⟨ns, hns⟩ := (C38_accepts_iff ts).2 hb
    rw [hns, C38_nodes ts ns hns]
    simp only
    rcases interp_spec run (nodesOf ts) [] st with ⟨ps', s', h6, h7⟩ | ⟨pre', e', post', ps', s', err', h6, h7, h8, h9⟩
    · rw [h3] at h6
      exact (steps_stuck h4 h5 h6).elim
    · rw [h9]
      rw [h3] at h6
      rcases prefix_split h6 with ⟨rfl, hx⟩ | hp | hp
      · cases hx
        obtain ⟨_, rfl⟩ := steps_fun h4 h7
        rw [h5] at h8; cases h8; rfl
      · obtain ⟨q, rfl⟩ := hp
        rw [List.append_assoc, List.singleton_append] at h7
        exact (steps_stuck h4 h5 h7).elim
      · obtain ⟨q, rfl⟩ := hp
        rw [List.append_assoc, List.singleton_append] at h4
        exact (steps_stuck h7 h8 h4).elim

/-! ### the three forms of the claim, for templates given by their segments -/

/-- the template of a sequence of segments renders to the combination of their pieces -/
theorem C38_mixed {σ ε : Type} (S : Show) (run : Evaluator σ ε) (st st' : σ) (ns : List Node)
    (ps : List IResult) (v : Val) (h : Segments ns)
    (h1 : ∀ c ∈ (ns.flatMap Node.source).head?, isWs c = false)
    (h2 : ∀ c ∈ (ns.flatMap Node.source).getLast?, isWs c = false)
    (hs : Steps run st ns ps st') (hv : Combined S ps v) :
    render S run st (ns.flatMap Node.source) = some (.ok v) := by
  obtain ⟨ts, hl, hp⟩ := C38_segments ns h
  rw [render_of S run st _ ts (by rw [trim_id _ h1 h2]; exact hl), hp]
  simp only
  rcases interp_spec run ns [] st with ⟨ps', s', h6, h7⟩ | ⟨pre, e, post, ps', s', err, rfl, h7, h8, h9⟩
  · obtain ⟨rfl, _⟩ := steps_fun hs h6
    rw [h7, (combined_iff S ps v).1 hv]; rfl
  · exact (steps_stuck h7 h8 hs).elim

/-- a template that is a single `{{expr}}` returns the value itself, whatever its type -/
theorem C38_single {σ ε : Type} (S : Show) (run : Evaluator σ ε) (st st' : σ) (e : List Char) (v : Val)
    (hne : e ≠ []) (hp : Plain e) (hl : e.getLast? ≠ some '}') (hr : run e st = .ok (v, st')) :
    render S run st ('{' :: '{' :: (e ++ ['}', '}'])) = some (.ok v) := by
  have := C38_mixed S run st st' [.expression e] [.value v] v
    ⟨.singleton _, (fun t ht => by simp at ht), (fun t ht => by
      simp only [List.mem_singleton, Node.expression.injEq] at ht
      subst ht; exact ⟨hne, hp, hl⟩)⟩
    (by intro c hc; simp [Node.source] at hc; subst hc; decide)
    (by
      intro c hc
      rw [List.flatMap_singleton, Node.source] at hc
      have : ('{' :: '{' :: (e ++ ['}', '}'])).getLast? = some '}' := by
        rw [← List.cons_append, ← List.cons_append, List.getLast?_append]; rfl
      rw [this] at hc
      simp at hc; subst hc; decide)
    (.expr _ _ _ _ _ _ _ hr (.nil _)) (.inr (.inl ⟨v, rfl, rfl⟩))
  simpa [Node.source] using this

/-- and its error is the error of the rendering -/
theorem C38_single_error {σ ε : Type} (S : Show) (run : Evaluator σ ε) (st : σ) (e : List Char) (err : ε)
    (hne : e ≠ []) (hp : Plain e) (hl : e.getLast? ≠ some '}') (hr : run e st = .error err) :
    render S run st ('{' :: '{' :: (e ++ ['}', '}'])) = some (.error (.isolate err)) := by
  have hseg : Segments [.expression e] := ⟨.singleton _, (fun t ht => by simp at ht), (fun t ht => by
      simp only [List.mem_singleton, Node.expression.injEq] at ht
      subst ht; exact ⟨hne, hp, hl⟩)⟩
  obtain ⟨ts, hl, hp⟩ := C38_segments _ hseg
  have he : [Node.expression e].flatMap Node.source = '{' :: '{' :: (e ++ ['}', '}']) := by simp [Node.source]
  rw [he] at hl
  have ht : trim ('{' :: '{' :: (e ++ ['}', '}'])) = '{' :: '{' :: (e ++ ['}', '}']) := by
    apply trim_id
    · intro c hc; simp at hc; subst hc; decide
    · intro c hc
      have : ('{' :: '{' :: (e ++ ['}', '}'])).getLast? = some '}' := by
        rw [← List.cons_append, ← List.cons_append, List.getLast?_append]; rfl
      rw [this] at hc
      simp at hc; subst hc; decide
  rw [render_of S run st _ ts (by rw [ht]; exact hl), hp]
  simp [interpLoop, hr]

/-- two or more segments: the result is the string of the pieces in order -/
theorem C38_concat {σ ε : Type} (S : Show) (run : Evaluator σ ε) (st st' : σ) (ns : List Node)
    (ps : List IResult) (h : Segments ns) (h2 : 2 ≤ ns.length)
    (hh : ∀ c ∈ (ns.flatMap Node.source).head?, isWs c = false)
    (hl : ∀ c ∈ (ns.flatMap Node.source).getLast?, isWs c = false)
    (hs : Steps run st ns ps st') :
    render S run st (ns.flatMap Node.source) = some (.ok (.str (String.join (ps.map (piece S))))) := by
  refine C38_mixed S run st st' ns ps _ h hh hl hs (.inr (.inr (.inr ⟨?_, rfl⟩)))
  rw [← steps_length hs]; exact h2

example : Segments [.text ['a', ' '], .expression ['1'], .expression ['b'], .text ['.']] := by
  refine ⟨?_, ?_, ?_⟩
  · simp [SegFollows]
  · intro t ht
    simp at ht
    rcases ht with rfl | rfl <;> exact ⟨by simp, (plain_iff _).2 (by decide)⟩
  · intro t ht
    simp at ht
    rcases ht with rfl | rfl <;> exact ⟨by simp, (plain_iff _).2 (by decide), by decide⟩
example : render demoS demoRun () "a {{1}}{{b}}.".toList = some (.ok (.str "a trueb.")) := rfl
example : render demoS demoRun () "{{1}}".toList = some (.ok (.bool true)) := rfl
example : render demoS demoRun () "a{{!}}".toList = some (.error (.isolate "bad")) := rfl

/-! ### findings -/

/-- finding: an expression that is never closed is accepted and evaluated -/
theorem C38_unclosed {σ ε : Type} (S : Show) (run : Evaluator σ ε) (st st' : σ) (e : List Char) (v : Val)
    (hne : e ≠ []) (hp : Plain e) (hw : ∀ c ∈ e.getLast?, isWs c = false) (hr : run e st = .ok (v, st')) :
    render S run st ('{' :: '{' :: e) = some (.ok v) := by
  have hc : Canonical [.openBracket, .text e] :=
    canonical_cons (fun t ht => nomatch ht) (fun x hx => by cases x <;> trivial)
      (canonical_cons (fun t ht => by cases ht; exact ⟨hne, hp⟩) (fun x hx => nomatch hx) canonical_nil)
  have hl := (C38_lex_iff ('{' :: '{' :: e) _).2 ⟨by simp [Token.source], hc⟩
  have ht : trim ('{' :: '{' :: e) = '{' :: '{' :: e := by
    apply trim_id
    · intro c hc; simp at hc; subst hc; decide
    · intro c hc
      cases e with
      | nil => exact absurd rfl hne
      | cons d r => exact hw c (by simpa using hc)
  rw [render_of S run st _ _ (by rw [ht]; exact hl)]
  simp [parse, parseLoop, interpLoop, hr, finish]

/-- finding: empty brackets are no segment at all, so what surrounds them is rendered alone -/
theorem C38_empty {σ ε : Type} (S : Show) (run : Evaluator σ ε) (st : σ) :
    render S run st "{{}}".toList = some (.ok .null) := rfl

/-- finding: white space between brackets is an expression, and evaluated -/
theorem C38_blank_expression {σ ε : Type} (S : Show) (run : Evaluator σ ε) (st : σ) (err : ε)
    (h : run [' '] st = .error err) :
    render S run st "{{ }}".toList = some (.error (.isolate err)) :=
  C38_single_error S run st [' '] err (by simp) ((plain_iff _).2 (.singleton _)) (by decide) h

/-- finding: an expression that ends with `}` (an object) needs a space before the brackets:
without it the expression loses its brace and a stray `}` becomes text -/
theorem C38_object_brace (e : List Char) (hne : e ≠ []) (hp : Plain e) (hl : e.getLast? ≠ some '}') :
    ∃ ts, lex ('{' :: '{' :: (e ++ ['}', '}', '}'])) = some ts ∧
      parse ts = .ok [.expression e, .text ['}']] := by
  have hs : Segments [.expression e, .text ['}']] := by
    refine ⟨List.isChain_cons_cons.2 ⟨trivial, .singleton _⟩, fun t ht => ?_, fun t ht => ?_⟩
    · simp at ht
      subst ht
      exact ⟨by simp, (plain_iff _).2 (.singleton _)⟩
    · simp at ht
      subst ht
      exact ⟨hne, hp, hl⟩
  obtain ⟨ts, h1, h2⟩ := C38_segments _ hs
  refine ⟨ts, ?_, h2⟩
  rw [← h1]
  simp [Node.source]

/-- finding: the lexer does not know string literals; brackets inside one split it -/
theorem C38_literal {σ ε : Type} (S : Show) (run : Evaluator σ ε) (st : σ) :
    render S run st "{{'{{'}}".toList = some (.error (.parser .openBracket)) := rfl

/-- finding: strings are printed without escapes, so different values render the same -/
theorem C38_ambiguous (S : Show) :
    display S (.arr [.str "a\",\"b"]) = display S (.arr [.str "a", .str "b"]) := rfl

/-! ### the evaluator of the engine -/

/-- `Isolate::run_standard` in the context of the template (interpreter.rs:80-84): the scope does not
change between the expressions -/
def isolateRun (F : FrontEnd) (B : Builtins) : Evaluator Ev IErr := fun e st =>
  match st.run F B (String.ofList e) with
  | .ok v => .ok (v, st)
  | .error err => .error err

/-- with the isolate every expression is evaluated against the context, independently of the
others -/
theorem C38_isolate (F : FrontEnd) (B : Builtins) (st st' : Ev) (ns : List Node) (ps : List IResult) :
    Steps (isolateRun F B) st ns ps st' ↔ st' = st ∧ List.Forall₂ (fun n p =>
      match n with
      | .text t => p = .string t
      | .expression e => ∃ v, p = .value v ∧ freshRun F B st.scope .standard (String.ofList e) = .ok v)
      ns ps := by
  constructor
  · intro h
    induction h with
    | nil st => exact ⟨rfl, .nil⟩
    | text st st' t ns ps _ ih => exact ⟨ih.1, .cons rfl ih.2⟩
    | expr st st' st'' e v ns ps hr _ ih =>
      unfold isolateRun at hr
      split at hr
      · rename_i w hw
        cases hr
        exact ⟨ih.1, .cons ⟨_, rfl, hw⟩ ih.2⟩
      · cases hr
  · rintro ⟨rfl, h⟩
    induction h with
    | nil => exact .nil _
    | @cons n p ns ps h1 _ ih =>
      cases n with
      | text t => rw [show p = _ from h1]; exact .text _ _ _ _ _ ih
      | expression e =>
        obtain ⟨v, rfl, hv⟩ := h1
        refine .expr _ st' _ _ _ _ _ ?_ ih
        unfold isolateRun Ev.run
        rw [hv]

end Zen.Tmpl
