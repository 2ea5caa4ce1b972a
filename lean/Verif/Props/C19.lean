import Verif.Parse.LexMain
/-
C19: tokenization is faithful.
-/
namespace Zen.Lex
open Spec

/-- the part of the source a token stands for. The lexer gives the token closing an expression of a template the span of what
comes before its brace (`C19_brace_span`). -/
def Token.place (t : Token) : Nat × Nat := if t.kind = .tmpl .exprEnd then (t.stop, t.stop + 1) else (t.start, t.stop)

/-- the tokens `ts` cut `src` from `p` to `q`, `f` giving their spans: within the bounds, the text is the source's, in order
without overlap, only white space between them -/
structure Cuts (f : Token → Nat × Nat) (src : List Char) (p q : Nat) (ts : List Token) : Prop where
  within : ∀ t ∈ ts, p ≤ (f t).1 ∧ (f t).1 ≤ (f t).2 ∧ (f t).2 ≤ q
  text : ∀ t ∈ ts, t.value = (src.drop (f t).1).take ((f t).2 - (f t).1)
  order : ts.Pairwise (fun a b => (f a).2 ≤ (f b).1)
  white : ∀ i c, p ≤ i → i < q → src[i]? = some c → ¬ White c → ∃ t ∈ ts, (f t).1 ≤ i ∧ i < (f t).2

theorem Cuts.append {f : Token → Nat × Nat} {src : List Char} {p q r : Nat} {a b : List Token} (hpq : p ≤ q) (hqr : q ≤ r)
    (h1 : Cuts f src p q a) (h2 : Cuts f src q r b) : Cuts f src p r (a ++ b) := by
  refine ⟨?_, ?_, ?_, ?_⟩
  · intro t ht
    rcases List.mem_append.1 ht with h | h
    · have := h1.within t h; omega
    · have := h2.within t h; omega
  · intro t ht
    rcases List.mem_append.1 ht with h | h
    · exact h1.text t h
    · exact h2.text t h
  · rw [List.pairwise_append]
    refine ⟨h1.order, h2.order, ?_⟩
    intro x hx y hy
    have := h1.within x hx
    have := h2.within y hy
    omega
  · intro i c hp hr hc hw
    by_cases h : i < q
    · obtain ⟨t, ht, h'⟩ := h1.white i c hp h hc hw
      exact ⟨t, by simp [ht], h'⟩
    · obtain ⟨t, ht, h'⟩ := h2.white i c (by omega) hr hc hw
      exact ⟨t, by simp [ht], h'⟩

theorem Cuts.nil {f : Token → Nat × Nat} {src : List Char} {p : Nat} : Cuts f src p p [] :=
  ⟨by simp, by simp, by simp, fun i c h1 h2 => by omega⟩

theorem Cuts.one {f : Token → Nat × Nat} {src : List Char} {p : Nat} {t : Token} {w r : List Char} (h : src.drop p = w ++ r)
    (hf : f t = (p, p + w.length)) (hv : t.value = w) : Cuts f src p (p + w.length) [t] := by
  refine ⟨?_, ?_, by simp, ?_⟩
  · simp [hf]
  · simp [hf, hv, h]
  · intro i c h1 h2 _ _
    exact ⟨t, by simp, by simp [hf]; omega⟩

theorem Cuts.cons {f : Token → Nat × Nat} {src : List Char} {p q : Nat} {t : Token} {w r : List Char} {ts : List Token}
    (h : src.drop p = w ++ r) (hf : f t = (p, p + w.length)) (hv : t.value = w) (hq : p + w.length ≤ q)
    (h2 : Cuts f src (p + w.length) q ts) : Cuts f src p q (t :: ts) :=
  Cuts.append (a := [t]) (by omega) hq (Cuts.one h hf hv) h2

theorem place_of_ne {t : Token} (h : t.kind ≠ .tmpl .exprEnd) : t.place = (t.start, t.stop) := by
  rw [Token.place, if_neg h]

theorem lexeme_kind {w r : List Char} {k : Kind} (h : Lexeme w r k) : (∀ x, k ≠ .tmpl x) ∧ (∀ q, k ≠ .quote q) := by
  cases h with
  | word _ _ h =>
    rcases h with h | h
    · have : ∀ y ∈ keywords, (∀ x, y.2 ≠ .tmpl x) ∧ (∀ q, y.2 ≠ .quote q) := by
        intro y hy
        simp only [keywords, List.mem_cons, List.not_mem_nil, or_false] at hy
        rcases hy with rfl | rfl | rfl | rfl | rfl | rfl | rfl | rfl | rfl | rfl <;> simp
      exact this _ h
    · simp [h.1]
  | number => simp
  | symbol => simp
  | bracket => simp

theorem piece_cuts {src : List Char} {p : Nat} {w r : List Char} {ts : List Token} (hs : src.drop p = w ++ r)
    (h : Piece p w r ts) : Cuts Token.place src p (p + w.length) ts := by
  cases h with
  | space hc =>
    rename_i c
    refine ⟨by simp, by simp, by simp, ?_⟩
    intro i d h1 h2 h3 h4
    exfalso
    have : i = p := by simp at h2; omega
    subst this
    have : src[i]? = some c := by
      have := congrArg List.head? hs
      simpa using this
    rw [this] at h3
    simp at h3
    exact h4 (h3 ▸ hc)
  | lexeme hl => exact Cuts.one hs (place_of_ne ((lexeme_kind hl).1 _)) rfl
  | notIn =>
    have hs' : src.drop p = "not in".toList ++ (' ' :: r) := by rw [hs]; simp
    refine Cuts.cons hs' (place_of_ne (by simp)) rfl (by simp) ⟨by simp, by simp, by simp, ?_⟩
    intro i c h1 h2 h3 h4
    exfalso
    have : i = p + 6 := by simp at h1 h2; omega
    subst this
    have : src[p + 6]? = some ' ' := by
      have := congrArg (fun l => l[6]?) hs'
      simpa using this
    rw [this] at h3
    simp at h3
    exact h4 (h3 ▸ by decide)
  | string hq hw =>
    rename_i q c w'
    have h1 : src.drop p = [c] ++ (w' ++ c :: r) := by simpa using hs
    have h2 : src.drop (p + 1) = w' ++ c :: r := by rw [← List.drop_drop, h1]; rfl
    have h3 : src.drop (p + 1 + w'.length) = [c] ++ r := by rw [← List.drop_drop, h2]; simp
    have e : p + (c :: w' ++ [c]).length = p + 1 + w'.length + 1 := by simp; omega
    rw [e]
    refine Cuts.cons h1 (place_of_ne (by simp)) rfl (by simp; omega) ?_
    refine Cuts.cons h2 (place_of_ne (by simp)) rfl (by simp) ?_
    refine Cuts.one h3 (by rw [place_of_ne (by simp)]; simp; omega) rfl

def isStart (t : Token) : Bool := t.kind = .tmpl .exprStart
def isEnd (t : Token) : Bool := t.kind = .tmpl .exprEnd

/-- expressions left open -/
def Mode.open : Mode → Nat
  | .expr _ => 1
  | _ => 0

theorem piece_kinds {p : Nat} {w r : List Char} {ts : List Token} (h : Piece p w r ts) :
    ∀ t ∈ ts, (∀ x, t.kind ≠ .tmpl x) ∧ t.kind ≠ .quote .backtick := by
  cases h with
  | space => simp
  | lexeme h =>
    intro t ht
    simp at ht
    subst ht
    exact ⟨(lexeme_kind h).1, (lexeme_kind h).2 _⟩
  | notIn => simp
  | string h _ =>
    simp only [List.mem_cons, Prod.mk.injEq, List.not_mem_nil, or_false] at h
    rcases h with ⟨rfl, rfl⟩ | ⟨rfl, rfl⟩ <;> simp

theorem piece_counts {p : Nat} {w r : List Char} {ts : List Token} (h : Piece p w r ts) :
    ts.countP isStart = 0 ∧ ts.countP isEnd = 0 := by
  have := piece_kinds h
  simp only [List.countP_eq_zero, isStart, isEnd, decide_eq_true_eq]
  exact ⟨fun t ht => (this t ht).1 _, fun t ht => (this t ht).1 _⟩

theorem litTok_kinds {p : Nat} {w : List Char} : ∀ t ∈ litTok p w, t.kind = .literal := by
  intro t ht
  unfold litTok at ht
  split at ht
  · simp at ht
  · simp at ht
    simp [ht]

theorem litTok_counts {p : Nat} {w : List Char} : (litTok p w).countP isStart = 0 ∧ (litTok p w).countP isEnd = 0 := by
  simp only [List.countP_eq_zero, isStart, isEnd, decide_eq_true_eq]
  exact ⟨fun t ht => by rw [litTok_kinds t ht]; simp, fun t ht => by rw [litTok_kinds t ht]; simp⟩

theorem counts_le {src : List Char} {m : Mode} {p : Nat} {s : List Char} {ts : List Token} (h : Lexed src m p s ts) :
    ts.countP isEnd ≤ ts.countP isStart + Mode.open m := by
  induction h with
  | done => simp
  | piece hp _ ih => simp only [List.countP_append, piece_counts hp]; simpa using ih
  | tmpl _ ih => simpa [isStart, isEnd, Mode.open] using ih
  | textExpr _ _ ih => simp [isStart, isEnd, Mode.open] at ih ⊢; omega
  | textEnd _ _ ih => simp [litTok_counts, isStart, isEnd, Mode.open] at ih ⊢; omega
  | textEof _ => simp [litTok_counts, isStart, isEnd, Mode.open]
  | exprPiece hp _ _ ih => simp only [List.countP_append, piece_counts hp]; simpa using ih
  | exprEnd _ ih => simp [isStart, isEnd, Mode.open] at ih ⊢; omega
  | exprTick _ ih => simp [isStart, isEnd, Mode.open] at ih ⊢; omega
  | exprEof => simp [isStart, isEnd, Mode.open]

theorem litTok_cuts {src : List Char} {p : Nat} {w r : List Char} (hs : src.drop p = w ++ r) :
    Cuts Token.place src p (p + w.length) (litTok p w) := by
  cases w with
  | nil => exact Cuts.nil
  | cons c w => exact Cuts.one hs (place_of_ne (by simp)) rfl

theorem lexed_cuts {src : List Char} {m : Mode} {p : Nat} {s : List Char} {ts : List Token} (h : Lexed src m p s ts) :
    p ≤ src.length → src.drop p = s → (∀ t ∈ ts, t.kind = .quote .backtick → t.start < t.stop) →
      ts.countP isStart + Mode.open m ≤ ts.countP isEnd → Cuts Token.place src p src.length ts := by
  induction h with
  | @done p =>
    intro hp hs _ _
    have : p = src.length := by
      have := congrArg List.length hs
      simp at this
      omega
    subst this
    exact Cuts.nil
  | @piece p w r ts ts' hpc _ ih =>
    intro hp hs hc hb
    obtain ⟨hd, hle⟩ := drop_append hp hs
    simp only [List.countP_append, piece_counts hpc, Nat.zero_add] at hb
    exact Cuts.append (by omega) hle (piece_cuts hs hpc) (ih hle hd (fun t ht => hc t (by simp [ht])) hb)
  | @tmpl p r ts _ ih =>
    intro hp hs hc hb
    obtain ⟨hd, hlt⟩ := drop_cons hs
    exact Cuts.cons (w := ['`']) hs (place_of_ne (by simp)) rfl (by simp; omega)
      (ih hlt hd (fun t ht => hc t (by simp [ht])) (by simpa [isStart, isEnd, Mode.open] using hb))
  | @textExpr p w r ts hw _ ih =>
    intro hp hs hc hb
    obtain ⟨hd, hle⟩ := drop_append hp hs
    have hs2 : src.drop (p + w.length) = ['$', '{'] ++ r := hd
    obtain ⟨hd2, hle2⟩ := drop_append hle hs2
    refine Cuts.cons hs (place_of_ne (by simp)) rfl hle ?_
    refine Cuts.cons hs2 (place_of_ne (by simp)) rfl hle2 ?_
    exact ih hle2 hd2 (fun t ht => hc t (by simp [ht])) (by simp [isStart, isEnd, Mode.open] at hb ⊢; omega)
  | @textEnd p w r ts hw _ ih =>
    intro hp hs hc hb
    obtain ⟨hd, hle⟩ := drop_append hp hs
    have hs2 : src.drop (p + w.length) = ['`'] ++ r := hd
    obtain ⟨hd2, hle2⟩ := drop_append hle hs2
    refine Cuts.append (by omega) hle (litTok_cuts hs) ?_
    refine Cuts.cons hs2 (place_of_ne (by simp)) rfl hle2 ?_
    refine ih hle2 hd2 (fun t ht => hc t (by simp [ht])) ?_
    simp [litTok_counts, isStart, isEnd, Mode.open] at hb ⊢
    omega
  | textEof _ =>
    intro _ _ hc _
    have := hc _ (List.mem_append_right _ (List.mem_singleton.2 rfl)) rfl
    simp at this
  | @exprPiece ss p w r ts ts' hpc _ _ ih =>
    intro hp hs hc hb
    obtain ⟨hd, hle⟩ := drop_append hp hs
    simp only [List.countP_append, piece_counts hpc, Nat.zero_add] at hb
    exact Cuts.append (by omega) hle (piece_cuts hs hpc) (ih hle hd (fun t ht => hc t (by simp [ht])) hb)
  | @exprEnd ss p r ts _ ih =>
    intro hp hs hc hb
    obtain ⟨hd, hlt⟩ := drop_cons hs
    refine Cuts.cons (w := ['}']) hs (by simp [Token.place]) rfl (by simp; omega) ?_
    refine ih hlt hd (fun t ht => hc t (by simp [ht])) ?_
    simp [isStart, isEnd, Mode.open] at hb ⊢
    omega
  | exprTick hl _ =>
    intro _ _ _ hb
    have := counts_le hl
    simp [isStart, isEnd, Mode.open] at hb this
    omega
  | exprEof =>
    intro _ _ _ hb
    simp [isStart, isEnd, Mode.open] at hb

theorem plain_top {src : List Char} {m : Mode} {p : Nat} {s : List Char} {ts : List Token} (h : Lexed src m p s ts) :
    (∀ t ∈ ts, t.kind ≠ .quote .backtick) → m = .top ∧ ∀ t ∈ ts, ∀ x, t.kind ≠ .tmpl x := by
  induction h with
  | done => simp
  | piece hp _ ih =>
    intro h
    have := ih (fun t ht => h t (by simp [ht]))
    refine ⟨rfl, ?_⟩
    intro t ht
    rcases List.mem_append.1 ht with ht | ht
    · exact (piece_kinds hp t ht).1
    · exact this.2 t ht
  | tmpl _ _ => intro h; simp at h
  | textExpr _ _ ih =>
    intro h
    have := (ih (fun t ht => h t (by simp [ht]))).1
    simp at this
  | textEnd _ _ _ => intro h; exact absurd rfl (h _ (List.mem_append_right _ (List.mem_cons_self ..)))
  | textEof _ => intro h; exact absurd rfl (h _ (List.mem_append_right _ (List.mem_cons_self ..)))
  | exprPiece hp _ _ ih =>
    intro h
    have := (ih (fun t ht => h t (by simp [ht]))).1
    simp at this
  | exprEnd _ ih =>
    intro h
    have := (ih (fun t ht => h t (by simp [ht]))).1
    simp at this
  | exprTick _ _ => intro h; simp at h
  | exprEof => intro h; simp at h

/-! ### the theorems -/

/-- Tokenization is the grammar of LexSpec.lean: a source is tokenized into `ts` exactly if the grammar decomposes it so. -/
theorem C19_grammar (src : List Char) (ts : List Token) : tokenize src = .ok ts ↔ Lexed src .top 0 src ts := tokenize_iff

/-- A source tokenized without templates: spans in order and disjoint, each token's text is the source text at its span, only
white space between them. -/
theorem C19_faithful (src : List Char) (ts : List Token) (h : tokenize src = .ok ts)
    (hp : ∀ t ∈ ts, t.kind ≠ .quote .backtick) :
    Cuts (fun t => (t.start, t.stop)) src 0 src.length ts := by
  have hl := tokenize_iff.1 h
  have hk := (plain_top hl hp).2
  have hc := lexed_cuts hl (Nat.zero_le _) rfl (fun t ht h => absurd h (hp t ht)) (by
    have : ts.countP isStart = 0 := by
      simp only [List.countP_eq_zero, isStart, decide_eq_true_eq]
      exact fun t ht => hk t ht _
    simp [this, Mode.open])
  have hf : ∀ t ∈ ts, t.place = (t.start, t.stop) := fun t ht => place_of_ne (hk t ht _)
  refine ⟨?_, ?_, ?_, ?_⟩
  · intro t ht; have := hc.within t ht; rwa [hf t ht] at this
  · intro t ht; have := hc.text t ht; rwa [hf t ht] at this
  · refine hc.order.imp_of_mem ?_
    intro a b ha hb h
    rwa [hf a ha, hf b hb] at h
  · intro i c h1 h2 h3 h4
    obtain ⟨t, ht, h⟩ := hc.white i c h1 h2 h3 h4
    rw [hf t ht] at h
    exact ⟨t, ht, h⟩

/-- With templates the same holds for the places of the tokens, if every template is closed and so is every expression in it. -/
theorem C19_templates (src : List Char) (ts : List Token) (h : tokenize src = .ok ts)
    (hc : ∀ t ∈ ts, t.kind = .quote .backtick → t.start < t.stop)
    (hb : ts.countP (fun t => t.kind = .tmpl .exprStart) = ts.countP (fun t => t.kind = .tmpl .exprEnd)) :
    Cuts Token.place src 0 src.length ts :=
  lexed_cuts (tokenize_iff.1 h) (Nat.zero_le _) rfl hc (by
    show ts.countP isStart + 0 ≤ ts.countP isEnd
    exact Nat.le_of_eq hb)

/-- what is said of a token and the source after it -/
def Maximal (t : Token) (r : List Char) : Prop :=
  (t.kind = .number → Number t.value r) ∧
  (∀ b, t.kind = .bool b → Word t.value r) ∧
  (∀ i, t.kind = .ident i → Word t.value r) ∧
  (∀ b, t.kind = .bracket b → (t.value, b) ∈ brackets) ∧
  (∀ o, t.kind = .op o → (t.value = "not in".toList ∧ o = .cmp .notIn) ∨
    (Word t.value r ∧ (t.value, .op o) ∈ keywords) ∨
    ((t.value, o) ∈ symbols ∧ ∀ w o', (w, o') ∈ symbols → w <+: t.value ++ r → w.length ≤ t.value.length))

theorem maximal_of {t : Token} {r : List Char} (h : t.kind = .literal ∨ (∃ q, t.kind = .quote q) ∨ ∃ x, t.kind = .tmpl x) :
    Maximal t r := by
  rcases h with h | ⟨q, h⟩ | ⟨x, h⟩ <;> simp [Maximal, h]

theorem word_kinds {w : List Char} {k : Kind} (h : (w, k) ∈ keywords ∨ (k = .literal ∧ ∀ k', (w, k') ∉ keywords)) :
    k ≠ .number ∧ (∀ b, k ≠ .bracket b) ∧ ∀ o, k = .op o → (w, .op o) ∈ keywords := by
  rcases h with h | h
  · have : ∀ y ∈ keywords, y.2 ≠ .number ∧ ∀ b, y.2 ≠ .bracket b := by
      intro y hy
      simp only [keywords, List.mem_cons, List.not_mem_nil, or_false] at hy
      rcases hy with rfl | rfl | rfl | rfl | rfl | rfl | rfl | rfl | rfl | rfl <;> simp
    exact ⟨(this _ h).1, (this _ h).2, fun o ho => ho ▸ h⟩
  · simp [h.1]

theorem piece_maximal {src : List Char} {p : Nat} {w r : List Char} {ts : List Token} (hs : src.drop p = w ++ r)
    (h : Piece p w r ts) : ∀ t ∈ ts, Maximal t (src.drop t.stop) := by
  cases h with
  | space => simp
  | lexeme hl =>
    intro t ht
    simp at ht
    subst ht
    have hd : src.drop (p + w.length) = r := by rw [← List.drop_drop, hs]; simp
    simp only [hd]
    cases hl with
    | word h1 h2 h3 =>
      have := word_kinds h3
      exact ⟨fun h => absurd h this.1, fun _ _ => h1, fun _ _ => h1, fun b h => absurd h (this.2.1 b),
        fun o h => .inr (.inl ⟨h1, this.2.2 o h⟩)⟩
    | number h1 => simp [Maximal, h1]
    | symbol h1 h2 =>
      refine ⟨by simp, by simp, by simp, by simp, ?_⟩
      intro o h
      simp at h
      subst h
      exact .inr (.inr ⟨h1, h2⟩)
    | bracket h1 =>
      refine ⟨by simp, by simp, by simp, ?_, by simp⟩
      intro b h
      simp at h
      subst h
      exact h1
  | notIn =>
    intro t ht
    simp at ht
    subst ht
    refine ⟨by simp, by simp, by simp, by simp, ?_⟩
    intro o h
    simp at h
    exact .inl ⟨rfl, h.symm⟩
  | string =>
    intro t ht
    simp at ht
    rcases ht with rfl | rfl | rfl
    · exact maximal_of (.inr (.inl ⟨_, rfl⟩))
    · exact maximal_of (.inl rfl)
    · exact maximal_of (.inr (.inl ⟨_, rfl⟩))

theorem lexed_maximal {src : List Char} {m : Mode} {p : Nat} {s : List Char} {ts : List Token} (h : Lexed src m p s ts) :
    p ≤ src.length → src.drop p = s → ∀ t ∈ ts, Maximal t (src.drop t.stop) := by
  induction h with
  | done => simp
  | piece hp _ ih =>
    intro hl hs t ht
    obtain ⟨hd, hle⟩ := drop_append hl hs
    rcases List.mem_append.1 ht with ht | ht
    · exact piece_maximal hs hp t ht
    · exact ih hle hd t ht
  | tmpl _ ih =>
    intro hl hs t ht
    obtain ⟨hd, hlt⟩ := drop_cons hs
    rcases List.mem_cons.1 ht with rfl | ht
    · exact maximal_of (.inr (.inl ⟨_, rfl⟩))
    · exact ih hlt hd t ht
  | @textExpr p w r ts _ _ ih =>
    intro hl hs t ht
    obtain ⟨hd, hle⟩ := drop_append (w := w ++ ['$', '{']) (r := r) hl (by simpa using hs)
    have e : p + (w ++ ['$', '{']).length = p + w.length + 2 := by simp; omega
    rw [e] at hd hle
    simp only [List.mem_cons] at ht
    rcases ht with rfl | rfl | ht
    · exact maximal_of (.inl rfl)
    · exact maximal_of (.inr (.inr ⟨_, rfl⟩))
    · exact ih hle hd t ht
  | @textEnd p w r ts _ _ ih =>
    intro hl hs t ht
    obtain ⟨hd, hle⟩ := drop_append (w := w ++ ['`']) (r := r) hl (by simpa using hs)
    have e : p + (w ++ ['`']).length = p + w.length + 1 := by simp; omega
    rw [e] at hd hle
    simp only [List.mem_append, List.mem_cons] at ht
    rcases ht with ht | rfl | ht
    · exact maximal_of (.inl (litTok_kinds t ht))
    · exact maximal_of (.inr (.inl ⟨_, rfl⟩))
    · exact ih hle hd t ht
  | textEof _ =>
    intro hl hs t ht
    simp only [List.mem_append, List.mem_singleton] at ht
    rcases ht with ht | rfl
    · exact maximal_of (.inl (litTok_kinds t ht))
    · exact maximal_of (.inr (.inl ⟨_, rfl⟩))
  | exprPiece hp _ _ ih =>
    intro hl hs t ht
    obtain ⟨hd, hle⟩ := drop_append hl hs
    rcases List.mem_append.1 ht with ht | ht
    · exact piece_maximal hs hp t ht
    · exact ih hle hd t ht
  | exprEnd _ ih =>
    intro hl hs t ht
    obtain ⟨hd, hlt⟩ := drop_cons hs
    rcases List.mem_cons.1 ht with rfl | ht
    · exact maximal_of (.inr (.inr ⟨_, rfl⟩))
    · exact ih hlt hd t ht
  | exprTick _ ih =>
    intro hl hs t ht
    obtain ⟨hd, hlt⟩ := drop_cons hs
    simp only [List.mem_cons] at ht
    rcases ht with rfl | rfl | ht
    · exact maximal_of (.inl rfl)
    · exact maximal_of (.inr (.inl ⟨_, rfl⟩))
    · exact ih hlt hd t ht
  | exprEof =>
    intro _ _ t ht
    simp at ht
    subst ht
    exact maximal_of (.inr (.inl ⟨_, rfl⟩))

/-- Maximality, for every token of every tokenized source, `r` being the source after it: numbers are the longest number, the
words (`and`, `null`, `$root`, …) end where no word character follows, operator symbols are the longest operator. -/
theorem C19_maximal (src : List Char) (ts : List Token) (h : tokenize src = .ok ts) (t : Token) (ht : t ∈ ts) :
    Maximal t (src.drop t.stop) :=
  lexed_maximal (tokenize_iff.1 h) (Nat.zero_le _) rfl t ht

/-! ### failure -/

theorem tmpl_error {src : List Char} {e : LexErr} : ∀ (s : List Char) (b : Bool) (ss k p : Nat), src.drop p = s →
    tmplLoop src b ss k p s = .error e → ∃ p c s, src.drop p = c :: s ∧ c ≠ '`' ∧ item src p c s = .error e
  | [], b, ss, k, p, _, h => by rw [tmplLoop] at h; simp at h
  | c :: s, b, ss, k + 1, p, hs, h => by
    rw [tmplLoop] at h
    exact tmpl_error s _ _ _ _ (drop_cons hs).1 h
  | c :: s, b, ss, 0, p, hs, h => by
    rw [tmplLoop] at h
    have ih := fun b ss k => @tmpl_error src e s b ss k (p + 1) (drop_cons hs).1
    split at h
    · simp at h
    · rename_i hc
      split at h
      · split at h
        · split at h
          · rename_i x hx
            simp only [Except.error.injEq] at h
            exact ih _ _ _ (h ▸ hx)
          · simp at h
        · split at h
          · rename_i x hx
            simp only [Except.error.injEq] at h
            exact ⟨p, c, s, hs, hc, h ▸ hx⟩
          · split at h
            · rename_i x hx
              simp only [Except.error.injEq] at h
              exact ih _ _ _ (h ▸ hx)
            · simp at h
      · split at h
        · split at h
          · rename_i x hx
            simp only [Except.error.injEq] at h
            exact ih _ _ _ (h ▸ hx)
          · simp at h
        · exact ih _ _ _ h

theorem scan_error {src : List Char} {e : LexErr} : ∀ (s : List Char) (k p : Nat), src.drop p = s →
    scan src k p s = .error e → ∃ p c s, src.drop p = c :: s ∧ c ≠ '`' ∧ item src p c s = .error e
  | [], k, p, _, h => by rw [scan] at h; simp at h
  | c :: s, k + 1, p, hs, h => by
    rw [scan] at h
    exact scan_error s _ _ (drop_cons hs).1 h
  | c :: s, 0, p, hs, h => by
    rw [scan] at h
    split at h
    · rename_i x hx
      simp only [Except.error.injEq] at h
      subst h
      split at hx
      · rw [template] at hx
        split at hx
        · rename_i y hy
          simp only [Except.error.injEq] at hx
          subst hx
          exact tmpl_error _ _ _ _ _ (drop_cons hs).1 hy
        · simp at hx
      · rename_i hc
        exact ⟨p, c, s, hs, hc, hx⟩
    · split at h
      · rename_i x hx
        simp only [Except.error.injEq] at h
        exact scan_error s _ _ (drop_cons hs).1 (h ▸ hx)
      · simp at h

/-- Tokenization fails for two reasons only: a character no token begins with, or a string without its closing quote. -/
theorem C19_error (src : List Char) (e : LexErr) (h : tokenize src = .error e) :
    (∃ p c, src[p]? = some c ∧ e = .unmatchedSymbol c p ∧ ¬ White c ∧ ¬ WordChar c ∧
      c ∉ "'\"`()[]{}+-*/%^!?=<>.,:;".toList) ∨
    (∃ p c, src[p]? = some c ∧ c ∈ ['\'', '"'] ∧ c ∉ src.drop (p + 1) ∧
      e = .unexpectedEof (src.getLast?.getD ' ') (src.length - 1)) := by
  obtain ⟨p, c, s, hs, hc, hi⟩ := scan_error src 0 0 rfl h
  have hget : src[p]? = some c := by
    have := congrArg List.head? hs
    simpa using this
  have hd := (drop_cons hs).1
  have hstr : ∀ q : Quote, q.text = [c] → c ∈ ['\'', '"'] → string src q p c s = .error e →
      (∃ p c, src[p]? = some c ∧ c ∈ ['\'', '"'] ∧ c ∉ src.drop (p + 1) ∧
      e = .unexpectedEof (src.getLast?.getD ' ') (src.length - 1)) := by
    intro q _ hm h
    rw [string] at h
    split at h
    · rename_i hf
      simp only [Except.error.injEq] at h
      refine ⟨p, c, hget, hm, ?_, h.symm⟩
      rw [hd]
      intro hin
      rw [List.findIdx?_eq_none_iff] at hf
      have := hf c hin
      simp at this
    · simp at h
  by_cases h1 : White c
  · rw [item, if_pos (isSpace_iff.2 h1)] at hi
    simp at hi
  have h1' : isSpace c = false := by
    cases h' : isSpace c
    · rfl
    · exact absurd (isSpace_iff.1 h') h1
  by_cases h2 : c = '\''
  · subst h2
    rw [item, if_neg (by simp [h1']), if_pos rfl] at hi
    exact .inr (hstr .single rfl (by simp) hi)
  by_cases h3 : c = '"'
  · subst h3
    rw [item, if_neg (by simp [h1']), if_neg h2, if_pos rfl] at hi
    exact .inr (hstr .double rfl (by simp) hi)
  by_cases h4 : Digit c
  · rw [item_digit h4, number] at hi
    simp at hi
  by_cases h5 : Letter c
  · rw [item_letter h5, identifier] at hi
    repeat' split at hi
    all_goals first | (rw [notWord] at hi; split at hi <;> simp at hi; done) | (simp at hi; done)
  by_cases h6 : c ∈ symChars
  · obtain ⟨w, r, o, _, _, _, h⟩ := sym_exists hs h6
    rw [h] at hi
    simp at hi
  by_cases h7 : c ∈ ['(', ')', '[', ']', '{', '}']
  · exfalso
    have hb : ∃ b, ([c], b) ∈ brackets := by
      simp only [List.mem_cons, List.not_mem_nil, or_false] at h7
      rcases h7 with rfl | rfl | rfl | rfl | rfl | rfl
      · exact ⟨.lparen, by simp [brackets]⟩
      · exact ⟨.rparen, by simp [brackets]⟩
      · exact ⟨.lsq, by simp [brackets]⟩
      · exact ⟨.rsq, by simp [brackets]⟩
      · exact ⟨.lcurly, by simp [brackets]⟩
      · exact ⟨.rcurly, by simp [brackets]⟩
    obtain ⟨b, hb⟩ := hb
    have := (bracket_ok hs h7).2 ⟨b, rfl, hb, rfl⟩
    rw [this] at hi
    simp at hi
  have h4' : isDigit c = false := by
    cases h' : isDigit c
    · rfl
    · exact absurd (isDigit_iff.1 h') h4
  have h5' : isAlpha c = false := by
    cases h' : isAlpha c
    · rfl
    · exact absurd (isAlpha_iff.1 h') h5
  left
  refine ⟨p, c, hget, ?_, h1, ?_, ?_⟩
  · simp only [symChars, List.mem_cons, List.not_mem_nil, or_false, not_or] at h6 h7
    simp [item, h1', h2, h3, h4', h5', isBracket, isCmp, isOper, h6, h7] at hi
    exact hi.symm
  · rintro (h | h)
    · exact h5 h
    · exact h4 h
  · simp only [symChars, List.mem_cons, List.not_mem_nil, or_false, not_or] at h6 h7
    simp [h2, h3, hc, h6, h7]

/-! ### what is not as one expects -/

/-- the token closing an expression in a template does not have the span of its brace, nor is its text that of its span -/
theorem C19_brace_span : ∃ src ts t, tokenize src = .ok ts ∧ t ∈ ts ∧ t.kind = .tmpl .exprEnd ∧
    t.value ≠ (src.drop t.start).take (t.stop - t.start) ∧ src[t.start]? ≠ some '}' := by
  refine ⟨"`a${b}`".toList, _, ⟨.tmpl .exprEnd, 1, 5, ['}']⟩, rfl, ?_, ?_⟩ <;> decide

/-- a backtick within an expression ends the template, and the text since before the expression becomes a literal: spans overlap -/
theorem C19_overlap : ∃ src ts, tokenize src = .ok ts ∧ ¬ ts.Pairwise (fun a b => a.stop ≤ b.start) ∧
    (∀ t ∈ ts, t.kind ≠ .tmpl .exprEnd) := by
  refine ⟨"`a${b`".toList, _, rfl, ?_, ?_⟩ <;> decide

/-- a template without its closing backtick is accepted: the closing token has no text -/
theorem C19_unclosed : ∃ src ts t, tokenize src = .ok ts ∧ t ∈ ts ∧ t.kind = .quote .backtick ∧ t.start = t.stop := by
  refine ⟨"`a".toList, _, ⟨.quote .backtick, 2, 2, ['`']⟩, rfl, ?_, ?_⟩ <;> decide

/-- `not in` is one operator only with single blanks on both sides of `in`: before a bracket it is the operator `not` -/
theorem C19_not_in : (tokenize "x not in[1]".toList).toOption.map (·.map Token.kind) =
      some [.literal, .op (.logic .not), .op (.cmp .in_), .bracket .lsq, .number, .bracket .rsq] ∧
    (tokenize "x not in [1]".toList).toOption.map (·.map Token.kind) =
      some [.literal, .op (.cmp .notIn), .bracket .lsq, .number, .bracket .rsq] := by
  constructor <;> decide

/-- the first closing brace ends the expression in a template, also if it belongs to an object in the expression -/
theorem C19_nested_brace : (tokenize "`${ {c: 1} }`".toList).toOption.map (·.map Token.value) =
    some (["`", "", "${", "{", "c", ":", "1", "}", " }", "`"].map String.toList) ∧
    (tokenize "`${ {c: 1} }`".toList).toOption.map (·.countP (fun t => t.kind = .tmpl .exprEnd)) = some 1 ∧
    (tokenize "`${ {c: 1} }`".toList).toOption.map (·.countP (fun t => t.kind = .bracket .rcurly)) = some 0 := by
  refine ⟨?_, ?_, ?_⟩ <;> decide

/-! ### cases -/

-- a source with every sort of token
example : (tokenize "a.b >= 1_0.5e-3 and not (x in [1..2]) ?? '`'".toList).toOption.map (·.map Token.value) =
    some (["a", ".", "b", ">=", "1_0.5e-3", "and", "not", "(", "x", "in", "[", "1", "..", "2", "]", ")", "??", "'", "`",
      "'"].map String.toList) := by decide
-- numbers: the second dot ends it, an `e` without digits is a word
example : (tokenize "1.2.3 1..2 5e 5e+1".toList).toOption.map (·.map Token.value) =
    some (["1.2", ".", "3", "1", "..", "2", "5", "e", "5e+1"].map String.toList) := by decide
-- a template with two expressions meets the hypotheses of C19_templates
example : (tokenize "`a${b}${c + 1}$` + '`'".toList).toOption.map (·.map Token.value) =
    some (["`", "a", "${", "b", "}", "", "${", "c", "+", "1", "}", "$", "`", "+", "'", "`", "'"].map String.toList) := by decide
example : tokenize "1 +\r\n 2".toList = .error (.unmatchedSymbol '\r' 3) := rfl
example : tokenize "'abc".toList = .error (.unexpectedEof 'c' 3) := rfl

end Zen.Lex
