import Verif.Parse.LexProofs
/-
The loops of the lexer: `tokenize` succeeds with a list of tokens exactly if the grammar gives it.
-/
namespace Zen
namespace Lex
open Spec

variable {src : List Char}

theorem piece_ne_nil {p : Nat} {w r : List Char} {ts : List Token} (h : Piece p w r ts) : 1 ≤ w.length := by
  cases h with
  | space => simp
  | notIn => decide
  | string => simp
  | lexeme h =>
    cases h with
    | word h =>
      obtain ⟨c, h, _⟩ := h.first
      cases w with
      | nil => simp at h
      | cons => simp
    | number h =>
      obtain ⟨d, w', rfl, _⟩ := number_head h
      simp
    | symbol h =>
      obtain ⟨d, w', rfl, _⟩ := sym_first h
      simp
    | bracket h =>
      obtain ⟨d, rfl, _⟩ := bracket_first h
      simp

/-- no piece begins with a backtick, and only the brace begins with a brace -/
theorem piece_first {p : Nat} {c : Char} {w r : List Char} {ts : List Token} (h : Piece p (c :: w) r ts) :
    c ≠ '`' ∧ (c = '}' → w = []) := by
  generalize hw : c :: w = w' at h
  cases h with
  | space h =>
    simp at hw
    obtain ⟨rfl, rfl⟩ := hw
    exact ⟨by rintro rfl; exact absurd h (by decide), fun _ => rfl⟩
  | notIn =>
    simp at hw
    simp [hw.1]
  | string h _ =>
    simp only [List.mem_cons, Prod.mk.injEq, List.not_mem_nil, or_false] at h
    simp at hw
    obtain ⟨rfl, _⟩ := hw
    rcases h with ⟨_, rfl⟩ | ⟨_, rfl⟩ <;> simp
  | lexeme h =>
    subst hw
    cases h with
    | word h =>
      obtain ⟨d, h, hd⟩ := h.first
      simp at h
      subst h
      refine ⟨?_, ?_⟩
      · rintro rfl; exact absurd hd (by decide)
      · rintro rfl; exact absurd hd (by decide)
    | number h =>
      obtain ⟨d, w', h, hd⟩ := number_head h
      simp at h
      obtain ⟨rfl, _⟩ := h
      refine ⟨?_, ?_⟩
      · rintro rfl; exact absurd hd (by decide)
      · rintro rfl; exact absurd hd (by decide)
    | symbol h =>
      obtain ⟨d, w', h', hd⟩ := sym_first h
      simp at h'
      obtain ⟨rfl, _⟩ := h'
      refine ⟨?_, ?_⟩
      · rintro rfl; exact absurd hd (by decide)
      · rintro rfl; exact absurd hd (by decide)
    | bracket h =>
      obtain ⟨d, h', hd⟩ := bracket_first h
      simp at h'
      obtain ⟨rfl, rfl⟩ := h'
      refine ⟨?_, fun _ => rfl⟩
      rintro rfl; exact absurd hd (by decide)

theorem drop_cons {p : Nat} {c : Char} {s : List Char} (h : src.drop p = c :: s) : src.drop (p + 1) = s ∧ p < src.length := by
  refine ⟨by rw [← List.drop_drop, h]; rfl, ?_⟩
  have := congrArg List.length h
  simp at this
  omega

theorem drop_append {p : Nat} {w r : List Char} (hp : p ≤ src.length) (h : src.drop p = w ++ r) :
    src.drop (p + w.length) = r ∧ p + w.length ≤ src.length := by
  refine ⟨by rw [← List.drop_drop, h]; simp, ?_⟩
  have := congrArg List.length h
  simp at this
  omega

theorem scan_skip : ∀ (k p : Nat), p + k ≤ src.length →
    scan src k p (src.drop p) = scan src 0 (p + k) (src.drop (p + k))
  | 0, p, _ => rfl
  | k + 1, p, h => by
    obtain ⟨c, s, hs⟩ : ∃ c s, src.drop p = c :: s := by
      cases hd : src.drop p with
      | nil => simp at hd; omega
      | cons c s => exact ⟨c, s, rfl⟩
    rw [hs, scan, ← (drop_cons hs).1, scan_skip k (p + 1) (by omega)]
    congr 1
    · omega
    · congr 1
      omega

theorem tmpl_skip (b : Bool) (ss : Nat) : ∀ (k p : Nat), p + k ≤ src.length →
    tmplLoop src b ss k p (src.drop p) = tmplLoop src b ss 0 (p + k) (src.drop (p + k))
  | 0, p, _ => rfl
  | k + 1, p, h => by
    obtain ⟨c, s, hs⟩ : ∃ c s, src.drop p = c :: s := by
      cases hd : src.drop p with
      | nil => simp at hd; omega
      | cons c s => exact ⟨c, s, rfl⟩
    rw [hs, tmplLoop, ← (drop_cons hs).1, tmpl_skip b ss k (p + 1) (by omega)]
    congr 1
    · omega
    · congr 1
      omega

/-! ### the text of a template -/

/-- what may follow a text -/
def TextStop (x : List Char) : Prop := x = [] ∨ (∃ r, x = '`' :: r) ∨ ∃ r, x = '$' :: '{' :: r

theorem text_cons {c : Char} {w : List Char} : Text (c :: w) ↔ c ≠ '`' ∧ ¬ (c = '$' ∧ w.head? = some '{') ∧ Text w := by
  have : (['$', '{'] <:+: c :: w) ↔ (c = '$' ∧ w.head? = some '{') ∨ ['$', '{'] <:+: w := by
    rw [List.infix_cons_iff]
    apply or_congr_left
    cases w with
    | nil => simp
    | cons y w => simp [eq_comm]
  simp only [Text, this, List.mem_cons, not_or]
  constructor
  · rintro ⟨⟨h1, h2⟩, h3, h4⟩
    exact ⟨fun h => h1 h.symm, h3, h2, h4⟩
  · rintro ⟨h1, h2, h3, h4⟩
    exact ⟨⟨fun h => h1 h.symm, h3⟩, h2, h4⟩

theorem text_exists : ∀ s : List Char, ∃ w x, s = w ++ x ∧ Text w ∧ TextStop x
  | [] => ⟨[], [], rfl, by simp [Text], .inl rfl⟩
  | c :: s => by
    by_cases h1 : c = '`'
    · exact ⟨[], c :: s, rfl, by simp [Text], .inr (.inl ⟨s, by rw [h1]⟩)⟩
    by_cases h2 : c = '$' ∧ s.head? = some '{'
    · refine ⟨[], c :: s, rfl, by simp [Text], .inr (.inr ?_)⟩
      obtain ⟨rfl, h⟩ := h2
      cases s with
      | nil => simp at h
      | cons y s => simp at h; exact ⟨s, by rw [h]⟩
    obtain ⟨w, x, rfl, hw, hx⟩ := text_exists s
    refine ⟨c :: w, x, rfl, text_cons.2 ⟨h1, ?_, hw⟩, hx⟩
    rintro ⟨h3, h4⟩
    apply h2
    refine ⟨h3, ?_⟩
    cases w with
    | nil => simp at h4
    | cons => simpa using h4

theorem text_jump {ss : Nat} : ∀ (w x : List Char) (e : Nat), Text w → TextStop x →
    tmplLoop src false ss 0 e (w ++ x) = tmplLoop src false ss 0 (e + w.length) x
  | [], x, e, _, _ => rfl
  | c :: w, x, e, hw, hx => by
    obtain ⟨h1, h2, h3⟩ := text_cons.1 hw
    have h2' : ¬ (c = '$' ∧ (w ++ x).head? = some '{') := by
      rintro ⟨h4, h5⟩
      cases w with
      | nil =>
        rcases hx with rfl | ⟨r, rfl⟩ | ⟨r, rfl⟩ <;> simp at h5
      | cons y w => exact h2 ⟨h4, by simpa using h5⟩
    rw [List.cons_append, tmplLoop, if_neg h1]
    simp only [Bool.false_eq_true, if_false, if_neg h2']
    rw [text_jump w x (e + 1) h3 hx, List.length_cons]
    congr 1
    omega

theorem litTok_eq {p : Nat} {w x : List Char} (h : src.drop p = w ++ x) :
    (if p < p + w.length then [(⟨.literal, p, p + w.length, slice src p (p + w.length)⟩ : Token)] else []) = litTok p w := by
  rw [slice_of h rfl, litTok]
  cases w <;> simp

theorem tmpl_eof {p : Nat} {w : List Char} (hp : p ≤ src.length) (h : src.drop p = w) (hw : Text w) :
    tmplLoop src false p 0 p (src.drop p) =
      .ok (litTok p w ++ [⟨.quote .backtick, p + w.length, p + w.length, ['`']⟩], src.length) := by
  have hl : p + w.length = src.length := by
    have := congrArg List.length h
    simp at this
    omega
  have h' : src.drop p = w ++ [] := by simpa using h
  have hj : tmplLoop src false p 0 p (w ++ []) = _ := text_jump w [] p hw (.inl rfl)
  rw [h', hj, tmplLoop, ← litTok_eq h', hl]
  simp

theorem tmpl_end {p : Nat} {w r : List Char} (h : src.drop p = w ++ '`' :: r) (hw : Text w) :
    tmplLoop src false p 0 p (src.drop p) =
      .ok (litTok p w ++ [⟨.quote .backtick, p + w.length, p + w.length + 1, ['`']⟩], p + w.length + 1) := by
  rw [h, text_jump w _ p hw (.inr (.inl ⟨r, rfl⟩)), tmplLoop, if_pos rfl, ← litTok_eq h]

theorem tmpl_expr {p : Nat} {w r : List Char} (h : src.drop p = w ++ '$' :: '{' :: r) (hw : Text w) :
    tmplLoop src false p 0 p (src.drop p) =
      match tmplLoop src true p 0 (p + w.length + 2) r with
      | .error x => .error x
      | .ok (ts, n) => .ok (⟨.literal, p, p + w.length, w⟩ ::
          ⟨.tmpl .exprStart, p + w.length, p + w.length + 2, ['$', '{']⟩ :: ts, n) := by
  rw [h, text_jump w _ p hw (.inr (.inr ⟨r, rfl⟩)), tmplLoop, if_neg (by decide), if_neg (by decide),
    if_pos ⟨rfl, rfl⟩, slice_of h rfl, tmplLoop]
  rfl

/-! ### completeness -/

/-- what a decomposition says about the lexer -/
def Good (src : List Char) : Mode → Nat → List Char → List Token → Prop
  | .top, p, s, ts => p ≤ src.length → src.drop p = s → scan src 0 p s = .ok ts
  | .text, p, s, ts => p ≤ src.length → src.drop p = s → ∃ ts1 n ts2, tmplLoop src false p 0 p s = .ok (ts1, n) ∧
      ts = ts1 ++ ts2 ∧ p ≤ n ∧ n ≤ src.length ∧ scan src 0 n (src.drop n) = .ok ts2
  | .expr ss, p, s, ts => p ≤ src.length → src.drop p = s → ss < p → ∃ ts1 n ts2, tmplLoop src true ss 0 p s = .ok (ts1, n) ∧
      ts = ts1 ++ ts2 ∧ p ≤ n ∧ n ≤ src.length ∧ scan src 0 n (src.drop n) = .ok ts2

theorem good_of_lexed {m : Mode} {p : Nat} {s : List Char} {ts : List Token} (h : Lexed src m p s ts) : Good src m p s ts := by
  induction h with
  | done => intro _ _; rfl
  | @piece p w r ts ts' hp _ ih =>
    intro hl hs
    obtain ⟨hd, hle⟩ := drop_append hl hs
    have h1 := piece_ne_nil hp
    cases w with
    | nil => simp at h1
    | cons c w =>
      have hs' : src.drop p = c :: (w ++ r) := hs
      have hi := (piece_iff hs' (piece_first hp).1).2 ⟨c :: w, r, rfl, rfl, hp⟩
      have ih := ih hle hd
      rw [List.cons_append, scan, if_neg (piece_first hp).1, hi]
      simp only
      rw [← (drop_cons hs').1, scan_skip _ _ (by simp at hle ⊢; omega)]
      have he : p + 1 + ((c :: w).length - 1) = p + (c :: w).length := by simp; omega
      rw [he, hd, ih]
  | @tmpl p r ts _ ih =>
    intro hl hs
    obtain ⟨hd, hlt⟩ := drop_cons hs
    obtain ⟨ts1, n, ts2, h1, rfl, h2, h3, h4⟩ := ih (by omega) hd
    rw [scan, if_pos rfl, template, h1]
    simp only
    rw [← hd, scan_skip _ _ (by omega)]
    have he : p + 1 + (n - p - 1) = n := by omega
    rw [he, h4]
    rfl
  | @textExpr p w r ts hw _ ih =>
    intro hl hs
    have hs2 : src.drop p = (w ++ ['$', '{']) ++ r := by simpa using hs
    obtain ⟨hd, hle⟩ := drop_append hl hs2
    have hq : p + (w ++ ['$', '{']).length = p + w.length + 2 := by simp; omega
    rw [hq] at hd hle
    obtain ⟨ts1, n, ts2, h1, rfl, h2, h3, h4⟩ := ih hle hd (by omega)
    refine ⟨_ :: _ :: ts1, n, ts2, ?_, rfl, by omega, h3, h4⟩
    rw [← hs, tmpl_expr hs hw, h1]
  | @textEnd p w r ts hw _ ih =>
    intro hl hs
    have hs2 : src.drop p = (w ++ ['`']) ++ r := by simpa using hs
    obtain ⟨hd, hle⟩ := drop_append hl hs2
    have hq : p + (w ++ ['`']).length = p + w.length + 1 := by simp; omega
    rw [hq] at hd hle
    refine ⟨_, _, ts, by rw [← hs]; exact tmpl_end hs hw, by simp, by omega, hle, by rw [hd]; exact ih hle hd⟩
  | @textEof p w hw =>
    intro hl hs
    refine ⟨_, _, [], by rw [← hs]; exact tmpl_eof hl hs hw, by simp, hl, Nat.le_refl _, ?_⟩
    rw [List.drop_length]
    rfl
  | @exprPiece ss p w r ts ts' hp hne _ ih =>
    intro hl hs hss
    obtain ⟨hd, hle⟩ := drop_append hl hs
    have h1 := piece_ne_nil hp
    cases w with
    | nil => simp at h1
    | cons c w =>
      have hs' : src.drop p = c :: (w ++ r) := hs
      have hi := (piece_iff hs' (piece_first hp).1).2 ⟨c :: w, r, rfl, rfl, hp⟩
      obtain ⟨ts1, n, ts2, h1, rfl, h2, h3, h4⟩ := ih hle hd (by omega)
      have hb : c ≠ '}' := by
        rintro rfl
        exact hne (by rw [(piece_first hp).2 rfl])
      refine ⟨ts ++ ts1, n, ts2, ?_, by simp, by omega, h3, h4⟩
      rw [List.cons_append, tmplLoop, if_neg (piece_first hp).1, if_pos rfl, if_neg hb, hi]
      simp only
      rw [← (drop_cons hs').1, tmpl_skip _ _ _ _ (by simp at hle ⊢; omega)]
      have he : p + 1 + ((c :: w).length - 1) = p + (c :: w).length := by simp; omega
      rw [he, hd, h1]
  | @exprEnd ss p r ts _ ih =>
    intro hl hs hss
    obtain ⟨hd, hlt⟩ := drop_cons hs
    obtain ⟨ts1, n, ts2, h1, rfl, h2, h3, h4⟩ := ih (by omega) hd
    refine ⟨_ :: ts1, n, ts2, ?_, rfl, by omega, h3, h4⟩
    rw [tmplLoop, if_neg (by decide), if_pos rfl, if_pos rfl, h1]
  | @exprTick ss p r ts _ ih =>
    intro hl hs hss
    obtain ⟨hd, hlt⟩ := drop_cons hs
    refine ⟨[_, _], p + 1, ts, ?_, rfl, by omega, hlt, by rw [hd]; exact ih hlt hd⟩
    rw [tmplLoop, if_pos rfl, if_pos hss]
    rfl
  | @exprEof ss p =>
    intro hl hs hss
    have he : p = src.length := by
      have := congrArg List.length hs
      simp at this
      omega
    refine ⟨[_], src.length, [], ?_, rfl, hl, Nat.le_refl _, by rw [List.drop_length]; rfl⟩
    rw [tmplLoop, he]
    rfl

/-! ### soundness -/

theorem lexed_nil {p : Nat} {s : List Char} {ts : List Token} (h : Lexed src .top p s ts) (hs : s = []) : ts = [] := by
  cases h with
  | done => rfl
  | piece hp _ =>
    have := piece_ne_nil hp
    simp at hs
    simp [hs.1] at this
  | tmpl => simp at hs

/-- a template's tokens followed by those of the rest -/
theorem tmpl_sound : ∀ (N p : Nat), p ≤ src.length → src.length - p < N →
    (∀ ts n, tmplLoop src false p 0 p (src.drop p) = .ok (ts, n) →
      p ≤ n ∧ n ≤ src.length ∧ ∀ ts', Lexed src .top n (src.drop n) ts' → Lexed src .text p (src.drop p) (ts ++ ts')) ∧
    (∀ ss ts n, ss < p → tmplLoop src true ss 0 p (src.drop p) = .ok (ts, n) →
      p ≤ n ∧ n ≤ src.length ∧ ∀ ts', Lexed src .top n (src.drop n) ts' → Lexed src (.expr ss) p (src.drop p) (ts ++ ts')) := by
  intro N
  induction N with
  | zero => intro p _ h; omega
  | succ N ih =>
    intro p hp hN
    refine ⟨?_, ?_⟩
    · intro ts n h
      obtain ⟨w, x, hs, hw, rfl | ⟨r, rfl⟩ | ⟨r, rfl⟩⟩ := text_exists (src.drop p)
      · rw [List.append_nil] at hs
        rw [tmpl_eof hp hs hw] at h
        simp only [Except.ok.injEq, Prod.mk.injEq] at h
        obtain ⟨rfl, rfl⟩ := h
        refine ⟨hp, Nat.le_refl _, ?_⟩
        intro ts' h
        rw [lexed_nil h (List.drop_length ..), hs, List.append_nil]
        exact .textEof hw
      · have hs2 : src.drop p = (w ++ ['`']) ++ r := by simpa using hs
        obtain ⟨hd, hle⟩ := drop_append hp hs2
        have hq : p + (w ++ ['`']).length = p + w.length + 1 := by simp; omega
        rw [hq] at hd hle
        rw [tmpl_end hs hw] at h
        simp only [Except.ok.injEq, Prod.mk.injEq] at h
        obtain ⟨rfl, rfl⟩ := h
        refine ⟨by omega, hle, ?_⟩
        intro ts' h
        rw [hd] at h
        rw [hs]
        simpa using Lexed.textEnd hw h
      · have hs2 : src.drop p = (w ++ ['$', '{']) ++ r := by simpa using hs
        obtain ⟨hd, hle⟩ := drop_append hp hs2
        have hq : p + (w ++ ['$', '{']).length = p + w.length + 2 := by simp; omega
        rw [hq] at hd hle
        rw [tmpl_expr hs hw, ← hd] at h
        cases hx : tmplLoop src true p 0 (p + w.length + 2) (src.drop (p + w.length + 2)) with
        | error x => rw [hx] at h; simp at h
        | ok res =>
          obtain ⟨ts1, n1⟩ := res
          rw [hx] at h
          simp only [Except.ok.injEq, Prod.mk.injEq] at h
          obtain ⟨rfl, rfl⟩ := h
          obtain ⟨h1, h2, h3⟩ := (ih (p + w.length + 2) hle (by omega)).2 p ts1 n1 (by omega) hx
          refine ⟨by omega, h2, ?_⟩
          intro ts' h
          have := h3 ts' h
          rw [hd] at this
          rw [hs]
          exact .textExpr hw this
    · intro ss ts n hss h
      cases hs : src.drop p with
      | nil =>
        have he : p = src.length := by
          have := congrArg List.length hs
          simp at this
          omega
        rw [hs, tmplLoop] at h
        simp only [Bool.not_true, Bool.false_and, Bool.false_eq_true, if_false, List.nil_append, Except.ok.injEq,
          Prod.mk.injEq] at h
        obtain ⟨rfl, rfl⟩ := h
        refine ⟨hp, Nat.le_refl _, ?_⟩
        intro ts' h
        rw [lexed_nil h (List.drop_length ..), ← he]
        exact .exprEof
      | cons c s =>
        obtain ⟨hd, hlt⟩ := drop_cons hs
        rw [hs, tmplLoop] at h
        by_cases hc : c = '`'
        · subst hc
          rw [if_pos rfl, if_pos hss] at h
          simp only [Except.ok.injEq, Prod.mk.injEq] at h
          obtain ⟨rfl, rfl⟩ := h
          refine ⟨by omega, hlt, ?_⟩
          intro ts' h
          rw [hd] at h
          exact .exprTick h
        rw [if_neg hc, if_pos rfl] at h
        by_cases hb : c = '}'
        · subst hb
          rw [if_pos rfl, ← hd] at h
          cases hx : tmplLoop src false (p + 1) 0 (p + 1) (src.drop (p + 1)) with
          | error x => rw [hx] at h; simp at h
          | ok res =>
            obtain ⟨ts1, n1⟩ := res
            rw [hx] at h
            simp only [Except.ok.injEq, Prod.mk.injEq] at h
            obtain ⟨rfl, rfl⟩ := h
            obtain ⟨h1, h2, h3⟩ := (ih (p + 1) hlt (by omega)).1 ts1 n1 hx
            refine ⟨by omega, h2, ?_⟩
            intro ts' h
            have := h3 ts' h
            rw [hd] at this
            exact .exprEnd this
        rw [if_neg hb] at h
        cases hi : item src p c s with
        | error x => rw [hi] at h; simp at h
        | ok res =>
          obtain ⟨ts0, k⟩ := res
          obtain ⟨w, r, hw, rfl, hpc⟩ := (piece_iff hs hc).1 hi
          obtain ⟨hd2, hle⟩ := drop_append hp (hs.trans hw)
          have h1 := piece_ne_nil hpc
          have he : p + 1 + (w.length - 1) = p + w.length := by omega
          rw [hi] at h
          simp only at h
          rw [← hd, tmpl_skip _ _ _ _ (by omega), he] at h
          cases hx : tmplLoop src true ss 0 (p + w.length) (src.drop (p + w.length)) with
          | error x => rw [hx] at h; simp at h
          | ok res =>
            obtain ⟨ts1, n1⟩ := res
            rw [hx] at h
            simp only [Except.ok.injEq, Prod.mk.injEq] at h
            obtain ⟨rfl, rfl⟩ := h
            obtain ⟨h1, h2, h3⟩ := (ih (p + w.length) hle (by omega)).2 ss ts1 n1 (by omega) hx
            refine ⟨by omega, h2, ?_⟩
            intro ts' h
            have := h3 ts' h
            rw [hd2] at this
            rw [hw, List.append_assoc]
            refine .exprPiece hpc ?_ this
            rintro rfl
            simp at hw
            exact hb hw.1

theorem scan_sound : ∀ (N p : Nat), p ≤ src.length → src.length - p < N → ∀ ts,
    scan src 0 p (src.drop p) = .ok ts → Lexed src .top p (src.drop p) ts := by
  intro N
  induction N with
  | zero => intro p _ h; omega
  | succ N ih =>
    intro p hp hN ts h
    cases hs : src.drop p with
    | nil =>
      rw [hs, scan] at h
      simp only [Except.ok.injEq] at h
      subst h
      exact .done
    | cons c s =>
      obtain ⟨hd, hlt⟩ := drop_cons hs
      rw [hs, scan] at h
      by_cases hc : c = '`'
      · subst hc
        rw [if_pos rfl, template, ← hd] at h
        cases hx : tmplLoop src false (p + 1) 0 (p + 1) (src.drop (p + 1)) with
        | error x => rw [hx] at h; simp at h
        | ok res =>
          obtain ⟨ts1, n1⟩ := res
          obtain ⟨h1, h2, h3⟩ := (tmpl_sound _ (p + 1) hlt (Nat.lt_succ_self _)).1 ts1 n1 hx
          rw [hx] at h
          simp only at h
          have he : p + 1 + (n1 - p - 1) = n1 := by omega
          rw [scan_skip _ _ (by omega), he] at h
          cases hy : scan src 0 n1 (src.drop n1) with
          | error x => rw [hy] at h; simp at h
          | ok ts2 =>
            rw [hy] at h
            simp only [Except.ok.injEq] at h
            subst h
            have := h3 ts2 (ih n1 h2 (by omega) ts2 hy)
            rw [hd] at this
            exact .tmpl this
      · rw [if_neg hc] at h
        cases hi : item src p c s with
        | error x => rw [hi] at h; simp at h
        | ok res =>
          obtain ⟨ts0, k⟩ := res
          obtain ⟨w, r, hw, rfl, hpc⟩ := (piece_iff hs hc).1 hi
          obtain ⟨hd2, hle⟩ := drop_append hp (hs.trans hw)
          have h1 := piece_ne_nil hpc
          have he : p + 1 + (w.length - 1) = p + w.length := by omega
          rw [hi] at h
          simp only at h
          rw [← hd, scan_skip _ _ (by omega), he] at h
          cases hx : scan src 0 (p + w.length) (src.drop (p + w.length)) with
          | error x => rw [hx] at h; simp at h
          | ok ts1 =>
            rw [hx] at h
            simp only [Except.ok.injEq] at h
            subst h
            have := ih (p + w.length) hle (by omega) ts1 hx
            rw [hd2] at this
            rw [hw]
            exact .piece hpc this

/-- the lexer succeeds exactly on the sources the grammar decomposes, with the same tokens -/
theorem tokenize_iff {ts : List Token} : tokenize src = .ok ts ↔ Lexed src .top 0 src ts := by
  constructor
  · intro h
    exact scan_sound (src.length + 1) 0 (Nat.zero_le _) (by omega) ts h
  · intro h
    exact good_of_lexed h (Nat.zero_le _) rfl

end Lex
end Zen
