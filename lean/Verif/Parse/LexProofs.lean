import Verif.Parse.Lexer
import Verif.Parse.LexSpec
/-
The lexer tokenizes a source exactly as the grammar does.
-/
namespace Zen
namespace Lex
open Spec

theorem slice_of {src : List Char} {p n : Nat} {w r : List Char} (h : src.drop p = w ++ r) (hn : n = w.length) :
    slice src p (p + n) = w := by
  subst hn
  simp [slice, h]

/-! ### classes -/

theorem isSpace_iff {c : Char} : isSpace c = true ↔ White c := by
  simp [isSpace, White, or_assoc]

theorem isDigit_iff {c : Char} : isDigit c = true ↔ Digit c := by
  simp [isDigit, Digit]

theorem isAlpha_iff {c : Char} : isAlpha c = true ↔ Letter c := by
  simp [isAlpha, Letter, or_assoc]

theorem isAlnum_iff {c : Char} : isAlnum c = true ↔ WordChar c := by
  have := @isDigit_iff c
  simp only [isAlnum, Bool.or_eq_true, this, WordChar, Letter]
  simp
  constructor
  · rintro (((((h | h) | h) | h) | h) | h) <;> simp [h]
  · rintro ((h | h | h | h | h) | h) <;> simp [h]

theorem not_digit_of_mem {c : Char} {l : List Char} (h : c ∈ l) (hl : ∀ x ∈ l, ¬ Digit x) : isDigit c = false := by
  cases h' : isDigit c
  · rfl
  · exact absurd (isDigit_iff.1 h') (hl c h)

/-! ### numbers -/

/-- the part of a mantissa still to be read, `f` if a dot has been read -/
structure MantTail (f : Bool) (m r : List Char) : Prop where
  chars : ∀ c ∈ m, Digit c ∨ c = '_' ∨ c = '.'
  oneDot : m.count '.' + (if f then 1 else 0) ≤ 1
  noRange : m.getLast? = some '.' → r.head? ≠ some '.'

theorem not_dot_of_digit {c : Char} (h : Digit c) : c ≠ '.' := by
  rintro rfl
  exact absurd h (by decide)

theorem mantissa_le : ∀ (s : List Char) (f : Bool), mantissa f s ≤ s.length
  | [], f => by simp [mantissa]
  | c :: r, f => by
    have h1 := mantissa_le r true
    have h2 := mantissa_le r f
    simp only [mantissa, List.length_cons]
    repeat' split
    all_goals omega

theorem mantTail_nil {f : Bool} {r : List Char} : MantTail f [] r :=
  ⟨by simp, by simp; split <;> simp, by simp⟩

theorem mantTail_cons_other {f : Bool} {c : Char} {m r : List Char} (hc : c ≠ '.') :
    MantTail f (c :: m) r ↔ (Digit c ∨ c = '_') ∧ MantTail f m r := by
  constructor
  · rintro ⟨h1, h2, h3⟩
    refine ⟨?_, ⟨fun x hx => h1 x (by simp [hx]), ?_, ?_⟩⟩
    · rcases h1 c (by simp) with h | h | h
      · exact .inl h
      · exact .inr h
      · exact absurd h hc
    · rw [List.count_cons_of_ne (by simpa using hc)] at h2
      exact h2
    · intro h
      apply h3
      rw [List.getLast?_cons, h]
      rfl
  · rintro ⟨h0, h1, h2, h3⟩
    refine ⟨?_, ?_, ?_⟩
    · intro x hx
      rcases List.mem_cons.1 hx with rfl | hx
      · rcases h0 with h | h <;> simp [h]
      · exact h1 x hx
    · rw [List.count_cons_of_ne (by simpa using hc)]
      exact h2
    · intro h
      cases m with
      | nil => simp at h; exact absurd h hc
      | cons y m => exact h3 (by simpa [List.getLast?_cons] using h)

theorem mantTail_dot_true {m r : List Char} : ¬ MantTail true ('.' :: m) r := by
  rintro ⟨_, h2, _⟩
  simp at h2

theorem mantTail_cons_dot {m r : List Char} :
    MantTail false ('.' :: m) r ↔ MantTail true m r ∧ (m ++ r).head? ≠ some '.' := by
  constructor
  · rintro ⟨h1, h2, h3⟩
    have h2' : m.count '.' = 0 := by simpa using h2
    refine ⟨⟨fun x hx => h1 x (by simp [hx]), by simp [h2'], ?_⟩, ?_⟩
    · intro h
      exact absurd (List.mem_of_getLast? h) (List.count_eq_zero.1 h2')
    · cases m with
      | nil => simpa using h3 (by simp)
      | cons y m =>
        have : y ≠ '.' := by
          rintro rfl
          simp at h2'
        simp [this]
  · rintro ⟨⟨h1, h2, h3⟩, h4⟩
    have h2' : m.count '.' = 0 := by simpa using h2
    refine ⟨?_, by simp [h2'], ?_⟩
    · intro x hx
      rcases List.mem_cons.1 hx with rfl | hx
      · simp
      · exact h1 x hx
    · intro h
      cases m with
      | nil => simpa using h4
      | cons y m => exact h3 (by simpa [List.getLast?_cons] using h)

theorem mantissa_spec : ∀ (s : List Char) (f : Bool),
    MantTail f (s.take (mantissa f s)) (s.drop (mantissa f s)) ∧
      ∀ m r, m ++ r = s → MantTail f m r → m.length ≤ mantissa f s
  | [], f => by
    refine ⟨by simp [mantissa, mantTail_nil], ?_⟩
    intro m r h _
    simp at h
    simp [h.1]
  | c :: s, f => by
    have key : ∀ m r, m ++ r = c :: s → MantTail f m r → m = [] ∨ ∃ m', m = c :: m' ∧ m' ++ r = s := by
      intro m r h _
      cases m with
      | nil => exact .inl rfl
      | cons y m =>
        simp at h
        exact .inr ⟨m, by rw [h.1], h.2⟩
    by_cases hdot : c = '.'
    · subst hdot
      cases f with
      | true =>
        have h0 : mantissa true ('.' :: s) = 0 := by simp [mantissa]
        rw [h0]
        refine ⟨by simpa using mantTail_nil, ?_⟩
        intro m r h hm
        rcases key m r h hm with rfl | ⟨m', rfl, _⟩
        · simp
        · exact absurd hm mantTail_dot_true
      | false =>
        by_cases hs : s.head? = some '.'
        · have h0 : mantissa false ('.' :: s) = 0 := by simp [mantissa, hs]
          rw [h0]
          refine ⟨by simpa using mantTail_nil, ?_⟩
          intro m r h hm
          rcases key m r h hm with rfl | ⟨m', rfl, h'⟩
          · simp
          · exact absurd hs (h' ▸ (mantTail_cons_dot.1 hm).2)
        · have h0 : mantissa false ('.' :: s) = mantissa true s + 1 := by simp [mantissa, hs]
          have ih := mantissa_spec s true
          rw [h0]
          refine ⟨?_, ?_⟩
          · rw [List.take_succ_cons, List.drop_succ_cons, mantTail_cons_dot]
            exact ⟨ih.1, by rwa [List.take_append_drop]⟩
          · intro m r h hm
            rcases key m r h hm with rfl | ⟨m', rfl, h'⟩
            · simp
            · have := ih.2 m' r h' (mantTail_cons_dot.1 hm).1
              simp
              omega
    · by_cases hc : Digit c ∨ c = '_'
      · have h0 : mantissa f (c :: s) = mantissa f s + 1 := by
          have : (isDigit c || c == '_' || c == '.') = true := by
            rcases hc with h | h
            · simp [isDigit_iff.2 h]
            · simp [h]
          rw [mantissa, if_pos this]
          simp [hdot]
        have ih := mantissa_spec s f
        rw [h0]
        refine ⟨?_, ?_⟩
        · rw [List.take_succ_cons, List.drop_succ_cons, mantTail_cons_other hdot]
          exact ⟨hc, ih.1⟩
        · intro m r h hm
          rcases key m r h hm with rfl | ⟨m', rfl, h'⟩
          · simp
          · have := ih.2 m' r h' ((mantTail_cons_other hdot).1 hm).2
            simp
            omega
      · have h0 : mantissa f (c :: s) = 0 := by
          have : (isDigit c || c == '_' || c == '.') = false := by
            simp only [not_or] at hc
            have : isDigit c = false := by
              cases h : isDigit c
              · rfl
              · exact absurd (isDigit_iff.1 h) hc.1
            simp [this, hc.2, hdot]
          rw [mantissa, if_neg (by simp [this])]
        rw [h0]
        refine ⟨by simpa using mantTail_nil, ?_⟩
        intro m r h hm
        rcases key m r h hm with rfl | ⟨m', rfl, h'⟩
        · simp
        · exact absurd ((mantTail_cons_other hdot).1 hm).1 hc

theorem mantissa_iff {d : Char} {m r : List Char} (hd : Digit d) : Mantissa (d :: m) r ↔ MantTail false m r := by
  have hdot := not_dot_of_digit hd
  constructor
  · rintro ⟨_, h2, h3, h4⟩
    exact ((mantTail_cons_other hdot).1 ⟨h2, by simpa using h3, h4⟩).2
  · intro h
    have := (mantTail_cons_other hdot (f := false) (m := m) (r := r)).2 ⟨.inl hd, h⟩
    exact ⟨⟨d, rfl, hd⟩, this.chars, by simpa using this.oneDot, this.noRange⟩

theorem mem_takeWhile {p : Char → Bool} : ∀ {l : List Char} {c : Char}, c ∈ l.takeWhile p → p c = true
  | [], _, h => by simp at h
  | y :: l, c, h => by
    rw [List.takeWhile_cons] at h
    split at h
    · rcases List.mem_cons.1 h with rfl | h
      · assumption
      · exact mem_takeWhile h
    · simp at h

theorem takeWhile_prefix_le {p : Char → Bool} {d r s : List Char} (h : d ++ r = s) (hd : ∀ c ∈ d, p c = true) :
    d.length ≤ (s.takeWhile p).length := by
  subst h
  rw [List.takeWhile_append_of_pos hd]
  simp

theorem exponent_spec (s : List Char) :
    (s.take (exponent s) = [] ∨ Exponent (s.take (exponent s))) ∧ exponent s ≤ s.length ∧
      ∀ e r, e ++ r = s → Exponent e → e.length ≤ exponent s := by
  by_cases he : ∃ r, s = 'e' :: r
  · obtain ⟨s, rfl⟩ := he
    have hk : ∀ sign digits : List Char, sign ∈ [[], ['+'], ['-']] → digits ≠ [] → (∀ c ∈ digits, Digit c) → ∀ r,
        sign ++ digits ++ r = s →
        sign.length = (if s.head? = some '+' ∨ s.head? = some '-' then 1 else 0) ∧
          digits.length ≤ ((s.drop sign.length).takeWhile isDigit).length := by
      intro sign digits hs hn hd r h
      have hdl : digits.length ≤ ((s.drop sign.length).takeWhile isDigit).length := by
        subst h
        rw [List.append_assoc, List.drop_left]
        exact takeWhile_prefix_le rfl (fun c hc => isDigit_iff.2 (hd c hc))
      refine ⟨?_, hdl⟩
      simp at hs
      rcases hs with rfl | rfl | rfl
      · cases digits with
        | nil => exact absurd rfl hn
        | cons d digits =>
          have := hd d (by simp)
          subst h
          have h1 : d ≠ '+' := by rintro rfl; exact absurd this (by decide)
          have h2 : d ≠ '-' := by rintro rfl; exact absurd this (by decide)
          simp [h1, h2]
      · subst h; simp
      · subst h; simp
    generalize hg : (if s.head? = some '+' ∨ s.head? = some '-' then 1 else 0) = g at hk
    have h0 : exponent ('e' :: s) = if ((s.drop g).takeWhile isDigit).length = 0 then 0
        else 1 + g + ((s.drop g).takeWhile isDigit).length := by
      rw [exponent]
      simp only [hg]
    have hgl : s.take g ∈ [[], ['+'], ['-']] ∧ g ≤ s.length := by
      subst hg
      split
      · cases s with
        | nil => simp_all
        | cons y s => simp_all
      · simp
    have hmax : ∀ e r, e ++ r = 'e' :: s → Exponent e →
        e.length ≤ 1 + g + ((s.drop g).takeWhile isDigit).length ∧ 0 < ((s.drop g).takeWhile isDigit).length := by
      rintro e r h ⟨sg, dg, rfl, h1, h2, h3⟩
      have := hk sg dg h1 h2 h3 r (by simpa using h)
      rw [← this.1]
      have h4 : 0 < dg.length := List.length_pos_iff.2 h2
      refine ⟨by simp; omega, by omega⟩
    have htw : (s.drop g).takeWhile isDigit <+: s.drop g := List.takeWhile_prefix _
    have hlen : ((s.drop g).takeWhile isDigit).length ≤ s.length - g := by simpa using htw.length_le
    split at h0
    · rename_i hz
      rw [h0]
      refine ⟨by simp, by simp, ?_⟩
      intro e r h he
      have := (hmax e r h he).2
      omega
    · rename_i hz
      rw [h0]
      refine ⟨.inr ⟨s.take g, (s.drop g).takeWhile isDigit, ?_, hgl.1, ?_, ?_⟩, by simp; omega,
        fun e r h he => (hmax e r h he).1⟩
      · rw [Nat.add_assoc, Nat.add_comm, List.take_succ_cons, List.take_add, List.prefix_iff_eq_take.1 htw]
        simp
      · intro h
        simp [h] at hz
      · intro c hc
        exact isDigit_iff.1 (mem_takeWhile hc)
  · have h0 : exponent s = 0 := by
      unfold exponent
      split
      · exact absurd ⟨_, rfl⟩ he
      · rfl
    rw [h0]
    refine ⟨by simp, by simp, ?_⟩
    rintro e r h ⟨sg, dg, rfl, _⟩
    exact absurd ⟨_, by simpa using h.symm⟩ he

theorem number_pieces (d : Char) (hd : Digit d) (s : List Char) :
    Number (d :: s.take (mantissa false s + exponent (s.drop (mantissa false s))))
      (s.drop (mantissa false s + exponent (s.drop (mantissa false s)))) := by
  obtain ⟨h1, h2⟩ := mantissa_spec s false
  obtain ⟨h3, h4, h5⟩ := exponent_spec (s.drop (mantissa false s))
  generalize mantissa false s = n at *
  generalize exponent (s.drop n) = k at *
  have hr : (s.drop n).take k ++ s.drop (n + k) = s.drop n := by
    rw [← List.drop_drop, List.take_append_drop]
  refine ⟨d :: s.take n, (s.drop n).take k, by simp [List.take_add], ?_, ?_, h3, ?_⟩
  · rw [hr]
    exact (mantissa_iff hd).2 h1
  · rw [hr]
    intro m' r' h hm
    cases m' with
    | nil => simp
    | cons y m' =>
      simp at h
      obtain ⟨rfl, h⟩ := h
      have := h2 m' r' h ((mantissa_iff hd).1 hm)
      have hl : n ≤ s.length ∨ s.length < n := by omega
      have := congrArg List.length h
      simp at this ⊢
      omega
  · rw [hr]
    intro e' r' h he
    have := h5 e' r' h he
    simp at h4 ⊢
    omega

theorem number_unique {w r w' r' : List Char} (h : w ++ r = w' ++ r') (h1 : Number w r) (h2 : Number w' r') : w = w' := by
  obtain ⟨m, e, rfl, hm, hmax, he, hemax⟩ := h1
  obtain ⟨m', e', rfl, hm', hmax', he', hemax'⟩ := h2
  have hmm : m.length = m'.length := by
    apply Nat.le_antisymm
    · exact hmax' m (e ++ r) (by simpa using h) hm
    · exact hmax m' (e' ++ r') (by simpa using h.symm) hm'
  have : m ++ (e ++ r) = m' ++ (e' ++ r') := by simpa using h
  obtain ⟨rfl, h'⟩ := List.append_inj this hmm
  have hee : e.length = e'.length := by
    apply Nat.le_antisymm
    · rcases he with rfl | he
      · simp
      · exact hemax' e r h' he
    · rcases he' with rfl | he'
      · simp
      · exact hemax e' r' h'.symm he'
  rw [(List.append_inj h' hee).1]

theorem number_head {w r : List Char} (h : Number w r) : ∃ d w', w = d :: w' ∧ Digit d := by
  obtain ⟨m, e, rfl, ⟨⟨d, hd, hdd⟩, _⟩, _⟩ := h
  cases m with
  | nil => simp at hd
  | cons y m =>
    simp at hd
    subst hd
    exact ⟨y, m ++ e, rfl, hdd⟩

/-! ### the first character decides -/

theorem class_false {c : Char} {f : Char → Bool} {P : Char → Prop} (hP : P c) (h : f c = true → ¬ P c) : f c = false := by
  cases h' : f c
  · rfl
  · exact absurd hP (h h')

theorem space_not {c : Char} (h : isSpace c = true) : ¬ Digit c ∧ ¬ Letter c := by
  simp only [isSpace, Bool.or_eq_true, beq_iff_eq] at h
  rcases h with (rfl | rfl) | rfl <;> decide

theorem bracket_not {c : Char} (h : isBracket c = true) : ¬ Digit c ∧ ¬ Letter c := by
  simp only [isBracket, Bool.or_eq_true, beq_iff_eq] at h
  rcases h with ((((rfl | rfl) | rfl) | rfl) | rfl) | rfl <;> decide

theorem cmp_not {c : Char} (h : isCmp c = true) : ¬ Digit c ∧ ¬ Letter c := by
  simp only [isCmp, Bool.or_eq_true, beq_iff_eq] at h
  rcases h with (rfl | rfl) | rfl <;> decide

theorem oper_not {c : Char} (h : isOper c = true) : ¬ Digit c ∧ ¬ Letter c := by
  simp only [isOper, Bool.or_eq_true, beq_iff_eq] at h
  rcases h with ((((((rfl | rfl) | rfl) | rfl) | rfl) | rfl) | rfl) | rfl <;> decide

theorem digit_not_letter {c : Char} (h : Digit c) : ¬ Letter c := by
  intro h'
  simp only [Digit, Letter, Char.le_def, List.mem_cons, List.not_mem_nil, or_false] at h h'
  rcases h' with h' | h' | rfl | rfl | rfl
  · have := h.2; have := h'.1
    exact absurd (UInt32.le_trans h'.1 h.2) (by decide)
  · exact absurd (UInt32.le_trans h'.1 h.2) (by decide)
  · exact absurd h (by decide)
  · exact absurd h (by decide)
  · exact absurd h (by decide)

theorem item_digit {src : List Char} {p : Nat} {c : Char} {r : List Char} (h : Digit c) : item src p c r = number src p r := by
  have h1 : isSpace c = false := class_false h (fun h' => (space_not h').1)
  have h2 : c ≠ '\'' := by rintro rfl; exact absurd h (by decide)
  have h3 : c ≠ '"' := by rintro rfl; exact absurd h (by decide)
  simp [item, h1, h2, h3, isDigit_iff.2 h]

theorem item_letter {src : List Char} {p : Nat} {c : Char} {r : List Char} (h : Letter c) :
    item src p c r = identifier src p r := by
  have h1 : isSpace c = false := class_false h (fun h' => (space_not h').2)
  have h2 : c ≠ '\'' := by rintro rfl; exact absurd h (by decide)
  have h3 : c ≠ '"' := by rintro rfl; exact absurd h (by decide)
  have h4 : isDigit c = false := class_false h (fun h' => digit_not_letter (isDigit_iff.1 h'))
  have h5 : isBracket c = false := class_false h (fun h' => (bracket_not h').2)
  have h6 : isCmp c = false := class_false h (fun h' => (cmp_not h').2)
  have h7 : isOper c = false := class_false h (fun h' => (oper_not h').2)
  have h8 : c ≠ '?' := by rintro rfl; exact absurd h (by decide)
  have h9 : c ≠ '=' := by rintro rfl; exact absurd h (by decide)
  have h10 : c ≠ '.' := by rintro rfl; exact absurd h (by decide)
  have h11 : c ≠ ';' := by rintro rfl; exact absurd h (by decide)
  simp [item, h1, h2, h3, h4, h5, h6, h7, h8, h9, h10, h11, isAlpha_iff.2 h]

/-! ### one piece -/

variable {src : List Char} {p : Nat}

theorem number_ok {d : Char} {s : List Char} (hs : src.drop p = d :: s) (hd : Digit d) {ts : List Token} {n : Nat} :
    item src p d s = .ok (ts, n) ↔ ∃ w r, d :: s = w ++ r ∧ n = w.length ∧ Number w r ∧ ts = [⟨.number, p, p + w.length, w⟩] := by
  have hp := number_pieces d hd s
  have hle : mantissa false s + exponent (s.drop (mantissa false s)) ≤ s.length := by
    have := mantissa_le s false
    have := (exponent_spec (s.drop (mantissa false s))).2.1
    simp at this
    omega
  rw [item_digit hd]
  simp only [number]
  rw [Nat.add_assoc]
  generalize mantissa false s + exponent (s.drop (mantissa false s)) = k at *
  have hsp : d :: s = (d :: s.take k) ++ s.drop k := by simp
  have hl : (d :: s.take k).length = 1 + k := by simp; omega
  have ht : tok src .number p (1 + k) = ⟨.number, p, p + (d :: s.take k).length, d :: s.take k⟩ := by
    rw [tok, slice_of (hs.trans hsp) hl.symm, hl]
  constructor
  · intro h
    simp only [Except.ok.injEq, Prod.mk.injEq] at h
    exact ⟨_, _, hsp, by rw [hl, h.2], hp, by rw [← h.1, ht]⟩
  · rintro ⟨w, r, h, hn, hw, rfl⟩
    have := number_unique (h.symm.trans hsp) hw hp
    subst this
    rw [ht, hn, hl]

/-- the kind of a word -/
def kindOf (v : List Char) : Kind :=
  if v = "and".toList then .op (.logic .and)
  else if v = "or".toList then .op (.logic .or)
  else if v = "in".toList then .op (.cmp .in_)
  else if v = "true".toList then .bool true
  else if v = "false".toList then .bool false
  else if v = "not".toList then .op (.logic .not)
  else match Ident.ofText v with
    | some i => .ident i
    | none => .literal

theorem kindOf_iff {v : List Char} {k : Kind} :
    ((v, k) ∈ keywords ∨ (k = .literal ∧ ∀ k', (v, k') ∉ keywords)) ↔ k = kindOf v := by
  have key : ∀ a : Kind, (∀ k, (v, k) ∈ keywords ↔ k = a) → kindOf v = a →
      (((v, k) ∈ keywords ∨ (k = .literal ∧ ∀ k', (v, k') ∉ keywords)) ↔ k = kindOf v) := by
    intro a h1 h2
    rw [h2]
    constructor
    · rintro (h | ⟨_, h⟩)
      · exact (h1 k).1 h
      · exact absurd ((h1 a).2 rfl) (h a)
    · intro h
      exact .inl ((h1 k).2 h)
  by_cases h1 : v = "and".toList
  · subst h1; exact key (.op (.logic .and)) (by intro k; simp [keywords]) (by decide)
  by_cases h2 : v = "or".toList
  · subst h2; exact key (.op (.logic .or)) (by intro k; simp [keywords]) (by decide)
  by_cases h3 : v = "in".toList
  · subst h3; exact key (.op (.cmp .in_)) (by intro k; simp [keywords]) (by decide)
  by_cases h4 : v = "true".toList
  · subst h4; exact key (.bool true) (by intro k; simp [keywords]) (by decide)
  by_cases h5 : v = "false".toList
  · subst h5; exact key (.bool false) (by intro k; simp [keywords]) (by decide)
  by_cases h6 : v = "not".toList
  · subst h6; exact key (.op (.logic .not)) (by intro k; simp [keywords]) (by decide)
  by_cases h7 : v = "$".toList
  · subst h7; exact key (.ident .context) (by intro k; simp [keywords]) (by decide)
  by_cases h8 : v = "$root".toList
  · subst h8; exact key (.ident .root) (by intro k; simp [keywords]) (by decide)
  by_cases h9 : v = "#".toList
  · subst h9; exact key (.ident .callback) (by intro k; simp [keywords]) (by decide)
  by_cases h10 : v = "null".toList
  · subst h10; exact key (.ident .null) (by intro k; simp [keywords]) (by decide)
  have hn : ∀ k', (v, k') ∉ keywords := by
    intro k' h
    simp only [keywords, List.mem_cons, Prod.mk.injEq, List.not_mem_nil, or_false] at h
    rcases h with h | h | h | h | h | h | h | h | h | h <;> simp_all
  have hk : kindOf v = .literal := by
    have h7' : v ≠ ['$'] := h7
    have h9' : v ≠ ['#'] := h9
    rw [kindOf, if_neg h1, if_neg h2, if_neg h3, if_neg h4, if_neg h5, if_neg h6, Ident.ofText, if_neg h7', if_neg h8,
      if_neg h9', if_neg h10]
  rw [hk]
  constructor
  · rintro (h | h)
    · exact absurd h (hn k)
    · exact h.1
  · intro h
    exact .inr ⟨h, hn⟩

theorem word_pieces {c : Char} (hc : Letter c) (s : List Char) :
    Word (c :: s.takeWhile isAlnum) (s.dropWhile isAlnum) := by
  refine ⟨⟨c, rfl, hc⟩, ?_, ?_⟩
  · intro x hx
    rcases List.mem_cons.1 hx with rfl | hx
    · exact .inl hc
    · exact isAlnum_iff.1 (mem_takeWhile hx)
  · intro x hx h
    have := List.head?_dropWhile_not isAlnum s
    rw [hx] at this
    simp [isAlnum_iff.2 h] at this

theorem word_unique {c : Char} {s w r : List Char} (h : c :: s = w ++ r) (hw : Word w r) :
    w = c :: s.takeWhile isAlnum ∧ r = s.dropWhile isAlnum := by
  obtain ⟨⟨c', h1, h2⟩, h3, h4⟩ := hw
  cases w with
  | nil => simp at h1
  | cons y w =>
    simp at h1 h
    subst h1
    obtain ⟨rfl, rfl⟩ := h
    have ha : ∀ x ∈ w, isAlnum x = true := fun x hx => isAlnum_iff.2 (h3 x (by simp [hx]))
    have hr : r.takeWhile isAlnum = [] ∧ r.dropWhile isAlnum = r := by
      cases r with
      | nil => simp
      | cons z r =>
        have : isAlnum z = false := by
          cases hz : isAlnum z
          · rfl
          · exact absurd (isAlnum_iff.1 hz) (h4 z rfl)
        simp [this]
    rw [List.takeWhile_append_of_pos ha, List.dropWhile_append_of_pos ha, hr.1, hr.2]
    simp

theorem word_ok {c : Char} {s : List Char} (hs : src.drop p = c :: s) (hc : Letter c) {ts : List Token} {n : Nat} :
    item src p c s = .ok (ts, n) ↔ ∃ w r, c :: s = w ++ r ∧ n = w.length ∧
      ((∃ k, Word w r ∧ ¬ (w = "not".toList ∧ " in ".toList <+: r) ∧
          ((w, k) ∈ keywords ∨ (k = .literal ∧ ∀ k', (w, k') ∉ keywords)) ∧ ts = [⟨k, p, p + w.length, w⟩]) ∨
       (w = "not in ".toList ∧ ts = [⟨.op (.cmp .notIn), p, p + 6, "not in".toList⟩])) := by
  rw [item_letter hc]
  have hw := word_pieces hc s
  have hu := @word_unique c s
  have hsp : c :: s = (c :: s.takeWhile isAlnum) ++ s.dropWhile isAlnum := by simp
  generalize hwd : c :: s.takeWhile isAlnum = w at *
  generalize hrd : s.dropWhile isAlnum = r at *
  have hn : 1 + (s.takeWhile isAlnum).length = w.length := by rw [← hwd]; simp; omega
  have hsl : slice src p (p + w.length) = w := slice_of (hs.trans hsp) rfl
  have hdrop : s.drop (w.length - 1) = r := by
    have h1 : s = s.takeWhile isAlnum ++ r := by rw [← hrd]; simp
    have h2 : w.length - 1 = (s.takeWhile isAlnum).length := by omega
    rw [h2]
    generalize s.takeWhile isAlnum = t at *
    rw [h1]
    simp
  have hid : identifier src p s = if w = "not".toList ∧ " in ".toList <+: r
      then .ok ([⟨.op (.cmp .notIn), p, p + 6, "not in".toList⟩], 7) else .ok ([⟨kindOf w, p, p + w.length, w⟩], w.length) := by
    simp only [identifier, hn, hsl, hdrop, tok, kindOf]
    by_cases h1 : w = "and".toList
    · subst h1; simp
    by_cases h2 : w = "or".toList
    · subst h2; simp
    by_cases h3 : w = "in".toList
    · subst h3; simp
    by_cases h4 : w = "true".toList
    · subst h4; simp
    by_cases h5 : w = "false".toList
    · subst h5; simp
    by_cases h6 : w = "not".toList
    · subst h6
      simp only [if_neg h1, if_neg h2, if_neg h3, if_neg h4, if_neg h5, notWord, List.isPrefixOf_iff_prefix, true_and, if_true]
      rfl
    · simp only [if_neg h1, if_neg h2, if_neg h3, if_neg h4, if_neg h5, h6, false_and]
      rfl
  rw [hid]
  constructor
  · split
    · rename_i hnot
      obtain ⟨rfl, r', rfl⟩ := hnot
      intro h
      simp only [Except.ok.injEq, Prod.mk.injEq] at h
      refine ⟨"not in ".toList, r', by rw [hsp]; simp, by rw [← h.2]; rfl, .inr ⟨rfl, h.1.symm⟩⟩
    · rename_i hnot
      intro h
      simp only [Except.ok.injEq, Prod.mk.injEq] at h
      exact ⟨w, r, hsp, h.2.symm, .inl ⟨kindOf w, hw, hnot, kindOf_iff.2 rfl, h.1.symm⟩⟩
  · rintro ⟨w', r', h, rfl, ⟨k, h1, h2, h3, rfl⟩ | ⟨rfl, rfl⟩⟩
    · obtain ⟨rfl, rfl⟩ := hu h h1
      rw [if_neg h2, kindOf_iff.1 h3]
    · have : Word "not".toList (" in ".toList ++ r') := by
        refine ⟨⟨'n', rfl, by decide⟩, by decide, ?_⟩
        intro x hx
        simp at hx
        subst hx
        decide
      obtain ⟨rfl, rfl⟩ := hu (by rw [h]; simp) this
      rw [if_pos ⟨rfl, by simp⟩]
      rfl

/-! ### symbols -/

/-- no longer operator symbol begins `w ++ r` -/
def LongestSym (w r : List Char) : Prop := ∀ w' o', (w', o') ∈ symbols → w' <+: w ++ r → w'.length ≤ w.length

theorem symbols_length {w : List Char} {o : Oper} (h : (w, o) ∈ symbols) : w.length = 1 ∨ w.length = 2 := by
  have : ∀ x ∈ symbols, x.1.length = 1 ∨ x.1.length = 2 := by decide
  exact this _ h

theorem symbols_fun {w : List Char} {o o' : Oper} (h : (w, o) ∈ symbols) (h' : (w, o') ∈ symbols) : o = o' := by
  have : ∀ x ∈ symbols, ∀ y ∈ symbols, x.1 = y.1 → x.2 = y.2 := by decide
  exact this _ h _ h' rfl

theorem longest2 {c d : Char} {r : List Char} : LongestSym [c, d] r := by
  intro w' o' h _
  have := symbols_length h
  simp
  omega

theorem longest1 {c : Char} {r : List Char} (h : ∀ d o, ([c, d], o) ∈ symbols → r.head? ≠ some d) : LongestSym [c] r := by
  intro w' o' hs hp
  rcases symbols_length hs with h1 | h1
  · simp [h1]
  · match w', h1 with
    | [a, b], _ =>
      obtain ⟨t, ht⟩ := hp
      simp at ht
      obtain ⟨rfl, ht⟩ := ht
      exact absurd (by simp [← ht]) (h b o' hs)

theorem sym_unique {w r w' r' : List Char} {o o' : Oper} (h : w ++ r = w' ++ r') (h1 : (w, o) ∈ symbols) (h2 : LongestSym w r)
    (h1' : (w', o') ∈ symbols) (h2' : LongestSym w' r') : w = w' ∧ o = o' := by
  have hl : w.length = w'.length :=
    Nat.le_antisymm (h2' w o h1 (h ▸ List.prefix_append ..)) (h2 w' o' h1' (h ▸ List.prefix_append ..))
  obtain ⟨rfl, _⟩ := List.append_inj h hl
  exact ⟨rfl, symbols_fun h1 h1'⟩

def symChars : List Char := ['+', '-', '*', '/', '%', '^', ',', ':', ';', '!', '?', '=', '<', '>', '.']

theorem sym_first {w : List Char} {o : Oper} (h : (w, o) ∈ symbols) : ∃ c w', w = c :: w' ∧ c ∈ symChars := by
  have : ∀ x ∈ symbols, ∃ c ∈ symChars, x.1.head? = some c := by decide
  obtain ⟨c, hc, h⟩ := this _ h
  cases w with
  | nil => simp at h
  | cons y w => simp at h; exact ⟨c, w, by rw [h], hc⟩

theorem sym_exists {c : Char} {s : List Char} (hs : src.drop p = c :: s) (hc : c ∈ symChars) :
    ∃ w r o, c :: s = w ++ r ∧ (w, o) ∈ symbols ∧ LongestSym w r ∧
      item src p c s = .ok ([⟨.op o, p, p + w.length, w⟩], w.length) := by
  have hs1 : slice src p (p + 1) = [c] := slice_of (w := [c]) (r := s) hs rfl
  have hs2 : ∀ d s', s = d :: s' → slice src p (p + 2) = [c, d] := by
    rintro d s' rfl
    exact slice_of (w := [c, d]) (r := s') hs rfl
  have one : ∀ o, ([c], o) ∈ symbols → (∀ d o, ([c, d], o) ∈ symbols → s.head? ≠ some d) →
      item src p c s = .ok ([⟨.op o, p, p + 1, slice src p (p + 1)⟩], 1) →
      ∃ w r o, c :: s = w ++ r ∧ (w, o) ∈ symbols ∧ LongestSym w r ∧
      item src p c s = .ok ([⟨.op o, p, p + w.length, w⟩], w.length) := by
    intro o h1 h2 h3
    rw [hs1] at h3
    exact ⟨[c], s, o, rfl, h1, longest1 h2, h3⟩
  have two : ∀ d o, s.head? = some d → ([c, d], o) ∈ symbols →
      item src p c s = .ok ([⟨.op o, p, p + 2, slice src p (p + 2)⟩], 2) →
      ∃ w r o, c :: s = w ++ r ∧ (w, o) ∈ symbols ∧ LongestSym w r ∧
      item src p c s = .ok ([⟨.op o, p, p + w.length, w⟩], w.length) := by
    intro d o h1 h2 h3
    cases s with
    | nil => simp at h1
    | cons y s =>
      simp at h1
      subst h1
      rw [hs2 _ _ rfl] at h3
      exact ⟨[c, y], s, o, rfl, h2, longest2, h3⟩
  have sl : ∀ d, s.head? = some d → slice src p (p + 2) = [c, d] := by
    intro d h
    cases s with
    | nil => simp at h
    | cons y s => simp at h; subst h; exact hs2 _ _ rfl
  have ops : ∀ n o, opOfText (slice src p (p + n)) = some o → opStep src p n = .ok ([⟨.op o, p, p + n, slice src p (p + n)⟩], n) := by
    intro n o h
    rw [opStep, h]
    rfl
  simp only [symChars, List.mem_cons, List.not_mem_nil, or_false] at hc
  rcases hc with rfl | rfl | rfl | rfl | rfl | rfl | rfl | rfl | rfl | rfl | rfl | rfl | rfl | rfl | rfl
  · exact one (.arith .add) (by decide) (by intro d o h; simp [symbols] at h) (ops 1 _ (by rw [hs1]; decide))
  · exact one (.arith .sub) (by decide) (by intro d o h; simp [symbols] at h) (ops 1 _ (by rw [hs1]; decide))
  · exact one (.arith .mul) (by decide) (by intro d o h; simp [symbols] at h) (ops 1 _ (by rw [hs1]; decide))
  · exact one (.arith .div) (by decide) (by intro d o h; simp [symbols] at h) (ops 1 _ (by rw [hs1]; decide))
  · exact one (.arith .mod) (by decide) (by intro d o h; simp [symbols] at h) (ops 1 _ (by rw [hs1]; decide))
  · exact one (.arith .pow) (by decide) (by intro d o h; simp [symbols] at h) (ops 1 _ (by rw [hs1]; decide))
  · exact one .comma (by decide) (by intro d o h; simp [symbols] at h) (ops 1 _ (by rw [hs1]; decide))
  · exact one .slice (by decide) (by intro d o h; simp [symbols] at h) (ops 1 _ (by rw [hs1]; decide))
  · exact one .semi (by decide) (by intro d o h; simp [symbols] at h) rfl
  · by_cases h : s.head? = some '='
    · exact two '=' (.cmp .ne) h (by decide) (by
        show cmpOperator src p s = _
        rw [cmpOperator, if_pos h]; exact ops 2 _ (by rw [sl _ h]; decide))
    · exact one (.logic .not) (by decide) (by intro d o h'; simp [symbols] at h'; rw [h'.1]; exact h) (by
        show cmpOperator src p s = _
        rw [cmpOperator, if_neg h]; exact ops 1 _ (by rw [hs1]; decide))
  · by_cases h : s.head? = some '?'
    · exact two '?' (.logic .coalesce) h (by decide) (by show questionMark src p s = _; rw [questionMark, if_pos h]; rfl)
    · exact one .question (by decide) (by intro d o h'; simp [symbols] at h'; rw [h'.1]; exact h)
        (by show questionMark src p s = _; rw [questionMark, if_neg h]; rfl)
  · by_cases h : s.head? = some '='
    · exact two '=' (.cmp .eq) h (by decide) (by show equals src p s = _; rw [equals, if_pos h]; rfl)
    · exact one .assign (by decide) (by intro d o h'; simp [symbols] at h'; rw [h'.1]; exact h)
        (by show equals src p s = _; rw [equals, if_neg h]; rfl)
  · by_cases h : s.head? = some '='
    · exact two '=' (.cmp .le) h (by decide) (by
        show cmpOperator src p s = _
        rw [cmpOperator, if_pos h]; exact ops 2 _ (by rw [sl _ h]; decide))
    · exact one (.cmp .lt) (by decide) (by intro d o h'; simp [symbols] at h'; rw [h'.1]; exact h) (by
        show cmpOperator src p s = _
        rw [cmpOperator, if_neg h]; exact ops 1 _ (by rw [hs1]; decide))
  · by_cases h : s.head? = some '='
    · exact two '=' (.cmp .ge) h (by decide) (by
        show cmpOperator src p s = _
        rw [cmpOperator, if_pos h]; exact ops 2 _ (by rw [sl _ h]; decide))
    · exact one (.cmp .gt) (by decide) (by intro d o h'; simp [symbols] at h'; rw [h'.1]; exact h) (by
        show cmpOperator src p s = _
        rw [cmpOperator, if_neg h]; exact ops 1 _ (by rw [hs1]; decide))
  · by_cases h : s.head? = some '.'
    · exact two '.' .range h (by decide) (by
        show dot src p s = _
        rw [dot, if_pos h]; exact ops 2 _ (by rw [sl _ h]; decide))
    · exact one .dot (by decide) (by intro d o h'; simp [symbols] at h'; rw [h'.1]; exact h) (by
        show dot src p s = _
        rw [dot, if_neg h]; exact ops 1 _ (by rw [hs1]; decide))

theorem sym_ok {c : Char} {s : List Char} (hs : src.drop p = c :: s) (hc : c ∈ symChars) {ts : List Token} {n : Nat} :
    item src p c s = .ok (ts, n) ↔ ∃ w r o, c :: s = w ++ r ∧ n = w.length ∧ (w, o) ∈ symbols ∧ LongestSym w r ∧
      ts = [⟨.op o, p, p + w.length, w⟩] := by
  obtain ⟨w, r, o, h1, h2, h3, h4⟩ := sym_exists hs hc
  rw [h4]
  constructor
  · intro h
    simp only [Except.ok.injEq, Prod.mk.injEq] at h
    exact ⟨w, r, o, h1, h.2.symm, h2, h3, h.1.symm⟩
  · rintro ⟨w', r', o', h1', rfl, h2', h3', rfl⟩
    obtain ⟨rfl, rfl⟩ := sym_unique (h1'.symm.trans h1) h2' h3' h2 h3
    rfl

/-! ### brackets, strings, white space -/

theorem bracket_first {w : List Char} {b : Brk} (h : (w, b) ∈ brackets) :
    ∃ c, w = [c] ∧ c ∈ ['(', ')', '[', ']', '{', '}'] := by
  have : ∀ x ∈ brackets, ∃ c ∈ ['(', ')', '[', ']', '{', '}'], x.1 = [c] := by decide
  obtain ⟨c, hc, h⟩ := this _ h
  exact ⟨c, h, hc⟩

theorem bracket_ok {c : Char} {s : List Char} (hs : src.drop p = c :: s) (hc : c ∈ ['(', ')', '[', ']', '{', '}'])
    {ts : List Token} {n : Nat} :
    item src p c s = .ok (ts, n) ↔ ∃ b, n = 1 ∧ ([c], b) ∈ brackets ∧ ts = [⟨.bracket b, p, p + 1, [c]⟩] := by
  have hs1 : slice src p (p + 1) = [c] := slice_of (w := [c]) (r := s) hs rfl
  have key : ∀ b, brkOfText [c] = some b → (∀ b', ([c], b') ∈ brackets ↔ b' = b) → item src p c s = bracket src p →
      (item src p c s = .ok (ts, n) ↔ ∃ b, n = 1 ∧ ([c], b) ∈ brackets ∧ ts = [⟨.bracket b, p, p + 1, [c]⟩]) := by
    intro b h1 h2 h3
    rw [h3, bracket, hs1, h1]
    simp only [Except.ok.injEq, Prod.mk.injEq, tok, hs1]
    constructor
    · rintro ⟨rfl, rfl⟩
      exact ⟨b, rfl, (h2 b).2 rfl, rfl⟩
    · rintro ⟨b', rfl, h, rfl⟩
      rw [(h2 b').1 h]
      simp
  simp only [List.mem_cons, List.not_mem_nil, or_false] at hc
  rcases hc with rfl | rfl | rfl | rfl | rfl | rfl
  · exact key .lparen (by decide) (by simp [brackets]) rfl
  · exact key .rparen (by decide) (by simp [brackets]) rfl
  · exact key .lsq (by decide) (by simp [brackets]) rfl
  · exact key .rsq (by decide) (by simp [brackets]) rfl
  · exact key .lcurly (by decide) (by simp [brackets]) rfl
  · exact key .rcurly (by decide) (by simp [brackets]) rfl

theorem string_ok {q : Quote} {c : Char} {s : List Char} (hs : src.drop p = c :: s) (hq : q.text = [c]) {ts : List Token}
    {n : Nat} :
    string src q p c s = .ok (ts, n) ↔ ∃ w r, s = w ++ c :: r ∧ c ∉ w ∧ n = w.length + 2 ∧
      ts = [⟨.quote q, p, p + 1, [c]⟩, ⟨.literal, p + 1, p + 1 + w.length, w⟩,
        ⟨.quote q, p + 1 + w.length, p + 2 + w.length, [c]⟩] := by
  have hs' : src.drop (p + 1) = s := by
    rw [← List.drop_drop, hs]
    rfl
  have split : ∀ w r, s = w ++ c :: r → c ∉ w → s.findIdx? (· == c) = some w.length := by
    intro w r h hw
    rw [List.findIdx?_eq_some_iff_getElem]
    subst h
    refine ⟨by simp, by simp, ?_⟩
    intro j hj
    rw [List.getElem_append_left hj]
    simp only [beq_iff_eq]
    intro h
    exact hw (h ▸ List.getElem_mem _)
  have out : ∀ w r, s = w ++ c :: r → c ∉ w → string src q p c s = .ok ([⟨.quote q, p, p + 1, [c]⟩,
      ⟨.literal, p + 1, p + 1 + w.length, w⟩, ⟨.quote q, p + 1 + w.length, p + 2 + w.length, [c]⟩], w.length + 2) := by
    intro w r h hw
    rw [string, split w r h hw, hq]
    simp only
    rw [slice_of (hs'.trans h) rfl]
    have : p + 1 + w.length + 1 = p + 2 + w.length := by omega
    rw [this]
  constructor
  · intro h
    cases hf : s.findIdx? (· == c) with
    | none => rw [string, hf] at h; simp at h
    | some k =>
      obtain ⟨h1, h2, h3⟩ := List.findIdx?_eq_some_iff_getElem.1 hf
      have hsp : s = s.take k ++ c :: s.drop (k + 1) := by
        have : s[k] = c := by simpa using h2
        conv => lhs; rw [← List.take_append_drop k s, List.drop_eq_getElem_cons h1, this]
      have hw : c ∉ s.take k := by
        intro hm
        obtain ⟨j, hj, hjc⟩ := List.mem_iff_getElem.1 hm
        simp at hj hjc
        have := h3 j (by omega)
        simp [hjc] at this
      have := out _ _ hsp hw
      rw [this] at h
      simp only [Except.ok.injEq, Prod.mk.injEq] at h
      exact ⟨_, _, hsp, hw, h.2.symm, h.1.symm⟩
  · rintro ⟨w, r, h, hw, rfl, rfl⟩
    exact out w r h hw

/-! ### any piece -/

theorem piece_iff {c : Char} {s : List Char} (hs : src.drop p = c :: s) (hc : c ≠ '`') {ts : List Token} {n : Nat} :
    item src p c s = .ok (ts, n) ↔ ∃ w r, c :: s = w ++ r ∧ n = w.length ∧ Piece p w r ts := by
  constructor
  · intro h
    by_cases h1 : White c
    · rw [item, if_pos (isSpace_iff.2 h1)] at h
      simp only [Except.ok.injEq, Prod.mk.injEq] at h
      obtain ⟨rfl, rfl⟩ := h
      exact ⟨[c], s, rfl, rfl, .space h1⟩
    have h1' : isSpace c = false := by
      cases h' : isSpace c
      · rfl
      · exact absurd (isSpace_iff.1 h') h1
    by_cases h2 : c = '\''
    · subst h2
      rw [item, if_neg (by simp [h1']), if_pos rfl] at h
      obtain ⟨w, r, rfl, hw, rfl, rfl⟩ := (string_ok hs rfl).1 h
      exact ⟨'\'' :: w ++ ['\''], r, by simp, by simp, .string (by simp) hw⟩
    by_cases h3 : c = '"'
    · subst h3
      rw [item, if_neg (by simp [h1']), if_neg h2, if_pos rfl] at h
      obtain ⟨w, r, rfl, hw, rfl, rfl⟩ := (string_ok hs rfl).1 h
      exact ⟨'"' :: w ++ ['"'], r, by simp, by simp, .string (by simp) hw⟩
    by_cases h4 : Digit c
    · obtain ⟨w, r, h5, h6, h7, rfl⟩ := (number_ok hs h4).1 h
      exact ⟨w, r, h5, h6, .lexeme (.number h7)⟩
    by_cases h5 : Letter c
    · obtain ⟨w, r, h6, h7, ⟨k, h8, h9, h10, rfl⟩ | ⟨rfl, rfl⟩⟩ := (word_ok hs h5).1 h
      · exact ⟨w, r, h6, h7, .lexeme (.word h8 h9 h10)⟩
      · exact ⟨_, r, h6, h7, .notIn⟩
    by_cases h6 : c ∈ symChars
    · obtain ⟨w, r, o, h7, h8, h9, h10, rfl⟩ := (sym_ok hs h6).1 h
      exact ⟨w, r, h7, h8, .lexeme (.symbol h9 h10)⟩
    by_cases h7 : c ∈ ['(', ')', '[', ']', '{', '}']
    · obtain ⟨b, rfl, h8, rfl⟩ := (bracket_ok hs h7).1 h
      exact ⟨[c], s, rfl, rfl, .lexeme (.bracket h8)⟩
    exfalso
    have h4' : isDigit c = false := by
      cases h' : isDigit c
      · rfl
      · exact absurd (isDigit_iff.1 h') h4
    have h5' : isAlpha c = false := by
      cases h' : isAlpha c
      · rfl
      · exact absurd (isAlpha_iff.1 h') h5
    simp only [symChars, List.mem_cons, List.not_mem_nil, or_false, not_or] at h6 h7
    simp [item, h1', h2, h3, h4', h5', isBracket, isCmp, isOper, h6, h7] at h
  · rintro ⟨w, r, h, rfl, hp⟩
    cases hp with
    | space hw =>
      simp at h
      rw [item, if_pos (isSpace_iff.2 (h.1 ▸ hw))]
      rfl
    | notIn =>
      have hc : c = 'n' := by simp at h; exact h.1
      subst hc
      exact (word_ok hs (by decide)).2 ⟨_, r, h, rfl, .inr ⟨rfl, rfl⟩⟩
    | string hq hw =>
      simp at h
      obtain ⟨rfl, rfl⟩ := h
      simp only [List.mem_cons, Prod.mk.injEq, List.not_mem_nil, or_false] at hq
      rcases hq with ⟨rfl, rfl⟩ | ⟨rfl, rfl⟩
      · rw [item, if_neg (by decide), if_pos rfl]
        exact (string_ok hs rfl).2 ⟨_, r, rfl, hw, by simp, rfl⟩
      · rw [item, if_neg (by decide), if_neg (by decide), if_pos rfl]
        exact (string_ok hs rfl).2 ⟨_, r, rfl, hw, by simp, rfl⟩
    | lexeme hl =>
      cases hl with
      | word h1 h2 h3 =>
        obtain ⟨c', h4, h5⟩ := h1.first
        have : c' = c := by
          cases w with
          | nil => simp at h4
          | cons y w => simp at h4 h; rw [← h4, h.1]
        subst this
        exact (word_ok hs h5).2 ⟨w, r, h, rfl, .inl ⟨_, h1, h2, h3, rfl⟩⟩
      | number h1 =>
        obtain ⟨d, w', rfl, hd⟩ := number_head h1
        have : d = c := by simp at h; exact h.1.symm
        subst this
        exact (number_ok hs hd).2 ⟨_, r, h, rfl, h1, rfl⟩
      | symbol h1 h2 =>
        obtain ⟨d, w', rfl, hd⟩ := sym_first h1
        have : d = c := by simp at h; exact h.1.symm
        subst this
        exact (sym_ok hs hd).2 ⟨_, r, _, h, rfl, h1, h2, rfl⟩
      | bracket h1 =>
        obtain ⟨d, rfl, hd⟩ := bracket_first h1
        have : d = c := by simp at h; exact h.1.symm
        subst this
        exact (bracket_ok hs hd).2 ⟨_, rfl, h1, rfl⟩

end Lex
end Zen
