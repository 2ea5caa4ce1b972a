import Verif.Parse.SyntaxInd
import Verif.Parse.ParseFuel
/-
The parser reads written expressions back.
-/
namespace Zen
namespace Parse
open Zen.Lex

theorem identText_eq (i : Ident) : identText i = wordOf i := by cases i <;> rfl

theorem cloOfText_iff (s : String) (k : Clo) : cloOfText s = some k ↔ s = closureName k := by
  constructor
  · intro h
    unfold cloOfText at h
    repeat' split at h
    all_goals first | (injection h with h; subst h; assumption) | cases h
  · rintro rfl
    cases k <;> rfl

theorem methods_iff (s : String) : methods.contains s = true ↔ s ∈ methodNames := by
  rw [List.contains_iff_mem]
  exact Iff.rfl

theorem validProperty_iff (k : Kind) : validProperty k = true ↔ afterDot k := by
  unfold validProperty afterDot
  constructor
  · intro h
    split at h
    · exact .inr (.inl ⟨_, rfl⟩)
    · exact .inl rfl
    · exact .inr (.inr (.inl ⟨_, rfl⟩))
    · exact .inr (.inr (.inr rfl))
    · cases h
  · rintro (rfl | ⟨i, rfl⟩ | ⟨o, rfl⟩ | rfl) <;> rfl

/-- the parser's precedence for a level -/
def lv : Nat → Nat
  | 0 => 0 | 1 => 1 | 2 => 10 | 3 => 11 | 4 => 15 | 5 => 16 | 6 => 20 | 7 => 21 | 8 => 30 | 9 => 31
  | 10 => 50 | 11 => 51 | 12 => 60 | 13 => 61 | 14 => 70 | 15 => 71 | 16 => 80 | 17 => 81
  | n + 18 => n + 200

theorem lv_succ : ∀ n : Nat, lv n < lv (n + 1)
  | 0 => by decide
  | 1 => by decide
  | 2 => by decide
  | 3 => by decide
  | 4 => by decide
  | 5 => by decide
  | 6 => by decide
  | 7 => by decide
  | 8 => by decide
  | 9 => by decide
  | 10 => by decide
  | 11 => by decide
  | 12 => by decide
  | 13 => by decide
  | 14 => by decide
  | 15 => by decide
  | 16 => by decide
  | 17 => by decide
  | n + 18 => by simp [lv]

theorem lv_lt {a b : Nat} (h : a < b) : lv a < lv b := by
  induction b with
  | zero => omega
  | succ b ih =>
    rcases Nat.lt_succ_iff_lt_or_eq.1 h with h | h
    · exact Nat.lt_trans (ih h) (lv_succ b)
    · rw [h]; exact lv_succ b

theorem lv_le {a b : Nat} (h : a ≤ b) : lv a ≤ lv b := by
  rcases Nat.lt_or_eq_of_le h with h | h
  · exact Nat.le_of_lt (lv_lt h)
  · rw [h]

theorem lv_zero {a : Nat} : lv a = 0 ↔ a = 0 := by
  constructor
  · intro h
    rcases Nat.eq_zero_or_pos a with h' | h'
    · exact h'
    · have := lv_lt h'; rw [h] at this; omega
  · intro h; rw [h]; rfl

theorem binOp_strength {o : Oper} {k : Nat} (h : strength o = some k) :
    ∃ right, binOp o = some (lv (2 * k), right) ∧ (if right then lv (2 * k) else lv (2 * k) + 1) = lv (place o k) := by
  cases o with
  | arith a => cases a <;> (simp [strength] at h; subst h; exact ⟨_, rfl, rfl⟩)
  | logic a => cases a <;> simp [strength] at h <;> (subst h; exact ⟨_, rfl, rfl⟩)
  | cmp a => simp [strength] at h; subst h; exact ⟨_, rfl, rfl⟩
  | _ => simp [strength] at h

theorem binOp_none {o : Oper} (h : strength o = none) : binOp o = none := by
  cases o with
  | arith a => cases a <;> simp [strength] at h
  | logic a => cases a <;> first | rfl | (simp [strength] at h)
  | cmp a => simp [strength] at h
  | _ => rfl

theorem unOp_strength {o : Oper} {s : Nat} (h : prefixStrength o = some s) : unOp o = some (lv (2 * s)) := by
  cases o with
  | arith a => cases a <;> simp [prefixStrength] at h <;> (subst h; rfl)
  | logic a => cases a <;> first | (cases h; rfl) | (simp [prefixStrength] at h)
  | _ => simp [prefixStrength] at h

/-- the tokens do not continue an expression that has a place of level `M` open at its end -/
def Stop (C : PCfg) (c : Ctx) (M : Nat) (ts : List Token) : Prop :=
  ∀ kd, kind? ts = some kd →
    kd ≠ .bracket .lsq ∧ kd ≠ .bracket .lparen ∧ kd ≠ .op .dot ∧ kd ≠ .op .assign ∧
    (∀ o k, kd = .op o → strength o = some k → stopsAt C c o = true ∨ 2 * k < M) ∧
    (kd = .op .question → 0 < M)

theorem stopsAt_global {C : PCfg} {c : Ctx} {o : Oper} (h : stopsAt C c o = true) : stopsAt C .global o = true := by
  cases c with
  | global => exact h
  | closure => simp [stopsAt] at h

theorem Stop.weaken {C : PCfg} {c : Ctx} {M M' : Nat} {ts : List Token} (h : Stop C c M ts) (hm : M ≤ M') : Stop C .global M' ts := by
  intro kd hk
  obtain ⟨h1, h2, h3, h4, h5, h6⟩ := h kd hk
  refine ⟨h1, h2, h3, h4, ?_, fun e => by have := h6 e; omega⟩
  intro o k e e'
  rcases h5 o k e e' with h | h
  · exact .inl (stopsAt_global h)
  · right; omega

theorem Stop.le {C : PCfg} {c : Ctx} {M M' : Nat} {ts : List Token} (h : Stop C c M ts) (hm : M ≤ M') : Stop C c M' ts := by
  intro kd hk
  obtain ⟨h1, h2, h3, h4, h5, h6⟩ := h kd hk
  refine ⟨h1, h2, h3, h4, ?_, fun e => by have := h6 e; omega⟩
  intro o k e e'
  rcases h5 o k e e' with h | h
  · exact .inl h
  · right; omega

/-- tokens that end any expression -/
def closes : Kind → Bool
  | .bracket .lsq | .bracket .lparen => false
  | .op o => (strength o).isNone && o != .dot && o != .assign && o != .question
  | _ => true

theorem Stop.of_closes {C : PCfg} {c : Ctx} {M : Nat} {t : Token} {k : Kind} (h : t.kind = k) (hk : closes k = true)
    (r : List Token) : Stop C c M (t :: r) := by
  intro kd hkd
  simp [kind?] at hkd
  rw [← hkd, h]
  refine ⟨?_, ?_, ?_, ?_, ?_, ?_⟩
  · rintro rfl; simp [closes] at hk
  · rintro rfl; simp [closes] at hk
  · rintro rfl; simp [closes] at hk
  · rintro rfl; simp [closes] at hk
  · intro o s e hs; subst e; simp [closes, hs] at hk
  · rintro rfl; simp [closes] at hk

theorem Stop.nil {C : PCfg} {c : Ctx} {M : Nat} : Stop C c M [] := by
  intro kd h; simp [kind?] at h

theorem Starts.not {ts : List Token} (h : Starts ts) (k : Kind) (hk : startKind k = false) : expect k ts = none := by
  obtain ⟨t, r, rfl, h⟩ := h
  rw [expect_cons, if_neg]
  intro e
  rw [e, hk] at h
  cases h

theorem Starts.ne_nil {ts : List Token} (h : Starts ts) : ts ≠ [] := by
  obtain ⟨t, r, rfl, h⟩ := h
  simp

/-! ### accesses -/

theorem postfixes_enough {C : PCfg} {rec : Rec} {d : Nat} (hs : Shrink rec) :
    ∀ n m node ts, ts.length < n → ts.length < m → postfixes C rec d n node ts = postfixes C rec d m node ts
  | 0, _, _, _, h, _ => by omega
  | _ + 1, 0, _, _, _, h => by omega
  | n + 1, m + 1, node, ts, hn, hm => by
    have ih := postfixes_enough (C := C) (d := d) hs n m
    unfold postfixes
    split
    · rfl
    · rename_i t r
      simp at hn hm
      split
      · have h1 := propertyAccess_len (d := d) hs node r
        rcases e : propertyAccess rec d node r with ⟨x, r1⟩
        rw [e] at h1
        dsimp only at h1 ⊢
        rw [ih x r1 (by omega) (by omega)]
      · split
        · split
          · rw [ih _ _ (by simp; omega) (by simp; omega)]
          · rename_i p r1
            simp at hn hm
            split
            · split
              · split
                · have h1 := methodCall_len (d := d) hs node (C.lib.dec p.value) r1
                  rcases e : methodCall rec d node (C.lib.dec p.value) r1 with ⟨x, r2⟩
                  rw [e] at h1
                  have h2 := postfixes_len (C := C) (d := d) hs n x r2
                  dsimp only at h1 ⊢
                  rw [← ih x r2 (by omega) (by omega)]
                  rcases e2 : postfixes C rec d n x r2 with ⟨⟨y, c⟩, r3⟩
                  rw [e2] at h2
                  dsimp only at h2 ⊢
                  rw [ih y r3 (by omega) (by omega)]
                · rw [ih _ _ (by omega) (by omega)]
              · rw [ih _ _ (by omega) (by omega)]
            · rw [ih _ _ (by simp; omega) (by simp; omega)]
        · rfl

/-- `with_postfix` without the combination -/
def wp (C : PCfg) (rec : Rec) (d : Nat) (node : Node) (ts : List Token) : Node × List Token :=
  ((withPostfix C rec d node ts).1.1, (withPostfix C rec d node ts).2)

theorem postfixes_wp {C : PCfg} {rec : Rec} {d : Nat} (hs : Shrink rec) {n node ts} (h : ts.length < n) :
    ((postfixes C rec d n node ts).1.1, (postfixes C rec d n node ts).2) = wp C rec d node ts := by
  unfold wp withPostfix
  rw [postfixes_enough hs n (ts.length + 1) node ts h (by omega)]

theorem wp_stop {C : PCfg} {rec : Rec} {d : Nat} {node ts} (h1 : kind? ts ≠ some (.bracket .lsq)) (h2 : kind? ts ≠ some (.op .dot)) :
    wp C rec d node ts = (node, ts) := by
  unfold wp withPostfix postfixes
  cases ts with
  | nil => rfl
  | cons t r =>
    simp [kind?] at h1 h2
    simp [h1, h2]

theorem wp_index {C : PCfg} {rec : Rec} {d : Nat} (hs : Shrink rec) {node t r x r1} (ht : t.kind = .bracket .lsq)
    (h : propertyAccess rec d node r = (x, r1)) : wp C rec d node (t :: r) = wp C rec d x r1 := by
  have hl := propertyAccess_len (d := d) hs node r
  rw [h] at hl
  dsimp only at hl
  have e := postfixes_wp (C := C) (d := d) hs (n := (t :: r).length) (node := x) (ts := r1) (by simp; omega)
  rw [← e]
  show ((postfixes C rec d ((t :: r).length + 1) node (t :: r)).1.1, (postfixes C rec d ((t :: r).length + 1) node (t :: r)).2) = _
  rw [postfixes.eq_def]
  simp only [ht, h, if_true]

theorem wp_member {C : PCfg} {rec : Rec} {d : Nat} (hs : Shrink rec) {node t p r} (ht : t.kind = .op .dot)
    (hp : validProperty p.kind = true) (hr : kind? r ≠ some (.bracket .lparen)) :
    wp C rec d node (t :: p :: r) = wp C rec d (.member node (.str (C.lib.dec p.value))) r := by
  have e := postfixes_wp (C := C) (d := d) hs (n := (t :: p :: r).length) (node := .member node (.str (C.lib.dec p.value)))
    (ts := r) (by simp; omega)
  rw [← e]
  show ((postfixes C rec d ((t :: p :: r).length + 1) node (t :: p :: r)).1.1,
    (postfixes C rec d ((t :: p :: r).length + 1) node (t :: p :: r)).2) = _
  rw [postfixes]
  have hne : (Kind.op Oper.dot = .bracket .lsq) = False := by simp
  simp only [ht, hp, hr, if_true, if_false, hne]

/-- after the accesses there is no further one -/
theorem postfixes_end {C : PCfg} {rec : Rec} {d : Nat} (hs : Shrink rec) :
    ∀ n node ts, ts.length < n →
      kind? (postfixes C rec d n node ts).2 ≠ some (.bracket .lsq) ∧ kind? (postfixes C rec d n node ts).2 ≠ some (.op .dot)
  | 0, _, _, h => by omega
  | n + 1, node, ts, hn => by
    have ih := postfixes_end (C := C) (d := d) hs n
    unfold postfixes
    split
    · simp [kind?]
    · rename_i t r
      simp at hn
      split
      · have h1 := propertyAccess_len (d := d) hs node r
        rcases e : propertyAccess rec d node r with ⟨x, r1⟩
        rw [e] at h1
        dsimp only at h1 ⊢
        exact ih x r1 (by omega)
      · split
        · split
          · exact ih _ _ (by simp; omega)
          · rename_i p r1
            simp at hn
            split
            · split
              · split
                · have h1 := methodCall_len (d := d) hs node (C.lib.dec p.value) r1
                  rcases e : methodCall rec d node (C.lib.dec p.value) r1 with ⟨x, r2⟩
                  rw [e] at h1
                  have h2 := postfixes_len (C := C) (d := d) hs n x r2
                  dsimp only at h1 ⊢
                  rcases e2 : postfixes C rec d n x r2 with ⟨⟨y, c⟩, r3⟩
                  rw [e2] at h2
                  dsimp only at h2 ⊢
                  exact ih y r3 (by omega)
                · exact ih _ _ (by omega)
              · exact ih _ _ (by omega)
            · exact ih _ _ (by simp; omega)
        · rename_i h1 h2
          exact ⟨by simpa [kind?] using h1, by simpa [kind?] using h2⟩

theorem wp_method {C : PCfg} {rec : Rec} {d : Nat} (hs : Shrink rec) {node t p r x r1} (ht : t.kind = .op .dot)
    (hp : validProperty p.kind = true) (hm : methods.contains (C.lib.dec p.value) = true)
    (hr : kind? r = some (.bracket .lparen)) (h : methodCall rec d node (C.lib.dec p.value) r = (x, r1)) :
    wp C rec d node (t :: p :: r) = wp C rec d x r1 := by
  have hl := methodCall_len (d := d) hs node (C.lib.dec p.value) r
  rw [h] at hl
  dsimp only at hl
  have he := postfixes_end (C := C) (d := d) hs (t :: p :: r).length x r1 (by simp; omega)
  have hl2 := postfixes_len (C := C) (d := d) hs (t :: p :: r).length x r1
  have e := postfixes_wp (C := C) (d := d) hs (n := (t :: p :: r).length) (node := x) (ts := r1) (by simp; omega)
  rw [← e]
  show ((postfixes C rec d ((t :: p :: r).length + 1) node (t :: p :: r)).1.1,
    (postfixes C rec d ((t :: p :: r).length + 1) node (t :: p :: r)).2) = _
  rw [postfixes]
  have hne : (Kind.op Oper.dot = .bracket .lsq) = False := by simp
  simp only [ht, hp, hm, hr, h, if_true, if_false, hne]
  rcases e : postfixes C rec d (t :: p :: r).length x r1 with ⟨⟨y, c⟩, r2⟩
  rw [e] at he hl2
  dsimp only at he hl2 ⊢
  have h3 := wp_stop (C := C) (rec := rec) (d := d) (node := y) he.1 he.2
  rw [← postfixes_wp hs (n := (t :: p :: r).length) (by simp at hl2 ⊢; omega)] at h3
  rcases e3 : postfixes C rec d (t :: p :: r).length y r2 with ⟨⟨z, c'⟩, r3⟩
  rw [e3] at h3
  simpa using h3

/-! ### lists -/

section
variable {C : PCfg} {E : Expr} {rec : Rec}
  (hE : ∀ c d L n ts r, E c d L n ts → Stop C c (min L (edge n)) r → rec c d (lv L) (ts ++ r) = (n, r))
  (hN : ∀ c d L n ts, E c d L n ts → hasError n = false)
  (hS : ∀ c d L n ts, E c d L n ts → Starts ts)

include hE in
theorem read {d x ts t r k} (h : E .global d 0 x ts) (ht : t.kind = k) (hk : closes k = true) :
    rec .global d 0 (ts ++ t :: r) = (x, t :: r) :=
  hE _ _ _ _ _ _ h (.of_closes ht hk r)

theorem expect_eq {k : Kind} {t : Token} (h : t.kind = k) (r : List Token) : expect k (t :: r) = some r := by
  rw [expect_cons, if_pos h]

theorem expect_ne {k k' : Kind} {t : Token} (h : t.kind = k') (hk : k' ≠ k) (r : List Token) : expect k (t :: r) = none := by
  rw [expect_cons, if_neg (by rw [h]; exact hk)]

include hE hS in
theorem argsLoop_read {d xs ts} (h : Items E .rparen d xs ts) :
    ∀ n acc r, ts.length ≤ n → argsLoop rec d n acc (ts ++ r) = (acc ++ xs, r) := by
  generalize hb : Brk.rparen = b at h
  induction h with
  | nil hz =>
    subst hb
    intro n acc r hn
    obtain ⟨m, rfl⟩ : ∃ m, n = m + 1 := ⟨n - 1, by simp at hn; omega⟩
    simp [argsLoop, expect_eq hz]
  | @last b d x ts z h hz =>
    subst hb
    intro n acc r hn
    obtain ⟨m, rfl⟩ : ∃ m, n = m + 1 := ⟨n - 1, by simp at hn; omega⟩
    have h1 := read (r := r) hE h hz rfl
    have h2 := ((hS _ _ _ _ _ h).append (z :: r)).not (.bracket .rparen) rfl
    simp [argsLoop, h1, h2, expect_ne hz (k := .op .comma) (by simp), expect_eq hz]
  | @more b d x ts t xs ts' h ht _ ih =>
    subst hb
    intro n acc r hn
    obtain ⟨m, rfl⟩ : ∃ m, n = m + 1 := ⟨n - 1, by simp at hn; omega⟩
    have h1 := read (r := ts' ++ r) hE h ht rfl
    have h2 := ((hS _ _ _ _ _ h).append (t :: (ts' ++ r))).not (.bracket .rparen) rfl
    simp at hn
    simp [argsLoop, h1, h2, expect_eq ht, ih rfl m _ r (by omega)]

include hE hS in
theorem arrayLoop_more {d xs ts} (h : Items E .rsq d xs ts) :
    ∀ n acc t r, ts.length ≤ n → acc ≠ [] → t.kind = .op .comma → arrayLoop rec d (n + 1) acc (t :: ts ++ r) = (some (acc ++ xs), r) := by
  generalize hb : Brk.rsq = b at h
  induction h with
  | nil hz =>
    subst hb
    intro n acc t r hn ha ht
    have : acc.isEmpty = false := by cases acc <;> simp at ha ⊢
    simp [arrayLoop, expect_eq hz, expect_eq ht, expect_ne ht (k := .bracket .rsq) (by simp), this]
  | @last b d x ts z h hz =>
    subst hb
    intro n acc t r hn ha ht
    obtain ⟨m, rfl⟩ : ∃ m, n = m + 1 := ⟨n - 1, by simp at hn; omega⟩
    have : acc.isEmpty = false := by cases acc <;> simp at ha ⊢
    have h1 := read (r := r) hE h hz rfl
    have h2 := ((hS _ _ _ _ _ h).append (z :: r)).not (.bracket .rsq) rfl
    simp [arrayLoop, h1, h2, expect_eq hz, expect_eq ht, expect_ne ht (k := .bracket .rsq) (by simp), this]
  | @more b d x ts t' xs ts' h ht' _ ih =>
    subst hb
    intro n acc t r hn ha ht
    obtain ⟨m, rfl⟩ : ∃ m, n = m + 1 := ⟨n - 1, by simp at hn; omega⟩
    have hemp : acc.isEmpty = false := by cases acc <;> simp at ha ⊢
    have h1 := read (r := ts' ++ r) hE h ht' rfl
    have h2 := ((hS _ _ _ _ _ h).append (t' :: (ts' ++ r))).not (.bracket .rsq) rfl
    have h3 := ih rfl m (acc ++ [x]) t' r (by simp at hn; omega) (by simp) ht'
    rw [arrayLoop]
    simp only [List.append_assoc, List.cons_append] at h3 ⊢
    simp only [h1, h2, expect_eq ht, expect_ne ht (k := .bracket .rsq) (by simp), hemp, h3, List.nil_append]
    simp

include hE hS in
theorem arrayLoop_read {d xs ts} (h : Items E .rsq d xs ts) (n : Nat) (r : List Token) (hn : ts.length ≤ n) :
    arrayLoop rec d (n + 1) [] (ts ++ r) = (some xs, r) := by
  cases h with
  | nil hz => simp [arrayLoop, expect_eq hz]
  | @last _ _ x ts z h hz =>
    obtain ⟨m, rfl⟩ : ∃ m, n = m + 1 := ⟨n - 1, by simp at hn; omega⟩
    have h1 := read (r := r) hE h hz rfl
    have h2 := ((hS _ _ _ _ _ h).append (z :: r)).not (.bracket .rsq) rfl
    simp [arrayLoop, h1, h2, expect_eq hz]
  | @more _ _ x ts t xs ts' h ht h' =>
    obtain ⟨m, rfl⟩ : ∃ m, n = m + 1 := ⟨n - 1, by simp at hn; omega⟩
    have h1 := read (r := ts' ++ r) hE h ht rfl
    have h2 := ((hS _ _ _ _ _ h).append (t :: (ts' ++ r))).not (.bracket .rsq) rfl
    have h3 := arrayLoop_more hE hS h' m [x] t r (by simp at hn; omega) (by simp) ht
    rw [arrayLoop]
    simp only [List.append_assoc, List.cons_append] at h3 ⊢
    simp [h1, h2, h3]

include hE in
theorem tmplLoop_read {d ns ts} (h : Parts C E d ns ts) :
    ∀ n acc r, ts.length ≤ n → ∃ z, z.kind = .quote .backtick ∧ tmplLoop C rec d n acc (ts ++ r) = (some (acc ++ ns), z :: r) := by
  induction h with
  | @nil d z hz =>
    intro n acc r hn
    obtain ⟨m, rfl⟩ : ∃ m, n = m + 1 := ⟨n - 1, by simp at hn; omega⟩
    exact ⟨z, hz, by simp [tmplLoop, hz]⟩
  | @text d t ns ts ht _ ih =>
    intro n acc r hn
    obtain ⟨m, rfl⟩ : ∃ m, n = m + 1 := ⟨n - 1, by simp at hn; omega⟩
    obtain ⟨z, hz, h⟩ := ih m (acc ++ [.str (C.lib.dec t.value)]) r (by simp at hn; omega)
    exact ⟨z, hz, by simp [tmplLoop, ht, h]⟩
  | @stray d t ns ts ht _ ih =>
    intro n acc r hn
    obtain ⟨m, rfl⟩ : ∃ m, n = m + 1 := ⟨n - 1, by simp at hn; omega⟩
    obtain ⟨z, hz, h⟩ := ih m acc r (by simp at hn; omega)
    exact ⟨z, hz, by simp [tmplLoop, ht, h]⟩
  | @expr d a x tx b ns ts ha h hb _ ih =>
    intro n acc r hn
    obtain ⟨m, rfl⟩ : ∃ m, n = m + 1 := ⟨n - 1, by simp at hn; omega⟩
    obtain ⟨z, hz, h'⟩ := ih m (acc ++ [x]) r (by simp at hn; omega)
    have h1 := read (r := ts ++ r) hE h hb rfl
    exact ⟨z, hz, by simp [tmplLoop, ha, h1, expect_eq hb, h']⟩

theorem simpleString_read {q : Quote} {a t b : Token} (ha : a.kind = .quote q) (ht : t.kind = .literal) (hb : b.kind = .quote q)
    (r : List Token) : simpleString C q (a :: t :: b :: r) = (.str (C.lib.dec t.value), r) := by
  simp [simpleString, expect_eq ha, expect_eq ht, expect_eq hb]

include hE in
theorem objectKey_read {d k ts} (h : Key C E d k ts) (r : List Token) : objectKey C rec d (ts ++ r) = (k, r) := by
  cases h with
  | ident h => simp [objectKey, h, identText_eq]
  | bool h => simp [objectKey, h]
  | number h => simp [objectKey, h]
  | literal h => simp [objectKey, h]
  | @string d q a t b hq h2 h3 h4 =>
    cases q with
    | backtick => exact absurd rfl hq
    | single => simp [objectKey, h2, simpleString_read h2 h3 h4]
    | double => simp [objectKey, h2, simpleString_read h2 h3 h4]
  | computed h1 h2 h3 =>
    have h := read (r := r) hE h2 h3 rfl
    simp [objectKey, h1, h, expect_eq h3]

include hE in
theorem objectLoop_read {d kvs ts} (h : Entries C E d kvs ts) :
    ∀ n acc r, ts.length ≤ n → objectLoop C rec d n acc (ts ++ r) = (some (acc ++ kvs), r) := by
  induction h with
  | @last d k tk c v tv z h1 h2 h3 h4 =>
    intro n acc r hn
    obtain ⟨m, rfl⟩ : ∃ m, n = m + 1 := ⟨n - 1, by simp at hn; omega⟩
    have e1 := objectKey_read hE h1 (c :: (tv ++ z :: r))
    have e2 := read (r := r) hE h3 h4 rfl
    simp [objectLoop, e1, e2, expect_eq h2, expect_eq h4, expect_ne h4 (k := .op .comma) (by simp)]
  | @more d k tk c v tv t kvs ts h1 h2 h3 h4 _ ih =>
    intro n acc r hn
    obtain ⟨m, rfl⟩ : ∃ m, n = m + 1 := ⟨n - 1, by simp at hn; omega⟩
    have e1 := objectKey_read hE h1 (c :: (tv ++ t :: (ts ++ r)))
    have e2 := read (r := ts ++ r) hE h3 h4 rfl
    have e3 := ih m (acc ++ [(k, v)]) r (by simp at hn; omega)
    simp [objectLoop, e1, e2, e3, expect_eq h2, expect_eq h4]

include hE hS in
theorem index_read {d n x tx b r} (h : E .global d 0 x tx) (hb : b.kind = .bracket .rsq) :
    propertyAccess rec d n (tx ++ b :: r) = (.member n x, r) := by
  have e1 := read (r := r) hE h hb rfl
  have s := (hS _ _ _ _ _ h).append (b :: r)
  have e2 := s.not (.op .slice) rfl
  unfold propertyAccess
  rw [if_neg s.ne_nil]
  simp [e1, e2, expect_ne hb (k := .op .slice) (by simp), expect_eq hb]

include hE hS in
theorem slice_read {d n x tx c y ty b r} (hx : Bound E d x tx) (hc : c.kind = .op .slice) (hy : Bound E d y ty)
    (hb : b.kind = .bracket .rsq) : propertyAccess rec d n (tx ++ c :: ty ++ b :: r) = (.slice n x y, r) := by
  unfold propertyAccess
  rw [if_neg (by simp)]
  cases hx with
  | none =>
    cases hy with
    | none => simp [expect_eq hc, expect_eq hb]
    | some h =>
      have e1 := read (r := r) hE h hb rfl
      have e2 := ((hS _ _ _ _ _ h).append (b :: r)).not (.bracket .rsq) rfl
      simp [expect_eq hc, expect_eq hb, e1, e2]
  | some hx =>
    have e0 := read (r := ty ++ b :: r) hE hx hc rfl
    have s := (hS _ _ _ _ _ hx).append (c :: (ty ++ b :: r))
    have e3 := s.not (.op .slice) rfl
    cases hy with
    | none => 
      simp at e0 e3
      simp [expect_eq hc, expect_eq hb, e0, e3]
    | some h =>
      have e1 := read (r := r) hE h hb rfl
      have e2 := ((hS _ _ _ _ _ h).append (b :: r)).not (.bracket .rsq) rfl
      simp [expect_eq hc, expect_eq hb, e0, e1, e2, e3]

include hE in
theorem closureCall_read {d k o tO al tal c b tb z r} (ho : E .global d 0 o tO) (hal : Alias C al tal) (hc : c.kind = .op .comma)
    (hb : E .closure (d + 1) 0 b tb) (hz : z.kind = .bracket .rparen) :
    closureCall C rec d k (tO ++ tal ++ c :: tb ++ z :: r) = (.closure k o al b, r) := by
  have e1 : rec .closure (d + 1) 0 (tb ++ z :: r) = (b, z :: r) := hE _ _ _ _ _ _ hb (.of_closes hz rfl r)
  unfold closureCall
  cases hal with
  | none =>
    have e0 := read (r := tb ++ z :: r) hE ho hc rfl
    have e2 : aliasOf C (c :: (tb ++ z :: r)) = (some none, c :: (tb ++ z :: r)) := by simp [aliasOf, hc]
    simp [e0, e1, e2, expect_eq hc, expect_eq hz]
  | @some a t ha hv ht =>
    have e0 := read (r := t :: c :: (tb ++ z :: r)) hE ho ha rfl
    have e2 : aliasOf C (a :: t :: c :: (tb ++ z :: r)) = (some (some (C.lib.dec t.value)), c :: (tb ++ z :: r)) := by
      simp [aliasOf, ha, hv, ht]
    simp [e0, e1, e2, expect_eq hc, expect_eq hz]

/-! ### brackets: the attempt to read an interval -/

theorem interval_fail {d : Nat} {t : Token} {r : List Token} (h : C.range = true → ∀ b, t.kind = .bracket b →
    hasError (rec .global d 0 r).1 = true ∨ expect (.op .range) (rec .global d 0 r).2 = none) :
    interval C rec d (t :: r) = (none, t :: r) := by
  unfold interval
  split
  · rename_i hr
    dsimp only
    split
    · rename_i b hb
      rcases e : rec .global d 0 r with ⟨x, r1⟩
      have := h hr b hb
      rw [e] at this
      rcases this with h | h
      · simp at h; simp [h]
      · simp at h; simp [h]
    · rfl
  · rfl

theorem unaryExpr_literal {d : Nat} {t : Token} {r : List Token} (h1 : ¬ (d > 0 ∧ t.kind = .ident .callback))
    (h2 : ∀ o, t.kind ≠ .op o) (h3 : ∀ b, t.kind ≠ .bracket b) : unaryExpr C rec d (t :: r) = literal C rec d (t :: r) := by
  have h4 := interval_fail (C := C) (rec := rec) (d := d) (t := t) (r := r) (fun _ b hb => absurd hb (h3 b))
  unfold unaryExpr
  dsimp only
  rw [if_neg h1]
  split
  · rename_i o ho; exact absurd ho (h2 o)
  · rw [h4]
    dsimp only
    rw [if_neg (h3 _)]

theorem unaryExpr_name {d : Nat} {t : Token} {r : List Token} (h : namesFn d t.kind) :
    unaryExpr C rec d (t :: r) = identifier C rec d t r := by
  have hk : ¬ (d > 0 ∧ t.kind = .ident .callback) := by
    rcases h with h | h | h | ⟨h, h'⟩
    · simp [h]
    · simp [h]
    · simp [h]
    · simp [h']
  rw [unaryExpr_literal hk (by rcases h with h | h | h | ⟨h, _⟩ <;> simp [h]) (by rcases h with h | h | h | ⟨h, _⟩ <;> simp [h])]
  rcases h with h | h | h | ⟨h, _⟩ <;> simp [literal, h]

theorem unaryExpr_bracket {d : Nat} {t : Token} {r : List Token} {b : Brk} (h2 : t.kind = .bracket b) (hb : b ≠ .lparen)
    (h4 : interval C rec d (t :: r) = (none, t :: r)) : unaryExpr C rec d (t :: r) = literal C rec d (t :: r) := by
  unfold unaryExpr
  simp [h2, h4, hb]


theorem identifier_plain {d : Nat} {t : Token} {r : List Token} {node : Node}
    (hn : (if t.kind = .ident .root then Node.root else .ident (C.lib.dec t.value)) = node)
    (h1 : kind? r ≠ some (.bracket .lparen)) (h2 : kind? (wp C rec d node r).2 ≠ some (.op .assign)) :
    identifier C rec d t r = wp C rec d node r := by
  unfold identifier
  rw [if_pos h1, hn]
  unfold wp at h2 ⊢
  rcases e : withPostfix C rec d node r with ⟨⟨x, c⟩, r1⟩
  rw [e] at h2
  dsimp only at h2 ⊢
  rw [if_neg h2]

include hE in
/-- the elements of an array do not begin an interval -/
theorem items_interval {d b xs ts t r} (h : Items E b d xs ts) (hx : C.range = true → xs ≠ []) (hb : b = .rsq ∨ b = .rparen) :
    interval C rec d (t :: (ts ++ r)) = (none, t :: (ts ++ r)) := by
  refine interval_fail fun hr _ _ => ?_
  right
  cases h with
  | nil => exact absurd rfl (hx hr)
  | last h hz =>
    rw [List.append_assoc]
    rcases hb with rfl | rfl
    · rw [List.singleton_append, read hE h hz rfl]; exact expect_ne hz (by simp) r
    · rw [List.singleton_append, read hE h hz rfl]; exact expect_ne hz (by simp) r
  | more h ht _ =>
    rw [List.append_assoc, List.cons_append, read hE h ht rfl]
    exact expect_ne ht (by simp) _

include hE hN hS in
theorem primary_read {N : Nat} (hs : Shrink rec)
    (hK : C.range = true → ∀ d k tk c r, Key C E d k tk → tk.length < N → c.kind = .op .slice →
      hasError (rec .global d 0 (tk ++ c :: r)).1 = true ∨ expect (.op .range) (rec .global d 0 (tk ++ c :: r)).2 = none)
    {d f n ts} (h : Primary C E d f n ts) (hl : ts.length ≤ N) :
    (f = true → ∀ r, kind? r ≠ some (.bracket .lparen) → kind? (wp C rec d n r).2 ≠ some (.op .assign) →
      unaryExpr C rec d (ts ++ r) = wp C rec d n r) ∧
    (f = false → ∀ r, unaryExpr C rec d (ts ++ r) = (n, r)) := by
  induction h with
  | null h =>
    refine ⟨by simp, fun _ r => ?_⟩
    rw [List.singleton_append, unaryExpr_literal (by simp [h]) (by simp [h]) (by simp [h])]
    simp [literal, h]
  | bool h =>
    refine ⟨by simp, fun _ r => ?_⟩
    rw [List.singleton_append, unaryExpr_literal (by simp [h]) (by simp [h]) (by simp [h])]
    simp [literal, h]
  | num h h' =>
    refine ⟨by simp, fun _ r => ?_⟩
    rw [List.singleton_append, unaryExpr_literal (by simp [h]) (by simp [h]) (by simp [h])]
    simp [literal, h, number, h']
  | @str d q a t b h1 h2 h3 h4 =>
    refine ⟨by simp, fun _ r => ?_⟩
    rw [List.cons_append, unaryExpr_literal (by simp [h2]) (by simp [h2]) (by simp [h2])]
    cases q with
    | backtick => exact absurd rfl h1
    | single => simp [literal, h2, simpleString_read h2 h3 h4]
    | double => simp [literal, h2, simpleString_read h2 h3 h4]
  | @tmpl d a ns ts h1 h2 =>
    refine ⟨by simp, fun _ r => ?_⟩
    rw [List.cons_append, unaryExpr_literal (by simp [h1]) (by simp [h1]) (by simp [h1])]
    obtain ⟨z, hz, e⟩ := tmplLoop_read hE h2 ((ts ++ r).length + 1) [] r (by simp; omega)
    simp only [literal, h1]
    unfold templateString
    rw [expect_eq h1]
    cases hts : ts ++ r with
    | nil => cases h2 <;> simp at hts
    | cons t r' =>
      rw [hts] at e
      dsimp only
      rw [e]
      simp [expect_eq hz]
  | emptyObj h1 h2 h3 =>
    refine ⟨by simp, fun _ r => ?_⟩
    rw [List.cons_append, unaryExpr_bracket h2 (by simp) (interval_fail (by simp [h1]))]
    simp [literal, h2, object, expect_eq h2, expect_eq h3]
  | @obj d a kvs ts h1 h2 =>
    refine ⟨by simp, fun _ r => ?_⟩
    have e := objectLoop_read hE h2 ((ts ++ r).length + 1) [] r (by simp; omega)
    have hi : interval C rec d (a :: (ts ++ r)) = (none, a :: (ts ++ r)) := by
      refine interval_fail fun hr _ _ => ?_
      cases h2 with
      | last h1 h2 => simpa using hK hr _ _ _ _ _ h1 (by simp at hl; omega) h2
      | more h1 h2 => simpa using hK hr _ _ _ _ _ h1 (by simp at hl; omega) h2
    have hne : expect (.bracket .rcurly) (ts ++ r) = none := by
      have : ∀ k tk c r, Key C E d k tk → c.kind = .op .slice → expect (.bracket .rcurly) (tk ++ c :: r) = none := by
        intro k tk c r hk _
        cases hk with
        | ident h => exact expect_ne h (by simp) _
        | bool h => exact expect_ne h (by simp) _
        | number h => exact expect_ne h (by simp) _
        | literal h => exact expect_ne h (by simp) _
        | string _ h => exact expect_ne h (by simp) _
        | computed h => exact expect_ne h (by simp) _
      cases h2 with
      | last h1 h2 => simpa using this _ _ _ _ h1 h2
      | more h1 h2 => simpa using this _ _ _ _ h1 h2
    rw [List.cons_append, unaryExpr_bracket h1 (by simp) hi]
    simp only [literal, h1]
    unfold object
    rw [expect_eq h1]
    dsimp only
    rw [hne]
    dsimp only
    rw [e]
    rfl
  | @name d t h =>
    refine ⟨fun _ r h1 h2 => ?_, by simp⟩
    have hk : ¬ (d > 0 ∧ t.kind = .ident .callback) := by
      rcases h with h | h | ⟨h, h'⟩
      · simp [h]
      · simp [h]
      · simp [h']
    have hr : t.kind ≠ .ident .root := by
      rcases h with h | h | ⟨h, _⟩ <;> simp [h]
    have e := identifier_plain (C := C) (rec := rec) (d := d) (t := t) (r := r) (if_neg hr) h1 h2
    rw [List.singleton_append, unaryExpr_literal hk (by rcases h with h | h | ⟨h, _⟩ <;> simp [h])
      (by rcases h with h | h | ⟨h, _⟩ <;> simp [h]), ← e]
    rcases h with h | h | ⟨h, _⟩ <;> simp [literal, h]
  | @root d t h =>
    refine ⟨fun _ r h1 h2 => ?_, by simp⟩
    have e := identifier_plain (C := C) (rec := rec) (d := d) (t := t) (r := r) (if_pos h) h1 h2
    rw [List.singleton_append, unaryExpr_literal (by simp [h]) (by simp [h]) (by simp [h]), ← e]
    simp [literal, h]
  | @pointer d t h h' =>
    refine ⟨fun _ r h1 h2 => ?_, by simp⟩
    unfold unaryExpr
    rw [List.singleton_append]
    dsimp only
    rw [if_pos ⟨h', h⟩]
    rfl
  | @paren d a x ts b h1 h2 h3 =>
    refine ⟨fun _ r _ _ => ?_, by simp⟩
    have e := read (r := r) hE h2 h3 rfl
    have hi : interval C rec d (a :: (ts ++ b :: r)) = (none, a :: (ts ++ b :: r)) := by
      refine interval_fail fun hr _ _ => ?_
      rw [e]
      exact .inr (expect_ne h3 (by simp) r)
    simp only [List.cons_append, List.append_assoc, List.nil_append]
    unfold unaryExpr
    simp only [h1, hi, List.tail_cons, e, expect_eq h3]
    rw [if_neg (by simp), if_pos trivial]
    rfl
  | @arr d a xs ts h1 h2 h3 =>
    refine ⟨fun _ r _ _ => ?_, by simp⟩
    have hi := items_interval (t := a) (r := r) hE h2 (fun hr e => by rw [h3 e] at hr; cases hr) (.inl rfl)
    have e := arrayLoop_read hE hS h2 ((ts ++ r).length + 1) r (by simp; omega)
    rw [List.cons_append, unaryExpr_bracket h1 (by simp) hi]
    simp only [literal, h1, hi]
    unfold array
    rw [expect_eq h1]
    dsimp only
    rw [e]
    dsimp only
    rfl
  | @interval d a b lb rb l tl t rr tr h1 h2 h3 h4 h5 h6 h7 h8 h9 =>
    refine ⟨fun _ r _ _ => ?_, by simp⟩
    have hc : closes (.bracket rb) = true := by cases rb <;> simp_all [closes]
    have e1 := read (r := tr ++ b :: r) hE h4 h5 rfl
    have e2 := read (r := r) hE h6 h7 hc
    have hi : interval C rec d (a :: (tl ++ t :: (tr ++ b :: r))) =
        (some (wp C rec d (.interval l rr lb rb) r).1, (wp C rec d (.interval l rr lb rb) r).2) := by
      unfold interval
      simp only [h1, h2, e1, e2, hN _ _ _ _ _ h4, hN _ _ _ _ _ h6, expect_eq h5, h7, if_true]
      rfl
    simp only [List.cons_append, List.append_assoc, List.nil_append]
    unfold unaryExpr
    simp only [h2, hi]
    rw [if_neg (by simp)]
  | @call d t a xs ts h1 h2 h3 h4 =>
    refine ⟨fun _ r _ _ => ?_, by simp⟩
    have e := argsLoop_read hE hS h4 ((a :: (ts ++ r)).length + 1) [] r (by simp; omega)
    simp only [List.cons_append]
    rw [unaryExpr_name h1]
    unfold identifier
    rw [if_neg (by simp [kind?, h3]), if_pos h2, List.tail_cons, e]
    dsimp only
    rw [List.nil_append]
    rfl
  | @closure d t k a o tO al tal c b tb z h1 h2 h3 h4 h5 h6 h7 h8 h9 =>
    refine ⟨fun _ r _ _ => ?_, by simp⟩
    have e := closureCall_read (k := k) (r := r) hE h5 h6 h7 h8 h9
    simp only [List.cons_append, List.append_assoc, List.nil_append] at e ⊢
    rw [unaryExpr_name h1]
    unfold identifier
    rw [if_neg (by simp [kind?, h4]), if_neg (by simp [h2]), (cloOfText_iff _ _).2 h3, List.tail_cons]
    dsimp only
    rw [e]
    dsimp only
    rfl
  | @member d n ts t p _ h2 h3 ih =>
    refine ⟨fun _ r h1 h4 => ?_, by simp⟩
    have e := wp_member (C := C) (d := d) (node := n) hs h2 ((validProperty_iff _).2 h3) h1
    rw [← e] at h4 ⊢
    rw [List.append_assoc]
    exact (ih (by simp at hl; omega)).1 rfl _ (by simp [kind?, h2]) h4
  | @index d n ts a x tx b _ h2 h3 h4 ih =>
    refine ⟨fun _ r h1 h5 => ?_, by simp⟩
    have e := wp_index (C := C) hs h2 (index_read (n := n) (r := r) hE hS h3 h4)
    rw [← e] at h5 ⊢
    simp only [List.append_assoc, List.cons_append, List.nil_append]
    exact (ih (by simp at hl; omega)).1 rfl _ (by simp [kind?, h2]) h5
  | @slice d n ts a x tx c y ty b _ h2 h3 h4 h5 h6 ih =>
    refine ⟨fun _ r h1 h7 => ?_, by simp⟩
    have e := wp_index (C := C) hs h2 (slice_read (n := n) (r := r) hE hS h3 h4 h5 h6)
    rw [← e] at h7 ⊢
    simp only [List.append_assoc, List.cons_append, List.nil_append] at h7 ⊢
    exact (ih (by simp at hl; omega)).1 rfl _ (by simp [kind?, h2]) h7
  | @method d n ts t p a xs tx _ h2 h3 h4 h5 h6 ih =>
    refine ⟨fun _ r h1 h7 => ?_, by simp⟩
    have hm : methodCall rec d n (C.lib.dec p.value) (a :: (tx ++ r)) = (.method (C.lib.dec p.value) n xs, r) := by
      unfold methodCall
      rw [List.tail_cons, argsLoop_read hE hS h6 ((a :: (tx ++ r)).length + 1) [] r (by simp; omega)]
      rfl
    have e := wp_method (C := C) hs h2 ((validProperty_iff _).2 h3) ((methods_iff _).2 h4) (by simp [kind?, h5]) hm
    rw [← e] at h7 ⊢
    simp only [List.append_assoc, List.cons_append] at h7 ⊢
    exact (ih (by simp at hl; omega)).1 rfl _ (by simp [kind?, h2]) h7

end

/-! ### operators -/

theorem binLoop_enough {C : PCfg} {rec : Rec} {c : Ctx} {d p : Nat} (hs : Shrink rec) :
    ∀ n m l ts, ts.length < n → ts.length < m → binLoop C rec c d p n l ts = binLoop C rec c d p m l ts
  | 0, _, _, _, h, _ => by omega
  | _ + 1, 0, _, _, _, h => by omega
  | n + 1, m + 1, l, ts, hn, hm => by
    unfold binLoop
    split
    · rfl
    · rename_i t r
      simp at hn hm
      split
      · rename_i o _
        split
        · rfl
        · split
          · rfl
          · rename_i q right _
            split
            · rfl
            · rcases e : rec .global d (if right then q else q + 1) r with ⟨x, r1⟩
              have := hs.eq e
              dsimp only
              exact binLoop_enough hs n m _ _ (by omega) (by omega)
      · rfl

/-- the loop of `binary_expression` with as many rounds as it needs -/
def loop (C : PCfg) (rec : Rec) (c : Ctx) (d p : Nat) (l : Node) (ts : List Token) : Node × List Token :=
  binLoop C rec c d p (ts.length + 1) l ts

theorem loop_stop {C : PCfg} {rec : Rec} {c : Ctx} {d L : Nat} {l : Node} {ts : List Token} (h : Stop C c L ts) :
    loop C rec c d (lv L) l ts = (l, ts) := by
  unfold loop binLoop
  cases ts with
  | nil => rfl
  | cons t r =>
    obtain ⟨_, _, _, _, h5, _⟩ := h t.kind rfl
    dsimp only
    split
    · rename_i o ho
      split
      · rfl
      · rename_i hst
        cases hk : strength o with
        | none => rw [binOp_none hk]
        | some k =>
          obtain ⟨right, e, _⟩ := binOp_strength hk
          rw [e]
          dsimp only
          rcases h5 o k ho hk with h | h
          · exact absurd h hst
          · rw [if_pos (lv_lt h)]
    · rfl

theorem loop_step {C : PCfg} {rec : Rec} {c : Ctx} {d L k : Nat} {o : Oper} {l x : Node} {t : Token} {r r1 : List Token}
    (hs : Shrink rec) (ht : t.kind = .op o) (hk : strength o = some k) (hj : ¬ joins C c o) (hL : L ≤ 2 * k)
    (hx : rec .global d (lv (place o k)) r = (x, r1)) :
    loop C rec c d (lv L) l (t :: r) = loop C rec c d (lv L) (.binary o l x) r1 := by
  have hst : stopsAt C c o = false := by
    cases hb : stopsAt C c o with
    | false => rfl
    | true =>
      simp [stopsAt] at hb
      refine absurd ⟨hb.1.1, ?_, ?_⟩ hj
      · exact hb.1.2
      · rcases hb.2 with (h | h) | h
        · subst h; simp [strength] at hk
        · exact .inl h
        · exact .inr h
  obtain ⟨right, e, e'⟩ := binOp_strength hk
  have hl := hs.eq hx
  unfold loop
  rw [binLoop_enough hs (r1.length + 1) (t :: r).length (.binary o l x) r1 (by omega) (by simp; omega)]
  rw [List.length_cons, binLoop.eq_def]
  simp only [ht, hst, e, e', hx]
  rw [if_neg (by simp), if_neg (by have := lv_le hL; omega)]

theorem conditional_none {rec : Rec} {d : Nat} {n : Node} {r : List Token} (h : kind? r ≠ some (.op .question)) :
    conditional rec d n r = (n, r) := by
  unfold conditional
  cases r with
  | nil => rw [expect_nil]
  | cons t r => rw [expect_ne rfl (by simpa [kind?] using h)]

/-- what is shown of a written expression by induction -/
def Reads (C : PCfg) (c : Ctx) (d L : Nat) (n : Node) (ts : List Token) : Prop :=
  (∀ m r, ts.length < m → Stop C c (min L (edge n)) r → binExpr C m c d (lv L) (ts ++ r) = (n, r)) ∧
  (0 < edge n → ∀ m r, ts.length ≤ m → Stop C .global (edge n) r →
    loop C (binExpr C m) c d (lv L) (unaryExpr C (binExpr C m) d (ts ++ r)).1 (unaryExpr C (binExpr C m) d (ts ++ r)).2 =
      loop C (binExpr C m) c d (lv L) n r)

theorem binExpr_loop (C : PCfg) (m : Nat) (c : Ctx) (d p : Nat) (ts : List Token) :
    binExpr C (m + 1) c d p ts =
      (match loop C (binExpr C m) c d p (unaryExpr C (binExpr C m) d ts).1 (unaryExpr C (binExpr C m) d ts).2 with
      | (x, r1) => if p = 0 then conditional (binExpr C m) d x r1 else (x, r1)) := rfl

theorem Reads.of_loop {C : PCfg} {c : Ctx} {d L : Nat} {n : Node} {ts : List Token}
    (h : ∀ m r, ts.length ≤ m → Stop C .global (edge n) r →
      loop C (binExpr C m) c d (lv L) (unaryExpr C (binExpr C m) d (ts ++ r)).1 (unaryExpr C (binExpr C m) d (ts ++ r)).2 =
        loop C (binExpr C m) c d (lv L) n r) : Reads C c d L n ts := by
  refine ⟨fun m r hm hr => ?_, fun _ => h⟩
  obtain ⟨m, rfl⟩ : ∃ k, m = k + 1 := ⟨m - 1, by omega⟩
  rw [binExpr_loop, h m r (by omega) (hr.weaken (Nat.min_le_right _ _)), loop_stop (hr.le (Nat.min_le_left _ _))]
  dsimp only
  split
  · rename_i hp
    rw [lv_zero] at hp
    subst hp
    rw [conditional_none]
    intro hq
    have := (hr _ hq).2.2.2.2.2 rfl
    simp at this
  · rfl

/-- a number that cannot be converted is an error -/
theorem bad_number {C : PCfg} {m d : Nat} {t c : Token} {r : List Token} (h : t.kind = .number)
    (hn : C.lib.number t.value = none) :
    hasError (binExpr C (m + 1) .global d 0 (t :: c :: r)).1 = true := by
  have e : unaryExpr C (binExpr C m) d (t :: c :: r) = (.error, t :: c :: r) := by
    rw [unaryExpr_literal (by simp [h]) (by simp [h]) (by simp [h])]
    simp [literal, h, number, hn]
  rw [binExpr_loop, e]
  have hs : Stop C .global 0 (t :: c :: r) := .of_closes h rfl _
  have := loop_stop (rec := binExpr C m) (d := d) (l := .error) hs
  dsimp only
  rw [show (0 : Nat) = lv 0 from rfl, this]
  dsimp only
  rw [if_pos rfl, conditional_none (by simp [kind?, h])]
  rfl

theorem reads (C : PCfg) : ∀ N c d L n ts, Written C c d L n ts → ts.length ≤ N → Reads C c d L n ts := by
  intro N
  induction N with
  | zero =>
    intro c d L n ts h hl
    exact absurd (List.length_eq_zero_iff.1 (Nat.le_zero.1 hl)) h.starts.ne_nil
  | succ N IH =>
    intro c d L n ts h hl
    cases h with
    | @primary _ _ _ f _ _ h =>
      have h' := h.mono (E' := fun c d L n ts' => Written C c d L n ts' ∧ ts'.length < ts.length) (Nat.le_refl _)
        fun _ _ _ _ _ hl h => ⟨h, hl⟩
      have hedge : edge n = 100 := by cases h <;> rfl
      refine .of_loop fun m r hm hr => ?_
      have hp := primary_read (C := C) (rec := binExpr C m) (N := ts.length)
        (E := fun c d L n ts' => Written C c d L n ts' ∧ ts'.length < ts.length)
        (fun c d L n ts' r h hr => (IH c d L n ts' h.1 (by omega)).1 m r (by omega) hr)
        (fun _ _ _ _ _ h => h.1.noError) (fun _ _ _ _ _ h => h.1.starts) (binExpr_shrink C m)
        (by
          intro hr d k tk c r hk hlk hc
          have key : ∀ n, Written C .global d 0 n tk →
              expect (.op .range) (binExpr C m .global d 0 (tk ++ c :: r)).2 = none := by
            intro n hw
            have e := (IH .global d 0 n tk hw (by omega)).1 m (c :: r) (by omega) (.of_closes hc rfl r)
            rw [show lv 0 = 0 from rfl] at e
            rw [e]
            exact expect_ne hc (by simp) r
          cases hk with
          | @ident _ t i h =>
            right
            cases i with
            | null => exact key _ (.primary (.null h))
            | root => exact key _ (.primary (.root h))
            | context => exact key _ (.primary (.name (.inr (.inl h))))
            | callback =>
              cases d with
              | zero => exact key _ (.primary (.name (.inr (.inr ⟨h, rfl⟩))))
              | succ d => exact key _ (.primary (.pointer h (by omega)))
          | bool h => exact .inr (key _ (.primary (.bool h)))
          | @number _ t h =>
            cases hn : C.lib.number t.value with
            | some q => exact .inr (key _ (.primary (.num h hn)))
            | none =>
              left
              obtain ⟨m, rfl⟩ : ∃ k, m = k + 1 := ⟨m - 1, by omega⟩
              exact bad_number h hn
          | literal h => exact .inr (key _ (.primary (.name (.inl h))))
          | string h1 h2 h3 h4 => exact .inr (key _ (.primary (.str h1 h2 h3 h4)))
          | computed h1 h2 h3 => exact .inr (key _ (.primary (.arr h1 (.last h2.1 h3) (by simp)))))
        h' (Nat.le_refl _)
      have hu : unaryExpr C (binExpr C m) d (ts ++ r) = (n, r) := by
        cases f with
        | false => exact hp.2 rfl r
        | true =>
          have hw : wp C (binExpr C m) d n r = (n, r) :=
            wp_stop (fun e => (hr _ e).1 rfl) (fun e => (hr _ e).2.2.1 rfl)
          rw [hp.1 rfl r (fun e => (hr _ e).2.1 rfl) (by rw [hw]; exact fun e => (hr _ e).2.2.2.1 rfl), hw]
      rw [hu]
    | @unary _ _ _ o t s x tx h1 h2 h3 =>
      refine .of_loop fun m r hm hr => ?_
      have e := (IH _ _ _ _ _ h3 (by simp at hl; omega)).1 m r (by simp at hm; omega)
        (hr.weaken (by simp [edge, h2]))
      have hu : unaryExpr C (binExpr C m) d (t :: tx ++ r) = (.unary o x, r) := by
        unfold unaryExpr
        simp only [List.cons_append, h1, unOp_strength h2, e]
        rw [if_neg (by simp)]
      rw [hu]
    | @binary _ _ _ o t k l tl rr tr h1 h2 h3 h4 h5 h6 h7 =>
      refine .of_loop fun m r hm hr => ?_
      have e := (IH _ _ _ _ _ h7 (by simp at hl; omega)).1 m r (by simp at hm; omega)
        (hr.weaken (by simp [edge, h2]))
      have hq := (IH _ _ _ _ _ h5 (by simp at hl; omega)).2 (by rcases h6 with h | h <;> omega) m (t :: (tr ++ r)) (by simp at hm; omega) (by
        intro kd hkd
        simp [kind?, h1] at hkd
        subst hkd
        refine ⟨by simp, by simp, ?_, ?_, ?_, ?_⟩
        · rintro ⟨⟩; simp [strength] at h2
        · rintro ⟨⟩; simp [strength] at h2
        · rintro _ k' ⟨⟩ hk'
          rw [h2] at hk'
          cases hk'
          rcases h6 with h | h
          · exact .inr h
          · left
            obtain ⟨_, h8, _, h9⟩ := h
            rcases h9 with rfl | rfl <;> simp [stopsAt, h8]
        · rintro ⟨⟩; simp [strength] at h2)
      rw [List.append_assoc, List.cons_append, hq]
      exact loop_step (binExpr_shrink C m) h1 h2 h3 h4 e
    | @cond _ _ q s x tx y ty z tz h1 h2 h3 h4 h5 h6 =>
      refine ⟨fun m r hm hr => ?_, fun h => absurd h (by simp [edge])⟩
      obtain ⟨m, rfl⟩ : ∃ k, m = k + 1 := ⟨m - 1, by omega⟩
      simp at hl hm
      have hq := (IH _ _ _ _ _ h3 (by omega)).2 h4 m (q :: (ty ++ s :: (tz ++ r))) (by omega) (by
        intro kd hkd
        simp [kind?, h1] at hkd
        subst hkd
        refine ⟨by simp, by simp, by simp, by simp, ?_, fun _ => h4⟩
        rintro _ k' ⟨⟩ hk'
        simp [strength] at hk')
      have ey := (IH _ _ _ _ _ h5 (by omega)).1 m (s :: (tz ++ r)) (by omega) (.of_closes h2 rfl _)
      have ez := (IH _ _ _ _ _ h6 (by omega)).1 m r (by omega) (hr.weaken (by simp))
      rw [show lv 0 = 0 from rfl] at ey ez
      have hst : loop C (binExpr C m) c d (lv 0) x (q :: (ty ++ s :: (tz ++ r))) = (x, q :: (ty ++ s :: (tz ++ r))) := by
        unfold loop binLoop
        simp only [h1]
        split
        · rfl
        · rfl
      simp only [List.append_assoc, List.cons_append]
      rw [binExpr_loop, hq, hst]
      dsimp only
      rw [if_pos (show lv 0 = 0 from rfl)]
      unfold conditional
      simp only [expect_eq h1, expect_eq h2, ey, ez]

/-- the parser reads a written expression back -/
theorem Written.read {C : PCfg} {c d L n ts} (h : Written C c d L n ts) {m : Nat} {r : List Token} (hm : ts.length < m)
    (hr : Stop C c (min L (edge n)) r) : binExpr C m c d (lv L) (ts ++ r) = (n, r) :=
  (reads C _ _ _ _ _ _ h (Nat.le_refl _)).1 m r hm hr

end Parse
end Zen
