import Verif.Parse.Syntax
/-
Induction on written expressions.
-/
namespace Zen
namespace Parse
open Zen.Lex

section
variable {C : PCfg} {E E' : Expr} {N : Nat}

theorem Items.mono {b d xs ts} (h : Items E b d xs ts) (hN : ts.length ≤ N)
    (hE : ∀ c d L n ts, ts.length < N → E c d L n ts → E' c d L n ts) : Items E' b d xs ts := by
  induction h with
  | nil hz => exact .nil hz
  | last h hz => exact .last (hE _ _ _ _ _ (by simp at hN; omega) h) hz
  | more h ht _ ih =>
    simp at hN
    exact .more (hE _ _ _ _ _ (by omega) h) ht (ih (by omega))

theorem Parts.mono {d xs ts} (h : Parts C E d xs ts) (hN : ts.length ≤ N)
    (hE : ∀ c d L n ts, ts.length < N → E c d L n ts → E' c d L n ts) : Parts C E' d xs ts := by
  induction h with
  | nil hz => exact .nil hz
  | text ht _ ih => exact .text ht (ih (by simp at hN; omega))
  | stray ht _ ih => exact .stray ht (ih (by simp at hN; omega))
  | expr ha h hb _ ih =>
    simp at hN
    exact .expr ha (hE _ _ _ _ _ (by omega) h) hb (ih (by omega))

theorem Key.mono {d k ts} (h : Key C E d k ts) (hN : ts.length ≤ N)
    (hE : ∀ c d L n ts, ts.length < N → E c d L n ts → E' c d L n ts) : Key C E' d k ts := by
  cases h with
  | ident h => exact .ident h
  | bool h => exact .bool h
  | number h => exact .number h
  | literal h => exact .literal h
  | string h1 h2 h3 h4 => exact .string h1 h2 h3 h4
  | computed h1 h2 h3 => simp at hN; exact .computed h1 (hE _ _ _ _ _ (by omega) h2) h3

theorem Entries.mono {d kvs ts} (h : Entries C E d kvs ts) (hN : ts.length ≤ N)
    (hE : ∀ c d L n ts, ts.length < N → E c d L n ts → E' c d L n ts) : Entries C E' d kvs ts := by
  induction h with
  | last h1 h2 h3 h4 =>
    simp at hN
    exact .last (h1.mono (by omega) hE) h2 (hE _ _ _ _ _ (by omega) h3) h4
  | more h1 h2 h3 h4 _ ih =>
    simp at hN
    exact .more (h1.mono (by omega) hE) h2 (hE _ _ _ _ _ (by omega) h3) h4 (ih (by omega))

theorem Bound.mono {d x ts} (h : Bound E d x ts) (hN : ts.length < N)
    (hE : ∀ c d L n ts, ts.length < N → E c d L n ts → E' c d L n ts) : Bound E' d x ts := by
  cases h with
  | none => exact .none
  | some h => exact .some (hE _ _ _ _ _ hN h)

theorem Primary.mono {d f n ts} (h : Primary C E d f n ts) (hN : ts.length ≤ N)
    (hE : ∀ c d L n ts, ts.length < N → E c d L n ts → E' c d L n ts) : Primary C E' d f n ts := by
  induction h with
  | null h => exact .null h
  | bool h => exact .bool h
  | num h h' => exact .num h h'
  | str h1 h2 h3 h4 => exact .str h1 h2 h3 h4
  | tmpl h1 h2 => simp at hN; exact .tmpl h1 (h2.mono (by omega) hE)
  | emptyObj h1 h2 h3 => exact .emptyObj h1 h2 h3
  | obj h1 h2 => simp at hN; exact .obj h1 (h2.mono (by omega) hE)
  | name h => exact .name h
  | root h => exact .root h
  | pointer h h' => exact .pointer h h'
  | paren h1 h2 h3 => simp at hN; exact .paren h1 (hE _ _ _ _ _ (by omega) h2) h3
  | arr h1 h2 h3 => simp at hN; exact .arr h1 (h2.mono (by omega) hE) h3
  | interval h1 h2 h3 h4 h5 h6 h7 h8 h9 =>
    simp at hN
    exact .interval h1 h2 h3 (hE _ _ _ _ _ (by omega) h4) h5 (hE _ _ _ _ _ (by omega) h6) h7 h8 h9
  | call h1 h2 h3 h4 => simp at hN; exact .call h1 h2 h3 (h4.mono (by omega) hE)
  | closure h1 h2 h3 h4 h5 h6 h7 h8 h9 =>
    simp at hN
    exact .closure h1 h2 h3 h4 (hE _ _ _ _ _ (by omega) h5) h6 h7 (hE _ _ _ _ _ (by omega) h8) h9
  | member _ h2 h3 ih => simp at hN; exact .member (ih (by omega)) h2 h3
  | index _ h2 h3 h4 ih => simp at hN; exact .index (ih (by omega)) h2 (hE _ _ _ _ _ (by omega) h3) h4
  | slice _ h2 h3 h4 h5 h6 ih =>
    simp at hN
    exact .slice (ih (by omega)) h2 (h3.mono (by omega) hE) h4 (h5.mono (by omega) hE) h6
  | method _ h2 h3 h4 h5 h6 ih =>
    simp at hN
    exact .method (ih (by omega)) h2 h3 h4 h5 (h6.mono (by omega) hE)
end

/-- Induction on written expressions: what is shown for an expression may be used for the expressions
inside it, which have fewer tokens. -/
theorem Written.ind {C : PCfg} {P : Expr}
    (primary : ∀ {c d L f n ts},
      Primary C (fun c' d' L' n' ts' => Written C c' d' L' n' ts' ∧ P c' d' L' n' ts' ∧ ts'.length < ts.length) d f n ts →
      P c d L n ts)
    (unary : ∀ {c d L o t s x ts}, t.kind = .op o → prefixStrength o = some s → Written C .global d (2 * s) x ts →
      P .global d (2 * s) x ts → P c d L (.unary o x) (t :: ts))
    (binary : ∀ {c d L o t k l tl r tr}, t.kind = .op o → strength o = some k → ¬ joins C c o → L ≤ 2 * k →
      Written C c d L l tl → P c d L l tl → openFor C o k l → Written C .global d (place o k) r tr →
      P .global d (place o k) r tr → P c d L (.binary o l r) (tl ++ t :: tr))
    (cond : ∀ {c d q s x tx y ty z tz}, q.kind = .op .question → s.kind = .op .slice → Written C c d 0 x tx →
      P c d 0 x tx → 0 < edge x → Written C .global d 0 y ty → P .global d 0 y ty → Written C .global d 0 z tz →
      P .global d 0 z tz → P c d 0 (.cond x y z) (tx ++ q :: ty ++ s :: tz)) :
    ∀ {c d L n ts}, Written C c d L n ts → P c d L n ts := by
  suffices h : ∀ N c d L n ts, ts.length < N → Written C c d L n ts → P c d L n ts from
    fun {c d L n ts} hw => h (ts.length + 1) c d L n ts (Nat.lt_succ_self _) hw
  intro N
  induction N with
  | zero => intro _ _ _ _ _ h; omega
  | succ N ih =>
    intro c d L n ts hl hw
    cases hw with
    | primary h =>
      exact primary (h.mono (Nat.le_refl _) fun c' d' L' n' ts' h' hw' => ⟨hw', ih _ _ _ _ _ (by omega) hw', h'⟩)
    | unary h1 h2 h3 => simp at hl; exact unary h1 h2 h3 (ih _ _ _ _ _ (by omega) h3)
    | binary h1 h2 h3 h4 h5 h6 h7 =>
      simp at hl
      exact binary h1 h2 h3 h4 h5 (ih _ _ _ _ _ (by omega) h5) h6 h7 (ih _ _ _ _ _ (by omega) h7)
    | cond h1 h2 h3 h4 h5 h6 =>
      simp at hl
      exact cond h1 h2 h3 (ih _ _ _ _ _ (by omega) h3) h4 h5 (ih _ _ _ _ _ (by omega) h5) h6 (ih _ _ _ _ _ (by omega) h6)

/-- a token with which an expression can begin -/
def startKind : Kind → Bool
  | .ident _ | .bool _ | .number | .quote _ | .literal => true
  | .op o => (prefixStrength o).isSome
  | .bracket .lparen | .bracket .lsq | .bracket .lcurly => true
  | _ => false

/-- the tokens begin as an expression -/
def Starts (ts : List Token) : Prop := ∃ t r, ts = t :: r ∧ startKind t.kind = true

theorem Starts.append {ts : List Token} (h : Starts ts) (r : List Token) : Starts (ts ++ r) := by
  obtain ⟨t, r', rfl, hk⟩ := h
  exact ⟨t, r' ++ r, rfl, hk⟩

theorem Starts.of_kind {t : Token} {k : Kind} (h : t.kind = k) (hk : startKind k = true) (r : List Token) : Starts (t :: r) :=
  ⟨t, r, rfl, by rw [h]; exact hk⟩

theorem Starts.of_name {d : Nat} {t : Token} (h : namesFn d t.kind) (r : List Token) : Starts (t :: r) := by
  rcases h with h | h | h | ⟨h, _⟩ <;> exact .of_kind h rfl _

theorem Primary.starts {C : PCfg} {E : Expr} {d f n ts} (h : Primary C E d f n ts) : Starts ts := by
  induction h with
  | null h => exact .of_kind h rfl _
  | bool h => exact .of_kind h rfl _
  | num h => exact .of_kind h rfl _
  | str _ h => exact .of_kind h rfl _
  | tmpl h => exact .of_kind h rfl _
  | emptyObj _ h => exact .of_kind h rfl _
  | obj h => exact .of_kind h rfl _
  | name h =>
    rcases h with h | h | ⟨h, _⟩ <;> exact .of_kind h rfl _
  | root h => exact .of_kind h rfl _
  | pointer h => exact .of_kind h rfl _
  | paren h => exact .of_kind h rfl _
  | arr h => exact .of_kind h rfl _
  | interval _ h h' => rcases h' with rfl | rfl <;> exact .of_kind h rfl _
  | call h => exact .of_name h _
  | closure h => exact .of_name h _
  | member _ _ _ ih => exact ih.append _
  | index _ _ _ _ ih => rw [List.append_assoc]; exact ih.append _
  | slice _ _ _ _ _ _ ih => simp only [List.append_assoc]; exact ih.append _
  | method _ _ _ _ _ _ ih => exact ih.append _

theorem Written.starts {C : PCfg} {c d L n ts} (h : Written C c d L n ts) : Starts ts := by
  refine Written.ind (P := fun _ _ _ _ ts => Starts ts) (fun h => h.starts) ?_ ?_ ?_ h
  · intro _ _ _ o t s x ts h1 h2 _ _
    exact .of_kind h1 (by simp [startKind, h2]) _
  · intro _ _ _ _ _ _ _ _ _ _ _ _ _ _ _ h _ _ _
    exact h.append _
  · intro _ _ _ _ _ _ _ _ _ _ _ _ _ h _ _ _ _ _
    rw [List.append_assoc]
    exact h.append _

section
variable {C : PCfg} {E : Expr} (hE : ∀ c d L n ts, E c d L n ts → hasError n = false)
include hE

theorem Items.noError {b d xs ts} (h : Items E b d xs ts) : hasErrorL xs = false := by
  induction h with
  | nil => rfl
  | last h => simp [hasErrorL, hE _ _ _ _ _ h]
  | more h _ _ ih => simp [hasErrorL, hE _ _ _ _ _ h, ih]

theorem Parts.noError {d xs ts} (h : Parts C E d xs ts) : hasErrorL xs = false := by
  induction h with
  | nil => rfl
  | text _ _ ih => simp [hasErrorL, hasError, ih]
  | stray _ _ ih => exact ih
  | expr _ h _ _ ih => simp [hasErrorL, hE _ _ _ _ _ h, ih]

theorem Key.noError {d k ts} (h : Key C E d k ts) : hasError k = false := by
  cases h with
  | computed _ h => exact hE _ _ _ _ _ h
  | _ => simp [hasError]

theorem Entries.noError {d kvs ts} (h : Entries C E d kvs ts) : hasErrorP kvs = false := by
  induction h with
  | last h1 _ h2 => simp [hasErrorP, hE _ _ _ _ _ h2, h1.noError hE]
  | more h1 _ h2 _ _ ih => simp [hasErrorP, hE _ _ _ _ _ h2, h1.noError hE, ih]

theorem Bound.noError {d x ts} (h : Bound E d x ts) : hasErrorO x = false := by
  cases h with
  | none => rfl
  | some h => simp [hasErrorO, hE _ _ _ _ _ h]

theorem Primary.noError {d f n ts} (h : Primary C E d f n ts) : hasError n = false := by
  induction h with
  | tmpl _ h => simp [hasError, h.noError hE]
  | emptyObj => simp [hasError, hasErrorP]
  | obj _ h => simp [hasError, h.noError hE]
  | paren _ h => simp [hasError, hE _ _ _ _ _ h]
  | arr _ h => simp [hasError, h.noError hE]
  | interval _ _ _ h _ h' => simp [hasError, hE _ _ _ _ _ h, hE _ _ _ _ _ h']
  | call _ _ _ h => simp [hasError, h.noError hE]
  | closure _ _ _ _ h _ _ h' => simp [hasError, hE _ _ _ _ _ h, hE _ _ _ _ _ h']
  | member _ _ _ ih => simp [hasError, ih]
  | index _ _ h _ ih => simp [hasError, ih, hE _ _ _ _ _ h]
  | slice _ _ h _ h' _ ih => simp [hasError, ih, h.noError hE, h'.noError hE]
  | method _ _ _ _ _ h ih => simp [hasError, ih, h.noError hE]
  | _ => simp [hasError]
end

theorem Written.noError {C : PCfg} {c d L n ts} (h : Written C c d L n ts) : hasError n = false := by
  refine Written.ind (P := fun _ _ _ n _ => hasError n = false) ?_ ?_ ?_ ?_ h
  · intro _ _ _ _ _ _ h
    exact h.noError fun _ _ _ _ _ h => h.2.1
  · intro _ _ _ o t s x ts _ _ _ h
    simp [hasError, h]
  · intro _ _ _ _ _ _ _ _ _ _ _ _ _ _ _ h _ _ h'
    simp [hasError, h, h']
  · intro _ _ _ _ _ _ _ _ _ _ _ _ _ h _ _ h' _ h''
    simp [hasError, h, h', h'']

end Parse
end Zen
