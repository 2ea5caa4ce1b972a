import Verif.Expr.EvalLemmas
/-
Parentheses anywhere in an expression and its value.
-/
namespace Zen

mutual
/-- the expression without its parentheses -/
def bare : Node → Node
  | .tmpl ps => .tmpl (bareL ps)
  | .arr ps => .arr (bareL ps)
  | .obj kvs => .obj (bareP kvs)
  | .assigns kvs o => .assigns (bareP kvs) (bareO o)
  | .paren n => bare n
  | .member n p => .member (bare n) (bare p)
  | .slice n f t => .slice (bare n) (bareO f) (bareO t)
  | .interval l r lb rb => .interval (bare l) (bare r) lb rb
  | .cond c t f => .cond (bare c) (bare t) (bare f)
  | .unary o n => .unary o (bare n)
  | .binary o l r => .binary o (bare l) (bare r)
  | .call f as => .call f (bareL as)
  | .closure k o al b => .closure k (bare o) al (bare b)
  | .method m t as => .method m (bare t) (bareL as)
  | .null => .null
  | .bool b => .bool b
  | .num q => .num q
  | .str s => .str s
  | .pointer => .pointer
  | .ident s => .ident s
  | .root => .root
  | .error => .error
def bareO : Option Node → Option Node
  | none => none
  | some n => some (bare n)
def bareL : List Node → List Node
  | [] => []
  | n :: ns => bare n :: bareL ns
def bareP : List (Node × Node) → List (Node × Node)
  | [] => []
  | (k, v) :: ns => (bare k, bare v) :: bareP ns
end

/-- the scope is the one the evaluation began with, and names can be looked up in it -/
structure Plainly (root env : Scope) : Prop where
  same : env.materialize = root.materialize
  base : (∃ m, env.base = .obj m) ∨ env.base = .null

section
variable {B : Builtins} {root env : Scope} {fr : Frames}

theorem fetchEnv_plain (h : Plainly root env) (s : String) : opFetchEnv env s = .ok ((env.get s).getD .null) := by
  unfold opFetchEnv Scope.get
  cases env.local_ s with
  | some v => rfl
  | none => rcases h.base with ⟨m, e⟩ | e <;> rw [e] <;> rfl

theorem lenient_eval (h : Plainly root env) {n : Node} {v : Val} (hl : lenient root env fr n = some v) :
    eval B root fr env n = .ok (v, env) := by
  cases n with
  | root => simp only [lenient, Option.some.injEq] at hl; simp only [eval, h.same, hl]
  | ident s =>
    simp only [lenient] at hl
    cases ha : aliasOf fr s with
    | some x => rw [ha] at hl; cases hl
    | none =>
      rw [ha] at hl
      simp only [Option.some.injEq] at hl
      simp only [eval, ha, fetchEnv_plain h, hl]
  | member n p => simp only [eval, hl]
  | _ => simp [lenient] at hl

theorem toUsize_of_toU32 {q : Rat} {i : Nat} (h : toU32 q = some i) : toUsize q = some i := by
  unfold toU32 at h
  unfold toUsize
  split at h
  · cases h
  next hq =>
    rw [if_neg hq]
    split at h
    next hi =>
      rw [if_pos (by omega)]
      exact h
    · cases h

theorem fetch_prop (b : Val) (k : String) : opFetch b (.str k) = .ok (fastProp k b) := by
  cases b <;> rfl

theorem fetch_idx {b : Val} {q : Rat} {i : Nat} (h : toU32 q = some i) : opFetch b (.num q) = .ok (fastIdx i b) := by
  cases b <;> simp [opFetch, fastIdx, toUsize_of_toU32 h]

/-- a lenient path has no parentheses -/
theorem lenient_bare : ∀ {n : Node} {v : Val}, lenient root env fr n = some v → bare n = n
  | .root, _, _ => rfl
  | .ident _, _, _ => rfl
  | .member n p, v, h => by
    simp only [lenient] at h
    cases hn : lenient root env fr n with
    | none => rw [hn] at h; cases h
    | some b =>
      rw [hn] at h
      have := lenient_bare hn
      cases p <;> first | (simp at h; done) | simp [bare, this]
  | .null, _, h | .bool _, _, h | .num _, _, h | .str _, _, h | .tmpl _, _, h | .pointer, _, h | .arr _, _, h | .obj _, _, h
  | .assigns .., _, h | .paren _, _, h | .slice .., _, h | .interval .., _, h | .cond .., _, h | .unary .., _, h
  | .binary .., _, h | .call .., _, h | .closure .., _, h | .method .., _, h | .error, _, h => by simp [lenient] at h

/-! ### Loops with bodies of the same value -/

section
variable {f g : Val → Scope → Res} (hfg : ∀ x, f x env = g x env) (hf : ∀ x env r, f x env = .ok r → r.2 = env)
include hfg hf

theorem loopAll_congr (xs : List Val) : loopAll f xs env = loopAll g xs env := by
  induction xs with
  | nil => rfl
  | cons x xs ih =>
    simp only [loopAll]
    rw [← hfg x]
    rcases h : f x env with e | ⟨v, e'⟩
    · rfl
    · obtain rfl : e' = env := hf _ _ _ h
      cases v <;> try rfl
      next b => cases b
                · rfl
                · exact ih

theorem loopSome_congr (xs : List Val) : loopSome f xs env = loopSome g xs env := by
  induction xs with
  | nil => rfl
  | cons x xs ih =>
    simp only [loopSome]
    rw [← hfg x]
    rcases h : f x env with e | ⟨v, e'⟩
    · rfl
    · obtain rfl : e' = env := hf _ _ _ h
      cases v <;> try rfl
      next b => cases b
                · exact ih
                · rfl

theorem loopNone_congr (xs : List Val) : loopNone f xs env = loopNone g xs env := by
  induction xs with
  | nil => rfl
  | cons x xs ih =>
    simp only [loopNone]
    rw [← hfg x]
    rcases h : f x env with e | ⟨v, e'⟩
    · rfl
    · obtain rfl : e' = env := hf _ _ _ h
      cases v <;> try rfl
      next b => cases b
                · exact ih
                · rfl

theorem loopFilter_congr (xs : List Val) : loopFilter f xs env = loopFilter g xs env := by
  induction xs with
  | nil => rfl
  | cons x xs ih =>
    simp only [loopFilter]
    rw [← hfg x]
    rcases h : f x env with e | ⟨v, e'⟩
    · rfl
    · obtain rfl : e' = env := hf _ _ _ h
      cases v <;> try rfl
      next b => cases b
                · exact ih
                · simp only [ih]

theorem loopMap_congr (xs : List Val) : loopMap f xs env = loopMap g xs env := by
  induction xs with
  | nil => rfl
  | cons x xs ih =>
    simp only [loopMap]
    rw [← hfg x]
    rcases h : f x env with e | ⟨v, e'⟩
    · rfl
    · obtain rfl : e' = env := hf _ _ _ h
      simp only [ih]

theorem loopMeaning_congr (k : Clo) (xs : List Val) : loopMeaning k f xs env = loopMeaning k g xs env := by
  cases k <;> simp only [loopMeaning, loopAll_congr hfg hf, loopSome_congr hfg hf, loopNone_congr hfg hf, loopFilter_congr hfg hf,
    loopMap_congr hfg hf]

end

/-- the value is that of the expression without its parentheses -/
def BareEq (B : Builtins) (root env : Scope) (n : Node) : Prop :=
  NoAssign n → ∀ fr, eval B root fr env (bare n) = eval B root fr env n

theorem bareList (ns : List Node) (ih : ∀ n ∈ ns, BareEq B root env n) (h : NoAssignL ns) :
    ∀ fr, evalList B root fr env (bareL ns) = evalList B root fr env ns := by
  induction ns with
  | nil => intro fr; rfl
  | cons n ns ihn =>
    intro fr
    simp only [evalList, bareL]
    rw [ih n (by simp) h.1 fr]
    rcases e : eval B root fr env n with _ | ⟨v, e'⟩
    · rfl
    · obtain rfl : e' = env := eval_keeps n h.1 _ _ _ e
      simp only [ihn (fun m hm => ih m (by simp [hm])) h.2 fr]

theorem bareTmpl (ns : List Node) (ih : ∀ n ∈ ns, BareEq B root env n) (h : NoAssignL ns) :
    ∀ fr, evalTmpl B root fr env (bareL ns) = evalTmpl B root fr env ns := by
  induction ns with
  | nil => intro fr; rfl
  | cons n ns ihn =>
    intro fr
    simp only [evalTmpl, bareL]
    rw [ih n (by simp) h.1 fr]
    rcases e : eval B root fr env n with _ | ⟨v, e'⟩
    · rfl
    · obtain rfl : e' = env := eval_keeps n h.1 _ _ _ e
      simp only [ihn (fun m hm => ih m (by simp [hm])) h.2 fr]

theorem bareObj (ns : List (Node × Node)) (ih : ∀ p ∈ ns, BareEq B root env p.1 ∧ BareEq B root env p.2) (h : NoAssignP ns) :
    ∀ fr, evalObj B root fr env (bareP ns) = evalObj B root fr env ns := by
  induction ns with
  | nil => intro fr; rfl
  | cons n ns ihn =>
    obtain ⟨k, v⟩ := n
    intro fr
    simp only [evalObj, bareP]
    rw [(ih (k, v) (by simp)).1 h.1 fr]
    rcases e : eval B root fr env k with _ | ⟨w, e'⟩
    · rfl
    · obtain rfl : e' = env := eval_keeps k h.1 _ _ _ e
      simp only
      rw [(ih (k, v) (by simp)).2 h.2.1 fr]
      cases strOf B w with
      | error => rfl
      | ok s =>
        simp only
        rcases e2 : eval B root fr e' v with _ | ⟨x, e''⟩
        · rfl
        · obtain rfl : e'' = e' := eval_keeps v h.2.1 _ _ _ e2
          simp only [ihn (fun m hm => ih m (by simp [hm])) h.2.2 fr]

theorem bare_eval (hp : Plainly root env) (n : Node) : BareEq B root env n := by
  refine Node.ind (P := BareEq B root env)
    ?null ?bool ?num ?str ?tmpl ?pointer ?arr ?obj ?assigns ?ident ?paren ?root ?member ?slice
    ?interval ?cond ?unary ?binary ?call ?closure ?method ?error n
  case null => intro _ fr; rfl
  case bool => intro _ _ fr; rfl
  case num => intro _ _ fr; rfl
  case str => intro _ _ fr; rfl
  case pointer => intro _ fr; rfl
  case ident => intro _ _ fr; rfl
  case root => intro _ fr; rfl
  case error => intro _ fr; rfl
  case assigns => intro _ _ _ _ h; exact h.elim
  case paren => intro n ih h fr; simpa only [bare, eval] using ih h fr
  case tmpl =>
    intro ps ih h fr
    simp only [bare, eval, bareTmpl ps ih h]
  case arr =>
    intro ps ih h fr
    simp only [bare, eval, bareList ps ih h]
  case obj =>
    intro ps ih h fr
    simp only [bare, eval, bareObj ps ih h]
  case call =>
    intro f ps ih h fr
    simp only [bare, eval, bareList ps ih h]
  case unary =>
    intro o n ih h fr
    simp only [bare, eval, ih h fr]
  case method =>
    intro m t ps iht ih h fr
    simp only [bare, eval, iht h.1 fr]
    rcases e : eval B root fr env t with _ | ⟨v, e'⟩
    · rfl
    · obtain rfl : e' = env := eval_keeps t h.1 _ _ _ e
      simp only [bareList ps ih h.2]
  case interval =>
    intro l r lb rb ihl ihr h fr
    simp only [bare, eval, ihl h.1 fr]
    rcases e : eval B root fr env l with _ | ⟨v, e'⟩
    · rfl
    · obtain rfl : e' = env := eval_keeps l h.1 _ _ _ e
      simp only [ihr h.2 fr]
  case cond =>
    intro c t f ihc iht ihf h fr
    simp only [bare, eval, ihc h.1 fr]
    rcases e : eval B root fr env c with _ | ⟨v, e'⟩
    · rfl
    · obtain rfl : e' = env := eval_keeps c h.1 _ _ _ e
      cases v <;> try rfl
      next b => cases b
                · exact ihf h.2.2 fr
                · exact iht h.2.1 fr
  case binary =>
    intro o l r ihl ihr h fr
    simp only [bare, eval, ihl h.1 fr]
    rcases e : eval B root fr env l with _ | ⟨v, e'⟩
    · rfl
    · obtain rfl : e' = env := eval_keeps l h.1 _ _ _ e
      have := ihr h.2 fr
      cases o with
      | logic a =>
        cases a <;> cases v <;> first | rfl | simp only [this]
        all_goals (next b => cases b <;> first | rfl | exact this)
      | _ => simp only [this]
  case closure =>
    intro k o al b iho ihb h fr
    simp only [bare, eval, iho h.1 fr]
    rcases e : eval B root fr env o with _ | ⟨v, e'⟩
    · rfl
    · obtain rfl : e' = env := eval_keeps o h.1 _ _ _ e
      simp only
      cases opBegin B.checks v with
      | error => rfl
      | ok xs =>
        simp only
        exact (loopMeaning_congr (fun x => (ihb h.2 _).symm) (fun x env r hr => eval_keeps b h.2 _ _ _ hr) k xs).symm
  case slice =>
    intro n f t ihn ihf iht h fr
    simp only [bare, eval, ihn h.1 fr]
    rcases e : eval B root fr env n with _ | ⟨v, e'⟩
    · rfl
    · obtain rfl : e' = env := eval_keeps n h.1 _ _ _ e
      have h1 : evalTo B root fr e' v (bareO t) = evalTo B root fr e' v t := by
        cases t with
        | none => rfl
        | some t => simpa only [bareO, evalTo] using iht t rfl h.2.2 fr
      have h2 : evalOpt B root fr e' (.num 0) (bareO f) = evalOpt B root fr e' (.num 0) f := by
        cases f with
        | none => rfl
        | some f => simpa only [bareO, evalOpt] using ihf f rfl h.2.1 fr
      simp only [h1]
      rcases e2 : evalTo B root fr e' v t with _ | ⟨x, e''⟩
      · rfl
      · obtain rfl : e'' = e' := by
          cases t with
          | none =>
            simp only [evalTo] at e2
            split at e2
            · cases e2
            · split at e2
              · cases e2
              · cases e2; rfl
          | some t => exact eval_keeps t h.2.2 _ _ _ e2
        simp only [h2]
  case member =>
    intro n p ihn ihp h fr
    cases hl : lenient root env fr (.member n p) with
    | some v => rw [lenient_bare hl]
    | none =>
      have e1 : eval B root fr env (.member n p) = (match eval B root fr env n with
          | .error e => .error e
          | .ok (a, env) => match eval B root fr env p with
            | .error e => .error e
            | .ok (b, env) => match opFetch a b with
              | .error e => .error e
              | .ok v => .ok (v, env)) := by simp only [eval, hl]; rfl
      rw [e1, ← ihn h.1 fr]
      cases hl' : lenient root env fr (.member (bare n) (bare p)) with
      | some v =>
        simp only [bare, lenient_eval hp hl']
        simp only [lenient] at hl'
        cases hn : lenient root env fr (bare n) with
        | none => rw [hn] at hl'; cases hl'
        | some b =>
          rw [hn] at hl'
          simp only [lenient_eval hp hn, ← ihp h.2 fr]
          generalize bare p = p' at hl'
          cases p' with
          | str k => simp only [eval, fetch_prop]; simpa using hl'.symm
          | num q =>
            simp only at hl'
            cases hi : toU32 q with
            | none => rw [hi] at hl'; cases hl'
            | some i => rw [hi] at hl'; simp only [eval, fetch_idx hi]; simpa using hl'.symm
          | _ => simp at hl'
      | none =>
        simp only [bare, eval, hl']
        rcases e : eval B root fr env (bare n) with _ | ⟨v, e'⟩
        · rfl
        · obtain rfl : e' = env := eval_keeps n h.1 fr _ (v, e') ((ihn h.1 fr).symm.trans e)
          simp only [ihp h.2 fr]
          rfl

end
end Zen
