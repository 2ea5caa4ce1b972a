import Verif.Expr.EvalLemmas
/-
An expression depends only on the names it mentions (helper for the proofs).
-/
namespace Zen

/-- inputs that are the same, or objects that agree outside `L` -/
def BaseSame (L : List String) (b b' : Val) : Prop :=
  b = b' ∨ ∃ m m', b = .obj m ∧ b' = .obj m' ∧ ∀ k, k ∉ L → aGet m k = aGet m' k

/-- input and locals that agree outside `L` -/
def SameOutside (L : List String) (e e' : Scope) : Prop :=
  BaseSame L e.base e'.base ∧ ∀ k, k ∉ L → aGet e.locals k = aGet e'.locals k

/-- the same value in scopes that agree outside `L`, or the same failure -/
def RelR {α : Type} (L : List String) (r r' : Except VErr (α × Scope)) : Prop :=
  (∃ e, r = .error e ∧ r' = .error e) ∨
  ∃ a e e', r = .ok (a, e) ∧ r' = .ok (a, e') ∧ SameOutside L e e'

section
variable {α : Type} {L : List String}

theorem relErr (e : VErr) : RelR (α := α) L (.error e) (.error e) := .inl ⟨e, rfl, rfl⟩
theorem relOk (a : α) {e e' : Scope} (h : SameOutside L e e') : RelR L (.ok (a, e)) (.ok (a, e')) :=
  .inr ⟨a, e, e', rfl, rfl, h⟩
theorem relMap {β : Type} {r r' : Except VErr (α × Scope)} (f : α → β) (h : RelR L r r') :
    RelR L (r.map fun q => (f q.1, q.2)) (r'.map fun q => (f q.1, q.2)) := by
  rcases h with ⟨e, rfl, rfl⟩ | ⟨a, e, e', rfl, rfl, h⟩
  · exact relErr e
  · exact relOk _ h

theorem SameOutside.getEq {e e' : Scope} (h : SameOutside L e e') {k : String} (hk : k ∉ L) :
    e.get k = e'.get k := by
  unfold Scope.get Scope.local_
  rw [h.2 k hk]
  rcases h.1 with hb | ⟨m, m', h1, h2, h3⟩
  · rw [hb]
  · rw [h1, h2]; dsimp only; rw [h3 k hk]

theorem SameOutside.fetch {e e' : Scope} (h : SameOutside L e e') {k : String} (hk : k ∉ L) :
    opFetchEnv e k = opFetchEnv e' k := by
  unfold opFetchEnv Scope.local_
  rw [h.2 k hk]
  rcases h.1 with hb | ⟨m, m', h1, h2, h3⟩
  · rw [hb]
  · rw [h1, h2]; dsimp only; rw [h3 k hk]
end

section
variable {B : Builtins} {root root' : Scope} {L : List String}

theorem lenient_congr {env env' : Scope} (h : SameOutside L env env') (fr : Frames) (n : Node)
    (ha : Avoids L n) : lenient root env fr n = lenient root' env' fr n := by
  induction n using Node.ind with
  | member n p ih _ => simp only [lenient, ih ha.1]
  | root => exact ha.elim
  | ident v => simp only [lenient, h.getEq ha]
  | _ => simp only [lenient]

def CongrN (B : Builtins) (root root' : Scope) (L : List String) (n : Node) : Prop :=
  NoAssign n → Avoids L n → ∀ fr env env', SameOutside L env env' →
    RelR L (eval B root fr env n) (eval B root' fr env' n)

theorem congrList (ns : List Node) (ih : ∀ n ∈ ns, CongrN B root root' L n) (hn : NoAssignL ns)
    (ha : AvoidsL L ns) : ∀ fr env env', SameOutside L env env' →
    RelR L (evalList B root fr env ns) (evalList B root' fr env' ns) := by
  induction ns with
  | nil => intro fr env env' h; exact relOk _ h
  | cons n ns ihl =>
    intro fr env env' h
    have h1 := ih n (List.mem_cons_self ..) hn.1 ha.1 fr env env' h
    simp only [evalList]
    rcases h1 with ⟨e, e1, e2⟩ | ⟨a, e, e', e1, e2, h⟩ <;> simp only [e1, e2]
    · exact relErr e
    · have h2 := ihl (fun m hm => ih m (List.mem_cons_of_mem _ hm)) hn.2 ha.2 fr e e' h
      rcases h2 with ⟨e, e1, e2⟩ | ⟨a, e, e', e1, e2, h⟩ <;> simp only [e1, e2]
      · exact relErr e
      · exact relOk _ h

theorem congrTmpl (ns : List Node) (ih : ∀ n ∈ ns, CongrN B root root' L n) (hn : NoAssignL ns)
    (ha : AvoidsL L ns) : ∀ fr env env', SameOutside L env env' →
    RelR L (evalTmpl B root fr env ns) (evalTmpl B root' fr env' ns) := by
  induction ns with
  | nil => intro fr env env' h; exact relOk _ h
  | cons n ns ihl =>
    intro fr env env' h
    have h1 := ih n (List.mem_cons_self ..) hn.1 ha.1 fr env env' h
    simp only [evalTmpl]
    rcases h1 with ⟨e, e1, e2⟩ | ⟨a, e, e', e1, e2, h⟩ <;> simp only [e1, e2]
    · exact relErr e
    · have h2 := ihl (fun m hm => ih m (List.mem_cons_of_mem _ hm)) hn.2 ha.2 fr e e' h
      cases strOf B a with
      | error x => exact relErr x
      | ok s =>
        dsimp only
        rcases h2 with ⟨e, e1, e2⟩ | ⟨a, e, e', e1, e2, h⟩ <;> simp only [e1, e2]
        · exact relErr e
        · exact relOk _ h

theorem congrObj (ns : List (Node × Node))
    (ih : ∀ p ∈ ns, CongrN B root root' L p.1 ∧ CongrN B root root' L p.2) (hn : NoAssignP ns)
    (ha : AvoidsP L ns) : ∀ fr env env', SameOutside L env env' →
    RelR L (evalObj B root fr env ns) (evalObj B root' fr env' ns) := by
  induction ns with
  | nil => intro fr env env' h; exact relOk _ h
  | cons p ns ihl =>
    obtain ⟨k, x⟩ := p
    obtain ⟨ihk, ihv⟩ := ih (k, x) (List.mem_cons_self ..)
    intro fr env env' h
    have h1 := ihk hn.1 ha.1 fr env env' h
    simp only [evalObj]
    rcases h1 with ⟨e, e1, e2⟩ | ⟨a, e, e', e1, e2, h⟩ <;> simp only [e1, e2]
    · exact relErr e
    · cases strOf B a with
      | error x => exact relErr x
      | ok s =>
        dsimp only
        have h2 := ihv hn.2.1 ha.2.1 fr e e' h
        rcases h2 with ⟨e, e1, e2⟩ | ⟨a, e, e', e1, e2, h⟩ <;> simp only [e1, e2]
        · exact relErr e
        · have h3 := ihl (fun m hm => ih m (List.mem_cons_of_mem _ hm)) hn.2.2 ha.2.2 fr e e' h
          rcases h3 with ⟨e, e1, e2⟩ | ⟨a, e, e', e1, e2, h⟩ <;> simp only [e1, e2]
          · exact relErr e
          · cases s <;> first | exact relOk _ h | exact relErr _

theorem congrAll (f f' : Val → Scope → Res)
    (hf : ∀ x e e', SameOutside L e e' → RelR L (f x e) (f' x e')) (xs : List Val) :
    ∀ e e', SameOutside L e e' → RelR L (loopAll f xs e) (loopAll f' xs e') := by
  induction xs with
  | nil => intro e e' h; exact relOk _ h
  | cons x xs ih =>
    intro e e' h
    simp only [loopAll]
    rcases hf x e e' h with ⟨e, e1, e2⟩ | ⟨a, e, e', e1, e2, h⟩ <;> simp only [e1, e2]
    · exact relErr e
    · cases a with
      | bool b =>
        cases b
        · exact relOk _ h
        · exact ih _ _ h
      | _ => exact relErr _

theorem congrSome (f f' : Val → Scope → Res)
    (hf : ∀ x e e', SameOutside L e e' → RelR L (f x e) (f' x e')) (xs : List Val) :
    ∀ e e', SameOutside L e e' → RelR L (loopSome f xs e) (loopSome f' xs e') := by
  induction xs with
  | nil => intro e e' h; exact relOk _ h
  | cons x xs ih =>
    intro e e' h
    simp only [loopSome]
    rcases hf x e e' h with ⟨e, e1, e2⟩ | ⟨a, e, e', e1, e2, h⟩ <;> simp only [e1, e2]
    · exact relErr e
    · cases a with
      | bool b =>
        cases b
        · exact ih _ _ h
        · exact relOk _ h
      | _ => exact relErr _

theorem congrNone (f f' : Val → Scope → Res)
    (hf : ∀ x e e', SameOutside L e e' → RelR L (f x e) (f' x e')) (xs : List Val) :
    ∀ e e', SameOutside L e e' → RelR L (loopNone f xs e) (loopNone f' xs e') := by
  induction xs with
  | nil => intro e e' h; exact relOk _ h
  | cons x xs ih =>
    intro e e' h
    simp only [loopNone]
    rcases hf x e e' h with ⟨e, e1, e2⟩ | ⟨a, e, e', e1, e2, h⟩ <;> simp only [e1, e2]
    · exact relErr e
    · cases a with
      | bool b =>
        cases b
        · exact ih _ _ h
        · exact relOk _ h
      | _ => exact relErr _

theorem congrFilter (f f' : Val → Scope → Res)
    (hf : ∀ x e e', SameOutside L e e' → RelR L (f x e) (f' x e')) (xs : List Val) :
    ∀ e e', SameOutside L e e' → RelR L (loopFilter f xs e) (loopFilter f' xs e') := by
  induction xs with
  | nil => intro e e' h; exact relOk _ h
  | cons x xs ih =>
    intro e e' h
    simp only [loopFilter]
    rcases hf x e e' h with ⟨e, e1, e2⟩ | ⟨a, e, e', e1, e2, h⟩ <;> simp only [e1, e2]
    · exact relErr e
    · cases a with
      | bool b =>
        cases b
        · exact ih _ _ h
        · dsimp only
          rcases ih _ _ h with ⟨e, e1, e2⟩ | ⟨a, e, e', e1, e2, h⟩ <;> simp only [e1, e2]
          · exact relErr e
          · exact relOk _ h
      | _ => exact relErr _

theorem congrMap (f f' : Val → Scope → Res)
    (hf : ∀ x e e', SameOutside L e e' → RelR L (f x e) (f' x e')) (xs : List Val) :
    ∀ e e', SameOutside L e e' → RelR L (loopMap f xs e) (loopMap f' xs e') := by
  induction xs with
  | nil => intro e e' h; exact relOk _ h
  | cons x xs ih =>
    intro e e' h
    simp only [loopMap]
    rcases hf x e e' h with ⟨e, e1, e2⟩ | ⟨a, e, e', e1, e2, h⟩ <;> simp only [e1, e2]
    · exact relErr e
    · rcases ih _ _ h with ⟨e, e1, e2⟩ | ⟨a, e, e', e1, e2, h⟩ <;> simp only [e1, e2]
      · exact relErr e
      · exact relOk _ h

theorem congrLoop (k : Clo) (f f' : Val → Scope → Res)
    (hf : ∀ x e e', SameOutside L e e' → RelR L (f x e) (f' x e')) (xs : List Val)
    {e e' : Scope} (h : SameOutside L e e') :
    RelR L (loopMeaning k f xs e) (loopMeaning k f' xs e') := by
  cases k <;> simp only [loopMeaning]
  · exact relMap (Val.bool ·) (congrAll f f' hf xs _ _ h)
  · exact relMap (Val.bool ·) (congrNone f f' hf xs _ _ h)
  · exact relMap (Val.bool ·) (congrSome f f' hf xs _ _ h)
  · exact relMap (fun r : List Val => Val.bool (decide (r.length = 1))) (congrFilter f f' hf xs _ _ h)
  · exact relMap (fun r : List Val => Val.arr r) (congrFilter f f' hf xs _ _ h)
  · exact relMap (fun r : List Val => Val.arr r) (congrMap f f' hf xs _ _ h)
  · exact relMap (fun r : List Val => Val.arr (flattenV r)) (congrMap f f' hf xs _ _ h)
  · exact relMap (fun r : List Val => Val.num r.length) (congrFilter f f' hf xs _ _ h)

theorem eval_congr (n : Node) : CongrN B root root' L n := by
  refine Node.ind (P := CongrN B root root' L)
    ?null ?bool ?num ?str ?tmpl ?pointer ?arr ?obj ?assigns ?ident ?paren ?root ?member ?slice
    ?interval ?cond ?unary ?binary ?call ?closure ?method ?error n
  case null => intro _ _ fr env env' h; exact relOk _ h
  case bool => intro _ _ _ fr env env' h; exact relOk _ h
  case num => intro _ _ _ fr env env' h; exact relOk _ h
  case str => intro _ _ _ fr env env' h; exact relOk _ h
  case root => intro _ ha; exact ha.elim
  case error => intro _ _ fr env env' h; exact relErr _
  case assigns => intro _ _ _ _ h; exact h.elim
  case pointer =>
    intro _ _ fr env env' h
    cases fr with
    | nil => exact relErr _
    | cons p fr => exact relOk _ h
  case ident =>
    intro v _ ha fr env env' h
    simp only [eval]
    cases aliasOf fr v with
    | some x => exact relOk _ h
    | none =>
      dsimp only
      rw [← h.fetch ha]
      cases opFetchEnv env v with
      | ok x => exact relOk _ h
      | error x => exact relErr _
  case paren => intro n ih hn ha fr env env' h; simp only [eval]; exact ih hn ha _ _ _ h
  case tmpl =>
    intro ps ih hn ha fr env env' h
    simp only [eval]
    rcases congrTmpl ps ih hn ha fr env env' h with ⟨e, e1, e2⟩ | ⟨a, e, e', e1, e2, h⟩ <;>
      simp only [e1, e2]
    · exact relErr e
    · cases opJoin B.checks (.arr a) (.str "") with
      | ok x => exact relOk _ h
      | error x => exact relErr _
  case arr =>
    intro ps ih hn ha fr env env' h
    simp only [eval]
    rcases congrList ps ih hn ha fr env env' h with ⟨e, e1, e2⟩ | ⟨a, e, e', e1, e2, h⟩ <;>
      simp only [e1, e2]
    · exact relErr e
    · exact relOk _ h
  case obj =>
    intro ps ih hn ha fr env env' h
    simp only [eval]
    rcases congrObj ps ih hn ha fr env env' h with ⟨e, e1, e2⟩ | ⟨a, e, e', e1, e2, h⟩ <;>
      simp only [e1, e2]
    · exact relErr e
    · exact relOk _ h
  case member =>
    intro n p ihn ihp hn ha fr env env' h
    simp only [eval]
    have hl := lenient_congr (root := root) (root' := root') h fr (.member n p) ha
    rw [← hl]
    cases lenient root env fr (.member n p) with
    | some v => exact relOk _ h
    | none =>
      dsimp only
      rcases ihn hn.1 ha.1 fr env env' h with ⟨e, e1, e2⟩ | ⟨a, e, e', e1, e2, h⟩ <;>
        simp only [e1, e2]
      · exact relErr e
      · rcases ihp hn.2 ha.2 fr e e' h with ⟨e, e1, e2⟩ | ⟨b, e, e', e1, e2, h⟩ <;>
          simp only [e1, e2]
        · exact relErr e
        · cases opFetch a b with
          | ok x => exact relOk _ h
          | error x => exact relErr _
  case slice =>
    intro n f t ihn ihf iht hn ha fr env env' h
    simp only [eval]
    rcases ihn hn.1 ha.1 fr env env' h with ⟨e, e1, e2⟩ | ⟨c, e, e', e1, e2, h⟩ <;>
      simp only [e1, e2]
    · exact relErr e
    · have ht : RelR L (evalTo B root fr e c t) (evalTo B root' fr e' c t) := by
        cases t with
        | none =>
          simp only [evalTo]
          cases opLen c with
          | error x => exact relErr _
          | ok l =>
            dsimp only
            cases opSub B.num l (.num 1) with
            | ok x => exact relOk _ h
            | error x => exact relErr _
        | some t => exact iht t rfl hn.2.2 ha.2.2 fr e e' h
      rcases ht with ⟨e, e1, e2⟩ | ⟨t', e, e', e1, e2, h⟩ <;> simp only [e1, e2]
      · exact relErr e
      · have hf : RelR L (evalOpt B root fr e (.num 0) f) (evalOpt B root' fr e' (.num 0) f) := by
          cases f with
          | none => exact relOk _ h
          | some f => exact ihf f rfl hn.2.1 ha.2.1 fr e e' h
        rcases hf with ⟨e, e1, e2⟩ | ⟨f', e, e', e1, e2, h⟩ <;> simp only [e1, e2]
        · exact relErr e
        · cases opSlice c t' f' with
          | ok x => exact relOk _ h
          | error x => exact relErr _
  case interval =>
    intro l r lb rb ihn ihp hn ha fr env env' h
    simp only [eval]
    rcases ihn hn.1 ha.1 fr env env' h with ⟨e, e1, e2⟩ | ⟨a, e, e', e1, e2, h⟩ <;>
      simp only [e1, e2]
    · exact relErr e
    · rcases ihp hn.2 ha.2 fr e e' h with ⟨e, e1, e2⟩ | ⟨b, e, e', e1, e2, h⟩ <;>
        simp only [e1, e2]
      · exact relErr e
      · cases opInterval lb rb a b with
        | ok x => exact relOk _ h
        | error x => exact relErr _
  case cond =>
    intro c t f ihc iht ihf hn ha fr env env' h
    simp only [eval]
    rcases ihc hn.1 ha.1 fr env env' h with ⟨e, e1, e2⟩ | ⟨a, e, e', e1, e2, h⟩ <;>
      simp only [e1, e2]
    · exact relErr e
    · cases a with
      | bool b =>
        cases b
        · exact ihf hn.2.2 ha.2.2 _ _ _ h
        · exact iht hn.2.1 ha.2.1 _ _ _ h
      | _ => exact relErr _
  case unary =>
    intro op n ih hn ha fr env env' h
    simp only [eval]
    rcases ih hn ha fr env env' h with ⟨e, e1, e2⟩ | ⟨a, e, e', e1, e2, h⟩ <;>
      simp only [e1, e2]
    · exact relErr e
    · split
      · exact relOk _ h
      · cases opNegate a with
        | ok x => exact relOk _ h
        | error x => exact relErr _
      · cases opNot a with
        | ok x => exact relOk _ h
        | error x => exact relErr _
      · exact relErr _
  case binary =>
    intro op l r ihl ihr hn ha fr env env' h
    have h1 := ihl hn.1 ha.1 fr env env' h
    cases hs : scJump op with
    | none =>
      rw [eval_binary_strict _ _ _ _ hs, eval_binary_strict _ _ _ _ hs]
      cases binMeaning B.num op with
      | none => exact relErr _
      | some f =>
        dsimp only
        rcases h1 with ⟨e, e1, e2⟩ | ⟨a, e, e', e1, e2, h⟩ <;> simp only [e1, e2]
        · exact relErr e
        · rcases ihr hn.2 ha.2 fr e e' h with ⟨e, e1, e2⟩ | ⟨b, e, e', e1, e2, h⟩ <;>
            simp only [e1, e2]
          · exact relErr e
          · cases f a b with
            | ok x => exact relOk _ h
            | error x => exact relErr _
    | some j =>
      unfold scJump at hs
      split at hs <;> cases hs <;> simp only [eval] <;>
        (rcases h1 with ⟨e, e1, e2⟩ | ⟨a, e, e', e1, e2, h⟩ <;> simp only [e1, e2])
      all_goals first
        | exact relErr _
        | (cases a with
          | bool b => cases b <;> first | exact relOk _ h | exact ihr hn.2 ha.2 _ _ _ h
          | null => first | exact relErr _ | exact ihr hn.2 ha.2 _ _ _ h
          | _ => first | exact relErr _ | exact relOk _ h)
  case call =>
    intro f as ih hn ha fr env env' h
    simp only [eval]
    rcases congrList as ih hn ha fr env env' h with ⟨e, e1, e2⟩ | ⟨a, e, e', e1, e2, h⟩ <;>
      simp only [e1, e2]
    · exact relErr e
    · cases B.fn f a with
      | ok x => exact relOk _ h
      | error x => exact relErr _
  case method =>
    intro m t as iht ih hn ha fr env env' h
    simp only [eval]
    rcases iht hn.1 ha.1 fr env env' h with ⟨e, e1, e2⟩ | ⟨t', e, e', e1, e2, h⟩ <;>
      simp only [e1, e2]
    · exact relErr e
    · rcases congrList as ih hn.2 ha.2 fr e e' h with ⟨e, e1, e2⟩ | ⟨a, e, e', e1, e2, h⟩ <;>
        simp only [e1, e2]
      · exact relErr e
      · cases B.method m (t' :: a) with
        | ok x => exact relOk _ h
        | error x => exact relErr _
  case closure =>
    intro k o a b iho ihb hn ha fr env env' h
    simp only [eval]
    rcases iho hn.1 ha.1 fr env env' h with ⟨e, e1, e2⟩ | ⟨v, e, e', e1, e2, h⟩ <;>
      simp only [e1, e2]
    · exact relErr e
    · cases opBegin B.checks v with
      | error x => exact relErr _
      | ok xs => exact congrLoop k _ _ (fun x e e' h => ihb hn.2 ha.2 ((a, x) :: fr) e e' h) xs h

/-- An assignment-free expression that avoids the names in `L` has the same value in scopes that
differ only in locals named in `L`. -/
theorem evaluate_congr {scope scope' : Scope} {n : Node} (hn : NoAssign n) (ha : Avoids L n)
    (h : SameOutside L scope scope') : evaluate B scope n = evaluate B scope' n := by
  unfold evaluate
  rcases eval_congr (B := B) (root := scope) (root' := scope') n hn ha [] scope scope' h with
    ⟨e, e1, e2⟩ | ⟨a, e, e', e1, e2, h⟩ <;> rw [e1, e2] <;> rfl

end
end Zen
