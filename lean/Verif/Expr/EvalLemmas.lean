import Verif.Expr.Main
import Verif.Expr.Spec
/-
Facts about the reference evaluator (helper for the proofs).
-/
namespace Zen

theorem yields_iff {B : Builtins} {scope : Scope} {n : Node} {r : Except VErr Val} :
    Yields B scope n r ↔ Compiles B n ∧ r = evaluate B scope n := by
  constructor
  · rintro ⟨code, fuel, hc, hr⟩
    obtain ⟨f, hf⟩ := run_compiled scope hc
    exact ⟨⟨code, hc⟩, runCode_det hr hf⟩
  · rintro ⟨⟨code, hc⟩, rfl⟩
    obtain ⟨f, hf⟩ := run_compiled scope hc
    exact ⟨code, f, hc, hf⟩

theorem compiles_iff {B : Builtins} {n : Node} : Compiles B n ↔ Accepts B n := by
  constructor
  · rintro ⟨code, hc⟩; exact (compileNode_gen hc).1
  · intro h
    rcases compSpec B n with ⟨_, hc⟩ | ⟨h', _⟩
    · exact ⟨_, hc [] []⟩
    · exact absurd h h'

/-! ### Expressions without assignments leave the scope alone -/

section
variable {B : Builtins} {root : Scope}

def Keeps (B : Builtins) (root : Scope) (n : Node) : Prop :=
  NoAssign n → ∀ fr env r, eval B root fr env n = .ok r → r.2 = env

theorem keepsList (ns : List Node) (ih : ∀ n ∈ ns, Keeps B root n) (h : NoAssignL ns) :
    ∀ fr env r, evalList B root fr env ns = .ok r → r.2 = env := by
  induction ns with
  | nil => intro fr env r hr; cases hr; rfl
  | cons n ns ihl =>
    intro fr env r hr
    simp only [evalList] at hr
    split at hr
    · cases hr
    · rename_i v env1 h1
      have e1 := ih n (List.mem_cons_self ..) h.1 _ _ _ h1
      split at hr
      · cases hr
      · rename_i vs env2 h2
        have e2 := ihl (fun m hm => ih m (List.mem_cons_of_mem _ hm)) h.2 _ _ _ h2
        cases hr
        simp only at e1 e2 ⊢; rw [e2, e1]

theorem keepsTmpl (ns : List Node) (ih : ∀ n ∈ ns, Keeps B root n) (h : NoAssignL ns) :
    ∀ fr env r, evalTmpl B root fr env ns = .ok r → r.2 = env := by
  induction ns with
  | nil => intro fr env r hr; cases hr; rfl
  | cons n ns ihl =>
    intro fr env r hr
    simp only [evalTmpl] at hr
    split at hr
    · cases hr
    · rename_i v env1 h1
      have e1 := ih n (List.mem_cons_self ..) h.1 _ _ _ h1
      split at hr
      · cases hr
      · split at hr
        · cases hr
        · rename_i vs env2 h2
          have e2 := ihl (fun m hm => ih m (List.mem_cons_of_mem _ hm)) h.2 _ _ _ h2
          cases hr
          simp only at e1 e2 ⊢; rw [e2, e1]

theorem keepsObj (ns : List (Node × Node)) (ih : ∀ p ∈ ns, Keeps B root p.1 ∧ Keeps B root p.2)
    (h : NoAssignP ns) : ∀ fr env r, evalObj B root fr env ns = .ok r → r.2 = env := by
  induction ns with
  | nil => intro fr env r hr; cases hr; rfl
  | cons p ns ihl =>
    obtain ⟨k, v⟩ := p
    intro fr env r hr
    obtain ⟨ihk, ihv⟩ := ih (k, v) (List.mem_cons_self ..)
    simp only [evalObj] at hr
    split at hr
    · cases hr
    · rename_i kv env1 h1
      have e1 := ihk h.1 _ _ _ h1
      split at hr
      · cases hr
      · split at hr
        · cases hr
        · rename_i x env2 h2
          have e2 := ihv h.2.1 _ _ _ h2
          split at hr
          · cases hr
          · rename_i vs env3 h3
            have e3 := ihl (fun m hm => ih m (List.mem_cons_of_mem _ hm)) h.2.2 _ _ _ h3
            split at hr
            · cases hr
              simp only at e1 e2 e3 ⊢; rw [e3, e2, e1]
            · cases hr

theorem loopAll_keeps (f : Val → Scope → Res) (xs : List Val)
    (hf : ∀ x env r, f x env = .ok r → r.2 = env) :
    ∀ env r, loopAll f xs env = .ok r → r.2 = env := by
  induction xs with
  | nil => intro env r h; cases h; rfl
  | cons x xs ih =>
    intro env r h
    simp only [loopAll] at h
    split at h
    · cases h
    · rename_i h1; have := hf _ _ _ h1; simp only at this; subst this; exact ih _ _ h
    · rename_i h1; have := hf _ _ _ h1; simp only at this; subst this; cases h; rfl
    · cases h

theorem loopSome_keeps (f : Val → Scope → Res) (xs : List Val)
    (hf : ∀ x env r, f x env = .ok r → r.2 = env) :
    ∀ env r, loopSome f xs env = .ok r → r.2 = env := by
  induction xs with
  | nil => intro env r h; cases h; rfl
  | cons x xs ih =>
    intro env r h
    simp only [loopSome] at h
    split at h
    · cases h
    · rename_i h1; have := hf _ _ _ h1; simp only at this; subst this; cases h; rfl
    · rename_i h1; have := hf _ _ _ h1; simp only at this; subst this; exact ih _ _ h
    · cases h

theorem loopNone_keeps (f : Val → Scope → Res) (xs : List Val)
    (hf : ∀ x env r, f x env = .ok r → r.2 = env) :
    ∀ env r, loopNone f xs env = .ok r → r.2 = env := by
  induction xs with
  | nil => intro env r h; cases h; rfl
  | cons x xs ih =>
    intro env r h
    simp only [loopNone] at h
    split at h
    · cases h
    · rename_i h1; have := hf _ _ _ h1; simp only at this; subst this; cases h; rfl
    · rename_i h1; have := hf _ _ _ h1; simp only at this; subst this; exact ih _ _ h
    · cases h

theorem loopFilter_keeps (f : Val → Scope → Res) (xs : List Val)
    (hf : ∀ x env r, f x env = .ok r → r.2 = env) :
    ∀ env r, loopFilter f xs env = .ok r → r.2 = env := by
  induction xs with
  | nil => intro env r h; cases h; rfl
  | cons x xs ih =>
    intro env r h
    simp only [loopFilter] at h
    split at h
    · cases h
    · rename_i h1; have := hf _ _ _ h1; simp only at this; subst this
      split at h
      · cases h
      · rename_i h2; have := ih _ _ h2; cases h; exact this
    · rename_i h1; have := hf _ _ _ h1; simp only at this; subst this; exact ih _ _ h
    · cases h

theorem loopMap_keeps (f : Val → Scope → Res) (xs : List Val)
    (hf : ∀ x env r, f x env = .ok r → r.2 = env) :
    ∀ env r, loopMap f xs env = .ok r → r.2 = env := by
  induction xs with
  | nil => intro env r h; cases h; rfl
  | cons x xs ih =>
    intro env r h
    simp only [loopMap] at h
    split at h
    · cases h
    · rename_i h1; have := hf _ _ _ h1; simp only at this; subst this
      split at h
      · cases h
      · rename_i h2; have := ih _ _ h2; cases h; exact this

theorem exceptMap_ok {α β : Type} {f : α → β} {r : Except VErr α} {b : β}
    (h : r.map f = .ok b) : ∃ a, r = .ok a ∧ f a = b := by
  cases r with
  | error e => cases h
  | ok a => exact ⟨a, rfl, by cases h; rfl⟩

theorem loopMeaning_keeps (k : Clo) (f : Val → Scope → Res) (xs : List Val)
    (hf : ∀ x env r, f x env = .ok r → r.2 = env) :
    ∀ env r, loopMeaning k f xs env = .ok r → r.2 = env := by
  intro env r h
  cases k <;> simp only [loopMeaning] at h <;> obtain ⟨a, h1, h2⟩ := exceptMap_ok h <;> subst h2
  · exact loopAll_keeps f xs hf _ _ h1
  · exact loopNone_keeps f xs hf _ _ h1
  · exact loopSome_keeps f xs hf _ _ h1
  · exact loopFilter_keeps f xs hf _ _ h1
  · exact loopFilter_keeps f xs hf _ _ h1
  · exact loopMap_keeps f xs hf _ _ h1
  · exact loopMap_keeps f xs hf _ _ h1
  · exact loopFilter_keeps f xs hf _ _ h1

theorem eval_keeps (n : Node) : Keeps B root n := by
  refine Node.ind (P := Keeps B root)
    ?null ?bool ?num ?str ?tmpl ?pointer ?arr ?obj ?assigns ?ident ?paren ?root ?member ?slice
    ?interval ?cond ?unary ?binary ?call ?closure ?method ?error n
  case null => intro _ fr env r h; cases h; rfl
  case bool => intro _ _ fr env r h; cases h; rfl
  case num => intro _ _ fr env r h; cases h; rfl
  case str => intro _ _ fr env r h; cases h; rfl
  case root => intro _ fr env r h; cases h; rfl
  case error => intro _ fr env r h; cases h
  case pointer =>
    intro _ fr env r h
    simp only [eval] at h
    split at h <;> cases h; rfl
  case ident =>
    intro _ _ fr env r h
    simp only [eval] at h
    split at h
    · cases h; rfl
    · split at h <;> cases h; rfl
  case assigns => intro _ _ _ _ h; exact h.elim
  case paren => intro n ih hn fr env r h; simp only [eval] at h; exact ih hn _ _ _ h
  case tmpl =>
    intro ps ih hn fr env r h
    simp only [eval] at h
    split at h
    · cases h
    · rename_i h1; have e1 := keepsTmpl ps ih hn _ _ _ h1
      split at h <;> cases h; exact e1
  case arr =>
    intro ps ih hn fr env r h
    simp only [eval] at h
    split at h
    · cases h
    · rename_i h1; have e1 := keepsList ps ih hn _ _ _ h1
      cases h; exact e1
  case obj =>
    intro ps ih hn fr env r h
    simp only [eval] at h
    split at h
    · cases h
    · rename_i h1; have e1 := keepsObj ps ih hn _ _ _ h1
      cases h; exact e1
  case member =>
    intro n p ihn ihp hn fr env r h
    simp only [eval] at h
    split at h
    · cases h; rfl
    · split at h
      · cases h
      · rename_i h1; have e1 := ihn hn.1 _ _ _ h1
        split at h
        · cases h
        · rename_i h2; have e2 := ihp hn.2 _ _ _ h2
          split at h <;> cases h; simp only at e1 e2 ⊢; rw [e2, e1]
  case slice =>
    intro n f t ihn ihf iht hn fr env r h
    simp only [eval] at h
    split at h
    · cases h
    · rename_i c env1 h1
      have e1 := ihn hn.1 _ _ _ h1
      simp only at e1
      subst e1
      split at h
      · cases h
      · rename_i t' env2 h2
        have e2 : env2 = env1 := by
          cases t with
          | none =>
            simp only [evalTo] at h2
            split at h2
            · cases h2
            · split at h2 <;> cases h2; rfl
          | some t => exact iht t rfl hn.2.2 _ _ _ h2
        subst e2
        split at h
        · cases h
        · rename_i f' env3 h3
          have e3 : env3 = env2 := by
            cases f with
            | none => cases h3; rfl
            | some f => exact ihf f rfl hn.2.1 _ _ _ h3
          subst e3
          split at h <;> cases h; rfl
  case interval =>
    intro l r lb rb ihn ihp hn fr env q h
    simp only [eval] at h
    split at h
    · cases h
    · rename_i h1; have e1 := ihn hn.1 _ _ _ h1
      split at h
      · cases h
      · rename_i h2; have e2 := ihp hn.2 _ _ _ h2
        split at h <;> cases h; simp only at e1 e2 ⊢; rw [e2, e1]
  case cond =>
    intro c t f ihc iht ihf hn fr env r h
    simp only [eval] at h
    split at h
    · cases h
    · rename_i h1; have e1 := ihc hn.1 _ _ _ h1; simp only at e1; subst e1
      exact iht hn.2.1 _ _ _ h
    · rename_i h1; have e1 := ihc hn.1 _ _ _ h1; simp only at e1; subst e1
      exact ihf hn.2.2 _ _ _ h
    · cases h
  case unary =>
    intro op n ih hn fr env r h
    simp only [eval] at h
    split at h
    · cases h
    · rename_i h1; have e1 := ih hn _ _ _ h1; simp only at e1; subst e1
      split at h
      · cases h; rfl
      · split at h <;> cases h; rfl
      · split at h <;> cases h; rfl
      · cases h
  case binary =>
    intro op l r ihl ihr hn fr env q h
    cases hs : scJump op with
    | none =>
      rw [eval_binary_strict _ _ _ _ hs] at h
      split at h
      · cases h
      · split at h
        · cases h
        · rename_i h1; have e1 := ihl hn.1 _ _ _ h1
          split at h
          · cases h
          · rename_i h2; have e2 := ihr hn.2 _ _ _ h2
            split at h <;> cases h; simp only at e1 e2 ⊢; rw [e2, e1]
    | some j =>
      unfold scJump at hs
      split at hs <;> cases hs <;> simp only [eval] at h
      all_goals
        split at h
        · cases h
        · rename_i h1; have e1 := ihl hn.1 _ _ _ h1; simp only at e1; subst e1
          first | (cases h; rfl) | exact ihr hn.2 _ _ _ h
        · rename_i h1; have e1 := ihl hn.1 _ _ _ h1; simp only at e1; subst e1
          first | (cases h; rfl) | exact ihr hn.2 _ _ _ h
        try cases h
  case call =>
    intro f as ih hn fr env r h
    simp only [eval] at h
    split at h
    · cases h
    · rename_i h1; have e1 := keepsList as ih hn _ _ _ h1
      split at h <;> cases h; exact e1
  case method =>
    intro m t as iht ih hn fr env r h
    simp only [eval] at h
    split at h
    · cases h
    · rename_i h1; have e1 := iht hn.1 _ _ _ h1; simp only at e1; subst e1
      split at h
      · cases h
      · rename_i h2; have e2 := keepsList as ih hn.2 _ _ _ h2
        split at h <;> cases h; exact e2
  case closure =>
    intro k o a b iho ihb hn fr env r h
    simp only [eval] at h
    split at h
    · cases h
    · rename_i h1; have e1 := iho hn.1 _ _ _ h1; simp only at e1; subst e1
      split at h
      · cases h
      · exact loopMeaning_keeps k _ _ (fun x env r hx => ihb hn.2 _ _ _ hx) _ _ h

end
end Zen
