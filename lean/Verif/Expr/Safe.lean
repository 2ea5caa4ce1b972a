import Verif.Expr.EvalLemmas
import Verif.Expr.Correct
/-
Failures of the machine itself: popping an empty value stack never shows up, and crashes come only
from iterated intervals and built-in functions (helper for the proofs).
-/
namespace Zen

/-- `m` occurs in `n` -/
inductive Node.Occ : Node → Node → Prop
  | refl (n : Node) : Occ n n
  | tmpl {m n : Node} {ps : List Node} : n ∈ ps → Occ m n → Occ m (.tmpl ps)
  | arr {m n : Node} {ps : List Node} : n ∈ ps → Occ m n → Occ m (.arr ps)
  | objKey {m : Node} {p : Node × Node} {ps : List (Node × Node)} : p ∈ ps → Occ m p.1 → Occ m (.obj ps)
  | objVal {m : Node} {p : Node × Node} {ps : List (Node × Node)} : p ∈ ps → Occ m p.2 → Occ m (.obj ps)
  | asgKey {m : Node} {p : Node × Node} {ps : List (Node × Node)} {o : Option Node} :
      p ∈ ps → Occ m p.1 → Occ m (.assigns ps o)
  | asgVal {m : Node} {p : Node × Node} {ps : List (Node × Node)} {o : Option Node} :
      p ∈ ps → Occ m p.2 → Occ m (.assigns ps o)
  | asgOut {m n : Node} {ps : List (Node × Node)} : Occ m n → Occ m (.assigns ps (some n))
  | paren {m n : Node} : Occ m n → Occ m (.paren n)
  | memL {m n p : Node} : Occ m n → Occ m (.member n p)
  | memR {m n p : Node} : Occ m p → Occ m (.member n p)
  | slice {m n : Node} {f t : Option Node} : Occ m n → Occ m (.slice n f t)
  | sliceF {m n f : Node} {t : Option Node} : Occ m f → Occ m (.slice n (some f) t)
  | sliceT {m n t : Node} {f : Option Node} : Occ m t → Occ m (.slice n f (some t))
  | intL {m l r : Node} {lb rb : Brk} : Occ m l → Occ m (.interval l r lb rb)
  | intR {m l r : Node} {lb rb : Brk} : Occ m r → Occ m (.interval l r lb rb)
  | condC {m c t f : Node} : Occ m c → Occ m (.cond c t f)
  | condT {m c t f : Node} : Occ m t → Occ m (.cond c t f)
  | condF {m c t f : Node} : Occ m f → Occ m (.cond c t f)
  | unary {m n : Node} {op : Oper} : Occ m n → Occ m (.unary op n)
  | binL {m l r : Node} {op : Oper} : Occ m l → Occ m (.binary op l r)
  | binR {m l r : Node} {op : Oper} : Occ m r → Occ m (.binary op l r)
  | call {m n : Node} {f : String} {ps : List Node} : n ∈ ps → Occ m n → Occ m (.call f ps)
  | cloO {m o b : Node} {k : Clo} {al : Option String} : Occ m o → Occ m (.closure k o al b)
  | cloB {m o b : Node} {k : Clo} {al : Option String} : Occ m b → Occ m (.closure k o al b)
  | mthT {m t : Node} {f : String} {ps : List Node} : Occ m t → Occ m (.method f t ps)
  | mthA {m n t : Node} {f : String} {ps : List Node} : n ∈ ps → Occ m n → Occ m (.method f t ps)

/-- the crashes a single node can cause satisfy `S` -/
def CrashOk (B : Builtins) (S : Crash → Prop) : Node → Prop
  | .closure .. => B.checks = true → S .interval
  | .call f _ => ∀ vs, B.fn f vs = .error .panic → S (.builtin f)
  | .method m _ _ => ∀ vs, B.method m vs = .error .panic → S (.builtin m)
  | .tmpl ps => (∀ vs, B.fn "string" vs = .error .panic → S (.builtin "string")) ∧
    (B.checks = true → ps = [] → S .join)
  | .obj _ => ∀ vs, B.fn "string" vs = .error .panic → S (.builtin "string")
  | _ => True

/-- neither the failure of popping an empty stack nor a crash outside `S` -/
def Sane (S : Crash → Prop) {α : Type} (r : Except VErr α) : Prop :=
  r ≠ .error .stackOutOfBounds ∧ ∀ c, r = .error (.panic c) → S c

section
variable {S : Crash → Prop}

theorem sane_ok {α : Type} (a : α) : Sane S (.ok a) := by simp [Sane]
theorem sane_op {α : Type} (a b : String) : Sane S (α := α) (.error (.opcode a b)) := by simp [Sane]
theorem sane_panic {α : Type} (h : S .interval) : Sane S (α := α) (.error (.panic .interval)) :=
  ⟨by simp, fun c hc => by cases hc; exact h⟩
theorem sane_call {α : Type} (op name : String) (e : BErr) (h : e = .panic → S (.builtin name)) :
    Sane S (α := α) (.error (callErr op name e)) := by
  cases e with
  | err m => exact sane_op _ _
  | panic => exact ⟨by simp [callErr], fun c hc => by cases hc; exact h rfl⟩
theorem sane_err {α β : Type} {e : VErr} (h : Sane S (α := α) (.error e)) :
    Sane S (α := β) (.error e) := by simpa [Sane] using h
theorem sane_map {α β : Type} {f : α → β} {r : Except VErr α} (h : Sane S r) : Sane S (r.map f) := by
  cases r with
  | ok a => exact sane_ok _
  | error e => exact sane_err h

macro "sane" : tactic =>
  `(tactic| (repeat' split) <;> first | exact sane_ok _ | exact sane_op _ _)

theorem sane_opFetch (a b : Val) : Sane S (opFetch a b) := by unfold opFetch; sane
theorem sane_opFetchEnv (e : Scope) (b : String) : Sane S (opFetchEnv e b) := by unfold opFetchEnv; sane
theorem sane_opNegate (a : Val) : Sane S (opNegate a) := by unfold opNegate; sane
theorem sane_opNot (a : Val) : Sane S (opNot a) := by unfold opNot; sane
theorem sane_opIn (a b : Val) : Sane S (opIn a b) := by unfold opIn opIncludes inErr; sane
theorem sane_opInterval (l r : Brk) (a b : Val) : Sane S (opInterval l r a b) := by unfold opInterval; sane
theorem sane_opJoin (c : Bool) (xs : List Val) (hS : c = true → xs = [] → S .join) :
    Sane S (opJoin c (.arr xs) (.str "")) := by
  unfold opJoin
  dsimp only
  split
  · rename_i h
    have hx : xs = [] := by
      cases xs with
      | nil => rfl
      | cons x xs => cases x <;> simp [allStrs] at h
    cases c with
    | false => exact sane_ok _
    | true =>
      simp only [Bool.true_or, if_true]
      exact ⟨by simp, fun c hc => by cases hc; exact hS rfl hx⟩
  · exact sane_ok _
  · exact sane_op _ _
theorem sane_opSlice (a b c : Val) : Sane S (opSlice a b c) := by unfold opSlice; sane
theorem sane_opLen (a : Val) : Sane S (opLen a) := by unfold opLen; sane
theorem sane_opSub (N : NumOps) (a b : Val) : Sane S (opSub N a b) := by unfold opSub; sane
theorem sane_i64Wrap {c : Bool} (hS : c = true → S .interval) (i : Int) : Sane S (i64Wrap c i) := by
  unfold i64Wrap
  split
  · exact sane_ok _
  · split
    · rename_i h; exact sane_panic (hS h)
    · exact sane_ok _
theorem sane_rangeStart {c : Bool} (hS : c = true → S .interval) (b : Brk) (l : Rat) : Sane S (rangeStart c b l) := by
  unfold rangeStart
  (repeat' split) <;> first | exact sane_ok _ | exact sane_i64Wrap hS _
theorem sane_rangeEnd {c : Bool} (hS : c = true → S .interval) (b : Brk) (l : Rat) : Sane S (rangeEnd c b l) := by
  unfold rangeEnd
  (repeat' split) <;> first | exact sane_ok _ | exact sane_i64Wrap hS _
theorem sane_intervalToArray {c : Bool} (hS : c = true → S .interval) (l r : Brk) (a b : IData) :
    Sane S (intervalToArray c l r a b) := by
  unfold intervalToArray
  split
  · rename_i x y
    have h1 := sane_rangeStart hS l x
    have h2 := sane_rangeEnd hS r y
    split
    · rename_i h; rw [h] at h1; exact sane_err h1
    · exact sane_ok _
    · split
      · rename_i h; rw [h] at h2; exact sane_err h2
      · exact sane_ok _
      · exact sane_ok _
  · exact sane_ok _
theorem sane_opBegin {c : Bool} (hS : c = true → S .interval) (a : Val) : Sane S (opBegin c a) := by
  unfold opBegin
  split
  · exact sane_ok _
  · rename_i lb rb l r
    have := sane_intervalToArray hS lb rb l r
    split
    · rename_i h; rw [h] at this; exact sane_err this
    · exact sane_ok _
    · exact sane_op _ _
  · exact sane_op _ _
theorem sane_opAssignStep (a b : Val) (e : Scope) (o : Option Val) : Sane S (opAssignStep a b e o) := by
  unfold opAssignStep; sane
theorem sane_strOf {B : Builtins} (hS : ∀ vs, B.fn "string" vs = .error .panic → S (.builtin "string")) (a : Val) :
    Sane S (strOf B a) := by
  unfold strOf
  split
  · exact sane_ok _
  · rename_i e he
    exact sane_call _ _ _ fun q => hS _ (by rw [he, q])
theorem sane_bin {N : NumOps} {op : Oper} {f : Val → Val → Except VErr Val}
    (h : binMeaning N op = some f) (a b : Val) : Sane S (f a b) := by
  unfold binMeaning at h
  split at h <;> cases h
  · exact sane_ok _
  · exact sane_opNot _
  · exact sane_opIn _ _
  · dsimp only; split
    · exact sane_opNot _
    · rename_i he; have := sane_opIn (S := S) a b; rw [he] at this; exact sane_err this
  all_goals
    first
    | (unfold opCompare; sane) | (unfold opAdd; sane) | (unfold opSub; sane) | (unfold opMul; sane) | (unfold opDiv; sane) | (unfold opMod; sane) | (unfold opPow; sane)

section
variable {B : Builtins} {root : Scope}

def SaneN (B : Builtins) (root : Scope) (S : Crash → Prop) (n : Node) : Prop :=
  ∀ fr env, Sane S (eval B root fr env n)

theorem saneList (ns : List Node) (ih : ∀ n ∈ ns, SaneN B root S n) :
    ∀ fr env, Sane S (evalList B root fr env ns) := by
  induction ns with
  | nil => intro fr env; exact sane_ok _
  | cons n ns ihl =>
    intro fr env
    simp only [evalList]
    have h1 := ih n (List.mem_cons_self ..) fr env
    split
    · rename_i he; rw [he] at h1; exact sane_err h1
    · rename_i env1 _
      have h2 := ihl (fun m hm => ih m (List.mem_cons_of_mem _ hm)) fr env1
      split
      · rename_i he; rw [he] at h2; exact sane_err h2
      · exact sane_ok _

theorem saneTmpl (hS : ∀ vs, B.fn "string" vs = .error .panic → S (.builtin "string")) (ns : List Node) (ih : ∀ n ∈ ns, SaneN B root S n) :
    ∀ fr env, Sane S (evalTmpl B root fr env ns) := by
  induction ns with
  | nil => intro fr env; exact sane_ok _
  | cons n ns ihl =>
    intro fr env
    simp only [evalTmpl]
    have h1 := ih n (List.mem_cons_self ..) fr env
    split
    · rename_i he; rw [he] at h1; exact sane_err h1
    · rename_i v env1 _
      have h2 := ihl (fun m hm => ih m (List.mem_cons_of_mem _ hm)) fr env1
      have h3 := sane_strOf hS v
      split
      · rename_i he; rw [he] at h3; exact sane_err h3
      · split
        · rename_i he; rw [he] at h2; exact sane_err h2
        · exact sane_ok _

theorem saneObj (hS : ∀ vs, B.fn "string" vs = .error .panic → S (.builtin "string")) (ns : List (Node × Node)) (ih : ∀ p ∈ ns, SaneN B root S p.1 ∧ SaneN B root S p.2) :
    ∀ fr env, Sane S (evalObj B root fr env ns) := by
  induction ns with
  | nil => intro fr env; exact sane_ok _
  | cons p ns ihl =>
    obtain ⟨k, x⟩ := p
    obtain ⟨ihk, ihv⟩ := ih (k, x) (List.mem_cons_self ..)
    intro fr env
    simp only [evalObj]
    have h1 := ihk fr env
    split
    · rename_i he; rw [he] at h1; exact sane_err h1
    · rename_i v env1 _
      have h3 := sane_strOf hS v
      split
      · rename_i he; rw [he] at h3; exact sane_err h3
      · have h4 := ihv fr env1
        split
        · rename_i he; rw [he] at h4; exact sane_err h4
        · rename_i y env2 _
          have h2 := ihl (fun m hm => ih m (List.mem_cons_of_mem _ hm)) fr env2
          split
          · rename_i he; rw [he] at h2; exact sane_err h2
          · sane

theorem saneAsg (ns : List (Node × Node)) (ih : ∀ p ∈ ns, SaneN B root S p.1 ∧ SaneN B root S p.2) :
    ∀ fr env acc, Sane S (evalAsg B root fr env acc ns) := by
  induction ns with
  | nil => intro fr env acc; exact sane_ok _
  | cons p ns ihl =>
    obtain ⟨k, x⟩ := p
    obtain ⟨ihk, ihv⟩ := ih (k, x) (List.mem_cons_self ..)
    intro fr env acc
    simp only [evalAsg]
    have h1 := ihk fr env
    split
    · rename_i he; rw [he] at h1; exact sane_err h1
    · rename_i kv env1 _
      have h4 := ihv fr env1
      split
      · rename_i he; rw [he] at h4; exact sane_err h4
      · rename_i y env2 _
        have h5 := sane_opAssignStep (S := S) kv y env2 (some acc)
        split
        · rename_i he; rw [he] at h5; exact sane_err h5
        · exact ihl (fun m hm => ih m (List.mem_cons_of_mem _ hm)) _ _ _

theorem saneLoopAll (f : Val → Scope → Res) (hf : ∀ x e, Sane S (f x e)) (xs : List Val) :
    ∀ env, Sane S (loopAll f xs env) := by
  induction xs with
  | nil => intro env; exact sane_ok _
  | cons x xs ih =>
    intro env
    have h1 := hf x env
    simp only [loopAll]
    split
    · rename_i he; rw [he] at h1; exact sane_err h1
    · exact ih _
    · exact sane_ok _
    · exact sane_op _ _

theorem saneLoopSome (f : Val → Scope → Res) (hf : ∀ x e, Sane S (f x e)) (xs : List Val) :
    ∀ env, Sane S (loopSome f xs env) := by
  induction xs with
  | nil => intro env; exact sane_ok _
  | cons x xs ih =>
    intro env
    have h1 := hf x env
    simp only [loopSome]
    split
    · rename_i he; rw [he] at h1; exact sane_err h1
    · exact sane_ok _
    · exact ih _
    · exact sane_op _ _

theorem saneLoopNone (f : Val → Scope → Res) (hf : ∀ x e, Sane S (f x e)) (xs : List Val) :
    ∀ env, Sane S (loopNone f xs env) := by
  induction xs with
  | nil => intro env; exact sane_ok _
  | cons x xs ih =>
    intro env
    have h1 := hf x env
    simp only [loopNone]
    split
    · rename_i he; rw [he] at h1; exact sane_err h1
    · exact sane_ok _
    · exact ih _
    · exact sane_op _ _

theorem saneLoopFilter (f : Val → Scope → Res) (hf : ∀ x e, Sane S (f x e)) (xs : List Val) :
    ∀ env, Sane S (loopFilter f xs env) := by
  induction xs with
  | nil => intro env; exact sane_ok _
  | cons x xs ih =>
    intro env
    have h1 := hf x env
    simp only [loopFilter]
    split
    · rename_i he; rw [he] at h1; exact sane_err h1
    · rename_i env1 _
      have h2 := ih env1
      split
      · rename_i he; rw [he] at h2; exact sane_err h2
      · exact sane_ok _
    · exact ih _
    · exact sane_op _ _

theorem saneLoopMap (f : Val → Scope → Res) (hf : ∀ x e, Sane S (f x e)) (xs : List Val) :
    ∀ env, Sane S (loopMap f xs env) := by
  induction xs with
  | nil => intro env; exact sane_ok _
  | cons x xs ih =>
    intro env
    have h1 := hf x env
    simp only [loopMap]
    split
    · rename_i he; rw [he] at h1; exact sane_err h1
    · rename_i env1 _
      have h2 := ih env1
      split
      · rename_i he; rw [he] at h2; exact sane_err h2
      · exact sane_ok _

theorem sane_eval (n : Node) (hn : ∀ m, Node.Occ m n → CrashOk B S m) : SaneN B root S n := by
  revert hn
  refine Node.ind (P := fun n => (∀ m, Node.Occ m n → CrashOk B S m) → SaneN B root S n)
    ?null ?bool ?num ?str ?tmpl ?pointer ?arr ?obj ?assigns ?ident ?paren ?root ?member ?slice
    ?interval ?cond ?unary ?binary ?call ?closure ?method ?error n
  case null => intro _ fr env; exact sane_ok _
  case bool => intro _ _ fr env; exact sane_ok _
  case num => intro _ _ fr env; exact sane_ok _
  case str => intro _ _ fr env; exact sane_ok _
  case root => intro _ fr env; exact sane_ok _
  case error => intro _ fr env; exact sane_op _ _
  case pointer => intro _ fr env; simp only [eval]; sane
  case ident =>
    intro v _ fr env
    simp only [eval]
    split
    · exact sane_ok _
    · have h := sane_opFetchEnv (S := S) env v
      split
      · rename_i he; rw [he] at h; exact sane_err h
      · exact sane_ok _
  case paren => intro n ih hn; replace ih := ih fun m q => hn m (.paren q); intro fr env; simp only [eval]; exact ih _ _
  case tmpl =>
    intro ps ih hn
    obtain ⟨hS, hJ⟩ : CrashOk B S (.tmpl ps) := hn _ (.refl _)
    replace ih := fun n hm => ih n hm fun m q => hn m (.tmpl hm q)
    intro fr env
    simp only [eval]
    have h := saneTmpl hS ps ih fr env
    split
    · rename_i he; rw [he] at h; exact sane_err h
    · rename_i vs env1 hvs
      have hl := evalTmpl_length _ _ _ _ hvs
      have h := sane_opJoin (S := S) B.checks vs fun hc he => hJ hc (by
        subst he; exact List.length_eq_zero_iff.1 hl.symm)
      split
      · rename_i he; rw [he] at h; exact sane_err h
      · exact sane_ok _
  case arr =>
    intro ps ih hn
    replace ih := fun n hm => ih n hm fun m q => hn m (.arr hm q)
    intro fr env
    simp only [eval]
    have h := saneList ps ih fr env
    split
    · rename_i he; rw [he] at h; exact sane_err h
    · exact sane_ok _
  case obj =>
    intro ps ih hn
    have hS : ∀ vs, B.fn "string" vs = .error .panic → S (.builtin "string") := hn _ (.refl _)
    replace ih := fun p hm => And.intro ((ih p hm).1 fun m q => hn m (.objKey hm q)) ((ih p hm).2 fun m q => hn m (.objVal hm q))
    intro fr env
    simp only [eval]
    have h := saneObj hS ps ih fr env
    split
    · rename_i he; rw [he] at h; exact sane_err h
    · exact sane_ok _
  case assigns =>
    intro ps o ih iho hn
    replace ih := fun p hm => And.intro ((ih p hm).1 fun m q => hn m (.asgKey hm q)) ((ih p hm).2 fun m q => hn m (.asgVal hm q))
    replace iho := fun n (hm : o = some n) => iho n hm fun m q => hn m (by subst hm; exact .asgOut q)
    intro fr env
    simp only [eval]
    have h := saneAsg ps ih fr env (.obj [])
    split
    · rename_i he; rw [he] at h; exact sane_err h
    · cases o with
      | none => exact sane_ok _
      | some o => exact iho o rfl _ _
  case member =>
    intro n p ihn ihp hn
    replace ihn := ihn fun m q => hn m (.memL q)
    replace ihp := ihp fun m q => hn m (.memR q)
    intro fr env
    simp only [eval]
    split
    · exact sane_ok _
    · have h1 := ihn fr env
      split
      · rename_i he; rw [he] at h1; exact sane_err h1
      · rename_i a env1 _
        have h2 := ihp fr env1
        split
        · rename_i he; rw [he] at h2; exact sane_err h2
        · rename_i b env2 _
          have h3 := sane_opFetch (S := S) a b
          split
          · rename_i he; rw [he] at h3; exact sane_err h3
          · exact sane_ok _
  case slice =>
    intro n f t ihn ihf iht hn
    replace ihn := ihn fun m q => hn m (.slice q)
    replace ihf := fun n (hm : f = some n) => ihf n hm fun m q => hn m (by subst hm; exact .sliceF q)
    replace iht := fun n (hm : t = some n) => iht n hm fun m q => hn m (by subst hm; exact .sliceT q)
    intro fr env
    simp only [eval]
    have h1 := ihn fr env
    split
    · rename_i he; rw [he] at h1; exact sane_err h1
    · rename_i c env1 _
      have h2 : Sane S (evalTo B root fr env1 c t) := by
        cases t with
        | none =>
          simp only [evalTo]
          have h := sane_opLen (S := S) c
          split
          · rename_i he; rw [he] at h; exact sane_err h
          · rename_i l _
            have h := sane_opSub (S := S) B.num l (.num 1)
            split
            · rename_i he; rw [he] at h; exact sane_err h
            · exact sane_ok _
        | some t => exact iht t rfl _ _
      split
      · rename_i he; rw [he] at h2; exact sane_err h2
      · rename_i t' env2 _
        have h3 : Sane S (evalOpt B root fr env2 (.num 0) f) := by
          cases f with
          | none => exact sane_ok _
          | some f => exact ihf f rfl _ _
        split
        · rename_i he; rw [he] at h3; exact sane_err h3
        · rename_i f' env3 _
          have h4 := sane_opSlice (S := S) c t' f'
          split
          · rename_i he; rw [he] at h4; exact sane_err h4
          · exact sane_ok _
  case interval =>
    intro l r lb rb ihn ihp hn
    replace ihn := ihn fun m q => hn m (.intL q)
    replace ihp := ihp fun m q => hn m (.intR q)
    intro fr env
    simp only [eval]
    have h1 := ihn fr env
    split
    · rename_i he; rw [he] at h1; exact sane_err h1
    · rename_i a env1 _
      have h2 := ihp fr env1
      split
      · rename_i he; rw [he] at h2; exact sane_err h2
      · rename_i b env2 _
        have h3 := sane_opInterval (S := S) lb rb a b
        split
        · rename_i he; rw [he] at h3; exact sane_err h3
        · exact sane_ok _
  case cond =>
    intro c t f ihc iht ihf hn
    replace ihc := ihc fun m q => hn m (.condC q)
    replace iht := iht fun m q => hn m (.condT q)
    replace ihf := ihf fun m q => hn m (.condF q)
    intro fr env
    simp only [eval]
    have h1 := ihc fr env
    split
    · rename_i he; rw [he] at h1; exact sane_err h1
    · exact iht _ _
    · exact ihf _ _
    · exact sane_op _ _
  case unary =>
    intro op n ih hn
    replace ih := ih fun m q => hn m (.unary q)
    intro fr env
    simp only [eval]
    have h1 := ih fr env
    split
    · rename_i he; rw [he] at h1; exact sane_err h1
    · rename_i v env1 _
      split
      · exact sane_ok _
      · have h := sane_opNegate (S := S) v
        split
        · rename_i he; rw [he] at h; exact sane_err h
        · exact sane_ok _
      · have h := sane_opNot (S := S) v
        split
        · rename_i he; rw [he] at h; exact sane_err h
        · exact sane_ok _
      · exact sane_op _ _
  case binary =>
    intro op l r ihl ihr hn
    replace ihl := ihl fun m q => hn m (.binL q)
    replace ihr := ihr fun m q => hn m (.binR q)
    intro fr env
    have h1 := ihl fr env
    cases hs : scJump op with
    | none =>
      rw [eval_binary_strict _ _ _ _ hs]
      split
      · exact sane_op _ _
      · rename_i f hf
        split
        · rename_i he; rw [he] at h1; exact sane_err h1
        · rename_i a env1 _
          have h2 := ihr fr env1
          split
          · rename_i he; rw [he] at h2; exact sane_err h2
          · rename_i b env2 _
            have h3 := sane_bin (S := S) hf a b
            split
            · rename_i he; rw [he] at h3; exact sane_err h3
            · exact sane_ok _
    | some j =>
      unfold scJump at hs
      split at hs <;> cases hs <;> simp only [eval]
      all_goals
        split
        · rename_i he; rw [he] at h1; exact sane_err h1
        all_goals first | exact sane_ok _ | exact sane_op _ _ | exact ihr _ _
  case call =>
    intro f as ih hn
    have hS : ∀ vs, B.fn f vs = .error .panic → S (.builtin f) := hn _ (.refl _)
    replace ih := fun n hm => ih n hm fun m q => hn m (.call hm q)
    intro fr env
    simp only [eval]
    have h := saneList as ih fr env
    split
    · rename_i he; rw [he] at h; exact sane_err h
    · split
      · rename_i he; exact sane_call _ _ _ fun q => hS _ (by rw [he, q])
      · exact sane_ok _
  case method =>
    intro m t as iht ih hn
    have hS : ∀ vs, B.method m vs = .error .panic → S (.builtin m) := hn _ (.refl _)
    replace iht := iht fun m q => hn m (.mthT q)
    replace ih := fun n hm => ih n hm fun m q => hn m (.mthA hm q)
    intro fr env
    simp only [eval]
    have h1 := iht fr env
    split
    · rename_i he; rw [he] at h1; exact sane_err h1
    · rename_i a env1 _
      have h := saneList as ih fr env1
      split
      · rename_i he; rw [he] at h; exact sane_err h
      · split
        · rename_i he; exact sane_call _ _ _ fun q => hS _ (by rw [he, q])
        · exact sane_ok _
  case closure =>
    intro k o a b iho ihb hn
    have hS : B.checks = true → S .interval := hn _ (.refl _)
    replace iho := iho fun m q => hn m (.cloO q)
    replace ihb := ihb fun m q => hn m (.cloB q)
    intro fr env
    simp only [eval]
    have h1 := iho fr env
    split
    · rename_i he; rw [he] at h1; exact sane_err h1
    · rename_i v env1 _
      have h2 := sane_opBegin (S := S) hS v
      split
      · rename_i he; rw [he] at h2; exact sane_err h2
      · have hb : ∀ x e, Sane S (eval B root ((a, x) :: fr) e b) := fun x e => ihb _ _
        cases k <;> simp only [loopMeaning] <;> refine sane_map ?_
        · exact saneLoopAll _ hb _ _
        · exact saneLoopNone _ hb _ _
        · exact saneLoopSome _ hb _ _
        · exact saneLoopFilter _ hb _ _
        · exact saneLoopFilter _ hb _ _
        · exact saneLoopMap _ hb _ _
        · exact saneLoopMap _ hb _ _
        · exact saneLoopFilter _ hb _ _

end
end
end Zen
