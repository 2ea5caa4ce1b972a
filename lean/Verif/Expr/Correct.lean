import Verif.Expr.Steps
/-
The code emitted for a syntax tree computes its meaning (helper for the proofs).
-/
namespace Zen

section
variable {B : Builtins} {root : Scope} {code : List Op}

/-- running the code of `n` yields its meaning and leaves everything else alone -/
def Good (B : Builtins) (root : Scope) (code : List Op) (n : Node) : Prop :=
  ∀ (al : List (Option String)) (fr : Frames) (pc : Nat) (st : List Val) (ls : List Loop)
    (env : Scope) (asg : List Val),
    Accepts B n → al = fr.map Prod.fst → LoopsOk fr ls → CodeAt code pc (gen al n) →
    Reach B root code ⟨pc, st, ls, env, asg⟩
      ((eval B root fr env n).map fun r => ⟨pc + (gen al n).length, r.1 :: st, ls, r.2, asg⟩)

/-! ### Names and paths -/

theorem lookup_alias {fr : Frames} {ls : List Loop} (h : LoopsOk fr ls) (name : String) :
    (lookupAlias (fr.map Prod.fst) name = none ∧ aliasOf fr name = none) ∨
    ∃ d v l, lookupAlias (fr.map Prod.fst) name = some d ∧ aliasOf fr name = some v ∧
      ls[d]? = some l ∧ l.arr[l.iter]? = some v := by
  induction fr generalizing ls with
  | nil => exact .inl ⟨rfl, rfl⟩
  | cons p fr ih =>
    obtain ⟨a, v⟩ := p
    cases ls with
    | nil => exact h.elim
    | cons l ls =>
      obtain ⟨hv, hr⟩ := h
      have rest := ih hr
      cases a with
      | none =>
        rcases rest with ⟨h1, h2⟩ | ⟨d, w, l', h1, h2, h3, h4⟩
        · exact .inl ⟨by simp [lookupAlias, h1], by simp [aliasOf, h2]⟩
        · exact .inr ⟨d + 1, w, l', by simp [lookupAlias, h1], by simp [aliasOf, h2], by simpa using h3, h4⟩
      | some a =>
        by_cases ha : a = name
        · exact .inr ⟨0, v, l, by simp [lookupAlias, ha], by simp [aliasOf, ha], rfl, hv⟩
        · rcases rest with ⟨h1, h2⟩ | ⟨d, w, l', h1, h2, h3, h4⟩
          · exact .inl ⟨by simp [lookupAlias, h1, ha], by simp [aliasOf, h2, ha]⟩
          · exact .inr ⟨d + 1, w, l', by simp [lookupAlias, h1, ha], by simp [aliasOf, h2, ha],
              by simpa using h3, h4⟩

theorem lookupAlias_none (fr : Frames) (name : String) :
    lookupAlias (fr.map Prod.fst) name = none ↔ aliasOf fr name = none := by
  induction fr with
  | nil => simp [lookupAlias, aliasOf]
  | cons p fr ih =>
    obtain ⟨a, v⟩ := p
    cases a with
    | none => simp [lookupAlias, aliasOf, ih]
    | some a => by_cases h : a = name <;> simp [lookupAlias, aliasOf, ih, h]

/-- a path as `memberFast` builds them: never empty, never the start alone -/
def FullPath (path : List Target) : Prop := path ≠ [] ∧ path ≠ [.begin_]

theorem fetchFast_snoc (root env : Scope) {path : List Target} (h : FullPath path) (t : Target) :
    fetchFast root env (path ++ [t]) = fastStep root env (fetchFast root env path) t := by
  match path, h with
  | [], h => exact absurd rfl h.1
  | .root :: rest, _ => simp [fetchFast, List.foldl_append]
  | [.begin_], h => exact absurd rfl h.2
  | .begin_ :: .str k :: rest, _ => simp [fetchFast, List.foldl_append]
  | .begin_ :: .root :: rest, _ => simp [fetchFast, List.foldl_append]
  | .begin_ :: .begin_ :: rest, _ => simp [fetchFast, List.foldl_append]
  | .begin_ :: .num i :: rest, _ => simp [fetchFast, List.foldl_append]
  | .str k :: rest, _ => simp [fetchFast, List.foldl_append]
  | .num k :: rest, _ => simp [fetchFast, List.foldl_append]

theorem fast_lenient (root env : Scope) (fr : Frames) (n : Node) :
    (memberFast (fr.map Prod.fst) n = none ∧ lenient root env fr n = none) ∨
    ∃ path, memberFast (fr.map Prod.fst) n = some path ∧ FullPath path ∧
      lenient root env fr n = some (fetchFast root env path) := by
  refine Node.ind (P := fun n => (memberFast (fr.map Prod.fst) n = none ∧ lenient root env fr n = none) ∨
    ∃ path, memberFast (fr.map Prod.fst) n = some path ∧ FullPath path ∧
      lenient root env fr n = some (fetchFast root env path))
    ?null ?bool ?num ?str ?tmpl ?pointer ?arr ?obj ?assigns ?ident ?paren ?root ?member ?slice
    ?interval ?cond ?unary ?binary ?call ?closure ?method ?error n
  case root => exact .inr ⟨[.root], rfl, by simp [FullPath], rfl⟩
  case ident =>
    intro v
    by_cases h : aliasOf fr v = none
    · have h' := (lookupAlias_none fr v).2 h
      exact .inr ⟨[.begin_, .str v], by simp [memberFast, h'], by simp [FullPath],
        by simp [lenient, h, fetchFast]⟩
    · have h' : ¬ lookupAlias (fr.map Prod.fst) v = none := fun x => h ((lookupAlias_none fr v).1 x)
      refine .inl ⟨?_, ?_⟩
      · simp only [memberFast]; split <;> simp_all
      · simp only [lenient]; split <;> simp_all
  case member =>
    intro n p hn _
    rcases hn with ⟨h1, h2⟩ | ⟨path, h1, h2, h3⟩
    · exact .inl ⟨by simp [memberFast, h1], by simp [lenient, h2]⟩
    · have fp : ∀ t, FullPath (path ++ [t]) := by
        intro t
        refine ⟨by simp, fun h => ?_⟩
        cases path with
        | nil => exact h2.1 rfl
        | cons a r => simp at h
      cases p
      case num v _ =>
        simp only [memberFast, lenient, h1, h3]
        cases hv : toU32 v with
        | none => exact .inl ⟨rfl, rfl⟩
        | some i => exact .inr ⟨_, rfl, fp _, by rw [fetchFast_snoc _ _ h2]; rfl⟩
      case str v _ =>
        simp only [memberFast, lenient, h1, h3]
        exact .inr ⟨_, rfl, fp _, by rw [fetchFast_snoc _ _ h2]; rfl⟩
      all_goals exact .inl ⟨by simp only [memberFast, h1], by simp only [lenient, h3]⟩
  all_goals (intros; exact .inl ⟨rfl, rfl⟩)

/-! ### Sequences -/

theorem reach_list (ns : List Node) (ih : ∀ n ∈ ns, Good B root code n) :
    ∀ (al : List (Option String)) (fr : Frames) (pc : Nat) (st : List Val) (ls : List Loop)
      (env : Scope) (asg : List Val),
      AcceptsL B ns → al = fr.map Prod.fst → LoopsOk fr ls → CodeAt code pc (genList al ns) →
      Reach B root code ⟨pc, st, ls, env, asg⟩ ((evalList B root fr env ns).map fun r =>
        ⟨pc + (genList al ns).length, r.1.reverse ++ st, ls, r.2, asg⟩) := by
  induction ns with
  | nil => intro al fr pc st ls env asg _ _ _ _; exact Reach.refl _
  | cons n ns ihl =>
    intro al fr pc st ls env asg ha hal hl hc
    simp only [genList, codeAt_append] at hc
    refine (ih n (List.mem_cons_self ..) al fr pc st ls env asg ha.1 hal hl hc.1).bind ?_ ?_
    · rintro ⟨v, env'⟩ hv
      refine (ihl (fun m hm => ih m (List.mem_cons_of_mem _ hm)) al fr _ (v :: st) ls env' asg
        ha.2 hal hl hc.2).bind ?_ ?_
      · rintro ⟨vs, env''⟩ hvs
        refine (Reach.refl _).cast ?_
        simp [evalList, hv, hvs, Except.map, genList, Nat.add_assoc]
      · intro e he; simp [evalList, hv, he, Except.map]
    · intro e he; simp [evalList, he, Except.map]

theorem reach_string (pc : Nat) (v : Val) (st : List Val) (ls : List Loop) (env : Scope)
    (asg : List Val) (h : code[pc]? = some (.callFn "string" 1)) :
    Reach B root code ⟨pc, v :: st, ls, env, asg⟩
      ((strOf B v).map fun r => ⟨pc + 1, r :: st, ls, env, asg⟩) := by
  refine .op h ?_
  simp only [exec, strOf, List.take_succ_cons, List.take_zero, List.reverse_singleton]
  cases B.fn "string" [v] <;> rfl

theorem reach_tmpl (ns : List Node) (ih : ∀ n ∈ ns, Good B root code n) :
    ∀ (al : List (Option String)) (fr : Frames) (pc : Nat) (st : List Val) (ls : List Loop)
      (env : Scope) (asg : List Val),
      AcceptsL B ns → al = fr.map Prod.fst → LoopsOk fr ls → CodeAt code pc (genTmpl al ns) →
      Reach B root code ⟨pc, st, ls, env, asg⟩ ((evalTmpl B root fr env ns).map fun r =>
        ⟨pc + (genTmpl al ns).length, r.1.reverse ++ st, ls, r.2, asg⟩) := by
  induction ns with
  | nil => intro al fr pc st ls env asg _ _ _ _; exact Reach.refl _
  | cons n ns ihl =>
    intro al fr pc st ls env asg ha hal hl hc
    simp only [genTmpl, codeAt_append, codeAt_cons] at hc
    refine (ih n (List.mem_cons_self ..) al fr pc st ls env asg ha.1 hal hl hc.1).bind ?_ ?_
    · rintro ⟨v, env'⟩ hv
      refine (reach_string _ v st ls env' asg hc.2.1).bind ?_ ?_
      · intro w hw
        refine (ihl (fun m hm => ih m (List.mem_cons_of_mem _ hm)) al fr _ (w :: st) ls env' asg
          ha.2 hal hl hc.2.2).bind ?_ ?_
        · rintro ⟨vs, env''⟩ hvs
          refine (Reach.refl _).cast ?_
          simp [evalTmpl, hv, hw, hvs, Except.map, genTmpl]
          omega
        · intro e he; simp [evalTmpl, hv, hw, he, Except.map]
      · intro e he; simp [evalTmpl, hv, he, Except.map]
    · intro e he; simp [evalTmpl, he, Except.map]

/-- entries of an object literal before the keys are checked -/
def evalPairs (B : Builtins) (root : Scope) (fr : Frames) (env : Scope) :
    List (Node × Node) → Except VErr (List (Val × Val) × Scope)
  | [] => .ok ([], env)
  | (k, v) :: ns => match eval B root fr env k with
    | .error e => .error e
    | .ok (kv, env) => match strOf B kv with
      | .error e => .error e
      | .ok ks => match eval B root fr env v with
        | .error e => .error e
        | .ok (x, env) => match evalPairs B root fr env ns with
          | .error e => .error e
          | .ok (r, env) => .ok ((ks, x) :: r, env)

def strKeys : List (Val × Val) → Except VErr (List (String × Val))
  | [] => .ok []
  | (k, v) :: r => match strKeys r with
    | .error e => .error e
    | .ok m => match k with
      | .str s => .ok ((s, v) :: m)
      | _ => .error (.opcode "Object" "Unexpected key value")

theorem evalObj_eq (fr : Frames) (env : Scope) (kvs : List (Node × Node)) :
    evalObj B root fr env kvs = match evalPairs B root fr env kvs with
      | .error e => .error e
      | .ok (r, env) => match strKeys r with
        | .error e => .error e
        | .ok m => .ok (m, env) := by
  induction kvs generalizing env with
  | nil => rfl
  | cons p kvs ih =>
    obtain ⟨k, v⟩ := p
    simp only [evalObj, evalPairs]
    cases eval B root fr env k with
    | error e => rfl
    | ok p =>
      obtain ⟨kv, env⟩ := p
      simp only []
      cases strOf B kv with
      | error e => rfl
      | ok ks =>
        simp only []
        cases eval B root fr env v with
        | error e => rfl
        | ok p =>
          obtain ⟨x, env⟩ := p
          simp only [ih]
          cases evalPairs B root fr env kvs with
          | error e => rfl
          | ok p =>
            obtain ⟨r, env⟩ := p
            simp only [strKeys]
            cases strKeys r with
            | error e => rfl
            | ok m => cases ks <;> rfl

/-- the stack (top first) holding the entries -/
def pairStack : List (Val × Val) → List Val → List Val
  | [], st => st
  | (k, v) :: r, st => pairStack r (v :: k :: st)

theorem popPairs_append (ip : Nat) (ls : List Loop) (env : Scope) (asg : List Val) (n m : Nat) :
    ∀ (st : List Val) (acc : List (String × Val)),
    (VmState.mk ip st ls env asg).popPairs (n + m) acc =
      match (VmState.mk ip st ls env asg).popPairs n acc with
      | .error e => .error e
      | .ok (a, s) => s.popPairs m a := by
  induction n with
  | zero => intro st acc; simp [VmState.popPairs]
  | succ n ih =>
    intro st acc
    rw [show n + 1 + m = (n + m) + 1 by omega]
    match st with
    | [] => simp [VmState.popPairs, VmState.pop]
    | [v] => simp [VmState.popPairs, VmState.pop]
    | v :: k :: st =>
      simp only [VmState.popPairs, VmState.pop]
      cases k <;> simp [ih]

theorem popPairs_pairStack (ip : Nat) (ls : List Loop) (env : Scope) (asg : List Val)
    (kvs : List (Val × Val)) : ∀ (st : List Val),
    (VmState.mk ip (pairStack kvs st) ls env asg).popPairs kvs.length [] =
      (strKeys kvs).map fun m => (objLiteral m, ⟨ip, st, ls, env, asg⟩) := by
  induction kvs with
  | nil => intro st; rfl
  | cons p kvs ih =>
    intro st
    obtain ⟨k, v⟩ := p
    rw [List.length_cons, popPairs_append, pairStack, ih]
    simp only [strKeys]
    cases strKeys kvs with
    | error e => rfl
    | ok m =>
      simp only [Except.map, VmState.popPairs, VmState.pop]
      cases k <;> simp [objLiteral]

theorem reach_pairs (kvs : List (Node × Node))
    (ih : ∀ p ∈ kvs, Good B root code p.1 ∧ Good B root code p.2) :
    ∀ (al : List (Option String)) (fr : Frames) (pc : Nat) (st : List Val) (ls : List Loop)
      (env : Scope) (asg : List Val),
      AcceptsP B kvs → al = fr.map Prod.fst → LoopsOk fr ls → CodeAt code pc (genObj al kvs) →
      Reach B root code ⟨pc, st, ls, env, asg⟩ ((evalPairs B root fr env kvs).map fun r =>
        ⟨pc + (genObj al kvs).length, pairStack r.1 st, ls, r.2, asg⟩) := by
  induction kvs with
  | nil => intro al fr pc st ls env asg _ _ _ _; exact Reach.refl _
  | cons p kvs ihl =>
    obtain ⟨k, v⟩ := p
    intro al fr pc st ls env asg ha hal hl hc
    simp only [genObj, codeAt_append, codeAt_cons, List.append_assoc, List.cons_append] at hc
    obtain ⟨ihk, ihv⟩ := ih (k, v) (List.mem_cons_self ..)
    refine (ihk al fr pc st ls env asg ha.1 hal hl hc.1).bind ?_ ?_
    · rintro ⟨kv, env'⟩ hkv
      refine (reach_string _ kv st ls env' asg hc.2.1).bind ?_ ?_
      · intro w hw
        refine (ihv al fr _ (w :: st) ls env' asg ha.2.1 hal hl hc.2.2.1).bind ?_ ?_
        · rintro ⟨x, env''⟩ hx
          refine (ihl (fun m hm => ih m (List.mem_cons_of_mem _ hm)) al fr _ (x :: w :: st) ls env'' asg
            ha.2.2 hal hl hc.2.2.2).bind ?_ ?_
          · rintro ⟨vs, env3⟩ hvs
            refine (Reach.refl _).cast ?_
            simp [evalPairs, hkv, hw, hx, hvs, Except.map, genObj, pairStack]
            omega
          · intro e he; simp [evalPairs, hkv, hw, hx, he, Except.map]
        · intro e he; simp [evalPairs, hkv, hw, he, Except.map]
      · intro e he; simp [evalPairs, hkv, he, Except.map]
    · intro e he; simp [evalPairs, he, Except.map]

theorem evalPairs_length (fr : Frames) (kvs : List (Node × Node)) : ∀ (env : Scope) r,
    evalPairs B root fr env kvs = .ok r → r.1.length = kvs.length := by
  induction kvs with
  | nil => intro env r h; cases h; rfl
  | cons p kvs ih =>
    obtain ⟨k, v⟩ := p
    intro env r h
    simp only [evalPairs] at h
    repeat' split at h
    all_goals first | (cases h; done) | skip
    rename_i h'
    cases h
    simpa using ih _ _ h'

theorem evalList_length (fr : Frames) (ns : List Node) : ∀ (env : Scope) r,
    evalList B root fr env ns = .ok r → r.1.length = ns.length := by
  induction ns with
  | nil => intro env r h; cases h; rfl
  | cons n ns ih =>
    intro env r h
    simp only [evalList] at h
    repeat' split at h
    all_goals first | (cases h; done) | skip
    rename_i h'
    cases h
    simpa using ih _ _ h'

theorem evalTmpl_length (fr : Frames) (ns : List Node) : ∀ (env : Scope) r,
    evalTmpl B root fr env ns = .ok r → r.1.length = ns.length := by
  induction ns with
  | nil => intro env r h; cases h; rfl
  | cons n ns ih =>
    intro env r h
    simp only [evalTmpl] at h
    repeat' split at h
    all_goals first | (cases h; done) | skip
    rename_i h'
    cases h
    simpa using ih _ _ h'

theorem reach_asg (kvs : List (Node × Node))
    (ih : ∀ p ∈ kvs, Good B root code p.1 ∧ Good B root code p.2) :
    ∀ (al : List (Option String)) (fr : Frames) (pc : Nat) (st : List Val) (ls : List Loop)
      (env : Scope) (acc : Val) (asg : List Val),
      AcceptsP B kvs → al = fr.map Prod.fst → LoopsOk fr ls → CodeAt code pc (genAsg al kvs) →
      Reach B root code ⟨pc, st, ls, env, acc :: asg⟩ ((evalAsg B root fr env acc kvs).map fun r =>
        ⟨pc + (genAsg al kvs).length, st, ls, r.2, r.1 :: asg⟩) := by
  induction kvs with
  | nil => intro al fr pc st ls env acc asg _ _ _ _; exact Reach.refl _
  | cons p kvs ihl =>
    obtain ⟨k, v⟩ := p
    intro al fr pc st ls env acc asg ha hal hl hc
    simp only [genAsg, codeAt_append, codeAt_cons, List.append_assoc] at hc
    obtain ⟨ihk, ihv⟩ := ih (k, v) (List.mem_cons_self ..)
    refine (ihk al fr pc st ls env (acc :: asg) ha.1 hal hl hc.1).bind ?_ ?_
    · rintro ⟨kv, env'⟩ hkv
      refine (ihv al fr _ (kv :: st) ls env' (acc :: asg) ha.2.1 hal hl hc.2.1).bind ?_ ?_
      · rintro ⟨x, env''⟩ hx
        cases hs : opAssignStep kv x env'' (some acc) with
        | error e =>
          refine .op hc.2.2.1 ?_
          simp [exec, VmState.pop, hs, evalAsg, hkv, hx, Except.map]
        | ok q =>
          obtain ⟨env3, acc'⟩ := q
          refine .opThen hc.2.2.1 (by simp [exec, VmState.pop, hs]; rfl) ?_
          refine (ihl (fun m hm => ih m (List.mem_cons_of_mem _ hm)) al fr _ st ls env3 acc' asg
            ha.2.2 hal hl hc.2.2.2).bind ?_ ?_
          · rintro ⟨r, env4⟩ hr
            refine (Reach.refl _).cast ?_
            simp [evalAsg, hkv, hx, hs, hr, Except.map, genAsg]
            omega
          · intro e he; simp [evalAsg, hkv, hx, hs, he, Except.map]
      · intro e he; simp [evalAsg, hkv, he, Except.map]
    · intro e he; simp [evalAsg, he, Except.map]

/-! ### Operators -/

theorem reach_bin {pc : Nat} {a b : Val} {st : List Val} {ls : List Loop} {env : Scope}
    {asg : List Val} {op : Op} {f : Val → Val → Except VErr Val} (h : code[pc]? = some op)
    (hf : ∀ s, exec B root op s = s.bin f) :
    Reach B root code ⟨pc, b :: a :: st, ls, env, asg⟩
      ((f a b).map fun v => ⟨pc + 1, v :: st, ls, env, asg⟩) := by
  refine .op h ?_
  rw [hf]
  simp only [VmState.bin, VmState.pop, VmState.pushR]
  cases f a b <;> rfl

theorem reach_un {pc : Nat} {a : Val} {st : List Val} {ls : List Loop} {env : Scope}
    {asg : List Val} {op : Op} {f : Val → Except VErr Val} (h : code[pc]? = some op)
    (hf : ∀ s, exec B root op s = s.un f) :
    Reach B root code ⟨pc, a :: st, ls, env, asg⟩
      ((f a).map fun v => ⟨pc + 1, v :: st, ls, env, asg⟩) := by
  refine .op h ?_
  rw [hf]
  simp only [VmState.un, VmState.pop, VmState.pushR]
  cases f a <;> rfl

theorem binOps_meaning {op : Oper} {ops : List Op} (h : binOps op = some ops) :
    ∃ f, binMeaning B.num op = some f ∧ ∀ (pc : Nat) (a b : Val) (st : List Val) (ls : List Loop)
      (env : Scope) (asg : List Val), CodeAt code pc ops →
      Reach B root code ⟨pc, b :: a :: st, ls, env, asg⟩
        ((f a b).map fun v => ⟨pc + ops.length, v :: st, ls, env, asg⟩) := by
  unfold binOps at h
  split at h
  case h_2 =>
    cases h
    refine ⟨_, rfl, ?_⟩
    intro pc a b st ls env asg hc
    simp only [codeAt_cons] at hc
    exact .opThen hc.1 rfl (reach_un hc.2.1 fun _ => rfl)
  case h_4 =>
    cases h
    refine ⟨_, rfl, ?_⟩
    intro pc a b st ls env asg hc
    simp only [codeAt_cons] at hc
    refine (reach_bin (f := opIn) hc.1 fun _ => rfl).bind ?_ ?_
    · intro v hv
      simp only [hv]
      exact reach_un hc.2.1 fun _ => rfl
    · intro e he; simp [he, Except.map]
  case h_15 => cases h
  all_goals
    cases h
    refine ⟨_, rfl, ?_⟩
    intro pc a b st ls env asg hc
    simp only [codeAt_cons] at hc
    exact reach_bin hc.1 fun _ => rfl

theorem eval_binary_strict (fr : Frames) (env : Scope) {op : Oper} (l r : Node)
    (h : scJump op = none) :
    eval B root fr env (.binary op l r) = match binMeaning B.num op with
      | none => rejected
      | some f => match eval B root fr env l with
        | .error e => .error e
        | .ok (a, env) => match eval B root fr env r with
          | .error e => .error e
          | .ok (b, env) => match f a b with
            | .error e => .error e
            | .ok v => .ok (v, env) := by
  rcases op with o | o | o | _ | _ | _ | _ | _ | _ | _
  case logic => cases o <;> first | (simp [scJump] at h; done) | (simp only [eval]; rfl)
  all_goals (simp only [eval]; rfl)

theorem reach_unary {op : Oper} (pc : Nat) (v : Val) (st : List Val)
    (ls : List Loop) (env : Scope) (asg : List Val) (l : List Op)
    (hl : l = match (generalizing := false) op with | .arith .sub => [.negate] | .logic .not => [.not] | _ => [])
    (hc : CodeAt code pc l) :
    unaryOk op = true → Reach B root code ⟨pc, v :: st, ls, env, asg⟩
      (((match (generalizing := false) op with
        | .arith .add => .ok (v, env)
        | .arith .sub => match opNegate v with
          | .error e => .error e
          | .ok r => .ok (r, env)
        | .logic .not => match opNot v with
          | .error e => .error e
          | .ok r => .ok (r, env)
        | _ => rejected) : Res).map fun r => ⟨pc + l.length, r.1 :: st, ls, r.2, asg⟩) := by
  intro h
  unfold unaryOk at h
  split at h
  · subst hl; exact Reach.refl _
  · subst hl
    simp only [codeAt_cons] at hc
    refine (reach_un (f := opNegate) hc.1 fun _ => rfl).cast ?_
    cases opNegate v <;> rfl
  · subst hl
    simp only [codeAt_cons] at hc
    refine (reach_un (f := opNot) hc.1 fun _ => rfl).cast ?_
    cases opNot v <;> rfl
  · cases h

/-- optional parts with a default that pushes `d` -/
theorem reach_opt (o : Option Node) (ih : ∀ n, o = some n → Good B root code n) (d : Val)
    (dc : List Op)
    (al : List (Option String)) (fr : Frames) (pc : Nat) (st : List Val) (ls : List Loop)
      (env : Scope) (asg : List Val)
    (hd : CodeAt code pc dc → Reach B root code ⟨pc, st, ls, env, asg⟩
      (.ok ⟨pc + dc.length, d :: st, ls, env, asg⟩))
    (ha : AcceptsO B o) (hal : al = fr.map Prod.fst) (hl : LoopsOk fr ls)
    (hc : CodeAt code pc (genOpt al dc o)) :
    Reach B root code ⟨pc, st, ls, env, asg⟩ ((evalOpt B root fr env d o).map fun r =>
        ⟨pc + (genOpt al dc o).length, r.1 :: st, ls, r.2, asg⟩) := by
  cases o with
  | none => exact hd hc
  | some n => exact ih n rfl al fr pc st ls env asg ha hal hl hc

theorem reach_to (o : Option Node) (ih : ∀ n, o = some n → Good B root code n) (c : Val)
    (al : List (Option String)) (fr : Frames) (pc : Nat) (st : List Val) (ls : List Loop)
      (env : Scope) (asg : List Val)
    (ha : AcceptsO B o) (hal : al = fr.map Prod.fst) (hl : LoopsOk fr ls)
    (hc : CodeAt code pc (genOpt al [.len, .pushNum 1, .sub] o)) :
    Reach B root code ⟨pc, c :: st, ls, env, asg⟩ ((evalTo B root fr env c o).map fun r =>
        ⟨pc + (genOpt al [.len, .pushNum 1, .sub] o).length, r.1 :: c :: st, ls, r.2, asg⟩) := by
  cases o with
  | some n => exact ih n rfl al fr pc (c :: st) ls env asg ha hal hl hc
  | none =>
    simp only [genOpt, codeAt_cons] at hc
    simp only [evalTo, genOpt]
    cases hlen : opLen c with
    | error e =>
      refine .op hc.1 ?_
      simp [exec, hlen, VmState.pushR, Except.map]
    | ok l =>
      refine .opThen hc.1 (by simp only [exec, hlen, VmState.pushR]; rfl) ?_
      refine .opThen hc.2.1 rfl ?_
      refine (reach_bin (f := opSub B.num) hc.2.2.1 fun _ => rfl).cast ?_
      simp only []
      cases opSub B.num l (.num 1) <;> rfl

/-! ### Closures -/

/-- what one round of the loop pushes and counts -/
def mapRound (f : Val → Scope → Res) (x : Val) (env : Scope) : Except VErr (List Val × Nat × Scope) :=
  (f x env).map fun r => ([r.1], 0, r.2)

def filterRound (push : Bool) (f : Val → Scope → Res) (x : Val) (env : Scope) :
    Except VErr (List Val × Nat × Scope) :=
  match f x env with
  | .error e => .error e
  | .ok (.bool true, env) => .ok (if push then [x] else [], 1, env)
  | .ok (.bool false, env) => .ok ([], 0, env)
  | .ok (_, _) => .error (.opcode "JumpIfFalse" "Unsupported type")

theorem loopGen_map (f : Val → Scope → Res) (xs : List Val) (env : Scope) :
    loopGen (mapRound f) xs env = (loopMap f xs env).map fun r => (r.1, 0, r.2) := by
  induction xs generalizing env with
  | nil => rfl
  | cons x xs ih =>
    simp only [loopGen, mapRound, loopMap]
    cases f x env with
    | error e => rfl
    | ok p =>
      simp only [Except.map, ih]
      cases loopMap f xs p.2 <;> rfl

theorem loopGen_filter (push : Bool) (f : Val → Scope → Res) (xs : List Val) (env : Scope) :
    loopGen (filterRound push f) xs env =
      (loopFilter f xs env).map fun r => (if push then r.1 else [], r.1.length, r.2) := by
  induction xs generalizing env with
  | nil => cases push <;> rfl
  | cons x xs ih =>
    simp only [loopGen, filterRound, loopFilter]
    cases f x env with
    | error e => rfl
    | ok p =>
      obtain ⟨v, env'⟩ := p
      cases v
      case bool b =>
        cases b
        · simp only [ih]
          cases loopFilter f xs env' <;> cases push <;> simp [Except.map]
        · simp only [ih]
          cases loopFilter f xs env' <;> cases push <;> simp [Except.map, Nat.add_comm]
      all_goals rfl

theorem loopMap_length (f : Val → Scope → Res) (xs : List Val) : ∀ (env : Scope) r,
    loopMap f xs env = .ok r → r.1.length = xs.length := by
  induction xs with
  | nil => intro env r h; cases h; rfl
  | cons n ns ih =>
    intro env r h
    simp only [loopMap] at h
    repeat' split at h
    all_goals first | (cases h; done) | skip
    rename_i h'
    cases h
    simpa using ih _ _ h'

theorem reach_array {pc : Nat} (vs : List Val) {k : Rat} (hk : k = (vs.length : Rat)) (st : List Val)
    (ls : List Loop) (env : Scope) (asg : List Val) (h : code[pc]? = some .array) :
    Reach B root code ⟨pc, .num k :: (vs.reverse ++ st), ls, env, asg⟩
      (.ok ⟨pc + 1, .arr vs :: st, ls, env, asg⟩) := by
  subst hk
  refine .op h ?_
  simp only [exec, VmState.pop, toCount_nat, popN_reverse, VmState.push, List.append_nil]

theorem natCast_eq_one (n : Nat) : ((n : Rat) = 1) ↔ n = 1 := by
  constructor
  · intro h; exact_mod_cast h
  · rintro rfl; rfl

theorem reach_closure (k : Clo) (o : Node) (a : Option String) (b : Node)
    (ho : Good B root code o) (hb : Good B root code b) : Good B root code (.closure k o a b) := by
  intro al fr pc st ls env asg ha hal hl hc
  simp only [gen, codeAt_append, codeAt_cons] at hc
  obtain ⟨hco, hbegin, hck⟩ := hc
  refine (ho al fr pc st ls env asg ha.1 hal hl hco).bind ?_ ?_
  rotate_left
  · intro e he; simp [eval, he, Except.map]
  rintro ⟨v, env1⟩ hv
  cases hxs : opBegin B.checks v with
  | error e =>
    refine .op hbegin ?_
    simp [exec, VmState.pop, hxs, eval, hv, Except.map]
  | ok xs =>
  refine .opThen hbegin (by simp only [exec, VmState.pop, hxs]; rfl) ?_
  simp only [eval, hv, hxs]
  -- the body at its place, for any round
  have body : ∀ (pc : Nat) (st : List Val), CodeAt code pc (gen (a :: al) b) →
      ∀ (i c : Nat) (x : Val) (env : Scope), xs[i]? = some x →
      Reach B root code ⟨pc, st, ⟨xs, xs.length, i, c⟩ :: ls, env, asg⟩
        ((eval B root ((a, x) :: fr) env b).map fun r =>
          ⟨pc + (gen (a :: al) b).length, r.1 :: st, ⟨xs, xs.length, i, c⟩ :: ls, r.2, asg⟩) := by
    intro pc st hc i c x env hx
    exact hb (a :: al) ((a, x) :: fr) pc st _ env asg ha.2 (by simp [hal]) ⟨hx, hl⟩ hc
  cases k
  case all =>
    have hck' := hck
    simp only [genBreak, codeAt_cons, codeAt_append, List.cons_append] at hck'
    refine (reach_break false (gen (a :: al) b) xs (fun x env => eval B root ((a, x) :: fr) env b) ls asg st _ hck
      (fun i x c env hx => body _ _ hck'.2.1 i c x env hx) xs 0 0 env1 rfl).cast ?_
    simp only [loopMeaning, loopAll_eq]
    cases loopBrk false (fun x env => eval B root ((a, x) :: fr) env b) xs env1 <;>
      simp [Except.map, gen, brkJump, Nat.add_assoc, Nat.add_comm 1]
  case some =>
    have hck' := hck
    simp only [genBreak, codeAt_cons, codeAt_append, List.cons_append] at hck'
    refine (reach_break true (gen (a :: al) b) xs (fun x env => eval B root ((a, x) :: fr) env b) ls asg st _ hck
      (fun i x c env hx => body _ _ hck'.2.1 i c x env hx) xs 0 0 env1 rfl).cast ?_
    simp only [loopMeaning, loopSome_eq]
    cases loopBrk true (fun x env => eval B root ((a, x) :: fr) env b) xs env1 <;>
      simp [Except.map, gen, brkJump, Nat.add_assoc, Nat.add_comm 1]
  case none =>
    have hck' := hck
    simp only [genBreak, codeAt_cons, codeAt_append, List.cons_append, List.append_assoc] at hck'
    refine (reach_break false (gen (a :: al) b ++ [.not]) xs
      (notBody fun x env => eval B root ((a, x) :: fr) env b) ls asg st _ hck
      (fun i x c env hx => ?_) xs 0 0 env1 rfl).cast ?_
    · refine (body _ st hck'.2.1 i c x env hx).bind ?_ ?_
      · rintro ⟨w, env2⟩ hw
        refine (reach_un (f := opNot) hck'.2.2.1 fun _ => rfl).cast ?_
        simp only [notBody, hw]
        cases opNot w <;> simp [Except.map, Nat.add_assoc]
      · intro e he; simp [notBody, he, Except.map]
    · simp only [loopMeaning, loopNone_eq]
      cases loopBrk false (notBody fun x env => eval B root ((a, x) :: fr) env b) xs env1 <;>
        simp [Except.map, gen, brkJump, Nat.add_assoc, Nat.add_comm 1]
  case map =>
    simp only [codeAt_append, codeAt_cons] at hck
    have hck' := hck.1
    simp only [genLoop, codeAt_cons, codeAt_append, List.cons_append] at hck'
    refine (reach_loop (gen (a :: al) b) xs (mapRound fun x env => eval B root ((a, x) :: fr) env b)
      ls asg _ hck.1 (fun i x c st env hx => ?_) xs 0 0 st env1 rfl (Nat.zero_le _)).bind ?_ ?_
    · refine (body _ st hck'.2.1 i c x env hx).cast ?_
      simp only [mapRound]
      cases eval B root ((a, x) :: fr) env b <;> rfl
    · rintro ⟨vs, n, env2⟩ hvs
      rw [loopGen_map] at hvs
      cases hm : loopMap (fun x env => eval B root ((a, x) :: fr) env b) xs env1 with
      | error e => simp [hm, Except.map] at hvs
      | ok q =>
        simp only [hm, Except.map, Except.ok.injEq, Prod.mk.injEq] at hvs
        obtain ⟨rfl, rfl, rfl⟩ := hvs
        have hlen := loopMap_length _ _ _ _ hm
        refine .opThen hck.2.1 rfl (.opThen hck.2.2.1 rfl ?_)
        refine (reach_array q.1 (by rw [hlen]) st ls q.2 asg hck.2.2.2.1).cast ?_
        simp [loopMeaning, hm, Except.map, gen, Nat.add_assoc, Nat.add_comm 1]
    · intro e he
      rw [loopGen_map] at he
      cases hm : loopMap (fun x env => eval B root ((a, x) :: fr) env b) xs env1 with
      | error e' => simp [hm, Except.map] at he; simp [loopMeaning, hm, Except.map, he]
      | ok q => simp [hm, Except.map] at he
  case flatMap =>
    simp only [codeAt_append, codeAt_cons] at hck
    have hck' := hck.1
    simp only [genLoop, codeAt_cons, codeAt_append, List.cons_append] at hck'
    refine (reach_loop (gen (a :: al) b) xs (mapRound fun x env => eval B root ((a, x) :: fr) env b)
      ls asg _ hck.1 (fun i x c st env hx => ?_) xs 0 0 st env1 rfl (Nat.zero_le _)).bind ?_ ?_
    · refine (body _ st hck'.2.1 i c x env hx).cast ?_
      simp only [mapRound]
      cases eval B root ((a, x) :: fr) env b <;> rfl
    · rintro ⟨vs, n, env2⟩ hvs
      rw [loopGen_map] at hvs
      cases hm : loopMap (fun x env => eval B root ((a, x) :: fr) env b) xs env1 with
      | error e => simp [hm, Except.map] at hvs
      | ok q =>
        simp only [hm, Except.map, Except.ok.injEq, Prod.mk.injEq] at hvs
        obtain ⟨rfl, rfl, rfl⟩ := hvs
        have hlen := loopMap_length _ _ _ _ hm
        refine .opThen hck.2.1 rfl (.opThen hck.2.2.1 rfl ?_)
        refine Reach.after (reach_array q.1 (by rw [hlen]) st ls q.2 asg hck.2.2.2.1) ?_
        refine (reach_un (f := opFlatten) hck.2.2.2.2.1 fun _ => rfl).cast ?_
        simp [loopMeaning, hm, Except.map, gen, opFlatten, Nat.add_assoc, Nat.add_comm 1]
    · intro e he
      rw [loopGen_map] at he
      cases hm : loopMap (fun x env => eval B root ((a, x) :: fr) env b) xs env1 with
      | error e' => simp [hm, Except.map] at he; simp [loopMeaning, hm, Except.map, he]
      | ok q => simp [hm, Except.map] at he
  case filter =>
    simp only [codeAt_append, codeAt_cons] at hck
    have hck' := hck.1
    simp only [genLoop, codeAt_cons, codeAt_append, List.cons_append, List.append_assoc] at hck'
    refine (reach_loop (gen (a :: al) b ++ genCond [.incCount, .pointer 0]) xs
      (filterRound true fun x env => eval B root ((a, x) :: fr) env b)
      ls asg _ hck.1 (fun i x c st env hx => ?_) xs 0 0 st env1 rfl (Nat.zero_le _)).bind ?_ ?_
    · refine (body _ st hck'.2.1 i c x env hx).bind ?_ ?_
      · rintro ⟨w, env2⟩ hw
        have hcc := hck'.2.2.1
        simp only [genCond, codeAt_cons, codeAt_append, List.cons_append] at hcc
        refine (reach_cond [.incCount, .pointer 0] _ w st [x] _ ⟨xs, xs.length, i, c + 1⟩ ls env2 asg
          hck'.2.2.1 (.opThen hcc.2.2.1 rfl (.op hcc.2.2.2.1 (by simp [exec, hx, VmState.push])))).cast ?_
        simp only [filterRound, hw]
        split <;> simp [Except.map, Nat.add_assoc]
      · intro e he; simp [filterRound, he, Except.map]
    · rintro ⟨vs, n, env2⟩ hvs
      rw [loopGen_filter] at hvs
      cases hm : loopFilter (fun x env => eval B root ((a, x) :: fr) env b) xs env1 with
      | error e => simp [hm, Except.map] at hvs
      | ok q =>
        simp only [hm, Except.map, Except.ok.injEq, Prod.mk.injEq, if_true] at hvs
        obtain ⟨rfl, rfl, rfl⟩ := hvs
        refine .opThen hck.2.1 rfl (.opThen hck.2.2.1 rfl ?_)
        refine (reach_array q.1 (by simp) st ls q.2 asg hck.2.2.2.1).cast ?_
        simp [loopMeaning, hm, Except.map, gen, Nat.add_assoc, Nat.add_comm 1]
    · intro e he
      rw [loopGen_filter] at he
      cases hm : loopFilter (fun x env => eval B root ((a, x) :: fr) env b) xs env1 with
      | error e' => simp [hm, Except.map] at he; simp [loopMeaning, hm, Except.map, he]
      | ok q => simp [hm, Except.map] at he
  case count =>
    simp only [codeAt_append, codeAt_cons] at hck
    have hck' := hck.1
    simp only [genLoop, codeAt_cons, codeAt_append, List.cons_append, List.append_assoc] at hck'
    refine (reach_loop (gen (a :: al) b ++ genCond [.incCount]) xs
      (filterRound false fun x env => eval B root ((a, x) :: fr) env b)
      ls asg _ hck.1 (fun i x c st env hx => ?_) xs 0 0 st env1 rfl (Nat.zero_le _)).bind ?_ ?_
    · refine (body _ st hck'.2.1 i c x env hx).bind ?_ ?_
      · rintro ⟨w, env2⟩ hw
        have hcc := hck'.2.2.1
        simp only [genCond, codeAt_cons, codeAt_append, List.cons_append] at hcc
        refine (reach_cond [.incCount] _ w st [] _ ⟨xs, xs.length, i, c + 1⟩ ls env2 asg
          hck'.2.2.1 (.op hcc.2.2.1 (by simp [exec]))).cast ?_
        simp only [filterRound, hw]
        split <;> simp [Except.map, Nat.add_assoc]
      · intro e he; simp [filterRound, he, Except.map]
    · rintro ⟨vs, n, env2⟩ hvs
      rw [loopGen_filter] at hvs
      cases hm : loopFilter (fun x env => eval B root ((a, x) :: fr) env b) xs env1 with
      | error e => simp [hm, Except.map] at hvs
      | ok q =>
        simp only [hm, Except.map, Except.ok.injEq, Prod.mk.injEq] at hvs
        obtain ⟨rfl, rfl, rfl⟩ := hvs
        refine .opThen hck.2.1 rfl (.op hck.2.2.1 ?_)
        simp [exec, loopMeaning, hm, Except.map, gen, Nat.add_assoc, Nat.add_comm 1]
    · intro e he
      rw [loopGen_filter] at he
      cases hm : loopFilter (fun x env => eval B root ((a, x) :: fr) env b) xs env1 with
      | error e' => simp [hm, Except.map] at he; simp [loopMeaning, hm, Except.map, he]
      | ok q => simp [hm, Except.map] at he
  case one =>
    simp only [codeAt_append, codeAt_cons] at hck
    have hck' := hck.1
    simp only [genLoop, codeAt_cons, codeAt_append, List.cons_append, List.append_assoc] at hck'
    refine (reach_loop (gen (a :: al) b ++ genCond [.incCount]) xs
      (filterRound false fun x env => eval B root ((a, x) :: fr) env b)
      ls asg _ hck.1 (fun i x c st env hx => ?_) xs 0 0 st env1 rfl (Nat.zero_le _)).bind ?_ ?_
    · refine (body _ st hck'.2.1 i c x env hx).bind ?_ ?_
      · rintro ⟨w, env2⟩ hw
        have hcc := hck'.2.2.1
        simp only [genCond, codeAt_cons, codeAt_append, List.cons_append] at hcc
        refine (reach_cond [.incCount] _ w st [] _ ⟨xs, xs.length, i, c + 1⟩ ls env2 asg
          hck'.2.2.1 (.op hcc.2.2.1 (by simp [exec]))).cast ?_
        simp only [filterRound, hw]
        split <;> simp [Except.map, Nat.add_assoc]
      · intro e he; simp [filterRound, he, Except.map]
    · rintro ⟨vs, n, env2⟩ hvs
      rw [loopGen_filter] at hvs
      cases hm : loopFilter (fun x env => eval B root ((a, x) :: fr) env b) xs env1 with
      | error e => simp [hm, Except.map] at hvs
      | ok q =>
        simp only [hm, Except.map, Except.ok.injEq, Prod.mk.injEq] at hvs
        obtain ⟨rfl, rfl, rfl⟩ := hvs
        refine .opThen hck.2.1 rfl (.opThen hck.2.2.1 rfl (.opThen hck.2.2.2.1 rfl (.op hck.2.2.2.2.1 ?_)))
        simp [exec, opEqual, natCast_eq_one, loopMeaning, hm, Except.map, gen, Nat.add_assoc,
          Nat.add_comm 1]
    · intro e he
      rw [loopGen_filter] at he
      cases hm : loopFilter (fun x env => eval B root ((a, x) :: fr) env b) xs env1 with
      | error e' => simp [hm, Except.map] at he; simp [loopMeaning, hm, Except.map, he]
      | ok q => simp [hm, Except.map] at he

end
end Zen
