import Verif.Expr.Correct
/-
Assembly: every syntax tree is `Good`, and complete runs of compiled code.
-/
namespace Zen

section
variable {B : Builtins} {root : Scope} {code : List Op}

theorem good (n : Node) : Good B root code n := by
  refine Node.ind (P := Good B root code)
    ?null ?bool ?num ?str ?tmpl ?pointer ?arr ?obj ?assigns ?ident ?paren ?root ?member ?slice
    ?interval ?cond ?unary ?binary ?call ?closure ?method ?error n
  case null =>
    intro al fr pc st ls env asg _ _ _ hc
    simp only [gen, codeAt_cons] at hc
    exact .op hc.1 rfl
  case bool =>
    intro b al fr pc st ls env asg _ _ _ hc
    simp only [gen, codeAt_cons] at hc
    exact .op hc.1 rfl
  case num =>
    intro b al fr pc st ls env asg _ _ _ hc
    simp only [gen, codeAt_cons] at hc
    exact .op hc.1 rfl
  case str =>
    intro b al fr pc st ls env asg _ _ _ hc
    simp only [gen, codeAt_cons] at hc
    exact .op hc.1 rfl
  case root =>
    intro al fr pc st ls env asg _ _ _ hc
    simp only [gen, codeAt_cons] at hc
    exact .op hc.1 rfl
  case error => intro al fr pc st ls env asg ha; exact ha.elim
  case pointer =>
    intro al fr pc st ls env asg _ _ hl hc
    simp only [gen, codeAt_cons] at hc
    refine .op hc.1 ?_
    match fr, ls, hl with
    | [], ls, hl => cases hl; rfl
    | (a, v) :: fr, l :: ls, hl => simp [exec, hl.1, eval, Except.map, VmState.push, gen]
  case ident =>
    intro v al fr pc st ls env asg _ hal hl hc
    subst hal
    simp only [gen, codeAt_cons] at hc
    refine .op hc.1 ?_
    rcases lookup_alias hl v with ⟨h1, h2⟩ | ⟨d, w, l, h1, h2, h3, h4⟩
    · simp only [h1, exec, eval, h2, VmState.pushR]
      cases opFetchEnv env v <;> rfl
    · simp [h1, exec, eval, h2, h3, h4, Except.map, VmState.push, gen]
  case paren =>
    intro n ih al fr pc st ls env asg ha hal hl hc
    simp only [gen] at hc
    simp only [gen, eval]
    exact ih al fr pc st ls env asg ha hal hl hc
  case tmpl =>
    intro ps ih al fr pc st ls env asg ha hal hl hc
    simp only [gen, codeAt_append, codeAt_cons] at hc
    refine (reach_tmpl ps ih al fr pc st ls env asg ha hal hl hc.1).bind ?_ ?_
    · rintro ⟨vs, env'⟩ hvs
      have hlen := evalTmpl_length _ _ _ _ hvs
      refine .opThen hc.2.1 rfl ?_
      refine Reach.after (reach_array vs (by rw [hlen]) st ls env' asg hc.2.2.1) ?_
      refine .opThen hc.2.2.2.1 rfl ?_
      refine (reach_bin (f := opJoin B.checks) hc.2.2.2.2.1 fun _ => rfl).cast ?_
      simp only [eval, hvs]
      cases opJoin B.checks (.arr vs) (.str "") <;> simp [Except.map, gen, Nat.add_assoc]
    · intro e he; simp [eval, he, Except.map]
  case arr =>
    intro ps ih al fr pc st ls env asg ha hal hl hc
    simp only [gen, codeAt_append, codeAt_cons] at hc
    refine (reach_list ps ih al fr pc st ls env asg ha hal hl hc.1).bind ?_ ?_
    · rintro ⟨vs, env'⟩ hvs
      have hlen := evalList_length _ _ _ _ hvs
      refine .opThen hc.2.1 rfl ?_
      refine (reach_array vs (by rw [hlen]) st ls env' asg hc.2.2.1).cast ?_
      simp [eval, hvs, Except.map, gen, Nat.add_assoc]
    · intro e he; simp [eval, he, Except.map]
  case obj =>
    intro ps ih al fr pc st ls env asg ha hal hl hc
    simp only [gen, codeAt_append, codeAt_cons] at hc
    refine (reach_pairs ps ih al fr pc st ls env asg ha hal hl hc.1).bind ?_ ?_
    · rintro ⟨vs, env'⟩ hvs
      have hlen := evalPairs_length _ _ _ _ hvs
      refine .opThen hc.2.1 rfl (.op hc.2.2.1 ?_)
      simp only [exec, VmState.push, VmState.pop, toCount_nat, ← hlen, popPairs_pairStack, eval, evalObj_eq, hvs]
      cases strKeys vs <;> simp [Except.map, gen, Nat.add_assoc]
    · intro e he; simp [eval, evalObj_eq, he, Except.map]
  case assigns =>
    intro ps o ih iho al fr pc st ls env asg ha hal hl hc
    simp only [gen, codeAt_append, codeAt_cons, List.cons_append, List.append_assoc] at hc
    refine .opThen hc.1 rfl ?_
    refine (reach_asg ps ih al fr (pc + 1) st ls env (.obj []) asg ha.1 hal hl hc.2.1).bind ?_ ?_
    · rintro ⟨a, env'⟩ hr
      cases o with
      | none =>
        simp only [genOpt, List.length_nil, Nat.add_zero] at hc
        refine .op hc.2.2.2.1 ?_
        simp [exec, eval, hr, evalOpt, Except.map, VmState.push, gen, genOpt]
        omega
      | some n =>
        simp only [genOpt] at hc
        refine (iho n rfl al fr _ st ls env' (a :: asg) ha.2 hal hl hc.2.2.1).bind ?_ ?_
        · rintro ⟨v, env''⟩ hv
          refine .op hc.2.2.2.1 ?_
          simp [exec, eval, hr, hv, evalOpt, Except.map, VmState.push, VmState.pop, gen, genOpt]
          omega
        · intro e he; simp [eval, hr, evalOpt, he, Except.map]
    · intro e he; simp [eval, he, Except.map]
  case member =>
    intro n p ihn ihp al fr pc st ls env asg ha hal hl hc
    subst hal
    rcases fast_lenient root env fr (.member n p) with ⟨h1, h2⟩ | ⟨path, h1, _, h2⟩
    · simp only [gen, h1, codeAt_append, codeAt_cons] at hc
      refine (ihn _ fr pc st ls env asg ha.1 rfl hl hc.1.1).bind ?_ ?_
      · rintro ⟨a, env1⟩ hv
        refine (ihp _ fr _ (a :: st) ls env1 asg ha.2 rfl hl hc.1.2).bind ?_ ?_
        · rintro ⟨b, env2⟩ hw
          simp only [List.length_append, ← Nat.add_assoc] at hc
          refine (reach_bin (f := opFetch) hc.2.1 fun _ => rfl).cast ?_
          simp only [eval, h2, hv, hw]
          cases opFetch a b <;> simp [Except.map, gen, h1, Nat.add_assoc]
        · intro e he; simp [eval, h2, hv, he, Except.map]
      · intro e he; simp [eval, h2, he, Except.map]
    · simp only [gen, h1, codeAt_cons] at hc
      refine .op hc.1 ?_
      simp [exec, eval, h2, Except.map, gen, h1, VmState.push]
  case slice =>
    intro n f t ihn ihf iht al fr pc st ls env asg ha hal hl hc
    simp only [gen, codeAt_append, codeAt_cons] at hc
    simp only [List.length_append, ← Nat.add_assoc] at hc
    obtain ⟨⟨⟨hcn, hct⟩, hcf⟩, hcs, _⟩ := hc
    refine (ihn al fr pc st ls env asg ha.1 hal hl hcn).bind ?_ ?_
    · rintro ⟨c, env1⟩ hcv
      refine (reach_to t iht c al fr _ st ls env1 asg ha.2.2 hal hl hct).bind ?_ ?_
      · rintro ⟨tv, env2⟩ htv
        refine (reach_opt f ihf (.num 0) [.pushNum 0] al fr _ (tv :: c :: st) ls env2 asg
          (fun h => .op (codeAt_cons.1 h).1 rfl) ha.2.1 hal hl hcf).bind ?_ ?_
        · rintro ⟨fv, env3⟩ hfv
          refine .op hcs ?_
          simp only [exec, VmState.pop, VmState.pushR, eval, hcv, htv, hfv]
          cases opSlice c tv fv <;> simp [Except.map, VmState.push, gen, Nat.add_assoc]
        · intro e he; simp [eval, hcv, htv, he, Except.map]
      · intro e he; simp [eval, hcv, he, Except.map]
    · intro e he; simp [eval, he, Except.map]
  case interval =>
    intro l r lb rb ihl ihr al fr pc st ls env asg ha hal hl hc
    simp only [gen, codeAt_append, codeAt_cons] at hc
    simp only [List.length_append, ← Nat.add_assoc] at hc
    refine (ihl al fr pc st ls env asg ha.1 hal hl hc.1.1).bind ?_ ?_
    · rintro ⟨a, env1⟩ hv
      refine (ihr al fr _ (a :: st) ls env1 asg ha.2 hal hl hc.1.2).bind ?_ ?_
      · rintro ⟨b, env2⟩ hw
        refine (reach_bin (f := opInterval lb rb) hc.2.1 fun _ => rfl).cast ?_
        simp only [eval, hv, hw]
        cases opInterval lb rb a b <;> simp [Except.map, gen, Nat.add_assoc]
      · intro e he; simp [eval, hv, he, Except.map]
    · intro e he; simp [eval, he, Except.map]
  case cond =>
    intro c t f ihc iht ihf al fr pc st ls env asg ha hal hl hc
    simp only [gen, codeAt_append, codeAt_cons, List.append_assoc, List.cons_append,
      List.nil_append] at hc
    obtain ⟨hcc, hj, hp, hct, hj', hp', hcf⟩ := hc
    refine (ihc al fr pc st ls env asg ha.1 hal hl hcc).bind ?_ ?_
    · rintro ⟨v, env1⟩ hv
      cases v
      case bool b =>
        cases b
        · refine .opThen hj rfl ?_
          simp only [show pc + (gen al c).length + 1 + ((gen al t).length + 2) =
            pc + (gen al c).length + 1 + 1 + (gen al t).length + 1 by omega]
          refine .opThen hp' rfl ?_
          refine (ihf al fr _ st ls env1 asg ha.2.2 hal hl hcf).cast ?_
          simp only [eval, hv]
          congr 1
          funext r
          simp [gen]
          omega
        · refine .opThen hj rfl (.opThen hp rfl ?_)
          refine (iht al fr _ st ls env1 asg ha.2.1 hal hl hct).bind ?_ ?_
          · rintro ⟨w, env2⟩ hw
            refine .op hj' ?_
            simp [exec, eval, hv, hw, Except.map, gen]
            omega
          · intro e he; simp [eval, hv, he, Except.map]
      all_goals
        refine .op hj ?_
        simp [exec, eval, hv, Except.map]
    · intro e he; simp [eval, he, Except.map]
  case unary =>
    intro op n ih al fr pc st ls env asg ha hal hl hc
    simp only [gen, codeAt_append] at hc
    refine (ih al fr pc st ls env asg ha.2 hal hl hc.1).bind ?_ ?_
    · rintro ⟨v, env1⟩ hv
      refine (reach_unary _ v st ls env1 asg _ rfl hc.2 ha.1).cast ?_
      simp only [eval, hv, gen, List.length_append, Nat.add_assoc]
      rfl
    · intro e he; simp [eval, he, Except.map]
  case binary =>
    intro op l r ihl ihr al fr pc st ls env asg ha hal hl hc
    cases hs : scJump op with
    | none =>
      simp only [gen, hs, codeAt_append] at hc
      simp only [List.length_append, ← Nat.add_assoc] at hc
      rw [eval_binary_strict _ _ _ _ hs]
      have hb : ∃ ops, binOps op = some ops := by
        have := ha.1
        simp only [binaryOk, hs] at this
        cases h : binOps op with
        | none => simp [h] at this
        | some ops => exact ⟨ops, rfl⟩
      obtain ⟨ops, hops⟩ := hb
      simp only [hops, Option.getD_some] at hc
      obtain ⟨f, hf, hrun⟩ := binOps_meaning (B := B) (root := root) (code := code) hops
      simp only [hf]
      refine (ihl al fr pc st ls env asg ha.2.1 hal hl hc.1.1).bind ?_ ?_
      · rintro ⟨a, env1⟩ hv
        refine (ihr al fr _ (a :: st) ls env1 asg ha.2.2 hal hl hc.1.2).bind ?_ ?_
        · rintro ⟨b, env2⟩ hw
          refine (hrun _ a b st ls env2 asg hc.2).cast ?_
          simp only [hv, hw]
          cases f a b <;> simp [Except.map, gen, hs, hops, Nat.add_assoc]
        · intro e he; simp [hv, he, Except.map]
      · intro e he; simp [he, Except.map]
    | some j =>
      simp only [gen, hs, codeAt_append, codeAt_cons, List.append_assoc, List.cons_append,
        List.nil_append] at hc
      obtain ⟨hcl, hj, hp, hcr⟩ := hc
      unfold scJump at hs
      split at hs <;> cases hs
      all_goals
        refine (ihl al fr pc st ls env asg ha.2.1 hal hl hcl).bind ?_ ?_
        rotate_left
        · intro e he; simp [eval, he, Except.map]
        rintro ⟨v, env1⟩ hv
      · cases v
        case bool b =>
          cases b
          · refine .opThen hj rfl (.opThen hp rfl ?_)
            refine (ihr al fr _ st ls env1 asg ha.2.2 hal hl hcr).cast ?_
            simp only [eval, hv]
            congr 1
            funext q
            simp [gen, scJump]
            omega
          · refine .op hj ?_
            simp [exec, eval, hv, Except.map, gen, scJump]
            omega
        all_goals
          refine .op hj ?_
          simp [exec, eval, hv, Except.map]
      · cases v
        case bool b =>
          cases b
          · refine .op hj ?_
            simp [exec, eval, hv, Except.map, gen, scJump]
            omega
          · refine .opThen hj rfl (.opThen hp rfl ?_)
            refine (ihr al fr _ st ls env1 asg ha.2.2 hal hl hcr).cast ?_
            simp only [eval, hv]
            congr 1
            funext q
            simp [gen, scJump]
            omega
        all_goals
          refine .op hj ?_
          simp [exec, eval, hv, Except.map]
      · cases v
        case null =>
          refine .opThen hj rfl (.opThen hp rfl ?_)
          refine (ihr al fr _ st ls env1 asg ha.2.2 hal hl hcr).cast ?_
          simp only [eval, hv]
          congr 1
          funext q
          simp [gen, scJump]
          omega
        all_goals
          refine .op hj ?_
          simp [exec, eval, hv, Except.map, gen, scJump]
          omega
  case call =>
    intro f as ih al fr pc st ls env asg ha hal hl hc
    simp only [gen, codeAt_append, codeAt_cons] at hc
    refine (reach_list as ih al fr pc st ls env asg ha.2 hal hl hc.1).bind ?_ ?_
    · rintro ⟨vs, env'⟩ hvs
      have hlen := evalList_length _ _ _ _ hvs
      have hlen' : as.length = vs.reverse.length := by simpa using hlen.symm
      refine .op hc.2.1 ?_
      simp only [exec, eval, hvs, hlen', List.take_left', List.drop_left', List.reverse_reverse]
      cases B.fn f vs <;> simp [Except.map, gen, VmState.push, Nat.add_assoc]
    · intro e he; simp [eval, he, Except.map]
  case method =>
    intro m t as iht ih al fr pc st ls env asg ha hal hl hc
    simp only [gen, codeAt_append, codeAt_cons] at hc
    simp only [List.length_append, ← Nat.add_assoc] at hc
    refine (iht al fr pc st ls env asg ha.2.1 hal hl hc.1.1).bind ?_ ?_
    · rintro ⟨tv, env1⟩ htv
      refine (reach_list as ih al fr _ (tv :: st) ls env1 asg ha.2.2 hal hl hc.1.2).bind ?_ ?_
      · rintro ⟨vs, env'⟩ hvs
        have hlen := evalList_length _ _ _ _ hvs
        have hst : vs.reverse ++ tv :: st = (tv :: vs).reverse ++ st := by simp
        have hlen' : as.length + 1 = (tv :: vs).reverse.length := by simpa using hlen.symm
        have hlt : as.length < ((tv :: vs).reverse ++ st).length := by
          rw [List.length_append, ← hlen']; omega
        refine .op hc.2.1 ?_
        simp only [hst, exec, hlt, if_true]
        simp only [hlen', List.take_left', List.drop_left', List.reverse_reverse, eval, htv, hvs]
        cases B.method m (tv :: vs) <;> simp [Except.map, gen, VmState.push, Nat.add_assoc]
      · intro e he; simp [eval, htv, he, Except.map]
    · intro e he; simp [eval, he, Except.map]
  case closure => exact fun k o a b ho hb => reach_closure k o a b ho hb

/-! ### Complete runs -/

theorem runFrom_steps {s t : VmState} (h : Steps B root code s t) :
    ∃ k, ∀ m, runFrom B root code (k + m) s = runFrom B root code m t := by
  induction h with
  | refl => exact ⟨0, fun m => by rw [Nat.zero_add]⟩
  | head h he _ ih =>
    obtain ⟨k, hk⟩ := ih
    refine ⟨k + 1, fun m => ?_⟩
    rw [show k + 1 + m = (k + m) + 1 by omega]
    simp only [runFrom, h, he, hk]

theorem runFrom_mono (fuel : Nat) : ∀ (s : VmState) (r : Except VErr Val) (k : Nat),
    runFrom B root code fuel s = some r → runFrom B root code (fuel + k) s = some r := by
  induction fuel with
  | zero => intro s r k h; cases h
  | succ n ih =>
    intro s r k h
    rw [show n + 1 + k = (n + k) + 1 by omega]
    simp only [runFrom] at h ⊢
    split at h
    · exact h
    · split at h
      · exact h
      · exact ih _ _ _ h

end

theorem run_compiled {B : Builtins} {n : Node} {code : List Op} (scope : Scope)
    (h : compile B n = .ok code) : ∃ fuel, runCode B code scope fuel = some (evaluate B scope n) := by
  obtain ⟨ha, rfl⟩ := compileNode_gen h
  have hg := good (B := B) (root := scope) (code := gen [] n) n [] [] 0 [] [] scope [] ha rfl rfl
    (codeAt_self _)
  simp only [List.nil_append, runCode, evaluate, initState]
  cases he : eval B scope [] scope n with
  | ok q =>
    rw [he] at hg
    obtain ⟨k, hk⟩ := runFrom_steps hg
    refine ⟨k + 1, ?_⟩
    rw [hk]
    simp [runFrom, VmState.pop, Except.map]
  | error e =>
    rw [he] at hg
    obtain ⟨t, op, hs, ho, hx⟩ := hg
    obtain ⟨k, hk⟩ := runFrom_steps hs
    refine ⟨k + 1, ?_⟩
    rw [hk]
    simp [runFrom, ho, hx, Except.map]

theorem runCode_det {B : Builtins} {code : List Op} {scope : Scope} {f g : Nat}
    {r r' : Except VErr Val} (h : runCode B code scope f = some r)
    (h' : runCode B code scope g = some r') : r = r' := by
  have h1 := runFrom_mono f _ _ g h
  have h2 := runFrom_mono g _ _ f h'
  rw [Nat.add_comm] at h1
  rw [h1] at h2
  exact Option.some.inj h2

end Zen
