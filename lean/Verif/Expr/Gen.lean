import Verif.Expr.Compiler
/-
A compositional description of the code the compiler emits (helper for the proofs): `gen al n`
is the segment appended by `compileNode`, which also shows that `replace` only touches the
intended placeholders.
-/
namespace Zen

def genLoop (body : List Op) : List Op :=
  .jump .ifEnd (body.length + 2) :: body ++ [.incIt, .jump .back (body.length + 3)]

def genCond (body : List Op) : List Op :=
  .jump .ifFalse (body.length + 2) :: .pop :: body ++ [.jump .fwd 1, .pop]

def genBreak (body : List Op) (k : Jmp) (dflt : Bool) : List Op :=
  .jump .ifEnd (body.length + 4) :: body ++
    [.jump k 4, .pop, .incIt, .jump .back (body.length + 5), .pushBool dflt, .end_]

mutual
def gen (al : List (Option String)) : Node → List Op
  | .null => [.pushNull]
  | .bool b => [.pushBool b]
  | .num n => [.pushNum n]
  | .str s => [.pushStr s]
  | .pointer => [.pointer 0]
  | .root => [.fetchRootEnv]
  | .arr xs => genList al xs ++ [.pushNum xs.length, .array]
  | .obj kvs => genObj al kvs ++ [.pushNum kvs.length, .object]
  | .assigns list out => .asgBegin :: genAsg al list ++ genOpt al [] out ++ [.asgEnd out.isSome]
  | .ident v => [match lookupAlias al v with | none => .fetchEnv v | some d => .pointer d]
  | .paren n => gen al n
  | .member n p => match memberFast al (.member n p) with
    | some path => [.fetchFast path]
    | none => gen al n ++ gen al p ++ [.fetch]
  | .tmpl parts => genTmpl al parts ++ [.pushNum parts.length, .array, .pushStr "", .join]
  | .slice n from_ to =>
    gen al n ++ genOpt al [.len, .pushNum 1, .sub] to ++ genOpt al [.pushNum 0] from_ ++ [.slice]
  | .interval l r lb rb => gen al l ++ gen al r ++ [.interval lb rb]
  | .cond c t f =>
    gen al c ++ [.jump .ifFalse ((gen al t).length + 2), .pop] ++ gen al t ++
      [.jump .fwd ((gen al f).length + 1), .pop] ++ gen al f
  | .unary op n => gen al n ++ (match op with
    | .arith .sub => [.negate]
    | .logic .not => [.not]
    | _ => [])
  | .binary op l r => match scJump op with
    | some j => gen al l ++ [.jump j ((gen al r).length + 1), .pop] ++ gen al r
    | none => gen al l ++ gen al r ++ (binOps op).getD []
  | .call f args => genList al args ++ [.callFn f args.length]
  | .method m this args => gen al this ++ genList al args ++ [.callMethod m args.length]
  | .closure k over alias body =>
    gen al over ++ .begin_ :: (match k with
      | .all => genBreak (gen (alias :: al) body) .ifFalse true
      | .none => genBreak (gen (alias :: al) body ++ [.not]) .ifFalse true
      | .some => genBreak (gen (alias :: al) body) .ifTrue false
      | .one => genLoop (gen (alias :: al) body ++ genCond [.incCount]) ++
          [.getCount, .pushNum 1, .equal, .end_]
      | .filter => genLoop (gen (alias :: al) body ++ genCond [.incCount, .pointer 0]) ++
          [.getCount, .end_, .array]
      | .map => genLoop (gen (alias :: al) body) ++ [.getLen, .end_, .array]
      | .flatMap => genLoop (gen (alias :: al) body) ++ [.getLen, .end_, .array, .flatten]
      | .count => genLoop (gen (alias :: al) body ++ genCond [.incCount]) ++ [.getCount, .end_])
  | .error => []
def genOpt (al : List (Option String)) (dflt : List Op) : Option Node → List Op
  | none => dflt
  | some n => gen al n
def genList (al : List (Option String)) : List Node → List Op
  | [] => []
  | n :: ns => gen al n ++ genList al ns
def genTmpl (al : List (Option String)) : List Node → List Op
  | [] => []
  | n :: ns => gen al n ++ .callFn "string" 1 :: genTmpl al ns
def genObj (al : List (Option String)) : List (Node × Node) → List Op
  | [] => []
  | (k, v) :: ns => gen al k ++ .callFn "string" 1 :: gen al v ++ genObj al ns
def genAsg (al : List (Option String)) : List (Node × Node) → List Op
  | [] => []
  | (k, v) :: ns => gen al k ++ gen al v ++ .asgStep :: genAsg al ns
end

/-- Operators accepted in prefix position. -/
def unaryOk : Oper → Bool
  | .arith .add | .arith .sub | .logic .not => true
  | _ => false

/-- Operators accepted between two operands. -/
def binaryOk (op : Oper) : Bool := (scJump op).isSome || (binOps op).isSome

mutual
/-- Syntax trees the compiler accepts: known operators, known functions with an admissible number
of arguments, and no error nodes. -/
def Accepts (B : Builtins) : Node → Prop
  | .tmpl ps => AcceptsL B ps
  | .arr ps => AcceptsL B ps
  | .obj kvs => AcceptsP B kvs
  | .assigns kvs o => AcceptsP B kvs ∧ AcceptsO B o
  | .paren n => Accepts B n
  | .member n p => Accepts B n ∧ Accepts B p
  | .slice n f t => Accepts B n ∧ AcceptsO B f ∧ AcceptsO B t
  | .interval l r _ _ => Accepts B l ∧ Accepts B r
  | .cond c t f => Accepts B c ∧ Accepts B t ∧ Accepts B f
  | .unary op n => unaryOk op = true ∧ Accepts B n
  | .binary op l r => binaryOk op = true ∧ Accepts B l ∧ Accepts B r
  | .call f as => arityOk as.length (B.fnArity f) = true ∧ AcceptsL B as
  | .closure _ o _ b => Accepts B o ∧ Accepts B b
  | .method m t as => arityOk (as.length + 1) (B.mArity m) = true ∧ Accepts B t ∧ AcceptsL B as
  | .error => False
  | _ => True
def AcceptsO (B : Builtins) : Option Node → Prop
  | none => True
  | some n => Accepts B n
def AcceptsL (B : Builtins) : List Node → Prop
  | [] => True
  | n :: ns => Accepts B n ∧ AcceptsL B ns
def AcceptsP (B : Builtins) : List (Node × Node) → Prop
  | [] => True
  | (k, v) :: ns => Accepts B k ∧ Accepts B v ∧ AcceptsP B ns
end

theorem patch_eq (pre : List Op) (op : Op) (post : List Op) {buf : List Op} {at_ : Nat} {op' : Op}
    (hb : buf = pre ++ op :: post) (h : at_ = pre.length + 1) :
    patch buf at_ op' = pre ++ op' :: post := by
  subst h hb; simp [patch]

theorem emitCond_gen (body : List Op → List Op) (b : List Op) (buf : List Op)
    (h : ∀ buf, body buf = buf ++ b) : emitCond body buf = buf ++ genCond b := by
  simp only [emitCond, emit, h]
  rw [patch_eq (at_ := (buf ++ [Op.jump .ifFalse 0]).length)
    buf (.jump .ifFalse 0) (.pop :: b ++ [Op.jump .fwd 0]) (by simp) (by simp)]
  rw [patch_eq (buf ++ .jump .ifFalse (b.length + 2) :: .pop :: b) (.jump .fwd 0) [.pop]
    (by simp; omega) (by simp; omega)]
  simp [genCond]
  omega

theorem emitLoop_gen (body : List Op → Except CErr (List Op)) (b : List Op) (buf : List Op)
    (h : ∀ buf, body buf = .ok (buf ++ b)) : emitLoop body buf = .ok (buf ++ genLoop b) := by
  simp only [emitLoop, emit, h]
  rw [patch_eq buf (.jump .ifEnd 0) (b ++ [.incIt, Op.jump .back (b.length + 3)])
    (by simp; omega) (by simp)]
  simp [genLoop]
  omega

theorem emitBreakLoop_gen (body : List Op → Except CErr (List Op)) (b : List Op) (k : Jmp) (d : Bool)
    (buf : List Op) (h : ∀ buf, body buf = .ok (buf ++ b)) :
    emitBreakLoop body k d buf = .ok (buf ++ genBreak b k d) := by
  simp only [emitBreakLoop, emit, h]
  rw [patch_eq (at_ := (buf ++ [Op.jump .ifEnd 0]).length)
    buf (.jump .ifEnd 0) (b ++ [.jump k 0, .pop, .incIt, Op.jump .back (b.length + 5)])
    (by simp; omega) (by simp)]
  rw [patch_eq (buf ++ .jump .ifEnd (b.length + 4) :: b) (.jump k 0)
    [.pop, .incIt, Op.jump .back (b.length + 5), .pushBool d]
    (by simp; omega) (by simp; omega)]
  simp [genBreak]
  omega

theorem emitLoop_err (body : List Op → Except CErr (List Op)) (buf : List Op)
    (h : ∀ buf, ∃ e, body buf = .error e) : ∃ e, emitLoop body buf = .error e := by
  obtain ⟨e, he⟩ := h (emit buf (.jump .ifEnd 0))
  exact ⟨e, by simp only [emitLoop, he]⟩

theorem emitBreakLoop_err (body : List Op → Except CErr (List Op)) (k : Jmp) (d : Bool)
    (buf : List Op) (h : ∀ buf, ∃ e, body buf = .error e) :
    ∃ e, emitBreakLoop body k d buf = .error e := by
  obtain ⟨e, he⟩ := h (emit buf (.jump .ifEnd 0))
  exact ⟨e, by simp only [emitBreakLoop, he]⟩

/-- what the compiler does with one tree -/
def CompSpec (B : Builtins) (n : Node) : Prop :=
  (Accepts B n ∧ ∀ al buf, compileNode B al n buf = .ok (buf ++ gen al n)) ∨
  (¬ Accepts B n ∧ ∀ al buf, ∃ e, compileNode B al n buf = .error e)

theorem compileList_spec (B : Builtins) (ns : List Node) (ih : ∀ n ∈ ns, CompSpec B n) :
    (AcceptsL B ns ∧ ∀ al buf, compileList B al ns buf = .ok (buf ++ genList al ns)) ∨
    (¬ AcceptsL B ns ∧ ∀ al buf, ∃ e, compileList B al ns buf = .error e) := by
  induction ns with
  | nil => simp [AcceptsL, compileList, genList]
  | cons n ns ihl =>
    have ihl := ihl fun m hm => ih m (List.mem_cons_of_mem _ hm)
    rcases ih n (List.mem_cons_self ..) with ⟨ha, hc⟩ | ⟨ha, hc⟩
    · rcases ihl with ⟨hb, hd⟩ | ⟨hb, hd⟩
      · exact .inl ⟨⟨ha, hb⟩, fun al buf => by simp [compileList, hc, hd, genList]⟩
      · refine .inr ⟨fun h => hb h.2, fun al buf => ?_⟩
        obtain ⟨e, he⟩ := hd al (buf ++ gen al n)
        exact ⟨e, by simp [compileList, hc, he]⟩
    · refine .inr ⟨fun h => ha h.1, fun al buf => ?_⟩
      obtain ⟨e, he⟩ := hc al buf
      exact ⟨e, by simp [compileList, he]⟩

theorem compileTmpl_spec (B : Builtins) (ns : List Node) (ih : ∀ n ∈ ns, CompSpec B n) :
    (AcceptsL B ns ∧ ∀ al buf, compileTmpl B al ns buf = .ok (buf ++ genTmpl al ns)) ∨
    (¬ AcceptsL B ns ∧ ∀ al buf, ∃ e, compileTmpl B al ns buf = .error e) := by
  induction ns with
  | nil => simp [AcceptsL, compileTmpl, genTmpl]
  | cons n ns ihl =>
    have ihl := ihl fun m hm => ih m (List.mem_cons_of_mem _ hm)
    rcases ih n (List.mem_cons_self ..) with ⟨ha, hc⟩ | ⟨ha, hc⟩
    · rcases ihl with ⟨hb, hd⟩ | ⟨hb, hd⟩
      · exact .inl ⟨⟨ha, hb⟩, fun al buf => by simp [compileTmpl, hc, hd, genTmpl, emit]⟩
      · refine .inr ⟨fun h => hb h.2, fun al buf => ?_⟩
        obtain ⟨e, he⟩ := hd al (emit (buf ++ gen al n) (.callFn "string" 1))
        exact ⟨e, by simp [compileTmpl, hc, he]⟩
    · refine .inr ⟨fun h => ha h.1, fun al buf => ?_⟩
      obtain ⟨e, he⟩ := hc al buf
      exact ⟨e, by simp [compileTmpl, he]⟩

theorem compileObj_spec (B : Builtins) (ns : List (Node × Node))
    (ih : ∀ p ∈ ns, CompSpec B p.1 ∧ CompSpec B p.2) :
    (AcceptsP B ns ∧ ∀ al buf, compileObj B al ns buf = .ok (buf ++ genObj al ns)) ∨
    (¬ AcceptsP B ns ∧ ∀ al buf, ∃ e, compileObj B al ns buf = .error e) := by
  induction ns with
  | nil => simp [AcceptsP, compileObj, genObj]
  | cons p ns ihl =>
    obtain ⟨k, v⟩ := p
    have ihl := ihl fun m hm => ih m (List.mem_cons_of_mem _ hm)
    obtain ⟨ihk, ihv⟩ := ih (k, v) (List.mem_cons_self ..)
    rcases ihk with ⟨ha, hc⟩ | ⟨ha, hc⟩
    · rcases ihv with ⟨ha', hc'⟩ | ⟨ha', hc'⟩
      · rcases ihl with ⟨hb, hd⟩ | ⟨hb, hd⟩
        · exact .inl ⟨⟨ha, ha', hb⟩, fun al buf => by simp [compileObj, hc, hc', hd, genObj, emit]⟩
        · refine .inr ⟨fun h => hb h.2.2, fun al buf => ?_⟩
          obtain ⟨e, he⟩ := hd al (emit (buf ++ gen al k) (.callFn "string" 1) ++ gen al v)
          exact ⟨e, by simp only [compileObj, hc, hc', he]⟩
      · refine .inr ⟨fun h => ha' h.2.1, fun al buf => ?_⟩
        obtain ⟨e, he⟩ := hc' al (emit (buf ++ gen al k) (.callFn "string" 1))
        exact ⟨e, by simp only [compileObj, hc, he]⟩
    · refine .inr ⟨fun h => ha h.1, fun al buf => ?_⟩
      obtain ⟨e, he⟩ := hc al buf
      exact ⟨e, by simp [compileObj, he]⟩

theorem compileAsg_spec (B : Builtins) (ns : List (Node × Node))
    (ih : ∀ p ∈ ns, CompSpec B p.1 ∧ CompSpec B p.2) :
    (AcceptsP B ns ∧ ∀ al buf, compileAsg B al ns buf = .ok (buf ++ genAsg al ns)) ∨
    (¬ AcceptsP B ns ∧ ∀ al buf, ∃ e, compileAsg B al ns buf = .error e) := by
  induction ns with
  | nil => simp [AcceptsP, compileAsg, genAsg]
  | cons p ns ihl =>
    obtain ⟨k, v⟩ := p
    have ihl := ihl fun m hm => ih m (List.mem_cons_of_mem _ hm)
    obtain ⟨ihk, ihv⟩ := ih (k, v) (List.mem_cons_self ..)
    rcases ihk with ⟨ha, hc⟩ | ⟨ha, hc⟩
    · rcases ihv with ⟨ha', hc'⟩ | ⟨ha', hc'⟩
      · rcases ihl with ⟨hb, hd⟩ | ⟨hb, hd⟩
        · exact .inl ⟨⟨ha, ha', hb⟩, fun al buf => by simp [compileAsg, hc, hc', hd, genAsg, emit]⟩
        · refine .inr ⟨fun h => hb h.2.2, fun al buf => ?_⟩
          obtain ⟨e, he⟩ := hd al (emit (buf ++ gen al k ++ gen al v) .asgStep)
          exact ⟨e, by simp only [compileAsg, hc, hc', he]⟩
      · refine .inr ⟨fun h => ha' h.2.1, fun al buf => ?_⟩
        obtain ⟨e, he⟩ := hc' al (buf ++ gen al k)
        exact ⟨e, by simp only [compileAsg, hc, he]⟩
    · refine .inr ⟨fun h => ha h.1, fun al buf => ?_⟩
      obtain ⟨e, he⟩ := hc al buf
      exact ⟨e, by simp [compileAsg, he]⟩

theorem CompSpec.acc {B : Builtins} {n : Node} (h : Accepts B n)
    (hc : ∀ al buf, compileNode B al n buf = .ok (buf ++ gen al n)) : CompSpec B n := .inl ⟨h, hc⟩

theorem CompSpec.rej {B : Builtins} {n : Node} (h : ¬ Accepts B n)
    (hc : ∀ al buf, ∃ e, compileNode B al n buf = .error e) : CompSpec B n := .inr ⟨h, hc⟩

theorem compileNode_closure_ok (B : Builtins) (k : Clo) (o : Node) (a : Option String) (b : Node)
    (ho : ∀ al buf, compileNode B al o buf = .ok (buf ++ gen al o))
    (hb : ∀ al buf, compileNode B al b buf = .ok (buf ++ gen al b)) (al : List (Option String))
    (buf : List Op) :
    compileNode B al (.closure k o a b) buf = .ok (buf ++ gen al (.closure k o a b)) := by
  have hc1 : ∀ buf, emitCond (fun b => emit b .incCount) buf = buf ++ genCond [.incCount] :=
    fun buf => emitCond_gen _ _ _ fun _ => rfl
  have hc2 : ∀ buf, emitCond (fun b => emit (emit b .incCount) (.pointer 0)) buf =
      buf ++ genCond [.incCount, .pointer 0] :=
    fun buf => emitCond_gen _ _ _ fun _ => by simp [emit]
  cases k <;> simp only [compileNode, ho, gen]
  · rw [emitBreakLoop_gen _ (gen (a :: al) b) _ _ _ (fun buf => hb _ _)]; simp [emit]
  · rw [emitBreakLoop_gen _ (gen (a :: al) b ++ [.not]) _ _ _ (fun buf => by simp [hb, emit])]
    simp [emit]
  · rw [emitBreakLoop_gen _ (gen (a :: al) b) _ _ _ (fun buf => hb _ _)]; simp [emit]
  · rw [emitLoop_gen _ (gen (a :: al) b ++ genCond [.incCount]) _
      (fun buf => by simp [hb, hc1])]; simp [emit]
  · rw [emitLoop_gen _ (gen (a :: al) b ++ genCond [.incCount, .pointer 0]) _
      (fun buf => by simp [hb, hc2])]; simp [emit]
  · rw [emitLoop_gen _ (gen (a :: al) b) _ (fun buf => hb _ _)]; simp [emit]
  · rw [emitLoop_gen _ (gen (a :: al) b) _ (fun buf => hb _ _)]; simp [emit]
  · rw [emitLoop_gen _ (gen (a :: al) b ++ genCond [.incCount]) _
      (fun buf => by simp [hb, hc1])]; simp [emit]

theorem emitLoop_ne_ok {body : List Op → Except CErr (List Op)} {buf r : List Op}
    (h : emitLoop body buf = .ok r) (hb : ∀ buf, ∃ e, body buf = .error e) : False := by
  obtain ⟨e, he⟩ := emitLoop_err body buf hb
  rw [he] at h; cases h

theorem compileNode_closure_err (B : Builtins) (k : Clo) (o : Node) (a : Option String) (b : Node)
    (ho : ∀ al buf, compileNode B al o buf = .ok (buf ++ gen al o))
    (hb : ∀ al buf, ∃ e, compileNode B al b buf = .error e) (al : List (Option String))
    (buf : List Op) : ∃ e, compileNode B al (.closure k o a b) buf = .error e := by
  cases k <;> simp only [compileNode, ho]
  · exact emitBreakLoop_err _ _ _ _ (hb _)
  · refine emitBreakLoop_err _ _ _ _ fun buf => ?_
    obtain ⟨e, he⟩ := hb (a :: al) buf
    exact ⟨e, by simp only [he]⟩
  · exact emitBreakLoop_err _ _ _ _ (hb _)
  all_goals
    split
    · exact ⟨_, rfl⟩
    · rename_i h
      refine (emitLoop_ne_ok h fun buf => ?_).elim
      obtain ⟨e, he⟩ := hb (a :: al) buf
      exact ⟨e, by simp only [he]⟩

theorem memberFast_accepts (B : Builtins) (al : List (Option String)) (n : Node) :
    ∀ path, memberFast al n = some path → Accepts B n := by
  refine Node.ind (P := fun n => ∀ path, memberFast al n = some path → Accepts B n)
    ?_ ?_ ?_ ?_ ?_ ?_ ?_ ?_ ?_ ?_ ?_ ?_ ?_ ?_ ?_ ?_ ?_ ?_ ?_ ?_ ?_ ?_ n
  case refine_13 =>
    intro n p hn hp path h
    unfold memberFast at h
    split at h
    · contradiction
    · rename_i path' hpath
      refine ⟨hn _ hpath, ?_⟩
      split at h <;> simp_all [Accepts]
  all_goals (intros; simp_all [memberFast, Accepts])

theorem compileOpt_spec (B : Builtins) (o : Option Node) (d : List Op) (ih : ∀ n, o = some n → CompSpec B n) :
    (AcceptsO B o ∧ ∀ al buf, compileOpt B al d o buf = .ok (buf ++ genOpt al d o)) ∨
    (¬ AcceptsO B o ∧ ∀ al buf, ∃ e, compileOpt B al d o buf = .error e) := by
  cases o with
  | none => exact .inl ⟨trivial, fun _ _ => rfl⟩
  | some n =>
    rcases ih n rfl with ⟨h, hc⟩ | ⟨h, hc⟩
    · exact .inl ⟨h, fun al buf => by simp [compileOpt, hc, genOpt]⟩
    · exact .inr ⟨h, fun al buf => by simpa [compileOpt] using hc al buf⟩

theorem compSpec (B : Builtins) (n : Node) : CompSpec B n := by
  refine Node.ind (P := CompSpec B)
    ?null ?bool ?num ?str ?tmpl ?pointer ?arr ?obj ?assigns ?ident ?paren ?root ?member ?slice
    ?interval ?cond ?unary ?binary ?call ?closure ?method ?error n
  case null => exact .acc trivial fun _ _ => rfl
  case bool => exact fun b => .acc trivial fun _ _ => rfl
  case num => exact fun b => .acc trivial fun _ _ => rfl
  case str => exact fun b => .acc trivial fun _ _ => rfl
  case pointer => exact .acc trivial fun _ _ => rfl
  case root => exact .acc trivial fun _ _ => rfl
  case ident => exact fun b => .acc trivial fun _ _ => rfl
  case error => exact .rej id fun _ _ => ⟨_, rfl⟩
  case tmpl =>
    intro ps ih
    rcases compileTmpl_spec B ps ih with ⟨h, hc⟩ | ⟨h, hc⟩
    · exact .acc h fun al buf => by simp [compileNode, hc, gen, emit]
    · exact .rej h fun al buf => by
        obtain ⟨e, he⟩ := hc al buf; exact ⟨e, by simp [compileNode, he]⟩
  case arr =>
    intro ps ih
    rcases compileList_spec B ps ih with ⟨h, hc⟩ | ⟨h, hc⟩
    · exact .acc h fun al buf => by simp [compileNode, hc, gen, emit]
    · exact .rej h fun al buf => by
        obtain ⟨e, he⟩ := hc al buf; exact ⟨e, by simp [compileNode, he]⟩
  case obj =>
    intro ps ih
    rcases compileObj_spec B ps ih with ⟨h, hc⟩ | ⟨h, hc⟩
    · exact .acc h fun al buf => by simp [compileNode, hc, gen, emit]
    · exact .rej h fun al buf => by
        obtain ⟨e, he⟩ := hc al buf; exact ⟨e, by simp [compileNode, he]⟩
  case assigns =>
    intro ps o ih iho
    rcases compileAsg_spec B ps ih with ⟨h, hc⟩ | ⟨h, hc⟩
    · rcases compileOpt_spec B o [] iho with ⟨h', hc'⟩ | ⟨h', hc'⟩
      · exact .acc ⟨h, h'⟩ fun al buf => by simp [compileNode, hc, hc', gen, emit]
      · exact .rej (fun x => h' x.2) fun al buf => by
          obtain ⟨e, he⟩ := hc' al (emit buf .asgBegin ++ genAsg al ps)
          exact ⟨e, by simp only [compileNode, hc, he]⟩
    · exact .rej (fun x => h x.1) fun al buf => by
        obtain ⟨e, he⟩ := hc al (emit buf .asgBegin); exact ⟨e, by simp [compileNode, he]⟩
  case paren =>
    intro n ih
    rcases ih with ⟨h, hc⟩ | ⟨h, hc⟩
    · exact .acc h fun al buf => by simp [compileNode, hc, gen]
    · exact .rej h fun al buf => by simpa [compileNode] using hc al buf
  case member =>
    intro n p hn hp
    by_cases hacc : Accepts B n ∧ Accepts B p
    · rcases hn with ⟨_, hc⟩ | ⟨h, _⟩
      · rcases hp with ⟨_, hc'⟩ | ⟨h, _⟩
        · refine .acc hacc fun al buf => ?_
          cases hm : memberFast al (.member n p) <;> simp [compileNode, gen, hm, hc, hc', emit]
        · exact absurd hacc.2 h
      · exact absurd hacc.1 h
    · refine .rej hacc fun al buf => ?_
      cases hm : memberFast al (.member n p) with
      | some path => exact absurd (memberFast_accepts B al _ _ hm) hacc
      | none =>
        rcases hn with ⟨h, hc⟩ | ⟨h, hc⟩
        · rcases hp with ⟨h', hc'⟩ | ⟨h', hc'⟩
          · exact absurd ⟨h, h'⟩ hacc
          · obtain ⟨e, he⟩ := hc' al (buf ++ gen al n)
            exact ⟨e, by simp [compileNode, hm, hc, he]⟩
        · obtain ⟨e, he⟩ := hc al buf
          exact ⟨e, by simp [compileNode, hm, he]⟩
  case slice =>
    intro n f t hn hf ht
    rcases hn with ⟨h, hc⟩ | ⟨h, hc⟩
    · rcases compileOpt_spec B t [.len, .pushNum 1, .sub] ht with ⟨h', hc'⟩ | ⟨h', hc'⟩
      · rcases compileOpt_spec B f [.pushNum 0] hf with ⟨h'', hc''⟩ | ⟨h'', hc''⟩
        · exact .acc ⟨h, h'', h'⟩ fun al buf => by
            simp [compileNode, gen, emit, hc, hc', hc'']
        · exact .rej (fun x => h'' x.2.1) fun al buf => by
            obtain ⟨e, he⟩ := hc'' al (buf ++ gen al n ++ genOpt al [.len, .pushNum 1, .sub] t)
            exact ⟨e, by simp only [compileNode, hc, hc', he]⟩
      · exact .rej (fun x => h' x.2.2) fun al buf => by
          obtain ⟨e, he⟩ := hc' al (buf ++ gen al n)
          exact ⟨e, by simp only [compileNode, hc, he]⟩
    · exact .rej (fun x => h x.1) fun al buf => by
        obtain ⟨e, he⟩ := hc al buf; exact ⟨e, by simp [compileNode, he]⟩
  case interval =>
    intro l r lb rb hl hr
    rcases hl with ⟨h, hc⟩ | ⟨h, hc⟩
    · rcases hr with ⟨h', hc'⟩ | ⟨h', hc'⟩
      · exact .acc ⟨h, h'⟩ fun al buf => by simp [compileNode, gen, emit, hc, hc']
      · exact .rej (fun x => h' x.2) fun al buf => by
          obtain ⟨e, he⟩ := hc' al (buf ++ gen al l)
          exact ⟨e, by simp only [compileNode, hc, he]⟩
    · exact .rej (fun x => h x.1) fun al buf => by
        obtain ⟨e, he⟩ := hc al buf; exact ⟨e, by simp [compileNode, he]⟩
  case cond =>
    intro c t f hc ht hf
    rcases hc with ⟨h, hc⟩ | ⟨h, hc⟩
    · rcases ht with ⟨h', hc'⟩ | ⟨h', hc'⟩
      · rcases hf with ⟨h'', hc''⟩ | ⟨h'', hc''⟩
        · refine .acc ⟨h, h', h''⟩ fun al buf => ?_
          simp only [compileNode, hc, hc', hc'', emit, gen]
          rw [patch_eq (at_ := (buf ++ gen al c ++ [Op.jump .ifFalse 0]).length)
            (buf ++ gen al c) (.jump .ifFalse 0) (.pop :: gen al t ++ [Op.jump .fwd 0])
            (by simp) (by simp; omega)]
          rw [patch_eq (buf ++ gen al c ++ .jump .ifFalse ((gen al t).length + 2) :: .pop :: gen al t)
            (.jump .fwd 0) (.pop :: gen al f) (by simp; omega) (by simp; omega)]
          simp
          omega
        · refine .rej (fun x => h'' x.2.2) fun al buf => ?_
          have := fun b => hc'' al b
          simp only [compileNode, hc, hc']
          obtain ⟨e, he⟩ := hc'' al (emit (patch (emit (emit (emit (buf ++ gen al c)
            (.jump .ifFalse 0)) .pop ++ gen al t) (.jump .fwd 0))
            (emit (buf ++ gen al c) (.jump .ifFalse 0)).length
            (.jump .ifFalse ((emit (emit (emit (buf ++ gen al c)
            (.jump .ifFalse 0)) .pop ++ gen al t) (.jump .fwd 0)).length -
              (emit (buf ++ gen al c) (.jump .ifFalse 0)).length))) .pop)
          exact ⟨e, by rw [he]⟩
      · exact .rej (fun x => h' x.2.1) fun al buf => by
          obtain ⟨e, he⟩ := hc' al (emit (emit (buf ++ gen al c) (.jump .ifFalse 0)) .pop)
          exact ⟨e, by simp only [compileNode, hc, he]⟩
    · exact .rej (fun x => h x.1) fun al buf => by
        obtain ⟨e, he⟩ := hc al buf; exact ⟨e, by simp [compileNode, he]⟩
  case unary =>
    intro op n hn
    rcases hn with ⟨h, hc⟩ | ⟨h, hc⟩
    · by_cases hu : unaryOk op = true
      · refine .acc ⟨hu, h⟩ fun al buf => ?_
        unfold unaryOk at hu
        split at hu <;> simp_all [compileNode, gen, emit]
      · refine .rej (fun x => hu x.1) fun al buf => ?_
        unfold unaryOk at hu
        split at hu <;> simp_all [compileNode]
    · exact .rej (fun x => h x.2) fun al buf => by
        obtain ⟨e, he⟩ := hc al buf; exact ⟨e, by simp [compileNode, he]⟩
  case binary =>
    intro op l r hl hr
    cases hs : scJump op with
    | some j =>
      rcases hl with ⟨h, hc⟩ | ⟨h, hc⟩
      · rcases hr with ⟨h', hc'⟩ | ⟨h', hc'⟩
        · refine .acc ⟨by simp [binaryOk, hs], h, h'⟩ fun al buf => ?_
          simp only [compileNode, hs, hc, hc', emit, gen]
          rw [patch_eq (buf ++ gen al l) (.jump j 0) (.pop :: gen al r) (by simp) (by simp; omega)]
          simp
          omega
        · exact .rej (fun x => h' x.2.2) fun al buf => by
            obtain ⟨e, he⟩ := hc' al (emit (emit (buf ++ gen al l) (.jump j 0)) .pop)
            exact ⟨e, by simp only [compileNode, hs, hc, he]⟩
      · exact .rej (fun x => h x.2.1) fun al buf => by
          obtain ⟨e, he⟩ := hc al buf; exact ⟨e, by simp [compileNode, hs, he]⟩
    | none =>
      cases hb : binOps op with
      | none => exact .rej (fun x => by simp [Accepts, binaryOk, hs, hb] at x) fun al buf =>
          ⟨.unknownBinary, by simp only [compileNode, hs, hb]⟩
      | some ops =>
        rcases hl with ⟨h, hc⟩ | ⟨h, hc⟩
        · rcases hr with ⟨h', hc'⟩ | ⟨h', hc'⟩
          · exact .acc ⟨by simp [binaryOk, hb], h, h'⟩ fun al buf => by
              simp [compileNode, hs, hb, hc, hc', gen]
          · exact .rej (fun x => h' x.2.2) fun al buf => by
              obtain ⟨e, he⟩ := hc' al (buf ++ gen al l)
              exact ⟨e, by simp only [compileNode, hs, hb, hc, he]⟩
        · exact .rej (fun x => h x.2.1) fun al buf => by
            obtain ⟨e, he⟩ := hc al buf; exact ⟨e, by simp [compileNode, hs, hb, he]⟩
  case call =>
    intro f as ih
    by_cases ha : arityOk as.length (B.fnArity f) = true
    · have hso : ∃ x, B.fnArity f = some x := by
        cases h : B.fnArity f with
        | none => simp [arityOk, h] at ha
        | some x => exact ⟨x, rfl⟩
      obtain ⟨x, hx⟩ := hso
      rcases compileList_spec B as ih with ⟨h, hc⟩ | ⟨h, hc⟩
      · exact .acc ⟨ha, h⟩ fun al buf => by
          rw [hx] at ha
          simp [compileNode, hx, ha, hc, gen, emit]
      · exact .rej (fun x => h x.2) fun al buf => by
          rw [hx] at ha
          obtain ⟨e, he⟩ := hc al buf; exact ⟨e, by simp [compileNode, hx, ha, he]⟩
    · refine .rej (fun x => ha x.1) fun al buf => ?_
      cases hx : B.fnArity f with
      | none => exact ⟨.unknownFunction, by simp only [compileNode, hx]⟩
      | some x => rw [hx] at ha; exact ⟨.invalidCall, by simp [compileNode, hx, ha]⟩
  case method =>
    intro m t as iht ih
    rcases iht with ⟨h, hc⟩ | ⟨h, hc⟩
    · by_cases ha : arityOk (as.length + 1) (B.mArity m) = true
      · have hso : ∃ x, B.mArity m = some x := by
          cases h : B.mArity m with
          | none => simp [arityOk, h] at ha
          | some x => exact ⟨x, rfl⟩
        obtain ⟨x, hx⟩ := hso
        rcases compileList_spec B as ih with ⟨h', hc'⟩ | ⟨h', hc'⟩
        · exact .acc ⟨ha, h, h'⟩ fun al buf => by
            rw [hx] at ha
            simp [compileNode, hx, ha, hc, hc', gen, emit]
        · exact .rej (fun x => h' x.2.2) fun al buf => by
            rw [hx] at ha
            obtain ⟨e, he⟩ := hc' al (buf ++ gen al t)
            exact ⟨e, by simp only [compileNode, hx, ha, hc, he, if_true]⟩
      · refine .rej (fun x => ha x.1) fun al buf => ?_
        cases hx : B.mArity m with
        | none => exact ⟨.unknownFunction, by simp only [compileNode, hx]⟩
        | some x => rw [hx] at ha; exact ⟨.invalidMethodCall, by simp [compileNode, hx, ha, hc]⟩
    · refine .rej (fun x => h x.2.1) fun al buf => ?_
      cases hx : B.mArity m with
      | none => exact ⟨.unknownFunction, by simp only [compileNode, hx]⟩
      | some x => obtain ⟨e, he⟩ := hc al buf; exact ⟨e, by simp [compileNode, hx, he]⟩
  case closure =>
    intro k o a b ho hb
    rcases ho with ⟨h, hc⟩ | ⟨h, hc⟩
    · rcases hb with ⟨h', hc'⟩ | ⟨h', hc'⟩
      · exact .acc ⟨h, h'⟩ (compileNode_closure_ok B k o a b hc hc')
      · exact .rej (fun x => h' x.2) (compileNode_closure_err B k o a b hc hc')
    · exact .rej (fun x => h x.1) fun al buf => by
        obtain ⟨e, he⟩ := hc al buf; exact ⟨e, by simp [compileNode, he]⟩

theorem compileNode_gen {B : Builtins} {n : Node} {al : List (Option String)} {buf code : List Op}
    (h : compileNode B al n buf = .ok code) : Accepts B n ∧ code = buf ++ gen al n := by
  rcases compSpec B n with ⟨ha, hc⟩ | ⟨ha, hc⟩
  · rw [hc] at h; cases h; exact ⟨ha, rfl⟩
  · obtain ⟨e, he⟩ := hc al buf; rw [he] at h; cases h

end Zen
