import Verif.Types.Firm
/-
Accepted expressions do not fail on the types of their operands (helper of Props/C62).
-/
namespace Zen
namespace Ty
open VT

theorem excusable_call (op name : String) (h : op = "CallFunction" ∨ op = "CallMethod") (e : BErr) :
    Excusable (callErr op name e) := by
  cases e with
  | err m => rcases h with rfl | rfl; exacts [.function m, .method m]
  | panic => exact .panic _

theorem excusable_fetch {a b : Val} {e : VErr} (h : opFetch a b = .error e) : Excusable e := by
  unfold opFetch at h
  split at h
  · cases h
  · split at h <;> cases h; exact .index
  · split at h <;> cases h; exact .index
  · cases h

theorem only_number {t : VT} (h : sat t .number = true) (hne : t ≠ .any) : t = .number := by
  cases t <;> simp [sat] at h hne ⊢

theorem only_bool {t : VT} (h : sat t .bool = true) (hne : t ≠ .any) : t = .bool := by
  cases t <;> simp [sat] at h hne ⊢

theorem excusable_slice {tc : VT} {c t f : Val} (hc : Inh tc c) (hk : (sliceKind tc).bad = false) (hne : tc ≠ .any)
    (ht : ∃ x, t = .num x) (hf : ∃ x, f = .num x) {e : VErr} (h : opSlice c t f = .error e) : Excusable e := by
  obtain ⟨t, rfl⟩ := ht
  obtain ⟨f, rfl⟩ := hf
  simp only [opSlice] at h
  split at h
  · cases h; exact .from_
  split at h
  · cases h; exact .to
  have hc' : (∃ xs, c = .arr xs) ∨ ∃ s, c = .str s := by
    cases tc <;> simp [sliceKind, widen, Inh] at hk hc hne
    · obtain ⟨s, rfl⟩ := hc; exact .inr ⟨_, rfl⟩
    · obtain ⟨s, rfl, _⟩ := hc; exact .inl ⟨_, rfl⟩
    · exact .inr ⟨_, hc⟩
    · obtain ⟨s, _, rfl⟩ := hc; exact .inr ⟨_, rfl⟩
  rcases hc' with ⟨xs, rfl⟩ | ⟨s, rfl⟩
  · dsimp only at h
    split at h <;> cases h
    exact .range
  · dsimp only at h
    split at h <;> cases h
    exact .range

theorem len_slice {tc : VT} {c : Val} (hc : Inh tc c) (hk : (sliceKind tc).bad = false) (hne : tc ≠ .any) :
    ∃ x, opLen c = .ok (.num x) := by
  cases tc <;> simp [sliceKind, widen, Inh] at hk hc hne
  · obtain ⟨s, rfl⟩ := hc; exact ⟨_, rfl⟩
  · obtain ⟨s, rfl, _⟩ := hc; exact ⟨_, rfl⟩
  · subst hc; exact ⟨_, rfl⟩
  · obtain ⟨s, _, rfl⟩ := hc; exact ⟨_, rfl⟩

theorem excusable_in {tl tr : VT} {a b : Val} (ha : Inh tl a) (hb : Inh tr b) (hl : searchable tl = true)
    (hr : tr ≠ .any) (hk : (inKind tl tr).bad = false) :
    (∃ x, opIn a b = .ok (.bool x)) ∨ ∃ e, opIn a b = .error e ∧ Excusable e := by
  have scalar : ∀ t : VT, searchable t = true → Inh t a →
      a = .null ∨ (∃ x, a = .bool x) ∨ (∃ x, a = .num x) ∨ ∃ x, a = .str x := by
    intro t
    induction t using VT.ind with
    | nullable t ih => intro h1 h2; simp only [Inh] at h2; rcases h2 with h2 | h2; exacts [.inl h2, ih h1 h2]
    | null => intro _ h; exact .inl h
    | bool => intro _ h; exact .inr (.inl h)
    | number => intro _ h; exact .inr (.inr (.inl h))
    | string => intro _ h; exact .inr (.inr (.inr h))
    | const c => intro _ h; exact .inr (.inr (.inr ⟨_, h⟩))
    | enum n vs => intro _ h; obtain ⟨s, _, h⟩ := h; exact .inr (.inr (.inr ⟨s, h⟩))
    | _ => intro h; simp [searchable] at h
  have arr : ∀ xs, b = .arr xs → ∃ x, opIn a b = .ok (.bool x) := by
    rintro xs rfl
    rcases scalar tl hl ha with rfl | ⟨x, rfl⟩ | ⟨x, rfl⟩ | ⟨x, rfl⟩ <;> exact ⟨_, rfl⟩
  cases tr <;> simp [Inh] at hb hr
  case arr t => obtain ⟨xs, hb, _⟩ := hb; exact .inl (arr xs hb)
  all_goals
    cases tl <;> simp [inKind, widen, searchable, Inh] at hk hl ha
  case interval.number =>
    obtain ⟨lb, rb, l, r, rfl⟩ := hb
    obtain ⟨x, rfl⟩ := ha
    simp only [opIn, opIncludes]
    split
    · exact .inl ⟨_, rfl⟩
    · exact .inr ⟨_, rfl, .bracket⟩
  case obj.string => obtain ⟨m, rfl, _⟩ := hb; obtain ⟨x, rfl⟩ := ha; exact .inl ⟨_, rfl⟩
  case obj.const => obtain ⟨m, rfl, _⟩ := hb; subst ha; exact .inl ⟨_, rfl⟩
  case obj.enum => obtain ⟨m, rfl, _⟩ := hb; obtain ⟨x, _, rfl⟩ := ha; exact .inl ⟨_, rfl⟩

/-- the operators that need their operands to have certain types -/
theorem excusable_num (N : NumOps) {op : Oper} {f : Val → Val → Except VErr Val} (hf : binMeaning N op = some f)
    {tl tr : VT} {a b : Val} {same : VT → VT → Bool} (hbad : (binKind same op tl tr).bad = false) {e : VErr}
    (ha : Inh tl a) (hb : Inh tr b) (hl : tl ≠ .any) (hr : tr ≠ .any)
    (hop : (∃ o, op = .arith o) ∨ ((tl ≠ .date ∧ tr ≠ .date) ∧ (op = .cmp .lt ∨ op = .cmp .le ∨ op = .cmp .gt ∨ op = .cmp .ge)))
    (h : f a b = .error e) : Excusable e := by
  have num : ∀ {t : VT} {v : Val}, numLike t = true → t ≠ .any → Inh t v → ∃ x, v = .num x := by
    intro t v h1 h2 h3
    cases t <;> simp [numLike, Inh] at h1 h2 h3
    exact h3
  have str : ∀ {t : VT} {v : Val}, widen t = .string → Inh t v → ∃ x, v = .str x := by
    intro t v h1 h3
    cases t <;> simp [widen, Inh] at h1 h3
    · exact h3
    · exact ⟨_, h3⟩
    · obtain ⟨s, _, h⟩ := h3; exact ⟨s, h⟩
  rcases hop with ⟨o, rfl⟩ | ⟨⟨dl, dr⟩, ho⟩
  · by_cases hadd : o = .add
    · subst hadd
      simp only [binMeaning, Option.some.injEq] at hf
      subst hf
      simp only [binKind] at hbad
      have : (numLike tl = true ∧ numLike tr = true) ∨ (widen tl = .string ∧ widen tr = .string) := by
        revert hbad
        cases tl <;> cases tr <;> simp [addKind, widen, numLike] at hl hr ⊢
      rcases this with ⟨h1, h2⟩ | ⟨h1, h2⟩
      · obtain ⟨x, rfl⟩ := num h1 hl ha
        obtain ⟨y, rfl⟩ := num h2 hr hb
        simp only [opAdd] at h
        split at h <;> cases h
        exact .add
      · obtain ⟨x, rfl⟩ := str h1 ha
        obtain ⟨y, rfl⟩ := str h2 hb
        simp only [opAdd] at h
        cases h
    · have : numLike tl = true ∧ numLike tr = true := by
        revert hbad
        cases o <;> first | exact absurd rfl hadd | (simp only [binKind]; split <;> simp_all)
      obtain ⟨x, rfl⟩ := num this.1 hl ha
      obtain ⟨y, rfl⟩ := num this.2 hr hb
      cases o <;> simp only [binMeaning, Option.some.injEq] at hf <;> first | exact absurd rfl hadd | skip
      all_goals
        subst hf
        first | simp only [opSub] at h | simp only [opMul] at h | simp only [opPow] at h | simp only [opDiv] at h | simp only [opMod] at h
      · split at h <;> cases h; exact .subtract
      · split at h <;> cases h; exact .multiply
      · cases h
      · cases h
      · split at h <;> cases h; exact .exponent
  · have : numLike tl = true ∧ numLike tr = true := by
      revert hbad
      rcases ho with rfl | rfl | rfl | rfl <;> simp only [binKind] <;> cases tl <;> cases tr <;>
        simp [dateLike, numLike] at hl hr dl dr ⊢
    obtain ⟨x, rfl⟩ := num this.1 hl ha
    obtain ⟨y, rfl⟩ := num this.2 hr hb
    rcases ho with rfl | rfl | rfl | rfl <;> simp only [binMeaning, Option.some.injEq] at hf <;> subst hf <;>
      simp only [opCompare] at h <;> cases h

section
variable (L : Fn.Lib) (D : Dec.Rounding) (checks : Bool) (DL : Fn.DLib) (num : NumOps)
  (mArity : String → Option (Nat × Nat)) (method : String → List Val → Except BErr Val) (same : VT → VT → Bool)

local notation "B" => Fn.builtins L D checks DL num mArity method

/-- what the checker promises about the failures of one expression -/
def Prog (n : Node) : Prop := ∀ (sc : TScope) (inC : Bool) (fr : Frames) (root env : Scope), sc.WF → Fits sc env →
  FrFits sc fr → (inC = true → fr ≠ []) → NoAssign n → (root = env ∨ Avoids [] n) → Accepts B n →
  (determine true same sc n).bad = false → Firm same sc inC n →
  ∀ e, eval B root fr env n = .error e → Excusable e

variable {L D checks DL num mArity method same}

theorem strOf_ok {v s : Val} (h : strOf B v = .ok s) : ∃ t, s = .str t := by
  have e : Fn.Name.ofText "string" = some .string := by decide +kernel
  simp only [strOf, Fn.builtins, e] at h
  split at h <;> cases h
  rename_i h
  exact call_fixed h

theorem strOf_error {v : Val} {e : VErr} (h : strOf B v = .error e) : Excusable e := by
  unfold strOf at h
  split at h <;> cases h
  exact excusable_call _ _ (.inl rfl) _

theorem prog_list {ns : List Node} (ih : ∀ n ∈ ns, Prog L D checks DL num mArity method same n)
    {sc : TScope} {inC : Bool} {fr : Frames} {root : Scope} (hw : sc.WF) (hfr : FrFits sc fr) (hin : inC = true → fr ≠ []) :
    ∀ {env : Scope}, Fits sc env → NoAssignL ns → (root = env ∨ AvoidsL [] ns) → AcceptsL B ns →
      (detList true same sc ns).2 = false → FirmL same sc inC ns →
      ∀ e, evalList B root fr env ns = .error e → Excusable e := by
  induction ns with
  | nil => intro env _ _ _ _ _ _ e h; simp only [evalList] at h; cases h
  | cons n ns ihl =>
    intro env hf hn ha hac hb hs e h
    simp only [detList, Bool.or_eq_false_iff] at hb
    simp only [evalList] at h
    split at h
    · rename_i h1
      cases h
      exact ih n List.mem_cons_self sc inC fr root _ hw hf hfr hin hn.1 (ha.imp_right And.left) hac.1 hb.1 hs.1 _ h1
    · rename_i v env1 h1
      have e1 := keep hn.1 h1
      subst e1
      split at h
      · rename_i h2
        cases h
        exact ihl (fun m hm => ih m (List.mem_cons_of_mem _ hm)) hf hn.2 (ha.imp_right And.right) hac.2 hb.2 hs.2 _ h2
      · cases h

theorem evalTmpl_strs {ns : List Node} {fr : Frames} {root : Scope} : ∀ {env env' : Scope} {vs : List Val},
    evalTmpl B root fr env ns = .ok (vs, env') → ∃ ss, allStrs vs = some ss := by
  induction ns with
  | nil => intro env env' vs h; simp only [evalTmpl] at h; cases h; exact ⟨[], rfl⟩
  | cons n ns ih =>
    intro env env' vs h
    simp only [evalTmpl] at h
    split at h
    · cases h
    split at h
    · cases h
    rename_i h2
    split at h
    · cases h
    rename_i h3
    cases h
    obtain ⟨t, rfl⟩ := strOf_ok h2
    obtain ⟨ss, h4⟩ := ih h3
    exact ⟨t :: ss, by simp [allStrs, h4]⟩

theorem prog_tmpl {ns : List Node} (ih : ∀ n ∈ ns, Prog L D checks DL num mArity method same n)
    {sc : TScope} {inC : Bool} {fr : Frames} {root : Scope} (hw : sc.WF) (hfr : FrFits sc fr) (hin : inC = true → fr ≠ []) :
    ∀ {env : Scope}, Fits sc env → NoAssignL ns → (root = env ∨ AvoidsL [] ns) → AcceptsL B ns →
      (detList true same sc ns).2 = false → FirmL same sc inC ns →
      ∀ e, evalTmpl B root fr env ns = .error e → Excusable e := by
  induction ns with
  | nil => intro env _ _ _ _ _ _ e h; simp only [evalTmpl] at h; cases h
  | cons n ns ihl =>
    intro env hf hn ha hac hb hs e h
    simp only [detList, Bool.or_eq_false_iff] at hb
    simp only [evalTmpl] at h
    split at h
    · rename_i h1
      cases h
      exact ih n List.mem_cons_self sc inC fr root _ hw hf hfr hin hn.1 (ha.imp_right And.left) hac.1 hb.1 hs.1 _ h1
    · rename_i v env1 h1
      have e1 := keep hn.1 h1
      subst e1
      split at h
      · rename_i h2
        cases h
        exact strOf_error h2
      split at h
      · rename_i h2
        cases h
        exact ihl (fun m hm => ih m (List.mem_cons_of_mem _ hm)) hf hn.2 (ha.imp_right And.right) hac.2 hb.2 hs.2 _ h2
      · cases h

theorem prog_obj {kvs : List (Node × Node)} {sc : TScope} {inC : Bool} {fr : Frames} {root : Scope}
    (ih : ∀ p ∈ kvs, Prog L D checks DL num mArity method same p.1 ∧ Prog L D checks DL num mArity method same p.2)
    (hw : sc.WF) (hfr : FrFits sc fr) (hin : inC = true → fr ≠ []) : ∀ {env : Scope} {acc : List (String × VT)},
      Fits sc env → NoAssignP kvs → (root = env ∨ AvoidsP [] kvs) → AcceptsP B kvs →
      (detObj true same sc acc kvs).2 = false → FirmP same sc inC kvs →
      ∀ e, evalObj B root fr env kvs = .error e → Excusable e := by
  induction kvs with
  | nil => intro env acc _ _ _ _ _ _ e h; simp only [evalObj] at h; cases h
  | cons kv r ihl =>
    obtain ⟨kn, vn⟩ := kv
    intro env acc hf hn ha hac hb hs e h
    simp only [FirmP] at hs
    obtain ⟨c, hc⟩ := Option.isSome_iff_exists.1 hs.1.2
    simp only [detObj, hc, Bool.or_eq_false_iff] at hb
    simp only [evalObj] at h
    split at h
    · rename_i h1
      cases h
      exact (ih (kn, vn) List.mem_cons_self).1 sc inC fr root _ hw hf hfr hin hn.1 (ha.imp_right And.left) hac.1 hb.1.1 hs.1.1 _ h1
    rename_i kv env1 h1
    have e1 := keep hn.1 h1
    subst e1
    split at h
    · rename_i h2
      cases h
      exact strOf_error h2
    rename_i h2
    obtain ⟨t, rfl⟩ := strOf_ok h2
    split at h
    · rename_i h3
      cases h
      exact (ih (kn, vn) List.mem_cons_self).2 sc inC fr root _ hw hf hfr hin hn.2.1 (ha.imp_right fun h => h.2.1) hac.2.1 hb.1.2 hs.2.1 _ h3
    rename_i x env2 h3
    have e2 := keep hn.2.1 h3
    subst e2
    split at h
    · rename_i h4
      cases h
      exact ihl (fun p hp => ih p (List.mem_cons_of_mem _ hp)) hf hn.2.2 (ha.imp_right fun h => h.2.2) hac.2.2 hb.2 hs.2.2 _ h4
    cases h

/-! ### Loops -/

theorem loopMap_error {f : Val → Scope → Res} (hk : ∀ x env r, f x env = .ok r → r.2 = env) {xs : List Val} :
    ∀ {env : Scope} {e : VErr}, loopMap f xs env = .error e → ∃ x ∈ xs, f x env = .error e := by
  induction xs with
  | nil => intro env e h; cases h
  | cons x xs ih =>
    intro env e h
    simp only [loopMap] at h
    split at h
    · rename_i h1; cases h; exact ⟨x, List.mem_cons_self, h1⟩
    rename_i v env1 h1
    have e1 : env1 = env := hk _ _ _ h1
    subst e1
    split at h
    · rename_i h2
      cases h
      obtain ⟨y, hy, h⟩ := ih h2
      exact ⟨y, List.mem_cons_of_mem _ hy, h⟩
    · cases h

/-- a loop over a boolean body fails only when the body does -/
theorem loopBool_error {f : Val → Scope → Res} (hk : ∀ x env r, f x env = .ok r → r.2 = env) {xs : List Val} {env : Scope}
    (hb : ∀ x ∈ xs, ∀ r, f x env = .ok r → ∃ b, r.1 = .bool b) {e : VErr} :
    (loopAll f xs env = .error e → ∃ x ∈ xs, f x env = .error e) ∧
    (loopSome f xs env = .error e → ∃ x ∈ xs, f x env = .error e) ∧
    (loopNone f xs env = .error e → ∃ x ∈ xs, f x env = .error e) ∧
    (loopFilter f xs env = .error e → ∃ x ∈ xs, f x env = .error e) := by
  induction xs with
  | nil => refine ⟨?_, ?_, ?_, ?_⟩ <;> intro h <;> cases h
  | cons x xs ih =>
    have ih := ih fun y hy => hb y (List.mem_cons_of_mem _ hy)
    have up : (∃ y ∈ xs, f y env = .error e) → ∃ y ∈ x :: xs, f y env = .error e :=
      fun ⟨y, hy, h⟩ => ⟨y, List.mem_cons_of_mem _ hy, h⟩
    have hx := hb x List.mem_cons_self
    simp only [loopAll, loopSome, loopNone, loopFilter]
    cases hfx : f x env with
    | error e' =>
      refine ⟨?_, ?_, ?_, ?_⟩ <;> intro h <;> cases h <;> exact ⟨x, List.mem_cons_self, hfx⟩
    | ok r =>
      obtain ⟨v, env1⟩ := r
      have e1 : env1 = env := hk _ _ _ hfx
      subst e1
      obtain ⟨b, hv⟩ := hx _ hfx
      dsimp only at hv
      subst hv
      cases b
      · exact ⟨fun h => (by cases h), fun h => up (ih.2.1 h), fun h => up (ih.2.2.1 h), fun h => up (ih.2.2.2 h)⟩
      · refine ⟨fun h => up (ih.1 h), fun h => (by cases h), fun h => (by cases h), fun h => ?_⟩
        dsimp only at h
        split at h
        · rename_i h2; cases h; exact up (ih.2.2.2 h2)
        · cases h

theorem exceptMap_error {α β ε : Type} {f : α → β} {x : Except ε α} {e : ε} (h : x.map f = .error e) : x = .error e := by
  cases x with
  | error e' => cases h; rfl
  | ok a => cases h

/-- An accepted expression does not fail on the types of its operands. -/
theorem progress (hm : MethodsTyped method) (hs : ∀ a b, same a b = true → a = b) (hc : ∀ a b, same a b = same b a)
    (n : Node) : Prog L D checks DL num mArity method same n := by
  refine Node.ind (P := Prog L D checks DL num mArity method same)
    ?null ?bool ?num ?str ?tmpl ?pointer ?arr ?obj ?assigns ?ident ?paren ?root ?member ?slice
    ?interval ?cond ?unary ?binary ?call ?closure ?method ?error n
  case null => intro sc inC fr root env _ _ _ _ _ _ _ _ _ e h; simp only [eval] at h; cases h
  case bool => intro b sc inC fr root env _ _ _ _ _ _ _ _ _ e h; simp only [eval] at h; cases h
  case num => intro b sc inC fr root env _ _ _ _ _ _ _ _ _ e h; simp only [eval] at h; cases h
  case str => intro b sc inC fr root env _ _ _ _ _ _ _ _ _ e h; simp only [eval] at h; cases h
  case root => intro sc inC fr root env _ _ _ _ _ _ _ _ _ e h; simp only [eval] at h; cases h
  case pointer =>
    intro sc inC fr root env _ _ _ hin _ _ _ _ hfm e h
    simp only [Firm] at hfm
    cases fr with
    | nil => exact absurd rfl (hin hfm)
    | cons x fr => simp only [eval] at h; cases h
  case tmpl =>
    intro ps ih sc inC fr root env hw hf hfr hin hn ha hac hb hfm e h
    simp only [eval] at h
    split at h
    · rename_i h1
      cases h
      exact prog_tmpl ih hw hfr hin hf hn ha hac hb hfm _ h1
    rename_i vs env1 h1
    split at h
    · rename_i h2
      cases h
      obtain ⟨ss, hss⟩ := evalTmpl_strs h1
      simp only [opJoin, hss] at h2
      split at h2
      · split at h2 <;> cases h2
        exact .panic _
      · cases h2
      · rename_i h3; cases h3
    · cases h
  case arr =>
    intro ps ih sc inC fr root env hw hf hfr hin hn ha hac hb hfm e h
    simp only [eval] at h
    split at h
    · rename_i h1
      cases h
      exact prog_list ih hw hfr hin hf hn ha hac hb hfm _ h1
    · cases h
  case obj =>
    intro kvs ih sc inC fr root env hw hf hfr hin hn ha hac hb hfm e h
    simp only [eval] at h
    split at h
    · rename_i h1
      cases h
      exact prog_obj ih hw hfr hin hf hn ha hac hb hfm _ h1
    · cases h
  case assigns => intro kvs o _ _ sc inC fr root env _ _ _ _ hn; simp [NoAssign] at hn
  case ident =>
    intro s sc inC fr root env _ hf _ _ _ _ _ _ _ e h
    simp only [eval, (inh_ident hf s).2] at h
    split at h <;> cases h
  case paren =>
    intro n ih sc inC fr root env hw hf hfr hin hn ha hac hb hfm e h
    exact ih sc inC fr root env hw hf hfr hin hn ha hac hb hfm e h
  case member =>
    intro n p ihn ihp sc inC fr root env hw hf hfr hin hn ha hac hb hfm e h
    simp only [determine, Bool.or_eq_false_iff] at hb
    simp only [Firm] at hfm
    simp only [eval] at h
    split at h
    · cases h
    split at h
    · rename_i h1
      cases h
      exact ihn sc inC fr root _ hw hf hfr hin hn.1 (ha.imp_right And.left) hac.1 hb.1.1 hfm.1 _ h1
    rename_i a env1 h1
    have e1 := keep hn.1 h1
    subst e1
    split at h
    · rename_i h2
      cases h
      exact ihp sc inC fr root _ hw hf hfr hin hn.2 (ha.imp_right And.right) hac.2 hb.1.2 hfm.2 _ h2
    split at h
    · rename_i h3; cases h; exact excusable_fetch h3
    · cases h
  case slice =>
    intro n f t ihn ihf iht sc inC fr root env hw hf hfr hin hn ha hac hb hfm e h
    simp only [determine, Bool.or_eq_false_iff] at hb
    simp only [Firm] at hfm
    have idx : ∀ {o : Option Node}, (∀ m, o = some m → Prog L D checks DL num mArity method same m) → NoAssignO o →
        (root = env ∨ AvoidsO [] o) → AcceptsO B o → detIdx true same sc o = false → FirmI same sc inC o → ∀ m, o = some m →
        (∀ e, eval B root fr env m = .error e → Excusable e) ∧
        ∀ v env', eval B root fr env m = .ok (v, env') → env' = env ∧ ∃ x, v = .num x := by
      rintro o ih hn ha hac hb hfm m rfl
      simp only [detIdx, Bool.or_eq_false_iff, Bool.not_eq_false'] at hb
      simp only [FirmI] at hfm
      refine ⟨ih m rfl sc inC fr root _ hw hf hfr hin hn ha hac hb.1 hfm.1, fun v env' h => ⟨keep hn h, ?_⟩⟩
      have := (sound hm hs hc m sc fr root _ hw hf hfr hn ha hb.1 hfm.2.1).1 _ _ h
      rw [only_number hb.2 hfm.2.2] at this
      exact this
    simp only [eval] at h
    split at h
    · rename_i h1
      cases h
      exact ihn sc inC fr root _ hw hf hfr hin hn.1 (ha.imp_right And.left) hac.1 hb.1.1.1 hfm.1.1 _ h1
    rename_i c env1 h1
    have e1 := keep hn.1 h1
    subst e1
    have hcv := (sound hm hs hc n sc fr root _ hw hf hfr hn.1 (ha.imp_right And.left) hb.1.1.1 hfm.1.2.1).1 _ _ h1
    have idt := idx iht hn.2.2 (ha.imp_right fun h => h.2.2) hac.2.2 hb.1.2 hfm.2.2
    have idf := idx ihf hn.2.1 (ha.imp_right fun h => h.2.1) hac.2.1 hb.1.1.2 hfm.2.1
    have to_ : ∀ r, evalTo B root fr env1 c t = r →
        (∀ e, r = .error e → Excusable e) ∧ ∀ v env', r = .ok (v, env') → env' = env1 ∧ ∃ x, v = .num x := by
      rintro r rfl
      cases t with
      | some m => simp only [evalTo]; exact idt m rfl
      | none =>
        obtain ⟨x, hx⟩ := len_slice hcv hb.2 hfm.1.2.2
        simp only [evalTo, hx, opSub]
        cases (Fn.builtins L D checks DL num mArity method).num.sub x 1 with
        | none => exact ⟨fun e h => (by cases h; exact .subtract), fun v env' h => (by cases h)⟩
        | some y => exact ⟨fun e h => (by cases h), fun v env' h => by cases h; exact ⟨rfl, _, rfl⟩⟩
    have from_ : ∀ r, evalOpt B root fr env1 (.num 0) f = r →
        (∀ e, r = .error e → Excusable e) ∧ ∀ v env', r = .ok (v, env') → env' = env1 ∧ ∃ x, v = .num x := by
      rintro r rfl
      cases f with
      | some m => simp only [evalOpt]; exact idf m rfl
      | none => simp only [evalOpt]; exact ⟨fun e h => (by cases h), fun v env' h => by cases h; exact ⟨rfl, _, rfl⟩⟩
    split at h
    · rename_i h2
      cases h
      exact (to_ _ h2).1 _ rfl
    rename_i tv env2 h2
    obtain ⟨rfl, ht⟩ := (to_ _ h2).2 _ _ rfl
    split at h
    · rename_i h3
      cases h
      exact (from_ _ h3).1 _ rfl
    rename_i fv env3 h3
    obtain ⟨rfl, hfv⟩ := (from_ _ h3).2 _ _ rfl
    split at h
    · rename_i h4
      cases h
      exact excusable_slice hcv hb.2 hfm.1.2.2 ht hfv h4
    · cases h
  case interval =>
    intro l r lb rb ihl ihr sc inC fr root env hw hf hfr hin hn ha hac hb hfm e h
    simp only [determine, Bool.or_eq_false_iff] at hb
    simp only [Firm] at hfm
    simp only [eval] at h
    split at h
    · rename_i h1
      cases h
      exact ihl sc inC fr root _ hw hf hfr hin hn.1 (ha.imp_right And.left) hac.1 hb.1.1.1 hfm.1.1 _ h1
    rename_i a env1 h1
    have e1 := keep hn.1 h1
    subst e1
    have hav := (sound hm hs hc l sc fr root _ hw hf hfr hn.1 (ha.imp_right And.left) hb.1.1.1 hfm.1.2.1).1 _ _ h1
    split at h
    · rename_i h2
      cases h
      exact ihr sc inC fr root _ hw hf hfr hin hn.2 (ha.imp_right And.right) hac.2 hb.1.1.2 hfm.2.1 _ h2
    rename_i b env2 h2
    have hbv := (sound hm hs hc r sc fr root _ hw hf hfr hn.2 (ha.imp_right And.right) hb.1.1.2 hfm.2.2.1).1 _ _ h2
    rw [only_number hfm.1.2.2.1 hfm.1.2.2.2] at hav
    rw [only_number hfm.2.2.2.1 hfm.2.2.2.2] at hbv
    obtain ⟨x, rfl⟩ := hav
    obtain ⟨y, rfl⟩ := hbv
    simp only [opInterval] at h
    cases h
  case cond =>
    intro c t f ihc iht ihf sc inC fr root env hw hf hfr hin hn ha hac hb hfm e h
    simp only [determine, Bool.or_eq_false_iff, Bool.not_eq_false'] at hb
    simp only [Firm] at hfm
    simp only [eval] at h
    split at h
    · rename_i h1
      cases h
      exact ihc sc inC fr root _ hw hf hfr hin hn.1 (ha.imp_right And.left) hac.1 hb.1.1.1 hfm.1.1 _ h1
    · rename_i env1 h1
      have e1 := keep hn.1 h1
      subst e1
      exact iht sc inC fr root _ hw hf hfr hin hn.2.1 (ha.imp_right fun h => h.2.1) hac.2.1 hb.1.1.2 hfm.2.1 _ h
    · rename_i env1 h1
      have e1 := keep hn.1 h1
      subst e1
      exact ihf sc inC fr root _ hw hf hfr hin hn.2.2 (ha.imp_right fun h => h.2.2) hac.2.2 hb.1.2 hfm.2.2 _ h
    · rename_i v env1 h2 h3 h1
      have := (sound hm hs hc c sc fr root _ hw hf hfr hn.1 (ha.imp_right And.left) hb.1.1.1 hfm.1.2.1).1 _ _ h1
      rw [only_bool hb.2 hfm.1.2.2] at this
      obtain ⟨b, rfl⟩ := this
      cases b
      · exact absurd rfl h3
      · exact absurd rfl h2
  case unary =>
    intro op n ih sc inC fr root env hw hf hfr hin hn ha hac hb hfm e h
    simp only [determine, Bool.or_eq_false_iff] at hb
    simp only [Firm] at hfm
    simp only [eval] at h
    split at h
    · rename_i h1
      cases h
      exact ih sc inC fr root _ hw hf hfr hin hn ha hac.2 hb.1 hfm.1 _ h1
    rename_i v env1 h1
    have hv : op ≠ .arith .add → Inh (determine true same sc n).kind v := fun hop => (sound hm hs hc n sc fr root _ hw hf hfr hn ha hb.1 (hfm.2 hop).1).1 _ _ h1
    split at h
    · cases h
    · have hk := hb.2
      simp only [unKind, Bool.not_eq_false'] at hk
      have hv := hv (by simp)
      rw [only_number hk (hfm.2 (by simp)).2] at hv
      obtain ⟨x, rfl⟩ := hv
      simp only [opNegate] at h
      cases h
    · have hk := hb.2
      simp only [unKind, Bool.not_eq_false'] at hk
      have hv := hv (by simp)
      rw [only_bool hk (hfm.2 (by simp)).2] at hv
      obtain ⟨x, rfl⟩ := hv
      simp only [opNot] at h
      cases h
    · rename_i n1 n2 n3
      have := hac.1
      unfold unaryOk at this
      split at this <;> simp_all
  case binary =>
    intro op l r ihl ihr sc inC fr root env hw hf hfr hin hn ha hac hb hfm e h
    simp only [determine, Bool.or_eq_false_iff] at hb
    simp only [Firm] at hfm
    have el := fun e h => ihl sc inC fr root _ hw hf hfr hin hn.1 (ha.imp_right And.left) hac.2.1 hb.1.1 hfm.1.1 e h
    have er := fun e h => ihr sc inC fr root _ hw hf hfr hin hn.2 (ha.imp_right And.right) hac.2.2 hb.1.2 hfm.1.2 e h
    have vl : Sure same sc l → ∀ v env', eval B root fr env l = .ok (v, env') → Inh (determine true same sc l).kind v :=
      fun hsu v env' h => (sound hm hs hc l sc fr root _ hw hf hfr hn.1 (ha.imp_right And.left) hb.1.1 hsu).1 v env' h
    have vr : Sure same sc r → ∀ v env', eval B root fr env r = .ok (v, env') → Inh (determine true same sc r).kind v :=
      fun hsu v env' h => (sound hm hs hc r sc fr root _ hw hf hfr hn.2 (ha.imp_right And.right) hb.1.2 hsu).1 v env' h
    have hk := hb.2
    have logic : ∀ {o : LOp}, op = .logic o → o ≠ .coalesce → ∀ v env', eval B root fr env l = .ok (v, env') → ∃ b, v = .bool b := by
      rintro o rfl ho v env' h
      have h2 : boolLike (determine true same sc l).kind = true ∧ Sure same sc l ∧ (determine true same sc l).kind ≠ .any := by
        revert hk
        cases o <;> first | exact absurd rfl ho | skip
        all_goals
          simp only [binKind]
          intro hk
          refine ⟨?_, hfm.2⟩
          split at hk
          · rename_i h; exact (Bool.and_eq_true_iff.1 h).1
          · cases hk
      have hv := vl h2.2.1 _ _ h
      generalize (determine true same sc l).kind = tl at *
      obtain ⟨h3, -, h4⟩ := h2
      cases tl <;> simp [boolLike] at h3 h4
      exact hv
    simp only [eval] at h
    split at h
    · split at h
      · rename_i h1; cases h; exact el _ h1
      · cases h
      · rename_i env1 h1
        have e1 := keep hn.1 h1
        subst e1
        exact er _ h
      · rename_i v env1 h2 h3 h1
        obtain ⟨b, rfl⟩ := logic rfl (by simp) _ _ h1
        cases b
        · exact absurd rfl h3
        · exact absurd rfl h2
    · split at h
      · rename_i h1; cases h; exact el _ h1
      · cases h
      · rename_i env1 h1
        have e1 := keep hn.1 h1
        subst e1
        exact er _ h
      · rename_i v env1 h2 h3 h1
        obtain ⟨b, rfl⟩ := logic rfl (by simp) _ _ h1
        cases b
        · exact absurd rfl h2
        · exact absurd rfl h3
    · split at h
      · rename_i h1; cases h; exact el _ h1
      · rename_i env1 h1
        have e1 := keep hn.1 h1
        subst e1
        exact er _ h
      · cases h
    · rename_i hor hand hco
      split at h
      · rename_i hnone
        exfalso
        have := hac.1
        cases op <;> rename_i o <;> cases o <;> simp [binMeaning] at hnone <;>
          first | exact hor rfl | exact hand rfl | exact hco rfl | (revert this; decide)
      rename_i f hfb
      split at h
      · rename_i h1; cases h; exact el _ h1
      rename_i a env1 h1
      have e1 := keep hn.1 h1
      subst e1
      split at h
      · rename_i h2; cases h; exact er _ h2
      rename_i b env2 h2
      split at h
      · rename_i e' h3
        cases h
        cases op with
        | arith o =>
          have hfm2 : (Sure same sc l ∧ (determine true same sc l).kind ≠ .any) ∧
            Sure same sc r ∧ (determine true same sc r).kind ≠ .any := by cases o <;> exact hfm.2
          exact excusable_num num hfb hk (vl hfm2.1.1 _ _ h1) (vr hfm2.2.1 _ _ h2) hfm2.1.2 hfm2.2.2 (.inl ⟨o, rfl⟩) h3
        | cmp o =>
          have cmp : (o = .lt ∨ o = .le ∨ o = .gt ∨ o = .ge) → Excusable e := by
            intro ho
            have hfm2 : (Sure same sc l ∧ (determine true same sc l).kind ≠ .any ∧ (determine true same sc l).kind ≠ .date) ∧
                Sure same sc r ∧ (determine true same sc r).kind ≠ .any ∧ (determine true same sc r).kind ≠ .date := by
              rcases ho with rfl | rfl | rfl | rfl <;> exact hfm.2
            exact excusable_num num hfb hk (vl hfm2.1.1 _ _ h1) (vr hfm2.2.1 _ _ h2) hfm2.1.2.1 hfm2.2.2.1
              (.inr ⟨⟨hfm2.1.2.2, hfm2.2.2.2⟩, by rcases ho with rfl | rfl | rfl | rfl <;> simp⟩) h3
          cases o with
          | eq => simp only [binMeaning, Option.some.injEq] at hfb; subst hfb; cases h3
          | ne =>
            simp only [binMeaning, Option.some.injEq] at hfb
            subst hfb
            have : ∃ x, opEqual a b = .bool x := by unfold opEqual; split <;> exact ⟨_, rfl⟩
            obtain ⟨x, hx⟩ := this
            simp only [hx, opNot] at h3
            cases h3
          | in_ =>
            simp only [binMeaning, Option.some.injEq] at hfb
            subst hfb
            rcases excusable_in (vl hfm.2.1.1 _ _ h1) (vr hfm.2.2.1 _ _ h2) hfm.2.1.2 hfm.2.2.2 hk with ⟨x, hx⟩ | ⟨e1, he1, hx⟩
            · rw [hx] at h3; cases h3
            · rw [he1] at h3; cases h3; exact hx
          | notIn =>
            simp only [binMeaning, Option.some.injEq] at hfb
            subst hfb
            rcases excusable_in (vl hfm.2.1.1 _ _ h1) (vr hfm.2.2.1 _ _ h2) hfm.2.1.2 hfm.2.2.2 hk with ⟨x, hx⟩ | ⟨e1, he1, hx⟩
            · simp only [hx, opNot] at h3; cases h3
            · simp only [he1] at h3; cases h3; exact hx
          | lt => exact cmp (by simp)
          | le => exact cmp (by simp)
          | gt => exact cmp (by simp)
          | ge => exact cmp (by simp)
        | _ => rename_i o; first | (cases o <;> simp [binMeaning] at hfb) | simp [binMeaning] at hfb
      · cases h
  case call =>
    intro f as ih sc inC fr root env hw hf hfr hin hn ha hac hb hfm e h
    simp only [determine, Bool.or_eq_false_iff] at hb
    simp only [Firm] at hfm
    simp only [eval] at h
    split at h
    · rename_i h1
      cases h
      exact prog_list ih hw hfr hin hf hn ha hac.2 hb.1 hfm _ h1
    split at h
    · cases h
      exact excusable_call _ _ (.inl rfl) _
    · cases h
  case method =>
    intro m t as iht ihas sc inC fr root env hw hf hfr hin hn ha hac hb hfm e h
    simp only [determine, Bool.or_eq_false_iff] at hb
    simp only [Firm] at hfm
    simp only [eval] at h
    split at h
    · rename_i h1
      cases h
      exact iht sc inC fr root _ hw hf hfr hin hn.1 (ha.imp_right And.left) hac.2.1 hb.1.1 hfm.1 _ h1
    rename_i a env1 h1
    have e1 := keep hn.1 h1
    subst e1
    split at h
    · rename_i h2
      cases h
      exact prog_list ihas hw hfr hin hf hn.2 (ha.imp_right And.right) hac.2.2 hb.1.2 hfm.2 _ h2
    split at h
    · cases h
      exact excusable_call _ _ (.inr rfl) _
    · cases h
  case closure =>
    intro k o al b iho ihb sc inC fr root env hw hf hfr hin hn ha hac hb hfm e h
    simp only [determine, Bool.or_eq_false_iff] at hb
    simp only [Firm] at hfm
    simp only [eval] at h
    split at h
    · rename_i h1
      cases h
      exact iho sc inC fr root _ hw hf hfr hin hn.1 (ha.imp_right And.left) hac.1 hb.1.1 hfm.1.1 _ h1
    rename_i x env1 h1
    have e1 := keep hn.1 h1
    subst e1
    have hk : (iterable (determine true same sc o).kind = true ∧ isNullable (determine true same sc o).kind = false) ∧
        (wantsBool k = true → sat (determine true same (sc.enter al (determine true same sc o).kind) b).kind .bool = true) := by
      have := hb.2
      cases k <;> simp only [closureKind, Bool.or_eq_false_iff, Bool.true_and, Bool.not_eq_false', wantsBool] at this <;>
        refine ⟨⟨this.1.1, this.1.2⟩, ?_⟩ <;> intro hw
      all_goals first | exact this.2 | cases hw
    have hx := (sound hm hs hc o sc fr root _ hw hf hfr hn.1 (ha.imp_right And.left) hb.1.1 hfm.1.2.1).1 _ _ h1
    have hx' : ∃ xs, x = .arr xs := by
      have h2 := hfm.1.2.2
      have h3 := hk.1
      generalize (determine true same sc o).kind = ty at *
      cases ty <;> simp [iterable, isNullable] at h2 h3
      obtain ⟨xs, hx, _⟩ := hx
      exact ⟨xs, hx⟩
    obtain ⟨xs, rfl⟩ := hx'
    simp only [opBegin] at h
    have elems := inh_begin (checks := checks) hx hk.1.1 hk.1.2 rfl
    have frf := fun y hy => hfr.enter al (t := (determine true same sc o).kind) (elems y hy)
    have wo := hw.enter al (determine_wf true same o sc hw)
    have hkeep : ∀ x env r, eval B root ((al, x) :: fr) env b = .ok r → r.2 = env :=
      fun x env r h => eval_keeps b hn.2 _ _ _ h
    have body : ∀ e, (∃ y ∈ xs, eval B root ((al, y) :: fr) env1 b = .error e) → Excusable e := by
      rintro e ⟨y, hy, he⟩
      exact ihb _ true _ root _ wo (hf.enter al _) (frf y hy) (fun _ => by simp) hn.2 (ha.imp_right And.right) hac.2
        hb.1.2 hfm.2.1 _ he
    have bool : wantsBool k = true → ∀ y ∈ xs, ∀ r, eval B root ((al, y) :: fr) env1 b = .ok r → ∃ z, r.1 = .bool z := by
      intro hwb y hy r he
      have hsu := hfm.2.2 hwb
      have := (sound hm hs hc b _ _ root _ wo (hf.enter al _) (frf y hy) hn.2 (ha.imp_right And.right) hb.1.2 hsu.1).1 _ _ he
      rw [only_bool (hk.2 hwb) hsu.2] at this
      exact this
    cases k <;> simp only [loopMeaning] at h <;> have h := exceptMap_error h
    case all => exact body _ ((loopBool_error hkeep (bool rfl)).1 h)
    case some => exact body _ ((loopBool_error hkeep (bool rfl)).2.1 h)
    case none => exact body _ ((loopBool_error hkeep (bool rfl)).2.2.1 h)
    case map => exact body _ (loopMap_error hkeep h)
    case flatMap => exact body _ (loopMap_error hkeep h)
    all_goals exact body _ ((loopBool_error hkeep (bool rfl)).2.2.2 h)
  case error => intro sc inC fr root env _ _ _ _ _ _ hac; simp [Accepts] at hac

/-! ### Assignments -/

theorem assign_ok {sc : TScope} {env : Scope} {c : String} {t : VT} {v acc : Val} (hw : sc.WF)
    (hf : Fits sc env) (hv : Inh t v) : ∃ r, opAssignStep (.str c) v env (some acc) = .ok r := by
  obtain ⟨o, ho, hi⟩ := hf.root
  obtain ⟨T', d', h1, h2, h3, h4⟩ := inh_dotInsert (splitDot c) (Reads.splitDot_ne c) hw.root ⟨o, ho⟩ hi hv
  rw [ho] at hi
  obtain ⟨fs, hm, _⟩ := hi
  have hb : ∃ m, env.base = .obj m := by
    unfold Scope.materialize at hm
    split at hm
    · exact ⟨_, hm⟩
    · cases hb : env.base with
      | obj m => exact ⟨m, rfl⟩
      | _ => rw [hb] at hm; simp at hm
  obtain ⟨m, hb⟩ := hb
  simp only [opAssignStep, hb]
  split
  · have : env.materialize.dotInsertDetached c v = some d' := h2
    rw [this]
    exact ⟨_, rfl⟩
  · exact ⟨_, rfl⟩

theorem prog_asg (hm : MethodsTyped method) (hs : ∀ a b, same a b = true → a = b) (hc : ∀ a b, same a b = same b a)
    (list : List (Node × Node)) : ∀ {sc : TScope} {fr : Frames} {root env : Scope} {acc : List (String × VT)}
      {a : Val}, sc.WF → Fits sc env → FrFits sc fr → SureAsg same sc list → FirmAsg same sc list → AcceptsP B list →
      (detAsg true same sc acc list).2.2 = false → ∀ e, evalAsg B root fr env a list = .error e → Excusable e := by
  induction list with
  | nil => intro sc fr root env acc a _ _ _ _ _ _ _ e h; simp only [evalAsg] at h; cases h
  | cons kv r ih =>
    obtain ⟨k, v⟩ := kv
    intro sc fr root env acc a hw hf hfr hsu hfm hac hb e h
    simp only [SureAsg] at hsu
    simp only [FirmAsg] at hfm
    obtain ⟨⟨nk, ak, sk⟩, ⟨nv, av, sv⟩, c, hck, hr⟩ := hsu
    simp only [detAsg, hck, constStr, Bool.or_eq_false_iff] at hb
    simp only [evalAsg] at h
    split at h
    · rename_i h1
      cases h
      exact progress hm hs hc k sc false fr root _ hw hf hfr (fun h => nomatch h) nk (.inr ak) hac.1 hb.1.1 hfm.1 _ h1
    rename_i kv env1 h1
    have e1 := keep nk h1
    subst e1
    have hk := (sound hm hs hc k sc fr root _ hw hf hfr nk (.inr ak) hb.1.1 sk).1 _ _ h1
    rw [hck] at hk
    simp only [Inh] at hk
    subst hk
    split at h
    · rename_i h2
      cases h
      exact progress hm hs hc v sc false fr root _ hw hf hfr (fun h => nomatch h) nv (.inr av) hac.2.1 hb.1.2 hfm.2.1 _ h2
    rename_i x env2 h2
    have e2 := keep nv h2
    subst e2
    have hx := (sound hm hs hc v sc fr root _ hw hf hfr nv (.inr av) hb.1.2 sv).1 _ _ h2
    have wv := determine_wf true same v sc hw
    have hw' : TScope.WF { sc with root := (dotInsertP sc.root (splitDot c) (determine true same sc v).kind).getD sc.root } := by
      refine ⟨?_, hw.pointer, hw.aliases⟩
      cases e : dotInsertP sc.root (splitDot c) (determine true same sc v).kind with
      | none => exact hw.root
      | some T => exact wf_dotInsert _ hw.root wv e
    obtain ⟨⟨env3, a3⟩, h3⟩ := assign_ok (acc := a) (c := c) hw hf hx
    rw [h3] at h
    exact ih (acc := aSet acc c (determine true same sc v).kind) hw' (fits_assign hw hf hx h3)
      ⟨hfr.pointer, hfr.some_, hfr.none_⟩ hr (hfm.2.2 c hck) hac.2.2 hb.2 e h

/-- a whole expression does not fail on the types of its operands -/
theorem progress_top (hm : MethodsTyped method) (hs : ∀ a b, same a b = true → a = b) (hc : ∀ a b, same a b = same b a)
    {n : Node} {sc : TScope} {env : Scope} {e : VErr} (hw : sc.WF) (hf : Fits sc env) (hfr : FrFits sc [])
    (hac : Accepts B n) (hb : (determine true same sc n).bad = false) (hfm : FirmTop same sc n)
    (h : eval B env [] env n = .error e) : Excusable e := by
  unfold FirmTop at hfm
  have hroot : { sc with root := asgRoot sc.root } = sc := by
    obtain ⟨o, ho, _⟩ := hf.root
    rw [ho]
    simp only [asgRoot]
    rw [← ho]
  split at hfm
  · rename_i list
    rw [hroot] at hfm
    simp only [determine, detOut, hroot] at hb
    simp only [eval] at h
    split at h
    · rename_i h1
      cases h
      exact prog_asg hm hs hc list hw hf hfr hfm.1 hfm.2 hac.1 hb _ h1
    · simp only [evalOpt] at h
      cases h
  · rename_i list n
    rw [hroot] at hfm
    simp only [determine, detOut, hroot, Bool.or_eq_false_iff] at hb
    simp only [eval] at h
    split at h
    · rename_i h1
      cases h
      exact prog_asg hm hs hc list hw hf hfr hfm.1 hfm.2.1 hac.1 hb.1 _ h1
    rename_i h1
    simp only [evalOpt] at h
    have := sound_asg hm hs hc list hw hf hfr hfm.1 hb.1 h1
    exact progress hm hs hc n _ false _ _ _ this.1 this.2.1 this.2.2.1 (fun h => nomatch h) hfm.2.2.1 (.inr hfm.2.2.2.1) hac.2
      hb.2 hfm.2.2.2.2 _ h
  · exact progress hm hs hc n sc false [] env env hw hf hfr (fun h => nomatch h) hfm.1 (.inl rfl) hac hb hfm.2 _ h

end

end Ty
end Zen
