import Verif.Policy.ChainLemmas
import Verif.Policy.Unit
import Verif.Props.C43
import Verif.Props.C60
/-
C65: the hint that a chained conditional is better written as a match block is given for exactly the chains of at least
two conditions, the path it names is the only one all conditions have in common, and the match block does what the
expression did.
-/
namespace Zen.Policy
open Zen

/-! ### Specification -/

/-- The expression is the chain `c₁ ? v₁ : c₂ ? v₂ : … : last`, where parentheses around a link do not matter. -/
inductive Chained : Node → List (Node × Node) → Node → Prop
  | paren {n links last} : Chained n links last → Chained (.paren n) links last
  | link {c v f links last} : Chained f links last → Chained (.cond c v f) ((c, v) :: links) last
  | last {n} : (∀ x, n ≠ .paren x) → (∀ c v f, n ≠ .cond c v f) → Chained n [] n

/-- the expression is a string, in parentheses or not -/
inductive KeyOf : Node → String → Prop
  | str (k) : KeyOf (.str k) k
  | paren {n k} : KeyOf n k → KeyOf (.paren n) k

/-- the expression is the path `a.b.c`, written with dots or with strings as indices, in parentheses or not -/
inductive PathOf : Node → String → Prop
  | name (s) : PathOf (.ident s) s
  | paren {n s} : PathOf n s → PathOf (.paren n) s
  | field {n s p k} : PathOf n s → KeyOf p k → PathOf (.member n p) (s ++ "." ++ k)

/-- `p` is the path `a.b.c` of a part of the expression, and of no part it goes on as in `a.b.c.d` -/
def Mentions (n : Node) (p : String) : Prop :=
  (∃ m, Node.Occ m n ∧ PathOf m p) ∧ ∀ rest m, Node.Occ m n → ¬ PathOf m (p ++ "." ++ rest)

/-- the arm is written with this condition and this value -/
structure ArmOf (F : FrontEnd) (link : Node × Node) (a : Arm) : Prop where
  cond : a.cond ≠ "" ∧ F .standard a.cond = .ok link.1
  value : a.value ≠ "" ∧ F .standard a.value = .ok link.2

/-- The match block that says the same: an arm for every condition and one without a condition for the rest. -/
structure Instead (F : FrontEnd) (key : String) (links : List (Node × Node)) (last : Node) (m : MatchB) : Prop where
  key : m.key = key
  arms : ∃ arms a, m.arms = arms ++ [a] ∧ List.Forall₂ (ArmOf F) links arms ∧ a.cond = "" ∧ a.value ≠ "" ∧
    F .standard a.value = .ok last
  ids : (m.arms.map Arm.id).Nodup

/-- A block run once when all it reads is there: `select` and `commit` one after the other (evaluator.rs:533-545). -/
def Body.once (C : Cfg) (b : Body) (cx : Cx) : Except XErr Unit × Cx :=
  match b.select C cx with
  | (.error e, cx) => (.error e, cx)
  | (.ok p, cx) => b.commit C p cx

/-! ### The hint -/

theorem keyOf_iff {n : Node} {k : String} : KeyOf n k ↔ unwrap n = .str k := by
  constructor
  · intro h
    induction h with
    | str k => simp [unwrap]
    | paren _ ih => simpa [unwrap] using ih
  · intro h
    induction n using unwrap.induct with
    | case1 n ih => exact .paren (ih (by simpa [unwrap] using h))
    | case2 n hn =>
      rw [unwrap] at h
      · subst h; exact .str k
      · exact hn

theorem pathIn_iff {n : Node} : ∀ {s : String}, PathOf n s ↔ pathIn n = some s := by
  induction n using pathIn.induct with
  | case1 n ih =>
    intro s
    rw [pathIn, ← ih]
    exact ⟨fun h => by cases h; assumption, .paren⟩
  | case2 x =>
    intro s
    rw [pathIn]
    exact ⟨fun h => by cases h; rfl, fun h => by cases h; exact .name _⟩
  | case3 n p base hb k hk ih =>
    intro s
    rw [pathIn, hb]
    simp only [hk]
    constructor
    · intro h
      cases h with
      | field h1 h2 =>
        have h1 := ih.1 h1
        have h2 := keyOf_iff.1 h2
        rw [hb] at h1; rw [hk] at h2
        cases h1; cases h2; rfl
    · intro h
      cases h
      exact .field (ih.2 hb) (keyOf_iff.2 hk)
  | case4 n p base hb hk ih =>
    intro s
    rw [pathIn, hb]
    constructor
    · intro h
      cases h with
      | field h1 h2 => exact absurd (keyOf_iff.1 h2) (hk _)
    · intro h
      dsimp only at h
      split at h
      · rename_i k e; exact absurd e (hk k)
      · cases h
  | case5 n p hb ih =>
    intro s
    rw [pathIn, hb]
    constructor
    · intro h
      cases h with
      | field h1 h2 => have := ih.1 h1; rw [hb] at this; cases this
    · intro h; cases h
  | case6 n h1 h2 h3 =>
    intro s
    rw [pathIn]
    · constructor
      · intro h
        cases h
        · exact absurd rfl (h2 _)
        · exact absurd rfl (h1 _)
        · exact absurd rfl (h3 _ _)
      · intro h; cases h
    · exact h1
    · exact h2
    · exact h3

theorem occ_paren {m n : Node} (h : Node.Occ (.paren m) n) : Node.Occ m n := by
  generalize e : Node.paren m = x at h
  induction h with
  | refl => subst e; exact .paren (.refl _)
  | tmpl h _ ih => exact .tmpl h ih
  | arr h _ ih => exact .arr h ih
  | objKey h _ ih => exact .objKey h ih
  | objVal h _ ih => exact .objVal h ih
  | asgKey h _ ih => exact .asgKey h ih
  | asgVal h _ ih => exact .asgVal h ih
  | asgOut _ ih => exact .asgOut ih
  | paren _ ih => exact .paren ih
  | memL _ ih => exact .memL ih
  | memR _ ih => exact .memR ih
  | slice _ ih => exact .slice ih
  | sliceF _ ih => exact .sliceF ih
  | sliceT _ ih => exact .sliceT ih
  | intL _ ih => exact .intL ih
  | intR _ ih => exact .intR ih
  | condC _ ih => exact .condC ih
  | condT _ ih => exact .condT ih
  | condF _ ih => exact .condF ih
  | unary _ ih => exact .unary ih
  | binL _ ih => exact .binL ih
  | binR _ ih => exact .binR ih
  | call h _ ih => exact .call h ih
  | cloO _ ih => exact .cloO ih
  | cloB _ ih => exact .cloB ih
  | mthT _ ih => exact .mthT ih
  | mthA h _ ih => exact .mthA h ih

/-- a part with this path, and one that is not in parentheses -/
theorem pathOf_iff {n : Node} {p : String} : (∃ m, Node.Occ m n ∧ PathOf m p) ↔ ∃ m, Node.Occ m n ∧ pathOf m = some p := by
  constructor
  · rintro ⟨m, hm, hp⟩
    induction hp with
    | name s => exact ⟨_, hm, by simp [pathOf, pathIn]⟩
    | paren _ ih => exact ih (occ_paren hm)
    | field h1 h2 =>
      refine ⟨_, hm, ?_⟩
      have := pathIn_iff.1 (.field h1 h2)
      simpa [pathOf] using this
  · rintro ⟨m, hm, hp⟩
    refine ⟨m, hm, pathIn_iff.2 ?_⟩
    cases m <;> first | (simp [pathOf] at hp; done) | simpa [pathOf] using hp

theorem chained_exists (n : Node) : ∃ links last, Chained n links last := by
  refine Node.ind (P := fun n => ∃ links last, Chained n links last) ?_ ?_ ?_ ?_ ?_ ?_ ?_ ?_ ?_ ?_ ?_ ?_ ?_ ?_ ?_ ?_ ?_ ?_ ?_ ?_ ?_ ?_ n
  case refine_11 => rintro n ⟨l, x, h⟩; exact ⟨l, x, .paren h⟩
  case refine_16 => rintro c t f - - ⟨l, x, h⟩; exact ⟨_, x, .link h⟩
  all_goals (intros; exact ⟨[], _, .last (by simp) (by simp)⟩)

theorem chained_paths {n : Node} {links : List (Node × Node)} {last : Node} (h : Chained n links last) :
    conditionPaths n = links.map fun l => maximal l.1 := by
  induction h with
  | paren _ ih => exact ih
  | link _ ih => simp [conditionPaths, ih]
  | @last n h1 h2 =>
    cases n with
    | paren x => exact absurd rfl (h1 x)
    | cond c v f => exact absurd rfl (h2 c v f)
    | _ => rfl

/-- An expression is a chain in one way. -/
theorem chained_unique {n : Node} {links : List (Node × Node)} {last : Node} (h : Chained n links last) :
    ∀ {links' last'}, Chained n links' last' → links' = links ∧ last' = last := by
  induction h with
  | paren _ ih =>
    intro l x h'
    cases h' with
    | paren h' => exact ih h'
    | last h1 _ => exact absurd rfl (h1 _)
  | link _ ih =>
    intro l x h'
    cases h' with
    | link h' => obtain ⟨rfl, rfl⟩ := ih h'; exact ⟨rfl, rfl⟩
    | last _ h2 => exact absurd rfl (h2 _ _ _)
  | last h1 h2 =>
    intro l x h'
    cases h' with
    | paren _ => exact absurd rfl (h1 _)
    | link _ => exact absurd rfl (h2 _ _ _)
    | last _ _ => exact ⟨rfl, rfl⟩

/-- The hint is given for exactly the chains of at least two conditions, and counts them. -/
theorem C65_hint (n : Node) (k : Nat) : (∃ i, inspect n = some i ∧ i.conditions = k) ↔
    2 ≤ k ∧ ∃ links last, Chained n links last ∧ links.length = k := by
  obtain ⟨links, last, h⟩ := chained_exists n
  have e : (conditionPaths n).length = links.length := by rw [chained_paths h, List.length_map]
  unfold inspect
  rw [e]
  constructor
  · rintro ⟨i, hi, rfl⟩
    split at hi
    · cases hi
    · cases hi
      exact ⟨Nat.le_of_not_lt ‹_›, links, last, h, rfl⟩
  · rintro ⟨hk, links', last', h', rfl⟩
    obtain ⟨rfl, rfl⟩ := chained_unique h h'
    exact ⟨_, if_neg (by omega), rfl⟩

/-- The path named by the hint is mentioned in every condition, and is the only one that is; a path is named if
there is such a path. -/
theorem C65_scrutinee {n : Node} {i : ChainInfo} (hi : inspect n = some i) {links : List (Node × Node)} {last : Node}
    (h : Chained n links last) (p : String) :
    i.scrutinee = some p ↔ (∀ l ∈ links, Mentions l.1 p) ∧ ∀ q, (∀ l ∈ links, Mentions l.1 q) → q = p := by
  have hm : ∀ c q, q ∈ maximal c ↔ Mentions c q := by
    intro c q
    rw [mem_maximal, walked_iff, ← pathOf_iff]
    refine and_congr_right fun _ => forall_congr' fun rest => ?_
    rw [walked_iff, ← pathOf_iff]
    exact ⟨fun h m hm e => h ⟨m, hm, e⟩, fun h ⟨m, hm, e⟩ => h m hm e⟩
  unfold inspect at hi
  split at hi
  · cases hi
  · rename_i hlen
    cases hi
    rw [chained_paths h] at hlen
    show (match common (conditionPaths n) with | [p] => some p | _ => none) = some p ↔ _
    rw [chained_paths h]
    have hc : (∀ q, q ∈ common (links.map fun l => maximal l.1) ↔ ∀ l ∈ links, Mentions l.1 q) ∧
        (common (links.map fun l => maximal l.1)).Nodup := by
      cases links with
      | nil => simp at hlen
      | cons l ls =>
        obtain ⟨h1, h2⟩ := foldl_common (ls.map fun l => maximal l.1) (maximal l.1)
        refine ⟨fun q => ?_, h2 (maximal_nodup _)⟩
        rw [List.map_cons, common, h1]
        simp only [hm, List.mem_cons, forall_eq_or_imp]
        refine and_congr_right fun _ => ⟨fun h l hl => (hm ..).1 (h _ (List.mem_map_of_mem hl)), fun h c hc => ?_⟩
        obtain ⟨l, hl, rfl⟩ := List.mem_map.1 hc
        exact (hm ..).2 (h l hl)
    generalize common (links.map fun l => maximal l.1) = cs at hc
    obtain ⟨hc, hnd⟩ := hc
    constructor
    · intro hp
      match cs, hp with
      | [q], hp =>
        cases hp
        exact ⟨(hc p).1 (by simp), fun q hq => by simpa using (hc q).2 hq⟩
    · rintro ⟨hp, hu⟩
      have hp' := (hc p).2 hp
      match cs, hp', hc, hnd with
      | [q], hp', _, _ => simp at hp'; rw [hp']
      | a :: b :: cs, _, hc, hnd =>
        have ha := hu a ((hc a).1 (by simp))
        have hb := hu b ((hc b).1 (by simp))
        rw [ha, hb] at hnd
        simp at hnd

/-! ### The match block -/

section
variable {C : Cfg}

/-- the environment is an object with no key twice, as hash maps are -/
def Cx.Plain (cx : Cx) : Prop := ∀ m, cx.env = some (.obj m) → (m.map Prod.fst).Nodup

theorem bind_bind {cx : Cx} (h : cx.Plain) : cx.bind.bind = cx.bind := by
  obtain ⟨s, e⟩ := cx
  cases e with
  | none => rfl
  | some v => cases v with
    | obj m =>
      simp only [Cx.bind, Option.map_some, Cx.mk.injEq, Option.some.injEq, true_and, Val.obj.injEq]
      have key : ∀ l : List (String × Val), "$" ∉ l.map Prod.fst → aErase l "$" = l := by
        intro l
        induction l with
        | nil => intro _; rfl
        | cons x l ih =>
          intro hx
          simp only [List.map_cons, List.mem_cons, not_or] at hx
          simp only [aErase]
          rw [if_neg (Ne.symm hx.1), ih hx.2]
      have hm := h m rfl
      clear h
      induction m with
      | nil => rfl
      | cons x l ih =>
        obtain ⟨k, v⟩ := x
        simp only [List.map_cons, List.nodup_cons] at hm
        simp only [aErase]
        split
        · rename_i hk
          exact key l (hk ▸ hm.1)
        · rename_i hk
          simp only [aErase, if_neg hk]
          rw [ih hm.2]
    | _ => rfl

theorem once_expression {key value : String} (hk : key ≠ "") (hv : value ≠ "") (cx : Cx) :
    Body.once C (.expression key value) cx = match freshRun C.F C.B cx.bind.scope .standard value with
      | .ok v => (.ok (), cx.bind.write key v)
      | .error e => (.error (value, e), cx.bind) := by
  have hk : key.isEmpty = false := by simpa using hk
  have hv : value.isEmpty = false := by simpa using hv
  simp only [Body.once, Body.select, Body.commit, Body.write, exprCommit, hk, hv, Bool.or_self, Bool.false_eq_true, if_false]
  cases freshRun C.F C.B cx.bind.scope .standard value <;> rfl

theorem once_match (m : MatchB) {cx : Cx} (hp : cx.Plain) :
    Body.once C (.match_ m) cx = match m.select C.F C.B C.extras cx.bind.scope with
      | .error e => (.error e, cx.bind)
      | .ok sel => match (m.commit C.F C.B C.trace sel cx.bind).map Prod.fst with
        | .ok cx => (.ok (), cx)
        | .error e => (.error e, cx.bind) := by
  simp only [Body.once, Body.select]
  cases hs : m.select C.F C.B C.extras cx.bind.scope with
  | error e => rfl
  | ok sel =>
    simp only [Except.map, Body.commit, Body.write, bind_bind hp]
    cases m.commit C.F C.B C.trace sel cx.bind <;> rfl

theorem fresh {F : FrontEnd} {B : Builtins} {s : Scope} {src : String} {n : Node} (hF : F .standard src = .ok n) (hc : Accepts B n) :
    freshRun F B s .standard src = match evaluate B s n with
      | .ok v => .ok v
      | .error e => .error (.vm e) := by
  obtain ⟨code, hc⟩ := compiles_iff.2 hc
  simp only [freshRun, hF, hc]
  cases evaluate B s n <;> rfl

/-- Which link of the chain decides: the first whose condition is not `false`. -/
theorem chain_eval {B : Builtins} {s : Scope} {n : Node} {links : List (Node × Node)} {last : Node} (h : Chained n links last)
    (hn : NoAssign n) (ha : Accepts B n) :
    (∀ l ∈ links, Accepts B l.1 ∧ Accepts B l.2) ∧ Accepts B last ∧
    (((∀ l ∈ links, evaluate B s l.1 = .ok (.bool false)) ∧ evaluate B s n = evaluate B s last) ∨
    ∃ pre c v post, links = pre ++ (c, v) :: post ∧ (∀ l ∈ pre, evaluate B s l.1 = .ok (.bool false)) ∧
      ((evaluate B s c = .ok (.bool true) ∧ evaluate B s n = evaluate B s v) ∨
       (∃ e, evaluate B s c = .error e ∧ evaluate B s n = .error e) ∨
       (∃ x, evaluate B s c = .ok x ∧ (∀ b, x ≠ .bool b) ∧ ∃ e, evaluate B s n = .error e))) := by
  induction h with
  | paren _ ih => exact ih hn ha
  | @link c v f links last _ ih =>
    obtain ⟨i1, i2, i3⟩ := ih hn.2.2 ha.2.2
    refine ⟨fun l hl => ?_, i2, ?_⟩
    · rcases List.mem_cons.1 hl with rfl | hl
      · exact ⟨ha.1, ha.2.1⟩
      · exact i1 l hl
    cases hc : eval B s [] s c with
    | error e =>
      refine .inr ⟨[], c, v, links, rfl, by simp, .inr (.inl ⟨e, ?_, ?_⟩)⟩ <;> simp [evaluate, eval, hc, Except.map]
    | ok r =>
      obtain ⟨x, env⟩ := r
      have henv : env = s := eval_keeps c hn.1 [] s _ hc
      subst henv
      have hec : evaluate B env c = .ok x := by simp [evaluate, hc, Except.map]
      cases x with
      | bool b => cases b with
        | true =>
          refine .inr ⟨[], c, v, links, rfl, by simp, .inl ⟨hec, ?_⟩⟩
          simp [evaluate, eval, hc]
        | false =>
          have hen : evaluate B env (.cond c v f) = evaluate B env f := by simp [evaluate, eval, hc]
          rcases i3 with ⟨i3, i4⟩ | ⟨pre, c', v', post, rfl, hpre, hres⟩
          · exact .inl ⟨fun l hl => by rcases List.mem_cons.1 hl with rfl | hl; exacts [hec, i3 l hl], hen.trans i4⟩
          · refine .inr ⟨(c, v) :: pre, c', v', post, rfl, fun l hl => ?_, ?_⟩
            · rcases List.mem_cons.1 hl with rfl | hl
              exacts [hec, hpre l hl]
            · rw [hen]; exact hres
      | _ =>
        refine .inr ⟨[], c, v, links, rfl, by simp, .inr (.inr ⟨_, hec, by simp, .opcode "JumpIfFalse" "Unsupported type", ?_⟩)⟩
        simp [evaluate, eval, hc, Except.map]
  | last h1 h2 => exact ⟨by simp, ha, .inl ⟨by simp, rfl⟩⟩

theorem forall₂_split {α β : Type} {R : α → β → Prop} {pre : List α} {x : α} {post : List α} {l : List β}
    (h : List.Forall₂ R (pre ++ x :: post) l) : ∃ pre' y post', l = pre' ++ y :: post' ∧ List.Forall₂ R pre pre' ∧ R x y := by
  induction pre generalizing l with
  | nil =>
    cases h with
    | cons h hs => exact ⟨[], _, _, rfl, .nil, h⟩
  | cons a pre ih =>
    cases h with
    | cons h hs =>
      obtain ⟨p, y, q, rfl, h1, h2⟩ := ih hs
      exact ⟨_ :: p, y, q, rfl, .cons h h1, h2⟩

theorem arm_false {s : Scope} {links : List (Node × Node)} {arms : List Arm} (hA : List.Forall₂ (ArmOf C.F) links arms)
    (hacc : ∀ l ∈ links, Accepts C.B l.1 ∧ Accepts C.B l.2) (h : ∀ l ∈ links, evaluate C.B s l.1 = .ok (.bool false)) :
    ∀ a ∈ arms, ArmFalse C.F C.B s a := by
  induction hA with
  | nil => simp
  | cons h1 _ ih =>
    intro a ha
    rcases List.mem_cons.1 ha with rfl | ha
    · refine ⟨h1.cond.1, .bool false, ?_, by simp⟩
      rw [fresh h1.cond.2 (hacc _ (List.mem_cons_self ..)).1, h _ (List.mem_cons_self ..)]
    · exact ih (fun l hl => hacc l (List.mem_cons_of_mem _ hl)) (fun l hl => h l (List.mem_cons_of_mem _ hl)) a ha

theorem once_arm {m : MatchB} {pre post : List Arm} {a : Arm} {last : Node} {cx : Cx} (hp : cx.Plain) (hk : m.key ≠ "") (harms : m.arms = pre ++ a :: post)
    (hids : (m.arms.map Arm.id).Nodup) (hpre : ∀ x ∈ pre, ArmFalse C.F C.B cx.bind.scope x) (ha : ArmTrue C.F C.B cx.bind.scope a)
    (hv : a.value ≠ "" ∧ C.F .standard a.value = .ok last) (hacc : Accepts C.B last) :
    Body.once C (.match_ m) cx = match evaluate C.B cx.bind.scope last with
      | .ok v => (.ok (), cx.bind.write m.key v)
      | .error e => (.error (a.value, .vm e), cx.bind) := by
  obtain ⟨sel, hs, -, hcm⟩ := C43_match_first (F := C.F) (B := C.B) m C.extras C.trace pre post a harms hids hpre ha
  rw [once_match m hp, hs]
  have hr := fresh (s := cx.bind.scope) hv.2 hacc
  cases he : evaluate C.B cx.bind.scope last with
  | ok v =>
    rw [he] at hr
    simp only
    rw [hcm cx.bind (.ok v) (.inr ⟨hv.1, .inl ⟨v, hr, rfl⟩⟩)]
    simp [Except.map, hk]
  | error e =>
    rw [he] at hr
    simp only
    rw [hcm cx.bind (.error (a.value, .vm e)) (.inr ⟨hv.1, .inr ⟨_, hr, rfl⟩⟩)]
    simp [Except.map]

/-- the same result, up to the text of the expression that is blamed for a failure -/
def SameResult (r r' : Except XErr Unit × Cx) : Prop :=
  r.2 = r'.2 ∧ match r.1, r'.1 with
    | .ok (), .ok () => True
    | .error e, .error e' => e.2 = e'.2
    | _, _ => False

/-- What the two blocks do: they agree, or the expression fails because a condition is not a boolean. -/
theorem C65_either {key value : String} {n : Node} {links : List (Node × Node)} {last : Node} {m : MatchB} (hk : key ≠ "")
    (hv : value ≠ "") (hF : C.F .standard value = .ok n) (hc : Compiles C.B n) (hn : NoAssign n) (h : Chained n links last)
    (hm : Instead C.F key links last m) {cx : Cx} (hp : cx.Plain) :
    SameResult (Body.once C (.expression key value) cx) (Body.once C (.match_ m) cx) ∨
    ((∃ e, (Body.once C (.expression key value) cx).1 = .error e) ∧
      ∃ l ∈ links, ∃ x, evaluate C.B cx.bind.scope l.1 = .ok x ∧ ∀ b, x ≠ .bool b) := by
  have hacc := compiles_iff.1 hc
  obtain ⟨hl, hlast, hcase⟩ := chain_eval (s := cx.bind.scope) h hn hacc
  obtain ⟨hkey, ⟨arms, a, harms, hA, hac, hav⟩, hids⟩ := hm
  have hmk : m.key ≠ "" := by rw [hkey]; exact hk
  rw [once_expression hk hv, fresh hF hacc]
  rcases hcase with ⟨hfalse, he⟩ | ⟨pre, c, v, post, rfl, hpre, hcase⟩
  · left
    rw [once_arm hp hmk harms hids (arm_false hA hl hfalse) (.inl hac) hav hlast, he, hkey]
    cases evaluate C.B cx.bind.scope last <;> simp [SameResult]
  · obtain ⟨pre', b, post', rfl, hA1, hb⟩ := forall₂_split hA
    have hl1 : ∀ l ∈ pre, Accepts C.B l.1 ∧ Accepts C.B l.2 := fun l h => hl l (by simp [h])
    have hcv := hl (c, v) (by simp)
    have hpre' := arm_false hA1 hl1 hpre
    have harms' : m.arms = pre' ++ b :: (post' ++ [a]) := by rw [harms]; simp
    rcases hcase with ⟨hc1, he⟩ | ⟨e, hc1, he⟩ | ⟨x, hc1, hx, e, he⟩
    · left
      have hbt : ArmTrue C.F C.B cx.bind.scope b := .inr (by rw [fresh hb.cond.2 hcv.1, hc1])
      rw [once_arm hp hmk harms' hids hpre' hbt hb.value hcv.2, he, hkey]
      cases evaluate C.B cx.bind.scope v <;> simp [SameResult]
    · left
      have hsel := C43_match_error (F := C.F) (B := C.B) m C.extras pre' (post' ++ [a]) b (.vm e) harms' hpre'
        ⟨hb.cond.1, by rw [fresh hb.cond.2 hcv.1, hc1]⟩
      rw [once_match m hp, hsel, he]
      simp [SameResult]
    · right
      exact ⟨by rw [he]; exact ⟨_, rfl⟩, (c, v), by simp, x, hc1, hx⟩

/-- Where the expression gives a value, the match block writes the same. -/
theorem C65_value {key value : String} {n : Node} {links : List (Node × Node)} {last : Node} {m : MatchB} (hk : key ≠ "")
    (hv : value ≠ "") (hF : C.F .standard value = .ok n) (hn : NoAssign n) (h : Chained n links last)
    (hm : Instead C.F key links last m) {cx cx' : Cx} (hp : cx.Plain) (he : Body.once C (.expression key value) cx = (.ok (), cx')) :
    Body.once C (.match_ m) cx = (.ok (), cx') := by
  have hc : Compiles C.B n := by
    rw [once_expression hk hv] at he
    simp only [freshRun, hF] at he
    cases hc : compile C.B n with
    | error e => simp [hc] at he
    | ok code => exact ⟨code, hc⟩
  rcases C65_either hk hv hF hc hn h hm hp with hs | ⟨⟨e, h'⟩, -⟩
  · rw [he] at hs
    generalize Body.once C (.match_ m) cx = r at hs
    obtain ⟨r, x⟩ := r
    cases r with
    | ok u => obtain ⟨h1, -⟩ := hs; simp only at h1; rw [h1]
    | error e => simp [SameResult] at hs
  · rw [he] at h'; cases h'

/-- With conditions that are booleans, the two blocks do the same throughout. -/
theorem C65_same {key value : String} {n : Node} {links : List (Node × Node)} {last : Node} {m : MatchB} (hk : key ≠ "")
    (hv : value ≠ "") (hF : C.F .standard value = .ok n) (hc : Compiles C.B n) (hn : NoAssign n) (h : Chained n links last)
    (hm : Instead C.F key links last m) {cx : Cx} (hp : cx.Plain)
    (hb : ∀ l ∈ links, ∀ x, evaluate C.B cx.bind.scope l.1 = .ok x → ∃ b, x = .bool b) :
    SameResult (Body.once C (.expression key value) cx) (Body.once C (.match_ m) cx) := by
  rcases C65_either hk hv hF hc hn h hm hp with hs | ⟨-, l, hl, x, hx, hne⟩
  · exact hs
  · obtain ⟨b, rfl⟩ := hb l hl x hx
    exact absurd rfl (hne b)

/-! ### What is read -/

theorem chained_reads {n : Node} {links : List (Node × Node)} {last : Node} (h : Chained n links last) (hn : NoAssign n)
    (p : List String) : p ∈ Reads.planned false n ↔
      (∃ l ∈ links, p ∈ Reads.planned false l.1 ∨ p ∈ Reads.planned false l.2) ∨ p ∈ Reads.planned false last := by
  induction h with
  | paren _ ih => exact ih hn
  | link _ ih =>
    rw [planned_cond hn, List.mem_append, List.mem_append, ih hn.2.2]
    simp only [List.mem_cons, exists_eq_or_imp]
    exact or_assoc.symm
  | last _ _ => simp

/-- The match block reads what the expression read, no more and no less: its conditions before an arm is chosen and the
value of the chosen arm afterwards. -/
theorem C65_reads {key value : String} {n : Node} {links : List (Node × Node)} {last : Node} {m : MatchB}
    (hv : value ≠ "") (hF : C.F .standard value = .ok n) (hn : NoAssign n) (h : Chained n links last)
    (hm : Instead C.F key links last m) (p : List String) :
    p ∈ C.paths (Body.expression key value).sources ↔
      p ∈ C.paths (Body.match_ m).sources ∨ p ∈ C.paths (Body.match_ m).later := by
  obtain ⟨-, ⟨arms, a, harms, hA, hac, hav, hal⟩, -⟩ := hm
  have read : ∀ {src : String} {x : Node}, src ≠ "" → C.F .standard src = .ok x → C.reads .standard src = Reads.planned false x := by
    intro src x h1 h2
    have h1 : src.isEmpty = false := by simpa using h1
    simp [Cfg.reads, h1, h2, isUnary]
  simp only [Body.sources, Body.later, Cfg.paths, List.flatMap_cons, List.flatMap_nil, List.append_nil, read hv hF,
    chained_reads h hn p, harms]
  clear harms h hn hF
  have hav' : a.value.isEmpty = false := by simpa using hav
  induction hA with
  | nil => simp [hac, hav', read hav hal]
  | @cons l b ls bs h1 _ ih =>
    have e1 : b.cond.isEmpty = false := by simpa using h1.cond.1
    have e2 : b.value.isEmpty = false := by simpa using h1.value.1
    simp only [List.cons_append, List.filter_cons, e1, e2, Bool.not_false, if_true, List.map_cons, List.flatMap_cons, List.mem_append,
      read h1.cond.1 h1.cond.2, read h1.value.1 h1.value.2, List.mem_cons, exists_eq_or_imp]
    rw [or_assoc]
    exact (or_congr_right ih).trans or_or_or_comm

end

section
variable {L : Fn.Lib} {D : Dec.Rounding} {checks : Bool} {DL : Fn.DLib} {num : NumOps}
  {mArity : String → Option (Nat × Nat)} {method : String → List Val → Except BErr Val} {same : VT → VT → Bool} {C : Cfg}

/-- It is enough that the type checker finds the conditions to be booleans: then the two blocks do the same. -/
theorem C65_typed (hB : C.B = Fn.builtins L D checks DL num mArity method) (hmt : Ty.MethodsTyped method)
    (hs : ∀ a b, same a b = true → a = b) (hcm : ∀ a b, same a b = same b a) {o : List (String × VT)} (ho : VT.WF (.obj o))
    {key value : String} {n : Node} {links : List (Node × Node)} {last : Node} {m : MatchB} (hk : key ≠ "")
    (hv : value ≠ "") (hF : C.F .standard value = .ok n) (hc : Compiles C.B n) (hn : NoAssign n) (h : Chained n links last)
    (hm : Instead C.F key links last m) {cx : Cx} (hp : cx.Plain) (hd : VT.Inh (.obj o) cx.bind.scope.base)
    (hty : ∀ l ∈ links, Ty.Accepted true same (typeScope o) l.1 ∧ Ty.SureTop same (typeScope o) l.1 ∧
      (Ty.determine true same (typeScope o) l.1).kind = .bool) :
    SameResult (Body.once C (.expression key value) cx) (Body.once C (.match_ m) cx) := by
  refine C65_same hk hv hF hc hn h hm hp fun l hl x hx => ?_
  obtain ⟨h1, h2, h3⟩ := hty l hl
  have hacc := ((chain_eval (s := cx.bind.scope) h hn (compiles_iff.1 hc)).1 l hl).1
  have hy : Yields C.B cx.bind.scope l.1 (.ok x) := yields_iff.2 ⟨compiles_iff.2 hacc, hx.symm⟩
  rw [hB] at hy
  have := C60_value_has_type hmt hs hcm ho hd h1 h2 hy
  rw [h3] at this
  cases x with
  | bool b => exact ⟨b, rfl⟩
  | _ => simp [VT.Inh] at this

end

/-! ### A chain and the match block -/

/-- `status == "a"` -/
def isA : Node := .binary (.cmp .eq) (.member (.ident "order") (.str "status")) (.str "a")
def isB : Node := .binary (.cmp .eq) (.member (.ident "order") (.str "status")) (.str "b")

/-- `order.status == "a" ? 1 : (order.status == "b" ? 2 : size)` -/
def chainNode : Node := .cond isA (.num 1) (.paren (.cond isB (.num 2) (.ident "size")))

def chainFront : FrontEnd := fun _ s =>
  if s = "chain" then .ok chainNode else if s = "a" then .ok isA else if s = "b" then .ok isB
  else if s = "1" then .ok (.num 1) else if s = "2" then .ok (.num 2) else .ok (.ident s)

def chainMatch : MatchB :=
  { key := "out", arms := [⟨"r1", "a", "1"⟩, ⟨"r2", "b", "2"⟩, ⟨"r3", "", "size"⟩] }

def chainCfg (F : FrontEnd) : Cfg :=
  { F := F, B := demoB, model := fun _ => false, extras := false, trace := false, index := fun _ => none, order := id, lost := fun _ _ => [] }

theorem chain_chained : Chained chainNode [(isA, .num 1), (isB, .num 2)] (.ident "size") :=
  .link (.paren (.link (.last (by simp) (by simp))))

example : inspect chainNode = some ⟨2, some "order.status"⟩ := by decide +kernel

theorem chain_instead : Instead chainFront "out" [(isA, .num 1), (isB, .num 2)] (.ident "size") chainMatch where
  key := rfl
  arms := ⟨[⟨"r1", "a", "1"⟩, ⟨"r2", "b", "2"⟩], ⟨"r3", "", "size"⟩, rfl,
    .cons ⟨⟨by decide, rfl⟩, ⟨by decide, rfl⟩⟩ (.cons ⟨⟨by decide, rfl⟩, ⟨by decide, rfl⟩⟩ .nil), rfl, by decide, rfl⟩
  ids := by decide

def chainCx : Cx := { store := .obj [("order", .obj [("status", .str "b")]), ("size", .num 9)]
                      env := some (.obj [("order", .obj [("status", .str "b")]), ("size", .num 9)]) }

/-- the second arm: both blocks write 2 -/
example : Body.once (chainCfg chainFront) (.match_ chainMatch) chainCx =
    (.ok (), chainCx.bind.write "out" (.num 2)) :=
  C65_value (C := chainCfg chainFront) (key := "out") (value := "chain") (by decide) (by decide) rfl
    (by simp [chainNode, isA, isB, NoAssign]) chain_chained chain_instead
    (by intro m hm; cases hm; decide) rfl

/-- an expression with one condition is no chain -/
example : inspect (.cond isA (.num 1) (.num 2)) = none := by decide +kernel

/-! ### Where the claim needs its conditions -/

/-- `x ? 1 : y ? 2 : 3` -/
def looseFront : FrontEnd := fun _ s =>
  if s = "chain" then .ok (.cond (.ident "x") (.num 1) (.cond (.ident "y") (.num 2) (.num 3)))
  else if s = "1" then .ok (.num 1) else if s = "2" then .ok (.num 2) else if s = "3" then .ok (.num 3) else .ok (.ident s)

/-- A condition that is not a boolean makes the expression fail; in the match block its arm is passed over and the
next one is taken. -/
theorem C65_not_boolean : ∃ n links last, ∃ m : MatchB, ∃ cx : Cx, looseFront .standard "chain" = .ok n ∧ Chained n links last ∧ NoAssign n ∧
    Instead looseFront "out" links last m ∧ cx.Plain ∧ inspect n ≠ none ∧
    (Body.once (chainCfg looseFront) (.expression "out" "chain") cx).1 =
      .error ("chain", .vm (.opcode "JumpIfFalse" "Unsupported type")) ∧
    Body.once (chainCfg looseFront) (.match_ m) cx = (.ok (), cx.write "out" (.num 2)) := by
  refine ⟨_, [(.ident "x", .num 1), (.ident "y", .num 2)], .num 3,
    { key := "out", arms := [⟨"r1", "x", "1"⟩, ⟨"r2", "y", "2"⟩, ⟨"r3", "", "3"⟩] },
    { store := .obj [("x", .num 1), ("y", .bool true)], env := some (.obj [("x", .num 1), ("y", .bool true)]) },
    rfl, .link (.link (.last (by simp) (by simp))), by simp [NoAssign], ⟨rfl, ?_, by decide⟩, ?_, by decide +kernel, rfl, rfl⟩
  · exact ⟨[⟨"r1", "x", "1"⟩, ⟨"r2", "y", "2"⟩], ⟨"r3", "", "3"⟩, rfl,
      .cons ⟨⟨by decide, rfl⟩, ⟨by decide, rfl⟩⟩ (.cons ⟨⟨by decide, rfl⟩, ⟨by decide, rfl⟩⟩ .nil), rfl, by decide, rfl⟩
  · intro m hm
    cases hm
    decide

/-- `(t = 1; x) ? t : y ? 2 : 3` -/
def assignFront : FrontEnd := fun _ s =>
  if s = "chain" then .ok (.cond (.paren (.assigns [(.str "t", .num 1)] (some (.ident "x")))) (.ident "t") (.cond (.ident "y") (.num 2) (.num 3)))
  else if s = "c" then .ok (.paren (.assigns [(.str "t", .num 1)] (some (.ident "x"))))
  else if s = "2" then .ok (.num 2) else if s = "3" then .ok (.num 3) else .ok (.ident s)

/-- What a condition assigns is seen by the value in the expression, but not in the match block. -/
theorem C65_assigned : ∃ n links last, ∃ m : MatchB, ∃ cx : Cx, assignFront .standard "chain" = .ok n ∧ Chained n links last ∧
    Instead assignFront "out" links last m ∧ cx.Plain ∧ inspect n ≠ none ∧
    Body.once (chainCfg assignFront) (.expression "out" "chain") cx = (.ok (), cx.write "out" (.num 1)) ∧
    Body.once (chainCfg assignFront) (.match_ m) cx = (.ok (), cx.write "out" .null) := by
  refine ⟨_, [(.paren (.assigns [(.str "t", .num 1)] (some (.ident "x"))), .ident "t"), (.ident "y", .num 2)], .num 3,
    { key := "out", arms := [⟨"r1", "c", "t"⟩, ⟨"r2", "y", "2"⟩, ⟨"r3", "", "3"⟩] },
    { store := .obj [("x", .bool true)], env := some (.obj [("x", .bool true)]) },
    rfl, .link (.link (.last (by simp) (by simp))), ⟨rfl, ?_, by decide⟩, ?_, by decide +kernel, ?_, ?_⟩
  · exact ⟨[⟨"r1", "c", "t"⟩, ⟨"r2", "y", "2"⟩], ⟨"r3", "", "3"⟩, rfl,
      .cons ⟨⟨by decide, rfl⟩, ⟨by decide, rfl⟩⟩ (.cons ⟨⟨by decide, rfl⟩, ⟨by decide, rfl⟩⟩ .nil), rfl, by decide, rfl⟩
  · intro m hm
    cases hm
    decide
  · rfl
  · rfl

/-- The path named by the hint need not be one value: `a["b.c"] ? 1 : a.b.c ? 2 : 3` is said to be on `a.b.c`, but its
conditions look at different places. -/
theorem C65_two_places : ∃ c₁ c₂ : Node, ∃ s : Scope,
    inspect (.cond c₁ (.num 1) (.cond c₂ (.num 2) (.num 3))) = some ⟨2, some "a.b.c"⟩ ∧
    evaluate demoB s c₁ = .ok (.bool true) ∧ evaluate demoB s c₂ = .ok (.bool false) :=
  ⟨.member (.ident "a") (.str "b.c"), .member (.member (.ident "a") (.str "b")) (.str "c"),
    { base := .obj [("a", .obj [("b.c", .bool true), ("b", .obj [("c", .bool false)])])] }, by decide +kernel, rfl, rfl⟩

end Zen.Policy
