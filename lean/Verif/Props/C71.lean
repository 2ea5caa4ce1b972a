import Verif.Policy.InstancesProof
import Verif.Analysis.ReadsSim
import Verif.Props.C58
import Verif.Props.C68
/-
C71  A computed property that is reported as holding instances of an entity holds instances of that entity.
-/
namespace Zen.Policy.Inst
open Zen Zen.Policy Zen.Flow Zen.Reads

/-! ## Specification: from where the value of an expression is taken -/

/-- the property at a path, in a scope -/
def propAt (s : Scope) : List String → Val
  | [] => .null
  | x :: r => readAt ((s.get x).getD .null) r

/-- What is taken from a value: the value, or a list of some of its items in their order; or, for an element, one of its items, or null. -/
def Part (w : Val) : Bool → Val → Prop
  | false, v => v = w ∨ ∃ xs ys, w = .arr xs ∧ v = .arr ys ∧ ys.Sublist xs
  | true, v => v = .null ∨ ∃ xs, w = .arr xs ∧ v ∈ xs

/-- a name, or a property of one: `a`, `a.b`, `a["b"].c` -/
inductive Dotted : Node → List String → Prop
  | name (x) : Dotted (.ident x) [x]
  | prop {n q} (k) : Dotted n q → Dotted (.member n (.str k)) (q ++ [k])

/-- the expressions whose value is taken from a property: `true` for one of its items -/
inductive Taken : Node → List String → Bool → Prop
  | path {n q} : Dotted n q → Taken n q false
  | paren {n q e} : Taken n q e → Taken (.paren n) q e
  | item {n q} (i) : Taken n q false → Taken (.member n (.num i)) q true
  | slice {n q} (a b) : Taken n q false → Taken (.slice n a b) q false
  | filter {n q} (x c) : Taken n q false → Taken (.closure .filter n x c) q false
  | either {l r q e} : Taken l q e → Taken r q e → Taken (.binary (.logic .coalesce) l r) q e
  | cond {c l r q e} : Taken l q e → Taken r q e → Taken (.cond c l r) q e

/-- neither a text nor an interval: those have items that are not kept anywhere -/
def Plain : Val → Prop
  | .str _ => False
  | .dyn _ => False
  | _ => True

/-! ## Specification: which places hold instances -/


/-- the property leads to instances of the entity: it is a relationship with it or refers to it -/
def LeadsTo (p : PProp) (t : Target) : Prop := p.array = t.array ∧ (p.kind = .relationship t.target ∨ p.kind = .reference t.target)

/-- the data model of the entity has such a property, the first one of its name -/
def Declared (G : Ents) (entity field : String) (t : Target) : Prop :=
  ∃ ps pre p post, aGet G.models entity = some ps ∧ ps = pre ++ p :: post ∧ (∀ x ∈ pre, x.name ≠ field) ∧ p.name = field ∧ LeadsTo p t

/-- what is looked for: what a block writes at a path, or what there is along some names -/
inductive Place where
  | written (path : String)
  | along (names : List String)

/-- The places that hold instances of an entity. -/
inductive Found (G : Ents) : Place → Target → Prop
  /-- a block writes what is taken from somewhere -/
  | whole {p q t} : aGet G.sources p = some ⟨q, false⟩ → Found G (.along (splitDot q)) t → Found G (.written p) t
  /-- a block writes an item of what is somewhere -/
  | item {p q e} : aGet G.sources p = some ⟨q, true⟩ → Found G (.along (splitDot q)) ⟨e, true⟩ → Found G (.written p) ⟨e, false⟩
  /-- the name of an entity: all of its instances when something refers to it -/
  | entity {x} : x ∈ aKeys G.models → Found G (.along [x]) ⟨x, decide (x ∈ G.pool)⟩
  | global {x p t} : x ∉ aKeys G.models → aGet G.globals x = some p → LeadsTo p t → Found G (.along [x]) t
  | computed {x t} : x ∉ aKeys G.models → x ∉ aKeys G.globals → Found G (.written x) t → Found G (.along [x]) t
  | property {q e f t} : Found G (.along q) ⟨e, false⟩ → Declared G e f t → Found G (.along (q ++ [f])) t
  | deeper {q e f t} : Found G (.along q) ⟨e, false⟩ → (∀ t, ¬ Declared G e f t) → Found G (.written (dots (q ++ [f]))) t → Found G (.along (q ++ [f])) t

/-- Null, or an instance of the entity; a list of such for an array. `I e v`: `v` is an instance of `e`. -/
def Holds (I : String → Val → Prop) (t : Target) (v : Val) : Prop :=
  v = .null ∨ (t.array = false ∧ I t.target v) ∨ (t.array = true ∧ ∃ xs, v = .arr xs ∧ ∀ x ∈ xs, x = .null ∨ I t.target x)

/-- In this scope the data is as the data models say. -/
structure AsModelled (I : String → Val → Prop) (G : Ents) (s : Scope) : Prop where
  object : ∀ e v, I e v → ∃ m, v = .obj m
  entity : ∀ x ∈ aKeys G.models, Holds I ⟨x, decide (x ∈ G.pool)⟩ (propAt s [x])
  global : ∀ x p t, aGet G.globals x = some p → LeadsTo p t → Holds I t (propAt s [x])
  property : ∀ e f t m, I e (.obj m) → Declared G e f t → Holds I t ((aGet m f).getD .null)

/-- In this scope there is at each path with a source nothing, or the value of an expression with that source. -/
def AsWritten (B : Builtins) (G : Ents) (s : Scope) : Prop :=
  ∀ p src, aGet G.sources p = some src → propAt s (splitDot p) = .null ∨
    ∃ n q, Taken n q src.element ∧ (∀ k ∈ q, '.' ∉ k.toList) ∧ src.path = dots q ∧ NoAssign n ∧ evaluate B s n = .ok (propAt s (splitDot p))

/-- a block writes at the path, and this is the source of what it writes: an expression, or a match block all of whose arms have it -/
inductive HasSource (F : FrontEnd) (P : List PBlock) (p : String) (src : Source) : Prop
  | expression {r value n q} : ⟨r, .expression p value⟩ ∈ P → p ≠ "" → value ≠ "" → F .standard value = .ok n → NoAssign n →
      Taken n q src.element → (∀ k ∈ q, '.' ∉ k.toList) → src.path = dots q → HasSource F P p src
  | match_ {r mb} : ⟨r, .match_ mb⟩ ∈ P → mb.key = p → p ≠ "" → (mb.arms.map Arm.id).Nodup →
      (∀ a ∈ mb.arms, a.value ≠ "" → ∃ n q, F .standard a.value = .ok n ∧ NoAssign n ∧ Taken n q src.element ∧
        (∀ k ∈ q, '.' ∉ k.toList) ∧ src.path = dots q) → HasSource F P p src

variable {G : Ents}

/-! ## Proofs -/

theorem pathOf_iff {n : Node} : ∀ {q : List String}, pathOf n = some q ↔ Dotted n q := by
  induction n using Node.ind with
  | ident x =>
    intro q
    constructor
    · intro h; simp only [pathOf, Option.some.injEq] at h; subst h; exact .name x
    · rintro ⟨⟩; rfl
  | member n p ih _ =>
    intro q
    constructor
    · intro h
      simp only [pathOf] at h
      cases hn : pathOf n with
      | none => simp [hn] at h
      | some q' =>
        rw [hn] at h
        cases p with
        | str k => simp only [Option.some.injEq] at h; subst h; exact .prop k (ih.1 hn)
        | _ => simp at h
    · rintro (_ | ⟨k, h⟩)
      simp only [pathOf, ih.2 h]
  | _ => intro q; exact ⟨fun h => by simp [pathOf] at h, fun h => by cases h⟩

theorem agreeing_iff {a b : Option Src} {s : Src} : agreeing a b = some s ↔ a = some s ∧ b = some s := by
  cases a with
  | none => simp [agreeing]
  | some l => cases b with
    | none => simp [agreeing]
    | some r =>
      simp only [agreeing, Option.some.injEq]
      constructor
      · intro h
        split at h
        · rename_i e; subst e; cases h; exact ⟨rfl, rfl⟩
        · cases h
      · rintro ⟨rfl, rfl⟩; simp

theorem whole_iff {a : Option Src} {s : Src} : whole a = some s ↔ a = some s ∧ s.element = false := by
  cases a with
  | none => simp [whole]
  | some l =>
    simp only [whole]
    constructor
    · intro h
      split at h
      · cases h
      · cases h; rename_i e; exact ⟨rfl, by simpa using e⟩
    · rintro ⟨h, e⟩; cases h; simp [e]

theorem flow_iff (n : Node) (s : Src) : flowOf n = some s ↔ Taken n s.path s.element := by
  induction n using Node.ind generalizing s with
  | ident x =>
    constructor
    · intro h; simp only [flowOf, pathOf, Option.map_some, Option.some.injEq] at h; subst h; exact .path (.name x)
    · intro h
      obtain ⟨q, e⟩ := s
      generalize hq : (Src.mk q e).path = q' at h
      generalize he : (Src.mk q e).element = e' at h
      cases h with
      | path h => cases h; simp at hq he; subst hq he; rfl
  | paren n ih =>
    obtain ⟨q, e⟩ := s
    simp only [flowOf, ih]
    exact ⟨.paren, fun h => by cases h with | paren h => exact h | path h => cases h⟩
  | member n p ih _ =>
    obtain ⟨q, e⟩ := s
    constructor
    · intro h
      cases p with
      | str k =>
        simp only [flowOf] at h
        cases hp : pathOf (.member n (.str k)) with
        | none => simp [hp] at h
        | some q' => simp only [hp, Option.map_some, Option.some.injEq, Src.mk.injEq] at h; obtain ⟨rfl, rfl⟩ := h; exact .path (pathOf_iff.1 hp)
      | num i =>
        simp only [flowOf, Option.map_eq_some_iff, whole_iff] at h
        obtain ⟨s, ⟨hs, he⟩, h⟩ := h
        cases h
        have := (ih s).1 hs
        rw [he] at this
        exact .item i this
      | _ => simp [flowOf] at h
    · intro h
      cases h with
      | path h => cases h with
        | prop k h => simp only [flowOf, pathOf_iff.2 (.prop k h), Option.map_some]; rfl
      | item i h =>
        simp only [flowOf, Option.map_eq_some_iff, whole_iff]
        exact ⟨⟨q, false⟩, ⟨(ih ⟨q, false⟩).2 h, rfl⟩, rfl⟩
  | slice n a b ih _ _ =>
    obtain ⟨q, e⟩ := s
    simp only [flowOf, whole_iff, ih]
    constructor
    · rintro ⟨h, rfl⟩; exact .slice a b h
    · intro h; cases h with
      | slice _ _ h => exact ⟨h, rfl⟩
      | path h => cases h
  | closure k n x c ih _ =>
    obtain ⟨q, e⟩ := s
    cases k with
    | filter =>
      simp only [flowOf, whole_iff, ih]
      constructor
      · rintro ⟨h, rfl⟩; exact .filter x c h
      · intro h; cases h with
        | filter _ _ h => exact ⟨h, rfl⟩
        | path h => cases h
    | _ => exact ⟨fun h => by simp [flowOf] at h, fun h => by cases h with | path h => cases h⟩
  | binary op l r ihl ihr =>
    obtain ⟨q, e⟩ := s
    constructor
    · intro h
      cases op with
      | logic o => cases o with
        | coalesce => simp only [flowOf, agreeing_iff, ihl, ihr] at h; exact .either h.1 h.2
        | _ => simp [flowOf] at h
      | _ => simp [flowOf] at h
    · intro h
      cases h with
      | either a b => simp only [flowOf, agreeing_iff, ihl, ihr]; exact ⟨a, b⟩
      | path h => cases h
  | cond c l r _ ihl ihr =>
    obtain ⟨q, e⟩ := s
    simp only [flowOf, agreeing_iff, ihl, ihr]
    exact ⟨fun h => .cond h.1 h.2, fun h => by cases h with | cond a b => exact ⟨a, b⟩ | path h => cases h⟩
  | _ =>
    obtain ⟨q, e⟩ := s
    exact ⟨fun h => by simp [flowOf, pathOf] at h, fun h => by cases h with | path h => cases h⟩

theorem dotted_lenient {root env : Scope} {n : Node} : ∀ {q : List String} {b : Val}, Dotted n q → lenient root env [] n = some b → b = propAt env q := by
  have key : ∀ {q : List String}, Dotted n q → ∃ x r, q = x :: r ∧ lenient root env [] n = some (readAt ((env.get x).getD .null) r) := by
    intro q h
    induction h with
    | name x => exact ⟨x, [], rfl, rfl⟩
    | prop k h ih =>
      obtain ⟨x, r, rfl, e⟩ := ih
      refine ⟨x, r ++ [k], rfl, ?_⟩
      simp only [lenient, e]
      rw [readAt_append, readAt_fastProp]
      rfl
  intro q b h hb
  obtain ⟨x, r, rfl, e⟩ := key h
  rw [e] at hb
  cases hb
  rfl

theorem dotted_eval {B : Builtins} {root env env' : Scope} {n : Node} {q : List String} {v : Val} (h : Dotted n q)
    (he : eval B root [] env n = .ok (v, env')) : v = propAt env q := by
  cases h with
  | name x =>
    simp only [eval, aliasOf] at he
    simp only [propAt, readAt, Scope.get]
    unfold opFetchEnv at he
    cases hl : env.local_ x with
    | some y => rw [hl] at he; cases he; rfl
    | none =>
      rw [hl] at he
      cases hb : env.base <;> rw [hb] at he <;> first | (cases he; rfl) | cases he
  | prop k h =>
    simp only [eval] at he
    cases hl : lenient root env [] (.member _ (.str k)) with
    | some b =>
      rw [hl] at he
      cases he
      exact dotted_lenient (.prop k h) hl
    | none =>
      exfalso
      have : ∀ {n q}, Dotted n q → lenient root env [] n ≠ none := by
        intro n q h
        induction h with
        | name x => simp [lenient, aliasOf]
        | prop k h ih =>
          simp only [lenient]
          cases hn : lenient root env [] _ with
          | none => exact absurd hn ih
          | some b => simp
      exact this (.prop k h) hl

theorem loopFilter_sub {f : Val → Scope → Res} : ∀ {xs : List Val} {env : Scope} {r : List Val × Scope}, loopFilter f xs env = .ok r → r.1.Sublist xs := by
  intro xs
  induction xs with
  | nil => intro env r h; cases h; exact .slnil
  | cons x xs ih =>
    intro env r h
    simp only [loopFilter] at h
    cases hf : f x env with
    | error e => rw [hf] at h; cases h
    | ok p =>
      obtain ⟨v, e1⟩ := p
      rw [hf] at h
      cases v with
      | bool b => cases b with
        | true =>
          simp only at h
          cases hr : loopFilter f xs e1 with
          | error e => rw [hr] at h; cases h
          | ok r' => rw [hr] at h; cases h; exact (ih hr).cons_cons x
        | false => exact (ih h).cons x
      | _ => cases h

theorem slice_ok {c t f v : Val} (hc : ∀ s, c ≠ .str s) (h : opSlice c t f = .ok v) : ∃ ys j k, c = .arr ys ∧ v = .arr ((ys.drop j).take k) := by
  unfold opSlice at h
  split at h
  · split at h
    · cases h
    · split at h
      · cases h
      · split at h
        · split at h
          · cases h; exact ⟨_, _, _, rfl, rfl⟩
          · cases h
        · exact absurd rfl (hc _)
        · cases h
  · cases h

theorem taken_part {B : Builtins} {root : Scope} {n : Node} {q : List String} {e : Bool} (ht : Taken n q e) :
    ∀ {env env' : Scope} {v : Val}, NoAssign n → Plain (propAt env q) → eval B root [] env n = .ok (v, env') → Part (propAt env q) e v := by
  induction ht with
  | path h => intro env env' v _ _ he; exact .inl (dotted_eval h he)
  | paren _ ih => intro env env' v ha hp he; exact ih ha hp he
  | @item n q i h ih =>
    intro env env' v ha hp he
    simp only [eval] at he
    have hidx : ∀ {a : Val}, Part (propAt env q) false a → ∀ {j : Nat}, Part (propAt env q) true (fastIdx j a) := by
      intro a hpa j
      have item : ∀ (ys : List Val), ys[j]?.getD .null = .null ∨ ys[j]?.getD .null ∈ ys := by
        intro ys
        cases hj : ys[j]? with
        | none => exact .inl rfl
        | some y => exact .inr (List.mem_of_getElem? hj)
      rcases hpa with rfl | ⟨xs, ys, hw, rfl, hs⟩
      · cases hw : propAt env q with
        | arr xs =>
          rcases item xs with h | h
          · exact .inl h
          · exact .inr ⟨xs, rfl, h⟩
        | str s => rw [hw] at hp; exact hp.elim
        | _ => exact .inl rfl
      · rcases item ys with h | h
        · exact .inl h
        · exact .inr ⟨xs, hw, hs.subset h⟩
    cases hl : lenient root env [] (.member n (.num i)) with
    | some b =>
      rw [hl] at he
      cases he
      simp only [lenient] at hl
      cases hn : lenient root env [] n with
      | none => rw [hn] at hl; cases hl
      | some a =>
        rw [hn] at hl
        cases hi : toU32 i with
        | none => simp only [hi] at hl; cases hl
        | some j =>
          simp only [hi] at hl
          cases hl
          refine hidx ?_
          have hd : Dotted n q := by
            cases h with
            | path h => exact h
            | _ => simp [lenient] at hn
          exact .inl (dotted_lenient hd hn)
    | none =>
      rw [hl] at he
      cases hn : eval B root [] env n with
      | error e => rw [hn] at he; cases he
      | ok r =>
        obtain ⟨a, e1⟩ := r
        have hpa := ih ha.1 hp hn
        simp only [hn, eval] at he
        have hopt : ∀ j : Nat, opFetch a (.num i) = .ok (fastIdx j a) → Part (propAt env q) true v := by
          intro j h
          rw [h] at he
          cases he
          exact hidx hpa
        cases a with
        | arr xs =>
          cases hu : toUsize i with
          | none => simp [opFetch, hu] at he
          | some j => exact hopt j (by simp [opFetch, hu, fastIdx])
        | str s =>
          exfalso
          rcases hpa with h | ⟨_, _, _, h, _⟩
          · rw [← h] at hp; exact hp
          · cases h
        | _ => exact hopt 0 rfl
  | @slice n q a b h ih =>
    intro env env' v ha hp he
    simp only [eval] at he
    cases hn : eval B root [] env n with
    | error e => rw [hn] at he; cases he
    | ok r =>
      obtain ⟨c, e1⟩ := r
      have hpa := ih ha.1 hp hn
      simp only [hn] at he
      cases h1 : evalTo B root [] e1 c b with
      | error e => rw [h1] at he; cases he
      | ok t =>
        simp only [h1] at he
        cases h2 : evalOpt B root [] t.2 (.num 0) a with
        | error e => rw [h2] at he; cases he
        | ok f =>
          simp only [h2] at he
          cases hs : opSlice c t.1 f.1 with
          | error e => rw [hs] at he; cases he
          | ok w =>
          rw [hs] at he
          cases he
          have := slice_ok (fun s e => by
            subst e
            rcases hpa with h | ⟨_, _, _, h, _⟩
            · rw [← h] at hp; exact hp
            · cases h) hs
          obtain ⟨ys, j, k, rfl, rfl⟩ := this
          have hsub : ((ys.drop j).take k).Sublist ys := (List.take_sublist _ _).trans (List.drop_sublist _ _)
          rcases hpa with h | ⟨xs, ys', hw, h, hs⟩
          · exact .inr ⟨ys, _, h.symm, rfl, hsub⟩
          · cases h; exact .inr ⟨xs, _, hw, rfl, hsub.trans hs⟩
  | @filter n q x c h ih =>
    intro env env' v ha hp he
    simp only [eval] at he
    cases hn : eval B root [] env n with
    | error e => rw [hn] at he; cases he
    | ok r =>
      obtain ⟨w, e1⟩ := r
      have hpa := ih ha.1 hp hn
      simp only [hn] at he
      have hw : ∃ ys, w = .arr ys := by
        cases w with
        | arr ys => exact ⟨ys, rfl⟩
        | dyn d =>
          exfalso
          rcases hpa with h | ⟨_, _, _, h, _⟩
          · rw [← h] at hp; exact hp
          · cases h
        | _ => simp [opBegin] at he
      obtain ⟨ys, rfl⟩ := hw
      simp only [opBegin, loopMeaning] at he
      obtain ⟨r, hr, h⟩ := exceptMap_ok he
      cases h
      have hsub := loopFilter_sub hr
      rcases hpa with h | ⟨xs, ys', hw, h, hs⟩
      · exact .inr ⟨ys, _, h.symm, rfl, hsub⟩
      · cases h; exact .inr ⟨xs, _, hw, rfl, hsub.trans hs⟩
  | @either l r q e _ _ ihl ihr =>
    intro env env' v ha hp he
    simp only [eval] at he
    cases hn : eval B root [] env l with
    | error e => rw [hn] at he; cases he
    | ok p =>
      obtain ⟨w, e1⟩ := p
      have hk : e1 = env := eval_keeps l ha.1 _ _ _ hn
      subst hk
      cases w with
      | null => simp only [hn] at he; exact ihr ha.2 hp he
      | _ => simp only [hn] at he; cases he; exact ihl ha.1 hp hn
  | @cond c l r q e _ _ ihl ihr =>
    intro env env' v ha hp he
    simp only [eval] at he
    cases hn : eval B root [] env c with
    | error e => rw [hn] at he; cases he
    | ok p =>
      obtain ⟨w, e1⟩ := p
      have hk : e1 = env := eval_keeps c ha.1 _ _ _ hn
      subst hk
      cases w with
      | bool b => cases b with
        | true => simp only [hn] at he; exact ihl ha.2.1 hp he
        | false => simp only [hn] at he; exact ihr ha.2.2 hp he
      | _ => simp only [hn] at he; cases he

theorem leads_iff {p : PProp} {t : Target} : leads p = some t ↔ LeadsTo p t := by
  obtain ⟨e, a⟩ := t
  unfold leads LeadsTo
  cases hk : p.kind <;> simp [and_comm]

theorem declared_iff {e f : String} {t : Target} : declared G e f = some t ↔ Declared G e f t := by
  unfold declared Declared
  cases hg : aGet G.models e with
  | none => simp
  | some ps =>
    cases hf : ps.find? fun p => p.name == f with
    | none =>
      simp only [hf, reduceCtorEq, false_iff]
      rintro ⟨ps', pre, p, post, h, rfl, _, hn, _⟩
      cases h
      have := List.find?_eq_none.1 hf p (by simp)
      simp [hn] at this
    | some p =>
      simp only [hf, leads_iff]
      constructor
      · intro hl
        obtain ⟨hp, pre, post, e1, e2⟩ := List.find?_eq_some_iff_append.1 hf
        exact ⟨ps, pre, p, post, rfl, e1, fun x hx => by simpa using e2 x hx, by simpa using hp, hl⟩
      · rintro ⟨ps', pre, p', post, h, rfl, hpre, hn, hl⟩
        cases h
        have : ((pre ++ p' :: post).find? fun p => p.name == f) = some p' := List.find?_eq_some_iff_append.2 ⟨by simp [hn], pre, post, rfl, fun x hx => by simpa using hpre x hx⟩
        rw [this] at hf
        cases hf
        exact hl

theorem dots_snoc {q : List String} (h : q ≠ []) (f : String) : dots (q ++ [f]) = dots q ++ "." ++ f := by
  unfold dots
  have : ∀ l : List (List Char), l ≠ [] → ∀ c : List Char, List.intercalate ['.'] (l ++ [c]) = List.intercalate ['.'] l ++ '.' :: c := by
    intro l
    induction l with
    | nil => intro h; exact absurd rfl h
    | cons a l ih =>
      intro _ c
      cases l with
      | nil => simp [List.intercalate]
      | cons b l =>
        have := ih (by simp) c
        simp only [List.intercalate, List.cons_append, List.intersperse_cons_cons, List.flatten_cons] at this ⊢
        rw [this]
        simp
  rw [List.map_append, List.map_singleton, this _ (by simpa using h)]
  apply String.ext
  simp

theorem hopsP_found {r : String → Option Target} (hr : ∀ p t, r p = some t → Found G (.written p) t) : ∀ (fs : List String) (pre : List String) (cur t : Target), pre ≠ [] →
    Found G (.along pre) cur → hopsP G r (dots pre) cur fs = some t → Found G (.along (pre ++ fs)) t := by
  intro fs
  induction fs with
  | nil => intro pre cur t _ h e; cases e; simpa using h
  | cons f fs ih =>
    intro pre cur t hp h e
    simp only [hopsP] at e
    split at e
    · cases e
    · rename_i ha
      obtain ⟨en, a⟩ := cur
      have ha : a = false := by simpa using ha
      subst ha
      rw [← dots_snoc hp] at e
      have step : ∀ t1, Found G (.along (pre ++ [f])) t1 → hopsP G r (dots (pre ++ [f])) t1 fs = some t → Found G (.along (pre ++ f :: fs)) t := by
        intro t1 h1 e1
        have := ih (pre ++ [f]) t1 t (by simp) h1 e1
        simpa using this
      cases hd : declared G en f with
      | some t1 => rw [hd] at e; exact step t1 (.property h (declared_iff.1 hd)) e
      | none =>
        rw [hd] at e
        have nod : ∀ t, ¬ Declared G en f t := fun t hd' => by rw [← declared_iff, hd] at hd'; cases hd'
        cases hx : r (dots (pre ++ [f])) with
        | none => rw [hx] at e; cases e
        | some t1 => rw [hx] at e; exact step t1 (.deeper h nod (hr _ _ hx)) e

theorem dots_one (x : String) : dots [x] = x := by
  unfold dots
  apply String.ext
  simp [List.intercalate]

theorem srcP_found {r : String → Option Target} (hr : ∀ p t, r p = some t → Found G (.written p) t) {segs : List String} {t : Target}
    (e : srcP G r segs = some t) : Found G (.along segs) t := by
  cases segs with
  | nil => cases e
  | cons x rest =>
    have go : ∀ t1, Found G (.along [x]) t1 → hopsP G r x t1 rest = some t → Found G (.along (x :: rest)) t := by
      intro t1 h e
      have := hopsP_found hr rest [x] t1 t (by simp) h
      rw [dots_one] at this
      exact this e
    simp only [srcP] at e
    split at e
    · rename_i ha
      refine go _ ?_ e
      have := Found.entity (G := G) ((aGet_isSome_iff _ _).1 ha)
      simpa using this
    · rename_i ha
      have hx : x ∉ aKeys G.models := by rw [← aGet_isSome_iff]; exact ha
      cases hg : aGet G.globals x with
      | some p =>
        rw [hg] at e
        cases hl : leads p with
        | none => simp only [hl] at e; cases e
        | some t1 => simp only [hl] at e; exact go t1 (.global hx hg (leads_iff.1 hl)) e
      | none =>
        rw [hg] at e
        cases hr' : r x with
        | none => simp only [hr'] at e; cases e
        | some t1 => simp only [hr'] at e; exact go t1 (.computed hx ((aGet_eq_none_iff _ _).1 hg) (hr _ _ hr')) e

theorem resN_found : ∀ (n : Nat) (p : String) (t : Target), resN G n p = some t → Found G (.written p) t := by
  intro n
  induction n with
  | zero => intro p t h; cases h
  | succ n ih =>
    intro p t h
    simp only [resN] at h
    cases hs : aGet G.sources p with
    | none => rw [hs] at h; cases h
    | some src =>
      rw [hs] at h
      simp only [Option.bind_eq_some_iff] at h
      obtain ⟨a, ha, hb⟩ := h
      have hf := srcP_found ih ha
      obtain ⟨q, e⟩ := src
      obtain ⟨en, ar⟩ := a
      cases e with
      | false => simp only [pick] at hb; cases hb; exact .whole hs hf
      | true =>
        cases ar with
        | false => simp [pick] at hb
        | true => simp [pick] at hb; subst hb; exact .item hs hf

theorem hopsP_snoc {r : String → Option Target} : ∀ (fs : List String) (cum : String) (cur t : Target) (f : String), hopsP G r cum cur fs = some t →
    hopsP G r cum cur (fs ++ [f]) = hopsP G r (fs.foldl (fun c f => c ++ "." ++ f) cum) t [f] := by
  intro fs
  induction fs with
  | nil => intro cum cur t f e; cases e; rfl
  | cons g fs ih =>
    intro cum cur t f e
    rw [List.cons_append, hopsP, List.foldl_cons]
    rw [hopsP] at e
    split at e
    · cases e
    · rename_i ha
      rw [if_neg ha]
      cases hd : declared G cur.target g with
      | some t1 => simp only [hd] at e ⊢; exact ih _ _ _ _ e
      | none =>
        simp only [hd] at e ⊢
        cases hx : r (cum ++ "." ++ g) with
        | none => rw [hx] at e; cases e
        | some t1 => simp only [hx] at e ⊢; exact ih _ _ _ _ e

theorem foldl_dots : ∀ (fs pre : List String), pre ≠ [] → fs.foldl (fun c f => c ++ "." ++ f) (dots pre) = dots (pre ++ fs) := by
  intro fs
  induction fs with
  | nil => intro pre _; simp
  | cons f fs ih =>
    intro pre hp
    rw [List.foldl_cons, ← dots_snoc hp, ih _ (by simp)]
    simp

theorem srcP_snoc {r : String → Option Target} {q : List String} {t : Target} (f : String) (e : srcP G r q = some t) :
    srcP G r (q ++ [f]) = if t.array then none else match declared G t.target f with
      | some t => some t
      | none => r (dots (q ++ [f])) := by
  cases q with
  | nil => cases e
  | cons x rest =>
    have last : ∀ c : Target, hopsP G r x c rest = some t → hopsP G r x c (rest ++ [f]) = if t.array then none else match declared G t.target f with
        | some t => some t
        | none => r (dots (x :: rest ++ [f])) := by
      intro c hc
      rw [hopsP_snoc _ _ _ _ f hc]
      have hd : rest.foldl (fun c f => c ++ "." ++ f) x = dots (x :: rest) := by
        have := foldl_dots rest [x] (by simp)
        rwa [dots_one] at this
      rw [hd]
      simp only [hopsP]
      rw [← dots_snoc (by simp)]
      split
      · rfl
      · cases declared G t.target f with
        | some t => rfl
        | none => cases r (dots (x :: rest ++ [f])) <;> rfl
    rw [List.cons_append]
    simp only [srcP] at e ⊢
    split at e
    · rename_i ha; rw [if_pos ha]; exact last _ e
    · rename_i ha
      rw [if_neg ha]
      cases hg : aGet G.globals x with
      | some p =>
        rw [hg] at e
        cases hl : leads p with
        | none => simp only [hl] at e; cases e
        | some t1 => simp only [hl] at e ⊢; exact last _ e
      | none =>
        rw [hg] at e
        cases hr' : r x with
        | none => simp only [hr'] at e; cases e
        | some t1 => simp only [hr'] at e ⊢; exact last _ e

theorem found_resN {x : Place} {t : Target} (h : Found G x t) : match x with
    | .written p => ∃ n, resN G n p = some t
    | .along q => ∃ n, srcP G (resN G n) q = some t := by
  induction h with
  | @whole p q t hs _ ih =>
    obtain ⟨n, h⟩ := ih
    refine ⟨n + 1, ?_⟩
    simp only [resN, hs, h, Option.bind_some, pick]
    simp
  | @item p q e hs _ ih =>
    obtain ⟨n, h⟩ := ih
    refine ⟨n + 1, ?_⟩
    simp only [resN, hs, h, Option.bind_some, pick]
    simp
  | @entity x hx =>
    refine ⟨0, ?_⟩
    simp only [srcP, if_pos ((aGet_isSome_iff _ _).2 hx), hopsP]
    simp
  | @global x p t hx hg hl =>
    refine ⟨0, ?_⟩
    have : ¬ (aGet G.models x).isSome = true := by rw [aGet_isSome_iff]; exact hx
    simp only [srcP, if_neg this, hg, leads_iff.2 hl, hopsP]
  | @computed x t hx hg _ ih =>
    obtain ⟨n, h⟩ := ih
    refine ⟨n, ?_⟩
    have : ¬ (aGet G.models x).isSome = true := by rw [aGet_isSome_iff]; exact hx
    simp only [srcP, if_neg this, (aGet_eq_none_iff _ _).2 hg, h, hopsP]
  | @property q e f t _ hd ih =>
    obtain ⟨n, h⟩ := ih
    refine ⟨n, ?_⟩
    rw [srcP_snoc f h]
    simp [declared_iff.2 hd]
  | @deeper q e f t _ hn _ ih ih' =>
    obtain ⟨n, h⟩ := ih
    obtain ⟨n', h'⟩ := ih'
    refine ⟨max n n', ?_⟩
    have h := srcP_mono (resN_mono (Nat.le_max_left n n')) _ _ h
    have h' := resN_mono (Nat.le_max_right n n') _ _ h'
    rw [srcP_snoc f h]
    have : declared G e f = none := by
      cases hd : declared G e f with
      | none => rfl
      | some t => exact absurd (declared_iff.1 hd) (hn t)
    simp [this, h']

theorem propAt_snoc (s : Scope) {q : List String} (h : q ≠ []) (f : String) : propAt s (q ++ [f]) = fastProp f (propAt s q) := by
  cases q with
  | nil => exact absurd rfl h
  | cons x r =>
    rw [List.cons_append]
    simp only [propAt]
    rw [readAt_append, readAt_fastProp]
    rfl

theorem splitDot_plain {k : String} (h : '.' ∉ k.toList) : splitDot k = [k] := by
  unfold splitDot
  rw [splitDotC_whole _ h]
  simp

theorem taken_ne {n : Node} {q : List String} {e : Bool} (h : Taken n q e) : q ≠ [] := by
  induction h with
  | path h => cases h <;> simp
  | _ => assumption

theorem holds_plain {I : String → Val → Prop} (ho : ∀ e v, I e v → ∃ m, v = .obj m) {t : Target} {v : Val} (h : Holds I t v) : Plain v := by
  rcases h with rfl | ⟨_, h⟩ | ⟨_, xs, rfl, _⟩
  · trivial
  · obtain ⟨m, rfl⟩ := ho _ _ h; trivial
  · trivial

theorem holds_whole {I : String → Val → Prop} (ho : ∀ e v, I e v → ∃ m, v = .obj m) {t : Target} {w v : Val} (h : Holds I t w) (hp : Part w false v) :
    Holds I t v := by
  rcases hp with rfl | ⟨xs, ys, rfl, rfl, hs⟩
  · exact h
  · rcases h with h | ⟨_, h⟩ | ⟨ha, xs', h, hall⟩
    · cases h
    · obtain ⟨m, h⟩ := ho _ _ h; cases h
    · cases h; exact .inr (.inr ⟨ha, ys, rfl, fun x hx => hall x (hs.subset hx)⟩)

theorem holds_item {I : String → Val → Prop} {e : String} {w v : Val} (h : Holds I ⟨e, true⟩ w) (hp : Part w true v) : Holds I ⟨e, false⟩ v := by
  rcases hp with rfl | ⟨xs, rfl, hv⟩
  · exact .inl rfl
  · rcases h with h | ⟨ha, _⟩ | ⟨_, xs', h, hall⟩
    · cases h
    · cases ha
    · cases h
      rcases hall v hv with h | h
      · exact .inl h
      · exact .inr (.inl ⟨rfl, h⟩)

theorem along_ne {x : Place} {t : Target} (h : Found G x t) : ∀ q, x = .along q → q ≠ [] := by
  induction h with
  | whole => intro q e; cases e
  | item => intro q e; cases e
  | entity => intro q e; cases e; simp
  | global => intro q e; cases e; simp
  | computed => intro q e; cases e; simp
  | property => intro q e; cases e; simp
  | deeper => intro q e; cases e; simp

theorem found_holds {B : Builtins} {I : String → Val → Prop} {s : Scope} (hM : AsModelled I G s) (hW : AsWritten B G s) {x : Place} {t : Target}
    (h : Found G x t) : match x with
      | .written p => Holds I t (propAt s (splitDot p))
      | .along q => (∀ k ∈ q, splitDot k = [k]) → Holds I t (propAt s q) := by
  induction h with
  | @whole p q t hs hf ih =>
    have hw : Holds I t (propAt s (splitDot q)) := ih fun k hk => splitDot_seg hk
    rcases hW p _ hs with h0 | ⟨n, q', ht, hk, he, ha, hv⟩
    · exact .inl h0
    · simp only at he ht
      subst he
      rw [splitDot_dots (taken_ne ht), flatMap_plain _ fun k h => splitDot_plain (hk k h)] at hw
      unfold evaluate at hv
      obtain ⟨r, hr, hv⟩ := exceptMap_ok hv
      have := taken_part ht ha (holds_plain hM.object hw) (v := r.1) (env' := r.2) hr
      rw [hv] at this
      exact holds_whole hM.object hw this
  | @item p q e hs hf ih =>
    have hw : Holds I ⟨e, true⟩ (propAt s (splitDot q)) := ih fun k hk => splitDot_seg hk
    rcases hW p _ hs with h0 | ⟨n, q', ht, hk, he, ha, hv⟩
    · exact .inl h0
    · simp only at he ht
      subst he
      rw [splitDot_dots (taken_ne ht), flatMap_plain _ fun k h => splitDot_plain (hk k h)] at hw
      unfold evaluate at hv
      obtain ⟨r, hr, hv⟩ := exceptMap_ok hv
      have := taken_part ht ha (holds_plain hM.object hw) (v := r.1) (env' := r.2) hr
      rw [hv] at this
      exact holds_item hw this
  | entity hx => intro _; exact hM.entity _ hx
  | global _ hg hl => intro _; exact hM.global _ _ _ hg hl
  | @computed x t _ _ _ ih =>
    intro hk
    have this : Holds I t (propAt s (splitDot x)) := ih
    rw [hk x (by simp)] at this
    exact this
  | @property q e f t hf hd ih =>
    intro hk
    have hw := ih fun k h => hk k (by simp [h])
    rw [propAt_snoc s (along_ne hf q rfl)]
    rcases hw with h | ⟨_, h⟩ | ⟨h, _⟩
    · rw [h]; exact .inl rfl
    · obtain ⟨m, hm⟩ := hM.object _ _ h
      rw [hm] at h ⊢
      exact hM.property e f t m h hd
    · cases h
  | @deeper q e f t hf _ _ ih ih' =>
    intro hk
    have this : Holds I t (propAt s (splitDot (dots (q ++ [f])))) := ih'
    rw [splitDot_dots (by simp), flatMap_plain _ hk] at this
    exact this

/-! ## Theorems -/

/-- An expression has a source exactly when it is built in one of the ways listed. -/
theorem C71_forms (n : Node) (s : Src) : flowOf n = some s ↔ Taken n s.path s.element := flow_iff n s

/-- What it gives is taken from there. -/
theorem C71_taken (B : Builtins) (s : Scope) (n : Node) (src : Src) (v : Val) (h : flowOf n = some src) (ha : NoAssign n)
    (hp : Plain (propAt s src.path)) (he : evaluate B s n = .ok v) : Part (propAt s src.path) src.element v := by
  unfold evaluate at he
  obtain ⟨r, hr, rfl⟩ := exceptMap_ok he
  exact taken_part ((flow_iff n src).1 h) ha hp (v := r.1) (env' := r.2) hr

/-- A match block has a source when its arms that are not empty, at least one, have it. -/
theorem C71_arms (vs : List (Option Node)) (src : Source) :
    armSource vs = some src ↔ (∃ n, some n ∈ vs) ∧ ∀ n, some n ∈ vs → ∃ q, Taken n q src.element ∧ src.path = dots q := by
  have hso : ∀ n, sourceOf n = some src ↔ ∃ q, Taken n q src.element ∧ src.path = dots q := by
    intro n
    obtain ⟨p, e⟩ := src
    unfold sourceOf
    rw [Option.map_eq_some_iff]
    constructor
    · rintro ⟨f, hf, h⟩
      cases h
      exact ⟨f.path, (flow_iff n f).1 hf, rfl⟩
    · rintro ⟨q, ht, h⟩
      exact ⟨⟨q, e⟩, (flow_iff n ⟨q, e⟩).2 ht, by simp only at h; rw [h]⟩
  have loop : ∀ (vs : List (Option Node)) (sh : Option Source), armLoop vs sh = some src ↔
      ((sh = none ∧ ∃ n, some n ∈ vs) ∨ sh = some src) ∧ ∀ n, some n ∈ vs → sourceOf n = some src := by
    intro vs
    induction vs with
    | nil => intro sh; simp [armLoop]
    | cons v vs ih =>
      intro sh
      cases v with
      | none => simp only [armLoop, ih]; simp
      | some n =>
        simp only [armLoop]
        cases hn : sourceOf n with
        | none =>
          simp only [reduceCtorEq, false_iff]
          rintro ⟨_, h⟩
          have := h n (by simp)
          rw [hn] at this
          cases this
        | some s =>
          cases sh with
          | none =>
            simp only [ih]
            constructor
            · rintro ⟨h | h, hall⟩
              · cases h.1
              · cases h
                refine ⟨.inl ⟨True.intro, n, by simp⟩, fun m hm => ?_⟩
                rcases List.mem_cons.1 hm with e | e
                · cases e; exact hn
                · exact hall m e
            · rintro ⟨_, hall⟩
              have := hall n (by simp)
              rw [hn] at this
              exact ⟨.inr this, fun m hm => hall m (by simp [hm])⟩
          | some e =>
            dsimp only
            split
            · rename_i he
              subst he
              rw [ih]
              constructor
              · rintro ⟨h, hall⟩
                have he : some e = some src := by rcases h with h | h; cases h.1; exact h
                refine ⟨.inr he, fun m hm => ?_⟩
                rcases List.mem_cons.1 hm with e' | e'
                · cases e'; rw [hn]; exact he
                · exact hall m e'
              · rintro ⟨h, hall⟩
                have he : some e = some src := by rcases h with h | h; cases h.1; exact h
                exact ⟨.inr he, fun m hm => hall m (by simp [hm])⟩
            · rename_i he
              simp only [reduceCtorEq, false_iff]
              rintro ⟨h, hall⟩
              have he' : some e = some src := by rcases h with h | h; cases h.1; exact h
              have := hall n (by simp)
              rw [hn] at this
              cases he'; cases this; exact he rfl
  unfold armSource
  rw [loop]
  simp only [hso, true_and, reduceCtorEq, or_false]

/-- In whatever order the paths are visited, the ones reported are those found to hold instances, each once with one entity. -/
theorem C71_resolved (G : Ents) (order : List String) (hc : ∀ p ∈ aKeys G.sources, p ∈ order) (p : String) (t : Target) :
    (p, t) ∈ targets G order ↔ Found G (.written p) t := by
  rw [targets_exact order hc]
  exact ⟨fun ⟨n, h⟩ => resN_found n p t h, fun h => found_resN h⟩

theorem C71_one (G : Ents) (x : Place) (t t' : Target) (h : Found G x t) (h' : Found G x t') : t = t' := by
  have a := found_resN h
  have b := found_resN h'
  cases x with
  | written p =>
    obtain ⟨n, a⟩ := a
    obtain ⟨n', b⟩ := b
    exact resN_unique a b
  | along q =>
    obtain ⟨n, a⟩ := a
    obtain ⟨n', b⟩ := b
    have a := srcP_mono (resN_mono (Nat.le_max_left n n')) _ _ a
    have b := srcP_mono (resN_mono (Nat.le_max_right n n')) _ _ b
    rw [a] at b
    exact Option.some.inj b

/-- They hold instances: where the data is as modelled and what is written has its source, a reported path holds an instance of the reported entity,
or a list of such. -/
theorem C71_instances (B : Builtins) (I : String → Val → Prop) (G : Ents) (s : Scope) (hM : AsModelled I G s) (hW : AsWritten B G s)
    (order : List String) (hc : ∀ p ∈ aKeys G.sources, p ∈ order) (p : String) (t : Target) (h : (p, t) ∈ targets G order) :
    Holds I t (propAt s (splitDot p)) := found_holds hM hW ((C71_resolved G order hc p t).1 h)

/-- In the result of a policy run for these paths they do. -/
theorem C71_policy {C : Cfg} {P : List PBlock} (hS : Sound C P) (m : List (String × Val)) (hm : (aKeys m).Nodup) (h0 : aGet m "$" = none) (goals : List String)
    (v : Val) (h : runPolicy C P goals (.obj m) = some (.ok v)) (I : String → Val → Prop) (G : Ents)
    (hsrc : ∀ p src, aGet G.sources p = some src → p ∈ goals ∧ Walkable (.obj m) (splitDot p) ∧ HasSource C.F P p src)
    (hM : AsModelled I G ⟨v, []⟩) (order : List String) (hc : ∀ p ∈ aKeys G.sources, p ∈ order) (p : String) (t : Target)
    (ht : (p, t) ∈ targets G order) : Holds I t (propAt ⟨v, []⟩ (splitDot p)) := by
  refine C71_instances C.B I G ⟨v, []⟩ hM ?_ order hc p t ht
  intro p src hp
  obtain ⟨hg, hwalk, hs⟩ := hsrc p src hp
  have at_ : ∀ {x : Val}, v.dot p = some x → propAt ⟨v, []⟩ (splitDot p) = x := by
    intro x hx
    unfold Val.dot at hx
    obtain ⟨ks, hk⟩ := splitDot_topSeg p
    rw [hk] at hx ⊢
    cases v with
    | obj mv =>
      rw [look_dot] at hx
      have := look_read (.obj mv) (topSeg p :: ks)
      cases hl : look (.obj mv) (topSeg p :: ks) with
      | found y =>
        rw [hl] at hx this
        cases hx
        exact this.symm
      | _ => rw [hl] at hx; cases hx
    | _ => cases hx
  have fresh : ∀ {value : String} {n : Node} {x : Val}, C.F .standard value = .ok n → freshRun C.F C.B ⟨v, []⟩ .standard value = .ok x →
      evaluate C.B ⟨v, []⟩ n = .ok x := by
    intro value n x hF hx
    unfold freshRun at hx
    rw [hF] at hx
    simp only at hx
    cases hcomp : compile C.B n with
    | error e => rw [hcomp] at hx; cases hx
    | ok code =>
      rw [hcomp] at hx
      simp only at hx
      cases he : evaluate C.B ⟨v, []⟩ n with
      | error e => rw [he] at hx; cases hx
      | ok y => rw [he] at hx; cases hx; rfl
  cases hs with
  | @expression r value n q hb hk hv hF ha htk hd hpath =>
    obtain ⟨x, hx, hdot⟩ := C58_expression hS m hm h0 goals v h r p value hb hk hv hg
    rw [at_ (hdot hwalk)]
    exact .inr ⟨n, q, htk, hd, hpath, ha, fresh hF hx⟩
  | @match_ r mb hb hkey hk hids hall =>
    subst hkey
    obtain ⟨x, hx, hdot⟩ := C58_match hS m hm h0 goals v h r mb hb hk hids hg
    rw [at_ (hdot hwalk)]
    rcases hx with ⟨pre, a, post, harms, _, _, hgive⟩ | ⟨_, hnull⟩
    · rcases hgive with ⟨_, hr⟩ | ⟨hv, ⟨y, hy, hr⟩ | ⟨e, _, hr⟩⟩
      · cases hr; exact .inl rfl
      · cases hr
        obtain ⟨n, q, hF, ha, htk, hd, hpath⟩ := hall a (by rw [harms]; simp) hv
        exact .inr ⟨n, q, htk, hd, hpath, ha, fresh hF hy⟩
      · cases hr
    · exact .inl hnull

/-! ## Instances -/

/-- a customer works for a company; a company may have an owner, a customer; the companies of a customer are looked up in all companies -/
def shop : Ents where
  models := [("customer", [⟨"name", .string, false, false⟩, ⟨"company", .reference "company", false, true⟩, ⟨"clients", .reference "company", true, true⟩]),
    ("company", [⟨"title", .string, false, false⟩])]
  globals := [("guests", ⟨"guests", .relationship "customer", true, true⟩)]
  pool := ["company"]
  sources := [("employer", ⟨"customer.company", false⟩), ("boss", ⟨"employer", false⟩), ("customer.best", ⟨"customer.clients", true⟩),
    ("favourite", ⟨"customer.best", false⟩), ("host", ⟨"guests", true⟩), ("their", ⟨"host.company", false⟩), ("all", ⟨"company", false⟩),
    ("loop", ⟨"back", false⟩), ("back", ⟨"loop", false⟩), ("name", ⟨"customer.name", false⟩), ("wrong", ⟨"customer.company", true⟩)]

/-- the loop, the property that is no entity, and the item of what is not a list are left out -/
example : ∀ p t, (p, t) ∈ targets shop (aKeys shop.sources) ↔
    (p, t) ∈ [("employer", ⟨"company", false⟩), ("boss", ⟨"company", false⟩), ("customer.best", ⟨"company", false⟩), ("favourite", ⟨"company", false⟩),
      ("host", ⟨"customer", false⟩), ("their", ⟨"company", false⟩), ("all", (⟨"company", true⟩ : Target))] := by
  intro p t
  have : ∀ x ∈ targets shop (aKeys shop.sources), x ∈ [("employer", ⟨"company", false⟩), ("boss", ⟨"company", false⟩), ("customer.best", ⟨"company", false⟩),
      ("favourite", ⟨"company", false⟩), ("host", ⟨"customer", false⟩), ("their", ⟨"company", false⟩), ("all", (⟨"company", true⟩ : Target))] := by decide +kernel
  have back : ∀ x ∈ [("employer", ⟨"company", false⟩), ("boss", ⟨"company", false⟩), ("customer.best", ⟨"company", false⟩),
      ("favourite", ⟨"company", false⟩), ("host", ⟨"customer", false⟩), ("their", ⟨"company", false⟩), ("all", (⟨"company", true⟩ : Target))],
      x ∈ targets shop (aKeys shop.sources) := by decide +kernel
  exact ⟨this _, back _⟩

/-- `customer.clients[0]`, `filter(customer.clients, # != null)[1]`, `big ? customer.company : (customer.company)`, `customer.clients[0] ?? customer.clients[1]`,
and not `customer.clients[i]`, `customer.clients[0].title`, `big ? customer.company : customer.name` -/
example : [Node.member (.member (.ident "customer") (.str "clients")) (.num 0),
      .member (.closure .filter (.member (.ident "customer") (.str "clients")) none (.binary (.cmp .ne) .pointer .null)) (.num 1),
      .cond (.ident "big") (.member (.ident "customer") (.str "company")) (.paren (.member (.ident "customer") (.str "company"))),
      .binary (.logic .coalesce) (.member (.member (.ident "customer") (.str "clients")) (.num 0)) (.member (.member (.ident "customer") (.str "clients")) (.num 1)),
      .member (.member (.ident "customer") (.str "clients")) (.ident "i"),
      .member (.member (.member (.ident "customer") (.str "clients")) (.num 0)) (.str "title"),
      .cond (.ident "big") (.member (.ident "customer") (.str "company")) (.member (.ident "customer") (.str "name"))].map flowOf =
    [some ⟨["customer", "clients"], true⟩, some ⟨["customer", "clients"], true⟩, some ⟨["customer", "company"], false⟩, some ⟨["customer", "clients"], true⟩,
      none, none, none] := by decide +kernel

def acme : Val := .obj [("title", .str "Acme")]
def initech : Val := .obj [("title", .str "Initech")]
def ann : Val := .obj [("name", .str "Ann"), ("company", acme), ("clients", .arr [initech, acme]), ("best", initech)]

/-- the scope after a run in which `employer` is `customer.company`, `boss` is `employer`, and so on -/
def shopScope : Scope :=
  ⟨.obj [("customer", ann), ("company", .arr [acme, initech]), ("employer", acme), ("boss", acme), ("favourite", initech), ("all", .arr [acme, initech]),
    ("name", .str "Ann")], []⟩

def instanceOf (e : String) (v : Val) : Prop := (e = "company" ∧ (v = acme ∨ v = initech)) ∨ (e = "customer" ∧ v = ann)

theorem shop_modelled : AsModelled instanceOf shop shopScope where
  object := by
    rintro e v (⟨_, rfl | rfl⟩ | ⟨_, rfl⟩) <;> exact ⟨_, rfl⟩
  entity := by
    intro x hx
    simp only [shop, aKeys, List.map_cons, List.map_nil, List.mem_cons, List.not_mem_nil, or_false] at hx
    rcases hx with rfl | rfl
    · exact .inr (.inl ⟨by decide, .inr ⟨rfl, rfl⟩⟩)
    · exact .inr (.inr ⟨by decide, [acme, initech], rfl, by
        intro x hx
        simp only [List.mem_cons, List.not_mem_nil, or_false] at hx
        exact .inr (.inl ⟨rfl, hx⟩)⟩)
  global := by
    intro x p t hg hl
    simp only [shop, aGet] at hg
    split at hg
    · rename_i h
      have h : x = "guests" := by simpa [eq_comm] using h
      subst h
      exact .inl rfl
    · cases hg
  property := by
    rintro e f t m (⟨rfl, h⟩ | ⟨rfl, h⟩) ⟨ps, pre, p, post, hg, hps, hpre, hn, ha, hk⟩
    · have : ps = [⟨"title", .string, false, false⟩] := by simpa [shop, aGet] using hg.symm
      subst this
      cases pre with
      | nil => cases hps; rcases hk with hk | hk <;> cases hk
      | cons a pre => cases pre <;> cases hps
    · cases h
      have : ps = [⟨"name", .string, false, false⟩, ⟨"company", .reference "company", false, true⟩, ⟨"clients", .reference "company", true, true⟩] := by
        simpa [shop, aGet] using hg.symm
      subst this
      obtain ⟨tt, ta⟩ := t
      match pre, hps with
      | [], hps => cases hps; rcases hk with hk | hk <;> cases hk
      | [_], hps =>
        cases hps; cases ha
        rcases hk with hk | hk
        · cases hk
        · cases hk; subst hn
          exact .inr (.inl ⟨rfl, .inl ⟨rfl, .inl rfl⟩⟩)
      | [_, _], hps =>
        cases hps; cases ha
        rcases hk with hk | hk
        · cases hk
        · cases hk; subst hn
          exact .inr (.inr ⟨rfl, [initech, acme], rfl, by
            intro x hx
            simp only [List.mem_cons, List.not_mem_nil, or_false] at hx
            exact .inr (.inl ⟨rfl, hx.symm⟩)⟩)
      | [_, _, _], hps => cases hps
      | _ :: _ :: _ :: _ :: _, hps => cases hps

theorem shop_written (B : Builtins) : AsWritten B shop shopScope := by
  intro p src h
  have here : ∀ {n q e}, Taken n q e → (∀ k ∈ q, '.' ∉ k.toList) → src = ⟨dots q, e⟩ → NoAssign n → evaluate B shopScope n = .ok (propAt shopScope (splitDot p)) →
      propAt shopScope (splitDot p) = .null ∨ ∃ n q, Taken n q src.element ∧ (∀ k ∈ q, '.' ∉ k.toList) ∧ src.path = dots q ∧ NoAssign n ∧
        evaluate B shopScope n = .ok (propAt shopScope (splitDot p)) := by
    rintro n q e ht hq rfl ha he
    exact .inr ⟨n, q, ht, hq, rfl, ha, he⟩
  have hp : (p, src) ∈ shop.sources := aGet_mem h
  simp only [shop, List.mem_cons, List.not_mem_nil, or_false, Prod.mk.injEq] at hp
  rcases hp with ⟨rfl, rfl⟩ | ⟨rfl, rfl⟩ | ⟨rfl, rfl⟩ | ⟨rfl, rfl⟩ | ⟨rfl, rfl⟩ | ⟨rfl, rfl⟩ | ⟨rfl, rfl⟩ | ⟨rfl, rfl⟩ | ⟨rfl, rfl⟩ | ⟨rfl, rfl⟩ | ⟨rfl, rfl⟩
  · exact here (.path (.prop "company" (.name "customer"))) (by decide) rfl (by simp [NoAssign]) rfl
  · exact here (.path (.name "employer")) (by decide) rfl (by simp [NoAssign]) rfl
  · exact here (.item 0 (.path (.prop "clients" (.name "customer")))) (by decide) rfl (by simp [NoAssign]) rfl
  · exact here (.path (.prop "best" (.name "customer"))) (by decide) rfl (by simp [NoAssign]) rfl
  · exact .inl rfl
  · exact .inl rfl
  · exact here (.path (.name "company")) (by decide) rfl (by simp [NoAssign]) rfl
  · exact .inl rfl
  · exact .inl rfl
  · exact here (.path (.prop "name" (.name "customer"))) (by decide) rfl (by simp [NoAssign]) rfl
  · exact .inl rfl

/-- the hypotheses can be met, and what is concluded is not null -/
example (B : Builtins) : Holds instanceOf ⟨"company", false⟩ initech ∧ Holds instanceOf ⟨"company", true⟩ (.arr [acme, initech]) :=
  ⟨C71_instances B instanceOf shop shopScope shop_modelled (shop_written B) (aKeys shop.sources) (fun _ h => h) "favourite" ⟨"company", false⟩ (by decide +kernel),
    C71_instances B instanceOf shop shopScope shop_modelled (shop_written B) (aKeys shop.sources).reverse (fun _ h => List.mem_reverse.2 h) "all" ⟨"company", true⟩ (by decide +kernel)⟩

/-- `employer` is `customer.company`, and `boss` is `employer`, if the customer has one -/
def jobFront : FrontEnd := fun _ src =>
  if src = "customer.company" then .ok (.member (.ident "customer") (.str "company"))
  else if src = "employer" then .ok (.ident "employer")
  else if src = "customer.company != null" then .ok (.binary (.cmp .ne) (.member (.ident "customer") (.str "company")) .null)
  else .error (.front "unexpected")

def jobCfg : Cfg := { unitCfg with F := jobFront, model := matchesModel ["customer", "company"] }

def jobPolicy : List PBlock := [gBlk "E" "employer" "customer.company", ⟨⟨"p", "B"⟩, .match_ { key := "boss", arms := [⟨"1", "customer.company != null", "employer"⟩] }⟩]

theorem job_sound : Sound jobCfg jobPolicy where
  unique := by decide +kernel
  order l := List.Perm.refl l
  columns := by
    intro b hb t ht
    simp only [jobPolicy, List.mem_cons, List.not_mem_nil, or_false] at hb
    rcases hb with rfl | rfl <;> cases ht
  apart := by unfold Apart; decide +kernel
  own := by decide +kernel
  readable := by
    have : ∀ b ∈ jobPolicy, ∀ s ∈ b.body.sources ++ b.body.later, (match jobCfg.F s.1 s.2 with
      | .ok n => Reads.tame n && decide (Reads.nesting n < 32) &&
          (Reads.planned (isUnary s.1) n).all fun q => decide (q ∈ jobCfg.reads s.1 s.2) && decide (q.head? ≠ some "$root")
      | .error _ => true) = true := by decide +kernel
    exact fun b hb s hs => readable_of_check (this b hb s hs)
  single := by decide +kernel
  free := by decide +kernel
  acyclic := acyclic_of_rank (rank := fun r => if r.block = "E" then 0 else 1) (by unfold Ranked; decide +kernel)

def job : Ents := { shop with sources := [("employer", ⟨"customer.company", false⟩), ("boss", ⟨"employer", false⟩)] }

/-- whatever the run gives, `boss` is a company -/
example (v : Val) (h : runPolicy jobCfg jobPolicy ["employer", "boss"] (.obj [("customer", ann)]) = some (.ok v)) (I : String → Val → Prop)
    (hM : AsModelled I job ⟨v, []⟩) : Holds I ⟨"company", false⟩ (propAt ⟨v, []⟩ ["boss"]) := by
  refine C71_policy job_sound _ (by simp [aKeys]) (by decide) _ v h I job ?_ hM ["boss", "employer"] (by decide) "boss" ⟨"company", false⟩ (by decide +kernel)
  intro p src hp
  have hp : (p, src) ∈ job.sources := aGet_mem hp
  simp only [job, List.mem_cons, List.not_mem_nil, or_false, Prod.mk.injEq] at hp
  rcases hp with ⟨rfl, rfl⟩ | ⟨rfl, rfl⟩
  · exact ⟨by simp, free_walk (by decide +kernel), .expression (r := ⟨"p", "E"⟩) (value := "customer.company") List.mem_cons_self (by decide) (by decide) rfl (by simp [NoAssign])
      (.path (.prop "company" (.name "customer"))) (by decide) rfl⟩
  · refine ⟨by simp, free_walk (by decide +kernel), .match_ (List.mem_cons_of_mem _ List.mem_cons_self) rfl (by decide) (by decide) ?_⟩
    intro a ha _
    simp only [List.mem_cons, List.not_mem_nil, or_false] at ha
    subst ha
    exact ⟨.ident "employer", ["employer"], rfl, by simp [NoAssign], .path (.name "employer"), by decide, rfl⟩

/-- and it gives one -/
example : (match runPolicy jobCfg jobPolicy ["employer", "boss"] (.obj [("customer", ann)]) with
    | some (.ok v) => (match propAt ⟨v, []⟩ ["boss"] with | .obj [("title", .str s)] => s == "Acme" | _ => false)
    | _ => false) = true := by decide +kernel

/-! ## Findings -/

/-- Nothing is found along the properties of an entity that something refers to, though a block on it may well take its value from there. -/
theorem C71_referred (G : Ents) (x : String) (hx : x ∈ aKeys G.models) (hp : x ∈ G.pool) (f : String) (r : List String) (t : Target) :
    ¬ Found G (.along (x :: f :: r)) t := by
  have h1 : ∀ t, Found G (.along [x]) t → t = ⟨x, true⟩ := by
    intro t h
    have := C71_one G _ _ _ h (.entity hx)
    rw [this]
    simp [hp]
  have key : ∀ {y t}, Found G y t → ∀ f r, y ≠ .along (x :: f :: r) := by
    intro y t h
    induction h with
    | whole => intro f r e; cases e
    | item => intro f r e; cases e
    | entity => intro f r e; cases e
    | global => intro f r e; cases e
    | computed => intro f r e; cases e
    | @property q e' f' t' hq _ ih =>
      intro f r e
      have e : q ++ [f'] = x :: f :: r := by injection e
      cases q with
      | nil => cases e
      | cons y q =>
        rw [List.cons_append, List.cons.injEq] at e
        obtain ⟨rfl, e⟩ := e
        cases q with
        | nil => cases h1 _ hq
        | cons a q => exact ih a q rfl
    | @deeper q e' f' t' hq _ _ ih _ =>
      intro f r e
      have e : q ++ [f'] = x :: f :: r := by injection e
      cases q with
      | nil => cases e
      | cons y q =>
        rw [List.cons_append, List.cons.injEq] at e
        obtain ⟨rfl, e⟩ := e
        cases q with
        | nil => cases h1 _ hq
        | cons a q => exact ih a q rfl
  exact fun h => key h f r rfl

/-- A block on an entity that something refers to runs once for each instance, which it sees under the name of the entity. What is written there as
`company` is reported to be a list of companies, and is one. -/
theorem C71_own_instance (B : Builtins) : sourceOf (.ident "company") = some ⟨"company", false⟩ ∧
    ("company.me", ⟨"company", true⟩) ∈ targets { shop with sources := [("company.me", ⟨"company", false⟩)] } ["company.me"] ∧
    evaluate B ⟨.obj [("company", acme)], []⟩ (.ident "company") = .ok acme ∧ ∀ I, (∀ e v, I e v → ∃ m, v = .obj m) → ¬ Holds I ⟨"company", true⟩ acme := by
  refine ⟨by decide +kernel, by decide +kernel, rfl, ?_⟩
  rintro I ho (h | ⟨h, _⟩ | ⟨_, xs, h, _⟩) <;> cases h

/-- A dot in a name between brackets is read as two names: `customer["company.parent"]` has the source of `customer.company.parent`. -/
theorem C71_dotted_name (B : Builtins) : sourceOf (.member (.ident "a") (.str "b.c")) = sourceOf (.member (.member (.ident "a") (.str "b")) (.str "c")) ∧
    evaluate B ⟨.obj [("a", .obj [("b.c", .num 5), ("b", .obj [("c", acme)])])], []⟩ (.member (.ident "a") (.str "b.c")) = .ok (.num 5) ∧
    propAt ⟨.obj [("a", .obj [("b.c", .num 5), ("b", .obj [("c", acme)])])], []⟩ ["a", "b", "c"] = acme := ⟨by decide +kernel, rfl, rfl⟩

/-- An assignment in the condition changes what the property is: `(employer = 5; true) ? employer : employer`. -/
theorem C71_assigned (B : Builtins) : let n : Node := .cond (.paren (.assigns [(.str "employer", .num 5)] (some (.bool true)))) (.ident "employer") (.ident "employer")
    flowOf n = some ⟨["employer"], false⟩ ∧ evaluate B ⟨.obj [("employer", acme)], []⟩ n = .ok (.num 5) ∧
    propAt ⟨.obj [("employer", acme)], []⟩ ["employer"] = acme := ⟨by decide +kernel, rfl, rfl⟩

end Zen.Policy.Inst
