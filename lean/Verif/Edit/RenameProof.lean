import Verif.Edit.Rename
import Verif.Analysis.ReadsPath
/-
An expression and its lexical renaming have the same value, in scopes that differ in the name of one entry.
-/
namespace Zen.Rename
open Zen Reads

/-- results of two runs: the same error, or the same value with related scopes -/
def Rel (R : Scope → Scope → Prop) {α : Type} (r r' : Except VErr (α × Scope)) : Prop :=
  (∃ e, r = .error e ∧ r' = .error e) ∨ ∃ v e e', r = .ok (v, e) ∧ r' = .ok (v, e') ∧ R e e'

theorem Rel.ok {R : Scope → Scope → Prop} {α : Type} {v : α} {e e' : Scope} (h : R e e') :
    Rel R (.ok (v, e)) (.ok (v, e')) := .inr ⟨v, e, e', rfl, rfl, h⟩

theorem Rel.err {R : Scope → Scope → Prop} {α : Type} {x : VErr} :
    Rel R (.error x : Except VErr (α × Scope)) (.error x) := .inl ⟨x, rfl, rfl⟩

section loops
variable {R : Scope → Scope → Prop}

theorem Rel.map {α β : Type} {r r' : Except VErr (α × Scope)} (f : α → β) (h : Rel R r r') :
    Rel R (r.map fun q => (f q.1, q.2)) (r'.map fun q => (f q.1, q.2)) := by
  rcases h with ⟨e, rfl, rfl⟩ | ⟨a, e, e', rfl, rfl, h⟩
  · exact Rel.err
  · exact Rel.ok h

variable {f f' : Val → Scope → Res} (hf : ∀ x e e', R e e' → Rel R (f x e) (f' x e'))
include hf

theorem relAll (xs : List Val) : ∀ e e', R e e' → Rel R (loopAll f xs e) (loopAll f' xs e') := by
  induction xs with
  | nil => intro e e' h; exact Rel.ok h
  | cons x xs ih =>
    intro e e' h
    simp only [loopAll]
    rcases hf x e e' h with ⟨e, e1, e2⟩ | ⟨a, e, e', e1, e2, h⟩ <;> simp only [e1, e2]
    · exact Rel.err
    · cases a with
      | bool b =>
        cases b
        · exact Rel.ok h
        · exact ih _ _ h
      | _ => exact Rel.err

theorem relSome (xs : List Val) : ∀ e e', R e e' → Rel R (loopSome f xs e) (loopSome f' xs e') := by
  induction xs with
  | nil => intro e e' h; exact Rel.ok h
  | cons x xs ih =>
    intro e e' h
    simp only [loopSome]
    rcases hf x e e' h with ⟨e, e1, e2⟩ | ⟨a, e, e', e1, e2, h⟩ <;> simp only [e1, e2]
    · exact Rel.err
    · cases a with
      | bool b =>
        cases b
        · exact ih _ _ h
        · exact Rel.ok h
      | _ => exact Rel.err

theorem relNone (xs : List Val) : ∀ e e', R e e' → Rel R (loopNone f xs e) (loopNone f' xs e') := by
  induction xs with
  | nil => intro e e' h; exact Rel.ok h
  | cons x xs ih =>
    intro e e' h
    simp only [loopNone]
    rcases hf x e e' h with ⟨e, e1, e2⟩ | ⟨a, e, e', e1, e2, h⟩ <;> simp only [e1, e2]
    · exact Rel.err
    · cases a with
      | bool b =>
        cases b
        · exact ih _ _ h
        · exact Rel.ok h
      | _ => exact Rel.err

theorem relFilter (xs : List Val) : ∀ e e', R e e' → Rel R (loopFilter f xs e) (loopFilter f' xs e') := by
  induction xs with
  | nil => intro e e' h; exact Rel.ok h
  | cons x xs ih =>
    intro e e' h
    simp only [loopFilter]
    rcases hf x e e' h with ⟨e, e1, e2⟩ | ⟨a, e, e', e1, e2, h⟩ <;> simp only [e1, e2]
    · exact Rel.err
    · cases a with
      | bool b =>
        cases b
        · exact ih _ _ h
        · dsimp only
          rcases ih _ _ h with ⟨e, e1, e2⟩ | ⟨a, e, e', e1, e2, h⟩ <;> simp only [e1, e2]
          · exact Rel.err
          · exact Rel.ok h
      | _ => exact Rel.err

theorem relMap (xs : List Val) : ∀ e e', R e e' → Rel R (loopMap f xs e) (loopMap f' xs e') := by
  induction xs with
  | nil => intro e e' h; exact Rel.ok h
  | cons x xs ih =>
    intro e e' h
    simp only [loopMap]
    rcases hf x e e' h with ⟨e, e1, e2⟩ | ⟨a, e, e', e1, e2, h⟩ <;> simp only [e1, e2]
    · exact Rel.err
    · rcases ih _ _ h with ⟨e, e1, e2⟩ | ⟨a, e, e', e1, e2, h⟩ <;> simp only [e1, e2]
      · exact Rel.err
      · exact Rel.ok h

theorem relLoop (k : Clo) (xs : List Val) {e e' : Scope} (h : R e e') :
    Rel R (loopMeaning k f xs e) (loopMeaning k f' xs e') := by
  cases k <;> simp only [loopMeaning]
  · exact Rel.map (Val.bool ·) (relAll hf xs _ _ h)
  · exact Rel.map (Val.bool ·) (relNone hf xs _ _ h)
  · exact Rel.map (Val.bool ·) (relSome hf xs _ _ h)
  · exact Rel.map (fun r : List Val => Val.bool (decide (r.length = 1))) (relFilter hf xs _ _ h)
  · exact Rel.map (fun r : List Val => Val.arr r) (relFilter hf xs _ _ h)
  · exact Rel.map (fun r : List Val => Val.arr r) (relMap hf xs _ _ h)
  · exact Rel.map (fun r : List Val => Val.arr (flattenV r)) (relMap hf xs _ _ h)
  · exact Rel.map (fun r : List Val => Val.num r.length) (relFilter hf xs _ _ h)
end loops

/-- What is called `x` in one scope is called `y` in the other; everything else has the same name. -/
structure Swap (x y : String) (e e' : Scope) : Prop where
  base : ∃ m, e.base = .obj m
  base' : ∃ m, e'.base = .obj m
  nd : (aKeys e.locals).Nodup
  nd' : (aKeys e'.locals).Nodup
  moved : e.get x = e'.get y
  same : ∀ k, k ≠ x → k ≠ y → e.get k = e'.get k

variable {x y : String}

theorem insert_head (v : Val) : ∀ (k : String) (ks : List String), ∃ g : Option Val → Val, ∀ m,
    Val.dotInsertDetachedP (.obj m) (k :: ks) v = some (.obj (aSet m k (g (aGet m k))))
  | k, [] => ⟨fun _ => v, fun _ => rfl⟩
  | k, k' :: ks => by
    refine ⟨fun o => (Val.dotInsertDetachedP (Val.detachChild o) (k' :: ks) v).getD .null, fun m => ?_⟩
    obtain ⟨c, hc⟩ := asObj_obj ((aGet m k).getD .null)
    obtain ⟨d, hd⟩ := insert_some (k' :: ks) c v (by simp)
    simp only [Val.dotInsertDetachedP, detachChild_eq, hc, hd, Option.getD_some]

theorem Swap.assign {e e' : Scope} (h : Swap x y e e') {k hd : String} (hk : (splitDot k).head? = some hd)
    (hx : hd ≠ x) (hy : hd ≠ y) (v acc : Val) :
    ∃ e1 e1' a, opAssignStep (.str k) v e (some acc) = .ok (e1, a) ∧ opAssignStep (.str k) v e' (some acc) = .ok (e1', a) ∧
      Swap x y e1 e1' := by
  obtain ⟨m, hb⟩ := h.base
  obtain ⟨n, hb'⟩ := h.base'
  by_cases hdot : '.' ∈ k.toList
  · obtain ⟨m1, hm, hg⟩ := materialize_obj hb h.nd
    obtain ⟨n1, hn, hg'⟩ := materialize_obj hb' h.nd'
    cases hs : splitDot k with
    | nil => rw [hs] at hk; cases hk
    | cons a ks =>
      rw [hs] at hk
      injection hk with hk
      subst hk
      obtain ⟨g, hins⟩ := insert_head v a ks
      have ha : aGet m1 a = aGet n1 a := by rw [hg, hg', h.same a hx hy]
      refine ⟨⟨.obj (aSet m1 a (g (aGet m1 a))), []⟩, ⟨.obj (aSet n1 a (g (aGet n1 a))), []⟩, (acc.dotInsert k v).1, ?_, ?_,
        ⟨⟨_, rfl⟩, ⟨_, rfl⟩, List.nodup_nil, List.nodup_nil, ?_, ?_⟩⟩
      · simp only [opAssignStep, hb, if_pos hdot, hm, Val.dotInsertDetached, hs, hins]
      · simp only [opAssignStep, hb', if_pos hdot, hn, Val.dotInsertDetached, hs, hins]
      · change aGet (aSet m1 a (g (aGet m1 a))) x = aGet (aSet n1 a (g (aGet n1 a))) y
        simp only [aGet_aSet, if_neg (Ne.symm hx), if_neg (Ne.symm hy), hg, hg', h.moved]
      · intro z hzx hzy
        change aGet (aSet m1 a (g (aGet m1 a))) z = aGet (aSet n1 a (g (aGet n1 a))) z
        simp only [aGet_aSet, hg, hg', h.same z hzx hzy, h.same a hx hy]
  · have e0 : k = hd := by
      rw [splitDot_plain hdot] at hk
      injection hk
    subst e0
    refine ⟨e.setLocal k v, e'.setLocal k v, (acc.dotInsert k v).1, ?_, ?_, ⟨⟨m, hb⟩, ⟨n, hb'⟩, aKeys_aSet_nodup _ _ h.nd,
      aKeys_aSet_nodup _ _ h.nd', ?_, ?_⟩⟩
    · simp only [opAssignStep, hb, if_neg hdot]
    · simp only [opAssignStep, hb', if_neg hdot]
    · simp only [get_setLocal, if_neg (Ne.symm hx), if_neg (Ne.symm hy), h.moved]
    · intro z hzx hzy
      simp only [get_setLocal, h.same z hzx hzy]

variable {B : Builtins} {r0 r1 : Scope}

/-- the elements of the enclosing closures, the same in both runs -/
structure Around (x y : String) (fr : Frames) (bound : Bool) : Prop where
  fresh : aliasOf fr y = none
  bound : bound = (aliasOf fr x).isSome

theorem Around.cons {fr : Frames} {b : Bool} (h : Around x y fr b) {al : Option String} (ha : al ≠ some y) (v : Val) :
    Around x y ((al, v) :: fr) (b || al == some x) := by
  cases al with
  | none => exact ⟨h.fresh, by simpa [aliasOf] using h.bound⟩
  | some a =>
    have hay : a ≠ y := fun e => ha (by rw [e])
    refine ⟨by simpa [aliasOf, hay] using h.fresh, ?_⟩
    by_cases hax : a = x
    · simp [aliasOf, hax]
    · have e : (b || some a == some x) = b := by simp [hax]
      rw [e]
      simpa [aliasOf, hax] using h.bound

/-- an expression and its renaming behave in the same way -/
def Alike (x y : String) (B : Builtins) (r0 r1 : Scope) (n : Node) : Prop :=
  ∀ b fr e e', Around x y fr b → Swap x y e e' → fresh x y n = true →
    Rel (Swap x y) (eval B r0 fr e n) (eval B r1 fr e' (sub x y b n))

theorem ident_get {b : Bool} {fr : Frames} {e e' : Scope} {v : String} (ha : Around x y fr b) (hs : Swap x y e e')
    (hv : v ≠ y) : aliasOf fr (if v = x && !b then y else v) = aliasOf fr v ∧
      (aliasOf fr v = none → e.get v = e'.get (if v = x && !b then y else v)) := by
  by_cases hx : v = x
  · subst hx
    cases hb : b with
    | true => exact ⟨by simp, fun h => by have := ha.bound; rw [h, hb] at this; cases this⟩
    | false =>
      have h0 : aliasOf fr v = none := by
        have := ha.bound
        rw [hb] at this
        cases h : aliasOf fr v with
        | none => rfl
        | some _ => rw [h] at this; cases this
      exact ⟨by simp [h0, ha.fresh], fun _ => by simpa using hs.moved⟩
  · exact ⟨by simp [hx], fun _ => by simpa [hx] using hs.same v hx hv⟩

theorem lenient_sub {b : Bool} {fr : Frames} {e e' : Scope} (ha : Around x y fr b) (hs : Swap x y e e') :
    ∀ n : Node, fresh x y n = true → lenient r0 e fr n = lenient r1 e' fr (sub x y b n) := by
  intro n
  induction n using Node.ind with
  | ident v =>
    intro h
    have hv : v ≠ y := by simpa [fresh] using h
    obtain ⟨h1, h2⟩ := ident_get ha hs hv
    simp only [lenient, sub, h1]
    cases h0 : aliasOf fr v with
    | some _ => rfl
    | none => simp only [h2 h0]
  | root => intro h; simp [fresh] at h
  | member n p ih _ =>
    intro h
    simp only [fresh, Bool.and_eq_true] at h
    simp only [lenient, sub, ih h.1]
    cases lenient r1 e' fr (sub x y b n) with
    | none => rfl
    | some w => cases p <;> rfl
  | _ => intro _; rfl

theorem alike_list {ps : List Node} (ih : ∀ n ∈ ps, Alike x y B r0 r1 n) : ∀ b fr e e', Around x y fr b → Swap x y e e' →
    freshList x y ps = true → Rel (Swap x y) (evalList B r0 fr e ps) (evalList B r1 fr e' (subList x y b ps)) := by
  induction ps with
  | nil => intro b fr e e' ha hs _; exact Rel.ok hs
  | cons n ns ihn =>
    intro b fr e e' ha hs h
    simp only [freshList, Bool.and_eq_true] at h
    simp only [evalList, subList]
    rcases ih n (by simp) b fr e e' ha hs h.1 with ⟨z, e1, e2⟩ | ⟨v, f, f', e1, e2, hs⟩ <;> simp only [e1, e2]
    · exact Rel.err
    · rcases ihn (fun m hm => ih m (by simp [hm])) b fr f f' ha hs h.2 with ⟨z, e1, e2⟩ | ⟨v, f, f', e1, e2, hs⟩ <;>
        simp only [e1, e2]
      · exact Rel.err
      · exact Rel.ok hs

theorem alike_tmpl {ps : List Node} (ih : ∀ n ∈ ps, Alike x y B r0 r1 n) : ∀ b fr e e', Around x y fr b → Swap x y e e' →
    freshList x y ps = true → Rel (Swap x y) (evalTmpl B r0 fr e ps) (evalTmpl B r1 fr e' (subList x y b ps)) := by
  induction ps with
  | nil => intro b fr e e' ha hs _; exact Rel.ok hs
  | cons n ns ihn =>
    intro b fr e e' ha hs h
    simp only [freshList, Bool.and_eq_true] at h
    simp only [evalTmpl, subList]
    rcases ih n (by simp) b fr e e' ha hs h.1 with ⟨z, e1, e2⟩ | ⟨v, f, f', e1, e2, hs⟩ <;> simp only [e1, e2]
    · exact Rel.err
    · cases strOf B v with
      | error z => exact Rel.err
      | ok w =>
        dsimp only
        rcases ihn (fun m hm => ih m (by simp [hm])) b fr f f' ha hs h.2 with ⟨z, e1, e2⟩ | ⟨v, f, f', e1, e2, hs⟩ <;>
          simp only [e1, e2]
        · exact Rel.err
        · exact Rel.ok hs

theorem alike_obj {ps : List (Node × Node)} (ih : ∀ p ∈ ps, Alike x y B r0 r1 p.1 ∧ Alike x y B r0 r1 p.2) : ∀ b fr e e',
    Around x y fr b → Swap x y e e' → freshPairs x y ps = true →
    Rel (Swap x y) (evalObj B r0 fr e ps) (evalObj B r1 fr e' (subPairs x y b ps)) := by
  induction ps with
  | nil => intro b fr e e' ha hs _; exact Rel.ok hs
  | cons p ns ihn =>
    obtain ⟨k, v⟩ := p
    intro b fr e e' ha hs h
    simp only [freshPairs, Bool.and_eq_true] at h
    simp only [evalObj, subPairs]
    rcases (ih (k, v) (by simp)).1 b fr e e' ha hs h.1.1 with ⟨z, e1, e2⟩ | ⟨w, f, f', e1, e2, hs⟩ <;> simp only [e1, e2]
    · exact Rel.err
    · cases strOf B w with
      | error z => exact Rel.err
      | ok w =>
        dsimp only
        rcases (ih (k, v) (by simp)).2 b fr f f' ha hs h.1.2 with ⟨z, e1, e2⟩ | ⟨u, f, f', e1, e2, hs⟩ <;> simp only [e1, e2]
        · exact Rel.err
        · rcases ihn (fun m hm => ih m (by simp [hm])) b fr f f' ha hs h.2 with ⟨z, e1, e2⟩ | ⟨v, f, f', e1, e2, hs⟩ <;>
            simp only [e1, e2]
          · exact Rel.err
          · cases w <;> first | exact Rel.ok hs | exact Rel.err

theorem alike_asg {ps : List (Node × Node)} (ih : ∀ p ∈ ps, Alike x y B r0 r1 p.1 ∧ Alike x y B r0 r1 p.2) : ∀ b fr e e' acc,
    Around x y fr b → Swap x y e e' → freshAsg x y ps = true →
    Rel (Swap x y) (evalAsg B r0 fr e acc ps) (evalAsg B r1 fr e' acc (subAsg x y b ps)) := by
  induction ps with
  | nil => intro b fr e e' acc ha hs _; exact Rel.ok hs
  | cons p ns ihn =>
    obtain ⟨k, v⟩ := p
    intro b fr e e' acc ha hs h
    simp only [freshAsg, Bool.and_eq_true] at h
    cases k <;> simp only [keyHead, Bool.false_eq_true, false_and, and_false] at h
    rename_i k
    cases hk : (splitDot k).head? with
    | none => rw [hk] at h; simp at h
    | some hd =>
      rw [hk] at h
      simp only [Bool.and_eq_true, bne_iff_ne, ne_eq] at h
      simp only [evalAsg, subAsg, eval]
      rcases (ih (.str k, v) (by simp)).2 b fr e e' ha hs h.1.2 with ⟨z, e1, e2⟩ | ⟨u, f, f', e1, e2, hs⟩ <;> simp only [e1, e2]
      · exact Rel.err
      · obtain ⟨e1, e1', a, h1, h2, hs⟩ := hs.assign hk h.1.1.1 h.1.1.2 u acc
        simp only [h1, h2]
        exact ihn (fun m hm => ih m (by simp [hm])) b fr e1 e1' a ha hs h.2

theorem alike_opt {o : Option Node} (ih : ∀ n, o = some n → Alike x y B r0 r1 n) (dflt : Val) : ∀ b fr e e',
    Around x y fr b → Swap x y e e' → freshOpt x y o = true →
    Rel (Swap x y) (evalOpt B r0 fr e dflt o) (evalOpt B r1 fr e' dflt (subOpt x y b o)) := by
  intro b fr e e' ha hs h
  cases o with
  | none => exact Rel.ok hs
  | some n => exact ih n rfl b fr e e' ha hs h

theorem alike_to {o : Option Node} (ih : ∀ n, o = some n → Alike x y B r0 r1 n) (c : Val) : ∀ b fr e e',
    Around x y fr b → Swap x y e e' → freshOpt x y o = true →
    Rel (Swap x y) (evalTo B r0 fr e c o) (evalTo B r1 fr e' c (subOpt x y b o)) := by
  intro b fr e e' ha hs h
  cases o with
  | none =>
    simp only [evalTo, subOpt]
    cases opLen c with
    | error z => exact Rel.err
    | ok l =>
      dsimp only
      cases opSub B.num l (.num 1) with
      | error z => exact Rel.err
      | ok l => exact Rel.ok hs
  | some n => exact ih n rfl b fr e e' ha hs h

theorem alike (n : Node) : Alike x y B r0 r1 n := by
  induction n using Node.ind with
  | null | bool | num | str => exact fun b fr e e' ha hs h => Rel.ok hs
  | error => exact fun b fr e e' ha hs h => Rel.err
  | pointer =>
    intro b fr e e' ha hs h
    cases fr with
    | nil => exact Rel.err
    | cons a fr => exact Rel.ok hs
  | root => intro b fr e e' ha hs h; simp [fresh] at h
  | paren n ih => exact fun b fr e e' ha hs h => ih b fr e e' ha hs h
  | ident v =>
    intro b fr e e' ha hs h
    have hv : v ≠ y := by simpa [fresh] using h
    obtain ⟨h1, h2⟩ := ident_get ha hs hv
    simp only [eval, sub, h1]
    cases h0 : aliasOf fr v with
    | some _ => exact Rel.ok hs
    | none =>
      simp only [fetch_obj hs.base, fetch_obj hs.base', h2 h0]
      exact Rel.ok hs
  | member n p ihn ihp =>
    intro b fr e e' ha hs h
    have hl := lenient_sub (r0 := r0) (r1 := r1) ha hs (.member n p) h
    simp only [fresh, Bool.and_eq_true] at h
    simp only [sub] at hl
    simp only [eval, sub]
    rw [hl]
    cases lenient r1 e' fr (.member (sub x y b n) (sub x y b p)) with
    | some v => exact Rel.ok hs
    | none =>
      dsimp only
      rcases ihn b fr e e' ha hs h.1 with ⟨z, e1, e2⟩ | ⟨u, f, f', e1, e2, hs⟩ <;> simp only [e1, e2]
      · exact Rel.err
      · rcases ihp b fr f f' ha hs h.2 with ⟨z, e1, e2⟩ | ⟨w, f, f', e1, e2, hs⟩ <;> simp only [e1, e2]
        · exact Rel.err
        · cases opFetch u w with
          | error z => exact Rel.err
          | ok v => exact Rel.ok hs
  | tmpl ps ih =>
    intro b fr e e' ha hs h
    simp only [eval, sub]
    rcases alike_tmpl ih b fr e e' ha hs h with ⟨z, e1, e2⟩ | ⟨v, f, f', e1, e2, hs⟩ <;> simp only [e1, e2]
    · exact Rel.err
    · cases opJoin B.checks (.arr v) (.str "") with
      | ok x => exact Rel.ok hs
      | error x => exact Rel.err
  | arr ps ih =>
    intro b fr e e' ha hs h
    simp only [eval, sub]
    rcases alike_list ih b fr e e' ha hs h with ⟨z, e1, e2⟩ | ⟨v, f, f', e1, e2, hs⟩ <;> simp only [e1, e2]
    · exact Rel.err
    · exact Rel.ok hs
  | call g ps ih =>
    intro b fr e e' ha hs h
    simp only [eval, sub]
    rcases alike_list ih b fr e e' ha hs h with ⟨z, e1, e2⟩ | ⟨v, f, f', e1, e2, hs⟩ <;> simp only [e1, e2]
    · exact Rel.err
    · cases B.fn g v with
      | ok x => exact Rel.ok hs
      | error x => exact Rel.err
  | obj ps ih =>
    intro b fr e e' ha hs h
    simp only [eval, sub]
    rcases alike_obj ih b fr e e' ha hs h with ⟨z, e1, e2⟩ | ⟨v, f, f', e1, e2, hs⟩ <;> simp only [e1, e2]
    · exact Rel.err
    · exact Rel.ok hs
  | assigns ps o ih iho =>
    intro b fr e e' ha hs h
    simp only [fresh, Bool.and_eq_true] at h
    simp only [eval, sub]
    rcases alike_asg ih b fr e e' (.obj []) ha hs h.1 with ⟨z, e1, e2⟩ | ⟨v, f, f', e1, e2, hs⟩ <;> simp only [e1, e2]
    · exact Rel.err
    · exact alike_opt iho v b fr f f' ha hs h.2
  | slice n f t ihn ihf iht =>
    intro b fr e e' ha hs h
    simp only [fresh, Bool.and_eq_true] at h
    simp only [eval, sub]
    rcases ihn b fr e e' ha hs h.1.1 with ⟨z, e1, e2⟩ | ⟨c, g, g', e1, e2, hs⟩ <;> simp only [e1, e2]
    · exact Rel.err
    · rcases alike_to iht c b fr g g' ha hs h.2 with ⟨z, e1, e2⟩ | ⟨w, g, g', e1, e2, hs⟩ <;> simp only [e1, e2]
      · exact Rel.err
      · rcases alike_opt ihf (.num 0) b fr g g' ha hs h.1.2 with ⟨z, e1, e2⟩ | ⟨u, g, g', e1, e2, hs⟩ <;> simp only [e1, e2]
        · exact Rel.err
        · cases opSlice c w u with
          | error z => exact Rel.err
          | ok v => exact Rel.ok hs
  | interval l r lb rb ihl ihr =>
    intro b fr e e' ha hs h
    simp only [fresh, Bool.and_eq_true] at h
    simp only [eval, sub]
    rcases ihl b fr e e' ha hs h.1 with ⟨z, e1, e2⟩ | ⟨u, f, f', e1, e2, hs⟩ <;> simp only [e1, e2]
    · exact Rel.err
    · rcases ihr b fr f f' ha hs h.2 with ⟨z, e1, e2⟩ | ⟨w, f, f', e1, e2, hs⟩ <;> simp only [e1, e2]
      · exact Rel.err
      · cases opInterval lb rb u w with
        | error z => exact Rel.err
        | ok v => exact Rel.ok hs
  | cond c t f ihc iht ihf =>
    intro b fr e e' ha hs h
    simp only [fresh, Bool.and_eq_true] at h
    simp only [eval, sub]
    rcases ihc b fr e e' ha hs h.1.1 with ⟨z, e1, e2⟩ | ⟨u, g, g', e1, e2, hs⟩ <;> simp only [e1, e2]
    · exact Rel.err
    · cases u with
      | bool v =>
        cases v
        · exact ihf b fr g g' ha hs h.2
        · exact iht b fr g g' ha hs h.1.2
      | _ => exact Rel.err
  | unary op n ih =>
    intro b fr e e' ha hs h
    simp only [eval, sub]
    rcases ih b fr e e' ha hs h with ⟨z, e1, e2⟩ | ⟨u, f, f', e1, e2, hs⟩ <;> simp only [e1, e2]
    · exact Rel.err
    · split
      · exact Rel.ok hs
      · cases opNegate u with
        | error z => exact Rel.err
        | ok v => exact Rel.ok hs
      · cases opNot u with
        | error z => exact Rel.err
        | ok v => exact Rel.ok hs
      · exact Rel.err
  | binary op l r ihl ihr =>
    intro b fr e e' ha hs h
    simp only [fresh, Bool.and_eq_true] at h
    simp only [eval, sub]
    split
    · rcases ihl b fr e e' ha hs h.1 with ⟨z, e1, e2⟩ | ⟨u, f, f', e1, e2, hs⟩ <;> simp only [e1, e2]
      · exact Rel.err
      · cases u with
        | bool v =>
          cases v
          · exact ihr b fr f f' ha hs h.2
          · exact Rel.ok hs
        | _ => exact Rel.err
    · rcases ihl b fr e e' ha hs h.1 with ⟨z, e1, e2⟩ | ⟨u, f, f', e1, e2, hs⟩ <;> simp only [e1, e2]
      · exact Rel.err
      · cases u with
        | bool v =>
          cases v
          · exact Rel.ok hs
          · exact ihr b fr f f' ha hs h.2
        | _ => exact Rel.err
    · rcases ihl b fr e e' ha hs h.1 with ⟨z, e1, e2⟩ | ⟨u, f, f', e1, e2, hs⟩ <;> simp only [e1, e2]
      · exact Rel.err
      · cases u <;> first | exact ihr b fr f f' ha hs h.2 | exact Rel.ok hs
    · split
      · exact Rel.err
      · rename_i g _
        rcases ihl b fr e e' ha hs h.1 with ⟨z, e1, e2⟩ | ⟨u, f, f', e1, e2, hs⟩ <;> simp only [e1, e2]
        · exact Rel.err
        · rcases ihr b fr f f' ha hs h.2 with ⟨z, e1, e2⟩ | ⟨w, f, f', e1, e2, hs⟩ <;> simp only [e1, e2]
          · exact Rel.err
          · cases g u w with
            | error z => exact Rel.err
            | ok v => exact Rel.ok hs
  | method m t ps iht ih =>
    intro b fr e e' ha hs h
    simp only [fresh, Bool.and_eq_true] at h
    simp only [eval, sub]
    rcases iht b fr e e' ha hs h.1 with ⟨z, e1, e2⟩ | ⟨u, f, f', e1, e2, hs⟩ <;> simp only [e1, e2]
    · exact Rel.err
    · rcases alike_list ih b fr f f' ha hs h.2 with ⟨z, e1, e2⟩ | ⟨v, f, f', e1, e2, hs⟩ <;> simp only [e1, e2]
      · exact Rel.err
      · cases B.method m (u :: v) with
        | ok x => exact Rel.ok hs
        | error x => exact Rel.err
  | closure k o al bd iho ihb =>
    intro b fr e e' ha hs h
    simp only [fresh, Bool.and_eq_true, bne_iff_ne, ne_eq] at h
    simp only [eval, sub]
    rcases iho b fr e e' ha hs h.1.1 with ⟨z, e1, e2⟩ | ⟨u, f, f', e1, e2, hs⟩ <;> simp only [e1, e2]
    · exact Rel.err
    · cases opBegin B.checks u with
      | error z => exact Rel.err
      | ok xs =>
        refine relLoop (f := fun v e => eval B r0 ((al, v) :: fr) e bd) ?_ k xs hs
        exact fun v f f' hs => ihb (b || al == some x) ((al, v) :: fr) f f' (ha.cons h.2 v) hs h.1.2

end Zen.Rename
