import Verif.Analysis.ReadsSpec
import Verif.Core.MapLemmas
/-
Environments that agree on a set of paths, and what assignments do to the agreement.
-/
namespace Zen.Reads
open Zen

theorem readAt_append (p q : List String) : ∀ v, readAt v (p ++ q) = readAt (readAt v p) q := by
  induction p with
  | nil => intro v; rfl
  | cons k p ih =>
    intro v
    have hn : ∀ q, readAt .null q = .null := by intro q; cases q <;> rfl
    cases v <;> first | exact ih _ | (simp only [List.cons_append, readAt]; rw [hn])

theorem readAt_null (q : List String) : readAt .null q = .null := by cases q <;> rfl

theorem readAt_fastProp (v : Val) (k : String) (r : List String) : readAt v (k :: r) = readAt (fastProp k v) r := by
  cases v <;> first | rfl | (simp only [readAt, fastProp]; rw [readAt_null])

theorem Agree.ext {b b' : Val} {p : List String} (q : List String) (hp : p ≠ []) (h : Agree b b' p) : Agree b b' (p ++ q) := by
  cases p with
  | nil => exact absurd rfl hp
  | cons k r =>
    by_cases hk : k = "$root"
    · subst hk
      change readAt b (r ++ q) = readAt b' (r ++ q)
      rw [readAt_append, readAt_append]
      exact congrArg (readAt · q) h
    · have e : ∀ t, Agree b b' (k :: t) ↔ readAt b (k :: t) = readAt b' (k :: t) := by
        intro t
        unfold Agree
        split
        · rename_i h1; injection h1 with h1 _; exact absurd h1 hk
        · exact Iff.rfl
      rw [List.cons_append, e]
      rw [e] at h
      have := congrArg (readAt · q) h
      simpa only [← readAt_append, List.cons_append] using this

theorem agree_plain {b b' : Val} {k : String} {r : List String} (hk : k ≠ "$root") :
    Agree b b' (k :: r) ↔ readAt b (k :: r) = readAt b' (k :: r) := by
  unfold Agree
  split
  · rename_i h1; injection h1 with h1 _; exact absurd h1 hk
  · exact Iff.rfl

/-- the value at a path in a scope -/
def rd (e : Scope) : List String → Val
  | [] => .null
  | k :: r => readAt ((e.get k).getD .null) r

theorem rd_ext {e e' : Scope} {p : List String} (q : List String) (hp : p ≠ []) (h : rd e p = rd e' p) :
    rd e (p ++ q) = rd e' (p ++ q) := by
  cases p with
  | nil => exact absurd rfl hp
  | cons k r =>
    simp only [rd, List.cons_append, readAt_append] at h ⊢
    rw [h]

theorem aGet_foldl_aSet (k : String) : ∀ (l m : List (String × Val)), (aKeys l).Nodup →
    aGet (l.foldl (fun m kv => aSet m kv.1 kv.2) m) k = match aGet l k with
      | some v => some v
      | none => aGet m k
  | [], m, _ => rfl
  | (a, v) :: l, m, h => by
    have h' : a ∉ aKeys l ∧ (aKeys l).Nodup := by
      simpa [aKeys] using h
    rw [List.foldl_cons, aGet_foldl_aSet k l _ h'.2, aGet_cons, aGet_aSet]
    by_cases hk : a = k
    · subst hk
      have : aGet l a = none := (aGet_eq_none_iff l a).2 h'.1
      simp [this]
    · have : ¬ k = a := fun h => hk h.symm
      simp [hk, this]

theorem materialize_obj {e : Scope} {m : List (String × Val)} (hb : e.base = .obj m) (nd : (aKeys e.locals).Nodup) :
    ∃ m', e.materialize = .obj m' ∧ ∀ k, aGet m' k = e.get k := by
  unfold Scope.materialize
  split
  · rename_i h
    refine ⟨m, hb, fun k => ?_⟩
    have : e.locals = [] := by simpa using h
    unfold Scope.get Scope.local_
    rw [this, hb]
    rfl
  · rw [hb]
    refine ⟨_, rfl, fun k => ?_⟩
    rw [aGet_foldl_aSet k _ _ nd]
    unfold Scope.get Scope.local_
    rw [hb]
    cases aGet e.locals k <;> rfl

/-- Two scopes of two runs that agree on the paths in `X`. `W` says that the runs started with the same
environment; then everything is the same. -/
structure Sim (W : Prop) (X : List String → Prop) (e e' : Scope) : Prop where
  base : ∃ m, e.base = .obj m
  base' : ∃ m, e'.base = .obj m
  nd : (aKeys e.locals).Nodup
  nd' : (aKeys e'.locals).Nodup
  whole : W → e = e'
  agree : ∀ p, p ≠ [] → X p → rd e p = rd e' p

theorem Sim.weaken {W : Prop} {X Y : List String → Prop} {e e' : Scope} (h : Sim W X e e') (hy : ∀ p, Y p → X p) :
    Sim W Y e e' := ⟨h.base, h.base', h.nd, h.nd', h.whole, fun p hp hx => h.agree p hp (hy p hx)⟩

/-- results of two runs: the same error, or the same value with scopes that agree -/
def Rel (W : Prop) (X : List String → Prop) {α : Type} (r r' : Except VErr (α × Scope)) : Prop :=
  (∃ e, r = .error e ∧ r' = .error e) ∨ ∃ v e e', r = .ok (v, e) ∧ r' = .ok (v, e') ∧ Sim W X e e'

theorem Rel.weaken {W : Prop} {X Y : List String → Prop} {α : Type} {r r' : Except VErr (α × Scope)} (h : Rel W X r r')
    (hy : ∀ p, Y p → X p) : Rel W Y r r' :=
  h.imp_right fun ⟨v, e, e', h1, h2, h3⟩ => ⟨v, e, e', h1, h2, h3.weaken hy⟩

theorem Rel.ok {W : Prop} {X : List String → Prop} {α : Type} {v : α} {e e' : Scope} (h : Sim W X e e') :
    Rel W X (.ok (v, e)) (.ok (v, e')) := .inr ⟨v, e, e', rfl, rfl, h⟩

theorem Rel.err {W : Prop} {X : List String → Prop} {α : Type} {x : VErr} :
    Rel W X (.error x : Except VErr (α × Scope)) (.error x) := .inl ⟨x, rfl, rfl⟩

/-! ## Assignments -/

/-- an object in place of what is not one -/
def asObj : Val → Val
  | .obj m => .obj m
  | _ => .obj []

theorem detachChild_eq (o : Option Val) : Val.detachChild o = asObj (o.getD .null) := by
  cases o with
  | none => rfl
  | some v => cases v <;> rfl

theorem readAt_asObj (v : Val) (k : String) (r : List String) : readAt (asObj v) (k :: r) = readAt v (k :: r) := by
  cases v <;> first | rfl | exact readAt_null r

theorem asObj_obj (v : Val) : ∃ m, asObj v = .obj m := by cases v <;> exact ⟨_, rfl⟩

theorem insert_some : ∀ (p : List String) (m : List (String × Val)) (v : Val), p ≠ [] →
    ∃ m', Val.dotInsertDetachedP (.obj m) p v = some (.obj m')
  | [], _, _, h => absurd rfl h
  | [k], m, v, _ => ⟨_, rfl⟩
  | k :: k' :: ks, m, v, _ => by
    obtain ⟨c, hc⟩ := asObj_obj ((aGet m k).getD .null)
    obtain ⟨m', hm⟩ := insert_some (k' :: ks) c v (by simp)
    refine ⟨aSet m k (.obj m'), ?_⟩
    simp only [Val.dotInsertDetachedP]
    rw [detachChild_eq, hc, hm]

/-- Writing keeps agreement, and what was written agrees. -/
theorem insert_agree (v : Val) : ∀ (p : List String) (m n m' n' : List (String × Val)) (q : List String), q ≠ [] →
    Val.dotInsertDetachedP (.obj m) p v = some (.obj m') → Val.dotInsertDetachedP (.obj n) p v = some (.obj n') →
    (readAt (.obj m) q = readAt (.obj n) q ∨ p.isPrefixOf q = true) → readAt (.obj m') q = readAt (.obj n') q
  | [], m, n, m', n', q, _, h, _, _ => by simp [Val.dotInsertDetachedP] at h
  | [k], m, n, m', n', q, hq, h, h', hr => by
    simp only [Val.dotInsertDetachedP, Option.some.injEq, Val.obj.injEq] at h h'
    subst h h'
    cases q with
    | nil => exact absurd rfl hq
    | cons x r =>
      simp only [readAt, aGet_aSet]
      by_cases hx : x = k
      · simp [hx]
      · rw [if_neg hx, if_neg hx]
        rcases hr with hr | hr
        · exact hr
        · simp [List.isPrefixOf] at hr
          exact absurd hr.symm hx
  | k :: k' :: ks, m, n, m', n', q, hq, h, h', hr => by
    obtain ⟨c, hc⟩ := asObj_obj ((aGet m k).getD .null)
    obtain ⟨c', hc'⟩ := asObj_obj ((aGet n k).getD .null)
    obtain ⟨d, hd⟩ := insert_some (k' :: ks) c v (by simp)
    obtain ⟨d', hd'⟩ := insert_some (k' :: ks) c' v (by simp)
    simp only [Val.dotInsertDetachedP, detachChild_eq, hc, hc', hd, hd', Option.some.injEq, Val.obj.injEq] at h h'
    subst h h'
    cases q with
    | nil => exact absurd rfl hq
    | cons x r =>
      simp only [readAt, aGet_aSet]
      by_cases hx : x = k
      · subst hx
        simp only [if_true, Option.getD_some]
        cases r with
        | nil =>
          rcases hr with hr | hr
          · simp only [readAt] at hr ⊢
            rw [hr, hc'] at hc
            injection hc with hc
            subst hc
            rw [hd] at hd'
            injection hd'
          · simp [List.isPrefixOf] at hr
        | cons y r =>
          refine insert_agree v (k' :: ks) c c' d d' (y :: r) (by simp) hd hd' ?_
          rcases hr with hr | hr
          · left
            simp only [readAt] at hr
            rw [← hc, ← hc', readAt_asObj, readAt_asObj]
            exact hr
          · right
            simpa [List.isPrefixOf] using hr
      · rw [if_neg hx, if_neg hx]
        rcases hr with hr | hr
        · exact hr
        · simp [List.isPrefixOf] at hr
          exact absurd hr.1.symm hx

theorem splitDotC_plain : ∀ cs : List Char, '.' ∉ cs → splitDotC cs = [cs]
  | [], _ => rfl
  | c :: r, h => by
    have h1 : ¬ c = '.' := fun e => h (by simp [e])
    have h2 : '.' ∉ r := fun e => h (by simp [e])
    simp only [splitDotC, if_neg h1, splitDotC_plain r h2]

theorem splitDot_plain {k : String} (h : '.' ∉ k.toList) : splitDot k = [k] := by
  unfold splitDot
  rw [splitDotC_plain _ h]
  simp

theorem splitDotC_ne : ∀ cs : List Char, splitDotC cs ≠ []
  | [] => by simp [splitDotC]
  | c :: r => by
    unfold splitDotC
    split
    · simp
    · split <;> simp

theorem splitDot_ne (k : String) : splitDot k ≠ [] := by
  unfold splitDot
  simpa using splitDotC_ne k.toList

theorem get_setLocal (e : Scope) (k x : String) (v : Val) : (e.setLocal k v).get x = if x = k then some v else e.get x := by
  unfold Scope.setLocal Scope.get Scope.local_
  simp only [aGet_aSet]
  by_cases h : x = k <;> simp [h]

theorem rd_materialize {e : Scope} {m' : List (String × Val)} (hg : ∀ k, aGet m' k = e.get k) {q : List String}
    (hq : q ≠ []) : readAt (.obj m') q = rd e q := by
  cases q with
  | nil => exact absurd rfl hq
  | cons k r => simp only [readAt, rd, hg]

/-- An assignment succeeds and adds its target to what the scopes agree on. -/
theorem assign_sim {W : Prop} {X : List String → Prop} {e e' : Scope} (h : Sim W X e e') (k : String) (v acc : Val) :
    ∃ e1 e1' a, opAssignStep (.str k) v e (some acc) = .ok (e1, a) ∧ opAssignStep (.str k) v e' (some acc) = .ok (e1', a) ∧
      Sim W (fun p => X p ∨ (splitDot k).isPrefixOf p = true) e1 e1' := by
  obtain ⟨m, hb⟩ := h.base
  obtain ⟨n, hb'⟩ := h.base'
  by_cases hdot : '.' ∈ k.toList
  · obtain ⟨m1, hm, hg⟩ := materialize_obj hb h.nd
    obtain ⟨n1, hn, hg'⟩ := materialize_obj hb' h.nd'
    obtain ⟨m2, hm2⟩ := insert_some (splitDot k) m1 v (splitDot_ne k)
    obtain ⟨n2, hn2⟩ := insert_some (splitDot k) n1 v (splitDot_ne k)
    refine ⟨⟨.obj m2, []⟩, ⟨.obj n2, []⟩, (acc.dotInsert k v).1, ?_, ?_, ⟨⟨m2, rfl⟩, ⟨n2, rfl⟩, List.nodup_nil, List.nodup_nil, ?_, ?_⟩⟩
    · simp only [opAssignStep, hb, if_pos hdot, hm, Val.dotInsertDetached, hm2]
    · simp only [opAssignStep, hb', if_pos hdot, hn, Val.dotInsertDetached, hn2]
    · intro w
      have := h.whole w
      subst this
      rw [hm] at hn
      injection hn with hn
      subst hn
      rw [hm2] at hn2
      injection hn2 with hn2
      rw [hn2]
    · intro p hp hx
      have key := insert_agree v (splitDot k) m1 n1 m2 n2 p hp hm2 hn2 (by
        rcases hx with hx | hx
        · left
          rw [rd_materialize hg hp, rd_materialize hg' hp]
          exact h.agree p hp hx
        · exact .inr hx)
      cases p with
      | nil => exact absurd rfl hp
      | cons x r => exact key
  · refine ⟨e.setLocal k v, e'.setLocal k v, (acc.dotInsert k v).1, ?_, ?_, ⟨⟨m, hb⟩, ⟨n, hb'⟩, aKeys_aSet_nodup _ _ h.nd, aKeys_aSet_nodup _ _ h.nd', ?_, ?_⟩⟩
    · simp only [opAssignStep, hb, if_neg hdot]
    · simp only [opAssignStep, hb', if_neg hdot]
    · intro w; rw [h.whole w]
    · intro p hp hx
      cases p with
      | nil => exact absurd rfl hp
      | cons x r =>
        simp only [rd, get_setLocal]
        by_cases hxk : x = k
        · simp [hxk]
        · rw [if_neg hxk, if_neg hxk]
          rcases hx with hx | hx
          · exact h.agree _ hp hx
          · rw [splitDot_plain hdot] at hx
            simp [List.isPrefixOf] at hx
            exact absurd hx.symm hxk

end Zen.Reads
