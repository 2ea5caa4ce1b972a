import Verif.Parse.Assign
import Verif.Parse.ParenLintValue
import Verif.Policy.Place
import Verif.Analysis.ReadsSim
import Verif.Props.C66
import Verif.Props.C73
/-
C74: lists of assignments are read as they are written and give what they assign.
-/
namespace Zen
open Zen.Parse Zen.Lex Zen.Val Zen.Policy

/-! ## Reading -/

theorem usualP_pairs {R : Bool} : ∀ kvs : List (List String × Node), usualP R (pairs kvs) = true ↔ ∀ kv ∈ kvs, usual R kv.2 = true
  | [] => by simp [pairs, usualP]
  | kv :: kvs => by
    have := usualP_pairs (R := R) kvs
    unfold pairs at this ⊢
    simp [usualP, usual, this]

theorem hasErrorP_pairs : ∀ kvs : List (List String × Node), hasErrorP (pairs kvs) = false ↔ ∀ kv ∈ kvs, hasError kv.2 = false
  | [] => by simp [pairs, hasErrorP]
  | kv :: kvs => by
    have := hasErrorP_pairs kvs
    unfold pairs at this ⊢
    simp [hasErrorP, hasError, this]

theorem Parse.More.written {C : PCfg} {d N kvs out ts} (h : More C d N kvs out ts) :
    (∀ kv ∈ kvs, ∃ tv, Written C .global d 0 kv.2 tv) ∧ ∀ o, out = some o → ∃ tz, Written C .global d 0 o tz := by
  induction h with
  | done => simp
  | semi _ => simp
  | result _ h => exact ⟨by simp, by rintro o ⟨⟩; exact ⟨_, h⟩⟩
  | next _ _ _ hv _ ih => exact ⟨by simpa using ⟨⟨_, hv⟩, fun a b h => ih.1 (a, b) h⟩, ih.2⟩

theorem Parse.Assigns.written {C : PCfg} {d N kvs out ts} (h : Assigns C d N kvs out ts) :
    (∀ kv ∈ kvs, ∃ tv, Written C .global d 0 kv.2 tv) ∧ ∀ o, out = some o → ∃ tz, Written C .global d 0 o tz := by
  obtain ⟨p, v, rest, tp, e, tv, tr, rfl, rfl, _, _, hv, hr⟩ := h
  exact ⟨by simpa using ⟨⟨_, hv⟩, fun a b h => hr.written.1 (a, b) h⟩, hr.written.2⟩

/-- A list of assignments is read as the pairs of its paths and expressions, in their order, and its result. -/
theorem C74_parsed {L : PLib} {ts : List Token} {kvs : List (List String × Node)} {out : Option Node}
    (h : Assigns ⟨L, false, hasRange ts⟩ 0 (laterName ⟨L, false, hasRange ts⟩) kvs out ts) :
    parse L ts = some (.assigns (kvs.map fun kv => (.str (String.intercalate "." kv.1), kv.2)) out) := by
  unfold parse
  rw [h.read (m := ts.length + 1) (by omega)]
  have h1 : hasErrorP (pairs kvs) = false := (hasErrorP_pairs kvs).2 fun kv hkv => (h.written.1 kv hkv).elim fun _ hw => hw.noError
  have h2 : hasErrorO out = false := by
    cases out with
    | none => rfl
    | some o => exact (h.written.2 o rfl).elim fun _ hw => hw.noError
  simp only [result, hasError, h1, h2]
  rfl

/-- Nothing else is read as a list of assignments of usual expressions. -/
theorem C74_exact {L : PLib} {ts : List Token} {ns : List (Node × Node)} {out : Option Node} :
    (parse L ts = some (.assigns ns out) ∧ usualP (hasRange ts) ns = true ∧ usualO (hasRange ts) out = true) ↔
      ∃ kvs : List (List String × Node), ns = kvs.map (fun kv => (.str (String.intercalate "." kv.1), kv.2)) ∧
        Assigns ⟨L, false, hasRange ts⟩ 0 (laterName ⟨L, false, hasRange ts⟩) kvs out ts := by
  constructor
  · rintro ⟨h, h1, h2⟩
    exact Assigns.of_read (parse_some h).1 h1 h2
  · rintro ⟨kvs, rfl, h⟩
    refine ⟨C74_parsed h, (usualP_pairs kvs).2 fun kv hkv => (h.written.1 kv hkv).elim fun _ hw => hw.usual, ?_⟩
    cases out with
    | none => rfl
    | some o => exact (h.written.2 o rfl).elim fun _ hw => hw.usual

/-- Finding: in the second and further assignments any token is a name, a number or an operator as well. -/
theorem C74_any_token {L : PLib} {va vb vc : List Char} {q : Rat} (hq : L.number vc = some q) (k : Lex.Kind) (s e : Nat) :
    parse L [⟨.literal, s, e, va⟩, ⟨.op .assign, s, e, []⟩, ⟨.number, s, e, vc⟩, ⟨.op .semi, s, e, []⟩, ⟨k, s, e, vb⟩,
      ⟨.op .assign, s, e, []⟩, ⟨.number, s, e, vc⟩] =
      some (.assigns [(.str (L.dec va), .num q), (.str (L.dec vb), .num q)] none) := by
  have hn : ∀ C : PCfg, C.lib = L → Written C .global 0 0 (.num q) [⟨.number, s, e, vc⟩] := fun C hC =>
    .primary (f := false) (.num (t := ⟨.number, s, e, vc⟩) rfl (by rw [hC]; exact hq))
  have := C74_parsed (L := L) (ts := [⟨.literal, s, e, va⟩, ⟨.op .assign, s, e, []⟩, ⟨.number, s, e, vc⟩, ⟨.op .semi, s, e, []⟩, ⟨k, s, e, vb⟩,
      ⟨.op .assign, s, e, []⟩, ⟨.number, s, e, vc⟩]) (kvs := [([L.dec va], .num q), ([L.dec vb], .num q)]) (out := none)
    ⟨[L.dec va], .num q, [([L.dec vb], .num q)], [⟨.literal, s, e, va⟩], ⟨.op .assign, s, e, []⟩, [⟨.number, s, e, vc⟩], _, rfl, rfl,
      ⟨_, _, [], [], ⟨.inl rfl, rfl⟩, rfl, rfl, .nil⟩, rfl, hn _ rfl,
      .next (s := ⟨.op .semi, s, e, []⟩) (tp := [⟨k, s, e, vb⟩]) (e := ⟨.op .assign, s, e, []⟩) (tv := [⟨.number, s, e, vc⟩]) rfl
        ⟨_, _, [], [], rfl, rfl, rfl, .nil⟩ rfl (hn _ rfl) .done⟩
  simpa using this

/-! ## Values -/

/-- what the expressions of a list see: each one the values assigned before it. `S` says what a scope is after an assignment. -/
inductive Chain (ev : Scope → Node → Except VErr Val) (S : Scope → List String → Val → Scope → Prop) :
    Scope → List (List String × Node) → List Val → Scope → Prop
  | nil {s} : Chain ev S s [] [] s
  | cons {s p x v s' kvs vs t} : ev s x = .ok v → S s p v s' → Chain ev S s' kvs vs t → Chain ev S s ((p, x) :: kvs) (v :: vs) t

/-- the scope after an assignment has the value at the path; what is not on its way is as before -/
def Stored (s : Scope) (p : List String) (v : Val) (t : Scope) : Prop :=
  (∀ q, dotP t.materialize (p ++ q) = dotP v q) ∧ ∀ q, Independent p q → dotP t.materialize q = dotP s.materialize q

/-- the paths of names without dots -/
def Names (kvs : List (List String × Node)) : Prop := ∀ kv ∈ kvs, kv.1 ≠ [] ∧ ∀ k ∈ kv.1, '.' ∉ k.toList

/-- a scope over an object, each name once -/
def OverObject (s : Scope) : Prop := (∃ m, s.base = .obj m) ∧ (aKeys s.locals).Nodup

theorem toList_inter (p : List String) : (String.intercalate "." p).toList = List.intercalate ['.'] (p.map String.toList) := by
  rw [String.toList_intercalate]; rfl

theorem splitDot_inter {p : List String} (hne : p ≠ []) (h : ∀ k ∈ p, '.' ∉ k.toList) : splitDot (String.intercalate "." p) = p := by
  have e : String.intercalate "." p = dots p := by
    unfold dots
    rw [← toList_inter, String.ofList_toList]
  rw [e, splitDot_dots hne, flatMap_plain]
  intro s hs
  unfold splitDot
  rw [splitDotC_whole _ (h s hs)]
  simp

/-- one assignment in a scope over an object -/
theorem opAssignStep_stored {env : Scope} {p : List String} (v acc : Val) (he : OverObject env) (hne : p ≠ []) (hd : ∀ k ∈ p, '.' ∉ k.toList) :
    ∃ t, opAssignStep (.str (String.intercalate "." p)) v env (some acc) = .ok (t, (dotInsertP acc p v).1) ∧ OverObject t ∧ Stored env p v t := by
  obtain ⟨⟨m, hb⟩, nd⟩ := he
  obtain ⟨m', hm, hget⟩ := Reads.materialize_obj hb nd
  have hk := splitDot_inter hne hd
  unfold opAssignStep
  simp only [hb, dotInsert, dotInsertDetached, hk]
  split
  · obtain ⟨h1, h2⟩ := C04_detached_read env.materialize p v hne
    rw [hm] at h1 h2
    obtain ⟨r, hr⟩ := Option.isSome_iff_exists.1 (h1.trans rfl)
    rw [hm, hr]
    refine ⟨_, rfl, ⟨?_, by simp [aKeys]⟩, ?_⟩
    · cases p with
      | nil => exact absurd rfl hne
      | cons k ks =>
        cases ks with
        | nil => simp [dotInsertDetachedP] at hr; exact ⟨_, hr.symm⟩
        | cons k' ks =>
          simp only [dotInsertDetachedP] at hr
          split at hr
          · cases hr; exact ⟨_, rfl⟩
          · cases hr
    · have e : Scope.materialize { base := r } = r := rfl
      unfold Stored
      rw [e, hm]
      exact h2 r hr
  · rename_i hdot
    obtain ⟨k, rfl⟩ : ∃ k, p = [k] := by
      cases p with
      | nil => exact absurd rfl hne
      | cons k ks =>
        cases ks with
        | nil => exact ⟨k, rfl⟩
        | cons k' ks =>
          refine absurd ?_ hdot
          rw [toList_inter]
          simp [List.intercalate, List.intersperse_cons_cons]
    have ek : String.intercalate "." [k] = k := rfl
    have nd' : (aKeys (env.setLocal k v).locals).Nodup := aKeys_aSet_nodup k v nd
    obtain ⟨m2, hm2, hget2⟩ := Reads.materialize_obj (e := env.setLocal k v) hb nd'
    have get2 : ∀ j, (env.setLocal k v).get j = if j = k then some v else env.get j := by
      intro j
      unfold Scope.get Scope.local_ Scope.setLocal
      simp only [aGet_aSet]
      by_cases hj : j = k <;> simp [hj]
    refine ⟨_, rfl, ⟨⟨m, hb⟩, nd'⟩, ?_, ?_⟩
    · intro q
      rw [ek, hm2]
      simp [dotP, hget2, get2]
    · intro q hq
      cases q with
      | nil => exact absurd List.nil_prefix hq.2
      | cons j q =>
        have hj : j ≠ k := by
          rintro rfl
          exact hq.1 ⟨q, rfl⟩
        rw [ek, hm2, hm]
        simp [dotP, hget2, get2, hget, hj]

/-- the assignments of a list one after the other -/
theorem evalAsg_run (B : Builtins) (root : Scope) (fr : Frames) : ∀ (kvs : List (List String × Node)) (env : Scope) (acc : Val), OverObject env → Names kvs →
    (∀ kv ∈ kvs, NoAssign kv.2) →
    (∀ a t, evalAsg B root fr env acc (pairs kvs) = .ok (a, t) → OverObject t ∧
      ∃ vs, Chain (fun s x => (eval B root fr s x).map Prod.fst) Stored env kvs vs t ∧
        a = (kvs.zip vs).foldl (fun d kv => (dotInsertP d kv.1.1 kv.2).1) acc) ∧
    ∀ e, evalAsg B root fr env acc (pairs kvs) = .error e → ∃ l p x r vs t, kvs = l ++ (p, x) :: r ∧
      Chain (fun s x => (eval B root fr s x).map Prod.fst) Stored env l vs t ∧ eval B root fr t x = .error e
  | [], env, acc, he, _, _ => by
    refine ⟨?_, ?_⟩
    · rintro a t ⟨⟩
      exact ⟨he, [], .nil, rfl⟩
    · rintro e ⟨⟩
  | (p, x) :: kvs, env, acc, he, hn, hx => by
    have hp := hn (p, x) (by simp)
    have key : eval B root fr env (.str (String.intercalate "." p)) = .ok (.str (String.intercalate "." p), env) := rfl
    show (∀ a t, evalAsg B root fr env acc ((.str (String.intercalate "." p), x) :: pairs kvs) = .ok (a, t) → _) ∧
      ∀ e, evalAsg B root fr env acc ((.str (String.intercalate "." p), x) :: pairs kvs) = .error e → _
    simp only [evalAsg, key]
    rcases ev : eval B root fr env x with e | ⟨v, env1⟩
    · refine ⟨fun a t h => (by cases h), ?_⟩
      rintro e' ⟨⟩
      exact ⟨[], p, x, kvs, [], env, rfl, .nil, ev⟩
    · have h1 : env1 = env := eval_keeps x (hx (p, x) (by simp)) fr env _ ev
      subst h1
      obtain ⟨t1, h2, h3, h4⟩ := opAssignStep_stored v acc he hp.1 hp.2
      simp only [h2]
      obtain ⟨i1, i2⟩ := evalAsg_run B root fr kvs t1 (dotInsertP acc p v).1 h3 (fun kv h => hn kv (by simp [h])) (fun kv h => hx kv (by simp [h]))
      refine ⟨fun a t h => ?_, fun e h => ?_⟩
      · obtain ⟨j1, vs, j2, j3⟩ := i1 a t h
        exact ⟨j1, v :: vs, .cons (by rw [ev]; rfl) h4 j2, j3⟩
      · obtain ⟨l, p', x', r, vs, t, rfl, j2, j3⟩ := i2 e h
        exact ⟨(p, x) :: l, p', x', r, v :: vs, t, rfl, .cons (by rw [ev]; rfl) h4 j2, j3⟩

/-- Over an object, each expression of a list sees what the assignments before it assigned and all else as it was; the whole is what the result
is after all of them. -/
theorem C74_seen (B : Builtins) (root env : Scope) (fr : Frames) (kvs : List (List String × Node)) (he : OverObject env) (hn : Names kvs)
    (hx : ∀ kv ∈ kvs, NoAssign kv.2) (out : Option Node) (a : Val) (t : Scope) (h : eval B root fr env (.assigns (pairs kvs) out) = .ok (a, t)) :
    ∃ vs s, Chain (fun s x => (eval B root fr s x).map Prod.fst) Stored env kvs vs s ∧ ∀ o, out = some o → eval B root fr s o = .ok (a, t) := by
  simp only [eval] at h
  rcases e : evalAsg B root fr env (.obj []) (pairs kvs) with e' | ⟨b, s⟩
  · rw [e] at h; cases h
  · rw [e] at h
    obtain ⟨_, vs, h1, _⟩ := (evalAsg_run B root fr kvs env (.obj []) he hn hx).1 b s e
    exact ⟨vs, s, h1, fun o ho => by subst ho; exact h⟩

/-- It fails only with an error of one of its expressions, or of the result. -/
theorem C74_error (B : Builtins) (root env : Scope) (fr : Frames) (kvs : List (List String × Node)) (he : OverObject env) (hn : Names kvs)
    (hx : ∀ kv ∈ kvs, NoAssign kv.2) (out : Option Node) (e : VErr) (h : eval B root fr env (.assigns (pairs kvs) out) = .error e) :
    (∃ l p x r vs t, kvs = l ++ (p, x) :: r ∧ Chain (fun s x => (eval B root fr s x).map Prod.fst) Stored env l vs t ∧
      eval B root fr t x = .error e) ∨
    ∃ o vs s, out = some o ∧ Chain (fun s x => (eval B root fr s x).map Prod.fst) Stored env kvs vs s ∧ eval B root fr s o = .error e := by
  simp only [eval] at h
  have main := evalAsg_run B root fr kvs env (.obj []) he hn hx
  rcases e1 : evalAsg B root fr env (.obj []) (pairs kvs) with e' | ⟨b, s⟩
  · rw [e1] at h
    cases h
    exact .inl (main.2 _ e1)
  · rw [e1] at h
    obtain ⟨_, vs, h1, _⟩ := main.1 b s e1
    cases out with
    | none => cases h
    | some o => exact .inr ⟨o, vs, s, rfl, h1, h⟩

/-- Over anything but an object an assignment fails. -/
theorem C74_not_object (B : Builtins) (root env : Scope) (fr : Frames) (p : List String) (x : Node) (kvs : List (List String × Node)) (out : Option Node)
    (hb : ∀ m, env.base ≠ .obj m) (hx : NoAssign x) : ∃ e, eval B root fr env (.assigns (pairs ((p, x) :: kvs)) out) = .error e := by
  have key : eval B root fr env (.str (String.intercalate "." p)) = .ok (.str (String.intercalate "." p), env) := rfl
  have : ∃ e, evalAsg B root fr env (.obj []) ((.str (String.intercalate "." p), x) :: pairs kvs) = .error e := by
    simp only [evalAsg, key]
    rcases ev : eval B root fr env x with e | ⟨v, env1⟩
    · exact ⟨e, rfl⟩
    · have h1 : env1 = env := eval_keeps x hx fr env _ ev
      subst h1
      have step : ∃ e, opAssignStep (.str (String.intercalate "." p)) v env1 (some (.obj [])) = .error e := by
        unfold opAssignStep
        cases hbase : env1.base with
        | obj m => exact absurd hbase (hb m)
        | _ => exact ⟨_, rfl⟩
      obtain ⟨e, he⟩ := step
      exact ⟨e, by simp only [he]⟩
  obtain ⟨e, h⟩ := this
  exact ⟨e, by simp only [eval]; rw [show pairs ((p, x) :: kvs) = (.str (String.intercalate "." p), x) :: pairs kvs from rfl, h]⟩

/-- places that nothing was written to or above are empty or objects -/
theorem built_open (a b : List String) (hne : a ≠ b) (h : a <+: b) : ∃ s, s ≠ [] ∧ b = a ++ s := by
  obtain ⟨s, rfl⟩ := h
  exact ⟨s, by rintro rfl; simp at hne, rfl⟩

theorem insert_obj (m : List (String × Val)) (p : List String) (v : Val) : ∃ m', (dotInsertP (.obj m) p v).1 = .obj m' := by
  match p with
  | [] => exact ⟨m, rfl⟩
  | [k] => exact ⟨_, rfl⟩
  | k :: k' :: ks => exact ⟨_, rfl⟩

/-- no way is blocked by a value that was written -/
def Open (done : List (List String)) (d : Val) : Prop := ∀ q, (∀ p ∈ done, ¬ p <+: q) → look d q = .missing ∨ ∃ m, look d q = .found (.obj m)

theorem Open.insert {done : List (List String)} {d : Val} (h : Open done d) (p : List String) (v : Val) : Open (p :: done) (dotInsertP d p v).1 := by
  intro q hq
  have hd := h q fun r hr => hq r (by simp [hr])
  have hp := hq p (by simp)
  by_cases hi : q <+: p
  · obtain ⟨s, hs, rfl⟩ := built_open q p (by rintro rfl; exact hp (List.prefix_refl _)) hi
    rw [look_above q d s v hs]
    rcases hd with hd | ⟨m, hd⟩
    · rw [hd]
      obtain ⟨m', h'⟩ := insert_obj [] s v
      exact .inr ⟨m', by simp [Look.above, h']⟩
    · rw [hd]
      obtain ⟨m', h'⟩ := insert_obj m s v
      exact .inr ⟨m', by simp [Look.above, h']⟩
  · rw [look_other p d q v ⟨hp, hi⟩]
    exact hd

theorem look_snoc (d : Val) : ∀ (q : List String) (k : String), (look d q = .missing ∨ ∃ m, look d q = .found (.obj m)) → look d (q ++ [k]) ≠ .blocked := by
  intro q
  induction q generalizing d with
  | nil =>
    rintro k (h | ⟨m, h⟩)
    · cases h
    · cases h
      simp only [List.nil_append, look]
      split <;> simp
  | cons j q ih =>
    intro k h
    cases d with
    | obj m =>
      simp only [List.cons_append, look] at h ⊢
      split
      · rename_i x hx
        rw [hx] at h
        exact ih x k h
      · simp
    | _ => simp [look] at h

theorem Open.not_blocked {done : List (List String)} {d : Val} (h : Open done d) {p : List String} (hne : p ≠ [])
    (hp : ∀ q ∈ done, q <+: p → q = p) : look d p ≠ .blocked := by
  obtain ⟨q, k, rfl⟩ : ∃ q k, p = q ++ [k] := ⟨p.dropLast, p.getLast hne, (List.dropLast_append_getLast hne).symm⟩
  refine look_snoc d q k (h q fun r hr hrq => ?_)
  have := hp r hr (hrq.trans (List.prefix_append _ _))
  subst this
  have := hrq.length_le
  simp at this

theorem built (kvs : List (List String × Val)) : ∀ (d : Val) (done : List (List String)), Open done d → (∀ kv ∈ kvs, kv.1 ≠ []) →
    kvs.Pairwise (fun a b => a.1 <+: b.1 → a.1 = b.1) → (∀ q ∈ done, ∀ kv ∈ kvs, q <+: kv.1 → q = kv.1) →
    (∀ l p v r, kvs = l ++ (p, v) :: r → (∀ kv ∈ r, Independent kv.1 p) → ∀ q,
      look (kvs.foldl (fun d kv => (dotInsertP d kv.1 kv.2).1) d) (p ++ q) = look v q) ∧
    ∀ q, (∀ kv ∈ kvs, Independent kv.1 q) → look (kvs.foldl (fun d kv => (dotInsertP d kv.1 kv.2).1) d) q = look d q := by
  induction kvs with
  | nil => intro d done _ _ _ _; exact ⟨fun l p v r h => by simp at h, fun q _ => rfl⟩
  | cons kv kvs ih =>
    intro d done ho hne hpw hd
    obtain ⟨p, v⟩ := kv
    rw [List.pairwise_cons] at hpw
    have hp := hne (p, v) (by simp)
    obtain ⟨i1, i2⟩ := ih (dotInsertP d p v).1 (p :: done) (ho.insert p v) (fun kv h => hne kv (by simp [h])) hpw.2 (by
      intro q hq kv hkv hpre
      rcases List.mem_cons.1 hq with rfl | hq
      · exact hpw.1 kv hkv hpre
      · exact hd q hq kv (by simp [hkv]) hpre)
    refine ⟨?_, ?_⟩
    · intro l p' v' r e hr q
      cases l with
      | cons x l =>
        simp only [List.cons_append, List.cons.injEq] at e
        exact i1 l p' v' r e.2 hr q
      | nil =>
        simp only [List.nil_append, List.cons.injEq] at e
        obtain ⟨e1, rfl⟩ := e
        cases e1
        have nb := ho.not_blocked hp fun q hq h => hd q hq (p, v) (by simp) h
        rw [List.foldl_cons, i2 (p ++ q), look_below p d q v hp]
        · split
          · rename_i hb; exact absurd hb nb
          · rfl
        · intro kv hkv
          have := hr kv hkv
          refine ⟨fun h => ?_, fun h => this.2 ((List.prefix_append p q).trans h)⟩
          rcases List.prefix_or_prefix_of_prefix h (List.prefix_append p q) with h | h
          · exact this.1 h
          · exact this.2 h
    · intro q hq
      rw [List.foldl_cons, i2 q fun kv h => hq kv (by simp [h]), look_other p d q v (hq (p, v) (by simp))]

theorem Chain.length {ev S s kvs vs t} (h : Chain ev S s kvs vs t) : vs.length = kvs.length := by
  induction h with
  | nil => rfl
  | cons _ _ _ ih => simp [ih]

/-- Over an object, a list without a result gives an object with the values at their paths and nothing elsewhere, if no path goes on below one that
is assigned before. Of equal paths the last counts. -/
theorem C74_value (B : Builtins) (root env : Scope) (fr : Frames) (kvs : List (List String × Node)) (he : OverObject env) (hn : Names kvs)
    (hx : ∀ kv ∈ kvs, NoAssign kv.2) (hp : kvs.Pairwise fun a b => a.1 <+: b.1 → a.1 = b.1) (a : Val) (t : Scope)
    (h : eval B root fr env (.assigns (pairs kvs) none) = .ok (a, t)) :
    ∃ vs, Chain (fun s x => (eval B root fr s x).map Prod.fst) Stored env kvs vs t ∧ vs.length = kvs.length ∧
      (∀ l p x v r, kvs.zip vs = l ++ ((p, x), v) :: r → (∀ y ∈ r, Independent y.1.1 p) → ∀ q, dotP a (p ++ q) = dotP v q) ∧
      ∀ q, q ≠ [] → (∀ kv ∈ kvs, Independent kv.1 q) → dotP a q = none := by
  simp only [eval] at h
  rcases e : evalAsg B root fr env (.obj []) (pairs kvs) with e' | ⟨b, s⟩
  · rw [e] at h; cases h
  · rw [e] at h
    cases h
    obtain ⟨_, vs, h1, rfl⟩ := (evalAsg_run B root fr kvs env (.obj []) he hn hx).1 _ _ e
    have hl := h1.length
    have mem : ∀ y ∈ kvs.zip vs, y.1 ∈ kvs := fun y hy => (List.of_mem_zip (a := y.1) (b := y.2) hy).1
    have fst : (kvs.zip vs).map Prod.fst = kvs := List.map_fst_zip (by omega)
    obtain ⟨b1, b2⟩ := built ((kvs.zip vs).map fun y => (y.1.1, y.2)) (.obj []) [] (by
        intro q _
        cases q with
        | nil => exact .inr ⟨[], rfl⟩
        | cons k q => exact .inl rfl)
      (by
        intro kv hkv
        obtain ⟨y, hy, rfl⟩ := List.mem_map.1 hkv
        exact (hn y.1 (mem y hy)).1)
      (by
        rw [← fst, List.pairwise_map] at hp
        rw [List.pairwise_map]
        exact hp)
      (by simp)
    rw [List.foldl_map] at b1 b2
    refine ⟨vs, h1, hl, ?_, ?_⟩
    · intro l p x v r e hr q
      have := b1 (l.map fun y => (y.1.1, y.2)) p v (r.map fun y => (y.1.1, y.2)) (by rw [e]; simp) (by
        intro kv hkv
        obtain ⟨y, hy, rfl⟩ := List.mem_map.1 hkv
        exact hr y hy) q
      rw [look_dot, look_dot, this]
    · intro q hq hi
      have := b2 q (by
        intro kv hkv
        obtain ⟨y, hy, rfl⟩ := List.mem_map.1 hkv
        exact hi y.1 (mem y hy))
      rw [look_dot, this]
      cases q with
      | nil => exact absurd rfl hq
      | cons k q => rfl

/-- Finding: an assignment below a path that was assigned a number is lost in the object, while expressions see it. -/
theorem C74_lost (B : Builtins) (root : Scope) (m : List (String × Val)) (u w : Rat) :
    (∃ t, eval B root [] { base := .obj m } (.assigns (pairs [(["a"], .num u), (["a", "b"], .num w)]) none) = .ok (.obj [("a", .num u)], t)) ∧
    ∃ t, eval B root [] { base := .obj m } (.assigns (pairs [(["a"], .num u), (["a", "b"], .num w)]) (some (.ident "a"))) =
      .ok (.obj [("b", .num w)], t) := by
  have s1 : opAssignStep (.str "a") (.num u) { base := .obj m } (some (.obj [])) =
      .ok (({ base := .obj m } : Scope).setLocal "a" (.num u), .obj [("a", .num u)]) := by
    simp only [opAssignStep]
    rw [if_neg (by decide)]
    rfl
  have s2 : opAssignStep (.str "a.b") (.num w) (({ base := .obj m } : Scope).setLocal "a" (.num u)) (some (.obj [("a", .num u)])) =
      .ok ({ base := .obj (aSet (aSet m "a" (.num u)) "a" (.obj [("b", .num w)])) }, .obj [("a", .num u)]) := by
    have hs : splitDot "a.b" = ["a", "b"] := by decide
    simp only [opAssignStep, Scope.setLocal]
    rw [if_pos (by decide)]
    have hm : Scope.materialize { base := .obj m, locals := aSet [] "a" (.num u) } = .obj (aSet m "a" (.num u)) := rfl
    rw [hm]
    have h1 : dotInsertDetachedP (.obj (aSet m "a" (.num u))) ["a", "b"] (.num w) =
        some (.obj (aSet (aSet m "a" (.num u)) "a" (.obj [("b", .num w)]))) := by
      simp only [dotInsertDetachedP, aGet_aSet, if_true, detachChild]
      rfl
    have h2 : (dotInsertP (.obj [("a", .num u)]) ["a", "b"] (.num w)).1 = .obj [("a", .num u)] := rfl
    simp only [dotInsertDetached, dotInsert, hs, h1, h2]
  have run : evalAsg B root [] { base := .obj m } (.obj []) (pairs [(["a"], .num u), (["a", "b"], .num w)]) =
      .ok (.obj [("a", .num u)], { base := .obj (aSet (aSet m "a" (.num u)) "a" (.obj [("b", .num w)])) }) := by
    have k1 : ∀ s : Scope, ∀ x : String, eval B root [] s (.str x) = .ok (.str x, s) := fun _ _ => rfl
    have k2 : ∀ s : Scope, ∀ x : Rat, eval B root [] s (.num x) = .ok (.num x, s) := fun _ _ => rfl
    have e1 : String.intercalate "." ["a"] = "a" := rfl
    have e2 : String.intercalate "." ["a", "b"] = "a.b" := by decide
    simp only [pairs, List.map_cons, List.map_nil, evalAsg, k1, k2, e1, e2, s1, s2]
  refine ⟨⟨{ base := .obj (aSet (aSet m "a" (.num u)) "a" (.obj [("b", .num w)])) }, by simp only [eval, run, evalOpt]⟩,
    { base := .obj (aSet (aSet m "a" (.num u)) "a" (.obj [("b", .num w)])) }, ?_⟩
  simp only [eval, run, evalOpt, aliasOf]
  simp [opFetchEnv, Scope.local_, aGet_aSet, aGet]

/-- The names that are called as functions are those of the functions and of the deprecated ones. -/
theorem C74_functions (s : String) : isFn s = true ↔ (∃ n : Fn.Name, n.text = s) ∨ ∃ n : Fn.DName, n.text = s := by
  obtain ⟨h1, h2, _⟩ := C73_names s
  unfold isFn
  rw [Bool.or_eq_true, Option.isSome_iff_exists, Option.isSome_iff_exists]
  simp only [h1, h2]

section
private def lib : PLib := ⟨String.ofList, fun _ => some 1⟩
private def nm (s : String) : Token := ⟨.literal, 0, 0, s.toList⟩
private def k (x : Lex.Kind) : Token := ⟨x, 0, 0, []⟩
private def num : Token := ⟨.number, 0, 0, ['1']⟩

-- a = 1; b.c.d = a; b
private def src : List Token :=
  [nm "a", k (.op .assign), num, k (.op .semi), nm "b", k (.op .dot), nm "c", k (.op .dot), nm "d", k (.op .assign), nm "a", k (.op .semi), nm "b"]
example : Assigns ⟨lib, false, hasRange src⟩ 0 (laterName ⟨lib, false, hasRange src⟩) [(["a"], .num 1), (["b", "c", "d"], .ident "a")]
    (some (.ident "b")) src :=
  ⟨["a"], .num 1, [(["b", "c", "d"], .ident "a")], [nm "a"], k (.op .assign), [num], _, rfl, rfl, ⟨nm "a", "a", [], [], ⟨.inl rfl, rfl⟩, rfl, rfl, .nil⟩, rfl,
    .primary (f := false) (.num (t := num) rfl rfl),
    .next (s := k (.op .semi)) (tp := [nm "b", k (.op .dot), nm "c", k (.op .dot), nm "d"]) (e := k (.op .assign)) (tv := [nm "a"]) rfl
      ⟨nm "b", "b", ["c", "d"], _, rfl, rfl, rfl, .cons (t := k (.op .dot)) (q := nm "c") rfl (.inl rfl)
        (.cons (t := k (.op .dot)) (q := nm "d") rfl (.inl rfl) .nil)⟩ rfl
      (.primary (f := true) (.name (t := nm "a") (.inl rfl)))
      (.result (s := k (.op .semi)) rfl (.primary (f := true) (.name (t := nm "b") (.inl rfl))))⟩
-- an element cannot be assigned to, an assignment in parentheses does not end
example : parse lib [nm "a", k (.bracket .lsq), num, k (.bracket .rsq), k (.op .assign), num] = none := rfl
example : parse lib [k (.bracket .lparen), nm "a", k (.op .assign), num, k (.bracket .rparen)] = none := rfl

-- the list of the source meets the hypotheses on values
private def list : List (List String × Node) := [(["a"], .num 1), (["b", "c", "d"], .ident "a"), (["b", "e"], .num 2)]
example : Names list ∧ (∀ kv ∈ list, NoAssign kv.2) ∧ (list.Pairwise fun a b => a.1 <+: b.1 → a.1 = b.1) ∧ OverObject { base := .obj [("x", .num 3)] } := by
  refine ⟨?_, ?_, ?_, ⟨_, rfl⟩, by simp [aKeys]⟩
  · intro kv h
    simp only [list, List.mem_cons, List.not_mem_nil, or_false] at h
    rcases h with rfl | rfl | rfl <;> exact ⟨by simp, by decide⟩
  · intro kv h
    simp only [list, List.mem_cons, List.not_mem_nil, or_false] at h
    rcases h with rfl | rfl | rfl <;> trivial
  · simp [list]
example (B : Builtins) : ∃ t, eval B { base := .obj [("x", .num 3)] } [] { base := .obj [("x", .num 3)] } (.assigns (pairs list) none) =
    .ok (.obj [("a", .num 1), ("b", .obj [("c", .obj [("d", .num 1)]), ("e", .num 2)])], t) := ⟨_, rfl⟩
example : isFn "len" = true ∧ isFn "a" = false := by decide
end

end Zen
