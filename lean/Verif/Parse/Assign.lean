import Verif.Parse.ParseEqs
import Verif.Parse.ParsePlain
import Verif.Parse.ParseExact
import Verif.Parse.ParseMain
import Verif.Parse.SyntaxInd
/-
Lists of assignments: their written form, and that the parser reads it and nothing else.
-/
namespace Zen
namespace Parse
open Zen.Lex

/-! ## The written form -/

section
variable (C : PCfg)

/-- properties after a name -/
inductive Path : List String → List Token → Prop
  | nil : Path [] []
  | cons {t q ks ts} : t.kind = .op .dot → afterDot q.kind → Path ks ts → Path (C.lib.dec q.value :: ks) (t :: q :: ts)

/-- what is assigned to: a name, as `N` allows it, and properties -/
def Target (N : Token → String → Prop) (p : List String) (ts : List Token) : Prop :=
  ∃ t s ks r, N t s ∧ ts = t :: r ∧ p = s :: ks ∧ Path C ks r

/-- the first name: a word or the name of a variable -/
def firstName (d : Nat) (t : Token) (s : String) : Prop :=
  namesFn d t.kind ∧ s = if t.kind = .ident .root then "$root" else C.lib.dec t.value

/-- the names of further assignments: any token -/
def laterName (t : Token) (s : String) : Prop := s = C.lib.dec t.value

/-- what follows an assignment: further assignments, each after a semicolon, and what the whole results in -/
inductive More (d : Nat) (N : Token → String → Prop) : List (List String × Node) → Option Node → List Token → Prop
  | done : More d N [] none []
  | semi {s} : s.kind = .op .semi → More d N [] none [s]
  | result {s o tz} : s.kind = .op .semi → Written C .global d 0 o tz → More d N [] (some o) (s :: tz)
  | next {s p tp e v tv kvs out ts} : s.kind = .op .semi → Target C N p tp → e.kind = .op .assign → Written C .global d 0 v tv →
      More d N kvs out ts → More d N ((p, v) :: kvs) out (s :: tp ++ e :: tv ++ ts)

/-- a list of assignments; `N` says what can be a name in the second and further ones -/
def Assigns (d : Nat) (N : Token → String → Prop) (kvs : List (List String × Node)) (out : Option Node) (ts : List Token) : Prop :=
  ∃ p v rest tp e tv tr, kvs = (p, v) :: rest ∧ ts = tp ++ e :: tv ++ tr ∧ Target C (firstName C d) p tp ∧ e.kind = .op .assign ∧
    Written C .global d 0 v tv ∧ More C d N rest out tr
end

/-- the pairs of the syntax tree -/
def pairs (kvs : List (List String × Node)) : List (Node × Node) := kvs.map fun kv => (.str (String.intercalate "." kv.1), kv.2)

/-! ## Written expressions have no assignment sign -/

theorem eqs_append (a b : List Token) : (a ++ b).eqs = a.eqs + b.eqs := by
  unfold List.eqs; rw [List.countP_append]

theorem oneEq_of {t : Token} {k : Kind} (h : t.kind = k) (hk : k ≠ .op .assign) : oneEq t = 0 := by
  unfold oneEq
  rw [h, if_neg]
  simpa using hk

theorem afterDot_ne {t : Token} (h : afterDot t.kind) : oneEq t = 0 := by
  rcases h with h | ⟨i, h⟩ | ⟨o, h⟩ | h <;> exact oneEq_of h (by simp)

theorem namesFn_ne {d : Nat} {t : Token} (h : namesFn d t.kind) : oneEq t = 0 := by
  rcases h with h | h | h | ⟨h, _⟩ <;> exact oneEq_of h (by simp)

section
variable {C : PCfg} {E : Expr} (hE : ∀ c d L n ts, E c d L n ts → ts.eqs = 0)
include hE

theorem Items.noEq {b d xs ts} (h : Items E b d xs ts) : ts.eqs = 0 := by
  induction h with
  | nil h => simp [oneEq_of h]
  | last h hz => simp [eqs_append, hE _ _ _ _ _ h, oneEq_of hz]
  | more h ht _ ih => simp [eqs_append, hE _ _ _ _ _ h, oneEq_of ht, ih]

theorem Parts.noEq {d xs ts} (h : Parts C E d xs ts) : ts.eqs = 0 := by
  induction h with
  | nil h => simp [oneEq_of h]
  | text h _ ih => simp [oneEq_of h, ih]
  | expr ha h hb _ ih => simp [eqs_append, oneEq_of ha, oneEq_of hb, hE _ _ _ _ _ h, ih]
  | stray h _ ih => simp [oneEq_of h, ih]

theorem Key.noEq {d k ts} (h : Key C E d k ts) : ts.eqs = 0 := by
  cases h with
  | computed ha h hb => simp [eqs_append, oneEq_of ha, oneEq_of hb, hE _ _ _ _ _ h]
  | string _ ha h hb => simp [oneEq_of ha, oneEq_of hb, oneEq_of h]
  | ident h => simp [oneEq_of h]
  | bool h => simp [oneEq_of h]
  | number h => simp [oneEq_of h]
  | literal h => simp [oneEq_of h]

theorem Entries.noEq {d kvs ts} (h : Entries C E d kvs ts) : ts.eqs = 0 := by
  induction h with
  | last h1 hc h2 hz => simp [eqs_append, h1.noEq hE, hE _ _ _ _ _ h2, oneEq_of hc, oneEq_of hz]
  | more h1 hc h2 ht _ ih => simp [eqs_append, h1.noEq hE, hE _ _ _ _ _ h2, oneEq_of hc, oneEq_of ht, ih]

theorem Bound.noEq {d x ts} (h : Bound E d x ts) : ts.eqs = 0 := by
  cases h with
  | none => rfl
  | some h => exact hE _ _ _ _ _ h

omit hE in
theorem Alias.noEq {al : Option String} {ts} (h : Alias C al ts) : ts.eqs = 0 := by
  cases h with
  | none => rfl
  | some h _ h' => simp [oneEq_of h, oneEq_of h']

theorem Primary.noEq {d f n ts} (h : Primary C E d f n ts) : ts.eqs = 0 := by
  induction h with
  | null h => simp [oneEq_of h]
  | bool h => simp [oneEq_of h]
  | num h => simp [oneEq_of h]
  | str _ ha h hb => simp [oneEq_of h, oneEq_of ha, oneEq_of hb]
  | name h => rcases h with h | h | ⟨h, _⟩ <;> simp [oneEq_of h]
  | root h => simp [oneEq_of h]
  | pointer h => simp [oneEq_of h]
  | tmpl ha h => simp [oneEq_of ha, h.noEq hE]
  | emptyObj _ ha hb => simp [oneEq_of ha, oneEq_of hb]
  | obj ha h => simp [oneEq_of ha, h.noEq hE]
  | paren ha h hb => simp [eqs_append, oneEq_of ha, oneEq_of hb, hE _ _ _ _ _ h]
  | arr ha h _ => simp [oneEq_of ha, h.noEq hE]
  | interval _ ha _ h ht h' hb => simp [eqs_append, oneEq_of ha, oneEq_of ht, oneEq_of hb, hE _ _ _ _ _ h, hE _ _ _ _ _ h']
  | call ht _ ha h => simp [namesFn_ne ht, oneEq_of ha, h.noEq hE]
  | closure ht _ _ ha h hal hc h' hz =>
    simp [eqs_append, namesFn_ne ht, oneEq_of ha, oneEq_of hc, oneEq_of hz, hE _ _ _ _ _ h, hE _ _ _ _ _ h', hal.noEq]
  | member _ ht hp ih => simp [eqs_append, ih, oneEq_of ht, afterDot_ne hp]
  | index _ ha h hb ih => simp [eqs_append, ih, oneEq_of ha, oneEq_of hb, hE _ _ _ _ _ h]
  | slice _ ha h hc h' hb ih => simp [eqs_append, ih, oneEq_of ha, oneEq_of hb, oneEq_of hc, h.noEq hE, h'.noEq hE]
  | method _ ht hp _ ha h ih => simp [eqs_append, ih, oneEq_of ht, oneEq_of ha, afterDot_ne hp, h.noEq hE]

end

theorem Written.noEq {C : PCfg} {c d L n ts} (h : Written C c d L n ts) : ts.eqs = 0 := by
  refine Written.ind (P := fun _ _ _ _ ts => ts.eqs = 0) ?_ ?_ ?_ ?_ h
  · intro c d L f n ts h
    exact h.noEq fun _ _ _ _ _ h => h.2.1
  · intro c d L o t s x ts ht hp _ h
    have : oneEq t = 0 := oneEq_of ht (by rintro e; cases e; cases hp)
    simp [h, this]
  · intro c d L o t k l tl r tr ht hp _ _ _ h _ _ h'
    have : oneEq t = 0 := oneEq_of ht (by rintro e; cases e; cases hp)
    simp [eqs_append, h, h', this]
  · intro c d q s x tx y ty z tz hq hs _ h _ _ h' _ h''
    simp [eqs_append, h, h', h'', oneEq_of hq, oneEq_of hs]

/-! ## Reading -/

theorem memberKey_fold (ks : List String) : ∀ (n : Node) (l : List String), memberKey n = some l →
    memberKey (ks.foldl (fun n k => .member n (.str k)) n) = some (l ++ ks) := by
  induction ks with
  | nil => intro n l h; simpa using h
  | cons k ks ih =>
    intro n l h
    rw [List.foldl_cons, ih (.member n (.str k)) (l ++ [k]) (by simp [memberKey, h])]
    simp

/-- the accesses of a target are read, and nothing but properties is seen -/
theorem Path.read {C : PCfg} {rec : Rec} {d : Nat} {ks ts} (h : Path C ks ts) {r : List Token} (hr : kind? r = some (.op .assign)) :
    ∀ n node, ts.length < n → ∃ c, (c = .property ∨ c = .inherit) ∧
      postfixes C rec d n node (ts ++ r) = ((ks.foldl (fun n k => .member n (.str k)) node, c), r) := by
  induction h with
  | nil =>
    intro n node hn
    obtain ⟨n, rfl⟩ : ∃ k, n = k + 1 := ⟨n - 1, by omega⟩
    cases r with
    | nil => cases hr
    | cons t r =>
      simp [kind?] at hr
      exact ⟨.inherit, .inr rfl, by simp [postfixes, hr]⟩
  | @cons t q ks ts ht hq hpath ih =>
    intro n node hn
    obtain ⟨n, rfl⟩ : ∃ k, n = k + 1 := ⟨n - 1, by omega⟩
    obtain ⟨c, hc, e⟩ := ih n (.member node (.str (C.lib.dec q.value))) (by simp at hn; omega)
    have hp : kind? (ts ++ r) ≠ some (.bracket .lparen) := by
      cases hpath with
      | nil => simp [hr]
      | cons h1 _ _ => simp [kind?, h1]
    refine ⟨.property, .inl rfl, ?_⟩
    rw [List.cons_append, List.cons_append]
    simp only [postfixes, ht, reduceCtorEq, if_false, if_true, (validProperty_iff _).2 hq, hp, e, List.foldl_cons]
    rcases hc with rfl | rfl <;> rfl

theorem noEq_kind {ts : List Token} (h : ts.eqs = 0) : kind? ts ≠ some (.op .assign) := by
  cases ts with
  | nil => simp [kind?]
  | cons t r =>
    intro hk
    simp [kind?] at hk
    simp [oneEq, hk] at h

theorem More.stop {C : PCfg} {d N kvs out tr} (h : More C d N kvs out tr) (c : Ctx) (M : Nat) : Stop C c M tr := by
  cases h with
  | done => exact .nil
  | semi h => exact .of_closes h rfl _
  | result h _ => exact .of_closes h rfl _
  | next h _ _ _ _ => exact .of_closes h rfl _

theorem More.read {C : PCfg} {m d : Nat} {kvs out ts} (h : More C d (laterName C) kvs out ts) : ∀ n acc, ts.length < n → ts.length < m →
    ∃ o r', assignLoop C (binExpr C m) d n acc ts = (some (acc ++ pairs kvs, o), r') ∧
      match out with
      | none => o = none ∧ r' = []
      | some x => ∃ tz, o = some tz ∧ Written C .global d 0 x tz ∧ tz.length ≤ ts.length := by
  induction h with
  | done =>
    intro n acc hn _
    obtain ⟨n, rfl⟩ : ∃ k, n = k + 1 := ⟨n - 1, by omega⟩
    exact ⟨none, [], by simp [assignLoop, pairs], rfl, rfl⟩
  | semi hs =>
    intro n acc hn _
    obtain ⟨n, rfl⟩ : ∃ k, n = k + 1 := ⟨n - 1, by omega⟩
    exact ⟨none, [], by simp [assignLoop, expect_eq hs, pairs], rfl, rfl⟩
  | @result s o tz hs ho =>
    intro n acc hn _
    obtain ⟨n, rfl⟩ : ∃ k, n = k + 1 := ⟨n - 1, by omega⟩
    cases tz with
    | nil =>
      exact absurd rfl ho.starts.ne_nil
    | cons t r =>
      rcases e : withPostfix C (binExpr C m) d (.ident (C.lib.dec t.value)) r with ⟨⟨key, c⟩, r1⟩
      have hr1 : expect (.op .assign) r1 = none := by
        have h1 := withPostfix_eqs (C := C) (d := d) (binExpr_fewer C m) (.ident (C.lib.dec t.value)) r
        rw [e] at h1
        have h2 := ho.noEq
        simp at h2
        have h3 := noEq_kind (ts := r1) (by simp at h1; omega)
        unfold expect
        rw [if_neg h3]
      refine ⟨some (t :: r), r1, ?_, t :: r, rfl, ho, by simp⟩
      simp [assignLoop, expect_eq hs, e, hr1, pairs]
  | @next s p tp e v tv kvs out ts hs hp he hv hm ih =>
    intro n acc hn hm'
    obtain ⟨n, rfl⟩ : ∃ k, n = k + 1 := ⟨n - 1, by omega⟩
    obtain ⟨t, q, ks, r, rfl, rfl, rfl, hpath⟩ := hp
    simp at hn hm'
    obtain ⟨c, hc, e1⟩ := hpath.read (C := C) (rec := binExpr C m) (d := d) (r := e :: (tv ++ ts)) (by simp [kind?, he])
      ((r ++ e :: (tv ++ ts)).length + 1) (.ident (C.lib.dec t.value)) (by simp; omega)
    have e1 : withPostfix C (binExpr C m) d (.ident (C.lib.dec t.value)) (r ++ e :: (tv ++ ts)) = _ := e1
    have e2 := hv.read (m := m) (r := ts) (by omega) (hm.stop _ _)
    obtain ⟨o, r', e3, h3⟩ := ih n (acc ++ [(transformKey (ks.foldl (fun n k => .member n (.str k)) (.ident (C.lib.dec t.value))), v)])
      (by omega) (by omega)
    refine ⟨o, r', ?_, ?_⟩
    · have e2 : binExpr C m .global d 0 (tv ++ ts) = (v, ts) := e2
      simp only [List.cons_append, List.append_assoc, assignLoop, expect_eq hs, e1, expect_eq he, hc, if_true, e2, e3]
      simp [pairs, transformKey, memberKey_fold ks (.ident (C.lib.dec t.value)) [C.lib.dec t.value] rfl]
    · cases out with
      | none => exact h3
      | some x => obtain ⟨tz, a1, a2, a3⟩ := h3; exact ⟨tz, a1, a2, by simp; omega⟩

/-- the node of a first name -/
theorem memberKey_first {C : PCfg} {d : Nat} {t : Token} {s : String} (h : firstName C d t s) :
    memberKey (if t.kind = .ident .root then Node.root else .ident (C.lib.dec t.value)) = some [s] := by
  rw [h.2]
  split <;> rfl

/-- at a target and an assignment sign the parser looks for a list of assignments -/
theorem unaryExpr_target {C : PCfg} {rec : Rec} {d : Nat} {p : List String} {tp r : List Token} {e : Token} (h : Target C (firstName C d) p tp)
    (he : e.kind = .op .assign) : ∃ key, transformKey key = .str (String.intercalate "." p) ∧
      unaryExpr C rec d (tp ++ e :: r) = assignedObject C rec d key (e :: r) := by
  obtain ⟨t, s, ks, q, hN, rfl, rfl, hp⟩ := h
  obtain ⟨c, hc, e1⟩ := hp.read (C := C) (rec := rec) (d := d) (r := e :: r) (by simp [kind?, he])
    ((q ++ e :: r).length + 1) (if t.kind = .ident .root then Node.root else .ident (C.lib.dec t.value)) (by simp; omega)
  have e1 : withPostfix C rec d (if t.kind = .ident .root then Node.root else .ident (C.lib.dec t.value)) (q ++ e :: r) = _ := e1
  refine ⟨ks.foldl (fun n k => .member n (.str k)) (if t.kind = .ident .root then Node.root else .ident (C.lib.dec t.value)), ?_, ?_⟩
  · rw [transformKey, memberKey_fold ks _ [s] (memberKey_first hN)]
    rfl
  · rw [List.cons_append, unaryExpr_name hN.1]
    unfold identifier
    rw [if_pos, e1]
    · simp only
      rw [if_pos (by simp [kind?, he]), if_pos hc]
    · cases hp with
      | nil => simp [kind?, he]
      | cons h1 _ _ => simp [kind?, h1]

theorem Assigns.read {C : PCfg} {m d : Nat} {c : Ctx} {kvs out ts} (h : Assigns C d (laterName C) kvs out ts) (hm : ts.length < m) :
    binExpr C m c d 0 ts = (.assigns (pairs kvs) out, []) := by
  obtain ⟨p, v, rest, tp, e, tv, tr, rfl, rfl, hp, he, hv, hr⟩ := h
  obtain ⟨m, rfl⟩ : ∃ k, m = k + 1 := ⟨m - 1, by omega⟩
  obtain ⟨key, hk, e1⟩ := unaryExpr_target (C := C) (rec := binExpr C m) (r := tv ++ tr) hp he
  simp at hm
  have e2 : binExpr C m .global d 0 (tv ++ tr) = (v, tr) := hv.read (m := m) (r := tr) (by omega) (hr.stop _ _)
  have e3 : assignedObject C (binExpr C m) d key (e :: (tv ++ tr)) = (.assigns (pairs ((p, v) :: rest)) out, []) := by
    unfold assignedObject
    rw [expect_eq he]
    simp only [e2, hk]
    obtain ⟨o, r', e4, h4⟩ := hr.read (m := m) (tr.length + 1) [(.str (String.intercalate "." p), v)] (by omega) (by omega)
    rw [e4]
    cases out with
    | none =>
      obtain ⟨rfl, rfl⟩ := h4
      rfl
    | some x =>
      obtain ⟨tz, rfl, hz, hl⟩ := h4
      have e5 : binExpr C m .global d 0 tz = (x, []) := by
        have := hz.read (m := m) (r := []) (by omega) .nil
        rwa [List.append_nil] at this
      simp only [e5]
      rfl
  rw [binExpr_loop, List.append_assoc, List.cons_append, e1, e3]
  rfl

/-! ## Nothing else is read -/

section
variable {C : PCfg} {rec : Rec} {d : Nat}

/-- what holds of a node that is no path, and of whatever accesses make of it -/
theorem postfixes_keeps {P : Node → Prop} (he : P .error) (hm : ∀ n p, P n → P (.member n p)) (hs : ∀ n a b, P n → P (.slice n a b))
    (hc : ∀ m n as, P n → P (.method m n as)) : ∀ n node ts, P node → P (postfixes C rec d n node ts).1.1 := by
  have hpa : ∀ node r, P node → P (propertyAccess rec d node r).1 := by
    intro node r h
    unfold propertyAccess
    repeat' split
    all_goals first | exact he | exact hm _ _ h | exact hs _ _ _ h
  intro n
  induction n with
  | zero => intro node ts _; exact he
  | succ n ih =>
    intro node ts h
    unfold postfixes
    split
    · exact h
    · rename_i t r
      split
      · exact ih _ _ (hpa _ _ h)
      · split
        · split
          · exact ih _ _ (hm _ _ h)
          · split
            · split
              · split
                · refine ih _ _ (ih _ _ ?_)
                  exact hc _ _ _ h
                · exact ih _ _ he
              · exact ih _ _ (hm _ _ h)
            · exact ih _ _ (hm _ _ h)
        · exact h

/-- what is no path stays none -/
theorem postfixes_keyless (n : Nat) (node : Node) (ts : List Token) (h : memberKey node = none) :
    memberKey (postfixes C rec d n node ts).1.1 = none :=
  postfixes_keeps (P := fun x => memberKey x = none) rfl (fun n p h => by simp [memberKey, h]) (fun _ _ _ _ => rfl) (fun _ _ _ _ => rfl) n node ts h

theorem Comb.and_keeps {a b : Comb} (h : a.and b = .property ∨ a.and b = .inherit) :
    (a = .property ∨ a = .inherit) ∧ (b = .property ∨ b = .inherit) := by
  cases a <;> cases b <;> simp_all [Comb.and]

/-- only properties are accesses of a target -/
theorem postfixes_path : ∀ n node ts key c r, postfixes C rec d n node ts = ((key, c), r) → kind? r = some (.op .assign) →
    (c = .property ∨ c = .inherit) → memberKey key ≠ none →
    ∃ ks used, ts = used ++ r ∧ Path C ks used ∧ key = ks.foldl (fun n k => .member n (.str k)) node
  | 0, node, ts, key, c, r, h, hr, hc, hk => by cases h; exact absurd rfl hk
  | n + 1, node, ts, key, c, r, h, hr, hc, hk => by
    have keyless : ∀ x r', memberKey x = none → memberKey (postfixes C rec d n x r').1.1 = none := fun x r' => postfixes_keyless n x r'
    unfold postfixes at h
    split at h
    · cases h; cases hr
    · rename_i t r0
      split at h
      · rcases e0 : propertyAccess rec d node r0 with ⟨x, r1⟩
        rw [e0] at h
        dsimp only at h
        rcases e : postfixes C rec d n x r1 with ⟨⟨y, c'⟩, r2⟩
        rw [e] at h
        cases h
        have := (Comb.and_keeps hc).2
        simp at this
      · split at h
        · rename_i hdot
          split at h
          · have := keyless (.member node .error) [] (by simp [memberKey])
            rcases e : postfixes C rec d n (.member node .error) [] with ⟨⟨y, c'⟩, r2⟩
            rw [e] at h this
            cases h
            exact absurd this hk
          · rename_i q r1
            split at h
            · rename_i hq
              split at h
              · split at h
                · have h0 : memberKey (methodCall rec d node (C.lib.dec q.value) r1).1 = none := rfl
                  rcases e0 : methodCall rec d node (C.lib.dec q.value) r1 with ⟨x, r'⟩
                  rw [e0] at h h0
                  dsimp only at h
                  have h1 := keyless x r' h0
                  rcases e : postfixes C rec d n x r' with ⟨⟨y, c'⟩, r2⟩
                  rw [e] at h h1
                  dsimp only at h
                  have h2 := keyless y r2 h1
                  rcases e' : postfixes C rec d n y r2 with ⟨⟨z, c''⟩, r3⟩
                  rw [e'] at h h2
                  cases h
                  exact absurd h2 hk
                · have h1 := keyless .error r1 rfl
                  rcases e : postfixes C rec d n .error r1 with ⟨⟨y, c'⟩, r2⟩
                  rw [e] at h h1
                  cases h
                  exact absurd h1 hk
              · rcases e : postfixes C rec d n (.member node (.str (C.lib.dec q.value))) r1 with ⟨⟨y, c'⟩, r2⟩
                rw [e] at h
                cases h
                obtain ⟨ks, u, rfl, hp, rfl⟩ := postfixes_path n _ _ _ _ _ e hr (Comb.and_keeps hc).1 hk
                exact ⟨_, t :: q :: u, rfl, .cons hdot ((validProperty_iff _).1 hq) hp, rfl⟩
            · have h1 := keyless (.member node .error) (q :: r1) (by simp [memberKey])
              rcases e : postfixes C rec d n (.member node .error) (q :: r1) with ⟨⟨y, c'⟩, r2⟩
              rw [e] at h h1
              cases h
              exact absurd h1 hk
        · cases h
          exact ⟨[], [], rfl, .nil, rfl⟩

theorem transformKey_usual {R : Bool} {key : Node} (h : usual R (transformKey key) = true) :
    ∃ ks, memberKey key = some ks ∧ transformKey key = .str (String.intercalate "." ks) := by
  unfold transformKey at h ⊢
  split at h
  · cases h
  · rename_i ks e
    exact ⟨ks, e, rfl⟩

theorem assignLoop_spells (hs : Spells C rec) : ∀ n acc ts res o r', assignLoop C rec d n acc ts = (some (res, o), r') →
    usualP C.range res = true → ∃ kvs, res = acc ++ pairs kvs ∧ (o = none → r' = [] ∧ More C d (laterName C) kvs none ts) ∧
      ∀ x tz, o = some tz → Written C .global d 0 x tz → More C d (laterName C) kvs (some x) ts
  | 0, acc, ts, res, o, r', h, _ => by cases h
  | n + 1, acc, ts, res, o, r', h, hu => by
    unfold assignLoop at h
    split at h
    · rename_i h0
      cases h
      subst h0
      exact ⟨[], by simp [pairs], fun _ => ⟨rfl, .done⟩, fun _ _ h => by cases h⟩
    · split at h
      · cases h
      · rename_i h1
        obtain ⟨s, hsemi, rfl⟩ := expect_token h1
        cases h
        exact ⟨[], by simp [pairs], fun _ => ⟨rfl, .semi hsemi⟩, fun _ _ h => by cases h⟩
      · rename_i t r h1
        obtain ⟨s, hsemi, rfl⟩ := expect_token h1
        rcases e : withPostfix C rec d (.ident (C.lib.dec t.value)) r with ⟨⟨key, c⟩, r1⟩
        rw [e] at h
        dsimp only at h
        split at h
        · cases h
          refine ⟨[], by simp [pairs], fun h => (by cases h), ?_⟩
          rintro x tz ⟨⟩ hx
          exact .result hsemi hx
        · rename_i r2 h2
          obtain ⟨a, ha, rfl⟩ := expect_token h2
          split at h
          · rename_i hc
            rcases e1 : rec .global d 0 r2 with ⟨v, r3⟩
            rw [e1] at h
            dsimp only at h
            obtain ⟨kvs, rfl, h3, h4⟩ := assignLoop_spells hs n _ _ _ _ _ h hu
            rw [usualP_append, usualP_append] at hu
            simp [usualP] at hu
            obtain ⟨ks, hk, hk'⟩ := transformKey_usual hu.1.2.1
            obtain ⟨p, u, rfl, hp, rfl⟩ := postfixes_path _ _ _ _ _ _ e (by simp [kind?, ha]) hc (by simp [hk])
            obtain ⟨u', rfl, hw⟩ := hs.top e1 hu.1.2.2
            have ht : Target C (laterName C) (C.lib.dec t.value :: p) (t :: u) := ⟨t, _, p, u, rfl, rfl, rfl, hp⟩
            have hkey : transformKey (p.foldl (fun n k => .member n (.str k)) (.ident (C.lib.dec t.value))) =
                .str (String.intercalate "." (C.lib.dec t.value :: p)) := by
              rw [transformKey, memberKey_fold p _ [C.lib.dec t.value] rfl]
              rfl
            refine ⟨(C.lib.dec t.value :: p, v) :: kvs, by simp [pairs, hkey], fun ho => ?_, fun x tz ho hx => ?_⟩
            · refine ⟨(h3 ho).1, ?_⟩
              have := More.next hsemi ht ha hw (h3 ho).2
              simpa using this
            · have := More.next hsemi ht ha hw (h4 x tz ho hx)
              simpa using this
          · cases h

theorem assignedObject_spells (hs : Spells C rec) {key : Node} {ts kvs out} (h : assignedObject C rec d key ts = (.assigns kvs out, []))
    (hk : usualP C.range kvs = true) (ho : usualO C.range out = true) : ∃ ks e v tv tr more, ts = e :: tv ++ tr ∧ e.kind = .op .assign ∧
      memberKey key = some ks ∧ Written C .global d 0 v tv ∧ More C d (laterName C) more out tr ∧ kvs = pairs ((ks, v) :: more) := by
  unfold assignedObject at h
  split at h
  · cases h
  · rename_i r h1
    obtain ⟨e, he, rfl⟩ := expect_token h1
    rcases e1 : rec .global d 0 r with ⟨v, r1⟩
    rw [e1] at h
    dsimp only at h
    have main : ∀ acc o r', assignLoop C rec d (r1.length + 1) [(transformKey key, v)] r1 = (some (acc, o), r') → usualP C.range acc = true →
        ∃ ks tv more, r = tv ++ r1 ∧ memberKey key = some ks ∧ Written C .global d 0 v tv ∧ acc = pairs ((ks, v) :: more) ∧
          (o = none → r' = [] ∧ More C d (laterName C) more none r1) ∧
          ∀ x tz, o = some tz → Written C .global d 0 x tz → More C d (laterName C) more (some x) r1 := by
      intro acc o r' hl hu
      obtain ⟨more, rfl, h3, h4⟩ := assignLoop_spells hs _ _ _ _ _ _ hl hu
      simp [usualP] at hu
      obtain ⟨ks, hk, hk'⟩ := transformKey_usual hu.1.1
      obtain ⟨u', rfl, hw⟩ := hs.top e1 hu.1.2
      exact ⟨ks, u', more, rfl, hk, hw, by simp [pairs, hk'], h3, h4⟩
    split at h
    · cases h
    · rename_i hl
      cases h
      obtain ⟨ks, tv, more, rfl, a1, a2, a3, a4, a5⟩ := main _ _ _ hl hk
      exact ⟨ks, e, v, tv, r1, more, by simp, he, a1, a2, (a4 rfl).2, a3⟩
    · rename_i r2 _ hl
      rcases e2 : rec .global d 0 r2 with ⟨x, r3⟩
      rw [e2] at h
      cases h
      obtain ⟨ks, tv, more, rfl, a1, a2, a3, a4, a5⟩ := main _ _ _ hl hk
      obtain ⟨u, rfl, hw⟩ := hs.top e2 (by simpa [usualO] using ho)
      exact ⟨ks, e, v, tv, r1, more, by simp, he, a1, a2, a5 x _ rfl (by simpa using hw), a3⟩

/-- is it no list of assignments? -/
def NoAsg (n : Node) : Prop := ∀ kvs o, n ≠ .assigns kvs o

theorem withPostfix_noAsg {node : Node} {ts x c r} (h : NoAsg node) (e : withPostfix C rec d node ts = ((x, c), r)) : NoAsg x := by
  have := postfixes_keeps (C := C) (rec := rec) (d := d) (P := NoAsg) (fun _ _ h => by cases h) (fun _ _ _ _ _ h => by cases h)
    (fun _ _ _ _ _ _ h => by cases h) (fun _ _ _ _ _ _ h => by cases h) (ts.length + 1) node ts h
  change NoAsg (withPostfix C rec d node ts).1.1 at this
  rwa [e] at this

theorem identifier_spells_assign (hs : Spells C rec) {t : Token} {r : List Token} {kvs out} (ht : namesFn d t.kind)
    (h : identifier C rec d t r = (.assigns kvs out, [])) (hk : usualP C.range kvs = true) (ho : usualO C.range out = true) :
    ∃ as, kvs = pairs as ∧ Assigns C d (laterName C) as out (t :: r) := by
  unfold identifier at h
  split at h
  · rcases e : withPostfix C rec d (if t.kind = .ident .root then .root else .ident (C.lib.dec t.value)) r with ⟨⟨x, c⟩, r1⟩
    rw [e] at h
    dsimp only at h
    have hno : NoAsg x := withPostfix_noAsg (by split <;> rintro _ _ ⟨⟩) e
    split at h
    · rename_i hr1
      split at h
      · rename_i hc
        obtain ⟨ks, a, v, tv, tr, more, rfl, a1, a2, a3, a4, rfl⟩ := assignedObject_spells hs h hk ho
        obtain ⟨p, u, rfl, hp, rfl⟩ := postfixes_path _ _ _ _ _ _ e hr1 hc (by simp [a2])
        have hf : firstName C d t (if t.kind = .ident .root then "$root" else C.lib.dec t.value) := ⟨ht, rfl⟩
        rw [memberKey_fold p _ _ (memberKey_first hf)] at a2
        cases a2
        exact ⟨_, rfl, _, v, more, t :: u, a, tv, tr, rfl, by simp, ⟨t, _, p, u, hf, rfl, rfl, hp⟩, a1, a3, a4⟩
      · cases h
    · cases h
      exact absurd rfl (hno _ _)
  · split at h
    · rcases e0 : argsLoop rec d (r.length + 1) [] r.tail with ⟨as, r0⟩
      rw [e0] at h
      dsimp only at h
      rcases e : withPostfix C rec d (.call (C.lib.dec t.value) as) r0 with ⟨⟨x, c⟩, r1⟩
      rw [e] at h
      cases h
      exact absurd rfl (withPostfix_noAsg (by rintro _ _ ⟨⟩) e _ _)
    · split at h
      · cases h
      · rename_i k _
        have h0 : NoAsg (closureCall C rec d k r.tail).1 := by
          unfold closureCall
          dsimp only
          repeat' split
          all_goals rintro _ _ ⟨⟩
        rcases e0 : closureCall C rec d k r.tail with ⟨y, r0⟩
        rw [e0] at h h0
        dsimp only at h
        rcases e : withPostfix C rec d y r0 with ⟨⟨x, c⟩, r1⟩
        rw [e] at h
        cases h
        exact absurd rfl (withPostfix_noAsg h0 e _ _)

theorem interval_noAsg {ts : List Token} {x r} (h : interval C rec d ts = (some x, r)) : NoAsg x := by
  unfold interval at h
  split at h
  · split at h
    · cases h
    · split at h
      · rename_i t r0 _ lb _
        rcases e : rec .global d 0 r0 with ⟨y, r1⟩
        rw [e] at h
        dsimp only at h
        split at h
        · cases h
        · split at h
          · cases h
          · rename_i r2 _
            rcases e1 : rec .global d 0 r2 with ⟨z, r3⟩
            rw [e1] at h
            dsimp only at h
            split at h
            · cases h
            · split at h
              · cases h
              · rename_i t1 r4
                split at h
                · rename_i rb _
                  rcases e2 : withPostfix C rec d (.interval y z lb rb) r4 with ⟨⟨w, c⟩, r5⟩
                  rw [e2] at h
                  cases h
                  exact withPostfix_noAsg (by rintro _ _ ⟨⟩) e2
                · cases h
      · cases h
  · cases h

theorem literal_spells_assign (hs : Spells C rec) {ts : List Token} {kvs out} (ht : ∀ t r, ts = t :: r → ¬ (d > 0 ∧ t.kind = .ident .callback))
    (h : literal C rec d ts = (.assigns kvs out, [])) (hk : usualP C.range kvs = true) (ho : usualO C.range out = true) :
    ∃ as, kvs = pairs as ∧ Assigns C d (laterName C) as out ts := by
  unfold literal at h
  split at h
  · cases h
  · rename_i t r
    split at h
    · cases h
    · rename_i i hne hi
      refine identifier_spells_assign hs ?_ h hk ho
      cases i with
      | null => exact absurd rfl hne
      | context => simp [namesFn, hi]
      | root => simp [namesFn, hi]
      | callback =>
        have := ht t r rfl
        simp [hi] at this
        simp [namesFn, hi, this]
    · rename_i hi
      exact identifier_spells_assign hs (by simp [namesFn, hi]) h hk ho
    · cases h
    · unfold number at h
      split at h <;> cases h
    · unfold templateString at h
      repeat' split at h
      all_goals cases h
    · unfold simpleString at h
      repeat' split at h
      all_goals cases h
    · split at h
      · rename_i e; cases h; exact absurd rfl (interval_noAsg e _ _)
      · unfold array at h
        split at h
        · cases h
        · split at h
          · cases h
          · rename_i xs r1 _
            rcases e : withPostfix C rec d (.arr xs) r1 with ⟨⟨x, c⟩, r2⟩
            rw [e] at h
            cases h
            exact absurd rfl (withPostfix_noAsg (by rintro _ _ ⟨⟩) e _ _)
    · unfold object at h
      repeat' split at h
      all_goals cases h
    · cases h
    · split at h
      · rename_i e; cases h; exact absurd rfl (interval_noAsg e _ _)
      · cases h
    · cases h
    · cases h

theorem unaryExpr_spells_assign (hs : Spells C rec) {ts : List Token} {kvs out} (h : unaryExpr C rec d ts = (.assigns kvs out, []))
    (hk : usualP C.range kvs = true) (ho : usualO C.range out = true) : ∃ as, kvs = pairs as ∧ Assigns C d (laterName C) as out ts := by
  unfold unaryExpr at h
  split at h
  · cases h
  · rename_i t r0
    split at h
    · rcases e : withPostfix C rec d .pointer r0 with ⟨⟨x, c⟩, r1⟩
      rw [e] at h
      cases h
      exact absurd rfl (withPostfix_noAsg (by rintro _ _ ⟨⟩) e _ _)
    · rename_i hd
      split at h
      · split at h
        · cases h
        · cases h
      · split at h
        · rename_i e; cases h; exact absurd rfl (interval_noAsg e _ _)
        · rename_i ts1 e0
          have e0 := interval_none e0
          split at h
          · rcases e : rec .global d 0 ts1.tail with ⟨x, r1⟩
            rw [e] at h
            dsimp only at h
            split at h
            · cases h
            · rename_i r2 h2
              rcases e1 : withPostfix C rec d (.paren x) r2 with ⟨⟨y, c⟩, r3⟩
              rw [e1] at h
              cases h
              exact absurd rfl (withPostfix_noAsg (by rintro _ _ ⟨⟩) e1 _ _)
          · rcases e0 with rfl | rfl
            · exact literal_spells_assign hs (by rintro t' r' ⟨⟩; exact hd) h hk ho
            · cases h

/-- the loop returns what it started with or a combination -/
theorem binLoop_keeps {c : Ctx} {p : Nat} : ∀ n l ts, NoAsg l → NoAsg (binLoop C rec c d p n l ts).1
  | 0, _, _, _ => by rintro _ _ ⟨⟩
  | n + 1, l, ts, h => by
    unfold binLoop
    repeat' split
    all_goals first | exact h | exact binLoop_keeps n _ _ (by rintro _ _ ⟨⟩)

theorem binLoop_assigns {c : Ctx} {p : Nat} {n l ts kvs out r} (h : binLoop C rec c d p n l ts = (.assigns kvs out, r)) :
    l = .assigns kvs out ∧ r = ts := by
  cases n with
  | zero => cases h
  | succ n =>
    unfold binLoop at h
    split at h
    · cases h; exact ⟨rfl, rfl⟩
    · split at h
      · rename_i t r0 _ o _
        split at h
        · cases h; exact ⟨rfl, rfl⟩
        · split at h
          · cases h; exact ⟨rfl, rfl⟩
          · rename_i q right _
            split at h
            · cases h; exact ⟨rfl, rfl⟩
            · rcases e : rec .global d (if right then q else q + 1) r0 with ⟨x, r1⟩
              rw [e] at h
              dsimp only at h
              have := binLoop_keeps (C := C) (rec := rec) (d := d) (c := c) (p := p) n (.binary o l x) r1 (by rintro _ _ ⟨⟩) kvs out
              rw [h] at this
              exact absurd rfl this
      · cases h; exact ⟨rfl, rfl⟩

end

/-- What the parser reads as a list of assignments is one. -/
theorem Assigns.of_read {C : PCfg} {m d : Nat} {c : Ctx} {ts kvs out} (h : binExpr C m c d 0 ts = (.assigns kvs out, []))
    (hk : usualP C.range kvs = true) (ho : usualO C.range out = true) : ∃ as, kvs = pairs as ∧ Assigns C d (laterName C) as out ts := by
  cases m with
  | zero => cases h
  | succ m =>
    change binBody C (binExpr C m) c d 0 ts = _ at h
    unfold binBody at h
    rcases e : unaryExpr C (binExpr C m) d ts with ⟨l, r⟩
    rw [e] at h
    dsimp only at h
    rcases e1 : binLoop C (binExpr C m) c d 0 (r.length + 1) l r with ⟨x, r1⟩
    rw [e1] at h
    dsimp only at h
    rw [if_pos rfl] at h
    unfold conditional at h
    split at h
    · cases h
      obtain ⟨rfl, rfl⟩ := binLoop_assigns e1
      exact unaryExpr_spells_assign (binExpr_spells m) e hk ho
    · repeat' split at h
      all_goals cases h

end Parse
end Zen
