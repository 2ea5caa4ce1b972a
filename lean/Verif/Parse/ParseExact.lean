import Verif.Parse.ParseSound
/-
What the parser accepts is written: the tokens consumed for a tree are a written form of it.
-/
namespace Zen
namespace Parse
open Zen.Lex

mutual
/-- the trees written expressions stand for: without errors and assignments, intervals between brackets that open and
close them, and, where a range is written (`R`), without empty arrays and objects -/
def usual (R : Bool) : Node → Bool
  | .error => false
  | .null | .bool _ | .num _ | .str _ | .pointer | .ident _ | .root => true
  | .tmpl ps => usualL R ps
  | .arr ps => !(R && ps.isEmpty) && usualL R ps
  | .obj kvs => !(R && kvs.isEmpty) && usualP R kvs
  | .assigns _ _ => false
  | .paren n => usual R n
  | .member n p => usual R n && usual R p
  | .slice n f t => usual R n && usualO R f && usualO R t
  | .interval l r lb rb =>
      (lb == .lparen || lb == .lsq) && rb != .lparen && rb != .lsq && usual R l && usual R r
  | .cond c t f => usual R c && usual R t && usual R f
  | .unary _ n => usual R n
  | .binary _ l r => usual R l && usual R r
  | .call _ as => usualL R as
  | .closure _ o _ b => usual R o && usual R b
  | .method _ t as => usual R t && usualL R as
def usualL (R : Bool) : List Node → Bool
  | [] => true
  | n :: ns => usual R n && usualL R ns
def usualP (R : Bool) : List (Node × Node) → Bool
  | [] => true
  | (a, b) :: ns => usual R a && usual R b && usualP R ns
def usualO (R : Bool) : Option Node → Bool
  | none => true
  | some n => usual R n
end

theorem usualL_append (R : Bool) (xs ys : List Node) : usualL R (xs ++ ys) = (usualL R xs && usualL R ys) := by
  induction xs with
  | nil => simp [usualL]
  | cons x xs ih => simp [usualL, ih, Bool.and_assoc]

theorem usualP_append (R : Bool) (xs ys : List (Node × Node)) : usualP R (xs ++ ys) = (usualP R xs && usualP R ys) := by
  induction xs with
  | nil => simp [usualP]
  | cons x xs ih => obtain ⟨a, b⟩ := x; simp [usualP, ih, Bool.and_assoc]

/-- the next token is not an operator that belongs to an open end of level `M`, unless it joins tests of a cell -/
def EndsAt (C : PCfg) (M : Nat) (r : List Token) : Prop :=
  ∀ o k, kind? r = some (.op o) → strength o = some k → 2 * k < M ∨ joins C .global o

/-- the expression parser reads only written expressions -/
def Spells (C : PCfg) (rec : Rec) : Prop := ∀ c d L ts m r, rec c d (lv L) ts = (m, r) → usual C.range m = true →
  ∃ used, ts = used ++ r ∧ Written C c d L m used ∧ (0 < L → 0 < edge m) ∧ EndsAt C (min L (edge m)) r

section
variable {C : PCfg} {rec : Rec} {d : Nat}

theorem Spells.top (hs : Spells C rec) {c : Ctx} {ts m r} (h : rec c d 0 ts = (m, r)) (hm : usual C.range m = true) :
    ∃ used, ts = used ++ r ∧ Written C c d 0 m used := by
  obtain ⟨u, h1, h2, _⟩ := hs c d 0 ts m r h hm
  exact ⟨u, h1, h2⟩

theorem expect_token {k : Kind} {ts r : List Token} (h : expect k ts = some r) : ∃ t, t.kind = k ∧ ts = t :: r := by
  cases ts with
  | nil => simp [expect, kind?] at h
  | cons t ts =>
    rw [expect_cons] at h
    split at h
    · rename_i hk; cases h; exact ⟨t, hk, rfl⟩
    · cases h

theorem simpleString_spells {q : Quote} {ts m r} (h : simpleString C q ts = (m, r)) (hm : usual C.range m = true) :
    ∃ a t b, a.kind = .quote q ∧ t.kind = .literal ∧ b.kind = .quote q ∧ m = .str (C.lib.dec t.value) ∧ ts = a :: t :: b :: r := by
  unfold simpleString at h
  split at h
  · cases h; cases hm
  · rename_i r0 h0
    obtain ⟨a, ha, rfl⟩ := expect_token h0
    split at h
    · cases h; cases hm
    · rename_i r1 h1
      obtain ⟨t, ht, rfl⟩ := expect_token h1
      split at h
      · cases h; cases hm
      · rename_i r2 h2
        obtain ⟨b, hb, rfl⟩ := expect_token h2
        cases h
        exact ⟨a, t, b, ha, ht, hb, rfl, rfl⟩

/-- the loop of a template keeps what it has -/
theorem tmplLoop_spells (hs : Spells C rec) : ∀ n acc ts ns r r', tmplLoop C rec d n acc ts = (some ns, r) →
    expect (.quote .backtick) r = some r' → usualL C.range ns = true →
    usualL C.range acc = true ∧ ∃ xs used, ns = acc ++ xs ∧ ts = used ++ r' ∧ Parts C (Written C) d xs used
  | 0, _, _, _, _, _, h, _, _ => by cases h
  | n + 1, acc, ts, ns, r, r', h, hr, hu => by
    have ih := tmplLoop_spells hs n
    unfold tmplLoop at h
    split at h
    · cases h; cases hr
    · rename_i t r0
      split at h
      · cases h
        obtain ⟨z, hz, e⟩ := expect_token hr
        cases e
        exact ⟨hu, [], [t], by simp, rfl, .nil hz⟩
      · rename_i hk
        rcases e : rec .global d 0 r0 with ⟨x, r1⟩
        rw [e] at h
        dsimp only at h
        split at h
        · rename_i r2 h2
          obtain ⟨b, hb, rfl⟩ := expect_token h2
          obtain ⟨h3, xs, used, rfl, rfl, h4⟩ := ih _ _ _ _ _ h hr hu
          simp [usualL_append, usualL] at h3
          obtain ⟨u, rfl, hw⟩ := hs.top e h3.2
          exact ⟨h3.1, x :: xs, t :: u ++ b :: used, by simp, by simp, .expr hk hw hb h4⟩
        · obtain ⟨h3, _⟩ := ih _ _ _ _ _ h hr hu
          simp [usualL_append, usualL, usual] at h3
      · rename_i hk
        obtain ⟨h3, xs, used, rfl, rfl, h4⟩ := ih _ _ _ _ _ h hr hu
        exact ⟨h3, xs, t :: used, rfl, rfl, .stray hk h4⟩
      · rename_i hk
        obtain ⟨h3, xs, used, rfl, rfl, h4⟩ := ih _ _ _ _ _ h hr hu
        simp [usualL_append, usualL, usual] at h3
        exact ⟨h3, _ :: xs, t :: used, by simp, rfl, .text hk h4⟩
      · cases h

theorem templateString_spells (hs : Spells C rec) {ts m r} (h : templateString C rec d ts = (m, r)) (hm : usual C.range m = true) :
    ∃ used, ts = used ++ r ∧ Primary C (Written C) d false m used := by
  unfold templateString at h
  split at h
  · cases h; cases hm
  · cases h; cases hm
  · rename_i t r0 h0
    obtain ⟨a, ha, rfl⟩ := expect_token h0
    rcases e : tmplLoop C rec d ((t :: r0).length + 1) [] (t :: r0) with ⟨ns, r1⟩
    rw [e] at h
    cases ns with
    | none => cases h; cases hm
    | some ns =>
      dsimp only at h
      split at h
      · cases h; cases hm
      · rename_i r2 h2
        cases h
        obtain ⟨_, xs, used, rfl, e', hp⟩ := tmplLoop_spells hs _ _ _ _ _ _ e h2 (by simpa [usual] using hm)
        exact ⟨a :: used, by rw [e']; rfl, .tmpl ha hp⟩

theorem argsLoop_spells (hs : Spells C rec) : ∀ n acc ts ns r, argsLoop rec d n acc ts = (ns, r) → usualL C.range ns = true →
    usualL C.range acc = true ∧ ∃ xs used, ns = acc ++ xs ∧ ts = used ++ r ∧ Items (Written C) .rparen d xs used
  | 0, _, _, _, _, h, hu => by cases h; simp [usualL_append, usualL, usual] at hu
  | n + 1, acc, ts, ns, r, h, hu => by
    have ih := argsLoop_spells hs n
    unfold argsLoop at h
    split at h
    · rename_i h0
      obtain ⟨z, hz, rfl⟩ := expect_token h0
      cases h
      exact ⟨hu, [], [z], by simp, rfl, .nil hz⟩
    · rcases e : rec .global d 0 ts with ⟨x, r1⟩
      rw [e] at h
      dsimp only at h
      split at h
      · rename_i r2 h2
        obtain ⟨c, hc, rfl⟩ := expect_token h2
        obtain ⟨h3, xs, used, rfl, rfl, h4⟩ := ih _ _ _ _ h hu
        simp [usualL_append, usualL] at h3
        obtain ⟨u, rfl, hw⟩ := hs.top e h3.2
        exact ⟨h3.1, x :: xs, u ++ c :: used, by simp, by simp, .more hw hc h4⟩
      · split at h
        · rename_i h2
          obtain ⟨z, hz, rfl⟩ := expect_token h2
          cases h
          simp [usualL_append, usualL] at hu
          obtain ⟨u, rfl, hw⟩ := hs.top e hu.2
          exact ⟨hu.1, [x], u ++ [z], rfl, by simp, .last hw hz⟩
        · cases h; simp [usualL_append, usualL, usual] at hu

theorem methodCall_spells (hs : Spells C rec) {node : Node} {f : String} {r m r1} (h : methodCall rec d node f r = (m, r1))
    (hm : usual C.range m = true) (hr : kind? r = some (.bracket .lparen)) :
    usual C.range node = true ∧ ∃ a xs used, a.kind = .bracket .lparen ∧ r = a :: used ++ r1 ∧ m = .method f node xs ∧
      Items (Written C) .rparen d xs used := by
  cases r with
  | nil => cases hr
  | cons a r =>
    simp [kind?] at hr
    unfold methodCall at h
    rcases e : argsLoop rec d ((a :: r).length + 1) [] (a :: r).tail with ⟨as, r2⟩
    rw [e] at h
    cases h
    simp [usual] at hm
    obtain ⟨_, xs, used, e0, e', hi⟩ := argsLoop_spells hs _ _ _ _ _ e hm.2
    simp at e' e0
    subst e0
    exact ⟨hm.1, a, as, used, hr, by rw [e']; rfl, rfl, hi⟩

/-- reading a bracket after a node -/
theorem propertyAccess_spells (hs : Spells C rec) {node : Node} {a : Token} {r m r1 tn}
    (ha : a.kind = .bracket .lsq) (h : propertyAccess rec d node r = (m, r1)) (hm : usual C.range m = true) :
    usual C.range node = true ∧ (Primary C (Written C) d true node tn →
      ∃ used, a :: r = used ++ r1 ∧ Primary C (Written C) d true m (tn ++ used)) := by
  unfold propertyAccess at h
  split at h
  · cases h; cases hm
  · split at h
    · rename_i r2 h2
      obtain ⟨c, hc, rfl⟩ := expect_token h2
      split at h
      · cases h; cases hm
      · split at h
        · rename_i r3 h3
          obtain ⟨b, hb, rfl⟩ := expect_token h3
          cases h
          simp [usual, usualO] at hm
          refine ⟨hm, fun hn => ⟨[a, c, b], rfl, ?_⟩⟩
          simpa using Primary.slice hn ha .none hc .none hb
        · rcases e : rec .global d 0 r2 with ⟨y, r3⟩
          rw [e] at h
          dsimp only at h
          split at h
          · cases h; cases hm
          · rename_i r4 h4
            obtain ⟨b, hb, rfl⟩ := expect_token h4
            cases h
            simp [usual, usualO] at hm
            obtain ⟨u, rfl, hw⟩ := hs.top e hm.2
            refine ⟨hm.1, fun hn => ⟨a :: c :: u ++ [b], by simp, ?_⟩⟩
            simpa using Primary.slice hn ha .none hc (.some hw) hb
    · rcases e : rec .global d 0 r with ⟨x, r2⟩
      rw [e] at h
      dsimp only at h
      split at h
      · cases h; cases hm
      · split at h
        · rename_i r3 h3
          obtain ⟨c, hc, rfl⟩ := expect_token h3
          split at h
          · cases h; cases hm
          · split at h
            · rename_i r4 h4
              obtain ⟨b, hb, rfl⟩ := expect_token h4
              cases h
              simp [usual, usualO] at hm
              obtain ⟨u, rfl, hw⟩ := hs.top e hm.2
              refine ⟨hm.1, fun hn => ⟨a :: u ++ [c, b], by simp, ?_⟩⟩
              simpa using Primary.slice hn ha (.some hw) hc .none hb
            · rcases e' : rec .global d 0 r3 with ⟨y, r4⟩
              rw [e'] at h
              dsimp only at h
              split at h
              · cases h; cases hm
              · rename_i r5 h5
                obtain ⟨b, hb, rfl⟩ := expect_token h5
                cases h
                simp [usual, usualO] at hm
                obtain ⟨u', rfl, hw'⟩ := hs.top e' hm.2
                obtain ⟨u, rfl, hw⟩ := hs.top e hm.1.2
                refine ⟨hm.1.1, fun hn => ⟨a :: u ++ c :: u' ++ [b], by simp, ?_⟩⟩
                simpa using Primary.slice hn ha (.some hw) hc (.some hw') hb
        · split at h
          · cases h; cases hm
          · rename_i r3 h3
            obtain ⟨b, hb, rfl⟩ := expect_token h3
            cases h
            simp [usual] at hm
            obtain ⟨u, rfl, hw⟩ := hs.top e hm.2
            refine ⟨hm.1, fun hn => ⟨a :: u ++ [b], by simp, ?_⟩⟩
            simpa using Primary.index hn ha hw hb

/-- the accesses after a node -/
theorem postfixes_spells (hs : Spells C rec) : ∀ n node ts m c r, postfixes C rec d n node ts = ((m, c), r) → usual C.range m = true →
    usual C.range node = true ∧ ∀ tn, Primary C (Written C) d true node tn →
      ∃ used, ts = used ++ r ∧ Primary C (Written C) d true m (tn ++ used)
  | 0, _, _, _, _, _, h, hm => by cases h; cases hm
  | n + 1, node, ts, m, c, r, h, hm => by
    have ih := postfixes_spells hs n
    unfold postfixes at h
    split at h
    · cases h
      exact ⟨hm, fun tn hn => ⟨[], rfl, by simpa using hn⟩⟩
    · rename_i t r0
      split at h
      · rename_i ht
        rcases e : propertyAccess rec d node r0 with ⟨x, r1⟩
        rw [e] at h
        dsimp only at h
        rcases e' : postfixes C rec d n x r1 with ⟨⟨y, c'⟩, r2⟩
        rw [e'] at h
        cases h
        obtain ⟨h1, h2⟩ := ih _ _ _ _ _ e' hm
        refine ⟨(propertyAccess_spells (tn := []) hs ht e h1).1, fun tn hn => ?_⟩
        obtain ⟨u, e1, h3⟩ := (propertyAccess_spells (tn := tn) hs ht e h1).2 hn
        obtain ⟨u', rfl, h4⟩ := h2 _ h3
        exact ⟨u ++ u', by rw [e1]; simp, by simpa using h4⟩
      · split at h
        · rename_i ht
          split at h
          · rcases e' : postfixes C rec d n (.member node .error) [] with ⟨⟨y, c'⟩, r2⟩
            rw [e'] at h
            cases h
            have := (ih _ _ _ _ _ e' hm).1
            simp [usual] at this
          · rename_i p r1
            split at h
            · rename_i hp
              split at h
              · rename_i hr
                split at h
                · rename_i hmt
                  rcases e : methodCall rec d node (C.lib.dec p.value) r1 with ⟨x, r2⟩
                  rw [e] at h
                  dsimp only at h
                  rcases e1 : postfixes C rec d n x r2 with ⟨⟨y, c1⟩, r3⟩
                  rw [e1] at h
                  dsimp only at h
                  rcases e2 : postfixes C rec d n y r3 with ⟨⟨z, c2⟩, r4⟩
                  rw [e2] at h
                  cases h
                  obtain ⟨h1, h2⟩ := ih _ _ _ _ _ e2 hm
                  obtain ⟨h3, h4⟩ := ih _ _ _ _ _ e1 h1
                  obtain ⟨h5, a, xs, u, ha, rfl, rfl, hi⟩ := methodCall_spells hs e h3 hr
                  refine ⟨h5, fun tn hn => ?_⟩
                  obtain ⟨u1, rfl, h6⟩ := h4 _ (.method hn ht ((validProperty_iff _).1 hp) ((methods_iff _).1 hmt) ha hi)
                  obtain ⟨u2, rfl, h7⟩ := h2 _ h6
                  exact ⟨t :: p :: a :: u ++ u1 ++ u2, by simp, by simpa using h7⟩
                · rcases e' : postfixes C rec d n .error r1 with ⟨⟨y, c'⟩, r2⟩
                  rw [e'] at h
                  cases h
                  have := (ih _ _ _ _ _ e' hm).1
                  simp [usual] at this
              · rcases e' : postfixes C rec d n (.member node (.str (C.lib.dec p.value))) r1 with ⟨⟨y, c'⟩, r2⟩
                rw [e'] at h
                cases h
                obtain ⟨h1, h2⟩ := ih _ _ _ _ _ e' hm
                simp [usual] at h1
                refine ⟨h1, fun tn hn => ?_⟩
                obtain ⟨u, rfl, h3⟩ := h2 _ (.member hn ht ((validProperty_iff _).1 hp))
                exact ⟨t :: p :: u, rfl, by simpa using h3⟩
            · rcases e' : postfixes C rec d n (.member node .error) (p :: r1) with ⟨⟨y, c'⟩, r2⟩
              rw [e'] at h
              cases h
              have := (ih _ _ _ _ _ e' hm).1
              simp [usual] at this
        · cases h
          exact ⟨hm, fun tn hn => ⟨[], rfl, by simpa using hn⟩⟩

theorem withPostfix_spells (hs : Spells C rec) {node ts m c r} (h : withPostfix C rec d node ts = ((m, c), r)) (hm : usual C.range m = true) :
    usual C.range node = true ∧ ∀ tn, Primary C (Written C) d true node tn →
      ∃ used, ts = used ++ r ∧ Primary C (Written C) d true m (tn ++ used) :=
  postfixes_spells hs _ _ _ _ _ _ h hm

theorem aliasOf_spells {ts al r} (h : aliasOf C ts = (some al, r)) : ∃ used, ts = used ++ r ∧ Alias C al used := by
  unfold aliasOf at h
  split at h
  · cases h; exact ⟨[], rfl, .none⟩
  · rename_i t r0
    split at h
    · rename_i ht
      split at h
      · cases h
      · rename_i a r1
        split at h
        · rename_i ha
          cases h
          exact ⟨[t, a], rfl, .some ht.1 ht.2 ha⟩
        · cases h
    · cases h; exact ⟨[], rfl, .none⟩

theorem closureCall_spells (hs : Spells C rec) {k : Clo} {t a : Token} {r m r1} (ht : namesFn d t.kind) (hf : isFn (C.lib.dec t.value) = false)
    (hk : cloOfText (C.lib.dec t.value) = some k) (ha : a.kind = .bracket .lparen)
    (h : closureCall C rec d k r = (m, r1)) (hm : usual C.range m = true) :
    ∃ used, t :: a :: r = used ++ r1 ∧ Primary C (Written C) d true m used := by
  unfold closureCall at h
  rcases e : rec .global d 0 r with ⟨o, r2⟩
  rw [e] at h
  dsimp only at h
  rcases e1 : aliasOf C r2 with ⟨al, r3⟩
  rw [e1] at h
  dsimp only at h
  rcases e2 : rec .closure (d + 1) 0 ((expect (.op .comma) r3).getD r3) with ⟨b, r4⟩
  rw [e2] at h
  dsimp only at h
  split at h
  · rename_i al' r5 r6 h5 h6
    cases h
    obtain ⟨c, hc, rfl⟩ := expect_token h5
    obtain ⟨z, hz, rfl⟩ := expect_token h6
    rw [h5, Option.getD_some] at e2
    simp [usual] at hm
    obtain ⟨u, rfl, hw⟩ := hs.top e hm.1
    obtain ⟨u', rfl, hal⟩ := aliasOf_spells e1
    obtain ⟨u2, rfl, hw2⟩ := hs.top e2 hm.2
    exact ⟨t :: a :: u ++ u' ++ c :: u2 ++ [z], by simp, .closure ht hf ((cloOfText_iff _ _).1 hk) ha hw hal hc hw2 hz⟩
  · cases h; simp [usual] at hm

theorem identifier_spells (hs : Spells C rec) {t : Token} {r m r1} (ht : namesFn d t.kind) (h : identifier C rec d t r = (m, r1))
    (hm : usual C.range m = true) : ∃ used, t :: r = used ++ r1 ∧ Primary C (Written C) d true m used := by
  unfold identifier at h
  split at h
  · generalize hn : (if t.kind = .ident .root then Node.root else .ident (C.lib.dec t.value)) = node at h
    have hp : Primary C (Written C) d true node [t] := by
      rw [← hn]
      split
      · rename_i hr; exact .root hr
      · rename_i hr
        refine .name ?_
        rcases ht with h | h | h | h
        · exact .inl h
        · exact .inr (.inl h)
        · exact absurd h hr
        · exact .inr (.inr h)
    rcases e : withPostfix C rec d node r with ⟨⟨x, c⟩, r2⟩
    rw [e] at h
    dsimp only at h
    split at h
    · split at h
      · exfalso
        unfold assignedObject at h
        repeat' split at h
        all_goals (cases h; simp [usual] at hm)
      · cases h; cases hm
    · cases h
      obtain ⟨u, rfl, h2⟩ := (withPostfix_spells hs e hm).2 _ hp
      exact ⟨t :: u, rfl, h2⟩
  · rename_i hr
    cases r with
    | nil => simp [kind?] at hr
    | cons a r =>
      simp [kind?] at hr
      split at h
      · rename_i hf
        rcases e : argsLoop rec d ((a :: r).length + 1) [] (a :: r).tail with ⟨as, r2⟩
        rw [e] at h
        dsimp only at h
        rcases e1 : withPostfix C rec d (.call (C.lib.dec t.value) as) r2 with ⟨⟨x, c⟩, r3⟩
        rw [e1] at h
        cases h
        obtain ⟨h1, h2⟩ := withPostfix_spells hs e1 hm
        obtain ⟨_, xs, u, rfl, e', hi⟩ := argsLoop_spells hs _ _ _ _ _ e (by simpa [usual] using h1)
        obtain ⟨u', rfl, h3⟩ := h2 _ (.call ht hf hr (by simpa using hi))
        simp at e'
        exact ⟨t :: a :: u ++ u', by rw [e']; simp, by simpa using h3⟩
      · rename_i hf
        split at h
        · cases h; cases hm
        · rename_i k hk
          rcases e : closureCall C rec d k (a :: r).tail with ⟨x, r2⟩
          rw [e] at h
          dsimp only at h
          rcases e1 : withPostfix C rec d x r2 with ⟨⟨y, c⟩, r3⟩
          rw [e1] at h
          cases h
          obtain ⟨h1, h2⟩ := withPostfix_spells hs e1 hm
          obtain ⟨u, e', hc⟩ := closureCall_spells hs ht (by simpa using hf) hk hr e h1
          obtain ⟨u', rfl, h3⟩ := h2 _ hc
          simp at e'
          exact ⟨u ++ u', by rw [e']; simp, h3⟩

theorem interval_spells (hs : Spells C rec) {ts m r} (h : interval C rec d ts = (some m, r)) (hm : usual C.range m = true) :
    ∃ used, ts = used ++ r ∧ Primary C (Written C) d true m used := by
  unfold interval at h
  split at h
  · rename_i hR
    split at h
    · cases h
    · rename_i t r0
      split at h
      · rename_i lb hlb
        rcases e : rec .global d 0 r0 with ⟨x, r1⟩
        rw [e] at h
        dsimp only at h
        split at h
        · cases h
        · split at h
          · cases h
          · rename_i r2 h2
            obtain ⟨c, hc, rfl⟩ := expect_token h2
            rcases e1 : rec .global d 0 r2 with ⟨y, r3⟩
            rw [e1] at h
            dsimp only at h
            split at h
            · cases h
            · split at h
              · cases h
              · rename_i b r4
                split at h
                · rename_i rb hrb
                  rcases e2 : withPostfix C rec d (.interval x y lb rb) r4 with ⟨⟨z, c'⟩, r5⟩
                  rw [e2] at h
                  cases h
                  obtain ⟨h3, h4⟩ := withPostfix_spells hs e2 hm
                  simp [usual] at h3
                  obtain ⟨u, rfl, hw⟩ := hs.top e h3.1.2
                  obtain ⟨u', rfl, hw'⟩ := hs.top e1 h3.2
                  obtain ⟨u2, rfl, h5⟩ := h4 _ (.interval hR hlb h3.1.1.1.1 hw hc hw' hrb h3.1.1.1.2 h3.1.1.2)
                  exact ⟨t :: u ++ c :: u' ++ [b] ++ u2, by simp, h5⟩
                · cases h
      · cases h
  · cases h

/-- giving up on an interval goes back to where it began, or to the end of the tokens -/
theorem interval_none {ts r} (h : interval C rec d ts = (none, r)) : r = ts ∨ r = [] := by
  unfold interval at h
  dsimp only at h
  repeat' split at h
  all_goals (cases h <;> simp)

theorem arrayLoop_spells (hs : Spells C rec) : ∀ n acc ts ns r, arrayLoop rec d n acc ts = (some ns, r) → usualL C.range ns = true →
    usualL C.range acc = true ∧ ∃ xs used, ns = acc ++ xs ∧ ts = used ++ r ∧
      if acc = [] then Items (Written C) .rsq d xs used
      else (∃ z, used = [z] ∧ xs = [] ∧ z.kind = .bracket .rsq) ∨
        ∃ c used', used = c :: used' ∧ c.kind = .op .comma ∧ Items (Written C) .rsq d xs used'
  | 0, _, _, _, _, h, hu => by cases h
  | n + 1, acc, ts, ns, r, h, hu => by
    have ih := arrayLoop_spells hs n
    -- an element and what comes after it
    have step : ∀ x r0 r1, rec .global d 0 r0 = (x, r1) → arrayLoop rec d n (acc ++ [x]) r1 = (some ns, r) →
        usualL C.range acc = true ∧ ∃ xs used, ns = acc ++ xs ∧ r0 = used ++ r ∧ Items (Written C) .rsq d xs used := by
      intro x r0 r1 e h
      obtain ⟨h1, xs, used, rfl, rfl, h2⟩ := ih _ _ _ _ h hu
      rw [if_neg (by simp)] at h2
      simp [usualL_append, usualL] at h1
      obtain ⟨u, rfl, hw⟩ := hs.top e h1.2
      refine ⟨h1.1, x :: xs, u ++ used, by simp, by simp, ?_⟩
      rcases h2 with ⟨z, rfl, rfl, hz⟩ | ⟨c, used', rfl, hc, hi⟩
      · exact .last hw hz
      · exact .more hw hc hi
    unfold arrayLoop at h
    split at h
    · rename_i h0
      obtain ⟨z, hz, rfl⟩ := expect_token h0
      cases h
      refine ⟨hu, [], [z], by simp, rfl, ?_⟩
      split
      · exact .nil hz
      · exact .inl ⟨z, rfl, rfl, hz⟩
    · split at h
      · rename_i hemp
        rcases e : rec .global d 0 ts with ⟨x, r1⟩
        rw [e] at h
        obtain ⟨h1, xs, used, h2, h3, h4⟩ := step _ _ _ e h
        exact ⟨h1, xs, used, h2, h3, by rw [if_pos (by simpa using hemp)]; exact h4⟩
      · rename_i hemp
        have hemp : acc ≠ [] := by simpa using hemp
        split at h
        · cases h
        · rename_i r0 h0
          obtain ⟨c, hc, rfl⟩ := expect_token h0
          split at h
          · rename_i h1
            obtain ⟨z, hz, rfl⟩ := expect_token h1
            cases h
            exact ⟨hu, [], [c, z], by simp, rfl, by rw [if_neg hemp]; exact .inr ⟨c, [z], rfl, hc, .nil hz⟩⟩
          · rcases e : rec .global d 0 r0 with ⟨x, r1⟩
            rw [e] at h
            obtain ⟨h1, xs, used, h2, rfl, h4⟩ := step _ _ _ e h
            exact ⟨h1, xs, c :: used, h2, rfl, by rw [if_neg hemp]; exact .inr ⟨c, used, rfl, hc, h4⟩⟩

theorem array_spells (hs : Spells C rec) {ts m r} (h : array C rec d ts = (m, r)) (hm : usual C.range m = true) :
    ∃ used, ts = used ++ r ∧ Primary C (Written C) d true m used := by
  unfold array at h
  split at h
  · cases h; cases hm
  · rename_i r0 h0
    obtain ⟨a, ha, rfl⟩ := expect_token h0
    rcases e : arrayLoop rec d (r0.length + 2) [] r0 with ⟨ns, r1⟩
    rw [e] at h
    cases ns with
    | none => cases h; cases hm
    | some ns =>
      dsimp only at h
      rcases e1 : withPostfix C rec d (.arr ns) r1 with ⟨⟨x, c⟩, r2⟩
      rw [e1] at h
      cases h
      obtain ⟨h1, h2⟩ := withPostfix_spells hs e1 hm
      simp [usual] at h1
      obtain ⟨_, xs, u, rfl, rfl, hi⟩ := arrayLoop_spells hs _ _ _ _ _ e h1.2
      obtain ⟨u', rfl, h3⟩ := h2 _ (.arr (ts := u) ha (by simpa using hi) (by
        intro hx
        rcases h1.1 with h | h
        · exact h
        · exact absurd (by simpa using hx) h))
      exact ⟨a :: u ++ u', by simp, h3⟩

theorem objectKey_spells (hs : Spells C rec) {ts m r} (h : objectKey C rec d ts = (m, r)) (hm : usual C.range m = true) :
    ∃ used, ts = used ++ r ∧ Key C (Written C) d m used := by
  unfold objectKey at h
  split at h
  · cases h; cases hm
  · rename_i t r0
    split at h
    · rename_i hk; cases h; exact ⟨[t], rfl, .ident hk⟩
    · rename_i hk; cases h; exact ⟨[t], rfl, .bool hk⟩
    · rename_i hk; cases h; exact ⟨[t], rfl, .number hk⟩
    · rename_i hk; cases h; exact ⟨[t], rfl, .literal hk⟩
    · rename_i hk
      rcases e : rec .global d 0 r0 with ⟨x, r1⟩
      rw [e] at h
      dsimp only at h
      split at h
      · cases h; cases hm
      · rename_i h1
        obtain ⟨b, hb, rfl⟩ := expect_token h1
        cases h
        obtain ⟨u, rfl, hw⟩ := hs.top e hm
        exact ⟨t :: u ++ [b], by simp, .computed hk hw hb⟩
    · obtain ⟨a, t, b, ha, ht, hb, rfl, e⟩ := simpleString_spells h hm
      exact ⟨[a, t, b], e, .string (by simp) ha ht hb⟩
    · obtain ⟨a, t, b, ha, ht, hb, rfl, e⟩ := simpleString_spells h hm
      exact ⟨[a, t, b], e, .string (by simp) ha ht hb⟩
    · cases h; cases hm

theorem objectLoop_spells (hs : Spells C rec) : ∀ n acc ts ns r, objectLoop C rec d n acc ts = (some ns, r) → usualP C.range ns = true →
    usualP C.range acc = true ∧ ∃ xs used, ns = acc ++ xs ∧ ts = used ++ r ∧ Entries C (Written C) d xs used
  | 0, _, _, _, _, h, hu => by cases h
  | n + 1, acc, ts, ns, r, h, hu => by
    have ih := objectLoop_spells hs n
    unfold objectLoop at h
    rcases e : objectKey C rec d ts with ⟨k, r0⟩
    rw [e] at h
    dsimp only at h
    split at h
    · cases h
    · rename_i r1 h1
      obtain ⟨c, hc, rfl⟩ := expect_token h1
      rcases e1 : rec .global d 0 r1 with ⟨v, r2⟩
      rw [e1] at h
      dsimp only at h
      split at h
      · cases h; simp [usualP_append, usualP, usual] at hu
      · split at h
        · rename_i r3 h3
          obtain ⟨t, ht, rfl⟩ := expect_token h3
          obtain ⟨h4, xs, used, rfl, rfl, h5⟩ := ih _ _ _ _ h hu
          simp [usualP_append, usualP] at h4
          obtain ⟨u', rfl, hw⟩ := hs.top e1 h4.2.2
          obtain ⟨u, rfl, hk⟩ := objectKey_spells hs e h4.2.1
          exact ⟨h4.1, (k, v) :: xs, u ++ c :: u' ++ t :: used, by simp, by simp, .more hk hc hw ht h5⟩
        · split at h
          · rename_i r3 h3
            obtain ⟨z, hz, rfl⟩ := expect_token h3
            cases h
            simp [usualP_append, usualP] at hu
            obtain ⟨u', rfl, hw⟩ := hs.top e1 hu.2.2
            obtain ⟨u, rfl, hk⟩ := objectKey_spells hs e hu.2.1
            exact ⟨hu.1, [(k, v)], u ++ c :: u' ++ [z], rfl, by simp, .last hk hc hw hz⟩
          · cases h

theorem object_spells (hs : Spells C rec) {ts m r} (h : object C rec d ts = (m, r)) (hm : usual C.range m = true) :
    ∃ used, ts = used ++ r ∧ Primary C (Written C) d false m used := by
  unfold object at h
  split at h
  · cases h; cases hm
  · rename_i r0 h0
    obtain ⟨a, ha, rfl⟩ := expect_token h0
    split at h
    · rename_i h1
      obtain ⟨b, hb, rfl⟩ := expect_token h1
      cases h
      simp [usual, usualP] at hm
      exact ⟨[a, b], rfl, .emptyObj hm ha hb⟩
    · rcases e : objectLoop C rec d (r0.length + 1) [] r0 with ⟨ns, r1⟩
      rw [e] at h
      cases ns with
      | none => cases h; cases hm
      | some ns =>
        cases h
        simp [usual] at hm
        obtain ⟨_, xs, u, rfl, rfl, hi⟩ := objectLoop_spells hs _ _ _ _ _ e hm.2
        exact ⟨a :: u, rfl, .obj ha (by simpa using hi)⟩

theorem literal_spells (hs : Spells C rec) {ts m r} (hd : ∀ t, ts.head? = some t → ¬ (d > 0 ∧ t.kind = .ident .callback))
    (h : literal C rec d ts = (m, r)) (hm : usual C.range m = true) :
    ∃ f used, ts = used ++ r ∧ Primary C (Written C) d f m used := by
  unfold literal at h
  split at h
  · cases h; cases hm
  · rename_i t r0
    have hd := hd t rfl
    split at h
    · rename_i hk; cases h; exact ⟨_, [t], rfl, .null hk⟩
    · rename_i i hi hk
      refine ⟨_, identifier_spells hs ?_ h hm⟩
      rw [hk]
      cases i with
      | null => exact absurd rfl hi
      | context => exact .inr (.inl rfl)
      | root => exact .inr (.inr (.inl rfl))
      | callback => exact .inr (.inr (.inr ⟨rfl, by rw [hk] at hd; simpa using hd⟩))
    · rename_i hk
      exact ⟨_, identifier_spells hs (.inl hk) h hm⟩
    · rename_i hk; cases h; exact ⟨_, [t], rfl, .bool hk⟩
    · rename_i hk
      unfold number at h
      split at h
      · rename_i q hq
        cases h
        exact ⟨_, [t], rfl, .num hk hq⟩
      · cases h; cases hm
    · exact ⟨_, templateString_spells hs h hm⟩
    · rename_i q hq hk
      obtain ⟨a, t, b, ha, ht, hb, rfl, e⟩ := simpleString_spells h hm
      exact ⟨_, [a, t, b], e, .str (fun h => hq h) ha ht hb⟩
    · split at h
      · rename_i e; cases h; exact ⟨_, interval_spells hs e hm⟩
      · rename_i e
        rcases interval_none e with rfl | rfl
        · exact ⟨_, array_spells hs h hm⟩
        · cases h; cases hm
    · exact ⟨_, object_spells hs h hm⟩
    · cases h; cases hm
    · split at h
      · rename_i e; cases h; exact ⟨_, interval_spells hs e hm⟩
      · cases h; cases hm
    · cases h; cases hm
    · cases h; cases hm

theorem Primary.closed {E : Expr} {f n ts} (h : Primary C E d f n ts) : edge n = 100 := by
  cases h <;> rfl

theorem unaryExpr_spells (hs : Spells C rec) {ts m r} (h : unaryExpr C rec d ts = (m, r)) (hm : usual C.range m = true) :
    ∃ used, ts = used ++ r ∧ (∀ c L, Written C c d L m used) ∧ 0 < edge m ∧ EndsAt C (edge m) r := by
  have leaf : (∃ f used, ts = used ++ r ∧ Primary C (Written C) d f m used) →
      ∃ used, ts = used ++ r ∧ (∀ c L, Written C c d L m used) ∧ 0 < edge m ∧ EndsAt C (edge m) r := by
    rintro ⟨f, used, e, hp⟩
    refine ⟨used, e, fun c L => .primary hp, by rw [hp.closed]; omega, fun o k _ hk => .inl ?_⟩
    have := strength_le hk
    rw [hp.closed]; omega
  unfold unaryExpr at h
  split at h
  · cases h; cases hm
  · rename_i t r0
    split at h
    · rename_i hd
      rcases e : withPostfix C rec d .pointer r0 with ⟨⟨x, c⟩, r1⟩
      rw [e] at h
      cases h
      obtain ⟨u, rfl, h1⟩ := (withPostfix_spells hs e hm).2 _ (.pointer hd.2 hd.1)
      exact leaf ⟨_, t :: u, rfl, h1⟩
    · rename_i hd
      split at h
      · rename_i o ho
        split at h
        · cases h; cases hm
        · rename_i q hq
          obtain ⟨s, hs1, rfl⟩ := unOp_some hq
          rcases e : rec .global d (lv (2 * s)) r0 with ⟨x, r1⟩
          rw [e] at h
          cases h
          obtain ⟨u, rfl, h1, h2, h3⟩ := hs _ _ _ _ _ _ e (by simpa [usual] using hm)
          have hs2 : 0 < 2 * s := by
            cases o with
            | arith a => cases a <;> simp [prefixStrength] at hs1 <;> omega
            | logic a => cases a <;> simp [prefixStrength] at hs1 <;> omega
            | _ => simp [prefixStrength] at hs1
          refine ⟨t :: u, rfl, fun c L => .unary ho hs1 h1, ?_, ?_⟩
          · have := h2 hs2
            simp only [Zen.Parse.edge, hs1, Option.getD_some]
            omega
          · simpa [Zen.Parse.edge, hs1] using h3
      · rename_i hno
        split at h
        · rename_i e; cases h; exact leaf ⟨_, interval_spells hs e hm⟩
        · rename_i ts1 e0
          have e0 := interval_none e0
          split at h
          · rename_i hk
            rcases e : rec .global d 0 ts1.tail with ⟨x, r1⟩
            rw [e] at h
            dsimp only at h
            split at h
            · cases h; cases hm
            · rename_i r2 h2
              obtain ⟨b, hb, rfl⟩ := expect_token h2
              rcases e1 : withPostfix C rec d (.paren x) r2 with ⟨⟨y, c⟩, r3⟩
              rw [e1] at h
              cases h
              obtain ⟨h3, h4⟩ := withPostfix_spells hs e1 hm
              obtain ⟨u, e', hw⟩ := hs.top e (by simpa [usual] using h3)
              rcases e0 with rfl | rfl
              · obtain ⟨u', rfl, h5⟩ := h4 _ (.paren hk hw hb)
                simp at e'
                exact leaf ⟨_, t :: u ++ [b] ++ u', by rw [e']; simp, h5⟩
              · simp at e'
          · rcases e0 with rfl | rfl
            · exact leaf (literal_spells hs (by rintro t' ⟨⟩; exact hd) h hm)
            · cases h; cases hm

theorem binLoop_usual {c : Ctx} {p : Nat} : ∀ n l ts, usual C.range (binLoop C rec c d p n l ts).1 = true → usual C.range l = true
  | 0, _, _, h => by cases h
  | n + 1, l, ts, h => by
    unfold binLoop at h
    split at h
    · exact h
    · split at h
      · split at h
        · exact h
        · split at h
          · exact h
          · split at h
            · exact h
            · have := binLoop_usual n _ _ h
              simp [usual] at this
              exact this.1
      · exact h

theorem stopsAt_joins {c : Ctx} {o : Oper} (h : stopsAt C c o = false) : ¬ joins C c o := by
  rintro ⟨h1, rfl, h2 | h2⟩ <;> subst h2 <;> simp [stopsAt, h1] at h

theorem place_pos {o : Oper} {k : Nat} (h : strength o = some k) : 0 < place o k := by
  have : 0 < k := by
    cases o with
    | arith a => cases a <;> simp [strength] at h <;> omega
    | logic a => cases a <;> simp [strength] at h <;> omega
    | cmp a => simp [strength] at h; omega
    | _ => simp [strength] at h
  unfold place
  split <;> omega

theorem binLoop_spells (hs : Spells C rec) {c : Ctx} {L : Nat} : ∀ n l ts m r tl,
    binLoop C rec c d (lv L) n l ts = (m, r) → usual C.range m = true →
    Written C c d L l tl → 0 < edge l → EndsAt C (edge l) ts →
    ∃ used, ts = used ++ r ∧ Written C c d L m (tl ++ used) ∧ 0 < edge m ∧ EndsAt C (min L (edge m)) r
  | 0, _, _, _, _, _, h, hm, _, _, _ => by cases h; cases hm
  | n + 1, l, ts, m, r, tl, h, hm, h1, h2, h3 => by
    unfold binLoop at h
    split at h
    · cases h
      exact ⟨[], rfl, by simpa using h1, h2, fun o k hk => by simp [kind?] at hk⟩
    · rename_i t r0
      split at h
      · rename_i o ho
        have hkd : kind? (t :: r0) = some (.op o) := by simp [kind?, ho]
        split at h
        · rename_i hst
          cases h
          refine ⟨[], rfl, by simpa using h1, h2, fun o' k hk hk' => .inr ?_⟩
          rw [hkd] at hk
          cases hk
          simp [stopsAt] at hst
          refine ⟨hst.1.1, rfl, ?_⟩
          rcases hst.2 with (h | h) | h
          · subst h; simp [strength] at hk'
          · exact .inl h
          · exact .inr h
        · rename_i hst
          split at h
          · rename_i hb
            cases h
            refine ⟨[], rfl, by simpa using h1, h2, fun o' k hk hk' => ?_⟩
            rw [hkd] at hk
            cases hk
            obtain ⟨_, e, _⟩ := binOp_strength hk'
            rw [hb] at e
            cases e
          · rename_i q right hb
            obtain ⟨k, hk, hq, hp⟩ := binOp_some hb
            split at h
            · rename_i hlv
              cases h
              refine ⟨[], rfl, by simpa using h1, h2, fun o' k' e hk' => ?_⟩
              have := h3 o' k' e hk'
              rw [hkd] at e
              cases e
              rw [hk] at hk'
              cases hk'
              rw [hq] at hlv
              have hnl : ¬ L ≤ 2 * k := fun hle => by have := lv_le hle; omega
              rcases this with h | h
              · left; omega
              · exact .inr h
            · rename_i hlv
              have hle : L ≤ 2 * k := by
                rcases Nat.lt_or_ge (2 * k) L with hh | hh
                · have := lv_lt hh; omega
                · exact hh
              rw [hp] at h
              rcases e : rec .global d (lv (place o k)) r0 with ⟨x, r1⟩
              rw [e] at h
              dsimp only at h
              have hx := binLoop_usual (C := C) (rec := rec) (d := d) (c := c) (p := lv L) n (.binary o l x) r1 (by rw [h]; exact hm)
              simp [usual] at hx
              obtain ⟨u, rfl, g1, g2, g3⟩ := hs _ _ _ _ _ _ e hx.2
              have hop : openFor C o k l := by
                rcases h3 o k hkd hk with h | h
                · exact .inl h
                · exact .inr ⟨h2, h⟩
              obtain ⟨u', rfl, g4, g5, g6⟩ := binLoop_spells hs n _ _ _ _ (tl ++ t :: u) h hm
                (.binary ho hk (stopsAt_joins (by simpa using hst)) hle h1 hop g1)
                (by have := g2 (place_pos hk); have := place_pos hk; simp only [Zen.Parse.edge, hk, Option.getD_some]; omega)
                (by simpa [Zen.Parse.edge, hk] using g3)
              exact ⟨t :: u ++ u', by simp, by simpa using g4, g5, g6⟩
      · rename_i hno
        cases h
        refine ⟨[], rfl, by simpa using h1, h2, fun o k hk => ?_⟩
        simp [kind?] at hk
        exact absurd hk (hno o)

end

/-- What the parser reads is written. -/
theorem binExpr_spells {C : PCfg} : ∀ n, Spells C (binExpr C n)
  | 0 => by
    intro c d L ts m r h hm
    cases h; cases hm
  | n + 1 => by
    have hs := binExpr_spells (C := C) n
    intro c d L ts m r h hm
    change binBody C (binExpr C n) c d (lv L) ts = (m, r) at h
    unfold binBody at h
    rcases e : unaryExpr C (binExpr C n) d ts with ⟨l, r0⟩
    rw [e] at h
    dsimp only at h
    rcases e1 : binLoop C (binExpr C n) c d (lv L) (r0.length + 1) l r0 with ⟨x, r1⟩
    rw [e1] at h
    dsimp only at h
    have main : usual C.range x = true → ∃ used, ts = used ++ r1 ∧ Written C c d L x used ∧ 0 < edge x ∧ EndsAt C (min L (edge x)) r1 := by
      intro hx
      obtain ⟨u, rfl, h1, h2, h3⟩ := unaryExpr_spells hs e
        (binLoop_usual (C := C) (rec := binExpr C n) (d := d) (c := c) (p := lv L) (r0.length + 1) l r0 (by rw [e1]; exact hx))
      obtain ⟨u', rfl, h4, h5, h6⟩ := binLoop_spells hs _ _ _ _ _ _ e1 hx (h1 c L) h2 h3
      exact ⟨u ++ u', by simp, h4, h5, h6⟩
    split at h
    · rename_i hL
      have hL := lv_zero.1 hL
      subst hL
      unfold conditional at h
      split at h
      · cases h
        obtain ⟨u, h1, h2, h3, h4⟩ := main hm
        exact ⟨u, h1, h2, fun _ => h3, h4⟩
      · rename_i r2 h2
        obtain ⟨q, hq, rfl⟩ := expect_token h2
        rcases e2 : binExpr C n .global d 0 r2 with ⟨y, r3⟩
        rw [e2] at h
        dsimp only at h
        split at h
        · cases h; cases hm
        · rename_i r4 h4
          obtain ⟨s, hsl, rfl⟩ := expect_token h4
          rcases e3 : binExpr C n .global d 0 r4 with ⟨z, r5⟩
          rw [e3] at h
          cases h
          simp [usual] at hm
          obtain ⟨u, rfl, h5, h6, _⟩ := main hm.1.1
          obtain ⟨u1, rfl, h7⟩ := hs.top e2 hm.1.2
          obtain ⟨u2, rfl, h8, _, h9⟩ := hs _ _ 0 _ _ _ e3 hm.2
          refine ⟨u ++ q :: u1 ++ s :: u2, by simp, .cond hq hsl h5 h6 h7 h8, fun h => by omega, ?_⟩
          simpa [edge] using h9
    · cases h
      obtain ⟨u, h1, h2, h3, h4⟩ := main hm
      exact ⟨u, h1, h2, fun _ => h3, h4⟩

/-! ### the trees of written expressions -/

section
variable {C : PCfg} {E : Expr} (hE : ∀ c d L n ts, E c d L n ts → usual C.range n = true)
include hE

theorem Items.usual {b d xs ts} (h : Items E b d xs ts) : usualL C.range xs = true := by
  induction h with
  | nil => rfl
  | last h => simp [usualL, hE _ _ _ _ _ h]
  | more h _ _ ih => simp [usualL, hE _ _ _ _ _ h, ih]

theorem Parts.usual {d xs ts} (h : Parts C E d xs ts) : usualL C.range xs = true := by
  induction h with
  | nil => rfl
  | text _ _ ih => simp [usualL, Parse.usual, ih]
  | expr _ h _ _ ih => simp [usualL, hE _ _ _ _ _ h, ih]
  | stray _ _ ih => exact ih

theorem Key.usual {d k ts} (h : Key C E d k ts) : usual C.range k = true := by
  cases h with
  | computed _ h => exact hE _ _ _ _ _ h
  | _ => rfl

theorem Entries.usual {d kvs ts} (h : Entries C E d kvs ts) : kvs ≠ [] ∧ usualP C.range kvs = true := by
  induction h with
  | last h1 _ h2 => simp [usualP, h1.usual hE, hE _ _ _ _ _ h2]
  | more h1 _ h2 _ _ ih => simp [usualP, h1.usual hE, hE _ _ _ _ _ h2, ih.2]

theorem Bound.usual {d x ts} (h : Bound E d x ts) : usualO C.range x = true := by
  cases h with
  | none => rfl
  | some h => exact hE _ _ _ _ _ h

theorem Primary.usual {d f n ts} (h : Primary C E d f n ts) : usual C.range n = true := by
  induction h with
  | null | bool | num | str | name | root | pointer => rfl
  | tmpl _ h => exact h.usual hE
  | emptyObj h => simp [Parse.usual, usualP, h]
  | obj _ h => have := h.usual hE; simp [Parse.usual, this]
  | paren _ h => simpa [Parse.usual] using hE _ _ _ _ _ h
  | @arr d a xs ts _ h h' =>
    simp only [Parse.usual, h.usual hE, Bool.and_true, Bool.not_eq_true', Bool.and_eq_false_iff]
    cases xs with
    | nil => exact .inl (h' rfl)
    | cons => exact .inr rfl
  | interval _ _ h1 h2 _ h3 _ h4 h5 => simp [Parse.usual, h1, h4, h5, hE _ _ _ _ _ h2, hE _ _ _ _ _ h3]
  | call _ _ _ h => exact h.usual hE
  | closure _ _ _ _ h _ _ h' => simp [Parse.usual, hE _ _ _ _ _ h, hE _ _ _ _ _ h']
  | member _ _ _ ih => simp [Parse.usual, ih]
  | index _ _ h _ ih => simp [Parse.usual, ih, hE _ _ _ _ _ h]
  | slice _ _ h _ h' _ ih => simp [Parse.usual, ih, h.usual hE, h'.usual hE]
  | method _ _ _ _ _ h ih => simp [Parse.usual, ih, h.usual hE]

end

theorem Written.usual {C : PCfg} {c d L n ts} (h : Written C c d L n ts) : usual C.range n = true := by
  refine Written.ind (P := fun _ _ _ n _ => Parse.usual C.range n = true) ?_ ?_ ?_ ?_ h
  · intro c d L f n ts h
    exact h.usual fun _ _ _ _ _ h => h.2.1
  · intro c d L o t s x ts _ _ _ h; exact h
  · intro c d L o t k l tl r tr _ _ _ _ _ h _ _ h'; simp [Parse.usual, h, h']
  · intro c d q s x tx y ty z tz _ _ _ h _ _ h' _ h''; simp [Parse.usual, h, h', h'']

end Parse
end Zen
