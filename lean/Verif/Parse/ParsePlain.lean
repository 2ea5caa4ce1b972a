import Verif.Parse.ParseExact
/-
Without assignments and ranges among the tokens every tree the parser makes is one written expressions stand for.
-/
namespace Zen
namespace Parse
open Zen.Lex

/-- no assignment sign among the tokens -/
def NoEq (ts : List Token) : Prop := ∀ t ∈ ts, t.kind ≠ .op .assign

theorem NoEq.nil : NoEq [] := by intro t h; cases h

theorem NoEq_append {a b : List Token} : NoEq (a ++ b) ↔ NoEq a ∧ NoEq b := by
  unfold NoEq
  constructor
  · intro h; exact ⟨fun t ht => h t (by simp [ht]), fun t ht => h t (by simp [ht])⟩
  · rintro ⟨h1, h2⟩ t ht
    rcases List.mem_append.1 ht with h | h
    · exact h1 t h
    · exact h2 t h

theorem NoEq_cons {t : Token} {b : List Token} : NoEq (t :: b) ↔ t.kind ≠ .op .assign ∧ NoEq b := by
  unfold NoEq
  simp

theorem hasErrorL_append (xs ys : List Node) : hasErrorL (xs ++ ys) = (hasErrorL xs || hasErrorL ys) := by
  induction xs with
  | nil => simp [hasErrorL]
  | cons x xs ih => simp [hasErrorL, ih, Bool.or_assoc]

theorem hasErrorP_append (xs ys : List (Node × Node)) : hasErrorP (xs ++ ys) = (hasErrorP xs || hasErrorP ys) := by
  induction xs with
  | nil => simp [hasErrorP]
  | cons x xs ih => obtain ⟨a, b⟩ := x; simp [hasErrorP, ih, Bool.or_assoc]

/-- what the expression parser reads without an assignment sign is as usual -/
def Quiet (rec : Rec) : Prop := ∀ c d p ts m r, rec c d p ts = (m, r) → hasError m = false →
  ∃ used, ts = used ++ r ∧ (NoEq used → usual false m = true)

section
variable {C : PCfg} (hC : C.range = false) {rec : Rec} {d : Nat}

theorem simpleString_quiet {q : Quote} {ts m r} (h : simpleString C q ts = (m, r)) (hm : hasError m = false) :
    ∃ used, ts = used ++ r ∧ usual false m = true := by
  unfold simpleString at h
  split at h
  · cases h; cases hm
  · rename_i r0 h0
    obtain ⟨a, ha, rfl⟩ := expect_token h0
    split at h
    · cases h; cases hm
    · rename_i r1 h1
      obtain ⟨t, ht, rfl⟩ := expect_token h1
      split at h
      · cases h; cases hm
      · rename_i r2 h2
        obtain ⟨b, hb, rfl⟩ := expect_token h2
        cases h
        exact ⟨[a, t, b], rfl, rfl⟩

theorem tmplLoop_quiet (hs : Quiet rec) : ∀ n acc ts ns r r', tmplLoop C rec d n acc ts = (some ns, r) →
    expect (.quote .backtick) r = some r' → hasErrorL ns = false →
    hasErrorL acc = false ∧ ∃ xs used, ns = acc ++ xs ∧ ts = used ++ r' ∧ (NoEq used → usualL false xs = true)
  | 0, _, _, _, _, _, h, _, _ => by cases h
  | n + 1, acc, ts, ns, r, r', h, hr, hu => by
    have ih := tmplLoop_quiet hs n
    unfold tmplLoop at h
    split at h
    · cases h; cases hr
    · rename_i t r0
      split at h
      · cases h
        obtain ⟨z, hz, e⟩ := expect_token hr
        cases e
        exact ⟨hu, [], [t], by simp, rfl, fun _ => rfl⟩
      · rename_i hk
        rcases e : rec .global d 0 r0 with ⟨x, r1⟩
        rw [e] at h
        dsimp only at h
        split at h
        · rename_i r2 h2
          obtain ⟨b, hb, rfl⟩ := expect_token h2
          obtain ⟨h3, xs, used, rfl, rfl, h4⟩ := ih _ _ _ _ _ h hr hu
          simp [hasErrorL_append, hasErrorL] at h3
          obtain ⟨u, rfl, hw⟩ := hs _ _ _ _ _ _ e h3.2
          refine ⟨h3.1, x :: xs, t :: u ++ b :: used, by simp, by simp, fun hq => ?_⟩
          simp [NoEq_append, NoEq_cons] at hq
          simp [usualL, hw hq.2.1, h4 hq.2.2.2]
        · obtain ⟨h3, _⟩ := ih _ _ _ _ _ h hr hu
          simp [hasErrorL_append, hasErrorL, hasError] at h3
      · rename_i hk
        obtain ⟨h3, xs, used, rfl, rfl, h4⟩ := ih _ _ _ _ _ h hr hu
        exact ⟨h3, xs, t :: used, rfl, rfl, fun hq => h4 (NoEq_cons.1 hq).2⟩
      · rename_i hk
        obtain ⟨h3, xs, used, rfl, rfl, h4⟩ := ih _ _ _ _ _ h hr hu
        simp [hasErrorL_append, hasErrorL, hasError] at h3
        exact ⟨h3, .str (C.lib.dec t.value) :: xs, t :: used, by simp, rfl, fun hq => by simp [usualL, usual, h4 (NoEq_cons.1 hq).2]⟩
      · cases h

theorem templateString_quiet (hs : Quiet rec) {ts m r} (h : templateString C rec d ts = (m, r)) (hm : hasError m = false) :
    ∃ used, ts = used ++ r ∧ (NoEq used → usual false m = true) := by
  unfold templateString at h
  split at h
  · cases h; cases hm
  · cases h; cases hm
  · rename_i t r0 h0
    obtain ⟨a, ha, rfl⟩ := expect_token h0
    rcases e : tmplLoop C rec d ((t :: r0).length + 1) [] (t :: r0) with ⟨ns, r1⟩
    rw [e] at h
    cases ns with
    | none => cases h; cases hm
    | some ns =>
      dsimp only at h
      split at h
      · cases h; cases hm
      · rename_i r2 h2
        cases h
        obtain ⟨_, xs, used, rfl, e', hp⟩ := tmplLoop_quiet hs _ _ _ _ _ _ e h2 (by simpa [hasError] using hm)
        exact ⟨a :: used, by rw [e']; rfl, fun hq => hp (NoEq_cons.1 hq).2⟩

theorem argsLoop_quiet (hs : Quiet rec) : ∀ n acc ts ns r, argsLoop rec d n acc ts = (ns, r) → hasErrorL ns = false →
    hasErrorL acc = false ∧ ∃ xs used, ns = acc ++ xs ∧ ts = used ++ r ∧ (NoEq used → usualL false xs = true)
  | 0, _, _, _, _, h, hu => by cases h; simp [hasErrorL_append, hasErrorL, hasError] at hu
  | n + 1, acc, ts, ns, r, h, hu => by
    have ih := argsLoop_quiet hs n
    unfold argsLoop at h
    split at h
    · rename_i h0
      obtain ⟨z, hz, rfl⟩ := expect_token h0
      cases h
      exact ⟨hu, [], [z], by simp, rfl, fun _ => rfl⟩
    · rcases e : rec .global d 0 ts with ⟨x, r1⟩
      rw [e] at h
      dsimp only at h
      split at h
      · rename_i r2 h2
        obtain ⟨c, hc, rfl⟩ := expect_token h2
        obtain ⟨h3, xs, used, rfl, rfl, h4⟩ := ih _ _ _ _ h hu
        simp [hasErrorL_append, hasErrorL] at h3
        obtain ⟨u, rfl, hw⟩ := hs _ _ _ _ _ _ e h3.2
        refine ⟨h3.1, x :: xs, u ++ c :: used, by simp, by simp, fun hq => ?_⟩
        simp [NoEq_append, NoEq_cons] at hq
        simp [usualL, hw hq.1, h4 hq.2.2]
      · split at h
        · rename_i h2
          obtain ⟨z, hz, rfl⟩ := expect_token h2
          cases h
          simp [hasErrorL_append, hasErrorL] at hu
          obtain ⟨u, rfl, hw⟩ := hs _ _ _ _ _ _ e hu.2
          exact ⟨hu.1, [x], u ++ [z], rfl, by simp, fun hq => by simp [usualL, hw (NoEq_append.1 hq).1]⟩
        · cases h; simp [hasErrorL_append, hasErrorL, hasError] at hu

theorem methodCall_quiet (hs : Quiet rec) {node : Node} {f : String} {r m r1} (h : methodCall rec d node f r = (m, r1))
    (hm : hasError m = false) (hr : kind? r = some (.bracket .lparen)) :
    hasError node = false ∧ ∃ used, r = used ++ r1 ∧ (NoEq used → usual false node = true → usual false m = true) := by
  cases r with
  | nil => cases hr
  | cons a r =>
    simp [kind?] at hr
    unfold methodCall at h
    rcases e : argsLoop rec d ((a :: r).length + 1) [] (a :: r).tail with ⟨as, r2⟩
    rw [e] at h
    cases h
    simp [hasError] at hm
    obtain ⟨_, xs, used, e0, e', hi⟩ := argsLoop_quiet hs _ _ _ _ _ e hm.2
    simp at e' e0
    subst e0
    exact ⟨hm.1, a :: used, by rw [e']; rfl, fun hq hn => by simp [usual, hn, hi (NoEq_cons.1 hq).2]⟩

theorem propertyAccess_quiet (hs : Quiet rec) {node : Node} {r m r1} (h : propertyAccess rec d node r = (m, r1)) (hm : hasError m = false) :
    hasError node = false ∧ ∃ used, r = used ++ r1 ∧ (NoEq used → usual false node = true → usual false m = true) := by
  unfold propertyAccess at h
  split at h
  · cases h; cases hm
  · split at h
    · rename_i r2 h2
      obtain ⟨c, hc, rfl⟩ := expect_token h2
      split at h
      · cases h; cases hm
      · split at h
        · rename_i r3 h3
          obtain ⟨b, hb, rfl⟩ := expect_token h3
          cases h
          simp [hasError, hasErrorO] at hm
          exact ⟨hm, [c, b], rfl, fun _ hn => by simp [usual, usualO, hn]⟩
        · rcases e : rec .global d 0 r2 with ⟨y, r3⟩
          rw [e] at h
          dsimp only at h
          split at h
          · cases h; cases hm
          · rename_i r4 h4
            obtain ⟨b, hb, rfl⟩ := expect_token h4
            cases h
            simp [hasError, hasErrorO] at hm
            obtain ⟨u, rfl, hw⟩ := hs _ _ _ _ _ _ e hm.2
            refine ⟨hm.1, c :: u ++ [b], by simp, fun hq hn => ?_⟩
            simp [NoEq_append, NoEq_cons] at hq
            simp [usual, usualO, hn, hw hq.2.1]
    · rcases e : rec .global d 0 r with ⟨x, r2⟩
      rw [e] at h
      dsimp only at h
      split at h
      · cases h; cases hm
      · split at h
        · rename_i r3 h3
          obtain ⟨c, hc, rfl⟩ := expect_token h3
          split at h
          · cases h; cases hm
          · split at h
            · rename_i r4 h4
              obtain ⟨b, hb, rfl⟩ := expect_token h4
              cases h
              simp [hasError, hasErrorO] at hm
              obtain ⟨u, rfl, hw⟩ := hs _ _ _ _ _ _ e hm.2
              refine ⟨hm.1, u ++ [c, b], by simp, fun hq hn => ?_⟩
              simp [NoEq_append, NoEq_cons] at hq
              simp [usual, usualO, hn, hw hq.1]
            · rcases e' : rec .global d 0 r3 with ⟨y, r4⟩
              rw [e'] at h
              dsimp only at h
              split at h
              · cases h; cases hm
              · rename_i r5 h5
                obtain ⟨b, hb, rfl⟩ := expect_token h5
                cases h
                simp [hasError, hasErrorO] at hm
                obtain ⟨u', rfl, hw'⟩ := hs _ _ _ _ _ _ e' hm.2
                obtain ⟨u, rfl, hw⟩ := hs _ _ _ _ _ _ e hm.1.2
                refine ⟨hm.1.1, u ++ c :: u' ++ [b], by simp, fun hq hn => ?_⟩
                simp [NoEq_append, NoEq_cons] at hq
                simp [usual, usualO, hn, hw hq.1, hw' hq.2.2.1]
        · split at h
          · cases h; cases hm
          · rename_i r3 h3
            obtain ⟨b, hb, rfl⟩ := expect_token h3
            cases h
            simp [hasError] at hm
            obtain ⟨u, rfl, hw⟩ := hs _ _ _ _ _ _ e hm.2
            refine ⟨hm.1, u ++ [b], by simp, fun hq hn => ?_⟩
            simp [usual, hn, hw (NoEq_append.1 hq).1]

theorem postfixes_quiet (hs : Quiet rec) : ∀ n node ts m c r, postfixes C rec d n node ts = ((m, c), r) → hasError m = false →
    hasError node = false ∧ ∃ used, ts = used ++ r ∧ (NoEq used → usual false node = true → usual false m = true)
  | 0, _, _, _, _, _, h, hm => by cases h; cases hm
  | n + 1, node, ts, m, c, r, h, hm => by
    have ih := postfixes_quiet hs n
    unfold postfixes at h
    split at h
    · cases h
      exact ⟨hm, [], rfl, fun _ h => h⟩
    · rename_i t r0
      split at h
      · rename_i ht
        rcases e : propertyAccess rec d node r0 with ⟨x, r1⟩
        rw [e] at h
        dsimp only at h
        rcases e' : postfixes C rec d n x r1 with ⟨⟨y, c'⟩, r2⟩
        rw [e'] at h
        cases h
        obtain ⟨h1, u', rfl, h2⟩ := ih _ _ _ _ _ e' hm
        obtain ⟨h3, u, rfl, h4⟩ := propertyAccess_quiet hs e h1
        refine ⟨h3, t :: u ++ u', by simp, fun hq hn => ?_⟩
        simp [NoEq_append, NoEq_cons] at hq
        exact h2 hq.2.2 (h4 hq.2.1 hn)
      · split at h
        · rename_i ht
          split at h
          · rcases e' : postfixes C rec d n (.member node .error) [] with ⟨⟨y, c'⟩, r2⟩
            rw [e'] at h
            cases h
            have := (ih _ _ _ _ _ e' hm).1
            simp [hasError] at this
          · rename_i p r1
            split at h
            · rename_i hp
              split at h
              · rename_i hr
                split at h
                · rename_i hmt
                  rcases e : methodCall rec d node (C.lib.dec p.value) r1 with ⟨x, r2⟩
                  rw [e] at h
                  dsimp only at h
                  rcases e1 : postfixes C rec d n x r2 with ⟨⟨y, c1⟩, r3⟩
                  rw [e1] at h
                  dsimp only at h
                  rcases e2 : postfixes C rec d n y r3 with ⟨⟨z, c2⟩, r4⟩
                  rw [e2] at h
                  cases h
                  obtain ⟨h1, u2, rfl, h2⟩ := ih _ _ _ _ _ e2 hm
                  obtain ⟨h3, u1, rfl, h4⟩ := ih _ _ _ _ _ e1 h1
                  obtain ⟨h5, u, rfl, h6⟩ := methodCall_quiet hs e h3 hr
                  refine ⟨h5, t :: p :: u ++ u1 ++ u2, by simp, fun hq hn => ?_⟩
                  simp [NoEq_append, NoEq_cons] at hq
                  exact h2 hq.2.2.2.2 (h4 hq.2.2.2.1 (h6 hq.2.2.1 hn))
                · rcases e' : postfixes C rec d n .error r1 with ⟨⟨y, c'⟩, r2⟩
                  rw [e'] at h
                  cases h
                  have := (ih _ _ _ _ _ e' hm).1
                  simp [hasError] at this
              · rcases e' : postfixes C rec d n (.member node (.str (C.lib.dec p.value))) r1 with ⟨⟨y, c'⟩, r2⟩
                rw [e'] at h
                cases h
                obtain ⟨h1, u, rfl, h2⟩ := ih _ _ _ _ _ e' hm
                simp [hasError] at h1
                refine ⟨h1, t :: p :: u, rfl, fun hq hn => ?_⟩
                simp [NoEq_cons] at hq
                exact h2 hq.2.2 (by simp [usual, hn])
            · rcases e' : postfixes C rec d n (.member node .error) (p :: r1) with ⟨⟨y, c'⟩, r2⟩
              rw [e'] at h
              cases h
              have := (ih _ _ _ _ _ e' hm).1
              simp [hasError] at this
        · cases h
          exact ⟨hm, [], rfl, fun _ h => h⟩

theorem withPostfix_quiet (hs : Quiet rec) {node ts m c r} (h : withPostfix C rec d node ts = ((m, c), r)) (hm : hasError m = false) :
    hasError node = false ∧ ∃ used, ts = used ++ r ∧ (NoEq used → usual false node = true → usual false m = true) :=
  postfixes_quiet hs _ _ _ _ _ _ h hm

theorem closureCall_quiet (hs : Quiet rec) {k : Clo} {r m r1} (h : closureCall C rec d k r = (m, r1)) (hm : hasError m = false) :
    ∃ used, r = used ++ r1 ∧ (NoEq used → usual false m = true) := by
  unfold closureCall at h
  rcases e : rec .global d 0 r with ⟨o, r2⟩
  rw [e] at h
  dsimp only at h
  rcases e1 : aliasOf C r2 with ⟨al, r3⟩
  rw [e1] at h
  dsimp only at h
  rcases e2 : rec .closure (d + 1) 0 ((expect (.op .comma) r3).getD r3) with ⟨b, r4⟩
  rw [e2] at h
  dsimp only at h
  split at h
  · rename_i al' r5 r6 h5 h6
    cases h
    obtain ⟨c, hc, rfl⟩ := expect_token h5
    obtain ⟨z, hz, rfl⟩ := expect_token h6
    rw [h5, Option.getD_some] at e2
    simp [hasError] at hm
    obtain ⟨u, rfl, hw⟩ := hs _ _ _ _ _ _ e hm.1
    obtain ⟨u', rfl, hal⟩ := aliasOf_spells e1
    obtain ⟨u2, rfl, hw2⟩ := hs _ _ _ _ _ _ e2 hm.2
    refine ⟨u ++ u' ++ c :: u2 ++ [z], by simp, fun hq => ?_⟩
    simp [NoEq_append, NoEq_cons] at hq
    simp [usual, hw hq.1, hw2 hq.2.2.2.1]
  · cases h; simp [hasError] at hm

theorem memberKey_noError : ∀ n ks, memberKey n = some ks → hasError n = false
  | .member n p, ks, h => by
    simp only [memberKey, Option.bind_eq_bind, Option.bind_eq_some_iff] at h
    obtain ⟨ks', h1, h2⟩ := h
    have ih := memberKey_noError n ks' h1
    split at h2
    · simp [hasError, ih]
    · simp [hasError, ih]
    · cases h2
  | .ident _, _, _ => rfl
  | .root, _, _ => rfl
  | .error, _, h => by cases h
  | .null, _, h | .bool _, _, h | .num _, _, h | .str _, _, h | .pointer, _, h | .tmpl _, _, h | .arr _, _, h | .obj _, _, h
  | .assigns _ _, _, h | .paren _, _, h | .slice _ _ _, _, h | .interval _ _ _ _, _, h | .cond _ _ _, _, h | .unary _ _, _, h
  | .binary _ _ _, _, h | .call _ _, _, h | .closure _ _ _ _, _, h | .method _ _ _, _, h => by cases h

theorem transformKey_noError {n : Node} (h : hasError (transformKey n) = false) : hasError n = false := by
  unfold transformKey at h
  split at h
  · cases h
  · rename_i ks hk; exact memberKey_noError n ks hk

theorem assignLoop_quiet (hs : Quiet rec) : ∀ n acc ts kvs o r, assignLoop C rec d n acc ts = (some (kvs, o), r) → hasErrorP kvs = false →
    hasErrorP acc = false ∧ ∃ used, ts = used ++ o.getD r
  | 0, _, _, _, _, _, h, _ => by cases h
  | n + 1, acc, ts, kvs, o, r, h, hu => by
    have ih := assignLoop_quiet hs n
    unfold assignLoop at h
    split at h
    · rename_i ht; cases h; exact ⟨hu, [], by simp [ht]⟩
    · split at h
      · cases h
      · rename_i h0
        obtain ⟨s, _, rfl⟩ := expect_token h0
        cases h
        exact ⟨hu, [s], rfl⟩
      · rename_i t r0 h0
        obtain ⟨s, _, rfl⟩ := expect_token h0
        rcases e : withPostfix C rec d (.ident (C.lib.dec t.value)) r0 with ⟨⟨key, c⟩, r1⟩
        rw [e] at h
        dsimp only at h
        split at h
        · cases h; exact ⟨hu, [s], rfl⟩
        · rename_i r2 h2
          obtain ⟨q, _, rfl⟩ := expect_token h2
          split at h
          · rcases e1 : rec .global d 0 r2 with ⟨v, r3⟩
            rw [e1] at h
            dsimp only at h
            obtain ⟨h3, u, h4⟩ := ih _ _ _ _ _ h hu
            simp [hasErrorP_append, hasErrorP] at h3
            obtain ⟨u1, rfl, _⟩ := hs _ _ _ _ _ _ e1 h3.2.2
            obtain ⟨_, u2, rfl, _⟩ := withPostfix_quiet hs e (transformKey_noError h3.2.1)
            exact ⟨h3.1, s :: t :: u2 ++ q :: u1 ++ u, by rw [h4]; simp⟩
          · cases h

theorem assignedObject_quiet (hs : Quiet rec) {key : Node} {ts m r} (h : assignedObject C rec d key ts = (m, r)) (hm : hasError m = false) :
    hasError key = false ∧ ∃ q used, q.kind = .op .assign ∧ ts = q :: used ++ r := by
  unfold assignedObject at h
  split at h
  · cases h; cases hm
  · rename_i r0 h0
    obtain ⟨q, hq, rfl⟩ := expect_token h0
    rcases e : rec .global d 0 r0 with ⟨v, r1⟩
    rw [e] at h
    dsimp only at h
    rcases e1 : assignLoop C rec d (r1.length + 1) [(transformKey key, v)] r1 with ⟨x, r2⟩
    rw [e1] at h
    rcases x with _ | ⟨kvs, _ | r3⟩
    · cases h; cases hm
    · cases h
      simp [hasError, hasErrorO] at hm
      obtain ⟨h1, u, e2⟩ := assignLoop_quiet hs _ _ _ _ _ _ e1 hm
      simp [hasErrorP] at h1
      obtain ⟨u1, rfl, _⟩ := hs _ _ _ _ _ _ e h1.2
      exact ⟨transformKey_noError h1.1, q, u1 ++ u, hq, by rw [e2]; simp⟩
    · dsimp only at h
      rcases e3 : rec .global d 0 r3 with ⟨o, r4⟩
      rw [e3] at h
      cases h
      simp [hasError, hasErrorO] at hm
      obtain ⟨h1, u, e2⟩ := assignLoop_quiet hs _ _ _ _ _ _ e1 hm.1
      simp [hasErrorP] at h1
      obtain ⟨u1, rfl, _⟩ := hs _ _ _ _ _ _ e h1.2
      obtain ⟨u2, rfl, _⟩ := hs _ _ _ _ _ _ e3 hm.2
      exact ⟨transformKey_noError h1.1, q, u1 ++ u ++ u2, hq, by rw [e2]; simp⟩

theorem identifier_quiet (hs : Quiet rec) {t : Token} {r m r1} (h : identifier C rec d t r = (m, r1))
    (hm : hasError m = false) : ∃ used, t :: r = used ++ r1 ∧ (NoEq used → usual false m = true) := by
  unfold identifier at h
  split at h
  · generalize hn : (if t.kind = .ident .root then Node.root else .ident (C.lib.dec t.value)) = node at h
    have hp : usual false node = true := by
      rw [← hn]
      split <;> rfl
    rcases e : withPostfix C rec d node r with ⟨⟨x, c⟩, r2⟩
    rw [e] at h
    dsimp only at h
    split at h
    · split at h
      · obtain ⟨h1, q, u, hq, rfl⟩ := assignedObject_quiet hs h hm
        obtain ⟨_, u1, rfl, _⟩ := withPostfix_quiet hs e h1
        refine ⟨t :: u1 ++ q :: u, by simp, fun hne => ?_⟩
        simp [NoEq_append, NoEq_cons] at hne
        exact absurd hq hne.2.2.1
      · cases h; cases hm
    · cases h
      obtain ⟨_, u, rfl, h2⟩ := withPostfix_quiet hs e hm
      exact ⟨t :: u, rfl, fun hq => h2 (NoEq_cons.1 hq).2 hp⟩
  · rename_i hr
    cases r with
    | nil => simp [kind?] at hr
    | cons a r =>
      simp [kind?] at hr
      split at h
      · rename_i hf
        rcases e : argsLoop rec d ((a :: r).length + 1) [] (a :: r).tail with ⟨as, r2⟩
        rw [e] at h
        dsimp only at h
        rcases e1 : withPostfix C rec d (.call (C.lib.dec t.value) as) r2 with ⟨⟨x, c⟩, r3⟩
        rw [e1] at h
        cases h
        obtain ⟨h1, u', rfl, h2⟩ := withPostfix_quiet hs e1 hm
        obtain ⟨_, xs, u, rfl, e', hi⟩ := argsLoop_quiet hs _ _ _ _ _ e (by simpa [hasError] using h1)
        simp at e'
        refine ⟨t :: a :: u ++ u', by rw [e']; simp, fun hq => ?_⟩
        simp [NoEq_append, NoEq_cons] at hq
        exact h2 hq.2.2.2 (by simpa [usual] using hi hq.2.2.1)
      · rename_i hf
        split at h
        · cases h; cases hm
        · rename_i k hk
          rcases e : closureCall C rec d k (a :: r).tail with ⟨x, r2⟩
          rw [e] at h
          dsimp only at h
          rcases e1 : withPostfix C rec d x r2 with ⟨⟨y, c⟩, r3⟩
          rw [e1] at h
          cases h
          obtain ⟨h1, u', rfl, h2⟩ := withPostfix_quiet hs e1 hm
          obtain ⟨u, e', hc⟩ := closureCall_quiet hs e h1
          simp at e'
          refine ⟨t :: a :: u ++ u', by rw [e']; simp, fun hq => ?_⟩
          simp [NoEq_append, NoEq_cons] at hq
          exact h2 hq.2.2.2 (hc hq.2.2.1)

theorem arrayLoop_quiet (hs : Quiet rec) : ∀ n acc ts ns r, arrayLoop rec d n acc ts = (some ns, r) → hasErrorL ns = false →
    hasErrorL acc = false ∧ ∃ xs used, ns = acc ++ xs ∧ ts = used ++ r ∧ (NoEq used → usualL false xs = true)
  | 0, _, _, _, _, h, hu => by cases h
  | n + 1, acc, ts, ns, r, h, hu => by
    have ih := arrayLoop_quiet hs n
    have step : ∀ x r0 r1, rec .global d 0 r0 = (x, r1) → arrayLoop rec d n (acc ++ [x]) r1 = (some ns, r) →
        hasErrorL acc = false ∧ ∃ xs used, ns = acc ++ xs ∧ r0 = used ++ r ∧ (NoEq used → usualL false xs = true) := by
      intro x r0 r1 e h
      obtain ⟨h1, xs, used, rfl, rfl, h2⟩ := ih _ _ _ _ h hu
      simp [hasErrorL_append, hasErrorL] at h1
      obtain ⟨u, rfl, hw⟩ := hs _ _ _ _ _ _ e h1.2
      refine ⟨h1.1, x :: xs, u ++ used, by simp, by simp, fun hq => ?_⟩
      simp [usualL, hw (NoEq_append.1 hq).1, h2 (NoEq_append.1 hq).2]
    unfold arrayLoop at h
    split at h
    · rename_i h0
      obtain ⟨z, hz, rfl⟩ := expect_token h0
      cases h
      exact ⟨hu, [], [z], by simp, rfl, fun _ => rfl⟩
    · split at h
      · rcases e : rec .global d 0 ts with ⟨x, r1⟩
        rw [e] at h
        exact step _ _ _ e h
      · split at h
        · cases h
        · rename_i r0 h0
          obtain ⟨c, hc, rfl⟩ := expect_token h0
          split at h
          · rename_i h1
            obtain ⟨z, hz, rfl⟩ := expect_token h1
            cases h
            exact ⟨hu, [], [c, z], by simp, rfl, fun _ => rfl⟩
          · rcases e : rec .global d 0 r0 with ⟨x, r1⟩
            rw [e] at h
            obtain ⟨h1, xs, used, h2, rfl, h4⟩ := step _ _ _ e h
            exact ⟨h1, xs, c :: used, h2, rfl, fun hq => h4 (NoEq_cons.1 hq).2⟩

theorem array_quiet (hs : Quiet rec) {ts m r} (h : array C rec d ts = (m, r)) (hm : hasError m = false) :
    ∃ used, ts = used ++ r ∧ (NoEq used → usual false m = true) := by
  unfold array at h
  split at h
  · cases h; cases hm
  · rename_i r0 h0
    obtain ⟨a, ha, rfl⟩ := expect_token h0
    rcases e : arrayLoop rec d (r0.length + 2) [] r0 with ⟨ns, r1⟩
    rw [e] at h
    cases ns with
    | none => cases h; cases hm
    | some ns =>
      dsimp only at h
      rcases e1 : withPostfix C rec d (.arr ns) r1 with ⟨⟨x, c⟩, r2⟩
      rw [e1] at h
      cases h
      obtain ⟨h1, u', rfl, h2⟩ := withPostfix_quiet hs e1 hm
      simp [hasError] at h1
      obtain ⟨_, xs, u, rfl, rfl, hi⟩ := arrayLoop_quiet hs _ _ _ _ _ e h1
      refine ⟨a :: u ++ u', by simp, fun hq => ?_⟩
      simp [NoEq_append, NoEq_cons] at hq
      exact h2 hq.2.2 (by simpa [usual] using hi hq.2.1)

theorem objectKey_quiet (hs : Quiet rec) {ts m r} (h : objectKey C rec d ts = (m, r)) (hm : hasError m = false) :
    ∃ used, ts = used ++ r ∧ (NoEq used → usual false m = true) := by
  unfold objectKey at h
  split at h
  · cases h; cases hm
  · rename_i t r0
    split at h
    · cases h; exact ⟨[t], rfl, fun _ => rfl⟩
    · cases h; exact ⟨[t], rfl, fun _ => rfl⟩
    · cases h; exact ⟨[t], rfl, fun _ => rfl⟩
    · cases h; exact ⟨[t], rfl, fun _ => rfl⟩
    · rcases e : rec .global d 0 r0 with ⟨x, r1⟩
      rw [e] at h
      dsimp only at h
      split at h
      · cases h; cases hm
      · rename_i h1
        obtain ⟨b, hb, rfl⟩ := expect_token h1
        cases h
        obtain ⟨u, rfl, hw⟩ := hs _ _ _ _ _ _ e hm
        refine ⟨t :: u ++ [b], by simp, fun hq => ?_⟩
        simp [NoEq_append, NoEq_cons] at hq
        exact hw hq.2.1
    · obtain ⟨u, e, h1⟩ := simpleString_quiet h hm
      exact ⟨u, e, fun _ => h1⟩
    · obtain ⟨u, e, h1⟩ := simpleString_quiet h hm
      exact ⟨u, e, fun _ => h1⟩
    · cases h; cases hm

theorem objectLoop_quiet (hs : Quiet rec) : ∀ n acc ts ns r, objectLoop C rec d n acc ts = (some ns, r) → hasErrorP ns = false →
    hasErrorP acc = false ∧ ∃ xs used, ns = acc ++ xs ∧ ts = used ++ r ∧ (NoEq used → usualP false xs = true)
  | 0, _, _, _, _, h, hu => by cases h
  | n + 1, acc, ts, ns, r, h, hu => by
    have ih := objectLoop_quiet hs n
    unfold objectLoop at h
    rcases e : objectKey C rec d ts with ⟨k, r0⟩
    rw [e] at h
    dsimp only at h
    split at h
    · cases h
    · rename_i r1 h1
      obtain ⟨c, hc, rfl⟩ := expect_token h1
      rcases e1 : rec .global d 0 r1 with ⟨v, r2⟩
      rw [e1] at h
      dsimp only at h
      split at h
      · cases h; simp [hasErrorP_append, hasErrorP, hasError] at hu
      · split at h
        · rename_i r3 h3
          obtain ⟨t, ht, rfl⟩ := expect_token h3
          obtain ⟨h4, xs, used, rfl, rfl, h5⟩ := ih _ _ _ _ h hu
          simp [hasErrorP_append, hasErrorP] at h4
          obtain ⟨u', rfl, hw⟩ := hs _ _ _ _ _ _ e1 h4.2.2
          obtain ⟨u, rfl, hk⟩ := objectKey_quiet hs e h4.2.1
          refine ⟨h4.1, (k, v) :: xs, u ++ c :: u' ++ t :: used, by simp, by simp, fun hq => ?_⟩
          simp [NoEq_append, NoEq_cons] at hq
          simp [usualP, hk hq.1, hw hq.2.2.1, h5 hq.2.2.2.2]
        · split at h
          · rename_i r3 h3
            obtain ⟨z, hz, rfl⟩ := expect_token h3
            cases h
            simp [hasErrorP_append, hasErrorP] at hu
            obtain ⟨u', rfl, hw⟩ := hs _ _ _ _ _ _ e1 hu.2.2
            obtain ⟨u, rfl, hk⟩ := objectKey_quiet hs e hu.2.1
            refine ⟨hu.1, [(k, v)], u ++ c :: u' ++ [z], rfl, by simp, fun hq => ?_⟩
            simp [NoEq_append, NoEq_cons] at hq
            simp [usualP, hk hq.1, hw hq.2.2.1]
          · cases h

theorem object_quiet (hs : Quiet rec) {ts m r} (h : object C rec d ts = (m, r)) (hm : hasError m = false) :
    ∃ used, ts = used ++ r ∧ (NoEq used → usual false m = true) := by
  unfold object at h
  split at h
  · cases h; cases hm
  · rename_i r0 h0
    obtain ⟨a, ha, rfl⟩ := expect_token h0
    split at h
    · rename_i h1
      obtain ⟨b, hb, rfl⟩ := expect_token h1
      cases h
      exact ⟨[a, b], rfl, fun _ => rfl⟩
    · rcases e : objectLoop C rec d (r0.length + 1) [] r0 with ⟨ns, r1⟩
      rw [e] at h
      cases ns with
      | none => cases h; cases hm
      | some ns =>
        cases h
        simp [hasError] at hm
        obtain ⟨_, xs, u, rfl, rfl, hi⟩ := objectLoop_quiet hs _ _ _ _ _ e hm
        exact ⟨a :: u, rfl, fun hq => by simpa [usual] using hi (NoEq_cons.1 hq).2⟩

include hC

theorem interval_off (ts : List Token) : interval C rec d ts = (none, ts) := by
  unfold interval
  simp [hC]

theorem literal_quiet (hs : Quiet rec) {ts m r} (h : literal C rec d ts = (m, r)) (hm : hasError m = false) :
    ∃ used, ts = used ++ r ∧ (NoEq used → usual false m = true) := by
  unfold literal at h
  split at h
  · cases h; cases hm
  · rename_i t r0
    split at h
    · cases h; exact ⟨[t], rfl, fun _ => rfl⟩
    · exact identifier_quiet hs h hm
    · exact identifier_quiet hs h hm
    · cases h; exact ⟨[t], rfl, fun _ => rfl⟩
    · unfold number at h
      split at h
      · cases h; exact ⟨[t], rfl, fun _ => rfl⟩
      · cases h; cases hm
    · exact templateString_quiet hs h hm
    · obtain ⟨u, e, h1⟩ := simpleString_quiet h hm
      exact ⟨u, e, fun _ => h1⟩
    · rw [interval_off hC] at h
      exact array_quiet hs h hm
    · exact object_quiet hs h hm
    · cases h; cases hm
    · rw [interval_off hC] at h
      cases h; cases hm
    · cases h; cases hm
    · cases h; cases hm

theorem unaryExpr_quiet (hs : Quiet rec) {ts m r} (h : unaryExpr C rec d ts = (m, r)) (hm : hasError m = false) :
    ∃ used, ts = used ++ r ∧ (NoEq used → usual false m = true) := by
  unfold unaryExpr at h
  split at h
  · cases h; cases hm
  · rename_i t r0
    split at h
    · rcases e : withPostfix C rec d .pointer r0 with ⟨⟨x, c⟩, r1⟩
      rw [e] at h
      cases h
      obtain ⟨_, u, rfl, h1⟩ := withPostfix_quiet hs e hm
      exact ⟨t :: u, rfl, fun hq => h1 (NoEq_cons.1 hq).2 rfl⟩
    · split at h
      · rename_i o ho
        split at h
        · cases h; cases hm
        · rename_i q hq
          rcases e : rec .global d q r0 with ⟨x, r1⟩
          rw [e] at h
          cases h
          obtain ⟨u, rfl, h1⟩ := hs _ _ _ _ _ _ e (by simpa [hasError] using hm)
          exact ⟨t :: u, rfl, fun hq => h1 (NoEq_cons.1 hq).2⟩
      · rw [interval_off hC] at h
        dsimp only at h
        split at h
        · rcases e : rec .global d 0 (t :: r0).tail with ⟨x, r1⟩
          rw [e] at h
          dsimp only at h
          split at h
          · cases h; cases hm
          · rename_i r2 h2
            obtain ⟨b, hb, rfl⟩ := expect_token h2
            rcases e1 : withPostfix C rec d (.paren x) r2 with ⟨⟨y, c⟩, r3⟩
            rw [e1] at h
            cases h
            obtain ⟨h3, u', rfl, h4⟩ := withPostfix_quiet hs e1 hm
            obtain ⟨u, e', hw⟩ := hs _ _ _ _ _ _ e (by simpa [hasError] using h3)
            simp at e'
            refine ⟨t :: u ++ b :: u', by rw [e']; simp, fun hq => ?_⟩
            simp [NoEq_append, NoEq_cons] at hq
            exact h4 hq.2.2.2 (by simpa [usual] using hw hq.2.1)
        · exact literal_quiet hC hs h hm

omit hC in
theorem binLoop_quiet (hs : Quiet rec) {c : Ctx} {p : Nat} : ∀ n l ts m r,
    binLoop C rec c d p n l ts = (m, r) → hasError m = false →
    hasError l = false ∧ ∃ used, ts = used ++ r ∧ (NoEq used → usual false l = true → usual false m = true)
  | 0, _, _, _, _, h, hm => by cases h; cases hm
  | n + 1, l, ts, m, r, h, hm => by
    unfold binLoop at h
    split at h
    · cases h; exact ⟨hm, [], rfl, fun _ h => h⟩
    · rename_i t r0
      split at h
      · rename_i o ho
        split at h
        · cases h; exact ⟨hm, [], rfl, fun _ h => h⟩
        · split at h
          · cases h; exact ⟨hm, [], rfl, fun _ h => h⟩
          · split at h
            · cases h; exact ⟨hm, [], rfl, fun _ h => h⟩
            · rename_i q right _ _
              rcases e : rec .global d (if right then q else q + 1) r0 with ⟨x, r1⟩
              rw [e] at h
              dsimp only at h
              obtain ⟨h1, u', rfl, h2⟩ := binLoop_quiet hs n _ _ _ _ h hm
              simp [hasError] at h1
              obtain ⟨u, rfl, h3⟩ := hs _ _ _ _ _ _ e h1.2
              refine ⟨h1.1, t :: u ++ u', by simp, fun hq hl => ?_⟩
              simp [NoEq_append, NoEq_cons] at hq
              exact h2 hq.2.2 (by simp [usual, hl, h3 hq.2.1])
      · cases h; exact ⟨hm, [], rfl, fun _ h => h⟩

end

theorem binExpr_quiet {C : PCfg} (hC : C.range = false) : ∀ n, Quiet (binExpr C n)
  | 0 => by
    intro c d p ts m r h hm
    cases h; cases hm
  | n + 1 => by
    have hs := binExpr_quiet hC n
    intro c d p ts m r h hm
    change binBody C (binExpr C n) c d p ts = (m, r) at h
    unfold binBody at h
    rcases e : unaryExpr C (binExpr C n) d ts with ⟨l, r0⟩
    rw [e] at h
    dsimp only at h
    rcases e1 : binLoop C (binExpr C n) c d p (r0.length + 1) l r0 with ⟨x, r1⟩
    rw [e1] at h
    dsimp only at h
    have main : hasError x = false → ∃ used, ts = used ++ r1 ∧ (NoEq used → usual false x = true) := by
      intro hx
      obtain ⟨h1, u', rfl, h2⟩ := binLoop_quiet hs _ _ _ _ _ e1 hx
      obtain ⟨u, rfl, h3⟩ := unaryExpr_quiet hC hs e h1
      exact ⟨u ++ u', by simp, fun hq => h2 (NoEq_append.1 hq).2 (h3 (NoEq_append.1 hq).1)⟩
    split at h
    · unfold conditional at h
      split at h
      · cases h; exact main hm
      · rename_i r2 h2
        obtain ⟨q, hq, rfl⟩ := expect_token h2
        rcases e2 : binExpr C n .global d 0 r2 with ⟨y, r3⟩
        rw [e2] at h
        dsimp only at h
        split at h
        · cases h; cases hm
        · rename_i r4 h4
          obtain ⟨s, hsl, rfl⟩ := expect_token h4
          rcases e3 : binExpr C n .global d 0 r4 with ⟨z, r5⟩
          rw [e3] at h
          cases h
          simp [hasError] at hm
          obtain ⟨u, rfl, h5⟩ := main hm.1.1
          obtain ⟨u1, rfl, h7⟩ := hs _ _ _ _ _ _ e2 hm.1.2
          obtain ⟨u2, rfl, h8⟩ := hs _ _ _ _ _ _ e3 hm.2
          refine ⟨u ++ q :: u1 ++ s :: u2, by simp, fun hq => ?_⟩
          simp [NoEq_append, NoEq_cons] at hq
          simp [usual, h5 hq.1, h7 hq.2.2.1, h8 hq.2.2.2.2]
    · cases h; exact main hm

end Parse
end Zen
