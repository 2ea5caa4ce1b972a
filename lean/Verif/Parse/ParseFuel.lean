import Verif.Parse.Parser
/-
The recursion of the parser model: no function gives back more tokens than it got, inner expressions
are parsed from fewer tokens, so that the rounds given to `binExpr` are enough.
-/
namespace Zen
namespace Parse
open Zen.Lex

/-- an expression parser gives back no more tokens than it got -/
def Shrink (rec : Rec) : Prop := ∀ c d p ts, (rec c d p ts).2.length ≤ ts.length

/-- two expression parsers agree on fewer than `k` tokens -/
def Agree (rec rec' : Rec) (k : Nat) : Prop := ∀ c d p ts, ts.length < k → rec c d p ts = rec' c d p ts

theorem Shrink.eq {rec : Rec} (h : Shrink rec) {c d p ts x r} (e : rec c d p ts = (x, r)) : r.length ≤ ts.length := by
  have := h c d p ts; rw [e] at this; exact this

theorem expect_some {k ts r} (h : expect k ts = some r) : ∃ t, ts = t :: r ∧ t.kind = k := by
  unfold expect at h
  split at h
  · rename_i hk
    cases ts with
    | nil => simp [kind?] at hk
    | cons t ts =>
      simp [kind?] at hk h
      exact ⟨t, by rw [h], hk⟩
  · cases h

theorem expect_len {k ts r} (h : expect k ts = some r) : ts.length = r.length + 1 := by
  obtain ⟨t, rfl, _⟩ := expect_some h; simp

theorem expect_cons (k : Kind) (t : Token) (r : List Token) :
    expect k (t :: r) = if t.kind = k then some r else none := by
  simp [expect, kind?]

theorem expect_nil (k : Kind) : expect k [] = none := rfl

theorem number_len (C : PCfg) (t : Token) (ts : List Token) : (number C t ts).2.length ≤ ts.length := by
  unfold number; split <;> simp

theorem simpleString_len (C : PCfg) (q : Quote) (ts : List Token) : (simpleString C q ts).2.length ≤ ts.length := by
  unfold simpleString
  split
  · simp
  · rename_i r h1
    have := expect_len h1
    split
    · cases h : expect (.quote q) r with
      | none => simp; omega
      | some r' => have := expect_len h; simp; omega
    · rename_i r1 h2
      have := expect_len h2
      split
      · simp; omega
      · rename_i r2 h3
        have := expect_len h3
        simp; omega

section
variable {C : PCfg} {rec rec' : Rec} {d : Nat} (hs : Shrink rec)
include hs

theorem tmplLoop_len : ∀ n acc ts, (tmplLoop C rec d n acc ts).2.length ≤ ts.length
  | 0, _, ts => by simp [tmplLoop]
  | n + 1, acc, ts => by
    unfold tmplLoop
    split
    · simp
    · rename_i t r
      have := tmplLoop_len n
      split
      · simp
      · rcases e : rec .global d 0 r with ⟨x, r1⟩
        have h1 := hs.eq e
        dsimp only
        split
        · rename_i r2 h2
          have := expect_len h2
          have := tmplLoop_len n (acc ++ [x]) r2
          simp; omega
        · have := tmplLoop_len n (acc ++ [x, .error]) r1
          simp; omega
      · have := tmplLoop_len n acc r
        simp; omega
      · have := tmplLoop_len n (acc ++ [.str (C.lib.dec t.value)]) r
        simp; omega
      · simp

theorem templateString_len (ts : List Token) : (templateString C rec d ts).2.length ≤ ts.length := by
  unfold templateString
  split
  · simp
  · simp
  · rename_i t r h
    have h0 := expect_len h
    rcases e : tmplLoop C rec d ((t :: r).length + 1) [] (t :: r) with ⟨o, r1⟩
    have h1 := tmplLoop_len (C := C) (d := d) hs ((t :: r).length + 1) [] (t :: r)
    rw [e] at h1
    cases o with
    | none => simp at h0 h1 ⊢; omega
    | some ns =>
      dsimp only
      split
      · simp at h0 h1 ⊢; omega
      · rename_i r2 h2
        have := expect_len h2
        simp at h0 h1 ⊢; omega

theorem argsLoop_len : ∀ n acc ts, (argsLoop rec d n acc ts).2.length ≤ ts.length
  | 0, _, ts => by simp [argsLoop]
  | n + 1, acc, ts => by
    unfold argsLoop
    split
    · rename_i r h
      have := expect_len h
      simp; omega
    · rcases e : rec .global d 0 ts with ⟨x, r1⟩
      have h1 := hs.eq e
      dsimp only
      split
      · rename_i r2 h2
        have := expect_len h2
        have := argsLoop_len n (acc ++ [x]) r2
        omega
      · split
        · rename_i r2 h2
          have := expect_len h2
          simp; omega
        · simpa using h1

theorem methodCall_len (node : Node) (m : String) (r : List Token) : (methodCall rec d node m r).2.length ≤ r.length - 1 := by
  unfold methodCall
  have := argsLoop_len (d := d) hs (r.length + 1) [] r.tail
  rcases e : argsLoop rec d (r.length + 1) [] r.tail with ⟨as, r1⟩
  rw [e] at this
  simpa using this

theorem propertyAccess_len (node : Node) (r : List Token) : (propertyAccess rec d node r).2.length ≤ r.length := by
  unfold propertyAccess
  split
  · simp
  · split
    · rename_i r1 h1
      have := expect_len h1
      split
      · simp
      · split
        · rename_i r2 h2
          have := expect_len h2
          simp; omega
        · rcases e : rec .global d 0 r1 with ⟨x, r2⟩
          have h2 := hs.eq e
          dsimp only
          split
          · simp; omega
          · rename_i r3 h3
            have := expect_len h3
            simp; omega
    · rcases e : rec .global d 0 r with ⟨x, r1⟩
      have h1 := hs.eq e
      dsimp only
      split
      · simp
      · split
        · rename_i r2 h2
          have := expect_len h2
          split
          · simp
          · split
            · rename_i r3 h3
              have := expect_len h3
              simp; omega
            · rcases e : rec .global d 0 r2 with ⟨y, r3⟩
              have h3 := hs.eq e
              dsimp only
              split
              · simp; omega
              · rename_i r4 h4
                have := expect_len h4
                simp; omega
        · split
          · simpa using h1
          · rename_i r2 h2
            have := expect_len h2
            simp; omega

theorem postfixes_len : ∀ n node ts, (postfixes C rec d n node ts).2.length ≤ ts.length
  | 0, _, ts => by simp [postfixes]
  | n + 1, node, ts => by
    have ih := postfixes_len n
    unfold postfixes
    split
    · simp
    · rename_i t r
      split
      · have h1 := propertyAccess_len (d := d) hs node r
        rcases e : propertyAccess rec d node r with ⟨x, r1⟩
        rw [e] at h1
        have := ih x r1
        dsimp only
        rcases e2 : postfixes C rec d n x r1 with ⟨⟨y, c⟩, r2⟩
        rw [e2] at this
        simp at *; omega
      · split
        · split
          · have := ih (.member node .error) []
            rcases e2 : postfixes C rec d n (.member node .error) [] with ⟨⟨y, c⟩, r2⟩
            rw [e2] at this
            simp at *; simp [this]
          · rename_i p r1
            split
            · split
              · split
                · have h1 := methodCall_len (d := d) hs node (C.lib.dec p.value) r1
                  rcases e : methodCall rec d node (C.lib.dec p.value) r1 with ⟨x, r2⟩
                  rw [e] at h1
                  have h2 := ih x r2
                  dsimp only
                  rcases e2 : postfixes C rec d n x r2 with ⟨⟨y, c⟩, r3⟩
                  rw [e2] at h2
                  have h3 := ih y r3
                  dsimp only
                  rcases e3 : postfixes C rec d n y r3 with ⟨⟨z, c'⟩, r4⟩
                  rw [e3] at h3
                  simp [e3] at *; omega
                · have := ih .error r1
                  rcases e2 : postfixes C rec d n .error r1 with ⟨⟨y, c⟩, r2⟩
                  rw [e2] at this
                  simp at *; omega
              · have := ih (.member node (.str (C.lib.dec p.value))) r1
                rcases e2 : postfixes C rec d n (.member node (.str (C.lib.dec p.value))) r1 with ⟨⟨y, c⟩, r2⟩
                rw [e2] at this
                simp at *; omega
            · have := ih (.member node .error) (p :: r1)
              rcases e2 : postfixes C rec d n (.member node .error) (p :: r1) with ⟨⟨y, c⟩, r2⟩
              rw [e2] at this
              simp at *; omega
        · simp

theorem withPostfix_len (node : Node) (ts : List Token) : (withPostfix C rec d node ts).2.length ≤ ts.length :=
  postfixes_len hs _ _ _

theorem assignLoop_len : ∀ n acc ts,
    (assignLoop C rec d n acc ts).2.length ≤ ts.length ∧
    ∀ kvs r, (assignLoop C rec d n acc ts).1 = some (kvs, some r) → r.length < ts.length
  | 0, _, ts => by simp [assignLoop]
  | n + 1, acc, ts => by
    unfold assignLoop
    split
    · simp
    · split
      · simp
      · simp
      · rename_i t r h
        have h0 := expect_len h
        have h1 := withPostfix_len (C := C) (d := d) hs (.ident (C.lib.dec t.value)) r
        rcases e : withPostfix C rec d (.ident (C.lib.dec t.value)) r with ⟨⟨key, c⟩, r1⟩
        rw [e] at h1
        dsimp only
        simp at h0 h1
        split
        · refine ⟨by simp; omega, ?_⟩
          intro kvs r' e
          simp at e
          rw [← e.2]; simp; omega
        · rename_i r2 h2
          have := expect_len h2
          split
          · rcases e : rec .global d 0 r2 with ⟨v, r3⟩
            have h3 := hs.eq e
            have ih := assignLoop_len n (acc ++ [(transformKey key, v)]) r3
            refine ⟨by dsimp only; omega, ?_⟩
            intro kvs r' e
            have := ih.2 _ _ e
            omega
          · refine ⟨by simp; omega, by simp⟩

theorem assignedObject_len (key : Node) (ts : List Token) : (assignedObject C rec d key ts).2.length ≤ ts.length := by
  unfold assignedObject
  split
  · simp
  · rename_i r h
    have h0 := expect_len h
    rcases e : rec .global d 0 r with ⟨v, r1⟩
    have h1 := hs.eq e
    dsimp only
    have h2 := assignLoop_len (C := C) (d := d) hs (r1.length + 1) [(transformKey key, v)] r1
    rcases e2 : assignLoop C rec d (r1.length + 1) [(transformKey key, v)] r1 with ⟨o, r2⟩
    rw [e2] at h2
    rcases o with _ | ⟨kvs, _ | r3⟩
    · simp at h2 ⊢; omega
    · simp at h2 ⊢; omega
    · have h3 := h2.2 _ _ rfl
      dsimp only
      rcases e3 : rec .global d 0 r3 with ⟨o, r4⟩
      have := hs.eq e3
      simp; omega

omit hs in
theorem aliasOf_len (ts : List Token) : (aliasOf C ts).2.length ≤ ts.length := by
  unfold aliasOf
  split
  · simp
  · split
    · split
      · simp
      · split <;> (simp; try omega)
    · simp

theorem closureCall_len (k : Clo) (r : List Token) : (closureCall C rec d k r).2.length ≤ r.length := by
  unfold closureCall
  rcases e : rec .global d 0 r with ⟨x, r1⟩
  have h1 := hs.eq e
  have h2 := aliasOf_len (C := C) r1
  dsimp only
  rcases e2 : aliasOf C r1 with ⟨al, r2⟩
  rw [e2] at h2
  dsimp only at h2 ⊢
  have h3 : ((expect (.op .comma) r2).getD r2).length ≤ r2.length := by
    cases h : expect (.op .comma) r2 with
    | none => simp
    | some r3 => have := expect_len h; simp; omega
  rcases e4 : rec .closure (d + 1) 0 ((expect (.op .comma) r2).getD r2) with ⟨b, r4⟩
  have h4 := hs.eq e4
  dsimp only
  have h5 : ((expect (.bracket .rparen) r4).getD r4).length ≤ r4.length := by
    cases h : expect (.bracket .rparen) r4 with
    | none => simp
    | some r3 => have := expect_len h; simp; omega
  split
  · rename_i h; rw [h] at h5; simp at h5 ⊢; omega
  · simp; omega

theorem identifier_len (t : Token) (r : List Token) : (identifier C rec d t r).2.length ≤ r.length := by
  unfold identifier
  split
  · generalize (if t.kind = .ident .root then Node.root else .ident (C.lib.dec t.value)) = node
    have h1 := withPostfix_len (C := C) (d := d) hs node r
    rcases e : withPostfix C rec d node r with ⟨⟨x, c⟩, r1⟩
    rw [e] at h1
    dsimp only at h1 ⊢
    split
    · split
      · have := assignedObject_len (C := C) (d := d) hs x r1
        omega
      · simpa using h1
    · simpa using h1
  · split
    · have h1 := argsLoop_len (d := d) hs (r.length + 1) [] r.tail
      rcases e : argsLoop rec d (r.length + 1) [] r.tail with ⟨as, r1⟩
      rw [e] at h1
      have h2 := withPostfix_len (C := C) (d := d) hs (.call (C.lib.dec t.value) as) r1
      dsimp only
      rcases e2 : withPostfix C rec d (.call (C.lib.dec t.value) as) r1 with ⟨⟨x, c⟩, r2⟩
      rw [e2] at h2
      simp at h1 h2 ⊢; omega
    · split
      · simp
      · rename_i k _
        have h1 := closureCall_len (C := C) (d := d) hs k r.tail
        rcases e : closureCall C rec d k r.tail with ⟨x, r1⟩
        rw [e] at h1
        have h2 := withPostfix_len (C := C) (d := d) hs x r1
        dsimp only
        rcases e2 : withPostfix C rec d x r1 with ⟨⟨x, c⟩, r2⟩
        rw [e2] at h2
        simp at h1 h2 ⊢; omega

theorem interval_len (ts : List Token) : (interval C rec d ts).2.length ≤ ts.length := by
  unfold interval
  split
  · split
    · simp
    · rename_i t r
      split
      · rename_i lb _
        rcases e : rec .global d 0 r with ⟨x, r1⟩
        have h1 := hs.eq e
        dsimp only
        split
        · simp
        · split
          · simp
          · rename_i r2 h2
            have := expect_len h2
            rcases e : rec .global d 0 r2 with ⟨y, r3⟩
            have h3 := hs.eq e
            dsimp only
            split
            · simp
            · split
              · simp
              · rename_i t1 r4
                split
                · rename_i rb _
                  have h2 := withPostfix_len (C := C) (d := d) hs (.interval x y lb rb) r4
                  rcases e2 : withPostfix C rec d (.interval x y lb rb) r4 with ⟨⟨x, c⟩, r2⟩
                  rw [e2] at h2
                  simp at *; omega
                · simp
      · simp
  · simp

theorem arrayLoop_len : ∀ n acc ts, (arrayLoop rec d n acc ts).2.length ≤ ts.length
  | 0, _, ts => by simp [arrayLoop]
  | n + 1, acc, ts => by
    unfold arrayLoop
    split
    · rename_i r h
      have := expect_len h
      simp; omega
    · split
      · rcases e : rec .global d 0 ts with ⟨x, r1⟩
        have h1 := hs.eq e
        have := arrayLoop_len n (acc ++ [x]) r1
        dsimp only; omega
      · split
        · simp
        · rename_i r h
          have := expect_len h
          split
          · rename_i r1 h1
            have := expect_len h1
            simp; omega
          · rcases e : rec .global d 0 r with ⟨x, r1⟩
            have h1 := hs.eq e
            have := arrayLoop_len n (acc ++ [x]) r1
            dsimp only; omega

theorem array_len (ts : List Token) : (array C rec d ts).2.length ≤ ts.length := by
  unfold array
  split
  · simp
  · rename_i r h
    have h0 := expect_len h
    have h1 := arrayLoop_len (d := d) hs (r.length + 2) [] r
    rcases e : arrayLoop rec d (r.length + 2) [] r with ⟨o, r1⟩
    rw [e] at h1
    cases o with
    | none => simp at h1 ⊢; omega
    | some xs =>
      have h2 := withPostfix_len (C := C) (d := d) hs (.arr xs) r1
      dsimp only
      rcases e2 : withPostfix C rec d (.arr xs) r1 with ⟨⟨x, c⟩, r2⟩
      rw [e2] at h2
      simp at *; omega

theorem objectKey_len (ts : List Token) : (objectKey C rec d ts).2.length ≤ ts.length := by
  unfold objectKey
  split
  · simp
  · rename_i t r
    split <;> try (simp; done)
    · rcases e : rec .global d 0 r with ⟨x, r1⟩
      have h1 := hs.eq e
      dsimp only
      split
      · simp; omega
      · rename_i r2 h2
        have := expect_len h2
        simp; omega
    · exact simpleString_len _ _ _
    · exact simpleString_len _ _ _

theorem objectLoop_len : ∀ n acc ts, (objectLoop C rec d n acc ts).2.length ≤ ts.length
  | 0, _, ts => by simp [objectLoop]
  | n + 1, acc, ts => by
    unfold objectLoop
    have h0 := objectKey_len (C := C) (d := d) hs ts
    rcases e : objectKey C rec d ts with ⟨k, r⟩
    rw [e] at h0
    dsimp only at h0 ⊢
    split
    · simpa using h0
    · rename_i r1 h1
      have := expect_len h1
      rcases e : rec .global d 0 r1 with ⟨v, r2⟩
      have h2 := hs.eq e
      dsimp only
      split
      · simp
      · split
        · rename_i r3 h3
          have := expect_len h3
          have := objectLoop_len n (acc ++ [(k, v)]) r3
          omega
        · split
          · rename_i r3 h3
            have := expect_len h3
            simp; omega
          · simp; omega

theorem object_len (ts : List Token) : (object C rec d ts).2.length ≤ ts.length := by
  unfold object
  split
  · simp
  · rename_i r h
    have h0 := expect_len h
    split
    · rename_i r1 h1
      have := expect_len h1
      simp; omega
    · have h1 := objectLoop_len (C := C) (d := d) hs (r.length + 1) [] r
      rcases e : objectLoop C rec d (r.length + 1) [] r with ⟨o, r1⟩
      rw [e] at h1
      cases o <;> simp at h1 ⊢ <;> omega

theorem literal_len (ts : List Token) : (literal C rec d ts).2.length ≤ ts.length := by
  unfold literal
  split
  · simp
  · rename_i t r
    have hi := interval_len (C := C) (d := d) hs (t :: r)
    split <;> try (simp; done)
    · have := identifier_len (C := C) (d := d) hs t r
      simp; omega
    · have := identifier_len (C := C) (d := d) hs t r
      simp; omega
    · exact number_len _ _ _
    · exact templateString_len hs _
    · exact simpleString_len _ _ _
    · rcases e : interval C rec d (t :: r) with ⟨_ | x, r1⟩
      · rw [e] at hi
        have := array_len (C := C) (d := d) hs r1
        dsimp only at hi ⊢; omega
      · rw [e] at hi; exact hi
    · exact object_len hs _
    · rcases e : interval C rec d (t :: r) with ⟨_ | x, r1⟩ <;> (rw [e] at hi; exact hi)

theorem unaryExpr_len (ts : List Token) : (unaryExpr C rec d ts).2.length ≤ ts.length := by
  unfold unaryExpr
  split
  · simp
  · rename_i t r
    split
    · have h2 := withPostfix_len (C := C) (d := d) hs .pointer r
      rcases e2 : withPostfix C rec d .pointer r with ⟨⟨x, c⟩, r2⟩
      rw [e2] at h2
      simp at *; omega
    · split
      · split
        · simp
        · rename_i q _
          rcases e : rec .global d q r with ⟨x, r1⟩
          have h1 := hs.eq e
          simp; omega
      · have hi := interval_len (C := C) (d := d) hs (t :: r)
        rcases e : interval C rec d (t :: r) with ⟨_ | x, r1⟩
        · rw [e] at hi
          dsimp only at hi ⊢
          split
          · rcases e : rec .global d 0 r1.tail with ⟨x, r2⟩
            have h1 := hs.eq e
            dsimp only
            simp at h1
            split
            · simp at *; omega
            · rename_i r3 h3
              have := expect_len h3
              have h2 := withPostfix_len (C := C) (d := d) hs (.paren x) r3
              rcases e2 : withPostfix C rec d (.paren x) r3 with ⟨⟨x, c⟩, r2⟩
              rw [e2] at h2
              simp at *; omega
          · have := literal_len (C := C) (d := d) hs r1
            omega
        · rw [e] at hi; exact hi

theorem binLoop_len (ctx : Ctx) (p : Nat) : ∀ n l ts, (binLoop C rec ctx d p n l ts).2.length ≤ ts.length
  | 0, _, ts => by simp [binLoop]
  | n + 1, l, ts => by
    unfold binLoop
    split
    · simp
    · rename_i t r
      split
      · split
        · simp
        · split
          · simp
          · rename_i q right _
            split
            · simp
            · rcases e : rec .global d (if right then q else q + 1) r with ⟨x, r1⟩
              have h1 := hs.eq e
              have := fun o => binLoop_len ctx p n (.binary o l x) r1
              rename_i o _ _ _ _ _
              have := this o
              simp; omega
      · simp

theorem conditional_len (c : Node) (ts : List Token) : (conditional rec d c ts).2.length ≤ ts.length := by
  unfold conditional
  split
  · simp
  · rename_i r h
    have := expect_len h
    rcases e : rec .global d 0 r with ⟨x, r1⟩
    have h1 := hs.eq e
    dsimp only
    split
    · simp; omega
    · rename_i r2 h2
      have := expect_len h2
      rcases e : rec .global d 0 r2 with ⟨x, r3⟩
      have h1 := hs.eq e
      simp; omega

theorem binBody_len (ctx : Ctx) (p : Nat) (ts : List Token) : (binBody C rec ctx d p ts).2.length ≤ ts.length := by
  unfold binBody
  have h0 := unaryExpr_len (C := C) (d := d) hs ts
  rcases e : unaryExpr C rec d ts with ⟨l, r⟩
  rw [e] at h0
  have h1 := binLoop_len (C := C) (d := d) hs ctx p (r.length + 1) l r
  dsimp only at h0 ⊢
  rcases e1 : binLoop C rec ctx d p (r.length + 1) l r with ⟨x, r1⟩
  rw [e1] at h1
  dsimp only at h1 ⊢
  split
  · have := conditional_len (d := d) hs x r1
    omega
  · dsimp only; omega
end

theorem binExpr_shrink (C : PCfg) : ∀ n, Shrink (binExpr C n)
  | 0 => fun _ _ _ _ => Nat.le_refl _
  | n + 1 => fun _ _ _ _ => binBody_len (binExpr_shrink C n) _ _ _

section
variable {C : PCfg} {rec rec' : Rec} {d k : Nat} (hs : Shrink rec) (ha : Agree rec rec' k)
include hs ha

theorem tmplLoop_congr : ∀ n acc ts, ts.length ≤ k → tmplLoop C rec d n acc ts = tmplLoop C rec' d n acc ts
  | 0, _, _, _ => rfl
  | n + 1, acc, ts, hk => by
    unfold tmplLoop
    split
    · rfl
    · rename_i t r
      simp at hk
      split
      · rfl
      · rw [← ha _ _ _ r (by omega)]
        rcases e : rec .global d 0 r with ⟨x, r1⟩
        have h1 := hs.eq e
        dsimp only
        split
        · rename_i r2 h2
          have := expect_len h2
          exact tmplLoop_congr n _ _ (by omega)
        · exact tmplLoop_congr n _ _ (by omega)
      · exact tmplLoop_congr n _ _ (by omega)
      · exact tmplLoop_congr n _ _ (by omega)
      · rfl

theorem templateString_congr (ts : List Token) (hk : ts.length ≤ k) :
    templateString C rec d ts = templateString C rec' d ts := by
  unfold templateString
  split
  · rfl
  · rfl
  · rename_i t r h
    have h0 := expect_len h
    rw [tmplLoop_congr hs ha _ _ (t :: r) (by omega)]

theorem argsLoop_congr : ∀ n acc ts, ts.length < k → argsLoop rec d n acc ts = argsLoop rec' d n acc ts
  | 0, _, _, _ => rfl
  | n + 1, acc, ts, hk => by
    unfold argsLoop
    rw [← ha _ _ _ ts hk]
    split
    · rfl
    · rcases e : rec .global d 0 ts with ⟨x, r1⟩
      have h1 := hs.eq e
      dsimp only
      split
      · rename_i r2 h2
        have := expect_len h2
        exact argsLoop_congr n _ _ (by omega)
      · split <;> rfl

theorem methodCall_congr (node : Node) (m : String) (r : List Token) (hk : r.length ≤ k) (h0 : 0 < k) :
    methodCall rec d node m r = methodCall rec' d node m r := by
  unfold methodCall
  rw [argsLoop_congr hs ha _ _ _ (by simp; omega)]

theorem propertyAccess_congr (node : Node) (r : List Token) (hk : r.length < k) :
    propertyAccess rec d node r = propertyAccess rec' d node r := by
  unfold propertyAccess
  rw [← ha _ _ _ r hk]
  split
  · rfl
  · split
    · rename_i r1 h1
      have := expect_len h1
      rw [← ha _ _ _ r1 (by omega)]
    · rcases e : rec .global d 0 r with ⟨x, r1⟩
      have h1 := hs.eq e
      dsimp only
      split
      · rfl
      · split
        · rename_i r2 h2
          have := expect_len h2
          rw [← ha _ _ _ r2 (by omega)]
        · rfl

theorem postfixes_congr : ∀ n node ts, ts.length ≤ k → postfixes C rec d n node ts = postfixes C rec' d n node ts
  | 0, _, _, _ => rfl
  | n + 1, node, ts, hk => by
    have ih := postfixes_congr n
    unfold postfixes
    split
    · rfl
    · rename_i t r
      simp at hk
      split
      · rw [← propertyAccess_congr hs ha _ _ (by omega)]
        have h1 := propertyAccess_len (d := d) hs node r
        rcases e : propertyAccess rec d node r with ⟨x, r1⟩
        rw [e] at h1
        dsimp only at h1 ⊢
        rw [ih x r1 (by omega)]
      · split
        · split
          · rw [ih _ _ (by simp)]
          · rename_i p r1
            simp at hk
            split
            · split
              · split
                · rw [← methodCall_congr hs ha _ _ _ (by omega) (by omega)]
                  have h1 := methodCall_len (d := d) hs node (C.lib.dec p.value) r1
                  rcases e : methodCall rec d node (C.lib.dec p.value) r1 with ⟨x, r2⟩
                  rw [e] at h1
                  have h2 := postfixes_len (C := C) (d := d) hs n x r2
                  dsimp only at h1 ⊢
                  rw [← ih x r2 (by omega)]
                  rcases e2 : postfixes C rec d n x r2 with ⟨⟨y, c⟩, r3⟩
                  rw [e2] at h2
                  dsimp only at h2 ⊢
                  rw [ih y r3 (by omega)]
                · rw [ih _ _ (by omega)]
              · rw [ih _ _ (by omega)]
            · rw [ih _ _ (by simp; omega)]
        · rfl

theorem withPostfix_congr (node : Node) (ts : List Token) (hk : ts.length ≤ k) :
    withPostfix C rec d node ts = withPostfix C rec' d node ts :=
  postfixes_congr hs ha _ _ _ hk

theorem assignLoop_congr : ∀ n acc ts, ts.length ≤ k → assignLoop C rec d n acc ts = assignLoop C rec' d n acc ts
  | 0, _, _, _ => rfl
  | n + 1, acc, ts, hk => by
    unfold assignLoop
    split
    · rfl
    · split
      · rfl
      · rfl
      · rename_i t r h
        have h0 := expect_len h
        simp at h0
        have h1 := withPostfix_len (C := C) (d := d) hs (.ident (C.lib.dec t.value)) r
        rw [← withPostfix_congr hs ha _ r (by omega)]
        rcases e : withPostfix C rec d (.ident (C.lib.dec t.value)) r with ⟨⟨key, c⟩, r1⟩
        rw [e] at h1
        dsimp only at h1 ⊢
        split
        · rfl
        · rename_i r2 h2
          have := expect_len h2
          split
          · rw [← ha _ _ _ r2 (by omega)]
            rcases e : rec .global d 0 r2 with ⟨v, r3⟩
            have h3 := hs.eq e
            exact assignLoop_congr n _ r3 (by omega)
          · rfl

theorem assignedObject_congr (key : Node) (ts : List Token) (hk : ts.length ≤ k) :
    assignedObject C rec d key ts = assignedObject C rec' d key ts := by
  unfold assignedObject
  split
  · rfl
  · rename_i r h
    have h0 := expect_len h
    rw [← ha _ _ _ r (by omega)]
    rcases e : rec .global d 0 r with ⟨v, r1⟩
    have h1 := hs.eq e
    dsimp only
    rw [← assignLoop_congr hs ha _ _ r1 (by omega)]
    have h2 := assignLoop_len (C := C) (d := d) hs (r1.length + 1) [(transformKey key, v)] r1
    rcases e2 : assignLoop C rec d (r1.length + 1) [(transformKey key, v)] r1 with ⟨o, r2⟩
    rw [e2] at h2
    rcases o with _ | ⟨kvs, _ | r3⟩
    · rfl
    · rfl
    · have h3 := h2.2 _ _ rfl
      dsimp only
      rw [ha _ _ _ r3 (by omega)]

theorem closureCall_congr (c : Clo) (r : List Token) (hk : r.length < k) :
    closureCall C rec d c r = closureCall C rec' d c r := by
  unfold closureCall
  rw [← ha _ _ _ r hk]
  rcases e : rec .global d 0 r with ⟨x, r1⟩
  have h1 := hs.eq e
  have h2 := aliasOf_len (C := C) r1
  dsimp only
  rcases e2 : aliasOf C r1 with ⟨al, r2⟩
  rw [e2] at h2
  dsimp only at h2 ⊢
  have h3 : ((expect (.op .comma) r2).getD r2).length ≤ r2.length := by
    cases h : expect (.op .comma) r2 with
    | none => simp
    | some r3 => have := expect_len h; simp; omega
  rw [← ha _ _ _ _ (by omega)]

theorem identifier_congr (t : Token) (r : List Token) (hk : r.length ≤ k) (h0 : 0 < k) :
    identifier C rec d t r = identifier C rec' d t r := by
  unfold identifier
  split
  · generalize (if t.kind = .ident .root then Node.root else .ident (C.lib.dec t.value)) = node
    have h1 := withPostfix_len (C := C) (d := d) hs node r
    rw [← withPostfix_congr hs ha _ r hk]
    rcases e : withPostfix C rec d node r with ⟨⟨x, c⟩, r1⟩
    rw [e] at h1
    dsimp only at h1 ⊢
    rw [assignedObject_congr hs ha _ r1 (by omega)]
  · split
    · have h1 := argsLoop_len (d := d) hs (r.length + 1) [] r.tail
      rw [← argsLoop_congr hs ha _ _ _ (by simp; omega)]
      rcases e : argsLoop rec d (r.length + 1) [] r.tail with ⟨as, r1⟩
      rw [e] at h1
      simp at h1
      dsimp only
      rw [withPostfix_congr hs ha _ r1 (by omega)]
    · split
      · rfl
      · rename_i c _
        have h1 := closureCall_len (C := C) (d := d) hs c r.tail
        rw [← closureCall_congr hs ha _ _ (by simp; omega)]
        rcases e : closureCall C rec d c r.tail with ⟨x, r1⟩
        rw [e] at h1
        simp at h1
        dsimp only
        rw [withPostfix_congr hs ha _ r1 (by omega)]

theorem interval_congr (ts : List Token) (hk : ts.length ≤ k) : interval C rec d ts = interval C rec' d ts := by
  unfold interval
  split
  · split
    · rfl
    · rename_i t r
      simp at hk
      split
      · rename_i lb _
        rw [← ha _ _ _ r (by omega)]
        rcases e : rec .global d 0 r with ⟨x, r1⟩
        have h1 := hs.eq e
        dsimp only
        split
        · rfl
        · split
          · rfl
          · rename_i r2 h2
            have := expect_len h2
            rw [← ha _ _ _ r2 (by omega)]
            rcases e : rec .global d 0 r2 with ⟨y, r3⟩
            have h3 := hs.eq e
            dsimp only
            split
            · rfl
            · split
              · rfl
              · rename_i t1 r4
                simp at h3
                split
                · rw [withPostfix_congr hs ha _ r4 (by omega)]
                · rfl
      · rfl
  · rfl

theorem arrayLoop_congr : ∀ n acc ts, ts.length < k → arrayLoop rec d n acc ts = arrayLoop rec' d n acc ts
  | 0, _, _, _ => rfl
  | n + 1, acc, ts, hk => by
    unfold arrayLoop
    split
    · rfl
    · split
      · rw [← ha _ _ _ ts hk]
        rcases e : rec .global d 0 ts with ⟨x, r1⟩
        have h1 := hs.eq e
        exact arrayLoop_congr n _ _ (by omega)
      · split
        · rfl
        · rename_i r h
          have := expect_len h
          split
          · rfl
          · rw [← ha _ _ _ r (by omega)]
            rcases e : rec .global d 0 r with ⟨x, r1⟩
            have h1 := hs.eq e
            exact arrayLoop_congr n _ _ (by omega)

theorem array_congr (ts : List Token) (hk : ts.length ≤ k) : array C rec d ts = array C rec' d ts := by
  unfold array
  split
  · rfl
  · rename_i r h
    have h0 := expect_len h
    have h1 := arrayLoop_len (d := d) hs (r.length + 2) [] r
    rw [← arrayLoop_congr hs ha _ _ r (by omega)]
    rcases e : arrayLoop rec d (r.length + 2) [] r with ⟨o, r1⟩
    rw [e] at h1
    cases o with
    | none => rfl
    | some xs =>
      dsimp only at h1 ⊢
      rw [withPostfix_congr hs ha _ r1 (by omega)]

omit hs in
theorem objectKey_congr (ts : List Token) (hk : ts.length ≤ k) : objectKey C rec d ts = objectKey C rec' d ts := by
  unfold objectKey
  split
  · rfl
  · rename_i t r
    simp at hk
    split <;> try rfl
    rw [ha _ _ _ r (by omega)]

theorem objectLoop_congr : ∀ n acc ts, ts.length ≤ k → objectLoop C rec d n acc ts = objectLoop C rec' d n acc ts
  | 0, _, _, _ => rfl
  | n + 1, acc, ts, hk => by
    unfold objectLoop
    have h0 := objectKey_len (C := C) (d := d) hs ts
    rw [← objectKey_congr ha ts hk]
    rcases e : objectKey C rec d ts with ⟨key, r⟩
    rw [e] at h0
    dsimp only at h0 ⊢
    split
    · rfl
    · rename_i r1 h1
      have := expect_len h1
      rw [← ha _ _ _ r1 (by omega)]
      rcases e : rec .global d 0 r1 with ⟨v, r2⟩
      have h2 := hs.eq e
      dsimp only
      split
      · rfl
      · split
        · rename_i r3 h3
          have := expect_len h3
          exact objectLoop_congr n _ _ (by omega)
        · rfl

theorem object_congr (ts : List Token) (hk : ts.length ≤ k) : object C rec d ts = object C rec' d ts := by
  unfold object
  split
  · rfl
  · rename_i r h
    have h0 := expect_len h
    rw [objectLoop_congr hs ha _ _ r (by omega)]

theorem literal_congr (ts : List Token) (hk : ts.length ≤ k) : literal C rec d ts = literal C rec' d ts := by
  unfold literal
  split
  · rfl
  · rename_i t r
    have hi := interval_len (C := C) (d := d) hs (t :: r)
    have hk' := hk
    simp at hk
    rw [← interval_congr hs ha (t :: r) hk', templateString_congr hs ha (t :: r) hk', object_congr hs ha (t :: r) hk',
      identifier_congr hs ha t r (by omega) (by omega)]
    split <;> try rfl
    rcases e : interval C rec d (t :: r) with ⟨_ | x, r1⟩
    · rw [e] at hi
      dsimp only at hi ⊢
      rw [array_congr hs ha r1 (by omega)]
    · rfl

theorem unaryExpr_congr (ts : List Token) (hk : ts.length ≤ k) : unaryExpr C rec d ts = unaryExpr C rec' d ts := by
  unfold unaryExpr
  split
  · rfl
  · rename_i t r
    have hk' := hk
    simp at hk
    split
    · rw [withPostfix_congr hs ha _ r (by omega)]
    · split
      · split
        · rfl
        · rw [ha _ _ _ r (by omega)]
      · have hi := interval_len (C := C) (d := d) hs (t :: r)
        rw [← interval_congr hs ha (t :: r) hk']
        rcases e : interval C rec d (t :: r) with ⟨_ | x, r1⟩
        · rw [e] at hi
          dsimp only at hi ⊢
          simp at hi
          split
          · rw [← ha _ _ _ r1.tail (by simp; omega)]
            rcases e : rec .global d 0 r1.tail with ⟨x, r2⟩
            have h1 := hs.eq e
            dsimp only
            simp at h1
            split
            · rfl
            · rename_i r3 h3
              have := expect_len h3
              rw [withPostfix_congr hs ha _ r3 (by omega)]
          · exact literal_congr hs ha r1 (by omega)
        · rfl

theorem binLoop_congr (ctx : Ctx) (p : Nat) :
    ∀ n l ts, ts.length ≤ k → binLoop C rec ctx d p n l ts = binLoop C rec' ctx d p n l ts
  | 0, _, _, _ => rfl
  | n + 1, l, ts, hk => by
    unfold binLoop
    split
    · rfl
    · rename_i t r
      simp at hk
      split
      · split
        · rfl
        · split
          · rfl
          · rename_i q right _
            split
            · rfl
            · rw [← ha _ _ _ r (by omega)]
              rcases e : rec .global d (if right then q else q + 1) r with ⟨x, r1⟩
              have h1 := hs.eq e
              exact binLoop_congr ctx p n _ _ (by omega)
      · rfl

theorem conditional_congr (c : Node) (ts : List Token) (hk : ts.length ≤ k) :
    conditional rec d c ts = conditional rec' d c ts := by
  unfold conditional
  split
  · rfl
  · rename_i r h
    have := expect_len h
    rw [← ha _ _ _ r (by omega)]
    rcases e : rec .global d 0 r with ⟨x, r1⟩
    have h1 := hs.eq e
    dsimp only
    split
    · rfl
    · rename_i r2 h2
      have := expect_len h2
      rw [ha _ _ _ r2 (by omega)]

theorem binBody_congr (ctx : Ctx) (p : Nat) (ts : List Token) (hk : ts.length ≤ k) :
    binBody C rec ctx d p ts = binBody C rec' ctx d p ts := by
  unfold binBody
  have h0 := unaryExpr_len (C := C) (d := d) hs ts
  rw [← unaryExpr_congr hs ha ts hk]
  rcases e : unaryExpr C rec d ts with ⟨l, r⟩
  rw [e] at h0
  have h1 := binLoop_len (C := C) (d := d) hs ctx p (r.length + 1) l r
  dsimp only at h0 ⊢
  rw [← binLoop_congr hs ha ctx p _ _ r (by omega)]
  rcases e1 : binLoop C rec ctx d p (r.length + 1) l r with ⟨x, r1⟩
  rw [e1] at h1
  dsimp only at h1 ⊢
  rw [conditional_congr hs ha _ r1 (by omega)]
end

/-- More rounds than tokens are enough: further rounds change nothing. -/
theorem binExpr_enough (C : PCfg) : ∀ (n m : Nat) (c : Ctx) (d p : Nat) (ts : List Token),
    ts.length < n → ts.length < m → binExpr C n c d p ts = binExpr C m c d p ts
  | 0, _, _, _, _, _, h, _ => by omega
  | _ + 1, 0, _, _, _, _, _, h => by omega
  | n + 1, m + 1, c, d, p, ts, hn, hm =>
    binBody_congr (binExpr_shrink C n)
      (fun c' d' p' ts' h' => binExpr_enough C n m c' d' p' ts' (by omega) (by omega)) c p ts (Nat.le_refl _)

end Parse
end Zen
