import Verif.Parse.ParseFuel
/-
No function of the parser model gives back more assignment signs than it got (the proofs are those of `ParseFuel` with another measure).
-/
namespace Zen
namespace Parse
open Zen.Lex

/-- the number of assignment signs -/
def _root_.List.eqs (ts : List Token) : Nat := ts.countP fun t => t.kind == .op .assign

/-- whether a token is one -/
def oneEq (t : Token) : Nat := if t.kind == .op .assign then 1 else 0

@[simp] theorem eqs_nil : ([] : List Token).eqs = 0 := rfl
@[simp] theorem eqs_cons (t : Token) (r : List Token) : (t :: r).eqs = r.eqs + oneEq t := by
  unfold List.eqs oneEq
  rw [List.countP_cons]

theorem eqs_tail (ts : List Token) : ts.tail.eqs ≤ ts.eqs := by
  cases ts <;> simp

/-- an expression parser gives back no more assignment signs than it got -/
def Fewer (rec : Rec) : Prop := ∀ c d p ts, (rec c d p ts).2.eqs ≤ ts.eqs

theorem Fewer.eq {rec : Rec} (h : Fewer rec) {c d p ts x r} (e : rec c d p ts = (x, r)) : r.eqs ≤ ts.eqs := by
  have := h c d p ts; rw [e] at this; exact this

theorem expect_eqs {k ts r} (h : expect k ts = some r) : r.eqs ≤ ts.eqs := by
  obtain ⟨t, rfl, _⟩ := expect_some h; simp

theorem number_eqs (C : PCfg) (t : Token) (ts : List Token) : (number C t ts).2.eqs ≤ ts.eqs := by
  unfold number; split <;> simp [eqs_tail]

theorem simpleString_eqs (C : PCfg) (q : Quote) (ts : List Token) : (simpleString C q ts).2.eqs ≤ ts.eqs := by
  unfold simpleString
  split
  · simp
  · rename_i r h1
    have := expect_eqs h1
    split
    · cases h : expect (.quote q) r with
      | none => simp; omega
      | some r' => have := expect_eqs h; simp; omega
    · rename_i r1 h2
      have := expect_eqs h2
      split
      · simp; omega
      · rename_i r2 h3
        have := expect_eqs h3
        simp; omega

section
variable {C : PCfg} {rec rec' : Rec} {d : Nat} (hs : Fewer rec)
include hs

theorem tmplLoop_eqs : ∀ n acc ts, (tmplLoop C rec d n acc ts).2.eqs ≤ ts.eqs
  | 0, _, ts => by simp [tmplLoop]
  | n + 1, acc, ts => by
    unfold tmplLoop
    split
    · simp
    · rename_i t r
      have := tmplLoop_eqs n
      split
      · simp
      · rcases e : rec .global d 0 r with ⟨x, r1⟩
        have h1 := hs.eq e
        dsimp only
        split
        · rename_i r2 h2
          have := expect_eqs h2
          have := tmplLoop_eqs n (acc ++ [x]) r2
          simp; omega
        · have := tmplLoop_eqs n (acc ++ [x, .error]) r1
          simp; omega
      · have := tmplLoop_eqs n acc r
        simp; omega
      · have := tmplLoop_eqs n (acc ++ [.str (C.lib.dec t.value)]) r
        simp; omega
      · simp

theorem templateString_eqs (ts : List Token) : (templateString C rec d ts).2.eqs ≤ ts.eqs := by
  unfold templateString
  split
  · simp
  · simp
  · rename_i t r h
    have h0 := expect_eqs h
    rcases e : tmplLoop C rec d ((t :: r).length + 1) [] (t :: r) with ⟨o, r1⟩
    have h1 := tmplLoop_eqs (C := C) (d := d) hs ((t :: r).length + 1) [] (t :: r)
    rw [e] at h1
    cases o with
    | none => simp at h0 h1 ⊢; omega
    | some ns =>
      dsimp only
      split
      · simp at h0 h1 ⊢; omega
      · rename_i r2 h2
        have := expect_eqs h2
        simp at h0 h1 ⊢; omega

theorem argsLoop_eqs : ∀ n acc ts, (argsLoop rec d n acc ts).2.eqs ≤ ts.eqs
  | 0, _, ts => by simp [argsLoop]
  | n + 1, acc, ts => by
    unfold argsLoop
    split
    · rename_i r h
      have := expect_eqs h
      simp; omega
    · rcases e : rec .global d 0 ts with ⟨x, r1⟩
      have h1 := hs.eq e
      dsimp only
      split
      · rename_i r2 h2
        have := expect_eqs h2
        have := argsLoop_eqs n (acc ++ [x]) r2
        omega
      · split
        · rename_i r2 h2
          have := expect_eqs h2
          simp; omega
        · simpa using h1

theorem methodCall_eqs (node : Node) (m : String) (r : List Token) : (methodCall rec d node m r).2.eqs ≤ r.eqs := by
  unfold methodCall
  have := argsLoop_eqs (d := d) hs (r.length + 1) [] r.tail
  rcases e : argsLoop rec d (r.length + 1) [] r.tail with ⟨as, r1⟩
  rw [e] at this
  exact Nat.le_trans this (eqs_tail r)

theorem propertyAccess_eqs (node : Node) (r : List Token) : (propertyAccess rec d node r).2.eqs ≤ r.eqs := by
  unfold propertyAccess
  split
  · simp
  · split
    · rename_i r1 h1
      have := expect_eqs h1
      split
      · simp
      · split
        · rename_i r2 h2
          have := expect_eqs h2
          simp; omega
        · rcases e : rec .global d 0 r1 with ⟨x, r2⟩
          have h2 := hs.eq e
          dsimp only
          split
          · simp; omega
          · rename_i r3 h3
            have := expect_eqs h3
            simp; omega
    · rcases e : rec .global d 0 r with ⟨x, r1⟩
      have h1 := hs.eq e
      dsimp only
      split
      · simp
      · split
        · rename_i r2 h2
          have := expect_eqs h2
          split
          · simp
          · split
            · rename_i r3 h3
              have := expect_eqs h3
              simp; omega
            · rcases e : rec .global d 0 r2 with ⟨y, r3⟩
              have h3 := hs.eq e
              dsimp only
              split
              · simp; omega
              · rename_i r4 h4
                have := expect_eqs h4
                simp; omega
        · split
          · simpa using h1
          · rename_i r2 h2
            have := expect_eqs h2
            simp; omega

theorem postfixes_eqs : ∀ n node ts, (postfixes C rec d n node ts).2.eqs ≤ ts.eqs
  | 0, _, ts => by simp [postfixes]
  | n + 1, node, ts => by
    have ih := postfixes_eqs n
    unfold postfixes
    split
    · simp
    · rename_i t r
      split
      · have h1 := propertyAccess_eqs (d := d) hs node r
        rcases e : propertyAccess rec d node r with ⟨x, r1⟩
        rw [e] at h1
        have := ih x r1
        dsimp only
        rcases e2 : postfixes C rec d n x r1 with ⟨⟨y, c⟩, r2⟩
        rw [e2] at this
        simp at *; omega
      · split
        · split
          · have := ih (.member node .error) []
            rcases e2 : postfixes C rec d n (.member node .error) [] with ⟨⟨y, c⟩, r2⟩
            rw [e2] at this
            simp at *; simp [this]
          · rename_i p r1
            split
            · split
              · split
                · have h1 := methodCall_eqs (d := d) hs node (C.lib.dec p.value) r1
                  rcases e : methodCall rec d node (C.lib.dec p.value) r1 with ⟨x, r2⟩
                  rw [e] at h1
                  have h2 := ih x r2
                  dsimp only
                  rcases e2 : postfixes C rec d n x r2 with ⟨⟨y, c⟩, r3⟩
                  rw [e2] at h2
                  have h3 := ih y r3
                  dsimp only
                  rcases e3 : postfixes C rec d n y r3 with ⟨⟨z, c'⟩, r4⟩
                  rw [e3] at h3
                  simp [e3] at *; omega
                · have := ih .error r1
                  rcases e2 : postfixes C rec d n .error r1 with ⟨⟨y, c⟩, r2⟩
                  rw [e2] at this
                  simp at *; omega
              · have := ih (.member node (.str (C.lib.dec p.value))) r1
                rcases e2 : postfixes C rec d n (.member node (.str (C.lib.dec p.value))) r1 with ⟨⟨y, c⟩, r2⟩
                rw [e2] at this
                simp at *; omega
            · have := ih (.member node .error) (p :: r1)
              rcases e2 : postfixes C rec d n (.member node .error) (p :: r1) with ⟨⟨y, c⟩, r2⟩
              rw [e2] at this
              simp at *; omega
        · simp

theorem withPostfix_eqs (node : Node) (ts : List Token) : (withPostfix C rec d node ts).2.eqs ≤ ts.eqs :=
  postfixes_eqs hs _ _ _

theorem assignLoop_eqs : ∀ n acc ts,
    (assignLoop C rec d n acc ts).2.eqs ≤ ts.eqs ∧
    ∀ kvs r, (assignLoop C rec d n acc ts).1 = some (kvs, some r) → r.eqs ≤ ts.eqs
  | 0, _, ts => by simp [assignLoop]
  | n + 1, acc, ts => by
    unfold assignLoop
    split
    · simp
    · split
      · simp
      · simp
      · rename_i t r h
        have h0 := expect_eqs h
        have h1 := withPostfix_eqs (C := C) (d := d) hs (.ident (C.lib.dec t.value)) r
        rcases e : withPostfix C rec d (.ident (C.lib.dec t.value)) r with ⟨⟨key, c⟩, r1⟩
        rw [e] at h1
        dsimp only
        simp at h0 h1
        split
        · refine ⟨by simp; omega, ?_⟩
          intro kvs r' e
          simp at e
          rw [← e.2]; simp; omega
        · rename_i r2 h2
          have := expect_eqs h2
          split
          · rcases e : rec .global d 0 r2 with ⟨v, r3⟩
            have h3 := hs.eq e
            have ih := assignLoop_eqs n (acc ++ [(transformKey key, v)]) r3
            refine ⟨by dsimp only; omega, ?_⟩
            intro kvs r' e
            have := ih.2 _ _ e
            omega
          · refine ⟨by simp; omega, by simp⟩

theorem assignedObject_eqs (key : Node) (ts : List Token) : (assignedObject C rec d key ts).2.eqs ≤ ts.eqs := by
  unfold assignedObject
  split
  · simp
  · rename_i r h
    have h0 := expect_eqs h
    rcases e : rec .global d 0 r with ⟨v, r1⟩
    have h1 := hs.eq e
    dsimp only
    have h2 := assignLoop_eqs (C := C) (d := d) hs (r1.length + 1) [(transformKey key, v)] r1
    rcases e2 : assignLoop C rec d (r1.length + 1) [(transformKey key, v)] r1 with ⟨o, r2⟩
    rw [e2] at h2
    rcases o with _ | ⟨kvs, _ | r3⟩
    · simp at h2 ⊢; omega
    · simp at h2 ⊢; omega
    · have h3 := h2.2 _ _ rfl
      dsimp only
      rcases e3 : rec .global d 0 r3 with ⟨o, r4⟩
      have := hs.eq e3
      simp; omega

omit hs in
theorem aliasOf_eqs (ts : List Token) : (aliasOf C ts).2.eqs ≤ ts.eqs := by
  unfold aliasOf
  split
  · simp
  · split
    · split
      · simp
      · split <;> (simp; try omega)
    · simp

theorem closureCall_eqs (k : Clo) (r : List Token) : (closureCall C rec d k r).2.eqs ≤ r.eqs := by
  unfold closureCall
  rcases e : rec .global d 0 r with ⟨x, r1⟩
  have h1 := hs.eq e
  have h2 := aliasOf_eqs (C := C) r1
  dsimp only
  rcases e2 : aliasOf C r1 with ⟨al, r2⟩
  rw [e2] at h2
  dsimp only at h2 ⊢
  have h3 : ((expect (.op .comma) r2).getD r2).eqs ≤ r2.eqs := by
    cases h : expect (.op .comma) r2 with
    | none => simp
    | some r3 => have := expect_eqs h; simp; omega
  rcases e4 : rec .closure (d + 1) 0 ((expect (.op .comma) r2).getD r2) with ⟨b, r4⟩
  have h4 := hs.eq e4
  dsimp only
  have h5 : ((expect (.bracket .rparen) r4).getD r4).eqs ≤ r4.eqs := by
    cases h : expect (.bracket .rparen) r4 with
    | none => simp
    | some r3 => have := expect_eqs h; simp; omega
  split
  · rename_i h; rw [h] at h5; simp at h5 ⊢; omega
  · simp; omega

theorem identifier_eqs (t : Token) (r : List Token) : (identifier C rec d t r).2.eqs ≤ r.eqs := by
  unfold identifier
  split
  · generalize (if t.kind = .ident .root then Node.root else .ident (C.lib.dec t.value)) = node
    have h1 := withPostfix_eqs (C := C) (d := d) hs node r
    rcases e : withPostfix C rec d node r with ⟨⟨x, c⟩, r1⟩
    rw [e] at h1
    dsimp only at h1 ⊢
    split
    · split
      · have := assignedObject_eqs (C := C) (d := d) hs x r1
        omega
      · simpa using h1
    · simpa using h1
  · split
    · have h1 := argsLoop_eqs (d := d) hs (r.length + 1) [] r.tail
      rcases e : argsLoop rec d (r.length + 1) [] r.tail with ⟨as, r1⟩
      rw [e] at h1
      have h2 := withPostfix_eqs (C := C) (d := d) hs (.call (C.lib.dec t.value) as) r1
      dsimp only
      rcases e2 : withPostfix C rec d (.call (C.lib.dec t.value) as) r1 with ⟨⟨x, c⟩, r2⟩
      rw [e2] at h2
      have := eqs_tail r
      simp at h1 h2 ⊢; omega
    · split
      · simp
      · rename_i k _
        have h1 := closureCall_eqs (C := C) (d := d) hs k r.tail
        rcases e : closureCall C rec d k r.tail with ⟨x, r1⟩
        rw [e] at h1
        have h2 := withPostfix_eqs (C := C) (d := d) hs x r1
        dsimp only
        rcases e2 : withPostfix C rec d x r1 with ⟨⟨x, c⟩, r2⟩
        rw [e2] at h2
        have := eqs_tail r
        simp at h1 h2 ⊢; omega

theorem interval_eqs (ts : List Token) : (interval C rec d ts).2.eqs ≤ ts.eqs := by
  unfold interval
  split
  · split
    · simp
    · rename_i t r
      split
      · rename_i lb _
        rcases e : rec .global d 0 r with ⟨x, r1⟩
        have h1 := hs.eq e
        dsimp only
        split
        · simp
        · split
          · simp
          · rename_i r2 h2
            have := expect_eqs h2
            rcases e : rec .global d 0 r2 with ⟨y, r3⟩
            have h3 := hs.eq e
            dsimp only
            split
            · simp
            · split
              · simp
              · rename_i t1 r4
                split
                · rename_i rb _
                  have h2 := withPostfix_eqs (C := C) (d := d) hs (.interval x y lb rb) r4
                  rcases e2 : withPostfix C rec d (.interval x y lb rb) r4 with ⟨⟨x, c⟩, r2⟩
                  rw [e2] at h2
                  simp at *; omega
                · simp
      · simp
  · simp

theorem arrayLoop_eqs : ∀ n acc ts, (arrayLoop rec d n acc ts).2.eqs ≤ ts.eqs
  | 0, _, ts => by simp [arrayLoop]
  | n + 1, acc, ts => by
    unfold arrayLoop
    split
    · rename_i r h
      have := expect_eqs h
      simp; omega
    · split
      · rcases e : rec .global d 0 ts with ⟨x, r1⟩
        have h1 := hs.eq e
        have := arrayLoop_eqs n (acc ++ [x]) r1
        dsimp only; omega
      · split
        · simp
        · rename_i r h
          have := expect_eqs h
          split
          · rename_i r1 h1
            have := expect_eqs h1
            simp; omega
          · rcases e : rec .global d 0 r with ⟨x, r1⟩
            have h1 := hs.eq e
            have := arrayLoop_eqs n (acc ++ [x]) r1
            dsimp only; omega

theorem array_eqs (ts : List Token) : (array C rec d ts).2.eqs ≤ ts.eqs := by
  unfold array
  split
  · simp
  · rename_i r h
    have h0 := expect_eqs h
    have h1 := arrayLoop_eqs (d := d) hs (r.length + 2) [] r
    rcases e : arrayLoop rec d (r.length + 2) [] r with ⟨o, r1⟩
    rw [e] at h1
    cases o with
    | none => simp at h1 ⊢; omega
    | some xs =>
      have h2 := withPostfix_eqs (C := C) (d := d) hs (.arr xs) r1
      dsimp only
      rcases e2 : withPostfix C rec d (.arr xs) r1 with ⟨⟨x, c⟩, r2⟩
      rw [e2] at h2
      simp at *; omega

theorem objectKey_eqs (ts : List Token) : (objectKey C rec d ts).2.eqs ≤ ts.eqs := by
  unfold objectKey
  split
  · simp
  · rename_i t r
    split <;> try (simp; done)
    · rcases e : rec .global d 0 r with ⟨x, r1⟩
      have h1 := hs.eq e
      dsimp only
      split
      · simp; omega
      · rename_i r2 h2
        have := expect_eqs h2
        simp; omega
    · exact simpleString_eqs _ _ _
    · exact simpleString_eqs _ _ _

theorem objectLoop_eqs : ∀ n acc ts, (objectLoop C rec d n acc ts).2.eqs ≤ ts.eqs
  | 0, _, ts => by simp [objectLoop]
  | n + 1, acc, ts => by
    unfold objectLoop
    have h0 := objectKey_eqs (C := C) (d := d) hs ts
    rcases e : objectKey C rec d ts with ⟨k, r⟩
    rw [e] at h0
    dsimp only at h0 ⊢
    split
    · simpa using h0
    · rename_i r1 h1
      have := expect_eqs h1
      rcases e : rec .global d 0 r1 with ⟨v, r2⟩
      have h2 := hs.eq e
      dsimp only
      split
      · simp
      · split
        · rename_i r3 h3
          have := expect_eqs h3
          have := objectLoop_eqs n (acc ++ [(k, v)]) r3
          omega
        · split
          · rename_i r3 h3
            have := expect_eqs h3
            simp; omega
          · simp; omega

theorem object_eqs (ts : List Token) : (object C rec d ts).2.eqs ≤ ts.eqs := by
  unfold object
  split
  · simp
  · rename_i r h
    have h0 := expect_eqs h
    split
    · rename_i r1 h1
      have := expect_eqs h1
      simp; omega
    · have h1 := objectLoop_eqs (C := C) (d := d) hs (r.length + 1) [] r
      rcases e : objectLoop C rec d (r.length + 1) [] r with ⟨o, r1⟩
      rw [e] at h1
      cases o <;> simp at h1 ⊢ <;> omega

theorem literal_eqs (ts : List Token) : (literal C rec d ts).2.eqs ≤ ts.eqs := by
  unfold literal
  split
  · simp
  · rename_i t r
    have hi := interval_eqs (C := C) (d := d) hs (t :: r)
    split <;> try (simp; done)
    · have := identifier_eqs (C := C) (d := d) hs t r
      simp; omega
    · have := identifier_eqs (C := C) (d := d) hs t r
      simp; omega
    · exact number_eqs _ _ _
    · exact templateString_eqs hs _
    · exact simpleString_eqs _ _ _
    · rcases e : interval C rec d (t :: r) with ⟨_ | x, r1⟩
      · rw [e] at hi
        have := array_eqs (C := C) (d := d) hs r1
        dsimp only at hi ⊢; omega
      · rw [e] at hi; exact hi
    · exact object_eqs hs _
    · rcases e : interval C rec d (t :: r) with ⟨_ | x, r1⟩ <;> (rw [e] at hi; exact hi)

theorem unaryExpr_eqs (ts : List Token) : (unaryExpr C rec d ts).2.eqs ≤ ts.eqs := by
  unfold unaryExpr
  split
  · simp
  · rename_i t r
    split
    · have h2 := withPostfix_eqs (C := C) (d := d) hs .pointer r
      rcases e2 : withPostfix C rec d .pointer r with ⟨⟨x, c⟩, r2⟩
      rw [e2] at h2
      simp at *; omega
    · split
      · split
        · simp
        · rename_i q _
          rcases e : rec .global d q r with ⟨x, r1⟩
          have h1 := hs.eq e
          simp; omega
      · have hi := interval_eqs (C := C) (d := d) hs (t :: r)
        rcases e : interval C rec d (t :: r) with ⟨_ | x, r1⟩
        · rw [e] at hi
          dsimp only at hi ⊢
          split
          · rcases e : rec .global d 0 r1.tail with ⟨x, r2⟩
            have h1 := hs.eq e
            dsimp only
            have := eqs_tail r1
            split
            · simp at *; omega
            · rename_i r3 h3
              have := expect_eqs h3
              have h2 := withPostfix_eqs (C := C) (d := d) hs (.paren x) r3
              rcases e2 : withPostfix C rec d (.paren x) r3 with ⟨⟨x, c⟩, r2⟩
              rw [e2] at h2
              simp at *; omega
          · have := literal_eqs (C := C) (d := d) hs r1
            omega
        · rw [e] at hi; exact hi

theorem binLoop_eqs (ctx : Ctx) (p : Nat) : ∀ n l ts, (binLoop C rec ctx d p n l ts).2.eqs ≤ ts.eqs
  | 0, _, ts => by simp [binLoop]
  | n + 1, l, ts => by
    unfold binLoop
    split
    · simp
    · rename_i t r
      split
      · split
        · simp
        · split
          · simp
          · rename_i q right _
            split
            · simp
            · rcases e : rec .global d (if right then q else q + 1) r with ⟨x, r1⟩
              have h1 := hs.eq e
              have := fun o => binLoop_eqs ctx p n (.binary o l x) r1
              rename_i o _ _ _ _ _
              have := this o
              simp; omega
      · simp

theorem conditional_eqs (c : Node) (ts : List Token) : (conditional rec d c ts).2.eqs ≤ ts.eqs := by
  unfold conditional
  split
  · simp
  · rename_i r h
    have := expect_eqs h
    rcases e : rec .global d 0 r with ⟨x, r1⟩
    have h1 := hs.eq e
    dsimp only
    split
    · simp; omega
    · rename_i r2 h2
      have := expect_eqs h2
      rcases e : rec .global d 0 r2 with ⟨x, r3⟩
      have h1 := hs.eq e
      simp; omega

theorem binBody_eqs (ctx : Ctx) (p : Nat) (ts : List Token) : (binBody C rec ctx d p ts).2.eqs ≤ ts.eqs := by
  unfold binBody
  have h0 := unaryExpr_eqs (C := C) (d := d) hs ts
  rcases e : unaryExpr C rec d ts with ⟨l, r⟩
  rw [e] at h0
  have h1 := binLoop_eqs (C := C) (d := d) hs ctx p (r.length + 1) l r
  dsimp only at h0 ⊢
  rcases e1 : binLoop C rec ctx d p (r.length + 1) l r with ⟨x, r1⟩
  rw [e1] at h1
  dsimp only at h1 ⊢
  split
  · have := conditional_eqs (d := d) hs x r1
    omega
  · dsimp only; omega
end

theorem binExpr_fewer (C : PCfg) : ∀ n, Fewer (binExpr C n)
  | 0 => fun _ _ _ _ => Nat.le_refl _
  | n + 1 => fun _ _ _ _ => binBody_eqs (binExpr_fewer C n) _ _ _

end Parse
end Zen
