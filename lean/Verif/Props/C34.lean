import Verif.Engine.EngineLemmas
import Verif.Props.C03
import Verif.Props.C04
import Verif.Props.C09
/-
C34: node input and output transformation. A handler is an arbitrary function with an arbitrary
state, so that the number and order of its calls can be observed.
-/
namespace Zen
open Val

/-- Specification: calling `h` on each of `xs` in order, with the flag `has_more`, from state `s`
succeeds with results `outs` and leaves state `s'`; `more` tells whether elements follow `xs`. -/
inductive Calls {σ : Type} (h : Handler σ) (more : Bool) : σ → List Val → List Val → σ → Prop
  | nil (s : σ) : Calls h more s [] [] s
  | cons (s s1 s2 : σ) (x o : Val) (xs os : List Val) :
      h s x (!xs.isEmpty || more) = (.ok o, s1) → Calls h more s1 xs os s2 → Calls h more s (x :: xs) (o :: os) s2

/-- Specification: objects nested along a path. -/
def nest : List String → Val → Val
  | [], v => v
  | k :: ks, v => .obj [(k, nest ks v)]

/-- Without settings the node's output is the handler's, and it is called once on the node's input. -/
theorem C34_plain {σ : Type} (input : Val) (sel : String → Except String Val) (h : Handler σ) (s : σ) :
    runWith {} input sel h s = h s input false := by
  unfold runWith
  dsimp only [selectInput]
  rw [if_neg (by decide)]
  cases hh : h s input false with
  | mk r s' => cases r <;> rfl

/-- An input field selects what the handler receives: the run is the one on the selected value. -/
theorem C34_input_field {σ : Type} (f : String) (input v : Val) (sel : String → Except String Val) (h : Handler σ) (s : σ)
    (hs : sel f = .ok v) : runWith { inputField := some f } input sel h s = h s v false := by
  rw [← C34_plain v sel h s]
  simp only [runWith, selectInput, hs]
  rfl

/-- A failing input field: the handler is not called. -/
theorem C34_input_field_error {σ : Type} (a : Attrs) (f e : String) (input : Val) (sel : String → Except String Val)
    (h : Handler σ) (s : σ) (ha : a.inputField = some f) (hs : sel f = .error e) :
    runWith a input sel h s = (.error e, s) := by
  simp only [runWith, selectInput, ha, hs]

/-- The field of a node is evaluated as an expression on the node's input, afresh. -/
theorem C34_field_expression (E : Env) (input v : Val) (nodes : Option Val) (f : String) :
    selField E input nodes f = .ok v ↔ freshRun E.F E.B (nodeScope input nodes) .standard f = .ok v := by
  unfold selField
  cases freshRun E.F E.B (nodeScope input nodes) .standard f <;> simp

/-- what is kept of the results of a loop: with pass-through, each merged over its element -/
def kept (passThrough : Bool) (xs outs : List Val) : List Val :=
  if passThrough then List.zipWith Val.mergeClone xs outs else outs

theorem runLoop_ok {σ : Type} (h : Handler σ) (p : Bool) : ∀ (xs outs : List Val) (s s' : σ),
    Calls h false s xs outs s' → runLoop h p s xs = (.ok (kept p xs outs), s') := by
  intro xs outs s s' hc
  induction hc with
  | nil s => cases p <;> rfl
  | cons s s1 s2 x o xs os hx _ ih =>
    rw [Bool.or_false] at hx
    rw [runLoop, hx]
    dsimp only
    rw [ih]
    cases p <;> rfl

theorem runLoop_inv {σ : Type} (h : Handler σ) (p : Bool) : ∀ (xs : List Val) (s s' : σ) (r : Except String (List Val)),
    runLoop h p s xs = (r, s') →
      (∃ outs, Calls h false s xs outs s' ∧ r = .ok (kept p xs outs)) ∨
      (∃ pre x post outs s1 e, xs = pre ++ x :: post ∧ Calls h true s pre outs s1 ∧
        h s1 x (!post.isEmpty) = (.error e, s') ∧ r = .error e) := by
  intro xs
  induction xs with
  | nil =>
    intro s s' r hr
    rw [runLoop] at hr
    cases hr
    exact .inl ⟨[], .nil s, by cases p <;> rfl⟩
  | cons x xs ih =>
    intro s s' r hr
    rw [runLoop] at hr
    cases hx : h s x (!xs.isEmpty) with
    | mk r1 s1 =>
      rw [hx] at hr
      cases r1 with
      | error e =>
        dsimp only at hr
        cases hr
        exact .inr ⟨[], x, xs, [], s, e, rfl, .nil s, hx, rfl⟩
      | ok o =>
        dsimp only at hr
        cases hr2 : runLoop h p s1 xs with
        | mk r2 s2 =>
          rw [hr2] at hr
          rcases ih s1 s2 r2 hr2 with ⟨outs, hc, hr'⟩ | ⟨pre, y, post, outs, s3, e, he, hc, hy, hr'⟩
          · subst hr'
            dsimp only at hr
            cases hr
            exact .inl ⟨o :: outs, .cons _ _ _ _ _ _ _ (by rw [Bool.or_false]; exact hx) hc, by cases p <;> rfl⟩
          · subst hr'
            dsimp only at hr
            cases hr
            refine .inr ⟨x :: pre, y, post, o :: outs, s3, e, by rw [he]; rfl, .cons _ _ _ _ _ _ _ ?_ hc, hy, rfl⟩
            rw [← hx, he]
            cases pre <;> rfl

/-- Loop mode, all calls successful: the handler is called once per element, in order, each time with
the state the previous call left; the results are returned in order. -/
theorem C34_loop {σ : Type} (a : Attrs) (hl : a.loop = true) (input : Val) (sel : String → Except String Val) (xs : List Val)
    (hs : selectInput a input sel = .ok (.arr xs)) (h : Handler σ) (s s' : σ) (outs : List Val)
    (hc : Calls h false s xs outs s') :
    runWith a input sel h s = (.ok (shapeOutput a input (.arr (kept a.passThrough xs outs))), s') := by
  unfold runWith
  rw [hs]
  dsimp only
  rw [if_pos hl, runLoop_ok h a.passThrough xs outs s s' hc]

/-- Loop mode in general: either all calls succeeded, or there is a first failing element, whose error
is the result; no later element is seen by the handler. -/
theorem C34_loop_cases {σ : Type} (a : Attrs) (hl : a.loop = true) (input : Val) (sel : String → Except String Val)
    (xs : List Val) (hs : selectInput a input sel = .ok (.arr xs)) (h : Handler σ) (s : σ) :
    (∃ outs s', Calls h false s xs outs s' ∧
      runWith a input sel h s = (.ok (shapeOutput a input (.arr (kept a.passThrough xs outs))), s')) ∨
    (∃ pre x post outs s1 e s', xs = pre ++ x :: post ∧ Calls h true s pre outs s1 ∧
      h s1 x (!post.isEmpty) = (.error e, s') ∧ runWith a input sel h s = (.error e, s')) := by
  cases hr : runLoop h a.passThrough s xs with
  | mk r s' =>
    rcases runLoop_inv h a.passThrough xs s s' r hr with ⟨outs, hc, hr'⟩ | ⟨pre, x, post, outs, s1, e, he, hc, hx, hr'⟩
    · exact .inl ⟨outs, s', hc, C34_loop a hl input sel xs hs h s s' outs hc⟩
    · refine .inr ⟨pre, x, post, outs, s1, e, s', he, hc, hx, ?_⟩
      unfold runWith
      rw [hs]
      dsimp only
      rw [if_pos hl, hr, hr']

/-- Loop mode needs an array. -/
theorem C34_loop_not_array {σ : Type} (a : Attrs) (hl : a.loop = true) (input v : Val) (sel : String → Except String Val)
    (hs : selectInput a input sel = .ok v) (hv : v.isArr = false) (h : Handler σ) (s : σ) :
    runWith a input sel h s = (.error "Expected an array", s) := by
  unfold runWith
  rw [hs]
  dsimp only
  rw [if_pos hl]
  cases v <;> first | rfl | cases hv

theorem Calls.length {σ : Type} {h : Handler σ} {m : Bool} {s s' : σ} {xs outs : List Val} (hc : Calls h m s xs outs s') :
    outs.length = xs.length := by
  induction hc with
  | nil => rfl
  | cons _ _ _ _ _ _ _ _ _ ih => simp [ih]

/-- For a handler that records its calls: the record is the list of elements, each once, in order,
`has_more` set on all but the last. -/
theorem C34_loop_calls (f : Val → Except String Val) (xs outs : List Val)
    (hf : ∀ (i : Nat) (x : Val), xs[i]? = some x → ∃ o, outs[i]? = some o ∧ f x = .ok o) (hlen : outs.length = xs.length)
    (log : List (Val × Bool)) (more : Bool) :
    Calls (fun (log : List (Val × Bool)) v m => (f v, log ++ [(v, m)])) more log xs outs
      (log ++ xs.zipIdx.map fun p => (p.1, decide (p.2 + 1 < xs.length) || more)) := by
  have gen : ∀ (xs outs : List Val), (∀ (i : Nat) (x : Val), xs[i]? = some x → ∃ o, outs[i]? = some o ∧ f x = .ok o) →
      outs.length = xs.length → ∀ (log : List (Val × Bool)) (k : Nat),
      Calls (fun (log : List (Val × Bool)) v m => (f v, log ++ [(v, m)])) more log xs outs
        (log ++ (xs.zipIdx k).map fun p => (p.1, decide (p.2 + 1 < k + xs.length) || more)) := by
    intro xs
    induction xs with
    | nil =>
      intro outs _ hl log k
      rw [List.length_eq_zero_iff.1 hl, List.zipIdx_nil, List.map_nil, List.append_nil]
      exact .nil log
    | cons x xs ih =>
      intro outs hf hl log k
      cases outs with
      | nil => simp at hl
      | cons o os =>
        obtain ⟨o', ho, hfx⟩ := hf 0 x rfl
        simp only [List.getElem?_cons_zero, Option.some.injEq] at ho
        subst ho
        have := ih os (fun i y hy => hf (i + 1) y (by simpa using hy)) (by simpa using hl)
          (log ++ [(x, !xs.isEmpty || more)]) (k + 1)
        refine .cons _ (log ++ [(x, !xs.isEmpty || more)]) _ _ _ _ _ (by rw [hfx]) ?_
        have e1 : decide (k + 1 < k + (x :: xs).length) = !xs.isEmpty := by
          cases xs <;> simp
        have e2 : k + 1 + xs.length = k + (x :: xs).length := by simp; omega
        rw [e2] at this
        rw [List.zipIdx_cons, List.map_cons]
        dsimp only
        rw [e1]
        rw [List.append_assoc, List.singleton_append] at this
        exact this
  have := gen xs outs hf hlen log 0
  simpa using this

theorem dotInsertP_nest : ∀ (p : List String) (v : Val), p ≠ [] → (dotInsertP (.obj []) p v).1 = nest p v := by
  intro p
  induction p with
  | nil => intro v h; exact absurd rfl h
  | cons k ks ih =>
    intro v _
    cases ks with
    | nil => rfl
    | cons k' ks =>
      rw [nest, ← ih v (by simp)]
      rfl

/-- An output path nests the result: objects with the segments of the path as only keys, the result
innermost. -/
theorem C34_output_path {σ : Type} (p : String) (input out : Val) (sel : String → Except String Val) (h : Handler σ)
    (s s' : σ) (hh : h s input false = (.ok out, s')) :
    runWith { outputPath := some p } input sel h s = (.ok (nest (splitDot p) out), s') := by
  simp only [runWith, selectInput, hh, shapeOutput, dotInsert]
  rw [dotInsertP_nest _ _ (splitDot_ne_nil p)]
  rfl

/-- Reading the output path of what the node returns gives the handler's result. -/
theorem C34_output_path_read (p : List String) (v : Val) : dotP (nest p v) p = some v := by
  induction p with
  | nil => rfl
  | cons k ks ih => simp [nest, dotP, aGet, ih]

/-- Pass-through merges the result over the node's input, in the sense of C03. -/
theorem C34_pass_through {σ : Type} (input out : Val) (sel : String → Except String Val) (h : Handler σ)
    (s s' : σ) (hh : h s input false = (.ok out, s')) (hi : input.Wf) (ho : out.Wf) :
    ∃ r, runWith { passThrough := true } input sel h s = (.ok r, s') ∧ MergedTop input out r := by
  refine ⟨mergeClone input out, ?_, ?_⟩
  · simp only [runWith, selectInput, hh, shapeOutput]
    rfl
  · rw [C03_merge_clone_agrees]
    exact (C03_merge_spec input out hi ho).1

/-- The settings combine: field, then handler, then output path, then pass-through. -/
theorem C34_combined {σ : Type} (a : Attrs) (hl : a.loop = false) (input v out : Val) (sel : String → Except String Val)
    (hs : selectInput a input sel = .ok v) (h : Handler σ) (s s' : σ) (hh : h s v false = (.ok out, s')) :
    runWith a input sel h s = (.ok (
      let shaped := match a.outputPath with | none => out | some p => nest (splitDot p) out
      if a.passThrough then input.merge shaped else shaped), s') := by
  unfold runWith
  rw [hs]
  dsimp only
  rw [hl, if_neg (by decide), hh]
  unfold shapeOutput
  cases ho : a.outputPath with
  | none => dsimp only; rw [C03_merge_clone_agrees]
  | some p =>
    dsimp only [dotInsert]
    rw [dotInsertP_nest _ _ (splitDot_ne_nil p), C03_merge_clone_agrees]

/-- A failing handler fails the node with its error, whatever the settings. -/
theorem C34_handler_error {σ : Type} (a : Attrs) (hl : a.loop = false) (input v : Val) (sel : String → Except String Val)
    (hs : selectInput a input sel = .ok v) (h : Handler σ) (s s' : σ) (e : String) (hh : h s v false = (.error e, s')) :
    runWith a input sel h s = (.error e, s') := by
  unfold runWith
  rw [hs]
  dsimp only
  rw [hl, if_neg (by decide), hh]

/-! ## Instances -/

/-- a handler that counts its calls and returns `{ "n": count }` -/
def counting : Handler Nat := fun n _ _ => (.ok (.obj [("n", .num n)]), n + 1)

example : runWith { loop := true, outputPath := some "a.b" } (.arr [.null, .bool true]) (fun _ => .error "") counting 5 =
    (.ok (.obj [("a", .obj [("b", .arr [.obj [("n", .num 5)], .obj [("n", .num 6)]])])]), 7) := by
  rw [C34_loop _ rfl _ _ [.null, .bool true] rfl counting 5 7 [.obj [("n", .num 5)], .obj [("n", .num 6)]]
    (.cons 5 6 7 _ _ _ _ rfl (.cons 6 7 7 _ _ _ _ rfl (.nil 7)))]
  rfl

example : (runWith { passThrough := true } (.obj [("x", .num 1)]) (fun _ => .error "") counting 5).1 =
    .ok (.obj [("x", .num 1), ("n", .num 5)]) := by
  rw [C34_combined (s' := 6) _ rfl _ (.obj [("x", .num 1)]) (.obj [("n", .num 5)]) _ rfl counting 5 rfl]
  rfl

example : (runWith { loop := true } (.num 3) (fun _ => .error "") counting 5) = (.error "Expected an array", 5) :=
  C34_loop_not_array _ rfl _ (.num 3) _ rfl rfl _ _

end Zen
