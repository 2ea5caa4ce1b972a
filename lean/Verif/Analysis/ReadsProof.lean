import Verif.Analysis.ReadsPath
import Verif.Expr.EvalLemmas
/-
Expressions see only what is reported: the induction.
-/
namespace Zen.Reads
open Zen

section loops
variable {W : Prop} {X : List String → Prop}

theorem Rel.map {α β : Type} {r r' : Except VErr (α × Scope)} (f : α → β) (h : Rel W X r r') :
    Rel W X (r.map fun q => (f q.1, q.2)) (r'.map fun q => (f q.1, q.2)) := by
  rcases h with ⟨e, rfl, rfl⟩ | ⟨a, e, e', rfl, rfl, h⟩
  · exact Rel.err
  · exact Rel.ok h

variable {f f' : Val → Scope → Res} (hf : ∀ x e e', Sim W X e e' → Rel W X (f x e) (f' x e'))
include hf

theorem relAll (xs : List Val) : ∀ e e', Sim W X e e' → Rel W X (loopAll f xs e) (loopAll f' xs e') := by
  induction xs with
  | nil => intro e e' h; exact Rel.ok h
  | cons x xs ih =>
    intro e e' h
    simp only [loopAll]
    rcases hf x e e' h with ⟨e, e1, e2⟩ | ⟨a, e, e', e1, e2, h⟩ <;> simp only [e1, e2]
    · exact Rel.err
    · cases a with
      | bool b =>
        cases b
        · exact Rel.ok h
        · exact ih _ _ h
      | _ => exact Rel.err

theorem relSome (xs : List Val) : ∀ e e', Sim W X e e' → Rel W X (loopSome f xs e) (loopSome f' xs e') := by
  induction xs with
  | nil => intro e e' h; exact Rel.ok h
  | cons x xs ih =>
    intro e e' h
    simp only [loopSome]
    rcases hf x e e' h with ⟨e, e1, e2⟩ | ⟨a, e, e', e1, e2, h⟩ <;> simp only [e1, e2]
    · exact Rel.err
    · cases a with
      | bool b =>
        cases b
        · exact ih _ _ h
        · exact Rel.ok h
      | _ => exact Rel.err

theorem relNone (xs : List Val) : ∀ e e', Sim W X e e' → Rel W X (loopNone f xs e) (loopNone f' xs e') := by
  induction xs with
  | nil => intro e e' h; exact Rel.ok h
  | cons x xs ih =>
    intro e e' h
    simp only [loopNone]
    rcases hf x e e' h with ⟨e, e1, e2⟩ | ⟨a, e, e', e1, e2, h⟩ <;> simp only [e1, e2]
    · exact Rel.err
    · cases a with
      | bool b =>
        cases b
        · exact ih _ _ h
        · exact Rel.ok h
      | _ => exact Rel.err

theorem relFilter (xs : List Val) : ∀ e e', Sim W X e e' → Rel W X (loopFilter f xs e) (loopFilter f' xs e') := by
  induction xs with
  | nil => intro e e' h; exact Rel.ok h
  | cons x xs ih =>
    intro e e' h
    simp only [loopFilter]
    rcases hf x e e' h with ⟨e, e1, e2⟩ | ⟨a, e, e', e1, e2, h⟩ <;> simp only [e1, e2]
    · exact Rel.err
    · cases a with
      | bool b =>
        cases b
        · exact ih _ _ h
        · dsimp only
          rcases ih _ _ h with ⟨e, e1, e2⟩ | ⟨a, e, e', e1, e2, h⟩ <;> simp only [e1, e2]
          · exact Rel.err
          · exact Rel.ok h
      | _ => exact Rel.err

theorem relMap (xs : List Val) : ∀ e e', Sim W X e e' → Rel W X (loopMap f xs e) (loopMap f' xs e') := by
  induction xs with
  | nil => intro e e' h; exact Rel.ok h
  | cons x xs ih =>
    intro e e' h
    simp only [loopMap]
    rcases hf x e e' h with ⟨e, e1, e2⟩ | ⟨a, e, e', e1, e2, h⟩ <;> simp only [e1, e2]
    · exact Rel.err
    · rcases ih _ _ h with ⟨e, e1, e2⟩ | ⟨a, e, e', e1, e2, h⟩ <;> simp only [e1, e2]
      · exact Rel.err
      · exact Rel.ok h

theorem relLoop (k : Clo) (xs : List Val) {e e' : Scope} (h : Sim W X e e') :
    Rel W X (loopMeaning k f xs e) (loopMeaning k f' xs e') := by
  cases k <;> simp only [loopMeaning]
  · exact Rel.map (Val.bool ·) (relAll hf xs _ _ h)
  · exact Rel.map (Val.bool ·) (relNone hf xs _ _ h)
  · exact Rel.map (Val.bool ·) (relSome hf xs _ _ h)
  · exact Rel.map (fun r : List Val => Val.bool (decide (r.length = 1))) (relFilter hf xs _ _ h)
  · exact Rel.map (fun r : List Val => Val.arr r) (relFilter hf xs _ _ h)
  · exact Rel.map (fun r : List Val => Val.arr r) (relMap hf xs _ _ h)
  · exact Rel.map (fun r : List Val => Val.arr (flattenV r)) (relMap hf xs _ _ h)
  · exact Rel.map (fun r : List Val => Val.num r.length) (relFilter hf xs _ _ h)
end loops

variable {B : Builtins} {m m' : List (String × Val)}

/-- In a context that covers its reads, an expression gives the same in both runs. -/
def Good (B : Builtins) (m m' : List (String × Val)) (n : Node) : Prop :=
  ∀ S F d fr X e e', Ctx m m' S F fr X → tame n = true → d + nesting n < maxDepth → Cov m m' d F (resolve n S).1 →
    Sim (Same m m') X e e' →
    Rel (Same m m') (ext X (resolve n S).2) (eval B (inp m) fr e n) (eval B (inp m') fr e' n)

/-- The same for a member of a chain before its path is emitted. -/
def GoodSpine (B : Builtins) (m m' : List (String × Val)) (n : Node) : Prop :=
  ∀ S F d fr X e e', isChain n = true → Ctx m m' S F fr X → tame n = true → d + nesting n < maxDepth →
    Cov m m' d F (spine n S).1.deps → (∀ x r, readPath n = some (x :: r) → PathOk m m' fr e e' (x :: r)) →
    Sim (Same m m') X e e' →
    lenient (inp m) e fr n = lenient (inp m') e' fr n ∧
      Rel (Same m m') (ext X (spine n S).2) (eval B (inp m) fr e n) (eval B (inp m') fr e' n)

section
variable {S : Sc} {F : List (String × List String)} {d : Nat} {fr : Frames} {X : List String → Prop} {e e' : Scope}

theorem Ctx.same (h : Ctx m m' S F fr X) (hs : Sim (Same m m') X e e') : Sim (Same m m') (ext X S) e e' :=
  hs.weaken fun p hp => hp.elim id (h.loc p)

theorem Ctx.sameRel {α : Type} {r r' : Except VErr (α × Scope)} (h : Ctx m m' S F fr X) (hr : Rel (Same m m') X r r') :
    Rel (Same m m') (ext X S) r r' := hr.weaken fun p hp => hp.elim id (h.loc p)

theorem ext_last {α : Type} {S1 S2 : Sc} {r r' : Except VErr (α × Scope)} (h : Rel (Same m m') (ext (ext X S1) S2) r r') :
    Rel (Same m m') (ext X S2) r r' := h.weaken fun _ hp => hp.elim (fun hx => .inl (.inl hx)) .inr

/-- the next part of an expression -/
theorem Good.next {n : Node} (hg : Good B m m' n) {S1 : Sc} (h : Ctx m m' S F fr X) (hl : Le S S1) (hk : SOk S1)
    (ht : tame n = true) (hd : d + nesting n < maxDepth) (hc : Cov m m' d F (resolve n S1).1)
    (hs : Sim (Same m m') (ext X S1) e e') :
    Rel (Same m m') (ext X (resolve n S1).2) (eval B (inp m) fr e n) (eval B (inp m') fr e' n) :=
  ext_last (hg S1 F d fr _ e e' (h.step hl hk) ht hd hc hs)

theorem list_rel (ps : List Node) (ih : ∀ n ∈ ps, Good B m m' n) : ∀ S F d fr X e e', Ctx m m' S F fr X →
    tameL ps = true → d + nestingL ps < maxDepth → Cov m m' d F (resolveList ps S).1 → Sim (Same m m') X e e' →
    Rel (Same m m') (ext X (resolveList ps S).2) (evalList B (inp m) fr e ps) (evalList B (inp m') fr e' ps) := by
  induction ps with
  | nil => intro S F d fr X e e' h _ _ _ hs; exact Rel.ok (h.same hs)
  | cons n ns ihl =>
    intro S F d fr X e e' h ht hd hc hs
    simp only [tameL, Bool.and_eq_true] at ht
    simp only [nestingL] at hd
    simp only [resolveList] at hc ⊢
    obtain ⟨c1, c2⟩ := cov_append (by omega) hc
    obtain ⟨l1, s1, -⟩ := (resolve_keeps n).1 S ht.1 h.ok
    simp only [evalList]
    rcases ih n (by simp) S F d fr X e e' h ht.1 (by omega) c1 hs with ⟨x, e1, e2⟩ | ⟨v, f, f', e1, e2, hs⟩ <;>
      simp only [e1, e2]
    · exact Rel.err
    · have h2 := ext_last (ihl (fun n hn => ih n (by simp [hn])) _ F d fr _ f f' (h.step l1 s1) ht.2 (by omega) c2 hs)
      rcases h2 with ⟨x, e1, e2⟩ | ⟨v, f, f', e1, e2, hs⟩ <;> simp only [e1, e2]
      · exact Rel.err
      · exact Rel.ok hs

theorem tmpl_rel (ps : List Node) (ih : ∀ n ∈ ps, Good B m m' n) : ∀ S F d fr X e e', Ctx m m' S F fr X →
    tameL ps = true → d + nestingL ps < maxDepth → Cov m m' d F (resolveList ps S).1 → Sim (Same m m') X e e' →
    Rel (Same m m') (ext X (resolveList ps S).2) (evalTmpl B (inp m) fr e ps) (evalTmpl B (inp m') fr e' ps) := by
  induction ps with
  | nil => intro S F d fr X e e' h _ _ _ hs; exact Rel.ok (h.same hs)
  | cons n ns ihl =>
    intro S F d fr X e e' h ht hd hc hs
    simp only [tameL, Bool.and_eq_true] at ht
    simp only [nestingL] at hd
    simp only [resolveList] at hc ⊢
    obtain ⟨c1, c2⟩ := cov_append (by omega) hc
    obtain ⟨l1, s1, -⟩ := (resolve_keeps n).1 S ht.1 h.ok
    simp only [evalTmpl]
    rcases ih n (by simp) S F d fr X e e' h ht.1 (by omega) c1 hs with ⟨x, e1, e2⟩ | ⟨v, f, f', e1, e2, hs⟩ <;>
      simp only [e1, e2]
    · exact Rel.err
    · have h2 := ext_last (ihl (fun n hn => ih n (by simp [hn])) _ F d fr _ f f' (h.step l1 s1) ht.2 (by omega) c2 hs)
      cases strOf B v with
      | error x => exact Rel.err
      | ok s =>
        dsimp only
        rcases h2 with ⟨x, e1, e2⟩ | ⟨v, f, f', e1, e2, hs⟩ <;> simp only [e1, e2]
        · exact Rel.err
        · exact Rel.ok hs

theorem obj_rel (ps : List (Node × Node)) (ih : ∀ n ∈ ps, Good B m m' n.1 ∧ Good B m m' n.2) : ∀ S F d fr X e e', Ctx m m' S F fr X →
    tameP ps = true → d + nestingP ps < maxDepth → Cov m m' d F (resolvePairs ps S).1 → Sim (Same m m') X e e' →
    Rel (Same m m') (ext X (resolvePairs ps S).2) (evalObj B (inp m) fr e ps) (evalObj B (inp m') fr e' ps) := by
  induction ps with
  | nil => intro S F d fr X e e' h _ _ _ hs; exact Rel.ok (h.same hs)
  | cons n ns ihl =>
    obtain ⟨a, b⟩ := n
    intro S F d fr X e e' h ht hd hc hs
    simp only [tameP, Bool.and_eq_true] at ht
    simp only [nestingP] at hd
    simp only [resolvePairs] at hc ⊢
    obtain ⟨c12, c3⟩ := cov_append (by omega) hc
    obtain ⟨c1, c2⟩ := cov_append (by omega) c12
    obtain ⟨l1, s1, -⟩ := (resolve_keeps a).1 S ht.1.1 h.ok
    obtain ⟨l2, s2, -⟩ := (resolve_keeps b).1 _ ht.1.2 s1
    have ga : Good B m m' a := (ih (a, b) (by simp)).1
    have gb : Good B m m' b := (ih (a, b) (by simp)).2
    simp only [evalObj]
    rcases ga S F d fr X e e' h ht.1.1 (by omega) c1 hs with ⟨x, e1, e2⟩ | ⟨v, f, f', e1, e2, hs⟩ <;>
      simp only [e1, e2]
    · exact Rel.err
    · cases strOf B v with
      | error x => exact Rel.err
      | ok s =>
        dsimp only
        rcases gb.next h l1 s1 ht.1.2 (by omega) c2 hs with ⟨x, e1, e2⟩ | ⟨v, f, f', e1, e2, hs⟩ <;>
          simp only [e1, e2]
        · exact Rel.err
        · have h2 := ext_last (ihl (fun n hn => ih n (by simp [hn])) _ F d fr _ f f' (h.step (l1.trans l2) s2) ht.2 (by omega) c3 hs)
          rcases h2 with ⟨x, e1, e2⟩ | ⟨v, f, f', e1, e2, hs⟩ <;> simp only [e1, e2]
          · exact Rel.err
          · cases s <;> first | exact Rel.ok hs | exact Rel.err

theorem asg_keeps (ps : List (Node × Node)) : ∀ S, tameA ps = true → SOk S → Le S (resolveAsg ps S).2 ∧ SOk (resolveAsg ps S).2 := by
  induction ps with
  | nil => intro S _ h; exact ⟨Le.refl S, h⟩
  | cons n ns ihl =>
    obtain ⟨a, b⟩ := n
    intro S ht h
    simp only [tameA, Bool.and_eq_true] at ht
    cases a with
    | str k =>
      obtain ⟨l1, s1, -⟩ := (resolve_keeps b).1 S ht.1.2 h
      obtain ⟨l2, s2⟩ := ihl _ ht.2 (bind_ok s1 ht.1.1)
      exact ⟨(l1.trans (bind_le _ k)).trans l2, s2⟩
    | _ => simp [keyOk] at ht

theorem list_keeps (ps : List Node) : ∀ S, tameL ps = true → SOk S → Le S (resolveList ps S).2 ∧ SOk (resolveList ps S).2 := by
  induction ps with
  | nil => intro S _ h; exact ⟨Le.refl S, h⟩
  | cons n ns ihl =>
    intro S ht h
    simp only [tameL, Bool.and_eq_true] at ht
    obtain ⟨l1, s1, -⟩ := (resolve_keeps n).1 S ht.1 h
    obtain ⟨l2, s2⟩ := ihl _ ht.2 s1
    exact ⟨l1.trans l2, s2⟩

theorem asg_rel (ps : List (Node × Node)) (ih : ∀ n ∈ ps, Good B m m' n.1 ∧ Good B m m' n.2) : ∀ S F d fr X e e' acc, Ctx m m' S F fr X →
    tameA ps = true → d + nestingP ps < maxDepth → Cov m m' d F (resolveAsg ps S).1 → Sim (Same m m') X e e' →
    Rel (Same m m') (ext X (resolveAsg ps S).2) (evalAsg B (inp m) fr e acc ps) (evalAsg B (inp m') fr e' acc ps) := by
  induction ps with
  | nil => intro S F d fr X e e' acc h _ _ _ hs; exact Rel.ok (h.same hs)
  | cons n ns ihl =>
    obtain ⟨a, b⟩ := n
    intro S F d fr X e e' acc h ht hd hc hs
    simp only [tameA, Bool.and_eq_true] at ht
    simp only [nestingP] at hd
    cases a with
    | str k =>
      simp only [resolveAsg] at hc ⊢
      obtain ⟨c1, c2⟩ := cov_append (by omega) hc
      obtain ⟨l1, s1, -⟩ := (resolve_keeps b).1 S ht.1.2 h.ok
      have l2 := bind_le (resolve b S).2 k
      have s2 := bind_ok s1 ht.1.1
      have gb : Good B m m' b := (ih (.str k, b) (by simp)).2
      simp only [evalAsg, eval]
      rcases gb S F d fr X e e' h ht.1.2 (by omega) c1 hs with ⟨x, e1, e2⟩ | ⟨v, f, f', e1, e2, hs'⟩ <;>
        simp only [e1, e2]
      · exact Rel.err
      · obtain ⟨g, g', acc', a1, a2, hs2⟩ := assign_sim hs' k v acc
        rw [a1, a2]
        exact ext_last (ihl (fun n hn => ih n (by simp [hn])) _ F d fr _ g g' acc' (h.step (l1.trans l2) s2) ht.2 (by omega) c2
          (hs2.weaken fun p hp => by
            rcases hp with hp | hp
            · exact .inl (.inl hp)
            · rcases bind_local hp with hp | hp
              · exact .inl (.inr hp)
              · exact .inr hp))
    | _ => simp [keyOk] at ht

theorem dynamic_cov {c : Chain} {inner : List Dep} (hd : d < maxDepth) (h : Cov m m' d F (c.dynamic S inner).deps) :
    Cov m m' d F c.deps ∧ Cov m m' d F (c.emit S) ∧ Cov m m' d F inner := by
  have hn : Cov m m' d F [] := fun p hp => by simp [walkDeps] at hp
  unfold Chain.dynamic at h
  cases hm : c.mode <;> rw [hm] at h <;> dsimp only at h
  case path a =>
    obtain ⟨h12, h3⟩ := cov_append hd h
    obtain ⟨h1, h2⟩ := cov_append hd h12
    exact ⟨h1, h2, h3⟩
  all_goals
    obtain ⟨h1, h2⟩ := cov_append hd h
    refine ⟨h1, ?_, h2⟩
    unfold Chain.emit
    rw [hm]
    exact hn

theorem finish_cov {c : Chain} (hd : d < maxDepth) (h : Cov m m' d F (c.finish S)) :
    Cov m m' d F c.deps ∧ Cov m m' d F (c.emit S) := by
  have hn : Cov m m' d F [] := fun p hp => by simp [walkDeps] at hp
  unfold Chain.finish at h
  cases hm : c.mode <;> rw [hm] at h <;> dsimp only at h
  case path a => exact cov_append hd h
  case unresolved =>
    refine ⟨(cov_append hd h).1, ?_⟩
    unfold Chain.emit
    rw [hm]
    exact hn
  all_goals
    refine ⟨h, ?_⟩
    unfold Chain.emit
    rw [hm]
    exact hn

theorem spine_member {n p : Node} (hn : GoodSpine B m m' n) (hp : Good B m m' p) : GoodSpine B m m' (.member n p) := by
  intro S F d fr X e e' hch h ht hd hc hq hs
  cases hr : readPath (.member n p) with
  | some q =>
    obtain ⟨x, r, rfl⟩ := readPath_ne hr
    obtain ⟨c, h0, -⟩ := spine_pure S hr
    rw [h0]
    exact ⟨lenient_pure hr ht h.root (hq x r hr), h.sameRel (eval_pure hr ht h.root (hq x r hr) hs)⟩
  | none =>
    simp only [tame, Bool.and_eq_true] at ht
    simp only [nesting] at hd
    have e2 : (spine (.member n p) S).2 = (resolve p (spine n S).2).2 := by
      simp only [spine]
      exact seg_scope _ _ _
    obtain ⟨l1, s1, -⟩ := (resolve_keeps n).2 S ht.1 h.ok
    have key : Cov m m' d F (spine n S).1.deps ∧ (∀ x r, readPath n = some (x :: r) → PathOk m m' fr e e' (x :: r)) ∧
        Cov m m' d F (resolve p (spine n S).2).1 := by
      by_cases hk : ∃ k, p = .str k
      · obtain ⟨k, rfl⟩ := hk
        refine ⟨?_, ?_, fun p hp => by simp [resolve, walkDeps] at hp⟩
        · simp only [spine, Chain.seg, Chain.field] at hc
          split at hc <;> exact hc
        · intro x r hx
          simp [readPath, hx] at hr
      · have hc' : Cov m m' d F ((spine n S).1.dynamic (spine n S).2 (resolve p (spine n S).2).1).deps := by
          simp only [spine] at hc
          cases p <;> first | exact absurd ⟨_, rfl⟩ hk | exact hc
        obtain ⟨c1, c2, c3⟩ := dynamic_cov (by omega) hc'
        refine ⟨c1, ?_, c3⟩
        intro x r hx
        obtain ⟨c, h0, -⟩ := spine_pure S hx
        refine h.emitted hs (d := d) (by omega) hx ?_
        rw [h0] at c2 ⊢
        exact c2
    obtain ⟨c1, c2, c3⟩ := key
    obtain ⟨hl, hrel⟩ := hn S F d fr X e e' hch h ht.1 (by omega) c1 c2 hs
    have hl2 : lenient (inp m) e fr (.member n p) = lenient (inp m') e' fr (.member n p) := by
      simp only [lenient, hl]
    refine ⟨hl2, ?_⟩
    rw [e2]
    simp only [eval]
    rw [← hl2]
    cases hv : lenient (inp m) e fr (.member n p) with
    | some v =>
      refine Rel.ok ?_
      simp only [lenient] at hv
      cases hb : lenient (inp m) e fr n with
      | none => rw [hb] at hv; cases hv
      | some b =>
        obtain ⟨v1, h1⟩ := lenient_ok (B := B) hs.base hb
        obtain ⟨v2, h2⟩ := lenient_ok (B := B) hs.base' (hl ▸ hb)
        have h3 : Sim (Same m m') (ext X (spine n S).2) e e' := by
          rcases hrel with ⟨x, e1, _⟩ | ⟨v, f, f', e1, e2, h3⟩
          · rw [h1] at e1; cases e1
          · rw [h1] at e1
            rw [h2] at e2
            cases e1; cases e2
            exact h3
        rw [hb] at hv
        have hs2 : (resolve p (spine n S).2).2 = (spine n S).2 := by
          cases p <;> first | rfl | cases hv
        rw [hs2]
        exact h3
    | none =>
      dsimp only
      rcases hrel with ⟨x, e1, e2⟩ | ⟨a, f, f', e1, e2, h3⟩ <;> simp only [e1, e2]
      · exact Rel.err
      · rcases hp.next h l1 s1 ht.2 (by omega) c3 h3 with ⟨x, e1, e2⟩ | ⟨b, f, f', e1, e2, h4⟩ <;> simp only [e1, e2]
        · exact Rel.err
        · cases opFetch a b with
          | error x => exact Rel.err
          | ok x => exact Rel.ok h4

theorem good_member {n p : Node} (hn : Good B m m' n) (hns : GoodSpine B m m' n) (hp : Good B m m' p) :
    Good B m m' (.member n p) := by
  intro S F d fr X e e' h ht hd hc hs
  by_cases hch : isChain n = true
  · have er : resolve (.member n p) S = ((spine (.member n p) S).1.finish (spine (.member n p) S).2, (spine (.member n p) S).2) := by
      simp only [resolve, if_pos hch, spine]
    rw [er] at hc ⊢
    obtain ⟨c1, c2⟩ := finish_cov (by simp only [nesting] at hd; omega) hc
    refine (spine_member hns hp S F d fr X e e' hch h ht hd c1 ?_ hs).2
    intro x r hx
    obtain ⟨c, h0, -⟩ := spine_pure S hx
    refine h.emitted hs (d := d) (by simp only [nesting] at hd; omega) hx ?_
    rw [h0] at c2 ⊢
    exact c2
  · simp only [resolve, if_neg hch] at hc ⊢
    simp only [tame, Bool.and_eq_true] at ht
    simp only [nesting] at hd
    obtain ⟨c1, c2⟩ := cov_append (by omega) hc
    obtain ⟨l1, s1, -⟩ := (resolve_keeps n).1 S ht.1 h.ok
    have hl : ∀ r e, lenient r e fr (.member n p) = none := fun r e => lenient_chain (by simpa [isChain] using hch)
    simp only [eval, hl]
    rcases hn S F d fr X e e' h ht.1 (by omega) c1 hs with ⟨x, e1, e2⟩ | ⟨a, f, f', e1, e2, h3⟩ <;> simp only [e1, e2]
    · exact Rel.err
    · rcases hp.next h l1 s1 ht.2 (by omega) c2 h3 with ⟨x, e1, e2⟩ | ⟨b, f, f', e1, e2, h4⟩ <;> simp only [e1, e2]
      · exact Rel.err
      · cases opFetch a b with
        | error x => exact Rel.err
        | ok x => exact Rel.ok h4

/-! ## Closures -/

theorem inner_ok {src : Option (List String)} {al : Option String} (h : SOk S) (ha : al ≠ some "$root") :
    SOk (innerScope S src al) := by
  have h1 : "$root" ∉ "$" :: S.locals := by
    simp only [List.mem_cons, not_or]
    exact ⟨by decide, h.locals⟩
  have hu : ∀ a, al = some a → SOk { S with locals := "$" :: S.locals, unresolved := a :: S.unresolved } := by
    intro a ea
    refine ⟨h1, h.bindings, ?_⟩
    rintro (hx | hx)
    · exact h.aliases (.inl hx)
    · rcases List.mem_cons.1 hx with hx | hx
      · exact ha (by rw [ea, hx])
      · exact h.aliases (.inr hx)
  unfold innerScope
  dsimp only
  split
  · split
    · exact hu _ rfl
    · refine ⟨h1, h.bindings, ?_⟩
      rintro (hx | hx)
      · rename_i a s hl
        simp only [aGet_aSet] at hx
        split at hx
        · rename_i e
          exact ha (by rw [e])
        · exact h.aliases (.inl hx)
      · exact h.aliases (.inr hx)
  · exact hu _ rfl
  · exact ⟨h1, h.bindings, h.aliases⟩

theorem inner_aliased {src : Option (List String)} {al : Option String} (v : String) :
    (innerScope S src al).aliased v ↔ S.aliased v ∨ al = some v := by
  have hu : ∀ a, Sc.aliased { S with locals := "$" :: S.locals, unresolved := a :: S.unresolved } v ↔ S.aliased v ∨ some a = some v := by
    intro a
    simp only [Sc.aliased, List.mem_cons, Option.some.injEq]
    constructor
    · rintro (h | h | h)
      · exact .inl (.inl h)
      · exact .inr h.symm
      · exact .inl (.inr h)
    · rintro ((h | h) | h)
      · exact .inl h
      · exact .inr (.inr h)
      · exact .inr (.inl h.symm)
  unfold innerScope
  dsimp only
  split
  · split
    · exact hu _
    · rename_i a s hl
      simp only [Sc.aliased, aGet_aSet, Option.some.injEq]
      by_cases hv : v = a
      · subst hv; simp
      · have : ¬ a = v := fun e => hv e.symm
        simp [hv, this]
  · exact hu _
  · simp [Sc.aliased]

theorem inner_local {src : Option (List String)} {al : Option String} {p : List String}
    (h : (innerScope S src al).isLocal p = true) : S.isLocal p = true ∨ ∃ r, p = "$" :: r := by
  have key : ∀ T : Sc, T.locals = "$" :: S.locals → T.bindings = S.bindings → T.isLocal p = true →
      S.isLocal p = true ∨ ∃ r, p = "$" :: r := by
    intro T h1 h2 h3
    cases p with
    | nil => cases h3
    | cons x r =>
      unfold Sc.isLocal at h3 ⊢
      rw [h1, h2] at h3
      simp only [Bool.or_eq_true, List.contains_iff_mem, List.mem_cons] at h3 ⊢
      rcases h3 with (h3 | h3) | h3
      · exact .inr ⟨r, by rw [h3]⟩
      · exact .inl (.inl h3)
      · exact .inl (.inr h3)
  refine key _ ?_ ?_ h
  all_goals
    unfold innerScope
    dsimp only
    split
    · split <;> rfl
    · rfl
    · rfl

/-- the context of the body of a closure -/
theorem Ctx.inner {src : Option (List String)} {al : Option String} {F' : List (String × List String)} (h : Ctx m m' S F fr X)
    (ha : al ≠ some "$root") (hF : ∀ v, (aGet F' v).isSome = true → S.aliased v ∨ al = some v) (x : Val) :
    Ctx m m' (innerScope S src al) F' ((al, x) :: fr) X := by
  have hfr : ∀ v, aliasOf ((al, x) :: fr) v = if al = some v then some x else aliasOf fr v := by
    intro v
    cases al with
    | none => simp [aliasOf]
    | some a => simp [aliasOf]
  refine ⟨?_, ?_, inner_ok h.ok ha, fun v hv => (inner_aliased v).2 (hF v hv), h.up, h.rep, ?_, h.dollar⟩
  · intro v hv
    rw [hfr]
    split
    · rfl
    · rename_i hn
      rcases (inner_aliased v).1 hv with hv | hv
      · exact h.frames v hv
      · exact absurd hv hn
  · rw [hfr, if_neg ha, h.root]
  · intro p hp
    rcases inner_local hp with hp | ⟨r, rfl⟩
    · exact h.loc p hp
    · exact h.up ["$"] r (by simp) h.dollar

/-- the collection of a closure when its path is a local or reported -/
theorem over_pure {o : Node} {p : List String} (h : Ctx m m' S F fr X) (ht : tame o = true) (hr : readPath o = some p)
    (hc : resolvePath F p ≠ [] → Agree (.obj m) (.obj m') (resolvePath F p)) (hs : Sim (Same m m') X e e') :
    Rel (Same m m') X (eval B (inp m) fr e o) (eval B (inp m') fr e' o) := by
  obtain ⟨x, r, rfl⟩ := readPath_ne hr
  refine eval_pure hr ht h.root ?_ hs
  by_cases ha : S.aliased x
  · exact h.path hs (.inl ha)
  · have e : resolvePath F (x :: r) = x :: r := by simp [resolvePath, h.free ha]
    rw [e] at hc
    exact h.path hs (.inr (.inr (hc (by simp))))

theorem good_closure {k : Clo} {o b : Node} {al : Option String} (ho : Good B m m' o) (hb : Good B m m' b) :
    Good B m m' (.closure k o al b) := by
  intro S F d fr X e e' h ht hd hc hs
  simp only [tame, Bool.and_eq_true, decide_eq_true_eq] at ht
  simp only [nesting] at hd
  -- the collection, and the reads of the body
  have key : Rel (Same m m') (ext X (resolve (.closure k o al b) S).2) (eval B (inp m) fr e o) (eval B (inp m') fr e' o) ∧
      ∃ src d' F', d' ≤ d + 1 ∧ (∀ v, (aGet F' v).isSome = true → S.aliased v ∨ al = some v) ∧
        Cov m m' d' F' (resolve b (innerScope S src al)).1 := by
    have iter : ∀ {p : List String} {inner : List Dep}, Cov m m' d F [.iter p al inner] →
        ∃ d' F', d' ≤ d + 1 ∧ (∀ v, (aGet F' v).isSome = true → S.aliased v ∨ al = some v) ∧ Cov m m' d' F' inner := by
      intro p inner hc
      refine ⟨d + 1, _, Nat.le_refl _, ?_, (cov_iter (by omega) hc).2⟩
      intro v hv
      cases al with
      | none => exact .inl (h.map v hv)
      | some a =>
        simp only [aGet_aSet] at hv
        split at hv
        · rename_i e; exact .inr (by rw [e])
        · exact .inl (h.map v hv)
    have plain : ∀ {inner : List Dep}, Cov m m' d F inner →
        ∃ d' F', d' ≤ d + 1 ∧ (∀ v, (aGet F' v).isSome = true → S.aliased v ∨ al = some v) ∧ Cov m m' d' F' inner :=
      fun hc => ⟨d, F, by omega, fun v hv => .inl (h.map v hv), hc⟩
    have over : Cov m m' d F (resolve o S).1 → Rel (Same m m') (ext X (resolve o S).2) (eval B (inp m) fr e o) (eval B (inp m') fr e' o) :=
      fun hc => ho S F d fr X e e' h ht.1.1 (by omega) hc hs
    simp only [resolve] at hc ⊢
    cases hr : readPath o with
    | some p =>
      rw [hr] at hc
      dsimp only at hc ⊢
      by_cases hl : S.isLocal p = true
      · rw [if_pos hl] at hc ⊢
        by_cases hl2 : (resolve o S).2.isLocal p = true
        · rw [if_pos hl2] at hc ⊢
          obtain ⟨c1, c2⟩ := cov_append (by omega) hc
          exact ⟨over c1, some p, plain c2⟩
        · rw [if_neg hl2] at hc ⊢
          obtain ⟨c1, c2⟩ := cov_append (by omega) hc
          exact ⟨over c1, some p, iter c2⟩
      · rw [if_neg hl] at hc ⊢
        exact ⟨h.sameRel (over_pure h ht.1.1 hr (cov_iter (by omega) hc).1 hs), some p, iter hc⟩
    | none =>
      rw [hr] at hc
      dsimp only at hc ⊢
      cases hsrc : sourcePath o with
      | none =>
        rw [hsrc] at hc
        obtain ⟨c1, c2⟩ := cov_append (by omega) hc
        exact ⟨over c1, none, plain c2⟩
      | some p =>
        rw [hsrc] at hc
        dsimp only at hc ⊢
        by_cases hl2 : (resolve o S).2.isLocal p = true
        · rw [if_pos hl2] at hc ⊢
          obtain ⟨c1, c2⟩ := cov_append (by omega) hc
          exact ⟨over c1, some p, plain c2⟩
        · rw [if_neg hl2] at hc ⊢
          obtain ⟨c1, c2⟩ := cov_append (by omega) hc
          exact ⟨over c1, some p, iter c2⟩
  obtain ⟨h1, src, d', F', hd', hF', hc'⟩ := key
  simp only [eval]
  rcases h1 with ⟨x, e1, e2⟩ | ⟨v, f, f', e1, e2, h3⟩ <;> simp only [e1, e2]
  · exact Rel.err
  · cases opBegin B.checks v with
    | error x => exact Rel.err
    | ok xs =>
      refine relLoop ?_ k xs h3
      intro x f f' hs
      exact (hb _ F' d' _ _ f f' ((h.weaken _).inner ht.2 hF' x) ht.1.2 (by omega) hc' hs).weaken fun p hp => .inl hp

/-! ## All expressions -/

theorem good (n : Node) : Good B m m' n ∧ GoodSpine B m m' n := by
  have noSpine : ∀ {n : Node}, isChain n = false → GoodSpine B m m' n := fun hn S F d fr X e e' h => by rw [hn] at h; cases h
  have const : ∀ {n : Node} {v : Val}, (∀ r fr e, eval B r fr e n = .ok (v, e)) → (∀ S, (resolve n S).2 = S) → Good B m m' n := by
    intro n v hv hr S F d fr X e e' h _ _ _ hs
    rw [hv, hv, hr]
    exact Rel.ok (h.same hs)
  refine Node.ind (P := fun n => Good B m m' n ∧ GoodSpine B m m' n) ?null ?bool ?num ?str ?tmpl ?pointer ?arr ?obj ?assigns ?ident ?paren ?root ?member ?slice
    ?interval ?cond ?unary ?binary ?call ?closure ?method ?error n
  case null => exact ⟨const (fun _ _ _ => rfl) fun _ => rfl, noSpine rfl⟩
  case bool => exact fun _ => ⟨const (fun _ _ _ => rfl) fun _ => rfl, noSpine rfl⟩
  case num => exact fun _ => ⟨const (fun _ _ _ => rfl) fun _ => rfl, noSpine rfl⟩
  case str => exact fun _ => ⟨const (fun _ _ _ => rfl) fun _ => rfl, noSpine rfl⟩
  case error => exact ⟨fun S F d fr X e e' h _ _ _ hs => Rel.err, noSpine rfl⟩
  case tmpl =>
    intro ps ih
    refine ⟨fun S F d fr X e e' h ht hd hc hs => ?_, noSpine rfl⟩
    simp only [eval]
    rcases tmpl_rel ps (fun n hn => (ih n hn).1) S F d fr X e e' h ht hd hc hs with ⟨x, e1, e2⟩ | ⟨v, f, f', e1, e2, hs⟩ <;>
      simp only [e1, e2]
    · exact Rel.err
    · cases opJoin B.checks (.arr v) (.str "") with
      | ok x => exact Rel.ok hs
      | error x => exact Rel.err
  case arr =>
    intro ps ih
    refine ⟨fun S F d fr X e e' h ht hd hc hs => ?_, noSpine rfl⟩
    simp only [eval]
    rcases list_rel ps (fun n hn => (ih n hn).1) S F d fr X e e' h ht hd hc hs with ⟨x, e1, e2⟩ | ⟨v, f, f', e1, e2, hs⟩ <;>
      simp only [e1, e2]
    · exact Rel.err
    · exact Rel.ok hs
  case call =>
    intro g ps ih
    refine ⟨fun S F d fr X e e' h ht hd hc hs => ?_, noSpine rfl⟩
    simp only [eval]
    rcases list_rel ps (fun n hn => (ih n hn).1) S F d fr X e e' h ht hd hc hs with ⟨x, e1, e2⟩ | ⟨v, f, f', e1, e2, hs⟩ <;>
      simp only [e1, e2]
    · exact Rel.err
    · cases B.fn g v with
      | ok x => exact Rel.ok hs
      | error x => exact Rel.err
  case obj =>
    intro ps ih
    refine ⟨fun S F d fr X e e' h ht hd hc hs => ?_, noSpine rfl⟩
    simp only [eval]
    rcases obj_rel ps (fun n hn => ⟨(ih n hn).1.1, (ih n hn).2.1⟩) S F d fr X e e' h ht hd hc hs with ⟨x, e1, e2⟩ | ⟨v, f, f', e1, e2, hs⟩ <;>
      simp only [e1, e2]
    · exact Rel.err
    · exact Rel.ok hs
  case pointer =>
    have hg : Good B m m' .pointer := by
      intro S F d fr X e e' h _ _ _ hs
      cases fr with
      | nil => exact Rel.err
      | cons a fr => exact Rel.ok (h.same hs)
    exact ⟨hg, fun S F d fr X e e' _ h ht hd hc _ hs => ⟨rfl, hg S F d fr X e e' h ht hd (fun p hp => by simp [resolve, walkDeps] at hp) hs⟩⟩
  case paren => exact fun n ih => ⟨fun S F d fr X e e' h ht hd hc hs => ih.1 S F d fr X e e' h ht hd hc hs, noSpine rfl⟩
  case ident =>
    intro v
    refine ⟨?_, ?_⟩
    · intro S F d fr X e e' h ht hd hc hs
      have h2 : (resolve (.ident v) S).2 = S := by
        simp only [resolve]
        split
        · rfl
        · split <;> rfl
      rw [h2]
      refine h.sameRel (eval_pure (q := [v]) rfl ht h.root ?_ hs)
      simp only [resolve] at hc
      by_cases ha : S.aliased v
      · exact h.path hs (.inl ha)
      · have h3 : S.unresolved.contains v = false := by
          simpa using fun hx => ha (.inr hx)
        have h4 : (aGet S.aliases v).isSome = false := by
          cases hx : (aGet S.aliases v).isSome with
          | false => rfl
          | true => exact absurd (.inl hx) ha
        rw [h3, h4] at hc
        simp only [Bool.false_eq_true, if_false, Bool.false_or] at hc
        cases hl : S.isLocal [v] with
        | true => exact h.localPath hs hl
        | false =>
          rw [hl] at hc
          exact h.path hs (.inr (.inr (cov_direct (d := d) (v := false) (by simp only [nesting] at hd; omega) (h.free ha) hc)))
    · intro S F d fr X e e' _ h ht hd _ hq hs
      exact ⟨lenient_pure (q := [v]) rfl ht h.root (hq v [] rfl), h.sameRel (eval_pure (q := [v]) rfl ht h.root (hq v [] rfl) hs)⟩
  case root =>
    refine ⟨?_, ?_⟩
    · intro S F d fr X e e' h ht hd hc hs
      refine h.sameRel (eval_pure (q := ["$root"]) rfl ht h.root ?_ hs)
      exact h.path hs (.inr (.inr (cov_direct (d := d) (v := false) (by simp only [nesting] at hd; omega) (h.free h.ok.aliases) hc)))
    · intro S F d fr X e e' _ h ht hd _ hq hs
      exact ⟨lenient_pure (q := ["$root"]) rfl ht h.root (hq "$root" [] rfl),
        h.sameRel (eval_pure (q := ["$root"]) rfl ht h.root (hq "$root" [] rfl) hs)⟩
  case member => exact fun n p hn hp => ⟨good_member hn.1 hn.2 hp.1, spine_member hn.2 hp.1⟩
  case closure => exact fun k o al b ho hb => ⟨good_closure ho.1 hb.1, noSpine rfl⟩
  case unary =>
    intro op n ih
    refine ⟨fun S F d fr X e e' h ht hd hc hs => ?_, noSpine rfl⟩
    simp only [eval]
    rcases ih.1 S F d fr X e e' h ht hd hc hs with ⟨x, e1, e2⟩ | ⟨a, f, f', e1, e2, hs⟩ <;> simp only [e1, e2]
    · exact Rel.err
    · split
      · exact Rel.ok hs
      · cases opNegate a with
        | ok x => exact Rel.ok hs
        | error x => exact Rel.err
      · cases opNot a with
        | ok x => exact Rel.ok hs
        | error x => exact Rel.err
      · exact Rel.err
  case method =>
    intro g t ps iht ih
    refine ⟨fun S F d fr X e e' h ht hd hc hs => ?_, noSpine rfl⟩
    simp only [tame, Bool.and_eq_true] at ht
    simp only [nesting] at hd
    simp only [resolve] at hc ⊢
    obtain ⟨c1, c2⟩ := cov_append (by omega) hc
    obtain ⟨l1, s1, -⟩ := (resolve_keeps t).1 S ht.1 h.ok
    simp only [eval]
    rcases iht.1 S F d fr X e e' h ht.1 (by omega) c1 hs with ⟨x, e1, e2⟩ | ⟨a, f, f', e1, e2, hs⟩ <;> simp only [e1, e2]
    · exact Rel.err
    · rcases ext_last (list_rel ps (fun n hn => (ih n hn).1) _ F d fr _ f f' (h.step l1 s1) ht.2 (by omega) c2 hs) with
        ⟨x, e1, e2⟩ | ⟨v, f, f', e1, e2, hs⟩ <;> simp only [e1, e2]
      · exact Rel.err
      · cases B.method g (a :: v) with
        | ok x => exact Rel.ok hs
        | error x => exact Rel.err
  case interval =>
    intro l r lb rb ihl ihr
    refine ⟨fun S F d fr X e e' h ht hd hc hs => ?_, noSpine rfl⟩
    simp only [tame, Bool.and_eq_true] at ht
    simp only [nesting] at hd
    simp only [resolve] at hc ⊢
    obtain ⟨c1, c2⟩ := cov_append (by omega) hc
    obtain ⟨l1, s1, -⟩ := (resolve_keeps l).1 S ht.1 h.ok
    simp only [eval]
    rcases ihl.1 S F d fr X e e' h ht.1 (by omega) c1 hs with ⟨x, e1, e2⟩ | ⟨a, f, f', e1, e2, hs⟩ <;> simp only [e1, e2]
    · exact Rel.err
    · rcases ihr.1.next h l1 s1 ht.2 (by omega) c2 hs with ⟨x, e1, e2⟩ | ⟨b, f, f', e1, e2, hs⟩ <;> simp only [e1, e2]
      · exact Rel.err
      · cases opInterval lb rb a b with
        | ok x => exact Rel.ok hs
        | error x => exact Rel.err
  case cond =>
    intro c t f ihc iht ihf
    refine ⟨fun S F d fr X e e' h ht hd hc hs => ?_, noSpine rfl⟩
    simp only [tame, Bool.and_eq_true] at ht
    simp only [nesting] at hd
    simp only [resolve] at hc ⊢
    obtain ⟨c12, c3⟩ := cov_append (by omega) hc
    obtain ⟨c1, c2⟩ := cov_append (by omega) c12
    obtain ⟨l1, s1, -⟩ := (resolve_keeps c).1 S ht.1.1 h.ok
    dsimp only at l1 s1
    have e1 := ((resolve_keeps t).1 _ ht.1.2.1 s1).2.2 ht.1.2.2
    dsimp only at e1
    rw [e1] at c3 ⊢
    have e2 := ((resolve_keeps f).1 _ ht.2.1 s1).2.2 ht.2.2
    dsimp only at e2
    rw [e2]
    simp only [eval]
    rcases ihc.1 S F d fr X e e' h ht.1.1 (by omega) c1 hs with ⟨x, e1, e2⟩ | ⟨a, g, g', e1, e2, hs⟩ <;> simp only [e1, e2]
    · exact Rel.err
    · have r1 := iht.1.next h l1 s1 ht.1.2.1 (by omega) c2 hs
      have r2 := ihf.1.next h l1 s1 ht.2.1 (by omega) c3 hs
      simp only [*] at r1 r2
      cases a with
      | bool b =>
        cases b
        · exact r2
        · exact r1
      | _ => exact Rel.err
  case slice =>
    intro n f t ihn ihf iht
    refine ⟨fun S F d fr X e e' h ht hd hc hs => ?_, noSpine rfl⟩
    simp only [tame, Bool.and_eq_true] at ht
    simp only [nesting] at hd
    simp only [resolve] at hc ⊢
    obtain ⟨c12, c3⟩ := cov_append (by omega) hc
    obtain ⟨c1, c2⟩ := cov_append (by omega) c12
    obtain ⟨l1, s1, -⟩ := (resolve_keeps n).1 S ht.1.1 h.ok
    dsimp only at l1 s1
    have e1 : (resolveOpt f (resolve n S).2).2 = (resolve n S).2 := by
      cases f with
      | none => rfl
      | some f => exact ((resolve_keeps f).1 _ ht.1.2.1 s1).2.2 ht.1.2.2
    rw [e1] at c3 ⊢
    have e2 : (resolveOpt t (resolve n S).2).2 = (resolve n S).2 := by
      cases t with
      | none => rfl
      | some f => exact ((resolve_keeps f).1 _ ht.2.1 s1).2.2 ht.2.2
    rw [e2]
    simp only [eval]
    rcases ihn.1 S F d fr X e e' h ht.1.1 (by omega) c1 hs with ⟨x, e1, e2⟩ | ⟨c, g, g', e1, e2, hs⟩ <;> simp only [e1, e2]
    · exact Rel.err
    · have h1 : Rel (Same m m') (ext X (resolve n S).2) (evalTo B (inp m) fr g c t) (evalTo B (inp m') fr g' c t) := by
        cases t with
        | none =>
          simp only [evalTo]
          cases opLen c with
          | error x => exact Rel.err
          | ok l =>
            dsimp only
            cases opSub B.num l (.num 1) with
            | ok x => exact Rel.ok hs
            | error x => exact Rel.err
        | some t =>
          have := (iht t rfl).1.next h l1 s1 ht.2.1 (by simp only [nestingO] at hd; omega) c3 hs
          rw [show (resolve t (resolve n S).2).2 = _ from e2] at this
          exact this
      rcases h1 with ⟨x, e1, e2⟩ | ⟨tv, g, g', e1, e2, hs⟩ <;> simp only [e1, e2]
      · exact Rel.err
      · have h2 : Rel (Same m m') (ext X (resolve n S).2) (evalOpt B (inp m) fr g (.num 0) f) (evalOpt B (inp m') fr g' (.num 0) f) := by
          cases f with
          | none => exact Rel.ok hs
          | some f =>
            have := (ihf f rfl).1.next h l1 s1 ht.1.2.1 (by simp only [nestingO] at hd; omega) c2 hs
            rw [show (resolve f (resolve n S).2).2 = _ from e1] at this
            exact this
        rcases h2 with ⟨x, e1, e2⟩ | ⟨fv, g, g', e1, e2, hs⟩ <;> simp only [e1, e2]
        · exact Rel.err
        · cases opSlice c tv fv with
          | ok x => exact Rel.ok hs
          | error x => exact Rel.err
  case binary =>
    intro op l r ihl ihr
    refine ⟨fun S F d fr X e e' h ht hd hc hs => ?_, noSpine rfl⟩
    simp only [tame, Bool.and_eq_true] at ht
    simp only [nesting] at hd
    simp only [resolve] at hc ⊢
    obtain ⟨c1, c2⟩ := cov_append (by omega) hc
    obtain ⟨l1, s1, -⟩ := (resolve_keeps l).1 S ht.1.1 h.ok
    dsimp only at l1 s1
    have h1 := ihl.1 S F d fr X e e' h ht.1.1 (by omega) c1 hs
    have h2 := fun f f' hs => ihr.1.next (e := f) (e' := f') h l1 s1 ht.1.2 (by omega) c2 hs
    cases hj : scJump op with
    | none =>
      rw [eval_binary_strict _ _ _ _ hj, eval_binary_strict _ _ _ _ hj]
      cases binMeaning B.num op with
      | none => exact Rel.err
      | some f =>
        dsimp only
        rcases h1 with ⟨e, e1, e2⟩ | ⟨a, e, e', e1, e2, hs⟩ <;> simp only [e1, e2]
        · exact Rel.err
        · rcases h2 _ _ hs with ⟨e, e1, e2⟩ | ⟨b, e, e', e1, e2, hs⟩ <;> simp only [e1, e2]
          · exact Rel.err
          · cases f a b with
            | ok x => exact Rel.ok hs
            | error x => exact Rel.err
    | some j =>
      have ha : asgFree r = true := by
        unfold scJump at hj
        split at hj <;> first | (simpa [lazyOp] using ht.2) | cases hj
      have e1 := ((resolve_keeps r).1 _ ht.1.2 s1).2.2 ha
      dsimp only at e1
      rw [e1] at h2 ⊢
      unfold scJump at hj
      split at hj <;> cases hj <;> simp only [eval] <;>
        (rcases h1 with ⟨e, e1, e2⟩ | ⟨a, e, e', e1, e2, h⟩ <;> simp only [e1, e2])
      all_goals first
        | exact Rel.err
        | (cases a with
          | bool b => cases b <;> first | exact Rel.ok h | exact h2 _ _ h
          | null => first | exact Rel.err | exact h2 _ _ h
          | _ => first | exact Rel.err | exact Rel.ok h)
  case assigns =>
    intro list out ih iho
    refine ⟨fun S F d fr X e e' h ht hd hc hs => ?_, noSpine rfl⟩
    simp only [tame, Bool.and_eq_true] at ht
    simp only [nesting] at hd
    simp only [resolve] at hc ⊢
    obtain ⟨c1, c2⟩ := cov_append (by omega) hc
    obtain ⟨l1, s1⟩ := asg_keeps list S ht.1 h.ok
    simp only [eval]
    rcases asg_rel list (fun n hn => ⟨(ih n hn).1.1, (ih n hn).2.1⟩) S F d fr X e e' (.obj []) h ht.1 (by omega) c1 hs with
      ⟨x, e1, e2⟩ | ⟨a, f, f', e1, e2, hs⟩ <;> simp only [e1, e2]
    · exact Rel.err
    · cases out with
      | none => exact Rel.ok hs
      | some n => exact (iho n rfl).1.next h l1 s1 ht.2 (by simp only [nestingO] at hd; omega) c2 hs
end

/-! ## Scopes with a local `$` -/

theorem keep_ne {r p : PRead} (h : p ∈ keep r) : p.path ≠ [] := by
  unfold keep at h
  split at h
  · cases h
  · rename_i hr
    rw [List.mem_singleton.1 h]
    simpa using hr

mutual
theorem walkDeps_ne (d : Nat) (F : List (String × List String)) : ∀ (xs : List Dep), ∀ p ∈ walkDeps d F xs, p.path ≠ []
  | [] => by intro p hp; simp [walkDeps] at hp
  | x :: xs => by
    intro p hp
    rw [walkDeps] at hp
    split at hp
    · cases hp
    · rcases List.mem_append.1 hp with h | h
      · exact walkDep_ne d F x p h
      · exact walkDeps_ne d F xs p h
theorem walkDep_ne (d : Nat) (F : List (String × List String)) : ∀ (x : Dep), ∀ p ∈ walkDep d F x, p.path ≠ []
  | .direct q v => by
    intro p hp
    rw [walkDep] at hp
    exact keep_ne hp
  | .unresolved q => by
    intro p hp
    rw [walkDep] at hp
    exact keep_ne hp
  | .iter q none reads => by
    intro p hp
    rw [walkDep] at hp
    rcases List.mem_append.1 hp with h | h
    · exact keep_ne h
    · exact walkDeps_ne (d + 1) F reads p h
  | .iter q (some a) reads => by
    intro p hp
    rw [walkDep] at hp
    rcases List.mem_append.1 hp with h | h
    · exact keep_ne h
    · exact walkDeps_ne (d + 1) _ reads p h
end

section
variable {R R' : Scope}

theorem lenient_root (h : R.materialize = R'.materialize) (fr : Frames) (e : Scope) (n : Node) :
    lenient R e fr n = lenient R' e fr n := by
  induction n using Node.ind with
  | root => exact congrArg some h
  | member n p ih _ => simp only [lenient]; rw [ih]
  | _ => rfl

/-- The scope an evaluation started with matters only as a whole. -/
theorem eval_root (h : R.materialize = R'.materialize) (n : Node) : ∀ fr e, eval B R fr e n = eval B R' fr e n := by
  have list : ∀ ps : List Node, (∀ n ∈ ps, ∀ fr e, eval B R fr e n = eval B R' fr e n) →
      ∀ fr e, evalList B R fr e ps = evalList B R' fr e ps := by
    intro ps
    induction ps with
    | nil => intro _ fr e; rfl
    | cons n ps ih =>
      intro hp fr e
      simp only [evalList, hp n (by simp), ih fun n hn => hp n (by simp [hn])]
  have tmpl : ∀ ps : List Node, (∀ n ∈ ps, ∀ fr e, eval B R fr e n = eval B R' fr e n) →
      ∀ fr e, evalTmpl B R fr e ps = evalTmpl B R' fr e ps := by
    intro ps
    induction ps with
    | nil => intro _ fr e; rfl
    | cons n ps ih =>
      intro hp fr e
      simp only [evalTmpl, hp n (by simp), ih fun n hn => hp n (by simp [hn])]
  have obj : ∀ ps : List (Node × Node), (∀ q ∈ ps, (∀ fr e, eval B R fr e q.1 = eval B R' fr e q.1) ∧
      ∀ fr e, eval B R fr e q.2 = eval B R' fr e q.2) → ∀ fr e, evalObj B R fr e ps = evalObj B R' fr e ps := by
    intro ps
    induction ps with
    | nil => intro _ fr e; rfl
    | cons q ps ih =>
      intro hp fr e
      obtain ⟨k, v⟩ := q
      simp only [evalObj, (hp (k, v) (by simp)).1, (hp (k, v) (by simp)).2, ih fun n hn => hp n (by simp [hn])]
  have asg : ∀ ps : List (Node × Node), (∀ q ∈ ps, (∀ fr e, eval B R fr e q.1 = eval B R' fr e q.1) ∧
      ∀ fr e, eval B R fr e q.2 = eval B R' fr e q.2) → ∀ fr e a, evalAsg B R fr e a ps = evalAsg B R' fr e a ps := by
    intro ps
    induction ps with
    | nil => intro _ fr e a; rfl
    | cons q ps ih =>
      intro hp fr e a
      obtain ⟨k, v⟩ := q
      simp only [evalAsg, (hp (k, v) (by simp)).1, (hp (k, v) (by simp)).2, ih fun n hn => hp n (by simp [hn])]
  have opt : ∀ o : Option Node, (∀ n, o = some n → ∀ fr e, eval B R fr e n = eval B R' fr e n) →
      (∀ fr e d, evalOpt B R fr e d o = evalOpt B R' fr e d o) ∧ ∀ fr e c, evalTo B R fr e c o = evalTo B R' fr e c o := by
    intro o ho
    cases o with
    | none => exact ⟨fun _ _ _ => rfl, fun _ _ _ => rfl⟩
    | some n => exact ⟨fun fr e _ => ho n rfl fr e, fun fr e _ => ho n rfl fr e⟩
  induction n using Node.ind with
  | null | bool | num | str | error | pointer | ident | root => intros; rfl
  | tmpl ps ih => intro fr e; simp only [eval, tmpl ps ih]
  | arr ps ih => intro fr e; simp only [eval, list ps ih]
  | obj ps ih => intro fr e; simp only [eval, obj ps ih]
  | assigns ps o ih iho => intro fr e; simp only [eval, asg ps ih, (opt o iho).1]
  | paren n ih => intro fr e; simp only [eval, ih]
  | member n p ih ihp => intro fr e; simp only [eval, ih, ihp, lenient_root h]
  | slice n f t ih ihf iht => intro fr e; simp only [eval, ih, (opt f ihf).1, (opt t iht).2]
  | interval l r a b ihl ihr => intro fr e; simp only [eval, ihl, ihr]
  | cond c t f ihc iht ihf => intro fr e; simp only [eval, ihc, iht, ihf]
  | unary op n ih => intro fr e; simp only [eval, ih]
  | binary op l r ihl ihr => intro fr e; simp only [eval, ihl, ihr]
  | call g ps ih => intro fr e; simp only [eval, list ps ih]
  | closure k o al b iho ihb => intro fr e; simp only [eval, iho, ihb]
  | method g t ps iht ih => intro fr e; simp only [eval, iht, list ps ih]
end

theorem aSet_absent {k : String} {v : Val} {m : List (String × Val)} (h : aGet m k = none) : aSet m k v = m ++ [(k, v)] := by
  simp [aSet, h]

/-- In scopes that agree on the reads asked for, and have the same local `$` if they have one, a tame expression gives the
same. -/
theorem planned_local {unary : Bool} {n : Node} {ls : List (String × Val)} (hls : ls = [] ∨ ∃ v, ls = [("$", v)])
    (h0 : ls = [] ∨ aGet m "$" = none ∧ aGet m' "$" = none) (ht : tame n = true) (hd : nesting n < 32)
    (hD : Agree (.obj m) (.obj m') ["$"]) (hr : ∀ p ∈ planned unary n, Agree (.obj m) (.obj m') p) :
    evaluate B ⟨.obj m, ls⟩ n = evaluate B ⟨.obj m', ls⟩ n := by
  -- the environments with the local
  obtain ⟨M, M', hM, hM', hget, hget', hAg, hwhole⟩ : ∃ M M', (⟨.obj m, ls⟩ : Scope).materialize = .obj M ∧
      (⟨.obj m', ls⟩ : Scope).materialize = .obj M' ∧ (∀ k, (⟨.obj m, ls⟩ : Scope).get k = aGet M k) ∧
      (∀ k, (⟨.obj m', ls⟩ : Scope).get k = aGet M' k) ∧
      (∀ p, p ≠ [] → Agree (.obj m) (.obj m') p → Agree (.obj M) (.obj M') p) ∧ (Val.obj M = Val.obj M' → m = m') := by
    rcases hls with rfl | ⟨v, rfl⟩
    · exact ⟨m, m', rfl, rfl, fun _ => rfl, fun _ => rfl, fun _ _ h => h, fun h => by injection h⟩
    · obtain ⟨h0, h0'⟩ := h0.resolve_left (by simp)
      refine ⟨aSet m "$" v, aSet m' "$" v, rfl, rfl, fun k => ?_, fun k => ?_, ?_, fun h => ?_⟩
      · rw [aGet_aSet]
        simp only [Scope.get, Scope.local_, aGet_cons]
        by_cases hk : k = "$"
        · simp [hk]
        · have : ¬ "$" = k := fun h => hk h.symm
          simp [hk, this, aGet]
      · rw [aGet_aSet]
        simp only [Scope.get, Scope.local_, aGet_cons]
        by_cases hk : k = "$"
        · simp [hk]
        · have : ¬ "$" = k := fun h => hk h.symm
          simp [hk, this, aGet]
      · have plain : ∀ k r, readAt (.obj m) (k :: r) = readAt (.obj m') (k :: r) →
            readAt (.obj (aSet m "$" v)) (k :: r) = readAt (.obj (aSet m' "$" v)) (k :: r) := by
          intro k r h
          simp only [readAt, aGet_aSet] at h ⊢
          by_cases hk : k = "$"
          · simp [hk]
          · simpa [hk] using h
        intro p hp h
        cases p with
        | nil => exact absurd rfl hp
        | cons k r =>
          by_cases hk : k = "$root"
          · subst hk
            cases r with
            | nil =>
              have h : Val.obj m = Val.obj m' := h
              show Val.obj _ = Val.obj _
              injection h with h
              rw [h]
            | cons j t => exact plain j t h
          · rw [agree_plain hk] at h ⊢
            exact plain k r h
      · injection h with h
        rw [aSet_absent h0, aSet_absent h0'] at h
        exact List.append_cancel_right h
  let X : List String → Prop := fun p => ∃ x r, p = x :: r ∧ x ≠ "$root" ∧ Agree (.obj M) (.obj M') p
  let S : Sc := { locals := if unary then ["$"] else [] }
  have hX : X ["$"] := ⟨"$", [], rfl, by decide, hAg _ (by simp) hD⟩
  have up : ∀ p q, p ≠ [] → X p → X (p ++ q) := by
    rintro p q hp ⟨x, r, rfl, hx, h⟩
    exact ⟨x, r ++ q, rfl, hx, h.ext q (by simp)⟩
  have hctx : Ctx M M' S [] [] X := by
    refine ⟨?_, rfl, ⟨?_, fun b hb => by simp [S] at hb, ?_⟩, fun v hv => by simp [aGet] at hv, up, fun x r hx h => ⟨x, r, rfl, hx, h⟩, ?_, hX⟩
    · rintro v (hv | hv)
      · simp [S, aGet] at hv
      · simp [S] at hv
    · cases unary <;> simp [S]
    · rintro (hv | hv)
      · simp [S, aGet] at hv
      · simp [S] at hv
    · intro p hp
      cases p with
      | nil => cases hp
      | cons x r =>
        have : x = "$" := by
          cases unary
          · simp [S, Sc.isLocal] at hp
          · simpa [S, Sc.isLocal] using hp
        subst this
        exact up ["$"] r (by simp) hX
  have hnd : (aKeys ls).Nodup := by rcases hls with rfl | ⟨v, rfl⟩ <;> simp [aKeys]
  have hsim : Sim (Same M M') X ⟨.obj m, ls⟩ ⟨.obj m', ls⟩ := by
    refine ⟨⟨m, rfl⟩, ⟨m', rfl⟩, hnd, hnd, fun h => by rw [hwhole h], ?_⟩
    rintro p - ⟨x, r, rfl, hx, h⟩
    have h := (agree_plain hx).1 h
    simp only [rd, hget, hget']
    exact h
  have hcov : Cov M M' 0 [] (resolve n S).1 := by
    intro p hp hu
    have hk : p.path ≠ [] := walkDeps_ne _ _ _ p hp
    exact hAg _ hk (hr p.path (List.mem_map.2 ⟨p, List.mem_filter.2 ⟨hp, by simp [hu]⟩, rfl⟩))
  have := (good (B := B) n).1 S [] 0 [] X _ _ hctx ht (by simpa [maxDepth] using hd) hcov hsim
  unfold evaluate
  rw [eval_root (R' := inp M) hM, eval_root (R' := inp M') hM']
  rcases this with ⟨x, e1, e2⟩ | ⟨v, f, f', e1, e2, -⟩ <;> rw [e1, e2] <;> rfl

/-- A tame expression gives the same value in environments that agree on the reads asked for, and on `$`. -/
theorem planned_sufficient {unary : Bool} {n : Node} (ht : tame n = true) (hd : nesting n < 32)
    (hD : Agree (.obj m) (.obj m') ["$"]) (hr : ∀ p ∈ planned unary n, Agree (.obj m) (.obj m') p) :
    evaluate B ⟨.obj m, []⟩ n = evaluate B ⟨.obj m', []⟩ n := planned_local (.inl rfl) (.inl rfl) ht hd hD hr

end Zen.Reads
