import Verif.Engine.Engine
/- Lemmas about the engine: fuel, and how results depend on the handlers. -/
namespace Zen
open Graph Walker

theorem evalGraph_mono {C maxDepth iteration ctx parent fuel g r}
    (h : evalGraph C maxDepth iteration ctx parent fuel g = some r) {k : Nat} (hk : fuel ≤ k) :
    evalGraph C maxDepth iteration ctx parent k g = some r := by
  unfold evalGraph at h ⊢
  split at h
  · exact h
  · split at h
    · rename_i hd; rw [if_pos hd]; exact h
    · rename_i hd; rw [if_neg hd]; exact evalLoop_mono fuel h k hk

theorem evalGraph_det {C maxDepth iteration ctx parent fuel fuel' g r r'}
    (h : evalGraph C maxDepth iteration ctx parent fuel g = some r)
    (h' : evalGraph C maxDepth iteration ctx parent fuel' g = some r') : r = r' := by
  have h1 := evalGraph_mono h (Nat.le_max_left fuel fuel')
  have h2 := evalGraph_mono h' (Nat.le_max_right fuel fuel')
  rw [h1] at h2
  exact Option.some.inj h2

theorem evalGraphT_of {C maxDepth iteration ctx parent fuel g r}
    (h : evalGraph C maxDepth iteration ctx parent fuel g = some r) :
    evalGraphT C maxDepth iteration ctx parent g = r := by
  unfold evalGraphT
  have hex : ∃ r fuel, evalGraph C maxDepth iteration ctx parent fuel g = some r := ⟨r, fuel, h⟩
  rw [dif_pos hex]
  obtain ⟨f, hf⟩ := Classical.choose_spec hex
  exact evalGraph_det hf h

theorem evalGraph_some {g : Graph} (hw : g.Wf) (C : GCfg) (maxDepth iteration : Nat) (ctx : Val) (parent : Option Val) :
    ∃ fuel r, evalGraph C maxDepth iteration ctx parent fuel g = some r := by
  unfold evalGraph
  cases hv : g.validate with
  | error e => exact ⟨0, _, rfl⟩
  | ok u =>
    dsimp only
    by_cases hd : iteration ≥ maxDepth
    · exact ⟨0, _, if_pos hd⟩
    · obtain ⟨rank, hr⟩ := validate_rank hv
      obtain ⟨f, r, hf⟩ := evalLoop_some (C := C) (ctx := ctx) (parent := parent) hr (switchCount g) g.nodes.length
        (Inv.new hw) (LogInv.new C g ctx parent) (by omega) (by omega)
      exact ⟨f, r, by rw [if_neg hd]; exact hf⟩

theorem evalGraphT_spec {g : Graph} (hw : g.Wf) (C : GCfg) (maxDepth iteration : Nat) (ctx : Val) (parent : Option Val) :
    ∃ fuel, evalGraph C maxDepth iteration ctx parent fuel g = some (evalGraphT C maxDepth iteration ctx parent g) := by
  obtain ⟨f, r, hf⟩ := evalGraph_some hw C maxDepth iteration ctx parent
  exact ⟨f, by rw [evalGraphT_of hf]; exact hf⟩

/-- the walker does not look at the handlers -/
theorem nextGuarded_handle (C : GCfg) (h : GNode → Val → Option Val → Except String Val) (fuel : Nat) :
    ∀ g w, Walker.nextGuarded { C with handle := h } fuel g w = Walker.nextGuarded C fuel g w := by
  have hnext : ∀ fuel g w, Walker.next { C with handle := h } fuel g w = Walker.next C fuel g w := by
    intro fuel
    induction fuel with
    | zero => intro g w; rfl
    | succ fuel ih =>
      intro g w
      rw [Walker.next, Walker.next]
      have : step { C with handle := h } g w = step C g w := rfl
      rw [this]
      cases step C g w with
      | stop => rfl
      | visit => rfl
      | again g' w' => exact ih g' w'
  intro g w
  unfold nextGuarded
  rw [hnext]

/-- handlers that succeed at least where others do, with the same results, give the same successes -/
theorem evalLoop_handle {C : GCfg} {h : GNode → Val → Option Val → Except String Val}
    (hle : ∀ n v ns out, C.handle n v ns = .ok out → h n v ns = .ok out) {ctx : Val} {parent : Option Val} :
    ∀ (fuel : Nat) {g w log r}, evalLoop C ctx parent fuel g w log = some (.ok r) →
      evalLoop { C with handle := h } ctx parent fuel g w log = some (.ok r) := by
  intro fuel
  induction fuel with
  | zero => intro g w log r hh; cases hh
  | succ fuel ih =>
    intro g w log r hh
    rw [evalLoop] at hh ⊢
    rw [nextGuarded_handle]
    cases hn : w.nextGuarded C fuel g with
    | none => rw [hn] at hh; cases hh
    | some x =>
      rw [hn] at hh
      obtain ⟨r1, g1, w1⟩ := x
      cases r1 with
      | none => exact hh
      | some n =>
        dsimp only at hh ⊢
        split at hh
        · rename_i hs; rw [if_pos hs]; exact ih hh
        · rename_i hs; rw [if_neg hs]
          cases hx : g1.node? n with
          | none => rw [hx] at hh; cases hh
          | some x =>
            rw [hx] at hh
            dsimp only at hh ⊢
            have hctx : w1.nodesContext { C with handle := h } = w1.nodesContext C := rfl
            rw [hctx]
            cases hres : nodeResult C ctx x (w1.incoming g1 n) (w1.nodesContext C) with
            | error m => rw [hres] at hh; cases hh
            | ok out =>
              have hres' : nodeResult { C with handle := h } ctx x (w1.incoming g1 n) (w1.nodesContext C) = .ok out := by
                unfold nodeResult at hres ⊢
                cases hk : x.kind <;> rw [hk] at hres <;> first | exact hres | exact hle _ _ _ _ hres
              rw [hres] at hh
              rw [hres']
              dsimp only at hh ⊢
              split at hh
              · rename_i ho; rw [if_pos ho]; exact hh
              · rename_i ho; rw [if_neg ho]; exact ih hh

theorem runLoop_le {f f' : Val → Except String Val} (hle : ∀ v out, f v = .ok out → f' v = .ok out) (p : Bool) :
    ∀ (xs : List Val) {outs : List Val}, (runLoop (plain f) p () xs).1 = .ok outs →
      (runLoop (plain f') p () xs).1 = .ok outs := by
  intro xs
  induction xs with
  | nil => intro outs h; exact h
  | cons x xs ih =>
    intro outs h
    simp only [runLoop, plain] at h ⊢
    cases hf : f x with
    | error e => rw [hf] at h; cases h
    | ok o =>
      rw [hf] at h
      rw [hle x o hf]
      dsimp only at h ⊢
      cases hr : runLoop (plain f) p () xs with
      | mk r s =>
        rw [hr] at h
        cases r with
        | error e => cases h
        | ok os =>
          have h2 := ih (outs := os) (by rw [hr])
          cases hr2 : runLoop (plain f') p () xs with
          | mk r2 s2 =>
            rw [hr2] at h2
            cases r2 with
            | error e => cases h2
            | ok os2 =>
              injection h2 with h2
              subst h2
              exact h

theorem runWith_le {f f' : Val → Except String Val} (hle : ∀ v out, f v = .ok out → f' v = .ok out) (a : Attrs)
    (input : Val) (sel : String → Except String Val) {out : Val}
    (h : (runWith a input sel (plain f) ()).1 = .ok out) : (runWith a input sel (plain f') ()).1 = .ok out := by
  unfold runWith at h ⊢
  cases hs : selectInput a input sel with
  | error e => rw [hs] at h; cases h
  | ok v =>
    rw [hs] at h
    dsimp only at h ⊢
    cases hl : a.loop with
    | false =>
      rw [hl] at h
      simp only [Bool.false_eq_true, if_false, plain] at h ⊢
      cases hf : f v with
      | error e => rw [hf] at h; cases h
      | ok o => rw [hf] at h; rw [hle v o hf]; exact h
    | true =>
      rw [hl] at h
      simp only [if_true] at h ⊢
      cases v with
      | arr xs =>
        dsimp only at h ⊢
        cases hr : runLoop (plain f) a.passThrough () xs with
        | mk r s =>
          rw [hr] at h
          cases r with
          | error e => cases h
          | ok os =>
            have h2 := runLoop_le hle a.passThrough xs (outs := os) (by rw [hr])
            cases hr2 : runLoop (plain f') a.passThrough () xs with
            | mk r2 s2 =>
              rw [hr2] at h2
              cases r2 with
              | error e => cases h2
              | ok os2 => injection h2 with h2; subst h2; exact h
      | _ => cases h

theorem handleNode_le {E : Env} {sub sub' : String → Val → Option Val → Except String Val}
    (hle : ∀ k v ns out, sub k v ns = .ok out → sub' k v ns = .ok out) (n : GNode) (v : Val) (ns : Option Val) (out : Val)
    (h : handleNode E sub n v ns = .ok out) : handleNode E sub' n v ns = .ok out := by
  unfold handleNode at h ⊢
  cases hk : n.kind <;> rw [hk] at h <;> first | exact h | exact runWith_le (fun v out => hle _ v ns out) _ _ _ h

end Zen
