import Verif.Analysis.ReadsScope
/-
Plain paths: how they are evaluated, and what is reported about them.
-/
namespace Zen.Reads
open Zen

variable {B : Builtins} {m m' : List (String × Val)}

/-- the input of a run -/
abbrev inp (m : List (String × Val)) : Scope := ⟨.obj m, []⟩

theorem readPath_member {n p : Node} {q : List String} (h : readPath (.member n p) = some q) :
    ∃ k q', p = .str k ∧ readPath n = some q' ∧ q = q' ++ [k] := by
  cases p with
  | str k =>
    simp only [readPath, Option.map_eq_some_iff] at h
    obtain ⟨q', h1, h2⟩ := h
    exact ⟨k, q', rfl, h1, h2.symm⟩
  | _ => simp [readPath] at h

theorem readPath_ne : ∀ {n : Node} {q : List String}, readPath n = some q → ∃ x r, q = x :: r := by
  intro n q h
  cases n with
  | ident v => simp only [readPath, Option.some.injEq] at h; exact ⟨v, [], h.symm⟩
  | root => simp only [readPath, Option.some.injEq] at h; exact ⟨_, [], h.symm⟩
  | member n p =>
    obtain ⟨k, q', -, -, rfl⟩ := readPath_member h
    cases q' with
    | nil => exact ⟨k, [], rfl⟩
    | cons x r => exact ⟨x, r ++ [k], rfl⟩
  | _ => simp [readPath] at h

theorem readPath_chain {n : Node} : ∀ {q : List String}, readPath n = some q → isChain n = true := by
  induction n using Node.ind with
  | member n p ih _ =>
    intro q h
    obtain ⟨k, q', -, h', -⟩ := readPath_member h
    exact ih h'
  | ident v => intro _ _; rfl
  | root => intro _ _; rfl
  | _ => intro q h; simp [readPath] at h

theorem lenient_path {e : Scope} {fr : Frames} {n : Node} : ∀ {x : String} {r : List String},
    readPath n = some (x :: r) → tame n = true →
    lenient (inp m) e fr n = if x = "$root" then some (readAt (.obj m) r) else match aliasOf fr x with
      | some _ => none
      | none => some (rd e (x :: r)) := by
  induction n using Node.ind with
  | ident v =>
    intro x r h ht
    simp only [readPath, Option.some.injEq, List.cons.injEq] at h
    obtain ⟨rfl, rfl⟩ := h
    simp only [tame, decide_eq_true_eq] at ht
    rw [if_neg ht]
    simp only [lenient]
    cases aliasOf fr v <;> rfl
  | root =>
    intro x r h _
    simp only [readPath, Option.some.injEq, List.cons.injEq] at h
    obtain ⟨rfl, rfl⟩ := h
    rfl
  | member n p ih _ =>
    intro x r h ht
    obtain ⟨k, q', rfl, h', he⟩ := readPath_member h
    simp only [tame, Bool.and_eq_true] at ht
    obtain ⟨y, t, rfl⟩ := readPath_ne h'
    rw [List.cons_append, List.cons.injEq] at he
    obtain ⟨rfl, rfl⟩ := he
    simp only [lenient, ih h' ht.1]
    have hf : ∀ v, fastProp k (readAt v t) = readAt v (t ++ [k]) := by
      intro v
      rw [readAt_append, readAt_fastProp]
      rfl
    by_cases hx : x = "$root"
    · simp only [if_pos hx, hf]
    · simp only [if_neg hx]
      cases aliasOf fr x with
      | some _ => rfl
      | none => simp only [rd, hf]
  | _ => intro x r h; simp [readPath] at h

theorem lenient_chain {root e : Scope} {fr : Frames} {n : Node} (h : isChain n = false) : lenient root e fr n = none := by
  induction n using Node.ind with
  | member n p ih _ =>
    simp only [lenient]
    rw [ih h]
  | ident v => cases h
  | root => cases h
  | _ => rfl

theorem fetch_obj {e : Scope} (hb : ∃ m, e.base = .obj m) (v : String) : opFetchEnv e v = .ok ((e.get v).getD .null) := by
  obtain ⟨m, hb⟩ := hb
  unfold opFetchEnv Scope.get
  cases e.local_ v with
  | some x => rfl
  | none => dsimp only; rw [hb]

theorem lenient_ok {root e : Scope} {fr : Frames} {n : Node} {b : Val} (hb : ∃ m, e.base = .obj m)
    (h : lenient root e fr n = some b) : ∃ v, eval B root fr e n = .ok (v, e) := by
  cases n with
  | root => exact ⟨_, rfl⟩
  | ident v =>
    simp only [eval]
    cases aliasOf fr v with
    | some x => exact ⟨_, rfl⟩
    | none => simp only [fetch_obj hb]; exact ⟨_, rfl⟩
  | member n p => simp only [eval, h]; exact ⟨_, rfl⟩
  | _ => cases h

/-- the two runs agree on a path, or its first name is bound by a closure -/
def PathOk (m m' : List (String × Val)) (fr : Frames) (e e' : Scope) : List String → Prop
  | [] => False
  | x :: r => (aliasOf fr x).isSome = true ∨
    (x = "$root" ∧ Agree (.obj m) (.obj m') (x :: r)) ∨ (x ≠ "$root" ∧ rd e (x :: r) = rd e' (x :: r))

/-- the runs started with the same environment -/
abbrev Same (m m' : List (String × Val)) : Prop := Val.obj m = Val.obj m'

theorem lenient_pure {fr : Frames} {e e' : Scope} {n : Node} {q : List String} (h : readPath n = some q)
    (ht : tame n = true) (hr : aliasOf fr "$root" = none) (hp : PathOk m m' fr e e' q) : lenient (inp m) e fr n = lenient (inp m') e' fr n := by
  obtain ⟨x, r, rfl⟩ := readPath_ne h
  rw [lenient_path h ht, lenient_path h ht]
  rcases hp with hp | ⟨rfl, hp⟩ | ⟨hx, hp⟩
  · have : x ≠ "$root" := fun e => by rw [e, hr] at hp; cases hp
    rw [if_neg this, if_neg this]
    cases ha : aliasOf fr x with
    | none => rw [ha] at hp; cases hp
    | some _ => rfl
  · rw [if_pos rfl, if_pos rfl]
    exact congrArg some hp
  · rw [if_neg hx, if_neg hx, hp]

theorem eval_pure {X : List String → Prop} {fr : Frames} {e e' : Scope} {n : Node} : ∀ {q : List String}, readPath n = some q →
    tame n = true → aliasOf fr "$root" = none → PathOk m m' fr e e' q → Sim (Same m m') X e e' →
    Rel (Same m m') X (eval B (inp m) fr e n) (eval B (inp m') fr e' n) := by
  induction n using Node.ind with
  | ident v =>
    intro q h ht _ hp hs
    simp only [readPath, Option.some.injEq] at h
    subst h
    simp only [eval]
    cases ha : aliasOf fr v with
    | some x => exact Rel.ok hs
    | none =>
      simp only [tame, decide_eq_true_eq] at ht
      rcases hp with hp | ⟨hx, hp⟩ | ⟨hx, hp⟩
      · rw [ha] at hp; cases hp
      · exact absurd hx ht
      · simp only [fetch_obj hs.base, fetch_obj hs.base']
        simp only [rd, readAt] at hp
        rw [hp]
        exact Rel.ok hs
  | root =>
    intro q h ht hr hp hs
    simp only [readPath, Option.some.injEq] at h
    subst h
    rcases hp with hp | ⟨hx, hp⟩ | ⟨hx, hp⟩
    · rw [hr] at hp; cases hp
    · have hw := hs.whole hp
      subst hw
      exact Rel.ok hs
    · exact absurd rfl hx
  | member n p ih _ =>
    intro q h ht hr hp hs
    have hl := lenient_pure h ht hr hp
    obtain ⟨k, q', rfl, h', rfl⟩ := readPath_member h
    simp only [eval]
    rw [← hl]
    cases hv : lenient (inp m) e fr (.member n (.str k)) with
    | some v => exact Rel.ok hs
    | none =>
      dsimp only
      simp only [tame, Bool.and_eq_true] at ht
      obtain ⟨x, r, rfl⟩ := readPath_ne h'
      have ha : (aliasOf fr x).isSome = true := by
        rw [lenient_path (x := x) (r := r ++ [k]) h (by simpa [tame] using ht.1)] at hv
        split at hv
        · cases hv
        · cases hx : aliasOf fr x with
          | none => rw [hx] at hv; cases hv
          | some _ => rfl
      rcases ih h' ht.1 hr (.inl ha) hs with ⟨x, e1, e2⟩ | ⟨v, e1, e1', h1, h2, h3⟩
      · rw [e1, e2]; exact Rel.err
      · rw [h1, h2]
        dsimp only
        cases opFetch v (.str k) with
        | error x => exact Rel.err
        | ok x => exact Rel.ok h3
  | _ => intro q h; simp [readPath] at h

/-! ## Reported reads -/

/-- The two environments agree on what is asked for. -/
def Cov (m m' : List (String × Val)) (d : Nat) (F : List (String × List String)) (deps : List Dep) : Prop :=
  ∀ p ∈ walkDeps d F deps, p.unresolved = false → Agree (.obj m) (.obj m') p.path

theorem walkDeps_append {d : Nat} (hd : d < maxDepth) (F : List (String × List String)) (a b : List Dep) :
    walkDeps d F (a ++ b) = walkDeps d F a ++ walkDeps d F b := by
  induction a with
  | nil => simp [walkDeps]
  | cons x xs ih =>
    have : ¬ maxDepth ≤ d := by omega
    simp only [List.cons_append, walkDeps, if_neg this, ih, List.append_assoc]

theorem cov_append {d : Nat} (hd : d < maxDepth) {F : List (String × List String)} {a b : List Dep}
    (h : Cov m m' d F (a ++ b)) : Cov m m' d F a ∧ Cov m m' d F b := by
  unfold Cov at h ⊢
  rw [walkDeps_append hd] at h
  exact ⟨fun p hp => h p (List.mem_append.2 (.inl hp)), fun p hp => h p (List.mem_append.2 (.inr hp))⟩

theorem walkDeps_one {d : Nat} (hd : d < maxDepth) (F : List (String × List String)) (x : Dep) :
    walkDeps d F [x] = walkDep d F x := by
  have : ¬ maxDepth ≤ d := by omega
  simp [walkDeps, this]

theorem cov_path {F : List (String × List String)} {x : String} {r : List String} {a u : Bool} (hx : aGet F x = none) :
    (⟨x :: r, a, u⟩ : PRead) ∈ keep ⟨resolvePath F (x :: r), a, u⟩ := by
  simp [resolvePath, hx, keep]

theorem cov_direct {d : Nat} (hd : d < maxDepth) {F : List (String × List String)} {x : String} {r : List String} {v : Bool}
    (hx : aGet F x = none) (h : Cov m m' d F [.direct (x :: r) v]) : Agree (.obj m) (.obj m') (x :: r) := by
  refine h ⟨x :: r, throughAlias F (x :: r) || v, false⟩ ?_ rfl
  rw [walkDeps_one hd, walkDep]
  exact cov_path hx

theorem cov_iter {d : Nat} (hd : d < maxDepth) {F : List (String × List String)} {p : List String} {al : Option String}
    {reads : List Dep} (h : Cov m m' d F [.iter p al reads]) :
    (resolvePath F p ≠ [] → Agree (.obj m) (.obj m') (resolvePath F p)) ∧
      Cov m m' (d + 1) (match al with | some a => aSet F a (resolvePath F p) | none => F) reads := by
  unfold Cov at h
  rw [walkDeps_one hd] at h
  have hk : resolvePath F p ≠ [] →
      (⟨resolvePath F p, throughAlias F p, false⟩ : PRead) ∈ keep ⟨resolvePath F p, throughAlias F p, false⟩ := by
    intro hne
    simp [keep, hne]
  cases al <;> (simp only [walkDep] at h; exact ⟨fun hne => h _ (List.mem_append.2 (.inl (hk hne))) rfl, fun q hq => h q (List.mem_append.2 (.inr hq))⟩)

/-! ## The context of an expression -/

/-- `X` with what is local -/
def ext (X : List String → Prop) (S : Sc) : List String → Prop := fun p => X p ∨ S.isLocal p = true

/-- What holds where an expression is analysed and evaluated. -/
structure Ctx (m m' : List (String × Val)) (S : Sc) (F : List (String × List String)) (fr : Frames) (X : List String → Prop) :
    Prop where
  frames : ∀ v, S.aliased v → (aliasOf fr v).isSome = true
  root : aliasOf fr "$root" = none
  ok : SOk S
  map : ∀ v, (aGet F v).isSome = true → S.aliased v
  up : ∀ p q, p ≠ [] → X p → X (p ++ q)
  rep : ∀ x r, x ≠ "$root" → Agree (.obj m) (.obj m') (x :: r) → X (x :: r)
  loc : ∀ p, S.isLocal p = true → X p
  dollar : X ["$"]

theorem Ctx.step {S S1 : Sc} {F : List (String × List String)} {fr : Frames} {X : List String → Prop}
    (h : Ctx m m' S F fr X) (hl : Le S S1) (hs : SOk S1) : Ctx m m' S1 F fr (ext X S1) := by
  have ha : ∀ v, S1.aliased v ↔ S.aliased v := fun v => by unfold Sc.aliased; rw [hl.aliases, hl.unresolved]
  exact ⟨fun v hv => h.frames v ((ha v).1 hv), h.root, hs, fun v hv => (ha v).2 (h.map v hv),
    fun p q hp hx => hx.elim (fun hx => .inl (h.up p q hp hx)) fun hx => .inr (isLocal_ext q hx),
    fun x r hx hr => .inl (h.rep x r hx hr), fun p hp => .inr hp, .inl h.dollar⟩

theorem Ctx.weaken {S : Sc} {F : List (String × List String)} {fr : Frames} {X : List String → Prop}
    (h : Ctx m m' S F fr X) (S1 : Sc) : Ctx m m' S F fr (ext X S1) :=
  ⟨h.frames, h.root, h.ok, h.map, fun p q hp hx => hx.elim (fun hx => .inl (h.up p q hp hx)) fun hx => .inr (isLocal_ext q hx),
    fun x r hx hr => .inl (h.rep x r hx hr), fun p hp => .inl (h.loc p hp), .inl h.dollar⟩

/-- A path that is reported or local is agreed upon. -/
theorem Ctx.path {S : Sc} {F : List (String × List String)} {fr : Frames} {X : List String → Prop} {e e' : Scope}
    (h : Ctx m m' S F fr X) (hs : Sim (Same m m') X e e') {x : String} {r : List String}
    (hc : S.aliased x ∨ X (x :: r) ∧ x ≠ "$root" ∨ Agree (.obj m) (.obj m') (x :: r)) : PathOk m m' fr e e' (x :: r) := by
  rcases hc with hc | ⟨hc, hx⟩ | hc
  · exact .inl (h.frames x hc)
  · exact .inr (.inr ⟨hx, hs.agree _ (by simp) hc⟩)
  · by_cases hx : x = "$root"
    · exact .inr (.inl ⟨hx, hc⟩)
    · exact .inr (.inr ⟨hx, hs.agree _ (by simp) (h.rep x r hx hc)⟩)

theorem Ctx.free {S : Sc} {F : List (String × List String)} {fr : Frames} {X : List String → Prop}
    (h : Ctx m m' S F fr X) {x : String} (hx : ¬ S.aliased x) : aGet F x = none := by
  cases hf : aGet F x with
  | none => rfl
  | some c => exact absurd (h.map x (by rw [hf]; rfl)) hx

theorem Ctx.localPath {S : Sc} {F : List (String × List String)} {fr : Frames} {X : List String → Prop} {e e' : Scope}
    (h : Ctx m m' S F fr X) (hs : Sim (Same m m') X e e') {x : String} {r : List String} (hl : S.isLocal (x :: r) = true) :
    PathOk m m' fr e e' (x :: r) := by
  refine h.path hs (.inr (.inl ⟨h.loc _ hl, ?_⟩))
  rintro rfl
  rw [isLocal_root h.ok] at hl
  cases hl

/-- what the walk knows after a plain path -/
theorem spine_pure {n : Node} (S : Sc) : ∀ {x : String} {r : List String}, readPath n = some (x :: r) →
    ∃ c, spine n S = (c, S) ∧ c.deps = [] ∧ c.via = none ∧ c.first = true ∧ c.mode = (Chain.start S x).mode ∧
      ∀ a, c.mode = .path a → c.group = x :: r := by
  have start : ∀ x, (Chain.start S x).deps = [] ∧ (Chain.start S x).via = none ∧ (Chain.start S x).first = true ∧
      ∀ a, (Chain.start S x).mode = .path a → (Chain.start S x).group = [x] := by
    intro x
    unfold Chain.start
    repeat' split
    all_goals exact ⟨rfl, rfl, rfl, fun a ha => by first | rfl | cases ha⟩
  induction n using Node.ind with
  | ident v =>
    intro x r h
    simp only [readPath, Option.some.injEq, List.cons.injEq] at h
    obtain ⟨rfl, rfl⟩ := h
    obtain ⟨h1, h2, h3, h4⟩ := start v
    exact ⟨_, rfl, h1, h2, h3, rfl, h4⟩
  | root =>
    intro x r h
    simp only [readPath, Option.some.injEq, List.cons.injEq] at h
    obtain ⟨rfl, rfl⟩ := h
    obtain ⟨h1, h2, h3, h4⟩ := start "$root"
    exact ⟨_, rfl, h1, h2, h3, rfl, h4⟩
  | member n p ih _ =>
    intro x r h
    obtain ⟨k, q', rfl, h', he⟩ := readPath_member h
    obtain ⟨y, t, rfl⟩ := readPath_ne h'
    rw [List.cons_append, List.cons.injEq] at he
    obtain ⟨rfl, rfl⟩ := he
    obtain ⟨c, h0, h1, h2, h3, h4, h5⟩ := ih h'
    refine ⟨c.field k, by simp only [spine, h0, Chain.seg], ?_⟩
    unfold Chain.field
    cases hm : c.mode with
    | path a =>
      rw [hm] at h4
      exact ⟨h1, h2, h3, by simpa [hm] using h4, fun _ _ => by simp [h5 a hm]⟩
    | unresolved => exact ⟨h1, h2, h3, by simpa [hm] using h4, fun a ha => by simp at ha⟩
    | «local» => exact ⟨h1, h2, h3, h4, fun a ha => by rw [hm] at ha; cases ha⟩
    | silent => exact ⟨h1, h2, h3, h4, fun a ha => by rw [hm] at ha; cases ha⟩
  | _ => intro x r h; simp [readPath] at h

/-- A plain path whose group is emitted is agreed upon. -/
theorem Ctx.emitted {S : Sc} {F : List (String × List String)} {fr : Frames} {X : List String → Prop} {e e' : Scope} {d : Nat}
    (h : Ctx m m' S F fr X) (hs : Sim (Same m m') X e e') (hd : d < maxDepth) {n : Node} {x : String} {r : List String}
    (hn : readPath n = some (x :: r)) (hc : Cov m m' d F ((spine n S).1.emit S)) : PathOk m m' fr e e' (x :: r) := by
  obtain ⟨c, h0, h1, h2, h3, h4, h5⟩ := spine_pure S hn
  rw [h0] at hc
  unfold Chain.start at h4
  split at h4
  · rename_i hx
    subst hx
    exact h.path hs (.inr (.inl ⟨h.up ["$"] r (by simp) h.dollar, by decide⟩))
  · split at h4
    · rename_i hx
      exact h.path hs (.inl (.inr (by simpa using hx)))
    · split at h4
      · rename_i hx
        exact h.path hs (.inl (.inl hx))
      · rename_i hu ha
        split at h4
        · rename_i hl
          exact h.localPath hs (isLocal_ext r hl)
        · simp only [Chain.emit, h4, h5 _ h4, h2, h3] at hc
          unfold emitGroup at hc
          simp only [List.isEmpty_cons, Bool.false_eq_true, if_false, Bool.and_false, Bool.not_false, Bool.true_and] at hc
          split at hc
          · rename_i hl
            exact h.localPath hs hl
          · have hf : aGet F x = none := h.free (fun hx => hx.elim (fun hx => ha hx) fun hx => hu (by simpa using hx))
            exact h.path hs (.inr (.inr (cov_direct hd hf hc)))

end Zen.Reads
