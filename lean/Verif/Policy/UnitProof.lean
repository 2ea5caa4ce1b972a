import Verif.Policy.UnitLemmas
import Verif.Policy.Confluence
/-
The blocks of a policy see and change the store only where their reads and writes say.
-/
namespace Zen.Policy
open Zen Zen.Val

/-! ### Store and environment -/

/-- the environment is the store, except for `$` -/
def Synced (cx : Cx) : Prop :=
  ∃ m e, cx.store = .obj m ∧ cx.env = some (.obj e) ∧ (aKeys e).Nodup ∧ ∀ k, k ≠ "$" → aGet e k = aGet m k

/-- and has no `$` -/
def Bound (cx : Cx) : Prop :=
  ∃ m e, cx.store = .obj m ∧ cx.env = some (.obj e) ∧ (aKeys e).Nodup ∧ aGet e "$" = none ∧ ∀ k, k ≠ "$" → aGet e k = aGet m k

/-- the same without the condition on repeated keys -/
def Seen (cx : Cx) : Prop :=
  ∃ m e, cx.store = .obj m ∧ cx.env = some (.obj e) ∧ aGet e "$" = none ∧ ∀ k, k ≠ "$" → aGet e k = aGet m k

theorem Bound.seen {cx : Cx} (h : Bound cx) : Seen cx := by
  obtain ⟨m, e, a, b, _, d, f⟩ := h
  exact ⟨m, e, a, b, d, f⟩

theorem Bound.synced {cx : Cx} (h : Bound cx) : Synced cx := by
  obtain ⟨m, e, a, b, c, _, d⟩ := h
  exact ⟨m, e, a, b, c, d⟩

theorem Synced.bind {cx : Cx} (h : Synced cx) : Bound cx.bind := by
  obtain ⟨m, e, a, b, c, d⟩ := h
  refine ⟨m, aErase e "$", a, by simp [Cx.bind, b], aKeys_aErase_nodup _ c, by rw [aGet_aErase _ _ c]; simp, fun k hk => ?_⟩
  rw [aGet_aErase _ _ c, if_neg hk, d k hk]

theorem bind_store (cx : Cx) : cx.bind.store = cx.store := rfl

theorem insert_top (m : List (String × Val)) (p : String) (v : Val) :
    ∃ x, ((Val.obj m).dotInsert p v).1 = .obj (aSet m (topSeg p) x) := by
  obtain ⟨ks, hk⟩ := splitDot_topSeg p
  unfold dotInsert
  rw [hk]
  cases ks with
  | nil => exact ⟨v, rfl⟩
  | cons k ks => exact ⟨_, rfl⟩

theorem Bound.write {cx : Cx} (h : Bound cx) {p : String} (hp : topSeg p ≠ "$") (v : Val) : Bound (cx.write p v) := by
  obtain ⟨m, e, a, b, c, d, f⟩ := h
  obtain ⟨x, hx⟩ := insert_top m p v
  refine ⟨aSet m (topSeg p) x, aSet e (topSeg p) x, ?_, ?_, aKeys_aSet_nodup _ _ c, ?_, ?_⟩
  · simp only [Cx.write, a, hx]
  · simp only [Cx.write, a, b, hx, Option.map_some, mirror, aGet_aSet, if_true]
  · rw [aGet_aSet, if_neg (fun e => hp e.symm)]; exact d
  · intro k hk
    rw [aGet_aSet, aGet_aSet, f k hk]

theorem write_store (cx : Cx) (p : String) (v : Val) : (cx.write p v).store = (dotInsertP cx.store (splitDot p) v).1 := rfl

/-! ### Evaluation -/

/-- an expression whose reads are all reported -/
def Readable (C : Cfg) (k : Kind) (src : String) : Prop :=
  ∀ n, C.F k src = .ok n → Reads.tame n = true ∧ Reads.nesting n < 32 ∧
    ∀ q ∈ Reads.planned (isUnary k) n, q ∈ C.reads k src ∧ q.head? ≠ some "$root"

theorem planned_ne {unary : Bool} {n : Node} {q : List String} (h : q ∈ Reads.planned unary n) : q ≠ [] := by
  obtain ⟨r, hr, rfl⟩ := List.mem_map.1 h
  exact Reads.walkDeps_ne _ _ _ _ (List.mem_filter.1 hr).1

theorem reads_ne {C : Cfg} {k : Kind} {src : String} {q : List String} (h : q ∈ C.reads k src) : q ≠ [] := by
  unfold Cfg.reads at h
  split at h
  · cases h
  · split at h
    · exact planned_ne h
    · have := (List.mem_filter.1 h).2
      intro e; subst e; cases this

theorem run_same {C : Cfg} {k : Kind} {src : String} (hR : Readable C k src) {cx cx' : Cx} (h : Seen cx) (h' : Seen cx')
    (hs : ∀ q ∈ C.reads k src, look cx.store q = look cx'.store q) {ls : List (String × Val)} (hl : Loc ls) :
    freshRun C.F C.B ⟨cx.scope.base, ls⟩ k src = freshRun C.F C.B ⟨cx'.scope.base, ls⟩ k src := by
  obtain ⟨m, e, a, b, d, f⟩ := h
  obtain ⟨m', e', a', b', d', f'⟩ := h'
  unfold freshRun
  cases hF : C.F k src with
  | error er => rfl
  | ok n =>
    obtain ⟨r1, r2, r3⟩ := hR n hF
    have hc : cx.scope.base = .obj e := by simp [Cx.scope, b]
    have hc' : cx'.scope.base = .obj e' := by simp [Cx.scope, b']
    dsimp only
    rw [hc, hc', Reads.C55_plan_complete C.B (isUnary k) n e e' ls hl d d' r1 r2 fun q hq => ?_]
    obtain ⟨hq1, hq2⟩ := r3 q hq
    cases q with
    | nil => exact absurd rfl (planned_ne hq)
    | cons x r =>
      have hx : x ≠ "$root" := fun hh => hq2 (by rw [hh]; rfl)
      rw [Reads.agree_plain hx]
      by_cases hd : x = "$"
      · subst hd
        simp only [Reads.readAt, d, d']
      · have := congrArg Look.read (hs _ hq1)
        rw [look_read, look_read, a, a'] at this
        simp only [Reads.readAt] at this ⊢
        rw [f x hd, f' x hd]
        exact this

/-! ### Policies -/

def rulesOf (P : List PBlock) : List RuleWrites := P.map fun b => ⟨b.ref, b.body.writes⟩

/-- Blocks have their own names and write to places of their own, outside the data model; what their expressions read is
all reported, and is written by at most one block; no block needs itself. -/
structure Sound (C : Cfg) (P : List PBlock) : Prop where
  unique : (P.map PBlock.ref).Nodup
  order : ∀ l, (C.order l).Perm l
  columns : ∀ b ∈ P, ∀ t, b.body = .table t → ∀ c ∈ t.outputs, ∀ c' ∈ t.active, c.id = c'.id → c ∈ t.active
  apart : Apart (rulesOf P)
  own : ∀ b ∈ P, ∀ w ∈ b.body.writes, C.model w = false ∧ topSeg w ≠ "$"
  readable : ∀ b ∈ P, ∀ s ∈ b.body.sources ++ b.body.later, Readable C s.1 s.2
  single : ∀ b ∈ P, ∀ q ∈ C.paths (b.body.sources ++ b.body.later), ∀ c ∈ P, ∀ c' ∈ P, ∀ w ∈ c.body.writes, ∀ w' ∈ c'.body.writes,
    Rel (splitDot w) q → Rel (splitDot w') q → c.ref = c'.ref
  free : ∀ b ∈ P, ∀ q ∈ C.paths (b.body.sources ++ b.body.later), ∀ c ∈ P, ∀ w ∈ c.body.writes, Rel (splitDot w) q → C.model (dots q) = false
  acyclic : ∀ r, ¬ Relation.TransGen (Dep (sys C P)) r r

variable {C : Cfg} {P : List PBlock}

theorem blockAt_some {r : BlockRef} {b : PBlock} (h : blockAt P r = some b) : b ∈ P ∧ b.ref = r :=
  ⟨List.mem_of_find?_eq_some h, by simpa using List.find?_some h⟩

theorem blockAt_mem : ∀ {P : List PBlock}, (P.map PBlock.ref).Nodup → ∀ {b : PBlock}, b ∈ P → blockAt P b.ref = some b
  | [], _, _, hb => by cases hb
  | c :: P, hn, b, hb => by
    unfold blockAt
    rw [List.find?_cons]
    rw [List.map_cons, List.nodup_cons] at hn
    rcases List.mem_cons.1 hb with rfl | hb
    · simp
    · have : c.ref ≠ b.ref := fun e => hn.1 (e ▸ List.mem_map.2 ⟨b, hb, rfl⟩)
      simp only [this, decide_false]
      exact blockAt_mem hn.2 hb

theorem rule_some {r : BlockRef} (h : (sys C P).rule r = true) : ∃ b, blockAt P r = some b := Option.isSome_iff_exists.1 h

theorem mem_adjacent : ∀ (l : List String) (x : String), x ∈ adjacent l ↔ x ∈ l
  | [], x => Iff.rfl
  | [a], x => Iff.rfl
  | a :: b :: l, x => by
    unfold adjacent
    have ih := mem_adjacent (b :: l) x
    split
    · rename_i hab
      subst hab
      rw [ih]; simp
    · rw [List.mem_cons, ih, List.mem_cons (a := x) (b := a)]

theorem mem_dedup (l : List String) (x : String) : x ∈ dedup l ↔ x ∈ l := by
  unfold dedup
  rw [mem_adjacent]
  exact (sortBy_perm _ l).mem_iff

theorem chosen_later {b : Body} {p : Pick} {s : Kind × String} (h : s ∈ b.chosen p) : s ∈ b.later := by
  unfold Body.chosen at h
  split at h
  · rename_i m sel
    split at h
    · rename_i a ha
      split at h
      · cases h
      · rename_i he
        rw [List.mem_singleton.1 h]
        obtain ⟨id, _, hf⟩ := Option.bind_eq_some_iff.1 ha
        exact List.mem_map.2 ⟨a, List.mem_filter.2 ⟨List.mem_of_find?_eq_some hf, by simpa using he⟩, rfl⟩
    · cases h
  · rename_i t sel
    obtain ⟨u, _, hu⟩ := List.mem_flatMap.1 h
    split at hu
    · rename_i rule hr
      obtain ⟨c, hc, hcs⟩ := List.mem_filterMap.1 hu
      exact List.mem_flatMap.2 ⟨rule, List.mem_of_getElem? hr, List.mem_filterMap.2 ⟨c, (List.mem_filter.1 hc).1, hcs⟩⟩
    · cases hu
  · cases h

theorem mem_paths {srcs : List (Kind × String)} {s : Kind × String} (h : s ∈ srcs) {q : List String} (hq : q ∈ C.reads s.1 s.2) : q ∈ C.paths srcs :=
  List.mem_flatMap.2 ⟨s, h, hq⟩

theorem paths_mono {a b : List (Kind × String)} (h : ∀ s ∈ a, s ∈ b) {q : List String} (hq : q ∈ C.paths a) : q ∈ C.paths b := by
  obtain ⟨s, hs, hq⟩ := List.mem_flatMap.1 hq
  exact mem_paths (h s hs) hq

theorem paths_ne {srcs : List (Kind × String)} {q : List String} (h : q ∈ C.paths srcs) : q ≠ [] := by
  obtain ⟨s, _, hq⟩ := List.mem_flatMap.1 h
  exact reads_ne hq

/-- places are paths of the store; a block touches what overlaps one of its writes -/
def view (C : Cfg) (P : List PBlock) : View Cx Pick (List String) Look where
  ok := Synced
  obs cx i := look cx.store i
  touch r i := ∃ b, blockAt P r = some b ∧ ∃ w ∈ b.body.writes, Rel (splitDot w) i
  tests r i := ∃ b, blockAt P r = some b ∧ i ∈ C.paths b.body.sources
  uses r p i := ∃ b, blockAt P r = some b ∧ (i ∈ C.paths b.body.sources ∨ i ∈ C.paths (b.body.chosen p))

/-- a read asks for every block that touches what it reads -/
theorem served (hS : Sound C P) {b c : PBlock} (hb : b ∈ P) (hc : c ∈ P) {q : List String} (hq : q ∈ C.paths (b.body.sources ++ b.body.later))
    {w : String} (hw : w ∈ c.body.writes) (hr : Rel (splitDot w) q) : c.ref ∈ writersIn C P (dots q) :=
  C37_read_served C.model (rulesOf P) hS.apart (dots q) (hS.free b hb q hq c hc w hw hr) ⟨c.ref, c.body.writes⟩
    (List.mem_map.2 ⟨c, hc, rfl⟩) w hw (hS.own c hc w hw).1 (rel_dots (paths_ne hq) hr)

theorem excl_read (hS : Sound C P) {b : PBlock} (hb : b ∈ P) {q : List String} (hq : q ∈ C.paths (b.body.sources ++ b.body.later)) :
    Excl (sys C P) (view C P) q := by
  rintro r r' _ _ ⟨c, hc, w, hw, hwr⟩ ⟨c', hc', w', hw', hwr'⟩
  obtain ⟨hcm, rfl⟩ := blockAt_some hc
  obtain ⟨hcm', rfl⟩ := blockAt_some hc'
  exact hS.single b hb q hq c hcm c' hcm' w hw w' hw' hwr hwr'

theorem excl_write (hS : Sound C P) {b : PBlock} (hb : b ∈ P) {w : String} (hw : w ∈ b.body.writes) :
    Excl (sys C P) (view C P) (splitDot w) := by
  have own : ∀ r, (view C P).touch r (splitDot w) → r = b.ref := by
    rintro r ⟨c, hc, w', hw', hr⟩
    obtain ⟨hcm, rfl⟩ := blockAt_some hc
    rcases hr with hr | hr
    · exact hS.apart ⟨c.ref, _⟩ (List.mem_map.2 ⟨c, hcm, rfl⟩) ⟨b.ref, _⟩ (List.mem_map.2 ⟨b, hb, rfl⟩) w' hw' w hw hr
    · exact (hS.apart ⟨b.ref, _⟩ (List.mem_map.2 ⟨b, hb, rfl⟩) ⟨c.ref, _⟩ (List.mem_map.2 ⟨c, hcm, rfl⟩) w hw w' hw' hr).symm
  intro r r' _ _ h h'
  rw [own r h, own r' h']

/-- two stores that agree on some places, with their environments -/
def SameAt (D : List String → Prop) (cx cx' : Cx) : Prop := Bound cx ∧ Bound cx' ∧ ∀ i, D i → look cx.store i = look cx'.store i

theorem SameAt.write {D : List String → Prop} {cx cx' : Cx} (h : SameAt D cx cx') {w : String} (hd : D (splitDot w)) (hw : topSeg w ≠ "$") (v : Val) :
    SameAt D (cx.write w v) (cx'.write w v) :=
  ⟨h.1.write hw v, h.2.1.write hw v, fun i hi => look_write v (splitDot_ne_nil w) (h.2.2 _ hd) (h.2.2 i hi)⟩

theorem relRes_map {α β : Type} {R : α → α → Prop} {S : β → β → Prop} {f : α → β} (hf : ∀ a b, R a b → S (f a) (f b)) {x y : Except XErr α} (h : RelRes R x y) :
    RelRes S (x.map f) (y.map f) := by
  cases x <;> cases y <;> first | exact h | exact hf _ _ h

/-- the write phase preserves any relation that its writes preserve and under which its expressions give the same -/
theorem write_rel (hS : Sound C P) {b : PBlock} (hb : b ∈ P) {p : Pick} (hp : ∃ s1 : Cx, (b.body.select C s1).1 = .ok p) {R : Cx → Cx → Prop}
    (hw : ∀ w ∈ b.body.writes, ∀ v cx cx', R cx cx' → R (cx.write w v) (cx'.write w v))
    (hr : ∀ s ∈ b.body.sources ++ b.body.chosen p, ∀ cx cx', R cx cx' → freshRun C.F C.B cx.scope s.1 s.2 = freshRun C.F C.B cx'.scope s.1 s.2)
    {cx cx' : Cx} (h : R cx cx') : RelRes R (b.body.write C p cx) (b.body.write C p cx') := by
  obtain ⟨r, body⟩ := b
  cases body with
  | expression key value =>
    refine expr_rel (W := fun w => w ∈ Body.writes (.expression key value)) (fun w v cx cx' hW h => hw w hW v cx cx' h) (fun he => ?_)
      (fun _ => hr (.standard, value) (by simp [Body.sources])) h
    simp only [Body.writes, he]; simp
  | assertion a =>
    refine assert_rel (W := fun w => w ∈ Body.writes (.assertion a)) (fun w v cx cx' hW h => hw w hW v cx cx' h) (fun he => ?_)
      (fun c hc => hr (.standard, c.expression) (List.mem_append_left _ (List.mem_map.2 ⟨c, hc, rfl⟩))) h
    simp only [Body.writes, he]; simp
  | match_ m =>
    cases p with
    | unconditional => exact h
    | rows s => exact h
    | arm s =>
      refine match_rel (W := fun w => w ∈ Body.writes (.match_ m)) (fun w v cx cx' hW h => hw w hW v cx cx' h) (fun he => ?_)
        (fun a ha he => hr (.standard, a.value) (List.mem_append_right _ ?_)) h
      · simp only [Body.writes, he]; simp
      · simp only [Body.chosen, ha, he]; simp
  | table t =>
    cases p with
    | unconditional => exact h
    | arm s => exact h
    | rows s =>
      have hu : UsedOk t s := by
        obtain ⟨s1, h1⟩ := hp
        simp only [Body.select] at h1
        cases hsel : PTable.select C.F C.B t C.extras (C.index t) s1.bind.scope with
        | error e => rw [hsel] at h1; cases h1
        | ok s' =>
          rw [hsel] at h1
          injection h1 with h1; injection h1 with h1
          subst h1
          exact select_used hsel
      have active : ∀ row, ∀ c ∈ t.outputs, (row, c.id) ∈ s.used → c ∈ t.active := by
        intro row c hc hm
        obtain ⟨c', hc', e⟩ := hu _ hm
        exact hS.columns _ hb t rfl c hc c' hc' e.symm
      have inW : ∀ c ∈ t.active, c.field ∈ Body.writes (.table t) := fun c hc => List.mem_map.2 ⟨c, hc, rfl⟩
      refine table_rel (W := fun w => w ∈ Body.writes (.table t)) (fun l e he => (hS.order l).mem_iff.1 he) (fun w v cx cx' hW h => hw w hW v cx cx' h)
        (fun row c hc hm => inW c (active row c hc hm)) (fun c hc he => inW c (List.mem_filter.2 ⟨hc, by simp [he]⟩))
        (fun row rule hrow c hc hm cell hcell => hr (.standard, cell) (List.mem_append_right _ ?_)) h
      refine List.mem_flatMap.2 ⟨(row, c.id), hm, ?_⟩
      simp only [hrow]
      exact List.mem_filterMap.2 ⟨c, List.mem_filter.2 ⟨active row c hc hm, by simp⟩, by simp [hcell]⟩

theorem readable_of (hS : Sound C P) {b : PBlock} (hb : b ∈ P) {p : Pick} {s : Kind × String} (h : s ∈ b.body.sources ++ b.body.chosen p) :
    s ∈ b.body.sources ++ b.body.later ∧ Readable C s.1 s.2 := by
  have : s ∈ b.body.sources ++ b.body.later := by
    rcases List.mem_append.1 h with h | h
    · exact List.mem_append_left _ h
    · exact List.mem_append_right _ (chosen_later h)
  exact ⟨this, hS.readable b hb s this⟩

theorem select_state {b : Body} {cx : Cx} (h : Synced cx) : Synced (b.select C cx).2 ∧ (b.select C cx).2.store = cx.store := by
  unfold Body.select
  split
  · exact ⟨h.bind.synced, rfl⟩
  · exact ⟨h.bind.synced, rfl⟩
  · exact ⟨h, rfl⟩

/-- the choice of a block in a scope -/
def Body.pickAt (C : Cfg) (b : Body) (s : Scope) : Except XErr Pick := match b with
  | .match_ m => (MatchB.select C.F C.B m C.extras s).map Pick.arm
  | .table t => (PTable.select C.F C.B t C.extras (C.index t) s).map Pick.rows
  | _ => .ok .unconditional

theorem select_pick (b : Body) (cx : Cx) : (b.select C cx).1 = b.pickAt C cx.bind.scope := by cases b <;> rfl

theorem pick_same (hS : Sound C P) {b : PBlock} (hb : b ∈ P) {cx cx' : Cx} (h : Seen cx) (h' : Seen cx')
    (hs : ∀ q ∈ C.paths b.body.sources, look cx.store q = look cx'.store q) : b.body.pickAt C cx.scope = b.body.pickAt C cx'.scope := by
  have run : ∀ s ∈ b.body.sources, ∀ ls, Loc ls → freshRun C.F C.B ⟨cx.scope.base, ls⟩ s.1 s.2 = freshRun C.F C.B ⟨cx'.scope.base, ls⟩ s.1 s.2 := by
    intro s hm ls hl
    exact run_same (hS.readable b hb s (List.mem_append_left _ hm)) h h' (fun q hq => hs q (mem_paths hm hq)) hl
  obtain ⟨r, body⟩ := b
  cases body with
  | expression key value => rfl
  | assertion a => rfl
  | match_ m =>
    simp only [Body.pickAt, MatchB.select]
    rw [selectArms_same (s := cx.scope) (s' := cx'.scope) m.arms _ fun a ha he => run (.standard, a.cond) (List.mem_map.2 ⟨a, List.mem_filter.2 ⟨ha, by simp [he]⟩, rfl⟩) [] (.inl rfl)]
  | table t =>
    simp only [Body.pickAt]
    have := select_same (F := C.F) (B := C.B) (b := cx.scope.base) (b' := cx'.scope.base) (t := t) run C.extras (C.index t)
    exact congrArg (Except.map Pick.rows) this

theorem select_result (hS : Sound C P) {b : PBlock} (hb : b ∈ P) {cx cx' : Cx} (h : Synced cx) (h' : Synced cx')
    (hs : ∀ q ∈ C.paths b.body.sources, look cx.store q = look cx'.store q) : (b.body.select C cx).1 = (b.body.select C cx').1 := by
  rw [select_pick, select_pick]
  exact pick_same hS hb h.bind.seen h'.bind.seen hs

theorem commit_other (hS : Sound C P) {b : PBlock} (hb : b ∈ P) {p : Pick} (hp : ∃ s1 : Cx, (b.body.select C s1).1 = .ok p) {cx : Cx} (h : Synced cx) :
    Synced (b.body.commit C p cx).2 ∧ ∀ i, (∀ w ∈ b.body.writes, ¬ Rel (splitDot w) i) → look (b.body.commit C p cx).2.store i = look cx.store i := by
  have := write_rel hS hb hp (R := fun c c' => c = c' ∧ Bound c ∧ ∀ i, (∀ w ∈ b.body.writes, ¬ Rel (splitDot w) i) → look c.store i = look cx.store i)
    (fun w hw v c c' hc => ⟨by rw [hc.1], hc.2.1.write (hS.own b hb w hw).2 v, fun i hi => by
      rw [write_store, look_other _ _ _ _ (not_rel.1 (hi w hw)), hc.2.2 i hi]⟩)
    (fun s _ c c' hc => by rw [hc.1]) (cx := cx.bind) (cx' := cx.bind) ⟨rfl, h.bind, fun i _ => rfl⟩
  unfold Body.commit
  revert this
  cases b.body.write C p cx.bind with
  | error e => exact fun _ => ⟨h.bind.synced, fun i _ => rfl⟩
  | ok c => exact fun hc => ⟨hc.2.1.synced, hc.2.2⟩

theorem commit_same (hS : Sound C P) {b : PBlock} (hb : b ∈ P) {p : Pick} (hp : ∃ s1 : Cx, (b.body.select C s1).1 = .ok p) {cx cx' : Cx} (h : Synced cx) (h' : Synced cx')
    {D : List String → Prop} (hD : ∀ q, q ∈ C.paths (b.body.sources ++ b.body.chosen p) → D q) (hW : ∀ w ∈ b.body.writes, D (splitDot w))
    (hs : ∀ i, D i → look cx.store i = look cx'.store i) :
    (b.body.commit C p cx).1 = (b.body.commit C p cx').1 ∧ ∀ i, D i → look (b.body.commit C p cx).2.store i = look (b.body.commit C p cx').2.store i := by
  have := write_rel hS hb hp (R := SameAt D) (fun w hw v c c' hc => hc.write (hW w hw) (hS.own b hb w hw).2 v)
    (fun s hm c c' hc => run_same (readable_of hS hb hm).2 hc.1.seen hc.2.1.seen (fun q hq => hc.2.2 q (hD q (mem_paths hm hq))) (.inl rfl))
    (cx := cx.bind) (cx' := cx'.bind) ⟨h.bind, h'.bind, hs⟩
  unfold Body.commit
  revert this
  cases b.body.write C p cx.bind with
  | error e => cases b.body.write C p cx'.bind with
    | error e' => exact fun hc => ⟨by rw [show e = e' from hc], hs⟩
    | ok c => exact fun hc => hc.elim
  | ok c => cases b.body.write C p cx'.bind with
    | error e' => exact fun hc => hc.elim
    | ok c' => exact fun hc => ⟨rfl, hc.2.2⟩

theorem faithful (hS : Sound C P) : Faithful (sys C P) (view C P) where
  acyclic := hS.acyclic
  selOk r cx h := by
    simp only [sys]
    split
    · exact (select_state h).1
    · exact h
  selObs r cx i h := by
    simp only [sys]
    split
    · exact congrArg (look · i) (select_state h).2
    · rfl
  sel r cx cx' hr h h' hs := by
    obtain ⟨b, hb⟩ := rule_some hr
    simp only [sys, hb]
    exact select_result hS (blockAt_some hb).1 h h' fun q hq => hs q ⟨b, hb, hq⟩
  comOk r p cx hr hp h := by
    obtain ⟨b, hb⟩ := rule_some hr
    simp only [sys, hb] at hp ⊢
    obtain ⟨s1, _, hp⟩ := hp
    exact (commit_other hS (blockAt_some hb).1 ⟨s1, hp⟩ h).1
  comObs r p cx i hr hp h ht := by
    obtain ⟨b, hb⟩ := rule_some hr
    simp only [sys, hb] at hp ⊢
    obtain ⟨s1, _, hp⟩ := hp
    exact (commit_other hS (blockAt_some hb).1 ⟨s1, hp⟩ h).2 i fun w hw hrel => ht ⟨b, hb, w, hw, hrel⟩
  com r p cx cx' hr hp h h' hs := by
    obtain ⟨b, hb⟩ := rule_some hr
    obtain ⟨hbm, hbr⟩ := blockAt_some hb
    simp only [sys, hb] at hp ⊢
    obtain ⟨s1, _, hp⟩ := hp
    obtain ⟨c1, c2⟩ := commit_same hS hbm ⟨s1, hp⟩ h h'
      (D := fun i => (view C P).uses r p i ∨ (view C P).touch r i ∧ Excl (sys C P) (view C P) i)
      (fun q hq => .inl ⟨b, hb, by
        unfold Cfg.paths at hq ⊢
        rw [List.flatMap_append] at hq
        exact List.mem_append.1 hq⟩)
      (fun w hw => .inr ⟨⟨b, hb, w, hw, .inl List.prefix_rfl⟩, excl_write hS hbm hw⟩) hs
    exact ⟨c1, fun i ht hx => c2 i (.inr ⟨ht, hx⟩)⟩
  testsExcl r i hr := by
    rintro ⟨b, hb, hq⟩
    exact excl_read hS (blockAt_some hb).1 (paths_mono (fun s hs => List.mem_append_left _ hs) hq)
  usesExcl r p i hr := by
    rintro ⟨b, hb, hq⟩
    refine excl_read hS (blockAt_some hb).1 ?_
    rcases hq with hq | hq
    · exact paths_mono (fun s hs => List.mem_append_left _ hs) hq
    · exact paths_mono (fun s hs => List.mem_append_right _ (chosen_later hs)) hq
  testsServed r r' i hr hr' := by
    rintro ⟨b, hb, hq⟩ ⟨c, hc, w, hw, hrel⟩
    obtain ⟨hbm, _⟩ := blockAt_some hb
    obtain ⟨hcm, rfl⟩ := blockAt_some hc
    refine List.mem_flatMap.2 ⟨dots i, ?_, served hS hbm hcm (paths_mono (fun s hs => List.mem_append_left _ hs) hq) hw hrel⟩
    simp only [sys, hb]
    rw [mem_dedup]
    exact List.mem_map.2 ⟨i, hq, rfl⟩
  usesServed r p r' i hr hr' := by
    rintro ⟨b, hb, hq⟩ ⟨c, hc, w, hw, hrel⟩
    obtain ⟨hbm, _⟩ := blockAt_some hb
    obtain ⟨hcm, rfl⟩ := blockAt_some hc
    unfold asks
    refine List.mem_flatMap.2 ⟨dots i, ?_, served hS hbm hcm ?_ hw hrel⟩
    · simp only [sys, hb]
      rcases hq with hq | hq
      · refine List.mem_append_left _ ?_
        rw [mem_dedup]
        exact List.mem_map.2 ⟨i, hq, rfl⟩
      · refine List.mem_append_right _ ?_
        obtain ⟨s, hs, hq⟩ := List.mem_flatMap.1 hq
        refine List.mem_flatMap.2 ⟨s, hs, ?_⟩
        rw [mem_dedup]
        exact List.mem_map.2 ⟨i, hq, rfl⟩
    · rcases hq with hq | hq
      · exact paths_mono (fun s hs => List.mem_append_left _ hs) hq
      · exact paths_mono (fun s hs => List.mem_append_right _ (chosen_later hs)) hq

end Zen.Policy
