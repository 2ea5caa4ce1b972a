import Verif.Engine.Loader
/-
C32: loaders return what was stored.
-/
namespace Zen

/-! ## In-memory loader -/

/-- the operation changes what is stored for `k` -/
def MemOp.touches {C : Type} (k : String) : MemOp C → Prop
  | .add k' _ => k' = k
  | .remove k' => k' = k
  | .load _ => False

theorem MemLoader.run_append {C : Type} (a b : List (MemOp C)) : ∀ m : MemLoader C,
    (m.run (a ++ b)).1 = ((m.run a).1.run b).1 := by
  induction a with
  | nil => intro m; rfl
  | cons op a ih => intro m; exact ih _

theorem MemLoader.nodup {C : Type} (ops : List (MemOp C)) : ∀ m : MemLoader C, (aKeys m.entries).Nodup →
    (aKeys (m.run ops).1.entries).Nodup := by
  induction ops with
  | nil => intro m h; exact h
  | cons op ops ih =>
    intro m h
    refine ih _ ?_
    cases op with
    | add k c => exact aKeys_aSet_nodup k c h
    | remove k => exact aKeys_aErase_nodup k h
    | load k => exact h

theorem MemLoader.untouched {C : Type} (k : String) (ops : List (MemOp C)) : ∀ m : MemLoader C, (aKeys m.entries).Nodup →
    (∀ op ∈ ops, ¬ op.touches k) → aGet (m.run ops).1.entries k = aGet m.entries k := by
  induction ops with
  | nil => intro m _ _; rfl
  | cons op ops ih =>
    intro m hm h
    have h1 := h op (by simp)
    rw [MemLoader.run]
    rw [ih _ ?_ (fun o ho => h o (by simp [ho]))]
    · cases op with
      | add k' c =>
        simp only [MemOp.touches] at h1
        show aGet (aSet m.entries k' c) k = _
        rw [aGet_aSet, if_neg (fun hh => h1 hh.symm)]
      | remove k' =>
        simp only [MemOp.touches] at h1
        show aGet (aErase m.entries k') k = _
        rw [aGet_aErase k' k hm, if_neg (fun hh => h1 hh.symm)]
      | load k' => rfl
    · cases op with
      | add k c => exact aKeys_aSet_nodup k c hm
      | remove k => exact aKeys_aErase_nodup k hm
      | load k => exact hm

/-- The content most recently added is returned. -/
theorem C32_memory_added {C : Type} (pre post : List (MemOp C)) (k : String) (c : C) (h : ∀ op ∈ post, ¬ op.touches k) :
    ((MemLoader.run {} (pre ++ .add k c :: post)).1.step (.load k)).2 = .loaded c := by
  have hn := MemLoader.nodup pre ({} : MemLoader C) (by simp [aKeys])
  have : aGet (MemLoader.run ({} : MemLoader C) (pre ++ .add k c :: post)).1.entries k = some c := by
    rw [MemLoader.run_append]
    show aGet (MemLoader.run ⟨aSet (MemLoader.run ({} : MemLoader C) pre).1.entries k c⟩ post).1.entries k = _
    rw [MemLoader.untouched k post ⟨aSet _ k c⟩ (aKeys_aSet_nodup k c hn) h]
    rw [aGet_aSet, if_pos rfl]
  simp only [MemLoader.step, this]

/-- After a removal the key is not found. -/
theorem C32_memory_removed {C : Type} (pre post : List (MemOp C)) (k : String) (h : ∀ op ∈ post, ¬ op.touches k) :
    ((MemLoader.run {} (pre ++ .remove k :: post)).1.step (.load k)).2 = .notFound k := by
  have hn := MemLoader.nodup pre ({} : MemLoader C) (by simp [aKeys])
  have : aGet (MemLoader.run ({} : MemLoader C) (pre ++ .remove k :: post)).1.entries k = none := by
    rw [MemLoader.run_append]
    show aGet (MemLoader.run ⟨aErase (MemLoader.run ({} : MemLoader C) pre).1.entries k⟩ post).1.entries k = _
    rw [MemLoader.untouched k post _ (aKeys_aErase_nodup k hn) h]
    rw [aGet_aErase k k hn, if_pos rfl]
  simp only [MemLoader.step, this]

/-- A key never added is not found. -/
theorem C32_memory_never_added {C : Type} (ops : List (MemOp C)) (k : String) (h : ∀ op ∈ ops, ¬ op.touches k) :
    ((MemLoader.run {} ops).1.step (.load k)).2 = .notFound k := by
  have := MemLoader.untouched k ops ({} : MemLoader C) (by simp [aKeys]) h
  simp only [MemLoader.step, this, aGet]

/-- `remove` tells whether there was something, loading changes nothing, and `keys` lists each key
that can be loaded exactly once. -/
theorem C32_memory_observers {C : Type} (ops : List (MemOp C)) (k : String) :
    let m := (MemLoader.run ({} : MemLoader C) ops).1
    ((m.step (.remove k)).2 = .removed true ↔ ∃ c, (m.step (.load k)).2 = .loaded c) ∧
    (m.step (.load k)).1 = m ∧ m.keys.Nodup ∧ (k ∈ m.keys ↔ ∃ c, (m.step (.load k)).2 = .loaded c) := by
  intro m
  refine ⟨?_, rfl, MemLoader.nodup ops {} (by simp [aKeys]), ?_⟩
  · simp only [MemLoader.step]
    cases aGet m.entries k <;> simp
  · rw [MemLoader.keys, ← aGet_isSome_iff]
    simp only [MemLoader.step]
    cases aGet m.entries k <;> simp

/-! ## Caching loader, one call after the other -/

/-- Specification: the first successful answer the inner loader has for `k` in a list of requests. -/
def firstOk {C E : Type} (k : String) (reqs : List (Req C E)) : Option C :=
  reqs.findSome? fun q => if q.key = k then q.ask.toOption else none

theorem cachedRun_append {C E : Type} (a b : List (Req C E)) : ∀ cache : List (String × C),
    (cachedRun cache (a ++ b)).1 = (cachedRun (cachedRun cache a).1 b).1 := by
  induction a with
  | nil => intro m; rfl
  | cons op a ih => intro m; exact ih _

theorem cachedRun_out {C E : Type} (a : List (Req C E)) (q : Req C E) (b : List (Req C E)) : ∀ cache : List (String × C),
    (cachedRun cache (a ++ q :: b)).2[a.length]? =
      some (cachedLoad (cachedRun cache a).1 q.key q.ask q.prep).2 := by
  induction a with
  | nil => intro m; rfl
  | cons op a ih => intro m; exact ih _

theorem cachedRun_cache {C E D : Type} (src : C → D) (reqs : List (Req C E))
    (hp : ∀ q ∈ reqs, ∀ c c', q.prep c = some c' → src c' = src c) (k : String) :
    ∀ cache : List (String × C),
      (aGet (cachedRun cache reqs).1 k).map src = (match aGet cache k with
        | some c => some (src c)
        | none => (firstOk k reqs).map src) := by
  induction reqs with
  | nil => intro cache; cases h : aGet cache k <;> simp [cachedRun, firstOk, h]
  | cons q reqs ih =>
    intro cache
    have ih := ih fun q' hq => hp q' (by simp [hq])
    have hq := hp q (by simp)
    rw [cachedRun]
    dsimp only
    rw [ih]
    unfold cachedLoad
    by_cases hk : q.key = k
    · subst hk
      cases hc : aGet cache q.key with
      | some c =>
        dsimp only
        cases hpc : q.prep c with
        | none => simp only [hc]
        | some c' => simp only [aGet_aSet, if_true, hq c c' hpc]
      | none =>
        dsimp only
        cases ha : q.ask with
        | error e => simp [hc, firstOk, ha, Except.toOption]
        | ok c =>
          simp only [aGet_aSet, if_true, firstOk, List.findSome?_cons, ha, Except.toOption]
          cases hpc : q.prep c with
          | none => rfl
          | some c' => simp [hq c c' hpc]
    · have hf : firstOk k (q :: reqs) = firstOk k reqs := by simp [firstOk, hk]
      rw [hf]
      have hk' : ¬ k = q.key := fun h => hk h.symm
      cases hc : aGet cache q.key with
      | some c =>
        dsimp only
        cases hpc : q.prep c with
        | none => rfl
        | some c' => simp only [aGet_aSet, if_neg hk']
      | none =>
        dsimp only
        cases ha : q.ask with
        | error e => rfl
        | ok c => simp only [aGet_aSet, if_neg hk']

/-- After a successful load of `k` the inner loader is no longer asked for `k`, and what is returned
is the document of that first load. -/
theorem C32_cached_first {C E D : Type} (src : C → D) (pre post : List (Req C E)) (q : Req C E) (c1 : C)
    (hp : ∀ q ∈ pre ++ q :: post, ∀ c c', q.prep c = some c' → src c' = src c) (h1 : firstOk q.key pre = some c1) :
    ∃ c, (cachedRun [] (pre ++ q :: post)).2[pre.length]? = some (.ok c, false) ∧ src c = src c1 := by
  rw [cachedRun_out]
  have h := cachedRun_cache src pre (fun q' hq => hp q' (by simp [hq])) q.key []
  rw [h1] at h
  simp only [aGet] at h
  unfold cachedLoad
  cases hc : aGet (cachedRun [] pre).1 q.key with
  | none => rw [hc] at h; simp at h
  | some c =>
    rw [hc] at h
    simp only [Option.map_some, Option.some.injEq] at h
    dsimp only
    cases hpc : q.prep c with
    | none => exact ⟨c, rfl, h⟩
    | some c' => exact ⟨c', rfl, (hp q (by simp) c c' hpc).trans h⟩

/-- Until then it is asked each time, and its answer — failure or content — is the result: failures
are not remembered, and neither is anything about other keys. -/
theorem C32_cached_until_first {C E D : Type} (src : C → D) (pre post : List (Req C E)) (q : Req C E)
    (hp : ∀ q ∈ pre ++ q :: post, ∀ c c', q.prep c = some c' → src c' = src c) (h1 : firstOk q.key pre = none) :
    ∃ r, (cachedRun [] (pre ++ q :: post)).2[pre.length]? = some (r, true) ∧ r.map src = q.ask.map src := by
  rw [cachedRun_out]
  have h := cachedRun_cache src pre (fun q' hq => hp q' (by simp [hq])) q.key []
  rw [h1] at h
  simp only [aGet] at h
  unfold cachedLoad
  cases hc : aGet (cachedRun [] pre).1 q.key with
  | some c => rw [hc] at h; simp at h
  | none =>
    dsimp only
    cases ha : q.ask with
    | error e => exact ⟨.error e, rfl, rfl⟩
    | ok c =>
      cases hpc : q.prep c with
      | none => exact ⟨.ok c, by simp [hpc], rfl⟩
      | some c' => exact ⟨.ok c', by simp [hpc], by simp only [Except.map, hp q (by simp) c c' hpc]⟩

/-! ## Caching loader, calls overlapping -/

/-- `c` goes back to a successful answer of the inner loader for `k` -/
def FromInner {C E D : Type} (src : C → D) (s : CState C E) (k : String) (c : C) : Prop :=
  ∃ c0, (k, Except.ok c0) ∈ s.answers ∧ src c = src c0

structure CInv {C E D : Type} (src : C → D) (s : CState C E) : Prop where
  cache : ∀ k c, aGet s.cache k = some c → FromInner src s k c
  preparing : ∀ k b c, Call.preparing k b c ∈ s.calls → FromInner src s k c
  prepared : ∀ k b c, Call.prepared k b c ∈ s.calls → FromInner src s k c
  ok : ∀ k c, Call.done k (.ok c) ∈ s.calls → FromInner src s k c
  error : ∀ k e, Call.done k (.error e) ∈ s.calls → (k, Except.error e) ∈ s.answers

theorem FromInner.mono {C E D : Type} {src : C → D} {s s' : CState C E} {k : String} {c : C} (h : FromInner src s k c)
    (hs : ∀ a ∈ s.answers, a ∈ s'.answers) : FromInner src s' k c := by
  obtain ⟨c0, h1, h2⟩ := h
  exact ⟨c0, hs _ h1, h2⟩

/-- replacing one call, with the answers growing -/
theorem CInv.set {C E D : Type} {src : C → D} {s : CState C E} (h : CInv src s) (i : Nat) (x : Call C E)
    (answers : List (String × Except E C)) (hs : ∀ a ∈ s.answers, a ∈ answers)
    (hx : match x with
      | .preparing k _ c | .prepared k _ c | .done k (.ok c) => ∃ c0, (k, Except.ok c0) ∈ answers ∧ src c = src c0
      | .done k (.error e) => (k, Except.error e) ∈ answers
      | _ => True) : CInv src { s with calls := s.calls.set i x, answers := answers } := by
  have mem : ∀ y, y ∈ s.calls.set i x → y ∈ s.calls ∨ y = x := fun y hy => List.mem_or_eq_of_mem_set hy
  constructor
  · intro k c hc; exact (h.cache k c hc).mono hs
  · intro k b c hc
    rcases mem _ hc with hc | rfl
    · exact (h.preparing k b c hc).mono hs
    · exact hx
  · intro k b c hc
    rcases mem _ hc with hc | rfl
    · exact (h.prepared k b c hc).mono hs
    · exact hx
  · intro k c hc
    rcases mem _ hc with hc | rfl
    · exact (h.ok k c hc).mono hs
    · exact hx
  · intro k e hc
    rcases mem _ hc with hc | rfl
    · exact hs _ (h.error k e hc)
    · exact hx

theorem CInv.reach {C E D : Type} (src : C → D) {prep : C → C → Prop} (hp : ∀ c c', prep c c' → src c' = src c)
    {s : CState C E} (hr : CReach prep s) : CInv src s := by
  induction hr with
  | start => constructor <;> simp [aGet]
  | step s s' _ hstep h =>
    cases hstep with
    | call k =>
      constructor
      · exact h.cache
      · intro k b c hc; simp at hc; exact h.preparing k b c hc
      · intro k b c hc; simp at hc; exact h.prepared k b c hc
      · intro k c hc; simp at hc; exact h.ok k c hc
      · intro k c hc; simp at hc; exact h.error k c hc
    | hit i k c hi hc => exact h.set i _ s.answers (fun _ h => h) (h.cache k c hc)
    | miss i k hi hc => exact h.set i _ s.answers (fun _ h => h) trivial
    | fail i k e hi => exact h.set i _ _ (fun _ h => by simp [h]) (by simp)
    | answer i k c hi => exact h.set i _ _ (fun _ h => by simp [h]) ⟨c, by simp, rfl⟩
    | prepSame i k b c hi => exact h.set i _ s.answers (fun _ h => h) (h.preparing k b c (List.mem_of_getElem? hi))
    | prepNew i k b c c' hi hpc =>
      obtain ⟨c0, h1, h2⟩ := h.preparing k b c (List.mem_of_getElem? hi)
      exact h.set i _ s.answers (fun _ h => h) ⟨c0, h1, (hp c c' hpc).trans h2⟩
    | write i k c hi =>
      have hc := h.prepared k true c (List.mem_of_getElem? hi)
      have h' := h.set i (.done k (.ok c)) s.answers (fun _ h => h) hc
      exact ⟨fun k' c' hg => by
          dsimp only at hg
          rw [aGet_aSet] at hg
          split at hg
          · rename_i hk; subst hk; injection hg with hg; subst hg; exact hc
          · exact h.cache k' c' hg,
        h'.preparing, h'.prepared, h'.ok, h'.error⟩
    | ret i k c hi => exact h.set i _ s.answers (fun _ h => h) (h.prepared k false c (List.mem_of_getElem? hi))

/-- With any number of calls in any interleaving: a call for `k` returns a document the inner loader
has returned for that very key, or an error it has returned for it. -/
theorem C32_cached_concurrent {C E D : Type} (src : C → D) {prep : C → C → Prop}
    (hp : ∀ c c', prep c c' → src c' = src c) {s : CState C E} (hr : CReach prep s) (k : String) (r : Except E C)
    (hd : Call.done k r ∈ s.calls) :
    match r with
    | .ok c => ∃ c0, (k, Except.ok c0) ∈ s.answers ∧ src c = src c0
    | .error e => (k, Except.error e) ∈ s.answers := by
  cases r with
  | ok c => exact (CInv.reach src hp hr).ok k c hd
  | error e => exact (CInv.reach src hp hr).error k e hd

/-- Failures are not remembered, and a key is in the cache only if the inner loader has answered it
with content. -/
theorem C32_cached_no_failures {C E D : Type} (src : C → D) {prep : C → C → Prop}
    (hp : ∀ c c', prep c c' → src c' = src c) {s : CState C E} (hr : CReach prep s) (k : String)
    (h : ∀ c, (k, Except.ok c) ∉ s.answers) : aGet s.cache k = none := by
  cases hc : aGet s.cache k with
  | none => rfl
  | some c =>
    obtain ⟨c0, h1, _⟩ := (CInv.reach src hp hr).cache k c hc
    exact absurd h1 (h c0)

/-- When calls overlap, "the first load" is not what later calls get: two calls that both find the
cache empty load twice, and the second to finish replaces what the first has stored and returned. -/
theorem C32_overlap_replaces : ∃ s : CState Nat Unit, CReach (fun _ _ => False) s ∧
    s.answers = [("k", .ok 1), ("k", .ok 2)] ∧
    s.calls = [.done "k" (.ok 1), .done "k" (.ok 2), .done "k" (.ok 2)] := by
  refine ⟨⟨[("k", 2)], [.done "k" (.ok 1), .done "k" (.ok 2), .done "k" (.ok 2)], [("k", .ok 1), ("k", .ok 2)]⟩, ?_, rfl, rfl⟩
  refine .step _ _ (.step _ _ (.step _ _ (.step _ _ (.step _ _ (.step _ _ (.step _ _ (.step _ _ (.step _ _ (.step _ _
    (.step _ _ (.step _ _ (.step _ _ (.step _ _ .start
    (.call _ "k")) (.call _ "k")) (.miss _ 0 "k" rfl rfl)) (.miss _ 1 "k" rfl rfl)) (.answer _ 0 "k" 1 rfl))
    (.answer _ 1 "k" 2 rfl)) (.prepSame _ 0 "k" false 1 rfl)) (.prepSame _ 1 "k" false 2 rfl)) (.write _ 0 "k" 1 rfl))
    (.write _ 1 "k" 2 rfl)) (.call _ "k")) (.hit _ 2 "k" 2 rfl rfl)) (.prepSame _ 2 "k" true 2 rfl)) (.ret _ 2 "k" 2 rfl)

/-! ## Instances -/

example : ((MemLoader.run {} [.add "a" 1, .add "b" 2, .add "a" 3, .remove "b"]).1.step (.load "a")).2 = .loaded 3 :=
  C32_memory_added [.add "a" 1, .add "b" 2] [.remove "b"] "a" 3 (by simp [MemOp.touches])

/-- a failing, a succeeding and a further request for one key, with one for another key between -/
def demoReqs : List (Req Nat String) :=
  [⟨"a", .error "down", fun _ => none⟩, ⟨"a", .ok 1, fun _ => none⟩, ⟨"b", .ok 5, fun _ => none⟩, ⟨"a", .ok 2, fun _ => none⟩]

example : (cachedRun [] demoReqs).2 = [(.error "down", true), (.ok 1, true), (.ok 5, true), (.ok 1, false)] := rfl

example : firstOk "a" (demoReqs.take 3) = some 1 ∧ firstOk "a" (demoReqs.take 1) = none := ⟨rfl, rfl⟩

end Zen
