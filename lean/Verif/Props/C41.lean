import Verif.Policy.Imports
import Mathlib.Data.List.Perm.Subperm
/-
C41  The policies assembled for an evaluation.
-/
namespace Zen.Policy
open Zen
variable {D E : Type}

/-! ## Specification -/

/-- the content of a policy: that of the entry is given, the others are loaded -/
def contentOf (load : String → Except E (PContent D)) (entry : String) (content : PContent D) (k : String) : Except E (PContent D) :=
  if k = entry then .ok content else load k

/-- reachable from the entry through imports -/
inductive ReachImp (load : String → Except E (PContent D)) (entry : String) (content : PContent D) : String → Prop where
  | entry : ReachImp load entry content entry
  | step {k i d} : ReachImp load entry content k → contentOf load entry content k = .ok (.policy d) → i ∈ d.imports →
      ReachImp load entry content i

/-! ## Invariant -/

section
variable (load : String → Except E (PContent D)) (entry : String) (content : PContent D)

structure CInv (enq : List String) (queue : List (String × PContent D)) (docs : List (String × PDoc D)) : Prop where
  split : enq = docs.map Prod.fst ++ queue.map Prod.fst
  nodup : enq.Nodup
  reach : ∀ k ∈ enq, ReachImp load entry content k
  queued : ∀ e ∈ queue, contentOf load entry content e.1 = .ok e.2
  docd : ∀ e ∈ docs, contentOf load entry content e.1 = .ok (.policy e.2)
  root : enq.head? = some entry

theorem enqueueAll_spec : ∀ (is enq : List String) (queue : List (String × PContent D)),
    (∀ i ∈ is, ReachImp load entry content i) → entry ∈ enq →
    (∀ e, enqueueAll load is enq queue = .error e → ∃ i err, ReachImp load entry content i ∧ contentOf load entry content i = .error err ∧ e = .load err) ∧
    (∀ enq' queue', enqueueAll load is enq queue = .ok (enq', queue') → ∃ new, enq' = enq ++ new.map Prod.fst ∧ queue' = queue ++ new ∧
      (enq.Nodup → enq'.Nodup) ∧ (∀ i ∈ is, i ∈ enq') ∧ (∀ e ∈ new, e.1 ∈ is ∧ contentOf load entry content e.1 = .ok e.2))
  | [], enq, queue, _, _ => by
    refine ⟨fun e h => (by cases h), fun enq' queue' h => ?_⟩
    injection h with h; injection h with h1 h2; subst h1; subst h2
    exact ⟨[], by simp, by simp, id, by simp, by simp⟩
  | i :: is, enq, queue, hr, he => by
    unfold enqueueAll
    by_cases hi : i ∈ enq
    · rw [if_pos hi]
      obtain ⟨h1, h2⟩ := enqueueAll_spec is enq queue (fun j hj => hr j (by simp [hj])) he
      refine ⟨h1, fun enq' queue' h => ?_⟩
      obtain ⟨new, a, b, c, d, e⟩ := h2 enq' queue' h
      refine ⟨new, a, b, c, ?_, fun x hx => ⟨List.mem_cons_of_mem _ (e x hx).1, (e x hx).2⟩⟩
      intro j hj
      rcases List.mem_cons.1 hj with rfl | hj
      · rw [a]; exact List.mem_append_left _ hi
      · exact d j hj
    · rw [if_neg hi]
      have hne : i ≠ entry := fun h => hi (h ▸ he)
      have hc : contentOf load entry content i = load i := by unfold contentOf; rw [if_neg hne]
      cases hl : load i with
      | error err =>
        dsimp only
        refine ⟨fun e h => ?_, fun _ _ h => by cases h⟩
        injection h with h; subst h
        exact ⟨i, err, hr i (by simp), hc.trans hl, rfl⟩
      | ok c =>
        dsimp only
        obtain ⟨h1, h2⟩ := enqueueAll_spec is (enq ++ [i]) (queue ++ [(i, c)]) (fun j hj => hr j (by simp [hj])) (by simp [he])
        refine ⟨h1, fun enq' queue' h => ?_⟩
        obtain ⟨new, a, b, cc, d, e⟩ := h2 enq' queue' h
        refine ⟨(i, c) :: new, by rw [a]; simp, by rw [b]; simp, ?_, ?_, ?_⟩
        · intro hn
          refine cc ?_
          rw [List.nodup_append]
          refine ⟨hn, by simp, ?_⟩
          intro x hx y hy
          rw [List.mem_singleton.1 hy]
          rintro rfl
          exact hi hx
        · intro j hj
          rcases List.mem_cons.1 hj with rfl | hj
          · rw [a]; simp
          · exact d j hj
        · intro x hx
          rcases List.mem_cons.1 hx with rfl | hx
          · exact ⟨by simp, hc.trans hl⟩
          · exact ⟨List.mem_cons_of_mem _ (e x hx).1, (e x hx).2⟩

/-- what a finished collection looks like -/
def Collected (docs : List (String × PDoc D)) : Prop :=
  (docs.map Prod.fst).Nodup ∧ (docs.map Prod.fst).head? = some entry ∧ (∀ k, k ∈ docs.map Prod.fst ↔ ReachImp load entry content k) ∧
    ∀ e ∈ docs, contentOf load entry content e.1 = .ok (.policy e.2)

def CollectErr (e : PErr E) : Prop :=
  ∃ k, ReachImp load entry content k ∧
    ((∃ err, contentOf load entry content k = .error err ∧ e = .load err) ∨ (contentOf load entry content k = .ok .graph ∧ e = .kind k))

theorem collectLoop_spec : ∀ n enq queue docs r, CInv load entry content enq queue docs →
    (∀ e ∈ docs, ∀ i ∈ e.2.imports, i ∈ enq) → collectLoop load n enq queue docs = some r →
    match r with
    | .ok docs => Collected load entry content docs
    | .error e => CollectErr load entry content e
  | 0, _, _, _, _, _, _, h => by cases h
  | n + 1, enq, [], docs, r, hi, hcl, h => by
    injection h with h; subst h
    have he : enq = docs.map Prod.fst := by have := hi.split; simpa using this
    refine ⟨he ▸ hi.nodup, he ▸ hi.root, fun k => ⟨fun hk => hi.reach k (he ▸ hk), fun hk => ?_⟩, hi.docd⟩
    rw [← he]
    induction hk with
    | entry => exact List.mem_of_mem_head? (by rw [hi.root]; rfl)
    | @step a i d _ hc hm ih =>
      rw [he] at ih
      obtain ⟨e, hem, rfl⟩ := List.mem_map.1 ih
      have := (hi.docd e hem).symm.trans hc
      injection this with this; injection this with this
      exact hcl e hem i (this ▸ hm)
  | n + 1, enq, (path, c) :: queue, docs, r, hi, hcl, h => by
    have hpath : ReachImp load entry content path := hi.reach path (by rw [hi.split]; simp)
    have hpc : contentOf load entry content path = .ok c := hi.queued (path, c) (by simp)
    cases c with
    | graph =>
      injection h with h; subst h
      exact ⟨path, hpath, .inr ⟨hpc, rfl⟩⟩
    | policy d =>
      unfold collectLoop at h
      dsimp only at h
      obtain ⟨s1, s2⟩ := enqueueAll_spec load entry content d.imports enq queue (fun i hm => .step hpath hpc hm)
        (List.mem_of_mem_head? (by rw [hi.root]; rfl))
      cases hq : enqueueAll load d.imports enq queue with
      | error e =>
        rw [hq] at h
        injection h with h; subst h
        obtain ⟨i, err, a, b, c⟩ := s1 e hq
        exact ⟨i, a, .inl ⟨err, b, c⟩⟩
      | ok q =>
        obtain ⟨enq', queue'⟩ := q
        rw [hq] at h
        obtain ⟨new, e1, e2, e3, e4, e5⟩ := s2 enq' queue' hq
        refine collectLoop_spec n enq' queue' _ r ⟨?_, e3 hi.nodup, ?_, ?_, ?_, ?_⟩ ?_ h
        · rw [e1, e2, hi.split]; simp
        · intro k hk
          rw [e1] at hk
          rcases List.mem_append.1 hk with hk | hk
          · exact hi.reach k hk
          · obtain ⟨x, hx, rfl⟩ := List.mem_map.1 hk
            exact .step hpath hpc (e5 x hx).1
        · intro x hx
          rw [e2] at hx
          rcases List.mem_append.1 hx with hx | hx
          · exact hi.queued x (List.mem_cons_of_mem _ hx)
          · exact (e5 x hx).2
        · intro x hx
          rcases List.mem_append.1 hx with hx | hx
          · exact hi.docd x hx
          · rw [List.mem_singleton.1 hx]; exact hpc
        · rw [e1]
          have := hi.root
          cases henq : enq with
          | nil => rw [henq] at this; cases this
          | cons a l => rw [henq] at this; exact this
        · intro x hx i him
          rcases List.mem_append.1 hx with hx | hx
          · rw [e1]; exact List.mem_append_left _ (hcl x hx i him)
          · rw [List.mem_singleton.1 hx] at him; exact e4 i him

theorem cinv_start : CInv load entry content [entry] [(entry, content)] [] :=
  ⟨rfl, by simp, by intro k hk; rw [List.mem_singleton.1 hk]; exact .entry,
    by intro e he; rw [List.mem_singleton.1 he]; unfold contentOf; rw [if_pos rfl], by simp, rfl⟩

theorem collectLoop_total {U : List String} (hU : ∀ k, ReachImp load entry content k → k ∈ U) : ∀ n enq queue docs,
    CInv load entry content enq queue docs → U.length + 1 ≤ n + docs.length → collectLoop load n enq queue docs ≠ none
  | 0, enq, queue, docs, hi, hn => by
    exfalso
    have hlen := (List.subperm_of_subset hi.nodup fun k hk => hU k (hi.reach k hk)).length_le
    rw [hi.split] at hlen
    simp at hlen
    omega
  | n + 1, enq, [], docs, hi, hn => by intro h; cases h
  | n + 1, enq, (path, c) :: queue, docs, hi, hn => by
    have hpath : ReachImp load entry content path := hi.reach path (by rw [hi.split]; simp)
    have hpc : contentOf load entry content path = .ok c := hi.queued (path, c) (by simp)
    cases c with
    | graph => intro h; cases h
    | policy d =>
      unfold collectLoop
      dsimp only
      obtain ⟨s1, s2⟩ := enqueueAll_spec load entry content d.imports enq queue (fun i hm => .step hpath hpc hm)
        (List.mem_of_mem_head? (by rw [hi.root]; rfl))
      cases hq : enqueueAll load d.imports enq queue with
      | error e => intro h; cases h
      | ok q =>
        obtain ⟨enq', queue'⟩ := q
        obtain ⟨new, e1, e2, e3, e4, e5⟩ := s2 enq' queue' hq
        refine collectLoop_total hU n enq' queue' _ ⟨?_, e3 hi.nodup, ?_, ?_, ?_, ?_⟩ (by simp; omega)
        · rw [e1, e2, hi.split]; simp
        · intro k hk
          rw [e1] at hk
          rcases List.mem_append.1 hk with hk | hk
          · exact hi.reach k hk
          · obtain ⟨x, hx, rfl⟩ := List.mem_map.1 hk
            exact .step hpath hpc (e5 x hx).1
        · intro x hx
          rw [e2] at hx
          rcases List.mem_append.1 hx with hx | hx
          · exact hi.queued x (List.mem_cons_of_mem _ hx)
          · exact (e5 x hx).2
        · intro x hx
          rcases List.mem_append.1 hx with hx | hx
          · exact hi.docd x hx
          · rw [List.mem_singleton.1 hx]; exact hpc
        · rw [e1]
          have := hi.root
          cases henq : enq with
          | nil => rw [henq] at this; cases this
          | cons a l => rw [henq] at this; exact this

end

/-! ## Theorems -/

/-- A successful collection holds every policy reachable through imports, no other, each once, the entry first,
each with its own document. -/
theorem C41_closure {load : String → Except E (PContent D)} {fuel : Nat} {entry : String} {content : PContent D} {docs : List (String × PDoc D)}
    (h : collectPolicies load fuel entry content = some (.ok docs)) :
    (docs.map Prod.fst).Nodup ∧ (docs.map Prod.fst).head? = some entry ∧ (∀ k, k ∈ docs.map Prod.fst ↔ ReachImp load entry content k) ∧
      ∀ e ∈ docs, contentOf load entry content e.1 = .ok (.policy e.2) :=
  collectLoop_spec load entry content fuel _ _ _ _ (cinv_start load entry content) (by simp) h

/-- A collection fails only over a reachable key that cannot be loaded or is not a policy. -/
theorem C41_failure {load : String → Except E (PContent D)} {fuel : Nat} {entry : String} {content : PContent D} {e : PErr E}
    (h : collectPolicies load fuel entry content = some (.error e)) : ∃ k, ReachImp load entry content k ∧
      ((∃ err, contentOf load entry content k = .error err ∧ e = .load err) ∨ (contentOf load entry content k = .ok .graph ∧ e = .kind k)) :=
  collectLoop_spec load entry content fuel _ _ _ _ (cinv_start load entry content) (by simp) h

/-- The collection ends for every import graph with finitely many reachable keys, cyclic or not. -/
theorem C41_terminates (load : String → Except E (PContent D)) (entry : String) (content : PContent D) (U : List String)
    (hU : ∀ k, ReachImp load entry content k → k ∈ U) : ∃ r, collectPolicies load (U.length + 1) entry content = some r := by
  cases h : collectPolicies load (U.length + 1) entry content with
  | none => exact absurd h (collectLoop_total load entry content hU _ _ _ _ (cinv_start load entry content) (by simp))
  | some r => exact ⟨r, rfl⟩

/-- It succeeds exactly when every reachable key holds a policy. -/
theorem C41_success_iff (load : String → Except E (PContent D)) (entry : String) (content : PContent D) (U : List String)
    (hU : ∀ k, ReachImp load entry content k → k ∈ U) : (∃ docs, collectPolicies load (U.length + 1) entry content = some (.ok docs)) ↔
      ∀ k, ReachImp load entry content k → ∃ d, contentOf load entry content k = .ok (.policy d) := by
  constructor
  · rintro ⟨docs, h⟩ k hk
    obtain ⟨_, _, h1, h2⟩ := C41_closure h
    obtain ⟨e, he, rfl⟩ := List.mem_map.1 ((h1 k).2 hk)
    exact ⟨e.2, h2 e he⟩
  · intro hall
    obtain ⟨r, hr⟩ := C41_terminates load entry content U hU
    cases r with
    | ok docs => exact ⟨docs, hr⟩
    | error e =>
      obtain ⟨k, hk, h⟩ := C41_failure hr
      obtain ⟨d, hd⟩ := hall k hk
      rcases h with ⟨err, h, _⟩ | ⟨h, _⟩ <;> rw [hd] at h <;> cases h

/-! ## Instances -/

/-- `a` imports `b` and `c`, `b` imports `c` and `a`, `c` imports itself; `x` is not imported -/
def demoLoad : String → Except String (PContent Nat)
  | "a" => .ok (.policy ⟨["b", "c"], 0⟩)
  | "b" => .ok (.policy ⟨["c", "a"], 1⟩)
  | "c" => .ok (.policy ⟨["c"], 2⟩)
  | "x" => .ok (.policy ⟨["a"], 3⟩)
  | "g" => .ok .graph
  | k => .error k

example : (match collectPolicies demoLoad 5 "a" (.policy ⟨["b", "c"], 0⟩) with
    | some (.ok docs) => docs.map fun e => (e.1, e.2.body) | _ => []) = [("a", 0), ("b", 1), ("c", 2)] := by decide +kernel

/-- an import that is a graph is an error -/
example : (match collectPolicies demoLoad 5 "r" (.policy ⟨["g"], 0⟩) with
    | some (.error (.kind k)) => k | _ => "") = "g" := by decide +kernel

end Zen.Policy
