import Verif.Policy.Paths
/-
The driver that runs the blocks of a policy on demand (core/engine/src/policy/evaluator.rs:247-676).
What a block does is left open: its test phase, the reads its choice asks for, and its write phase are
parameters, acting on an arbitrary state (the store, the environment, the evaluator with its caches, the
trace).
-/
namespace Zen.Policy

/-- What the driver is given (`EvalArtifact`, evaluator.rs:28-41) and what blocks do -/
structure Sys (S P E : Type) where
  /-- `rule_by_ref.get(..).is_some()` -/
  rule : BlockRef → Bool
  /-- `writers_of_longest_prefix` (evaluator.rs:439-454) -/
  writersOf : String → List BlockRef
  /-- `read_plans.get(..)`, `unconditional` (empty when there is no plan) -/
  uncond : BlockRef → List String
  /-- `select_pick`, for all instances when the block is iterated (evaluator.rs:497-503, 533-536, 573-618; the choice of an
  iterated block also holds the instances, and says when there are none to iterate) -/
  select : BlockRef → S → Except E P × S
  /-- `Pick::collect_reads` (evaluator.rs:266-284, 537-540), sorted and without duplicates when the
  block is iterated (evaluator.rs:620-627) -/
  cond : BlockRef → P → List String
  /-- `commit_pick` and the trace (evaluator.rs:505-515, 544-561, 632-675) -/
  commit : BlockRef → P → S → Except E Unit × S

/-- `Driver` (evaluator.rs:247-258). `log` lists the blocks whose write phase came to its end, with their
choice. -/
structure St (S P : Type) where
  store : S
  ran : List BlockRef := []
  busy : List BlockRef := []
  log : List (BlockRef × P) := []

variable {S P E : Type}

/-- `try_for_each` over blocks; a list of paths asks for the writers of one path after the other
(`demand`, evaluator.rs:433-437) -/
def demandAll (run : BlockRef → St S P → Option (Except E Unit × St S P)) : List BlockRef → St S P → Option (Except E Unit × St S P)
  | [], st => some (.ok (), st)
  | b :: bs, st => match run b st with
    | none => none
    | some (.error e, st) => some (.error e, st)
    | some (.ok (), st) => demandAll run bs st

/-- from the test phase on (`run_singleton`, evaluator.rs:517-563; `run_iterated`, evaluator.rs:565-676) -/
def runPhases (Y : Sys S P E) (run : BlockRef → St S P → Option (Except E Unit × St S P)) (b : BlockRef) (st : St S P) :
    Option (Except E Unit × St S P) :=
  match Y.select b st.store with
  | (.error e, s) => some (.error e, { st with store := s })
  | (.ok p, s) => match demandAll run ((Y.cond b p).flatMap Y.writersOf) { st with store := s } with
    | none => none
    | some (.error e, st) => some (.error e, st)
    | some (.ok (), st) => match Y.commit b p st.store with
      | (.error e, s) => some (.error e, { st with store := s })
      | (.ok (), s) => some (.ok (), { st with store := s, log := st.log ++ [(b, p)] })

/-- `run_block_inner` (evaluator.rs:468-495) -/
def runInner (Y : Sys S P E) (run : BlockRef → St S P → Option (Except E Unit × St S P)) (b : BlockRef) (st : St S P) :
    Option (Except E Unit × St S P) :=
  if Y.rule b then match demandAll run ((Y.uncond b).flatMap Y.writersOf) st with
    | none => none
    | some (.error e, st) => some (.error e, st)
    | some (.ok (), st) => runPhases Y run b st
  else some (.ok (), st)

/-- `run_block` (evaluator.rs:456-466). The recursion of the code is bounded by the fuel; C36 shows that one
more than the number of blocks is enough. -/
def runBlock (Y : Sys S P E) : Nat → BlockRef → St S P → Option (Except E Unit × St S P)
  | 0, _, _ => none
  | n + 1, b, st =>
    if b ∈ st.ran ∨ b ∈ st.busy then some (.ok (), st)
    else match runInner Y (runBlock Y n) b { st with busy := b :: st.busy } with
      | none => none
      | some (.error e, st) => some (.error e, { st with busy := st.busy.erase b })
      | some (.ok (), st) => some (.ok (), { st with busy := st.busy.erase b, ran := b :: st.ran })

/-- the loop over the goals (evaluator.rs:132-138): `roots` are the goals of the request, or the final
properties when there are none -/
def drive (Y : Sys S P E) (fuel : Nat) (roots : List String) (store : S) : Option (Except E Unit × St S P) :=
  demandAll (runBlock Y fuel) (roots.flatMap Y.writersOf) { store := store }

end Zen.Policy
