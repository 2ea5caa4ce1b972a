import Verif.Policy.UnitLemmas
import Verif.Props.C09
/-
C59  What an assertion means: conditions in nested groups, joined from left to right.
-/
namespace Zen.Policy
open Zen

/-! ## Specification -/

/-- conditions and groups of conditions; a condition has its result and the operator that follows it -/
inductive Item where
  | leaf (holds : Bool) (op : COp)
  | group (items : List Item)

/-- what has been found so far is joined with the next result -/
def joined : Option (Bool × COp) → Bool → Bool
  | none, b => b
  | some (acc, .and), b => acc && b
  | some (acc, .or), b => acc || b

mutual
/-- the result of a condition or group, and the operator that follows it: for a group, the one of its last condition -/
def Item.result : Item → Bool × COp
  | .leaf b op => (b, op)
  | .group xs => (resultFrom none xs).getD (false, .and)
/-- from left to right, all operators alike -/
def resultFrom (sofar : Option (Bool × COp)) : List Item → Option (Bool × COp)
  | [] => sofar
  | x :: xs => resultFrom (some (joined sofar x.result.1, x.result.2)) xs
end

mutual
/-- the list of conditions, each with its depth -/
def Item.flat (d : Nat) : Item → List (Bool × COp × Nat)
  | .leaf b op => [(b, op, d)]
  | .group xs => flatten (d + 1) xs
def flatten (d : Nat) : List Item → List (Bool × COp × Nat)
  | [] => []
  | x :: xs => x.flat d ++ flatten d xs
end

def Item.isLeaf : Item → Bool
  | .leaf _ _ => true
  | .group _ => false

mutual
/-- groups are not empty and do not follow one another directly (two that do cannot be told from one) -/
def Item.proper : Item → Bool
  | .leaf _ _ => true
  | .group xs => !xs.isEmpty && properL xs
def properL : List Item → Bool
  | [] => true
  | x :: xs => x.proper && (x.isLeaf || (xs.head?.map Item.isLeaf).getD true) && properL xs
end

/-! ## The loop over results -/

def ASt.step (a : ASt) (c : Bool × COp × Nat) : ASt :=
  let a := a.goto c.2.2
  { a with acc := if a.started then a.combine.apply a.acc c.1 else c.1, started := true, combine := c.2.1 }

def ASt.finish (a : ASt) : Bool := a.stack.foldl (fun acc f => f.close acc) a.acc

/-- the conditions with their results -/
def rated (F : FrontEnd) (B : Builtins) (s : Scope) (cs : List Cond) (rs : List (Bool × COp × Nat)) : Prop :=
  List.Forall₂ (fun c r => ∃ v, freshRun F B s .standard c.expression = .ok v ∧ r = (truthy v, c.op, c.depth)) cs rs

theorem condLoop_ok {F : FrontEnd} {B : Builtins} {s : Scope} {cs : List Cond} {rs : List (Bool × COp × Nat)} (h : rated F B s cs rs) :
    ∀ a : ASt, condLoop F B s cs a = .ok (rs.foldl ASt.step a).finish := by
  induction h with
  | nil => intro a; rfl
  | cons hc _ ih =>
    intro a
    obtain ⟨v, hv, rfl⟩ := hc
    unfold condLoop
    rw [hv]
    exact ih _

theorem condLoop_err {F : FrontEnd} {B : Builtins} {s : Scope} {c : Cond} {e : IErr} (hc : freshRun F B s .standard c.expression = .error e) (post : List Cond) :
    ∀ (pre : List Cond) (a : ASt), (∀ x ∈ pre, ∃ v, freshRun F B s .standard x.expression = .ok v) →
      condLoop F B s (pre ++ c :: post) a = .error (c.expression, e)
  | [], a, _ => by
    rw [List.nil_append, condLoop, hc]
  | x :: pre, a, h => by
    obtain ⟨v, hv⟩ := h x (by simp)
    rw [List.cons_append, condLoop, hv]
    exact condLoop_err hc post pre _ fun y hy => h y (by simp [hy])

/-! ## The loop and the groups -/

theorem down_depth : ∀ (n : Nat) (a : ASt), (a.down n).depth = a.depth + n
  | 0, a => rfl
  | n + 1, a => by rw [ASt.down, down_depth n]; simp only []; omega

theorem up_add : ∀ (m n : Nat) (a : ASt), a.up (m + n) = (a.up m).up n
  | 0, n, a => by rw [Nat.zero_add]; rfl
  | m + 1, n, a => by
    rw [Nat.add_right_comm, ASt.up, ASt.up]
    exact up_add m n _

theorem goto_up {a : ASt} {k : Nat} (h : k ≤ a.depth) : a.goto k = a.up (a.depth - k) := by
  unfold ASt.goto
  rw [Nat.sub_eq_zero_of_le h]
  rfl

theorem goto_self {a : ASt} {k : Nat} (h : a.depth = k) : a.goto k = a := by
  rw [goto_up (by omega), h, Nat.sub_self]
  rfl

/-- going down starts with one step -/
theorem goto_down {a : ASt} {k : Nat} (h : a.depth < k) : a.goto k = (a.down 1).goto k := by
  have h1 : (a.down 1).depth = a.depth + 1 := down_depth 1 a
  have e : k - a.depth = (k - (a.down 1).depth) + 1 := by rw [h1]; omega
  unfold ASt.goto
  rw [e, ASt.down]
  rfl

def ASt.sofar (a : ASt) : Option (Bool × COp) := if a.started then some (a.acc, a.combine) else none

def ASt.put (a : ASt) : Option (Bool × COp) → ASt
  | none => a
  | some (b, op) => { a with acc := b, started := true, combine := op }

theorem put_sofar (a : ASt) : a.put a.sofar = a := by
  obtain ⟨s, acc, st, d, c⟩ := a
  cases st <;> cases c <;> rfl

theorem resultFrom_some : ∀ (xs : List Item) (y : Bool × COp), ∃ z, resultFrom (some y) xs = some z
  | [], y => ⟨y, by rw [resultFrom]⟩
  | x :: xs, y => by
    rw [resultFrom]
    exact resultFrom_some xs _

mutual
/-- the conditions of items lie at their depth or deeper -/
theorem flat_depth : ∀ (x : Item) (d : Nat), ∀ c ∈ x.flat d, d ≤ c.2.2
  | .leaf b op, d, c, hc => by rw [Item.flat, List.mem_singleton] at hc; rw [hc]
  | .group xs, d, c, hc => by rw [Item.flat] at hc; exact Nat.le_of_succ_le (flatten_depth xs (d + 1) c hc)
theorem flatten_depth : ∀ (xs : List Item) (d : Nat), ∀ c ∈ flatten d xs, d ≤ c.2.2
  | [], d, c, hc => by rw [flatten] at hc; cases hc
  | x :: xs, d, c, hc => by
    rw [flatten] at hc
    rcases List.mem_append.1 hc with hc | hc
    · exact flat_depth x d c hc
    · exact flatten_depth xs d c hc
end

mutual
theorem flat_ne : ∀ (x : Item) (d : Nat), x.proper = true → x.flat d ≠ []
  | .leaf b op, d, _ => by rw [Item.flat]; simp
  | .group xs, d, h => by
    rw [Item.proper, Bool.and_eq_true] at h
    rw [Item.flat]
    exact flatten_ne xs (d + 1) h.2 (by rintro rfl; exact absurd h.1 (by simp))
theorem flatten_ne : ∀ (xs : List Item) (d : Nat), properL xs = true → xs ≠ [] → flatten d xs ≠ []
  | [], d, _, h => absurd rfl h
  | x :: xs, d, hp, _ => by
    rw [properL, Bool.and_eq_true, Bool.and_eq_true] at hp
    rw [flatten]
    exact fun e => flat_ne x d hp.1.1 (List.append_eq_nil_iff.1 e).1
end

theorem step_congr {a a' : ASt} {c : Bool × COp × Nat} (h : a.goto c.2.2 = a'.goto c.2.2) : a.step c = a'.step c := by
  unfold ASt.step
  rw [h]

theorem foldl_step {a a' : ASt} {cs : List (Bool × COp × Nat)} (hne : cs ≠ []) (h : ∀ c, cs.head? = some c → a.goto c.2.2 = a'.goto c.2.2) :
    cs.foldl ASt.step a = cs.foldl ASt.step a' := by
  cases cs with
  | nil => exact absurd rfl hne
  | cons c cs => rw [List.foldl_cons, List.foldl_cons, step_congr (h c rfl)]

mutual
/-- after the conditions of a group, going up to where it started leaves what the group gives joined with what there was before -/
theorem run_group : ∀ (x : Item) (d : Nat) (a : ASt), x.proper = true → a.depth = d →
    let a' := (x.flat d).foldl ASt.step a
    d ≤ a'.depth ∧ (x.isLeaf = true → a'.depth = d) ∧ a'.up (a'.depth - d) = a.put (some (joined a.sofar x.result.1, x.result.2))
  | .leaf b op, d, a, _, hd => by
    subst hd
    have hg := goto_self (a := a) rfl
    generalize hdd : a.depth = d at hg ⊢
    have e : (Item.leaf b op).flat d = [(b, op, d)] := by rw [Item.flat]
    have e2 : (Item.leaf b op).result = (b, op) := by rw [Item.result]
    rw [e, e2]
    simp only [List.foldl_cons, List.foldl_nil, ASt.step, hg]
    refine ⟨by omega, fun _ => hdd, ?_⟩
    rw [hdd, Nat.sub_self]
    subst hdd
    obtain ⟨s, acc, st, dd, c⟩ := a
    cases st <;> cases c <;> rfl
  | .group xs, d, a, hp, hd => by
    rw [Item.proper, Bool.and_eq_true] at hp
    have hne : xs ≠ [] := by rintro rfl; exact absurd hp.1 (by simp)
    have e : (Item.group xs).flat d = flatten (d + 1) xs := by rw [Item.flat]
    rw [e]
    have hstart : (flatten (d + 1) xs).foldl ASt.step a = (flatten (d + 1) xs).foldl ASt.step (a.down 1) := by
      refine foldl_step (flatten_ne xs _ hp.2 hne) fun c hc => goto_down ?_
      have := flatten_depth xs (d + 1) c (List.mem_of_mem_head? hc)
      omega
    obtain ⟨h1, h2⟩ := run_items xs (d + 1) (a.down 1) hp.2 (by rw [down_depth, hd])
    rw [hstart]
    dsimp only
    refine ⟨by omega, fun h => (by cases h), ?_⟩
    generalize (flatten (d + 1) xs).foldl ASt.step (a.down 1) = a' at h1 h2 ⊢
    rw [show a'.depth - d = (a'.depth - (d + 1)) + 1 by omega, up_add, h2]
    have hs : (a.down 1).sofar = none := rfl
    rw [hs]
    have hr : (Item.group xs).result = (resultFrom none xs).getD (false, .and) := by rw [Item.result]
    rw [hr]
    cases xs with
    | nil => exact absurd rfl hne
    | cons x xs =>
      rw [resultFrom]
      obtain ⟨⟨b, op⟩, hz⟩ := resultFrom_some xs (joined none x.result.1, x.result.2)
      rw [hz]
      obtain ⟨s, acc, st, dd, c⟩ := a
      cases st <;> cases c <;> rfl
theorem run_items : ∀ (xs : List Item) (d : Nat) (a : ASt), properL xs = true → a.depth = d →
    let a' := (flatten d xs).foldl ASt.step a
    d ≤ a'.depth ∧ a'.up (a'.depth - d) = a.put (resultFrom a.sofar xs)
  | [], d, a, _, hd => by
    have e : flatten d [] = [] := by rw [flatten]
    have e2 : resultFrom a.sofar [] = a.sofar := by rw [resultFrom]
    rw [e, e2, put_sofar]
    simp only [List.foldl_nil]
    refine ⟨by omega, ?_⟩
    rw [hd, Nat.sub_self]
    rfl
  | x :: xs, d, a, hp, hd => by
    rw [properL, Bool.and_eq_true, Bool.and_eq_true] at hp
    obtain ⟨⟨hx, hadj⟩, hxs⟩ := hp
    obtain ⟨g1, g2, g3⟩ := run_group x d a hx hd
    have e : flatten d (x :: xs) = x.flat d ++ flatten d xs := by rw [flatten]
    have e2 : resultFrom a.sofar (x :: xs) = resultFrom (some (joined a.sofar x.result.1, x.result.2)) xs := by rw [resultFrom]
    rw [e, e2, List.foldl_append]
    generalize (x.flat d).foldl ASt.step a = a' at g1 g2 g3 ⊢
    cases xs with
    | nil =>
      have e3 : flatten d [] = [] := by rw [flatten]
      have e4 : resultFrom (some (joined a.sofar x.result.1, x.result.2)) [] = some (joined a.sofar x.result.1, x.result.2) := by rw [resultFrom]
      rw [e3, e4]
      exact ⟨g1, g3⟩
    | cons y ys =>
      -- the next item starts from where the group is closed
      have hsame : (flatten d (y :: ys)).foldl ASt.step a' = (flatten d (y :: ys)).foldl ASt.step (a.put (some (joined a.sofar x.result.1, x.result.2))) := by
        refine foldl_step (flatten_ne _ d hxs (by simp)) fun c hc => ?_
        rw [← g3]
        cases hl : x.isLeaf with
        | true =>
          have := g2 hl
          rw [this, Nat.sub_self]
          rfl
        | false =>
          have hy : y.isLeaf = true := by simpa [hl] using hadj
          have hcd : c.2.2 = d := by
            cases y with
            | leaf b op =>
              have e5 : flatten d (Item.leaf b op :: ys) = (b, op, d) :: flatten d ys := by rw [flatten, Item.flat]; rfl
              rw [e5] at hc
              injection hc with hc
              rw [← hc]
            | group zs => cases hy
          rw [hcd, goto_up g1]
          refine (goto_self ?_).symm
          rw [g3]
          exact hd
      rw [hsame]
      have := run_items (y :: ys) d (a.put (some (joined a.sofar x.result.1, x.result.2))) hxs hd
      obtain ⟨z, hz⟩ := resultFrom_some (y :: ys) (joined a.sofar x.result.1, x.result.2)
      rw [show (a.put (some (joined a.sofar x.result.1, x.result.2))).sofar = some (joined a.sofar x.result.1, x.result.2) from rfl, hz] at this
      rw [hz]
      exact this
end

/-! ## Every list of conditions comes from groups -/

theorem forest : ∀ (n d : Nat) (cs : List (Bool × COp × Nat)), (cs.map fun c => c.2.2 - d + 1).sum ≤ n → (∀ c ∈ cs, d ≤ c.2.2) →
    ∃ xs, properL xs = true ∧ flatten d xs = cs ∧ ∀ c r, cs = c :: r → c.2.2 = d → (xs.head?.map Item.isLeaf).getD true = true
  | 0, d, cs, hn, _ => by
    cases cs with
    | nil => exact ⟨[], by rw [properL], by rw [flatten], fun c r h => by cases h⟩
    | cons c r => simp at hn
  | n + 1, d, cs, hn, hd => by
    cases cs with
    | nil => exact ⟨[], by rw [properL], by rw [flatten], fun c r h => by cases h⟩
    | cons c r =>
      obtain ⟨b, op, k⟩ := c
      by_cases hk : k = d
      · subst hk
        obtain ⟨xs, h1, h2, _⟩ := forest n k r (by simp at hn ⊢; omega) fun x hx => hd x (by simp [hx])
        refine ⟨.leaf b op :: xs, ?_, ?_, fun _ _ _ _ => rfl⟩
        · rw [properL, h1, Item.proper]; rfl
        · rw [flatten, Item.flat, h2]; rfl
      · -- the longest run below
        have hsplit : ((b, op, k) :: r) = ((b, op, k) :: r).takeWhile (fun c => decide (d < c.2.2)) ++ ((b, op, k) :: r).dropWhile (fun c => decide (d < c.2.2)) :=
          (List.takeWhile_append_dropWhile).symm
        have hkd : d < k := by have := hd (b, op, k) (by simp); dsimp only at this; omega
        have htake : ((b, op, k) :: r).takeWhile (fun c => decide (d < c.2.2)) = (b, op, k) :: r.takeWhile (fun c => decide (d < c.2.2)) := by
          rw [List.takeWhile_cons]; simp [hkd]
        have hdrop : ((b, op, k) :: r).dropWhile (fun c => decide (d < c.2.2)) = r.dropWhile (fun c => decide (d < c.2.2)) := by
          rw [List.dropWhile_cons]; simp [hkd]
        rw [htake, hdrop] at hsplit
        have hdeep : ∀ c ∈ (b, op, k) :: r.takeWhile (fun c => decide (d < c.2.2)), d < c.2.2 := by
          intro c hc
          rw [← htake] at hc
          simpa using List.all_eq_true.1 List.all_takeWhile c hc
        have hshift : ∀ l : List (Bool × COp × Nat), (∀ c ∈ l, d < c.2.2) →
            (l.map fun c => c.2.2 - (d + 1) + 1).sum + l.length = (l.map fun c => c.2.2 - d + 1).sum := by
          intro l
          induction l with
          | nil => intro _; rfl
          | cons c l ih =>
            intro h
            have h1 := ih fun x hx => h x (by simp [hx])
            have h2 := h c (by simp)
            simp only [List.map_cons, List.sum_cons, List.length_cons]
            omega
        have hsum := hn
        rw [hsplit, List.map_append, List.sum_append, ← hshift _ hdeep, List.length_cons] at hsum
        obtain ⟨ys, y1, y2, _⟩ := forest n (d + 1) ((b, op, k) :: r.takeWhile (fun c => decide (d < c.2.2))) (by omega) fun c hc => hdeep c hc
        obtain ⟨xs, x1, x2, x3⟩ := forest n d (r.dropWhile (fun c => decide (d < c.2.2))) (by omega)
          fun c hc => hd c (List.mem_cons_of_mem _ ((List.dropWhile_sublist _).mem hc))
        have hne : ys ≠ [] := by rintro rfl; rw [flatten] at y2; cases y2
        refine ⟨.group ys :: xs, ?_, ?_, fun c r' h hc => ?_⟩
        · rw [properL, Item.proper, y1, x1, Bool.and_eq_true, Bool.and_eq_true, Bool.and_eq_true]
          refine ⟨⟨⟨by simpa using hne, rfl⟩, ?_⟩, rfl⟩
          rw [Bool.or_eq_true]
          refine .inr ?_
          cases hr : r.dropWhile (fun c => decide (d < c.2.2)) with
          | nil =>
            have : xs = [] := by
              cases xs with
              | nil => rfl
              | cons x xs => exact absurd (x2.trans hr) (flatten_ne _ d x1 (by simp))
            rw [this]; rfl
          | cons c r' =>
            refine x3 c r' hr ?_
            have h1 : ¬ decide (d < c.2.2) = true := by
              have := List.head_dropWhile_not (fun c : Bool × COp × Nat => decide (d < c.2.2)) (l := r) (by rw [hr]; simp)
              simp only [hr, List.head_cons] at this
              rw [this]; simp
            have h2 := hd c (List.mem_cons_of_mem _ ((List.dropWhile_sublist _).mem (by rw [hr]; simp)))
            simp only [decide_eq_true_eq] at h1
            omega
        · rw [flatten, Item.flat, y2, x2]
          exact hsplit.symm
        · injection h with h _
          rw [← h] at hc
          exact absurd hc hk

/-! ## The frames left open -/

def Bal (a : ASt) : Prop := a.stack.length = a.depth

theorem bal_down : ∀ (n : Nat) (a : ASt), Bal a → Bal (a.down n)
  | 0, _, h => h
  | n + 1, a, h => bal_down n _ (by simp only [Bal, List.length_cons] at h ⊢; omega)

theorem bal_up : ∀ (n : Nat) (a : ASt), Bal a → Bal (a.up n)
  | 0, _, h => h
  | n + 1, a, h => by
    refine bal_up n _ ?_
    cases hs : a.stack with
    | nil => simp only [Bal, hs, List.length_nil] at h ⊢; omega
    | cons f fs => simp only [Bal, hs, List.length_cons] at h ⊢; omega

theorem bal_steps : ∀ (cs : List (Bool × COp × Nat)) (a : ASt), Bal a → Bal (cs.foldl ASt.step a)
  | [], _, h => h
  | _ :: cs, _, h => bal_steps cs _ (bal_up _ _ (bal_down _ _ h))

theorem finish_up : ∀ (n : Nat) (a : ASt), Bal a → a.depth = n → a.finish = (a.up n).acc
  | 0, a, h, hd => by
    have : a.stack = [] := List.length_eq_zero_iff.1 (h.trans hd)
    unfold ASt.finish
    rw [this]
    rfl
  | n + 1, a, h, hd => by
    cases hs : a.stack with
    | nil => simp only [Bal, hs, List.length_nil] at h; omega
    | cons f fs =>
      rw [ASt.up, hs]
      dsimp only
      rw [← finish_up n _ (by simp only [Bal, hs, List.length_cons] at h ⊢; omega) (by simp only []; omega)]
      unfold ASt.finish
      rw [hs]
      rfl

/-! ## Theorems -/

/-- The conditions of an assertion, with what they evaluate to, are those of some groups, and the assertion gives what the groups give. -/
theorem C59_groups (F : FrontEnd) (B : Builtins) (s : Scope) (cs : List Cond) (rs : List (Bool × COp × Nat)) (hne : cs ≠ []) (h : rated F B s cs rs) :
    (∃ xs, properL xs = true ∧ flatten 0 xs = rs) ∧
    ∀ xs, properL xs = true → flatten 0 xs = rs → ∃ b op, resultFrom none xs = some (b, op) ∧ evalConds F B s cs = .ok b := by
  constructor
  · obtain ⟨xs, h1, h2, _⟩ := forest _ 0 rs (Nat.le_refl _) fun c _ => Nat.zero_le _
    exact ⟨xs, h1, h2⟩
  · intro xs hp hfl
    have hxs : xs ≠ [] := by
      rintro rfl
      rw [flatten] at hfl
      subst hfl
      cases h
      exact hne rfl
    obtain ⟨⟨b, op⟩, hz⟩ : ∃ z, resultFrom none xs = some z := by
      cases xs with
      | nil => exact absurd rfl hxs
      | cons x xs => rw [resultFrom]; exact resultFrom_some xs _
    refine ⟨b, op, hz, ?_⟩
    have he : cs.isEmpty = false := by cases cs with | nil => exact absurd rfl hne | cons c cs => rfl
    unfold evalConds
    rw [he, if_neg (by simp), condLoop_ok h, ← hfl]
    obtain ⟨_, h2⟩ := run_items xs 0 {} hp rfl
    rw [show ASt.sofar {} = none from rfl, hz, Nat.sub_zero] at h2
    rw [finish_up _ _ (bal_steps _ {} (show Bal {} from rfl)) rfl, h2]
    rfl

/-- All conditions are evaluated, and the first that cannot be fails the assertion. -/
theorem C59_error (F : FrontEnd) (B : Builtins) (s : Scope) (pre post : List Cond) (c : Cond) (e : IErr)
    (hpre : ∀ x ∈ pre, ∃ v, freshRun F B s .standard x.expression = .ok v) (hc : freshRun F B s .standard c.expression = .error e) :
    evalConds F B s (pre ++ c :: post) = .error (c.expression, e) := by
  unfold evalConds
  rw [if_neg (by simp)]
  exact condLoop_err hc post pre {} hpre

/-- An assertion without conditions does not hold. -/
theorem C59_empty (F : FrontEnd) (B : Builtins) (s : Scope) : evalConds F B s [] = .ok false := rfl

/-- the results, each with the operator before it, joined from the left -/
def joinAll (acc : Bool) (op : COp) : List (Bool × COp) → Bool
  | [] => acc
  | (b, next) :: l => joinAll (joined (some (acc, op)) b) next l

theorem leaves (l : List (Bool × COp)) : properL (l.map fun r => Item.leaf r.1 r.2) = true ∧
    flatten 0 (l.map fun r => Item.leaf r.1 r.2) = l.map fun r => (r.1, r.2, 0) := by
  induction l with
  | nil => exact ⟨by rw [List.map_nil, properL], by rw [List.map_nil, flatten]; rfl⟩
  | cons x l ih =>
    rw [List.map_cons, properL, flatten, ih.1, ih.2, Item.proper, Item.flat]
    exact ⟨rfl, rfl⟩

theorem leaves_result : ∀ (l : List (Bool × COp)) (acc : Bool) (op : COp),
    (resultFrom (some (acc, op)) (l.map fun r => Item.leaf r.1 r.2)).map Prod.fst = some (joinAll acc op l)
  | [], acc, op => by rw [List.map_nil, resultFrom]; rfl
  | (b, next) :: l, acc, op => by
    rw [List.map_cons, resultFrom, Item.result]
    exact leaves_result l _ _

/-- Without groups: from left to right. -/
theorem C59_flat (F : FrontEnd) (B : Builtins) (s : Scope) (c : Cond) (cs : List Cond) (b : Bool) (l : List (Bool × COp))
    (h : rated F B s (c :: cs) ((b, c.op, 0) :: l.map fun r => (r.1, r.2, 0))) : evalConds F B s (c :: cs) = .ok (joinAll b c.op l) := by
  obtain ⟨h1, h2⟩ := leaves ((b, c.op) :: l)
  obtain ⟨b', op, hr, he⟩ := (C59_groups F B s (c :: cs) _ (by simp) h).2 _ h1 h2
  rw [he]
  have := leaves_result l b c.op
  rw [List.map_cons, resultFrom, Item.result] at hr
  rw [show joined none b = b from rfl] at hr
  rw [hr] at this
  injection this with this
  rw [← this]

/-! ## Instances and findings -/

/-- `true`, `false` and others fail -/
def bitFront : FrontEnd := fun _ src => if src = "t" then .ok (.bool true) else if src = "f" then .ok (.bool false) else .error (.front "unexpected")

theorem bits (cs : List (Bool × COp × Nat)) (s : Scope) :
    rated bitFront demoB s (cs.map fun c => ⟨if c.1 then "t" else "f", c.2.1, c.2.2⟩) cs := by
  induction cs with
  | nil => exact .nil
  | cons c cs ih =>
    obtain ⟨b, op, d⟩ := c
    refine .cons ⟨.bool b, ?_, ?_⟩ ih
    · cases b <;> rfl
    · cases b <;> rfl

/-- `t and (f or t and (t)) or f` -/
example : properL [.leaf true .and, .group [.leaf false .or, .leaf true .and, .group [.leaf true .or]], .leaf false .and] = true ∧
    flatten 0 [.leaf true .and, .group [.leaf false .or, .leaf true .and, .group [.leaf true .or]], .leaf false .and] =
      [(true, .and, 0), (false, .or, 1), (true, .and, 1), (true, .or, 2), (false, .and, 0)] ∧
    evalConds bitFront demoB ⟨.null, []⟩ [⟨"t", .and, 0⟩, ⟨"f", .or, 1⟩, ⟨"t", .and, 1⟩, ⟨"t", .or, 2⟩, ⟨"f", .and, 0⟩] = .ok true := by
  refine ⟨?_, ?_, rfl⟩
  · simp [properL, Item.proper, Item.isLeaf]
  · simp [flatten, Item.flat]

/-- NEGATIVE: `and` does not bind more tightly than `or`: `t or t and f` does not hold. -/
theorem C59_no_precedence : evalConds bitFront demoB ⟨.null, []⟩ [⟨"t", .or, 0⟩, ⟨"t", .and, 0⟩, ⟨"f", .and, 0⟩] = .ok false ∧
    (true || (true && false)) = true := ⟨rfl, rfl⟩

/-- NEGATIVE: what follows a group is joined with the operator of the last condition inside the group, also when that condition
is deeper. -/
theorem C59_operator_after_group :
    evalConds bitFront demoB ⟨.null, []⟩ [⟨"t", .and, 0⟩, ⟨"t", .and, 1⟩, ⟨"t", .or, 2⟩, ⟨"f", .and, 0⟩] = .ok true ∧
    evalConds bitFront demoB ⟨.null, []⟩ [⟨"t", .and, 0⟩, ⟨"t", .or, 1⟩, ⟨"t", .and, 2⟩, ⟨"f", .and, 0⟩] = .ok false := ⟨rfl, rfl⟩

/-- NEGATIVE: conditions that cannot matter any more are still evaluated and can fail the assertion. -/
theorem C59_not_lazy : evalConds bitFront demoB ⟨.null, []⟩ [⟨"f", .and, 0⟩, ⟨"broken", .and, 0⟩] = .error ("broken", .front "unexpected") := rfl

end Zen.Policy
