import Verif.Expr.Gen
import Verif.Expr.Eval
/-
Execution of code segments (helper for the proofs): reachability of machine states, and the
behaviour of the loop skeletons emitted by the compiler.
-/
namespace Zen

/-- `seg` is found in `code` at position `pc` -/
def CodeAt (code : List Op) (pc : Nat) (seg : List Op) : Prop :=
  ∀ i op, seg[i]? = some op → code[pc + i]? = some op

theorem codeAt_nil (code : List Op) (pc : Nat) : CodeAt code pc [] := by
  intro i op h; simp at h

theorem codeAt_cons {code : List Op} {pc : Nat} {op : Op} {seg : List Op} :
    CodeAt code pc (op :: seg) ↔ code[pc]? = some op ∧ CodeAt code (pc + 1) seg := by
  constructor
  · intro h
    refine ⟨by simpa using h 0 op rfl, fun i o hi => ?_⟩
    have := h (i + 1) o (by simpa using hi)
    rwa [show pc + (i + 1) = pc + 1 + i by omega] at this
  · rintro ⟨h0, h⟩ i o hi
    cases i with
    | zero => simp at hi; subst hi; simpa using h0
    | succ i =>
      have := h i o (by simpa using hi)
      rwa [show pc + 1 + i = pc + (i + 1) by omega] at this

theorem codeAt_append {code : List Op} {pc : Nat} {a b : List Op} :
    CodeAt code pc (a ++ b) ↔ CodeAt code pc a ∧ CodeAt code (pc + a.length) b := by
  induction a generalizing pc with
  | nil => simp [codeAt_nil]
  | cons x a ih =>
    rw [List.cons_append, codeAt_cons, ih, codeAt_cons, List.length_cons,
      show pc + 1 + a.length = pc + (a.length + 1) by omega, and_assoc]

theorem codeAt_self (code : List Op) : CodeAt code 0 code := by
  intro i op h; simpa using h

inductive Steps (B : Builtins) (root : Scope) (code : List Op) : VmState → VmState → Prop
  | refl (s : VmState) : Steps B root code s s
  | head {s s' t : VmState} {op : Op} (h : code[s.ip]? = some op)
      (he : exec B root op { s with ip := s.ip + 1 } = .ok s') (ht : Steps B root code s' t) :
      Steps B root code s t

/-- running from `s` arrives at the given state, or fails with the given error -/
def Reach (B : Builtins) (root : Scope) (code : List Op) (s : VmState) :
    Except VErr VmState → Prop
  | .ok t => Steps B root code s t
  | .error e => ∃ t op, Steps B root code s t ∧ code[t.ip]? = some op ∧
      exec B root op { t with ip := t.ip + 1 } = .error e

section
variable {B : Builtins} {root : Scope} {code : List Op}

theorem Steps.trans {s t u : VmState} (h : Steps B root code s t) (h' : Steps B root code t u) :
    Steps B root code s u := by
  induction h with
  | refl => exact h'
  | head h he _ ih => exact .head h he (ih h')

theorem Reach.refl (s : VmState) : Reach B root code s (.ok s) := Steps.refl s

theorem Reach.after {s t : VmState} {r : Except VErr VmState} (h : Steps B root code s t)
    (h' : Reach B root code t r) : Reach B root code s r := by
  cases r with
  | ok u => exact Steps.trans h h'
  | error e =>
    obtain ⟨u, op, hs, ho, he⟩ := h'
    exact ⟨u, op, h.trans hs, ho, he⟩

/-- one instruction -/
theorem Reach.op {pc : Nat} {st : List Val} {ls : List Loop} {env : Scope} {asg : List Val}
    {op : Op} {r : Except VErr VmState}
    (h : code[pc]? = some op) (he : exec B root op ⟨pc + 1, st, ls, env, asg⟩ = r) :
    Reach B root code ⟨pc, st, ls, env, asg⟩ r := by
  cases r with
  | ok u => exact .head h he (.refl _)
  | error e => exact ⟨_, op, .refl _, h, he⟩

/-- sequencing -/
theorem Reach.bind {α : Type} {s : VmState} {r : Except VErr α} {k : α → VmState}
    {res : Except VErr VmState} (h : Reach B root code s (r.map k))
    (hok : ∀ a, r = .ok a → Reach B root code (k a) res)
    (herr : ∀ e, r = .error e → res = .error e) : Reach B root code s res := by
  cases r with
  | ok a => exact Reach.after h (hok a rfl)
  | error e => rw [herr e rfl]; exact h

/-- one instruction, then the rest -/
theorem Reach.opThen {pc : Nat} {st : List Val} {ls : List Loop} {env : Scope} {asg : List Val}
    {op : Op} {s' : VmState} {r : Except VErr VmState}
    (h : code[pc]? = some op) (he : exec B root op ⟨pc + 1, st, ls, env, asg⟩ = .ok s')
    (hr : Reach B root code s' r) :
    Reach B root code ⟨pc, st, ls, env, asg⟩ r :=
  Reach.after (Reach.op h he) hr

theorem Reach.cast {s : VmState} {r r' : Except VErr VmState} (h : Reach B root code s r)
    (e : r = r') : Reach B root code s r' := e ▸ h

/-! ### Stack reorganisation -/

theorem popN_reverse (vs : List Val) : ∀ (ip : Nat) (rest : List Val) (ls : List Loop) (env : Scope)
    (asg acc : List Val),
    (VmState.mk ip (vs.reverse ++ rest) ls env asg).popN vs.length acc =
      .ok (vs ++ acc, ⟨ip, rest, ls, env, asg⟩) := by
  intro ip rest ls env asg acc
  have key : ∀ (ws : List Val) (acc : List Val),
      (VmState.mk ip (ws ++ rest) ls env asg).popN ws.length acc =
        .ok (ws.reverse ++ acc, ⟨ip, rest, ls, env, asg⟩) := by
    intro ws
    induction ws with
    | nil => intro acc; rfl
    | cons w ws ih =>
      intro acc
      simp only [List.length_cons, VmState.popN, VmState.pop, List.cons_append, ih]
      simp
  simpa using key vs.reverse acc

theorem toCount_nat (n : Nat) : toCount (n : Rat) = some n := by
  have h : ¬ ((n : Rat) < 0) := by
    have : (0 : Rat) ≤ (n : Rat) := by exact_mod_cast Nat.zero_le n
    exact Rat.not_lt.2 this
  have h0 : (0 : Rat) ≤ (n : Rat) := Rat.not_lt.1 h
  simp only [toCount, h, if_false, ratTrunc, h0, if_true]
  congr 1

/-! ### Loops -/

/-- the loops of the machine visit the elements recorded in the frames -/
def LoopsOk : Frames → List Loop → Prop
  | [], ls => ls = []
  | (_, v) :: fr, l :: ls => l.arr[l.iter]? = some v ∧ LoopsOk fr ls
  | _ :: _, [] => False

/-- a quantifier that stops at the first element whose body is `stop` -/
def loopBrk (stop : Bool) (f : Val → Scope → Res) : List Val → Scope → Except VErr (Bool × Scope)
  | [], env => .ok (!stop, env)
  | x :: xs, env => match f x env with
    | .error e => .error e
    | .ok (.bool b, env) => if b = stop then .ok (stop, env) else loopBrk stop f xs env
    | .ok (_, _) => .error (.opcode (if stop then "JumpIfTrue" else "JumpIfFalse") "Unsupported type")

theorem loopAll_eq (f : Val → Scope → Res) (xs : List Val) (env : Scope) :
    loopAll f xs env = loopBrk false f xs env := by
  induction xs generalizing env with
  | nil => rfl
  | cons x xs ih =>
    simp only [loopAll, loopBrk]
    split <;> simp_all

theorem loopSome_eq (f : Val → Scope → Res) (xs : List Val) (env : Scope) :
    loopSome f xs env = loopBrk true f xs env := by
  induction xs generalizing env with
  | nil => rfl
  | cons x xs ih =>
    simp only [loopSome, loopBrk]
    split <;> simp_all

/-- body followed by `not` -/
def notBody (f : Val → Scope → Res) (x : Val) (env : Scope) : Res :=
  match f x env with
  | .error e => .error e
  | .ok (v, env) => match opNot v with
    | .error e => .error e
    | .ok v => .ok (v, env)

theorem loopNone_eq (f : Val → Scope → Res) (xs : List Val) (env : Scope) :
    loopNone f xs env = loopBrk false (notBody f) xs env := by
  induction xs generalizing env with
  | nil => rfl
  | cons x xs ih =>
    simp only [loopNone, loopBrk, notBody]
    cases h : f x env with
    | error e => rfl
    | ok p =>
      obtain ⟨v, env'⟩ := p
      cases v <;> simp [opNot]
      rename_i b
      cases b <;> simp [ih]

theorem exec_back {ip j t : Nat} {st : List Val} {ls : List Loop} {env : Scope} {asg : List Val}
    (h : ip = t + j) : exec B root (.jump .back j) ⟨ip, st, ls, env, asg⟩ = .ok ⟨t, st, ls, env, asg⟩ := by
  subst h
  simp [exec]

def brkJump (stop : Bool) : Jmp := if stop then .ifTrue else .ifFalse

/-- the skeleton of `all`, `none`, `some` -/
theorem reach_break (stop : Bool) (bc : List Op) (arr : List Val) (f : Val → Scope → Res)
    (ls : List Loop) (asg st : List Val) (pc : Nat)
    (hc : CodeAt code pc (genBreak bc (brkJump stop) (!stop)))
    (hbody : ∀ i x c env, arr[i]? = some x →
      Reach B root code ⟨pc + 1, st, ⟨arr, arr.length, i, c⟩ :: ls, env, asg⟩
        ((f x env).map fun r => ⟨pc + 1 + bc.length, r.1 :: st, ⟨arr, arr.length, i, c⟩ :: ls, r.2, asg⟩))
    (xs : List Val) : ∀ (i c : Nat) (env : Scope), xs = arr.drop i →
      Reach B root code ⟨pc, st, ⟨arr, arr.length, i, c⟩ :: ls, env, asg⟩
        ((loopBrk stop f xs env).map fun r =>
          ⟨pc + (genBreak bc (brkJump stop) (!stop)).length, .bool r.1 :: st, ls, r.2, asg⟩) := by
  have hlen : (genBreak bc (brkJump stop) (!stop)).length = bc.length + 7 := by simp [genBreak]
  rw [hlen]
  simp only [genBreak, codeAt_cons, codeAt_append, List.cons_append] at hc
  obtain ⟨h0, hbc, hj, hpop, hinc, hback, hdef, hend, _⟩ := hc
  induction xs with
  | nil =>
    intro i c env hx
    have hi : arr.length ≤ i := by simpa using hx.symm
    refine .opThen h0 (by simp [exec, hi]; rfl) ?_
    simp only [show pc + 1 + (bc.length + 4) = pc + 1 + bc.length + 1 + 1 + 1 + 1 by omega]
    refine .opThen hdef rfl (.op hend ?_)
    simp [exec, loopBrk, Except.map]
    omega
  | cons x xs ih =>
    intro i c env hx
    have hi : arr[i]? = some x := by
      have : (arr.drop i)[0]? = some x := by rw [← hx]; rfl
      simpa using this
    have hlt : i < arr.length := (List.getElem?_eq_some_iff.1 hi).1
    have hxs : xs = arr.drop (i + 1) := by
      have : (arr.drop i).drop 1 = xs := by rw [← hx]; rfl
      rw [← this, List.drop_drop]
    refine .opThen h0 (by simp [exec, Nat.not_le.2 hlt]; rfl) ?_
    refine (hbody i x c env hi).bind ?_ ?_
    · rintro ⟨v, env'⟩ hv
      simp only [loopBrk, hv]
      have hstop : ∀ b, b = stop → exec B root (.jump (brkJump stop) 4)
          ⟨pc + 1 + bc.length + 1, .bool b :: st, ⟨arr, arr.length, i, c⟩ :: ls, env', asg⟩ =
          .ok ⟨pc + 1 + bc.length + 1 + 4, .bool b :: st, ⟨arr, arr.length, i, c⟩ :: ls, env', asg⟩ := by
        rintro b rfl; cases b <;> rfl
      have hgo : ∀ b, b ≠ stop → exec B root (.jump (brkJump stop) 4)
          ⟨pc + 1 + bc.length + 1, .bool b :: st, ⟨arr, arr.length, i, c⟩ :: ls, env', asg⟩ =
          .ok ⟨pc + 1 + bc.length + 1, .bool b :: st, ⟨arr, arr.length, i, c⟩ :: ls, env', asg⟩ := by
        intro b hb; cases b <;> cases stop <;> first | rfl | (exact absurd rfl hb)
      cases v
      case bool b =>
        by_cases hb : b = stop
        · subst hb
          refine .opThen hj (hstop b rfl) ?_
          simp only [show pc + 1 + bc.length + 1 + 4 = pc + 1 + bc.length + 1 + 1 + 1 + 1 + 1 by omega]
          refine .op hend ?_
          simp [exec, Except.map]
          omega
        · simp only [hb, if_false]
          refine .opThen hj (hgo b hb) ?_
          refine .opThen hpop rfl (.opThen hinc rfl (.opThen hback (exec_back (t := pc) (by dsimp only; omega)) ?_))
          exact ih (i + 1) c env' hxs
      all_goals
        refine .op hj ?_
        cases stop <;> simp [exec, brkJump, Except.map]
    · intro e he
      simp [loopBrk, he, Except.map]

/-- a loop whose body pushes values and counts: the values pushed (in order), the number counted,
and the final scope -/
def loopGen (g : Val → Scope → Except VErr (List Val × Nat × Scope)) :
    List Val → Scope → Except VErr (List Val × Nat × Scope)
  | [], env => .ok ([], 0, env)
  | x :: xs, env => match g x env with
    | .error e => .error e
    | .ok (vs, k, env) => match loopGen g xs env with
      | .error e => .error e
      | .ok (ws, m, env) => .ok (vs ++ ws, k + m, env)

/-- the skeleton of the other closures -/
theorem reach_loop (bc : List Op) (arr : List Val)
    (g : Val → Scope → Except VErr (List Val × Nat × Scope))
    (ls : List Loop) (asg : List Val) (pc : Nat)
    (hc : CodeAt code pc (genLoop bc))
    (hbody : ∀ i x c st env, arr[i]? = some x →
      Reach B root code ⟨pc + 1, st, ⟨arr, arr.length, i, c⟩ :: ls, env, asg⟩
        ((g x env).map fun r => ⟨pc + 1 + bc.length, r.1.reverse ++ st,
          ⟨arr, arr.length, i, c + r.2.1⟩ :: ls, r.2.2, asg⟩))
    (xs : List Val) : ∀ (i c : Nat) (st : List Val) (env : Scope), xs = arr.drop i → i ≤ arr.length →
      Reach B root code ⟨pc, st, ⟨arr, arr.length, i, c⟩ :: ls, env, asg⟩
        ((loopGen g xs env).map fun r => ⟨pc + (genLoop bc).length, r.1.reverse ++ st,
          ⟨arr, arr.length, arr.length, c + r.2.1⟩ :: ls, r.2.2, asg⟩) := by
  have hlen : (genLoop bc).length = bc.length + 3 := by simp [genLoop]
  rw [hlen]
  simp only [genLoop, codeAt_cons, codeAt_append, List.cons_append] at hc
  obtain ⟨h0, hbc, hinc, hback, _⟩ := hc
  induction xs with
  | nil =>
    intro i c st env hx hle
    have hi : arr.length ≤ i := by simpa using hx.symm
    have : i = arr.length := by omega
    subst this
    refine .op h0 ?_
    simp [exec, loopGen, Except.map]
    omega
  | cons x xs ih =>
    intro i c st env hx _
    have hi : arr[i]? = some x := by
      have : (arr.drop i)[0]? = some x := by rw [← hx]; rfl
      simpa using this
    have hlt : i < arr.length := (List.getElem?_eq_some_iff.1 hi).1
    have hxs : xs = arr.drop (i + 1) := by
      have : (arr.drop i).drop 1 = xs := by rw [← hx]; rfl
      rw [← this, List.drop_drop]
    refine .opThen h0 (by simp [exec, Nat.not_le.2 hlt]; rfl) ?_
    refine (hbody i x c st env hi).bind ?_ ?_
    · rintro ⟨vs, k, env'⟩ hv
      simp only [loopGen, hv]
      refine .opThen hinc rfl (.opThen hback (exec_back (t := pc) (by dsimp only; omega)) ?_)
      refine (ih (i + 1) (c + k) (vs.reverse ++ st) env' hxs hlt).bind ?_ ?_
      · rintro ⟨ws, m, env''⟩ hw
        refine (Reach.refl _).cast ?_
        simp [hw, Except.map, Nat.add_assoc]
      · intro e he
        simp [he, Except.map]
    · intro e he
      simp [loopGen, he, Except.map]

/-- the conditional skeleton inside `filter`, `one` and `count`, after the body has left its value
on the stack -/
theorem reach_cond (bc : List Op) (pc : Nat) (v : Val) (st vs : List Val) (l l' : Loop)
    (ls : List Loop) (env : Scope) (asg : List Val)
    (hc : CodeAt code pc (genCond bc))
    (hbody : Reach B root code ⟨pc + 2, st, l :: ls, env, asg⟩
      (.ok ⟨pc + 2 + bc.length, vs ++ st, l' :: ls, env, asg⟩)) :
    Reach B root code ⟨pc, v :: st, l :: ls, env, asg⟩
      (match v with
        | .bool true => .ok ⟨pc + (genCond bc).length, vs ++ st, l' :: ls, env, asg⟩
        | .bool false => .ok ⟨pc + (genCond bc).length, st, l :: ls, env, asg⟩
        | _ => .error (.opcode "JumpIfFalse" "Unsupported type")) := by
  have hlen : (genCond bc).length = bc.length + 4 := by simp [genCond]
  rw [hlen]
  simp only [genCond, codeAt_cons, codeAt_append, List.cons_append] at hc
  obtain ⟨h0, hpop, hbc, hj, hpop', _⟩ := hc
  have e1 : pc + 1 + 1 = pc + 2 := rfl
  rw [e1] at hj hpop'
  split
  · refine .opThen h0 rfl (.opThen hpop rfl ?_)
    refine Reach.after hbody ?_
    refine .op hj ?_
    simp [exec]; omega
  · refine .opThen h0 rfl ?_
    simp only [show pc + 1 + (bc.length + 2) = pc + 2 + bc.length + 1 by omega]
    refine .op hpop' ?_
    simp [exec, VmState.pop]; omega
  · rename_i h1 h2
    refine .op h0 ?_
    cases v <;> simp_all [exec]

end
end Zen
