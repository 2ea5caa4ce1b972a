import Verif.Date.Duration
/-
The duration parser as equations over the text: each turn of the loop reads the longest run of digits
and white space, then the longest run of letters.
-/
namespace Zen.Dur
open Bytes

theorem isDigit_not_ws {c : Char} (h : isDigit c = true) : isWs c = false := by
  simp only [isDigit, Bool.and_eq_true, decide_eq_true_eq] at h
  simp only [isWs, Bool.or_eq_false_iff, Bool.and_eq_false_iff, decide_eq_false_iff_not, beq_eq_false_iff_ne]
  omega

theorem isLetter_not_ws {c : Char} (h : isLetter c = true) : isWs c = false := by
  simp only [isLetter, Bool.or_eq_true, Bool.and_eq_true, decide_eq_true_eq] at h
  simp only [isWs, Bool.or_eq_false_iff, Bool.and_eq_false_iff, decide_eq_false_iff_not, beq_eq_false_iff_ne]
  omega

theorem isLetter_not_digit {c : Char} (h : isLetter c = true) : isDigit c = false := by
  simp only [isLetter, Bool.or_eq_true, Bool.and_eq_true, decide_eq_true_eq] at h
  simp only [isDigit, Bool.and_eq_false_iff, decide_eq_false_iff_not]
  omega

/-- a character of a number after its first: a digit or white space -/
def inNum (c : Char) : Bool := isDigit c || isWs c

/-- the number read so far is `n`; the number after reading further characters -/
def valueFrom (n : Nat) : List Char → Nat
  | [] => n
  | c :: r => valueFrom (if isDigit c then n * 10 + digitVal c else n) r

theorem valueFrom_le (n : Nat) (s : List Char) : n ≤ valueFrom n s := by
  induction s generalizing n with
  | nil => exact Nat.le_refl _
  | cons c r ih =>
    refine Nat.le_trans ?_ (ih _)
    split <;> omega

theorem off_append (pre rest : List Char) : off (pre ++ rest) rest = byteLen pre := by
  simp [off, byteLen_append]

theorem scanNum_eq (rest pre : List Char) (n : Nat) (hn : n ≤ u64Max) :
    scanNum (pre ++ rest) n (byteLen pre) rest =
      if valueFrom n (rest.takeWhile inNum) ≤ u64Max then
        match rest.dropWhile inNum with
        | [] => .ok (valueFrom n (rest.takeWhile inNum), byteLen (pre ++ rest), [])
        | c :: r =>
          if isLetter c then
            .ok (valueFrom n (rest.takeWhile inNum), byteLen pre + byteLen (rest.takeWhile inNum), r)
          else .error (.invalidCharacter (byteLen pre + byteLen (rest.takeWhile inNum)))
      else .error .numberOverflow := by
  induction rest generalizing pre n with
  | nil => simp [scanNum, valueFrom, hn]
  | cons c r ih =>
    have hpre : pre ++ c :: r = (pre ++ [c]) ++ r := by simp
    have hoff : off (pre ++ c :: r) r = byteLen (pre ++ [c]) := by rw [hpre, off_append]
    have hb : byteLen (pre ++ [c]) = byteLen pre + c.utf8Size := by simp [byteLen_append, byteLen]
    unfold scanNum
    by_cases hd : isDigit c = true
    · have hin : inNum c = true := by simp [inNum, hd]
      simp only [hd, if_true, List.takeWhile_cons, List.dropWhile_cons, hin, valueFrom]
      by_cases hp : n * 10 + digitVal c ≤ u64Max
      · have : pushDigit n c = some (n * 10 + digitVal c) := by
          rw [pushDigit, if_pos ⟨by omega, hp⟩]
        rw [this]
        simp only [hoff]
        rw [hpre, ih (pre ++ [c]) _ hp]
        simp only [byteLen, hb, Nat.add_assoc]
      · have : pushDigit n c = none := by rw [pushDigit, if_neg (fun h => hp h.2)]
        rw [this]
        have hle := valueFrom_le (n * 10 + digitVal c) (r.takeWhile inNum)
        rw [if_neg (by omega)]
    · by_cases hw : isWs c = true
      · have hin : inNum c = true := by simp [inNum, hw]
        simp only [hd, hw, if_true, List.takeWhile_cons, List.dropWhile_cons, hin, valueFrom, hoff]
        simp only [Bool.false_eq_true, if_false]
        rw [hpre, ih (pre ++ [c]) _ hn]
        simp only [byteLen, hb, Nat.add_assoc]
      · have hin : inNum c = false := by simp [inNum, hd, hw]
        simp only [hd, hw, hin, List.takeWhile_cons, List.dropWhile_cons, Bool.false_eq_true, if_false, valueFrom, hn, if_true,
          byteLen, Nat.add_zero]

theorem scanUnit_eq (rest pre : List Char) :
    scanUnit (pre ++ rest) (byteLen pre) rest =
      match rest.dropWhile isLetter with
      | [] => .ok (byteLen (pre ++ rest), none, [])
      | c :: r =>
        if isDigit c then .ok (byteLen pre + byteLen (rest.takeWhile isLetter), some (digitVal c), r)
        else if isWs c then .ok (byteLen pre + byteLen (rest.takeWhile isLetter), none, r)
        else .error (.invalidCharacter (byteLen pre + byteLen (rest.takeWhile isLetter))) := by
  induction rest generalizing pre with
  | nil => simp [scanUnit]
  | cons c r ih =>
    have hpre : pre ++ c :: r = (pre ++ [c]) ++ r := by simp
    have hoff : off (pre ++ c :: r) r = byteLen (pre ++ [c]) := by rw [hpre, off_append]
    have hb : byteLen (pre ++ [c]) = byteLen pre + c.utf8Size := by simp [byteLen_append, byteLen]
    unfold scanUnit
    by_cases hl : isLetter c = true
    · simp only [isLetter_not_digit hl, isLetter_not_ws hl, hl, Bool.false_eq_true, if_false, if_true,
        List.takeWhile_cons, List.dropWhile_cons, hoff]
      rw [hpre, ih (pre ++ [c])]
      simp only [byteLen, hb, Nat.add_assoc]
    · simp only [hl, List.takeWhile_cons, List.dropWhile_cons, Bool.false_eq_true, if_false, byteLen, Nat.add_zero]

/-- what follows a unit: the end, more white space and the next number, or a digit -/
def after (b : Build) (src : List Char) (fuel : Nat) (d : Duration) (tail : List Char) : Res PErr Duration :=
  match tail with
  | [] => .ok d
  | c :: r =>
    if isDigit c then loop b src fuel (digitVal c) d r
    else
      match r.dropWhile isWs with
      | [] => .ok d
      | c' :: r' =>
        if isDigit c' then loop b src fuel (digitVal c') d r' else .err (.numberExpected (off src r))

theorem firstGo_eq (o : Nat) (s : List Char) :
    firstGo o s = match s.dropWhile isWs with
      | [] => .ok none
      | c :: r => if isDigit c then .ok (some (digitVal c, r)) else .error (.numberExpected o) := by
  induction s with
  | nil => rfl
  | cons c r ih =>
    unfold firstGo
    by_cases hd : isDigit c = true
    · simp [hd, isDigit_not_ws hd]
    · by_cases hw : isWs c = true
      · simp [hd, hw, ih]
      · simp [hd, hw]

/-- one turn of the loop, the text being cut into a number body, a unit and what follows -/
theorem loop_eq (b : Build) (pre rest : List Char) (fuel n : Nat) (hn : n ≤ u64Max) (d : Duration) :
    loop b (pre ++ rest) (fuel + 1) n d rest =
      if valueFrom n (rest.takeWhile inNum) ≤ u64Max then
        match rest.dropWhile inNum with
        | [] => .err (.unknownUnit (byteLen (pre ++ rest)) (byteLen (pre ++ rest))
            (valueFrom n (rest.takeWhile inNum)) [])
        | c :: r =>
          if isLetter c then
            if ∀ x ∈ (r.dropWhile isLetter).head?, isDigit x ∨ isWs x then
              match DUnit.parse (c :: r.takeWhile isLetter) with
              | none => .err (.unknownUnit (byteLen (pre ++ rest.takeWhile inNum))
                  (byteLen (pre ++ rest.takeWhile inNum ++ c :: r.takeWhile isLetter))
                  (valueFrom n (rest.takeWhile inNum)) (c :: r.takeWhile isLetter))
              | some u =>
                match addUnit b d (valueFrom n (rest.takeWhile inNum)) u with
                | .panic => .panic
                | .err e => .err e
                | .ok d => after b (pre ++ rest) fuel d (r.dropWhile isLetter)
            else .err (.invalidCharacter
              (byteLen (pre ++ rest.takeWhile inNum ++ c :: r.takeWhile isLetter)))
          else .err (.invalidCharacter (byteLen (pre ++ rest.takeWhile inNum)))
      else .err .numberOverflow := by
  unfold loop
  rw [off_append, scanNum_eq rest pre n hn]
  by_cases hv : valueFrom n (rest.takeWhile inNum) ≤ u64Max
  swap
  · simp only [hv, if_false]
  simp only [hv, if_true]
  have hsplit : rest.takeWhile inNum ++ rest.dropWhile inNum = rest := List.takeWhile_append_dropWhile
  generalize valueFrom n (rest.takeWhile inNum) = v at hv ⊢
  generalize rest.takeWhile inNum = body at hsplit ⊢
  generalize rest.dropWhile inNum = rest1 at hsplit ⊢
  subst hsplit
  cases rest1 with
  | nil =>
    simp only [List.append_nil]
    have : slice (pre ++ body) (byteLen (pre ++ body)) (byteLen (pre ++ body)) = some [] := by
      have := slice_mid (pre ++ body) [] []
      simpa using this
    simp only [scanUnit, off, byteLen, Nat.sub_zero, parseUnit, this]
    rfl
  | cons c r =>
    by_cases hl : isLetter c = true
    swap
    · simp only [hl, if_false, byteLen_append, Bool.false_eq_true]
    simp only [hl, if_true]
    have hsrc : pre ++ (body ++ c :: r) = (pre ++ body ++ [c]) ++ r := by simp
    have ho : off (pre ++ (body ++ c :: r)) r = byteLen (pre ++ body ++ [c]) := by
      rw [hsrc, off_append]
    rw [ho]
    have hsu := scanUnit_eq r (pre ++ body ++ [c])
    rw [← hsrc] at hsu
    rw [hsu]
    have hs2 : r.takeWhile isLetter ++ r.dropWhile isLetter = r := List.takeWhile_append_dropWhile
    generalize r.takeWhile isLetter = ls at hs2 ⊢
    generalize r.dropWhile isLetter = tail at hs2 ⊢
    subst hs2
    have hslice : slice (pre ++ (body ++ c :: (ls ++ tail))) (byteLen pre + byteLen body)
        (byteLen (pre ++ body ++ c :: ls)) = some (c :: ls) := by
      have := slice_mid (pre ++ body) (c :: ls) tail
      rw [byteLen_append pre body] at this
      simpa using this
    have hb2 : byteLen (pre ++ body ++ [c]) + byteLen ls = byteLen (pre ++ body ++ c :: ls) := by
      simp only [byteLen_append, byteLen]; omega
    cases tail with
    | nil =>
      have hb3 : byteLen (pre ++ (body ++ c :: (ls ++ []))) = byteLen (pre ++ body ++ c :: ls) := by simp
      simp only [hb3, parseUnit, hslice, List.head?_nil, Option.mem_def, reduceCtorEq, false_implies, implies_true, if_true,
        after, firstChar, firstGo]
      cases DUnit.parse (c :: ls) with
      | none => simp only [byteLen_append]
      | some u => cases addUnit b d v u <;> rfl
    | cons t tl =>
      simp only [List.head?_cons, Option.mem_def, Option.some.injEq, forall_eq', hb2, after]
      by_cases hd : isDigit t = true
      · simp only [hd, if_true, true_or, parseUnit, hslice]
        cases DUnit.parse (c :: ls) with
        | none => simp only [byteLen_append]
        | some u => cases addUnit b d v u <;> rfl
      · by_cases hw : isWs t = true
        · simp only [hd, hw, if_true, or_true, parseUnit, hslice, Bool.false_eq_true, if_false, firstChar, firstGo_eq]
          cases DUnit.parse (c :: ls) with
          | none => simp only [byteLen_append]
          | some u =>
            simp only
            cases addUnit b d v u with
            | panic => rfl
            | err e => rfl
            | ok d' =>
              simp only
              cases tl.dropWhile isWs with
              | nil => rfl
              | cons c' r' => by_cases h : isDigit c' = true <;> simp [h]
        · simp [hd, hw]

end Zen.Dur
