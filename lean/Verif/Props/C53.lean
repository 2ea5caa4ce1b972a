import Verif.Builtins.Funcs
import Verif.Props.C51
/-
C53: conversions between kinds of values. `type` names the kind; `bool`, `string` and `number` give a value of the
named kind or an error; a value of the kind is left as it is; `isNumeric` tells for which strings and
numbers `number` succeeds.

How numbers are read and printed is the library's business (`Lib.readNum`, `Lib.showNum`).
-/
namespace Zen
open Fn

/-- `type` names the kind of the value: the name tells which kind it is. -/
theorem C53_type (v : Val) :
    ∃ s, toType [v] = .ok (.str s) ∧
      (s = "null" ↔ v = .null) ∧ (s = "bool" ↔ ∃ b, v = .bool b) ∧ (s = "number" ↔ ∃ n, v = .num n) ∧
      (s = "string" ↔ ∃ t, v = .str t) ∧ (s = "array" ↔ ∃ xs, v = .arr xs) ∧ (s = "object" ↔ ∃ es, v = .obj es) ∧
      (s = "date" ↔ ∃ d, v = .dyn (.date d)) ∧ (s = "interval" ↔ ∃ a b c d, v = .dyn (.interval a b c d)) := by
  refine ⟨typeName v, rfl, ?_⟩
  cases v with
  | dyn d => cases d <;> simp [typeName]
  | _ => simp [typeName]

/-- A value of the kind asked for is left as it is. -/
theorem C53_same_kind (L : Lib) (b : Bool) (n : Rat) (s : String) :
    toBool [.bool b] = .ok (.bool b) ∧ toNumber L [.num n] = .ok (.num n) ∧ Fn.toString L [.str s] = .ok (.str s) :=
  ⟨rfl, rfl, rfl⟩

/-- `bool` always gives a boolean: false for null and for the number zero, true for other numbers, arrays, objects and
dates. -/
theorem C53_bool (v : Val) (hs : ∀ s, v ≠ .str s) :
    ∃ b, toBool [v] = .ok (.bool b) ∧ (b = false ↔ v = .null ∨ v = .bool false ∨ v = .num 0) := by
  refine ⟨boolOf v, rfl, ?_⟩
  cases v with
  | str s => exact absurd rfl (hs s)
  | num n => simp [boolOf]
  | _ => simp [boolOf]

/-- `bool` of a string: `true` and `false`, with white space around them, mean themselves. Of the other strings, only
the *empty* one is taken for true. -/
theorem C53_bool_string (s : String) :
    (∀ t, trim [.str s] = .ok (.str t) →
      (t = "true" → toBool [.str s] = .ok (.bool true)) ∧ (t = "false" → toBool [.str s] = .ok (.bool false)) ∧
      (t ≠ "true" → t ≠ "false" → toBool [.str s] = .ok (.bool (decide (s = ""))))) := by
  intro t ht
  have ht' : trimC s.toList = t.toList := by
    have : Except.ok (Val.str (String.ofList (trimC s.toList))) = (Except.ok (Val.str t) : Fn.Res Val) := ht
    simp only [Except.ok.injEq, Val.str.injEq] at this
    rw [← this, String.toList_ofList]
  refine ⟨?_, ?_, ?_⟩
  · rintro rfl
    show Except.ok (Val.bool (boolOf (.str s))) = _
    simp only [boolOf, ht', if_true]
  · rintro rfl
    show Except.ok (Val.bool (boolOf (.str s))) = _
    rw [boolOf, ht', if_neg (by decide), if_pos rfl]
  · intro h1 h2
    show Except.ok (Val.bool (boolOf (.str s))) = _
    have h1' : ¬ t.toList = "true".toList := fun h => h1 (String.toList_inj.1 h)
    have h2' : ¬ t.toList = "false".toList := fun h => h2 (String.toList_inj.1 h)
    rw [boolOf, ht', if_neg h1', if_neg h2']
    congr 2
    rw [Bool.eq_iff_iff, List.isEmpty_iff, decide_eq_true_iff]
    constructor
    · intro h; rw [← String.ofList_toList (s := s), h]
    · rintro rfl; rfl

/-- The code is *not* what the other kinds suggest: the empty string counts as true and `"yes"` as false. -/
theorem C53_bool_inverted : toBool [.str ""] = .ok (.bool true) ∧ toBool [.str "yes"] = .ok (.bool false) := ⟨rfl, rfl⟩

/-- `string` succeeds exactly for null, booleans, numbers and strings, and prints different values of a kind
differently when the library does. -/
theorem C53_string (L : Lib) (v : Val) :
    ((∃ w, Fn.toString L [v] = .ok w) ↔
      v = .null ∨ (∃ b, v = .bool b) ∨ (∃ n, v = .num n) ∨ ∃ s, v = .str s) ∧
    (∀ w, Fn.toString L [v] = .ok w → ∃ s, w = .str s) ∧
    Fn.toString L [.null] = .ok (.str "null") ∧ Fn.toString L [.bool true] = .ok (.str "true") ∧
    Fn.toString L [.bool false] = .ok (.str "false") := by
  refine ⟨?_, ?_, rfl, rfl, rfl⟩
  · cases v <;> simp [Fn.toString, argVar, bind, Except.bind, pure, Except.pure]
  · intro w h
    cases v with
    | null => cases h; exact ⟨_, rfl⟩
    | bool b => cases h; exact ⟨_, rfl⟩
    | num n => cases h; exact ⟨_, rfl⟩
    | str s => cases h; exact ⟨_, rfl⟩
    | arr _ => cases h
    | obj _ => cases h
    | dyn _ => cases h

/-- `number` succeeds exactly for numbers, booleans, and strings that are a number once trimmed. -/
theorem C53_number (L : Lib) (v w : Val) :
    toNumber L [v] = .ok w ↔
      (∃ n, v = .num n ∧ w = .num n) ∨ (v = .bool true ∧ w = .num 1) ∨ (v = .bool false ∧ w = .num 0) ∨
      ∃ s t n, v = .str s ∧ trim [.str s] = .ok (.str t) ∧ L.readNum t = some n ∧ w = .num n := by
  have ht : ∀ s t, trim [.str s] = .ok (.str t) ↔ String.ofList (trimC s.toList) = t := by
    intro s t
    show Except.ok (Val.str (String.ofList (trimC s.toList))) = (Except.ok (Val.str t) : Fn.Res Val) ↔ _
    simp
  cases v with
  | num n => simp [toNumber, argVar, bind, Except.bind, pure, Except.pure, eq_comm]
  | bool b => cases b <;> simp [toNumber, argVar, bind, Except.bind, pure, Except.pure, eq_comm]
  | str s =>
    simp only [toNumber, argVar, bind, Except.bind, List.getElem?_cons_zero, Val.str.injEq, reduceCtorEq,
      false_and, exists_false, false_or, exists_and_left, exists_eq_left', ht]
    cases h : L.readNum (String.ofList (trimC s.toList)) with
    | none => simp
    | some n => simp [pure, Except.pure, eq_comm]
  | _ => simp [toNumber, argVar, bind, Except.bind]

/-- `isNumeric` of a string or number: whether `number` succeeds. Booleans, which `number` converts, are not
numeric. -/
theorem C53_is_numeric (L : Lib) (v : Val) :
    ∃ b, isNumeric L [v] = .ok (.bool b) ∧
      (b = true ↔ (∃ w, toNumber L [v] = .ok w) ∧ ∀ x, v ≠ .bool x) := by
  cases v with
  | str s =>
    refine ⟨(L.readNum (String.ofList (trimC s.toList))).isSome, rfl, ?_⟩
    simp only [toNumber, argVar, bind, Except.bind, List.getElem?_cons_zero]
    cases h : L.readNum (String.ofList (trimC s.toList)) <;> simp [pure, Except.pure]
  | num n => exact ⟨true, rfl, by simp [toNumber, argVar, bind, Except.bind, pure, Except.pure]⟩
  | _ => exact ⟨false, rfl, by simp [toNumber, argVar, bind, Except.bind]⟩

/-- Printing a number and reading it back gives the number, when the library reads what it prints and prints no
white space. -/
theorem C53_number_of_string (L : Lib) (n : Rat) (h : L.readNum (L.showNum n) = some n)
    (hw : ∀ c ∈ (L.showNum n).toList, Bytes.isWs c = false) :
    ∃ s, Fn.toString L [.num n] = .ok s ∧ toNumber L [s] = .ok (.num n) := by
  refine ⟨.str (L.showNum n), rfl, (C53_number L _ _).2 (.inr (.inr (.inr ⟨L.showNum n, L.showNum n, n, rfl, ?_, h, rfl⟩)))⟩
  have := C51_trim_determined [] (L.showNum n).toList [] (by simp) (by simp)
    (fun c hc => hw c (List.mem_of_mem_head? hc)) (fun c hc => hw c (List.mem_of_getLast? hc))
  simpa using this

/-! ### cases -/

example : toBool [.str " false "] = .ok (.bool false) := by rfl
example : toBool [.arr []] = .ok (.bool true) := by rfl
example : toType [.dyn (.date none)] = .ok (.str "date") := by rfl
/-- a library that reads and prints only zero -/
def zeroLib : Lib where
  upper := id
  lower := id
  regex _ := none
  similarity _ _ := 0
  showNum _ := "0"
  readNum s := if s = "0" then some 0 else none
  random _ := 0
  mkDate _ _ := some none
example : toNumber zeroLib [.str " 0\n"] = .ok (.num 0) := by rfl
example : isNumeric zeroLib [.bool true] = .ok (.bool false) ∧ toNumber zeroLib [.bool true] = .ok (.num 1) := by
  constructor <;> rfl
example : zeroLib.readNum (zeroLib.showNum 0) = some 0 ∧ ∀ c ∈ (zeroLib.showNum 0).toList, Bytes.isWs c = false := by
  constructor
  · rfl
  · decide

end Zen
