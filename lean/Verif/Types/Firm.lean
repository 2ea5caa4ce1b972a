import Verif.Types.SoundAsg
/-
Vocabulary of the statement that accepted expressions do not fail on the types of their operands (Props/C62):
which failures are not about types, and on which expressions the checker can be relied on.
-/
namespace Zen
namespace Ty
open VT

/-- Failures that are not about the type of an operand: a function or method failing by itself, a crash, a number
out of range, an index that does not exist, an interval with curly brackets. -/
inductive Excusable : VErr → Prop
  | function (msg : String) : Excusable (.opcode "CallFunction" msg)
  | method (msg : String) : Excusable (.opcode "CallMethod" msg)
  | panic (c : Crash) : Excusable (.panic c)
  | add : Excusable (.opcode "Add" "Number overflow")
  | subtract : Excusable (.opcode "Subtract" "Number overflow")
  | multiply : Excusable (.opcode "Multiply" "Number overflow")
  | exponent : Excusable (.opcode "Exponent" "Failed to calculate exponent")
  | index : Excusable (.opcode "Fetch" "Failed to convert to usize")
  | from_ : Excusable (.opcode "Slice" "Failed to get range from")
  | to : Excusable (.opcode "Slice" "Failed to get range to")
  | range : Excusable (.opcode "Slice" "Index out of range")
  | bracket : Excusable (.opcode "In" "Unsupported bracket")

/-- types of the values that can be looked for in an array: no dates, lists, objects, intervals -/
def searchable : VT → Bool
  | .nullable t => searchable t
  | .any | .date | .interval | .arr _ | .obj _ => false
  | _ => true

mutual
/-- Nothing in the expression uses a value of unknown type where a type is needed, and the operands whose type
matters have a type that can be relied on. `inC` tells whether the expression is inside a closure. -/
def Firm (same : VT → VT → Bool) (sc : TScope) (inC : Bool) : Node → Prop
  | .pointer => inC = true
  | .tmpl ps => FirmL same sc inC ps
  | .arr xs => FirmL same sc inC xs
  | .obj kvs => FirmP same sc inC kvs
  | .assigns _ _ => False
  | .paren n => Firm same sc inC n
  | .member n p => Firm same sc inC n ∧ Firm same sc inC p
  | .slice n f t => (Firm same sc inC n ∧ Sure same sc n ∧ (determine true same sc n).kind ≠ .any) ∧
    FirmI same sc inC f ∧ FirmI same sc inC t
  | .interval l r _ _ =>
    (Firm same sc inC l ∧ Sure same sc l ∧ sat (determine true same sc l).kind .number = true ∧
      (determine true same sc l).kind ≠ .any) ∧
    (Firm same sc inC r ∧ Sure same sc r ∧ sat (determine true same sc r).kind .number = true ∧
      (determine true same sc r).kind ≠ .any)
  | .cond c t f => (Firm same sc inC c ∧ Sure same sc c ∧ (determine true same sc c).kind ≠ .any) ∧
    Firm same sc inC t ∧ Firm same sc inC f
  | .unary op n => Firm same sc inC n ∧
    (op ≠ .arith .add → Sure same sc n ∧ (determine true same sc n).kind ≠ .any)
  | .binary op l r => (Firm same sc inC l ∧ Firm same sc inC r) ∧
    match op with
    | .logic .coalesce => True
    | .logic _ => Sure same sc l ∧ (determine true same sc l).kind ≠ .any
    | .cmp .eq => True
    | .cmp .ne => True
    | .cmp .in_ => (Sure same sc l ∧ searchable (determine true same sc l).kind = true) ∧
      Sure same sc r ∧ (determine true same sc r).kind ≠ .any
    | .cmp .notIn => (Sure same sc l ∧ searchable (determine true same sc l).kind = true) ∧
      Sure same sc r ∧ (determine true same sc r).kind ≠ .any
    | .cmp _ => (Sure same sc l ∧ (determine true same sc l).kind ≠ .any ∧ (determine true same sc l).kind ≠ .date) ∧
      Sure same sc r ∧ (determine true same sc r).kind ≠ .any ∧ (determine true same sc r).kind ≠ .date
    | _ => (Sure same sc l ∧ (determine true same sc l).kind ≠ .any) ∧
      Sure same sc r ∧ (determine true same sc r).kind ≠ .any
  | .call _ args => FirmL same sc inC args
  | .method _ this args => Firm same sc inC this ∧ FirmL same sc inC args
  | .closure k over al body => (Firm same sc inC over ∧ Sure same sc over ∧
      (determine true same sc over).kind ≠ .any ∧ (determine true same sc over).kind ≠ .interval) ∧
    Firm same (sc.enter al (determine true same sc over).kind) true body ∧
    (wantsBool k = true → Sure same (sc.enter al (determine true same sc over).kind) body ∧
      (determine true same (sc.enter al (determine true same sc over).kind) body).kind ≠ .any)
  | _ => True
def FirmL (same : VT → VT → Bool) (sc : TScope) (inC : Bool) : List Node → Prop
  | [] => True
  | n :: ns => Firm same sc inC n ∧ FirmL same sc inC ns
/-- an index of a slice -/
def FirmI (same : VT → VT → Bool) (sc : TScope) (inC : Bool) : Option Node → Prop
  | none => True
  | some n => Firm same sc inC n ∧ Sure same sc n ∧ (determine true same sc n).kind ≠ .any
/-- the entries of an object: the checker looks only at those whose key is a constant -/
def FirmP (same : VT → VT → Bool) (sc : TScope) (inC : Bool) : List (Node × Node) → Prop
  | [] => True
  | (k, v) :: ns => (Firm same sc inC k ∧ (constStr (determine true same sc k).kind).isSome = true) ∧
    Firm same sc inC v ∧ FirmP same sc inC ns
end

/-- assignments: every target is a constant, the operands neither assign nor mention `$root` -/
def FirmAsg (same : VT → VT → Bool) : TScope → List (Node × Node) → Prop
  | _, [] => True
  | sc, (k, v) :: r => Firm same sc false k ∧ Firm same sc false v ∧
    ∀ c, (determine true same sc k).kind = .const c →
      FirmAsg same { sc with root := (dotInsertP sc.root (splitDot c) (determine true same sc v).kind).getD sc.root } r

/-- a whole expression: assignments only at the top -/
def FirmTop (same : VT → VT → Bool) (sc : TScope) : Node → Prop
  | .assigns list none => SureAsg same { sc with root := asgRoot sc.root } list ∧
    FirmAsg same { sc with root := asgRoot sc.root } list
  | .assigns list (some n) => SureAsg same { sc with root := asgRoot sc.root } list ∧
    FirmAsg same { sc with root := asgRoot sc.root } list ∧ NoAssign n ∧ Avoids [] n ∧
    Firm same (detAsg true same { sc with root := asgRoot sc.root } [] list).1 false n
  | n => NoAssign n ∧ Firm same sc false n

end Ty
end Zen
