/-
Values handed to JavaScript (core/engine/src/nodes/function/v2/serde.rs).  Lists and objects are cells
shared by reference; what was converted is found again by the address of its cell.  Objects of
JavaScript are taken to keep the fields set on them, in order; the names that JavaScript treats
specially (`__proto__`, digits) are not modelled, nor is running out of memory.
-/
namespace Zen.Js

/-- `Variable`: a value without parts, or the address of a list or object -/
inductive RV (L : Type) where
  | leaf (x : L)
  | ref (a : Nat)

/-- what a cell holds; the engine's cells hold `RV`s, those of JavaScript too, with its own leaves and
addresses -/
inductive Cell (L : Type) where
  | arr (xs : List (RV L))
  | obj (fs : List (String × RV L))

abbrev Cells (L : Type) := List (Cell L)

/-- the cells of JavaScript so far and `cache` (serde.rs:148-151) -/
structure St (M : Type) where
  cells : Cells M := []
  cache : List (Nat × Nat) := []

def St.find {M : Type} (st : St M) (a : Nat) : Option Nat := (st.cache.find? fun e => e.1 == a).map Prod.snd

variable {L M : Type}

/-- a new cell of JavaScript, and the entry of the cache (serde.rs:183-185, 199-201).  The code makes
the cell before its parts and fills it; as nothing refers to it until it is in the cache, it is made
here when it is full. -/
def St.put (st : St M) (a : Nat) (c : Cell M) : RV M × St M :=
  (.ref st.cells.length, { cells := st.cells ++ [c], cache := (a, st.cells.length) :: st.cache })

mutual
/-- `convert_with_cache` (serde.rs:165-205); `f` converts what has no parts.  The number bounds how
deep cells are entered; the code has no bound. -/
def convert (H : Cells L) (f : L → M) : Nat → RV L → St M → Option (RV M × St M)
  | _, .leaf x, st => some (.leaf (f x), st)
  | 0, .ref _, _ => none
  | n + 1, .ref a, st => match st.find a with
    | some b => some (.ref b, st)
    | none => match H[a]? with
      | none => none
      | some (.arr xs) => match convertL H f n xs st with
        | none => none
        | some (ys, st) => some (st.put a (.arr ys))
      | some (.obj fs) => match convertF H f n fs st with
        | none => none
        | some (gs, st) => some (st.put a (.obj gs))
termination_by n _ => (n, 0)
/-- the loop over a list (serde.rs:179-181) -/
def convertL (H : Cells L) (f : L → M) : Nat → List (RV L) → St M → Option (List (RV M) × St M)
  | _, [], st => some ([], st)
  | n, x :: xs, st => match convert H f n x st with
    | none => none
    | some (y, st) => match convertL H f n xs st with
      | none => none
      | some (ys, st) => some (y :: ys, st)
termination_by n xs => (n, xs.length + 1)
/-- the loop over the fields (serde.rs:195-197) -/
def convertF (H : Cells L) (f : L → M) : Nat → List (String × RV L) → St M → Option (List (String × RV M) × St M)
  | _, [], st => some ([], st)
  | n, (k, x) :: xs, st => match convert H f n x st with
    | none => none
    | some (y, st) => match convertF H f n xs st with
      | none => none
      | some (ys, st) => some ((k, y) :: ys, st)
termination_by n xs => (n, xs.length + 1)
end

end Zen.Js
