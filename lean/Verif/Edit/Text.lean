import Verif.Core.Val
/-
Replacing spans of a text, and the texts of a block, by new ones
(core/engine/src/workspace/types/diagnostic.rs:7-56, core/engine/src/workspace/editor.rs:531-597).

A text is a list of characters. Positions are natural numbers instead of `u32`.
-/
namespace Zen.Edit
open Zen

/-- `Span` (diagnostic.rs:7) -/
abbrev Span := Nat × Nat

/-- the number of bytes of a text -/
def bytes (s : List Char) : Nat := (s.map Char.utf8Size).sum

/-- characters that begin before byte `b`, when the text begins at byte `i` (diagnostic.rs:20-25) -/
def before (b : Nat) : Nat → List Char → Nat
  | _, [] => 0
  | i, c :: cs => if i < b then before b (i + c.utf8Size) cs + 1 else 0

/-- `char_span` (diagnostic.rs:16-27) -/
def charSpan (src : List Char) (s : Span) : Span :=
  if src.all (fun c => c.toNat < 128) then s else (before s.1 0 src, before s.2 0 src)

/-- the order of the spans (diagnostic.rs:31) -/
def spanLe (a b : Span) : Bool := a.1 < b.1 || (a.1 == b.1 && b.2 ≤ a.2)

/-- `Vec::dedup` (diagnostic.rs:32) -/
def dedup : List Span → List Span
  | [] => []
  | [a] => [a]
  | a :: b :: r => if a = b then dedup (b :: r) else a :: dedup (b :: r)

/-- the spans that do not begin before the end of the last one kept (diagnostic.rs:33-40) -/
def keep : Option Nat → List Span → List Span
  | _, [] => []
  | last, (s, e) :: r => match last with
    | some p => if s < p then keep (some p) r else (s, e) :: keep (some e) r
    | none => (s, e) :: keep (some e) r

/-- one replacement (diagnostic.rs:43-53); a position behind the text is its end. `none`: `replace_range` panics. -/
def cut (new : List Char) (s : Span) (out : List Char) : Option (List Char) :=
  let a := min s.1 out.length
  let b := min s.2 out.length
  if a ≤ b then some (out.take a ++ new ++ out.drop b) else none

/-- the spans that are replaced (diagnostic.rs:30-40) -/
def kept (spans : List Span) : List Span := keep none (dedup (spans.mergeSort spanLe))

/-- `replace_at_char_spans` (diagnostic.rs:29-55) -/
def replaceAt (src : List Char) (spans : List Span) (new : List Char) : Option (List Char) :=
  (kept spans).reverse.foldl (fun out s => out.bind (cut new s)) (some src)

/-- names under which nothing is changed in a block of a decision graph (editor.rs:573-585) -/
def nodeKeys : List String :=
  ["id", "_id", "type", "name", "kind", "sourceId", "targetId", "sourceHandle", "targetHandle"]

variable (by_ : List (String × String)) (protect : Bool)

mutual
/-- `apply_to` (editor.rs:563-597). `by_` gives the new text of a source. Text inside the strings under `dataJson` and `schemaJson` is
not modelled; only decision graphs have them. -/
def applyTo : Val → Val
  | .str s => .str ((aGet by_ s).getD s)
  | .arr xs => .arr (applyList xs)
  | .obj m => .obj (applyFields m)
  | v => v
def applyList : List Val → List Val
  | [] => []
  | v :: r => applyTo v :: applyList r
def applyFields : List (String × Val) → List (String × Val)
  | [] => []
  | (k, v) :: r =>
    (k, if protect && nodeKeys.contains k then v
      else if k = "dataJson" || k = "schemaJson" then v
      else applyTo v) :: applyFields r
end

/-- `from_sites` (editor.rs:537-556): the new text of every source, from the sites, each a source with a span -/
def bySource (sites : List (String × Span)) (new : String) : List (String × String) :=
  (sites.map Prod.fst).eraseDups.filterMap fun src =>
    (replaceAt src.toList ((sites.filter (·.1 = src)).map Prod.snd) new.toList).map fun t => (src, String.ofList t)

/-- without a `[]` at the end (editor.rs:324) -/
def stripBrackets (s : List Char) : List Char :=
  if s.drop (s.length - 2) = ['[', ']'] then s.take (s.length - 2) else s

/-- `write_key_span` (editor.rs:323-332) for a global or an entity called `x` -/
def writeKeySpan (isGlobal : Bool) (x source : List Char) : Option Span :=
  let source := stripBrackets source
  if isGlobal then if source = x then some (0, source.length) else none
  else if '.' ∈ source then if source.takeWhile (· != '.') = x then some (0, x.length) else none
  else none

end Zen.Edit
