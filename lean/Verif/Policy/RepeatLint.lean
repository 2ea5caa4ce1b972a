/-
The lint for repeated derivations (core/engine/src/policy/linter/repeated_derivation.rs) and the text
functions of `AstOps` (core/engine/src/policy/linter/mod.rs).
Texts are lists of characters; `ws` is `char::is_whitespace`. The syntax tree of an expression is
given with its spans and its children in the order of `Node::walk`
(core/expression/src/parser/ast.rs:75-161); what the lint reads of it is the kind of a node.
-/
namespace Zen.Policy.Repeat

/-- the variants of `Node` (core/expression/src/parser/ast.rs:10-72) -/
inductive Kind where
  | null | bool | number | string | templateString | pointer | array | object | assignments | identifier
  | closure | parenthesized | root | member | slice | interval | conditional | unary | binary | functionCall
  | methodCall | error
deriving DecidableEq

/-- `Span`: characters from, to -/
abbrev Span := Nat × Nat

/-- a node, its span in the metadata if it has one, and what `walk` visits below it -/
inductive LNode where
  | mk (kind : Kind) (span : Option Span) (kids : List LNode)

namespace LNode
def kind : LNode → Kind | mk k _ _ => k
def span : LNode → Option Span | mk _ s _ => s
def kids : LNode → List LNode | mk _ _ l => l

mutual
/-- the nodes `walk` calls its function on, in order (ast.rs:75-161) -/
def walk : LNode → List LNode
  | mk k s l => mk k s l :: walks l
def walks : List LNode → List LNode
  | [] => []
  | n :: l => walk n ++ walks l
end

/-- `is_op` (repeated_derivation.rs:36-50) -/
def isOp (n : LNode) : Bool :=
  match n.kind with
  | .binary | .unary | .conditional | .functionCall | .methodCall | .interval | .slice | .templateString => true
  | .object => !n.kids.isEmpty
  | .array => !n.kids.isEmpty
  | _ => false

/-- `op_count` (repeated_derivation.rs:52-60) -/
def opCount (n : LNode) : Nat := (n.walk.filter isOp).length
end LNode

/-- `threshold` (repeated_derivation.rs:31-33, 62-68) -/
def threshold (ops : Nat) : Nat := if ops ≥ 3 then 2 else 3

/-- `chars_at` (linter/mod.rs:119-124) -/
def charsAt (source : List Char) (span : Span) : List Char := (source.drop span.1).take (span.2 - span.1)

/-- `fingerprint` (linter/mod.rs:92-96) -/
def fingerprint (ws : Char → Bool) (source : List Char) (span : Span) : List Char :=
  (charsAt source span).filter fun c => !ws c

/-- the loop of `display_snippet` (linter/mod.rs:99-111): `out`, `pending_space` -/
def snippetLoop (ws : Char → Bool) : List Char → List Char → Bool → List Char
  | [], out, _ => out
  | c :: r, out, pending =>
    if ws c then snippetLoop ws r out (!out.isEmpty)
    else snippetLoop ws r (if pending then out ++ [' ', c] else out ++ [c]) false

/-- `display_snippet` (linter/mod.rs:98-117) -/
def displaySnippet (ws : Char → Bool) (source : List Char) (span : Span) : List Char :=
  let out := snippetLoop ws (charsAt source span) [] false
  if out.length > 60 then out.take 59 ++ ['…'] else out

/-- `SiteKey` (repeated_derivation.rs:16): policy, block, expression -/
abbrev Site := String × String × String

/-- `Occurrence` (repeated_derivation.rs:18-21) -/
structure Occ where
  site : Site
  span : Span
deriving DecidableEq

/-- an expression of a rule as `collect` comes across it; `tree` is `none` when there is no syntax
tree -/
structure Loc where
  policy : String
  block : String
  expr : String
  inTable : Bool        -- the block is a decision table
  standard : Bool       -- `ExpressionKind::Standard`
  source : List Char
  tree : Option LNode

/-- `Fragment` (repeated_derivation.rs:23-28); `policies` is a set -/
structure Frag where
  ops : Nat
  display : List Char
  policies : List String
  occs : List Occ
deriving DecidableEq

/-- the hash map of `collect`, by fingerprint -/
abbrev Frags := List (List Char × Frag)

/-- `HashSet::insert` -/
def insertNew (l : List String) (s : String) : List String := if s ∈ l then l else l ++ [s]

/-- `entry(key).or_insert_with(…)` and the two updates (repeated_derivation.rs:104-114) -/
def Frags.add (ws : Char → Bool) (loc : Loc) (key : List Char) (span : Span) (ops : Nat) : Frags → Frags
  | [] => [(key, ⟨ops, displaySnippet ws loc.source span, [loc.policy], [⟨(loc.policy, loc.block, loc.expr), span⟩]⟩)]
  | (k, f) :: r =>
    if k = key then
      (k, { f with policies := insertNew f.policies loc.policy
                   occs := f.occs ++ [⟨(loc.policy, loc.block, loc.expr), span⟩] }) :: r
    else (k, f) :: Frags.add ws loc key span ops r

/-- what is collected from a tree (repeated_derivation.rs:86-97) -/
def found (tree : Option LNode) : List (Span × Nat) :=
  match tree with
  | none => []
  | some root => root.walk.filterMap fun n =>
      if n.isOp then n.span.map fun s => (s, n.opCount) else none

/-- the inner loop (repeated_derivation.rs:99-115) -/
def collectLoc (ws : Char → Bool) (m : Frags) (loc : Loc) : Frags :=
  if loc.inTable || !loc.standard then m
  else (found loc.tree).foldl (fun m p =>
    let key := fingerprint ws loc.source p.1
    if key.length < 6 then m else m.add ws loc key p.1 p.2) m

/-- `collect` (repeated_derivation.rs:70-120); the expressions in the order of the policies (sorted by
path), their blocks and expressions -/
def collect (ws : Char → Bool) (locs : List Loc) : Frags := locs.foldl (collectLoc ws) []

/-- `str::len`: bytes -/
def byteLen (l : List Char) : Nat := (l.map Char.utf8Size).sum

/-- `str::cmp`, not greater; the order of the bytes of UTF-8 is that of the characters -/
def strLe : List Char → List Char → Bool
  | [], _ => true
  | _ :: _, [] => false
  | a :: l, b :: r => if a.toNat = b.toNat then strLe l r else decide (a.toNat < b.toNat)

/-- the comparison of `sort_by` (repeated_derivation.rs:135-141), not greater -/
def fragLe (a b : List Char × Frag) : Bool :=
  if a.2.ops = b.2.ops then
    if byteLen a.1 = byteLen b.1 then strLe a.1 b.1 else decide (byteLen b.1 < byteLen a.1)
  else decide (b.2.ops < a.2.ops)

/-- `ordered` (repeated_derivation.rs:131-141); `ord` gives the iteration order of the hash map -/
def ordered (ord : Frags → Frags) (m : Frags) : Frags :=
  ((ord m).filter fun p => p.2.occs.length ≥ threshold p.2.ops).mergeSort fragLe

/-- the occurrence is within a span of `covered`, which is kept as a list of places here
(repeated_derivation.rs:148-154) -/
def isCovered (covered : List Occ) (o : Occ) : Bool :=
  covered.any fun c => c.site = o.site && decide (c.span.1 ≤ o.span.1) && decide (o.span.2 ≤ c.span.2)

/-- the loop of `check` (repeated_derivation.rs:144-192): the fragments reported with their live
occurrences -/
def groups : Frags → List Occ → List (List Char × Frag × List Occ)
  | [], _ => []
  | (k, f) :: r, covered =>
    let live := f.occs.filter fun o => !isCovered covered o
    if live.length < threshold f.ops then groups r covered
    else (k, f, live) :: groups r (covered ++ live)

/-- a hint: where, and what the message says -/
structure Hint where
  site : Site
  span : Span
  snippet : List Char
  count : Nat
  policies : Option Nat       -- the number of policies, if the message names one
deriving DecidableEq

/-- the hints of a group (repeated_derivation.rs:160-188) -/
def hintsOf (target : String) (g : List Char × Frag × List Occ) : List Hint :=
  (g.2.2.filter fun o => o.site.1 = target).map fun o =>
    ⟨o.site, o.span, g.2.1.display, g.2.2.length, if g.2.1.policies.length > 1 then some g.2.1.policies.length else none⟩

/-- `check` (repeated_derivation.rs:124-194) -/
def check (ws : Char → Bool) (ord : Frags → Frags) (target : String) (locs : List Loc) : List Hint :=
  (groups (ordered ord (collect ws locs)) []).flatMap (hintsOf target)

end Zen.Policy.Repeat
