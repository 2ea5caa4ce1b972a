import Verif.Expr.Ast
import Verif.Core.Dot
/-
The analysis of what an expression reads (core/expression/src/intellisense/dependency.rs) and its flattening for
policies (core/engine/src/policy/blocks/property_read.rs).

Simplifications: spans, references and `pointer_collection` (which only matters for references) are left out. A chain of
members is processed along the spine of the tree instead of on a list of segments; the order is the same.
-/
namespace Zen.Reads
open Zen

/-- `ReadDependency` (dependency.rs:13-34) -/
inductive Dep where
  | direct (path : List String) (viaIndex : Bool)
  | iter (collection : List String) (alias : Option String) (reads : List Dep)
  | unresolved (path : List String)

/-- `Scope` (dependency.rs:120-127) -/
structure Sc where
  locals : List String := []
  bindings : List (List String) := []
  aliases : List (String × List String) := []
  unresolved : List String := []

/-- `is_local` (dependency.rs:130-142) -/
def Sc.isLocal (S : Sc) : List String → Bool
  | [] => false
  | x :: r => S.locals.contains x || S.bindings.any fun b => b.isPrefixOf (x :: r)

/-- `expand_alias_root` (dependency.rs:154-159) -/
def Sc.expand (S : Sc) : List String → List String
  | [] => []
  | x :: r => match aGet S.aliases x with
    | some c => c ++ r
    | none => x :: r

/-- `extract_read_path` (dependency.rs:866-882), also `extract_path_with_spans` without the spans
(dependency.rs:293-310) -/
def readPath : Node → Option (List String)
  | .ident v => some [v]
  | .root => some ["$root"]
  | .member n (.str k) => (readPath n).map (· ++ [k])
  | _ => none

/-- `collection_source_path` (dependency.rs:312-329) -/
def sourcePath : Node → Option (List String)
  | .ident v => some [v]
  | .root => some ["$root"]
  | .member n p => readPath (.member n p)
  | .paren n => sourcePath n
  | .binary (.logic .coalesce) l _ => sourcePath l
  | .closure .filter o _ _ => sourcePath o
  | _ => none

/-- whether `flatten_member_chain` succeeds (dependency.rs:331-356) -/
def isChain : Node → Bool
  | .ident _ => true
  | .root => true
  | .pointer => true
  | .member n _ => isChain n
  | _ => false

/-- how the rest of a chain is treated (dependency.rs:368-434) -/
inductive Mode where
  /-- `$` and `#`: only computed properties are looked at (dependency.rs:490-562) -/
  | silent
  /-- the root is an alias whose collection is not known -/
  | unresolved
  /-- the root is a local -/
  | local
  | path (aliased : Bool)

/-- what is known after some segments of a chain (dependency.rs:436-440) -/
structure Chain where
  mode : Mode
  group : List String
  cumulative : List String
  via : Option (List String) := none
  first : Bool := true
  deps : List Dep := []

/-- the decisions about the root of a chain (dependency.rs:368-440) -/
def Chain.start (S : Sc) (root : String) : Chain :=
  if root = "$" then ⟨.silent, [], [], none, true, []⟩
  else if S.unresolved.contains root then ⟨.unresolved, [root], [], none, true, []⟩
  else if (aGet S.aliases root).isSome then ⟨.path true, [root], [root], none, true, []⟩
  else if S.isLocal [root] then ⟨.local, [], [], none, true, []⟩
  else ⟨.path false, [root], [root], none, true, []⟩

/-- `emit_group` (dependency.rs:564-597) -/
def emitGroup (S : Sc) (path : List String) (aliased : Bool) (via : Option (List String)) : List Dep :=
  if path.isEmpty then []
  else if !aliased && S.isLocal path then []
  else [.direct (via.getD [] ++ path) via.isSome]

/-- a field (dependency.rs:392-395, 444-448) -/
def Chain.field (c : Chain) (k : String) : Chain :=
  match c.mode with
  | .unresolved => { c with group := c.group ++ [k] }
  | .path _ => { c with group := c.group ++ [k], cumulative := c.cumulative ++ [k] }
  | _ => c

/-- the group before a computed property, or the last one, is emitted (dependency.rs:450-464, 474-487) -/
def Chain.emit (c : Chain) (S : Sc) : List Dep :=
  match c.mode with
  | .path a => emitGroup S c.group (c.first && a) c.via
  | _ => []

/-- a computed property with the reads inside it (dependency.rs:449-470) -/
def Chain.dynamic (c : Chain) (S : Sc) (inner : List Dep) : Chain :=
  match c.mode with
  | .path _ => { c with group := [], via := some c.cumulative, first := false, deps := c.deps ++ c.emit S ++ inner }
  | _ => { c with deps := c.deps ++ inner }

/-- one segment; `inner` is the result of `resolve` on the property -/
def Chain.seg (c : Chain) (S : Sc) (p : Node) (inner : List Dep × Sc) : Chain × Sc :=
  match p with
  | .str k => (c.field k, S)
  | _ => (c.dynamic S inner.1, inner.2)

/-- the end of a chain (dependency.rs:399-406, 474-487) -/
def Chain.finish (c : Chain) (S : Sc) : List Dep :=
  match c.mode with
  | .unresolved => c.deps ++ [.unresolved c.group]
  | .path _ => c.deps ++ c.emit S
  | _ => c.deps

/-- the binding made by an assignment (dependency.rs:648-654, 859-864) -/
def bind (S : Sc) : Node → Sc
  | .str k => match splitDot k with
    | [x] => { S with locals := x :: S.locals }
    | p => { S with bindings := p :: S.bindings }
  | n => match readPath n with
    | some [x] => { S with locals := x :: S.locals }
    | some (x :: y :: r) => { S with bindings := (x :: y :: r) :: S.bindings }
    | _ => S

/-- the scope of the body of a closure (dependency.rs:676-702) -/
def innerScope (S : Sc) (source : Option (List String)) (alias : Option String) : Sc :=
  let S' := { S with locals := "$" :: S.locals }
  match alias, source with
  | some a, some s =>
    if S.isLocal (S.expand s) then { S' with unresolved := a :: S.unresolved }
    else { S' with aliases := aSet S.aliases a (S.expand s) }
  | some a, none => { S' with unresolved := a :: S.unresolved }
  | none, _ => S'

mutual
/-- `resolve` (dependency.rs:600-857): the reads in order, and the scope afterwards -/
def resolve : Node → Sc → List Dep × Sc
  | .ident v, S =>
    if S.unresolved.contains v then ([.unresolved [v]], S)
    else if (aGet S.aliases v).isSome || !S.isLocal [v] then ([.direct [v] false], S)
    else ([], S)
  | .member n p, S =>
    if isChain n then
      let (c, S) := spine n S
      let (c, S) := c.seg S p (resolve p S)
      (c.finish S, S)
    else
      let (a, S) := resolve n S
      let (b, S) := resolve p S
      (a ++ b, S)
  | .assigns list out, S =>
    let (a, S) := resolveAsg list S
    let (b, S) := resolveOpt out S
    (a ++ b, S)
  | .call _ args, S => resolveList args S
  | .closure _ over alias body, S =>
    let info := readPath over
    let source := match info with
      | some p => some p
      | none => sourcePath over
    let inner := (resolve body (innerScope S source alias)).1
    match info with
    | some p =>
      if S.isLocal p then
        let (a, S) := resolve over S
        if S.isLocal p then (a ++ inner, S) else (a ++ [.iter p alias inner], S)
      else ([.iter p alias inner], S)
    | none =>
      let (a, S) := resolve over S
      match source with
      | some p => if S.isLocal p then (a ++ inner, S) else (a ++ [.iter p alias inner], S)
      | none => (a ++ inner, S)
  | .method _ this args, S =>
    let (a, S) := resolve this S
    let (b, S) := resolveList args S
    (a ++ b, S)
  | .binary _ l r, S =>
    let (a, S) := resolve l S
    let (b, S) := resolve r S
    (a ++ b, S)
  | .unary _ n, S => resolve n S
  | .cond c t f, S =>
    let (a, S) := resolve c S
    let (b, S) := resolve t S
    let (d, S) := resolve f S
    (a ++ b ++ d, S)
  | .paren n, S => resolve n S
  | .arr xs, S => resolveList xs S
  | .obj kvs, S => resolvePairs kvs S
  | .tmpl parts, S => resolveList parts S
  | .slice n f t, S =>
    let (a, S) := resolve n S
    let (b, S) := resolveOpt f S
    let (d, S) := resolveOpt t S
    (a ++ b ++ d, S)
  | .interval l r _ _, S =>
    let (a, S) := resolve l S
    let (b, S) := resolve r S
    (a ++ b, S)
  | .root, S => ([.direct ["$root"] false], S)
  | _, S => ([], S)
/-- `resolve_member_chain` (dependency.rs:358-488) up to a member of the chain -/
def spine : Node → Sc → Chain × Sc
  | .ident v, S => (Chain.start S v, S)
  | .root, S => (Chain.start S "$root", S)
  | .member n p, S =>
    let (c, S) := spine n S
    c.seg S p (resolve p S)
  | _, S => (⟨.silent, [], [], none, true, []⟩, S)
def resolveOpt : Option Node → Sc → List Dep × Sc
  | none, S => ([], S)
  | some n, S => resolve n S
def resolveList : List Node → Sc → List Dep × Sc
  | [], S => ([], S)
  | n :: ns, S =>
    let (a, S) := resolve n S
    let (b, S) := resolveList ns S
    (a ++ b, S)
def resolvePairs : List (Node × Node) → Sc → List Dep × Sc
  | [], S => ([], S)
  | (k, v) :: ns, S =>
    let (a, S) := resolve k S
    let (b, S) := resolve v S
    let (c, S) := resolvePairs ns S
    (a ++ b ++ c, S)
def resolveAsg : List (Node × Node) → Sc → List Dep × Sc
  | [], S => ([], S)
  | (k, v) :: ns, S =>
    let (a, S) := resolve v S
    let (b, S) := resolveAsg ns (bind S k)
    (a ++ b, S)
end

/-- `resolve_path` (property_read.rs:92-106) -/
def resolvePath (F : List (String × List String)) : List String → List String
  | [] => []
  | x :: r => match aGet F x with
    | some c => c ++ r
    | none => x :: r

/-- `MAX_RECURSION_DEPTH` (policy/mod.rs:3) -/
def maxDepth : Nat := 32

/-- `PropertyRead` (policy/blocks/context.rs:44-50): the path as segments, without the position -/
structure PRead where
  path : List String
  viaAlias : Bool
  unresolved : Bool
  deriving DecidableEq

/-- what is kept of a read: nothing if its path is empty -/
def keep (r : PRead) : List PRead := if r.path.isEmpty then [] else [r]

/-- `!path.is_empty() && aliases.contains_key(&path[0])` (property_read.rs:38, 68-69) -/
def throughAlias (F : List (String × List String)) : List String → Bool
  | [] => false
  | x :: _ => (aGet F x).isSome

mutual
/-- `walk_deps` (property_read.rs:20-90) -/
def walkDeps (d : Nat) (F : List (String × List String)) : List Dep → List PRead
  | [] => []
  | x :: xs => if maxDepth ≤ d then [] else walkDep d F x ++ walkDeps d F xs
def walkDep (d : Nat) (F : List (String × List String)) : Dep → List PRead
  | .direct p vi => keep ⟨resolvePath F p, throughAlias F p || vi, false⟩
  | .unresolved p => keep ⟨resolvePath F p, true, true⟩
  | .iter p alias reads =>
    keep ⟨resolvePath F p, throughAlias F p, false⟩ ++ match alias with
      | some a => walkDeps (d + 1) (aSet F a (resolvePath F p)) reads
      | none => walkDeps (d + 1) F reads
end

/-- `reads` and `reads_unary` (intellisense/mod.rs:434-470) on the syntax tree -/
def readsOf (unary : Bool) (n : Node) : List Dep := (resolve n { locals := if unary then ["$"] else [] }).1

/-- what a policy block is recorded to read through an expression: `record_reads` (policy/blocks/context.rs:417-419) -/
def propReads (unary : Bool) (n : Node) : List PRead := walkDeps 0 [] (readsOf unary n)

/-- the paths of these reads -/
def reported (unary : Bool) (n : Node) : List (List String) := (propReads unary n).map PRead.path

/-- the paths that are asked for before an expression is evaluated (`flatten`, workspace/db.rs:640-663), in a policy
without entities, where `EntityForm::rewrite` (queries/scope.rs:38-63) changes nothing: reads that could not be resolved are left
out -/
def planned (unary : Bool) (n : Node) : List (List String) :=
  ((propReads unary n).filter fun r => !r.unresolved).map PRead.path

end Zen.Reads
