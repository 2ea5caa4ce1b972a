import Verif.Analysis.Reads
/-
Renaming a global or an entity inside an expression (core/engine/src/workspace/editor.rs:348-391, 472-528): the identifiers at which the
analysis records a reference that begins with the name (core/expression/src/intellisense/dependency.rs) get the new name.

Simplifications: the edit is made on the syntax tree instead of the text; an identifier stands for its span. That the span
of an identifier covers exactly its text is not modelled. Of the references only those are followed whose first part is
neither an alias nor an element of a collection, the only ones `walk_segment_targets` compares with a global or an entity
(editor.rs:482-509); fields are not modelled. Whether the name is one of the globals or entities of the policy, which is the same for all its
occurrences (editor.rs:484-501), is taken as given.
-/
namespace Zen.Rename
open Zen Reads

/-- The root and the fields of a chain up to the first computed property, and whether there was none: the path of the
first reference recorded for it (dependency.rs:436-487). -/
def group : Node → List String × Bool
  | .ident v => ([v], true)
  | .root => (["$root"], true)
  | .member n p => match group n, p with
    | (g, true), .str k => (g ++ [k], true)
    | (g, _), _ => (g, false)
  | _ => ([], false)

/-- whether an identifier on its own is recorded as a reference without an alias (dependency.rs:602-640) -/
def named (S : Sc) (v : String) : Bool :=
  S.unresolved.contains v || ((aGet S.aliases v).isNone && !S.isLocal [v])

/-- whether the first reference of a chain is recorded, without an alias (dependency.rs:387-434, 564-597) -/
def rooted (S : Sc) (n : Node) : Bool :=
  match (group n).1 with
  | v :: r => v != "$" && (S.unresolved.contains v ||
      ((aGet S.aliases v).isNone && !S.isLocal [v] && !S.isLocal (v :: r)))
  | [] => false

/-- whether the reference recorded for the collection of a closure is without an alias (dependency.rs:144-152, 715-722) -/
def iterated (S : Sc) : List String → Bool
  | v :: _ => (aGet S.aliases v).isNone
  | [] => false

/-- the path a closure iterates over (dependency.rs:668-672) -/
def source (over : Node) : Option (List String) :=
  match readPath over with
  | some p => some p
  | none => sourcePath over

variable (x y : String)

mutual
/-- `walk_renamable` (editor.rs:372-391) in one expression: the walk of `resolve` (dependency.rs:600-857), with the new name
at the references found. The second component is the scope of the analysis afterwards. -/
def rn : Node → Sc → Node × Sc
  | .ident v, S => (.ident (if v = x && named S v then y else v), S)
  | .member n p, S =>
    if isChain n then
      let (n', S') := rnSpine (rooted S (.member n p)) n S
      let (p', S') := rn p S'
      (.member n' p', S')
    else
      let (n', S) := rn n S
      let (p', S) := rn p S
      (.member n' p', S)
  | .assigns list out, S =>
    let (l, S) := rnAsg list S
    let (o, S) := rnOpt out S
    (.assigns l o, S)
  | .call f args, S =>
    let (a, S) := rnList args S
    (.call f a, S)
  | .closure k over alias body, S =>
    let body' := (rn body (innerScope S (source over) alias)).1
    match readPath over with
    | some p =>
      if S.isLocal p then
        let (o, S) := rn over S
        (.closure k o alias body', S)
      else
        let (o, S) := rnSpine (iterated S p) over S
        (.closure k o alias body', S)
    | none =>
      let (o, S) := rn over S
      (.closure k o alias body', S)
  | .method m this args, S =>
    let (t, S) := rn this S
    let (a, S) := rnList args S
    (.method m t a, S)
  | .binary op l r, S =>
    let (l, S) := rn l S
    let (r, S) := rn r S
    (.binary op l r, S)
  | .unary op n, S =>
    let (n, S) := rn n S
    (.unary op n, S)
  | .cond c t f, S =>
    let (c, S) := rn c S
    let (t, S) := rn t S
    let (f, S) := rn f S
    (.cond c t f, S)
  | .paren n, S =>
    let (n, S) := rn n S
    (.paren n, S)
  | .arr xs, S =>
    let (a, S) := rnList xs S
    (.arr a, S)
  | .obj kvs, S =>
    let (a, S) := rnPairs kvs S
    (.obj a, S)
  | .tmpl parts, S =>
    let (a, S) := rnList parts S
    (.tmpl a, S)
  | .slice n f t, S =>
    let (n, S) := rn n S
    let (f, S) := rnOpt f S
    let (t, S) := rnOpt t S
    (.slice n f t, S)
  | .interval l r lb rb, S =>
    let (l, S) := rn l S
    let (r, S) := rn r S
    (.interval l r lb rb, S)
  | n, S => (n, S)
/-- along a chain of members (dependency.rs:358-488); `hit` says whether its root is to be renamed -/
def rnSpine (hit : Bool) : Node → Sc → Node × Sc
  | .ident v, S => (.ident (if hit && v = x then y else v), S)
  | .member n p, S =>
    let (n', S) := rnSpine hit n S
    let (p', S) := rn p S
    (.member n' p', S)
  | n, S => (n, S)
def rnOpt : Option Node → Sc → Option Node × Sc
  | none, S => (none, S)
  | some n, S =>
    let (n, S) := rn n S
    (some n, S)
def rnList : List Node → Sc → List Node × Sc
  | [], S => ([], S)
  | n :: ns, S =>
    let (n, S) := rn n S
    let (ns, S) := rnList ns S
    (n :: ns, S)
def rnPairs : List (Node × Node) → Sc → List (Node × Node) × Sc
  | [], S => ([], S)
  | (k, v) :: ns, S =>
    let (k, S) := rn k S
    let (v, S) := rn v S
    let (ns, S) := rnPairs ns S
    ((k, v) :: ns, S)
/-- the keys of assignments are not looked at (dependency.rs:644-655) -/
def rnAsg : List (Node × Node) → Sc → List (Node × Node) × Sc
  | [], S => ([], S)
  | (k, v) :: ns, S =>
    let (v, S) := rn v S
    let (ns, S) := rnAsg ns (bind S k)
    ((k, v) :: ns, S)
end

/-- an expression after renaming `x` to `y` -/
def renamed (unary : Bool) (n : Node) : Node := (rn x y n { locals := if unary then ["$"] else [] }).1

/-! ## What renaming should do -/

mutual
/-- Every occurrence of `x` that is not bound by an `as x` around it, where `bound` says whether there is one. -/
def sub (bound : Bool) : Node → Node
  | .ident v => .ident (if v = x && !bound then y else v)
  | .member n p => .member (sub bound n) (sub bound p)
  | .assigns list out => .assigns (subAsg bound list) (subOpt bound out)
  | .call f args => .call f (subList bound args)
  | .closure k over alias body => .closure k (sub bound over) alias (sub (bound || alias == some x) body)
  | .method m this args => .method m (sub bound this) (subList bound args)
  | .binary op l r => .binary op (sub bound l) (sub bound r)
  | .unary op n => .unary op (sub bound n)
  | .cond c t f => .cond (sub bound c) (sub bound t) (sub bound f)
  | .paren n => .paren (sub bound n)
  | .arr xs => .arr (subList bound xs)
  | .obj kvs => .obj (subPairs bound kvs)
  | .tmpl parts => .tmpl (subList bound parts)
  | .slice n f t => .slice (sub bound n) (subOpt bound f) (subOpt bound t)
  | .interval l r lb rb => .interval (sub bound l) (sub bound r) lb rb
  | .null => .null
  | .bool b => .bool b
  | .num n => .num n
  | .str s => .str s
  | .pointer => .pointer
  | .root => .root
  | .error => .error
def subOpt (bound : Bool) : Option Node → Option Node
  | none => none
  | some n => some (sub bound n)
def subList (bound : Bool) : List Node → List Node
  | [] => []
  | n :: ns => sub bound n :: subList bound ns
def subPairs (bound : Bool) : List (Node × Node) → List (Node × Node)
  | [] => []
  | (k, v) :: ns => (sub bound k, sub bound v) :: subPairs bound ns
def subAsg (bound : Bool) : List (Node × Node) → List (Node × Node)
  | [] => []
  | (k, v) :: ns => (k, sub bound v) :: subAsg bound ns
end

/-! ## Conditions -/

/-- the first segment of the key of an assignment -/
def keyHead : Node → Option String
  | .str k => (splitDot k).head?
  | _ => none

mutual
/-- An expression in which the analysis knows every binding of `x`: nothing beginning with `x` is assigned, and where `x` names
the elements of a collection, the collection is a path from `x` itself or from a name that is neither assigned nor an
alias. `L` contains the names assigned and `$`, `A` the aliases. -/
def clear (L A : List String) : Node → Bool
  | .member n p => clear L A n && clear L A p
  | .assigns list out => clearAsg L A list && clearOpt L A out
  | .call _ args => clearList L A args
  | .closure _ over alias body => clear L A over && clear L A body && match alias with
    | none => true
    | some a =>
      if a = x then match source over with
        | some (r :: _) => r == x || (!L.contains r && !A.contains r)
        | _ => false
      else A.contains a
  | .method _ this args => clear L A this && clearList L A args
  | .binary _ l r => clear L A l && clear L A r
  | .unary _ n => clear L A n
  | .cond c t f => clear L A c && clear L A t && clear L A f
  | .paren n => clear L A n
  | .arr xs => clearList L A xs
  | .obj kvs => clearPairs L A kvs
  | .tmpl parts => clearList L A parts
  | .slice n f t => clear L A n && clearOpt L A f && clearOpt L A t
  | .interval l r _ _ => clear L A l && clear L A r
  | _ => true
def clearOpt (L A : List String) : Option Node → Bool
  | none => true
  | some n => clear L A n
def clearList (L A : List String) : List Node → Bool
  | [] => true
  | n :: ns => clear L A n && clearList L A ns
def clearPairs (L A : List String) : List (Node × Node) → Bool
  | [] => true
  | (k, v) :: ns => clear L A k && clear L A v && clearPairs L A ns
def clearAsg (L A : List String) : List (Node × Node) → Bool
  | [] => true
  | (k, v) :: ns => (match keyHead k with
      | some h => L.contains h
      | none => false) && clear L A v && clearAsg L A ns
end

mutual
/-- An expression that does not mention `y`, does not look at the whole environment with `$root`, and assigns to neither
name. -/
def fresh : Node → Bool
  | .ident v => v != y
  | .root => false
  | .member n p => fresh n && fresh p
  | .assigns list out => freshAsg list && freshOpt out
  | .call _ args => freshList args
  | .closure _ over alias body => fresh over && fresh body && alias != some y
  | .method _ this args => fresh this && freshList args
  | .binary _ l r => fresh l && fresh r
  | .unary _ n => fresh n
  | .cond c t f => fresh c && fresh t && fresh f
  | .paren n => fresh n
  | .arr xs => freshList xs
  | .obj kvs => freshPairs kvs
  | .tmpl parts => freshList parts
  | .slice n f t => fresh n && freshOpt f && freshOpt t
  | .interval l r _ _ => fresh l && fresh r
  | _ => true
def freshOpt : Option Node → Bool
  | none => true
  | some n => fresh n
def freshList : List Node → Bool
  | [] => true
  | n :: ns => fresh n && freshList ns
def freshPairs : List (Node × Node) → Bool
  | [] => true
  | (k, v) :: ns => fresh k && fresh v && freshPairs ns
def freshAsg : List (Node × Node) → Bool
  | [] => true
  | (k, v) :: ns => (match keyHead k with
      | some h => h != x && h != y
      | none => false) && fresh v && freshAsg ns
end

end Zen.Rename
