import Verif.Expr.Ast
/-
The recogniser of simple tests on one property
(core/expression/src/intellisense/discriminant.rs). `Decimal` values are rationals.
-/
namespace Zen

/-- `Bound` (discriminant.rs:39-44) -/
inductive Bnd where
  | unbounded
  | incl (n : Rat)
  | excl (n : Rat)
deriving DecidableEq

/-- `NumberSegment` (discriminant.rs:33-37) -/
structure Seg where
  lo : Bnd
  hi : Bnd
deriving DecidableEq

/-- `NumberCover` (discriminant.rs:28-31): the vector of segments -/
abbrev Cover := List Seg

/-- `ArmTest` (discriminant.rs:8-26) -/
inductive ArmTest where
  | enum (path : List String) (values : List String)
  | bool (path : List String) (values : List Bool)
  | number (path : List String) (cover : Cover)
  | dflt
  | unrecognized
deriving DecidableEq

namespace Bnd
/-- `lo_rank` (discriminant.rs:418-424) -/
def loRank : Bnd → Nat × Rat × Nat
  | .unbounded => (0, 0, 0)
  | .incl n => (1, n, 0)
  | .excl n => (1, n, 1)

/-- derived tuple order `(u8, Decimal, u8)` -/
def rank3Le (a b : Nat × Rat × Nat) : Bool :=
  decide (a.1 < b.1) ||
    (decide (a.1 = b.1) && (decide (a.2.1 < b.2.1) ||
      (decide (a.2.1 = b.2.1) && decide (a.2.2 ≤ b.2.2))))

/-- `hi_rank` (discriminant.rs:426-432). The rank of `Unbounded`, built from `Decimal::MAX`, is
never used: every caller treats `Unbounded` before (discriminant.rs:442-456). -/
def hiRank : Bnd → Rat × Nat
  | .excl n => (n, 0)
  | .incl n => (n, 1)
  | .unbounded => (0, 2)

/-- derived tuple order `(Decimal, u8)` -/
def rank2Le (a b : Rat × Nat) : Bool :=
  decide (a.1 < b.1) || (decide (a.1 = b.1) && decide (a.2 ≤ b.2))

/-- `tighter_lo` (discriminant.rs:434-440) -/
def tighterLo : Bnd → Bnd → Bnd
  | .unbounded, other => other
  | other, .unbounded => other
  | a, b => if rank3Le b.loRank a.loRank then a else b

/-- `tighter_hi` (discriminant.rs:442-448) -/
def tighterHi : Bnd → Bnd → Bnd
  | .unbounded, other => other
  | other, .unbounded => other
  | a, b => if rank2Le a.hiRank b.hiRank then a else b

/-- `wider_hi` (discriminant.rs:450-456) -/
def widerHi : Bnd → Bnd → Bnd
  | .unbounded, _ => .unbounded
  | _, .unbounded => .unbounded
  | a, b => if rank2Le b.hiRank a.hiRank then a else b

/-- the number of a bounded end (the or-patterns in discriminant.rs:459-463) -/
def value? : Bnd → Option Rat
  | .unbounded => none
  | .incl n => some n
  | .excl n => some n

def isExcl : Bnd → Bool
  | .excl _ => true
  | _ => false

/-- `connects` (discriminant.rs:458-471) -/
def connects (frontier next : Bnd) : Bool :=
  match frontier.value?, next.value? with
  | some f, some l =>
    if l < f then true
    else if f < l then false
    else !(frontier.isExcl && next.isExcl)
  | _, _ => true
end Bnd

namespace Cover
/-- `point` (discriminant.rs:318-325) -/
def point (n : Rat) : Cover := [⟨.incl n, .incl n⟩]

/-- `interval` (discriminant.rs:327-341) -/
def interval (lo : Rat) (left : Brk) (hi : Rat) (right : Brk) : Option Cover :=
  match (match left with
    | .lsq => some (Bnd.incl lo)
    | .lparen => some (Bnd.excl lo)
    | _ => none) with
  | none => none
  | some l => match (match right with
    | .rsq => some (Bnd.incl hi)
    | .rparen => some (Bnd.excl hi)
    | _ => none) with
    | none => none
    | some r => some [⟨l, r⟩]

/-- `single` (discriminant.rs:343-366) -/
def single (op : COp) (n : Rat) : Option Cover :=
  match op with
  | .lt => some [⟨.unbounded, .excl n⟩]
  | .le => some [⟨.unbounded, .incl n⟩]
  | .gt => some [⟨.excl n, .unbounded⟩]
  | .ge => some [⟨.incl n, .unbounded⟩]
  | _ => none

/-- one step of `points` -/
def segPoint (s : Seg) : Option Rat :=
  match s.lo, s.hi with
  | .incl lo, .incl hi => if lo = hi then some lo else none
  | _, _ => none

/-- `points` (discriminant.rs:368-376) -/
def points : Cover → Option (List Rat)
  | [] => some []
  | s :: r => match segPoint s with
    | none => none
    | some p => (points r).map (p :: ·)

/-- `merged_with` (discriminant.rs:378-380) -/
def mergedWith (a b : Cover) : Cover := a ++ b

/-- `intersect` (discriminant.rs:382-392) -/
def intersect : Cover → Cover → Option Cover
  | [a], [b] => some [⟨Bnd.tighterLo a.lo b.lo, Bnd.tighterHi a.hi b.hi⟩]
  | _, _ => none

/-- the loop of `is_total` (discriminant.rs:403-412) and the final test (413) -/
def sweep (frontier : Bnd) : List Seg → Bool
  | [] => decide (frontier = .unbounded)
  | s :: rest =>
    if frontier = .unbounded then true
    else if !Bnd.connects frontier s.lo then false
    else sweep (Bnd.widerHi frontier s.hi) rest

/-- order used to sort the segments (discriminant.rs:396) -/
def segLe (a b : Seg) : Bool := Bnd.rank3Le a.lo.loRank b.lo.loRank

/-- `is_total` (discriminant.rs:394-414); `sort_by` is a stable sort, here merge sort -/
def isTotal (c : Cover) : Bool :=
  match c.mergeSort segLe with
  | [] => false
  | first :: rest => if first.lo ≠ .unbounded then false else sweep first.hi rest
end Cover

/-- `Operand` (discriminant.rs:46-52) -/
inductive Opnd where
  | path (p : List String)
  | num (n : Rat)
  | str (s : String)
  | bool (b : Bool)
  | other

namespace Opnd
/-- `unwrap` (discriminant.rs:292-297) -/
def unwrap : Node → Node
  | .paren n => unwrap n
  | n => n

/-- `extract_path` (discriminant.rs:299-314) -/
def extractPath : Node → Option (List String)
  | .ident name => some [name]
  | .member n p => match extractPath n with
    | none => none
    | some pre => match p with
      | .str key => some (pre ++ [key])
      | _ => none
  | _ => none

/-- `classify` (discriminant.rs:273-290) -/
def classify (n : Node) : Opnd :=
  match unwrap n with
  | .num n => .num n
  | .str s => .str s
  | .bool b => .bool b
  | .unary (.arith .sub) m => match unwrap m with
    | .num n => .num (-n)
    | _ => .other
  | n => match extractPath n with
    | some p => .path p
    | none => .other
end Opnd

/-- the string elements of a list, all of them or nothing (discriminant.rs:135-144) -/
def strItems : List Node → Option (List String)
  | [] => some []
  | n :: r => match Opnd.unwrap n with
    | .str s => (strItems r).map (s :: ·)
    | _ => none
/-- discriminant.rs:145-154 -/
def boolItems : List Node → Option (List Bool)
  | [] => some []
  | n :: r => match Opnd.unwrap n with
    | .bool s => (boolItems r).map (s :: ·)
    | _ => none
/-- discriminant.rs:155-162 -/
def numItems : List Node → Option (List Rat)
  | [] => some []
  | n :: r => match Opnd.classify n with
    | .num s => (numItems r).map (s :: ·)
    | _ => none

namespace ArmTest

/-- the literal side of an equality (discriminant.rs:91-105) -/
def ofLiteral (path : List String) : Opnd → ArmTest
  | .str s => .enum path [s]
  | .bool b => .bool path [b]
  | .num n => .number path (Cover.point n)
  | _ => .unrecognized

/-- `equality` (discriminant.rs:85-106) -/
def equality (left right : Node) : ArmTest :=
  match Opnd.classify left, Opnd.classify right with
  | .path p, lit => ofLiteral p lit
  | lit, .path p => ofLiteral p lit
  | _, _ => .unrecognized

/-- the array part of `in_set` (discriminant.rs:128-173) -/
def inItems (path : List String) (items : List Node) : ArmTest :=
  if items.isEmpty then .unrecognized
  else match strItems items with
    | some values => .enum path values
    | none => match boolItems items with
      | some values => .bool path values
      | none => match numItems items with
        | some [] => .unrecognized
        | some (first :: numbers) =>
          .number path (numbers.foldl (fun c n => Cover.mergedWith c (Cover.point n)) (Cover.point first))
        | none => .unrecognized

/-- `in_set` (discriminant.rs:108-174) -/
def inSet (left right : Node) : ArmTest :=
  match Opnd.classify left with
  | .path path => match Opnd.unwrap right with
    | .interval lo hi lb rb => match Opnd.classify lo, Opnd.classify hi with
      | .num lo, .num hi => match Cover.interval lo lb hi rb with
        | some cover => .number path cover
        | none => .unrecognized
      | _, _ => .unrecognized
    | .arr items => inItems path items
    | _ => .unrecognized
  | _ => .unrecognized

/-- `flip` (discriminant.rs:261-269) -/
def flip : COp → COp
  | .lt => .gt
  | .le => .ge
  | .gt => .lt
  | .ge => .le
  | other => other

/-- the last part of `numeric` (discriminant.rs:182-185) -/
def ofSingle (path : List String) (op : COp) (n : Rat) : ArmTest :=
  match Cover.single op n with
  | some cover => .number path cover
  | none => .unrecognized

/-- `numeric` (discriminant.rs:176-186) -/
def numeric (left : Node) (op : COp) (right : Node) : ArmTest :=
  match Opnd.classify left, Opnd.classify right with
  | .path p, .num n => ofSingle p op n
  | .num n, .path p => ofSingle p (flip op) n
  | _, _ => .unrecognized

/-- `and` (discriminant.rs:188-205) -/
def andT : ArmTest → ArmTest → ArmTest
  | .number pa ca, .number pb cb =>
    if pa = pb then match Cover.intersect ca cb with
      | some cover => .number pa cover
      | none => .unrecognized
    else .unrecognized
  | _, _ => .unrecognized

/-- `or` (discriminant.rs:207-259) -/
def orT : ArmTest → ArmTest → ArmTest
  | .enum pa va, .enum pb vb => if pa = pb then .enum pa (va ++ vb) else .unrecognized
  | .bool pa va, .bool pb vb => if pa = pb then .bool pa (va ++ vb) else .unrecognized
  | .number pa ca, .number pb cb =>
    if pa = pb then .number pa (Cover.mergedWith ca cb) else .unrecognized
  | _, _ => .unrecognized

/-- the comparison operators of `binary` (discriminant.rs:67-75) -/
def leaf (op : COp) (l r : Node) : ArmTest :=
  match op with
  | .eq => equality l r
  | .in_ => inSet l r
  | .lt => numeric l .lt r
  | .le => numeric l .le r
  | .gt => numeric l .gt r
  | .ge => numeric l .ge r
  | _ => .unrecognized

/-- `from_node` and `binary` (discriminant.rs:54-83) -/
def fromNode : Node → ArmTest
  | .paren n => fromNode n
  | .binary op l r => match op with
    | .logic .and => andT (fromNode l) (fromNode r)
    | .logic .or => orT (fromNode l) (fromNode r)
    | .cmp op => leaf op l r
    | _ => .unrecognized
  | _ => .unrecognized

end ArmTest
end Zen
