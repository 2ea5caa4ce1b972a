import Verif.Types.Inhabits
import Verif.Builtins.Registry
import Verif.Expr.Ast
/-
The type checker of expressions (core/expression/src/intellisense/type_provider.rs).

Simplifications: the table of types per node is not kept; instead the type of a node comes with a flag saying
whether an error was recorded on it or on a node below it. Texts of messages and positions are left out. Errors
are those shown with severity `Error`; the messages that start with `Hint:` or `Lint:` (diagnostic.rs:90-96) are
`hintOf`. `Rc::ptr_eq` on types is the parameter `same`, as in `VT.merge`. Values of a hash map are visited in
list order.
-/
namespace Zen
namespace Ty
open VT

/-- `IntelliSenseScope` (intellisense/scope.rs:5-11); `current_data` is not read by the type checker -/
structure TScope where
  root : VT
  pointer : VT
  aliases : List (String × VT) := []

/-- a type and whether an error was recorded -/
structure TI where
  kind : VT
  bad : Bool := false

/-- `as_const_str` (variable_type/util.rs:25-31) -/
def constStr : VT → Option String
  | .const c => some c
  | .nullable t => constStr t
  | _ => none

/-- `is_iterable` (util.rs:97-103) -/
def iterable : VT → Bool
  | .any => true
  | .interval => true
  | .arr _ => true
  | .nullable t => iterable t
  | _ => false

/-- `matches!(t, VariableType::Nullable(_))` -/
def isNullable : VT → Bool
  | .nullable _ => true
  | _ => false

/-- the object the detached walk descends into (util.rs:295-305) -/
def detachChild : Option VT → VT
  | some (.obj o) => .obj o
  | _ => .obj []

/-- `dot_insert_detached` (util.rs:284-312, 338-349) on the parts of the key -/
def dotInsertP : VT → List String → VT → Option VT
  | .obj m, [k], t => some (.obj (aSet m k t))
  | .obj m, k :: k' :: ks, t => match dotInsertP (detachChild (aGet m k)) (k' :: ks) t with
    | some x => some (.obj (aSet m k x))
    | none => none
  | _, _, _ => none

/-! ### Signatures of functions -/

/-- `FunctionSignature` (functions/defs.rs:25-29) -/
structure Sig where
  params : List VT
  ret : VT

/-- `StaticFunction` and `CompositeFunction` (defs.rs:40-44, 111-115) -/
inductive FDef where
  | static (s : Sig)
  | composite (ss : List Sig)

/-- the arguments satisfy the parameters, as far as both go (defs.rs:68-81, 156-165) -/
def zipSat : List VT → List VT → Bool
  | a :: as, p :: ps => sat a p && zipSat as ps
  | _, _ => true

/-- smallest and largest number of parameters (defs.rs:118-136) -/
def minArity (ss : List Sig) : Nat := ((ss.map fun s => s.params.length).min?).getD 0
def maxArity (ss : List Sig) : Nat := ((ss.map fun s => s.params.length).max?).getD 0

/-- `check_types` (defs.rs:55-84, 138-202); errors on arguments and the general error alike -/
def FDef.check : FDef → List VT → TI
  | .static s, args => ⟨s.ret, decide (args.length ≠ s.params.length) || !zipSat args s.params⟩
  | .composite ss, args =>
    match ss.find? fun s => zipSat args s.params with
    | some s => ⟨s.ret, decide (args.length < minArity ss) || decide (maxArity ss < args.length)⟩
    | none => ⟨.null, true⟩

/-- one parameter (defs.rs:31-38) -/
def Sig.single (p r : VT) : Sig := ⟨[p], r⟩

/-- the definition of every internal function (internal.rs:62-320) -/
def fnDef : Fn.Name → FDef
  | .len => .composite [.single .string .number, .single (.arr .any) .number]
  | .contains => .composite [⟨[.string, .string], .bool⟩, ⟨[.arr .any, .any], .bool⟩]
  | .flatten => .static (.single (.arr .any) (.arr .any))
  | .merge => .composite [.single (.arr .any) (.arr .any), .single (.arr (.obj [])) (.obj [])]
  | .mergeDeep => .static (.single (.arr (.obj [])) (.obj []))
  | .upper => .static (.single .string .string)
  | .lower => .static (.single .string .string)
  | .trim => .static (.single .string .string)
  | .startsWith => .static ⟨[.string, .string], .bool⟩
  | .endsWith => .static ⟨[.string, .string], .bool⟩
  | .matches_ => .static ⟨[.string, .string], .bool⟩
  | .extract => .static ⟨[.string, .string], .arr .string⟩
  | .split => .static ⟨[.string, .string], .arr .string⟩
  | .fuzzyMatch => .composite [⟨[.string, .string], .number⟩, ⟨[.arr .string, .string], .arr .number⟩]
  | .abs => .static (.single .number .number)
  | .rand => .static (.single .number .number)
  | .floor => .static (.single .number .number)
  | .ceil => .static (.single .number .number)
  | .round => .composite [⟨[.number], .number⟩, ⟨[.number, .number], .number⟩]
  | .trunc => .composite [⟨[.number], .number⟩, ⟨[.number, .number], .number⟩]
  | .sum => .static (.single (.arr .number) .number)
  | .avg => .static (.single (.arr .number) .number)
  | .min => .composite [.single (.arr .number) .number, .single (.arr .date) .date]
  | .max => .composite [.single (.arr .number) .number, .single (.arr .date) .date]
  | .median => .static (.single (.arr .number) .number)
  | .mode => .static (.single (.arr .number) .number)
  | .type => .static (.single .any .string)
  | .string => .static (.single .any .string)
  | .bool => .static (.single .any .bool)
  | .isNumeric => .static (.single .any .bool)
  | .number => .static (.single .any .number)
  | .keys => .composite [.single (.obj []) (.arr .string), .single (.arr .any) (.arr .number)]
  | .values => .static (.single (.obj []) (.arr .any))
  | .date => .composite [⟨[], .date⟩, ⟨[.any], .date⟩, ⟨[.any, .string], .date⟩]

/-- the definition of every deprecated function (deprecated.rs:35-111) -/
def depDef : Fn.DName → FDef
  | .monthString | .dateString | .weekdayString => .static (.single .any .string)
  | .startOf | .endOf => .static ⟨[.any, .string], .number⟩
  | _ => .static (.single .any .number)

/-- `DurationUnit::variable_type` (vm/date/duration_unit.rs:17-30) -/
def unitType : VT := .enum (some "DurationUnit")
  ["seconds", "second", "secs", "sec", "s", "minutes", "minute", "min", "mins", "m", "hours", "hour", "hr", "hrs",
   "h", "days", "day", "d", "weeks", "week", "w", "months", "month", "mo", "M", "quarters", "quarter", "qtr", "q",
   "years", "year", "y"]

/-- `op_signature` (date_method.rs:84-93) -/
def opSigs : List Sig := [⟨[.date, .string], .date⟩, ⟨[.date, .number, unitType], .date⟩]

/-- the return type of a getter (date_method.rs:350-369) -/
def getterType : Fn.Getter → VT
  | .isValid | .isYesterday | .isToday | .isTomorrow | .isLeapYear => .bool
  | .offsetName => .string
  | _ => .number

/-- the definition of every method (date_method.rs:77-184, 312-323) -/
def methodDef : Fn.MName → FDef
  | .add => .composite opSigs
  | .sub => .composite opSigs
  | .set => .static ⟨[.date, unitType, .number], .date⟩
  | .tz => .static ⟨[.date, .string], .date⟩
  | .format => .composite [⟨[.date], .string⟩, ⟨[.date, .string], .string⟩]
  | .startOf => .static ⟨[.date, unitType], .date⟩
  | .endOf => .static ⟨[.date, unitType], .date⟩
  | .diff => .composite [⟨[.date, .date], .number⟩, ⟨[.date, .date, unitType], .number⟩]
  | .compare _ => .composite [⟨[.date, .date], .bool⟩, ⟨[.date, .date, unitType], .bool⟩]
  | .get g => .static ⟨[.date], getterType g⟩

/-- the methods and their names: camelCase of the variant (date_method.rs:8-46) -/
def methodNames : List (String × Fn.MName) :=
  [("add", .add), ("sub", .sub), ("set", .set), ("format", .format), ("startOf", .startOf), ("endOf", .endOf),
   ("diff", .diff), ("tz", .tz),
   ("isSame", .compare .isSame), ("isBefore", .compare .isBefore), ("isAfter", .compare .isAfter),
   ("isSameOrBefore", .compare .isSameOrBefore), ("isSameOrAfter", .compare .isSameOrAfter),
   ("second", .get .second), ("minute", .get .minute), ("hour", .get .hour), ("day", .get .day),
   ("dayOfYear", .get .dayOfYear), ("week", .get .week), ("weekday", .get .weekday), ("month", .get .month),
   ("quarter", .get .quarter), ("year", .get .year), ("timestamp", .get .timestamp),
   ("offsetName", .get .offsetName), ("isValid", .get .isValid), ("isYesterday", .get .isYesterday),
   ("isToday", .get .isToday), ("isTomorrow", .get .isTomorrow), ("isLeapYear", .get .isLeapYear)]

/-! ### Single nodes -/

/-- a member access with the types of the object and of the property (type_provider.rs:238-296) -/
def memberKind (strict : Bool) (n p : VT) : TI :=
  match n.unwrap.1 with
  | .any => ⟨.any, false⟩
  | .null => ⟨.null, false⟩
  | .arr t => ⟨fin strict t, !sat p .number⟩
  | .string => ⟨fin strict .string, !sat p .number⟩
  | .const _ => ⟨fin strict .string, !sat p .number⟩
  | .enum _ _ => ⟨fin strict .string, !sat p .number⟩
  | .obj o =>
    let nullable := strict && isNullable n
    match constStr p with
    | none => ⟨fin nullable .any, !sat p .string⟩
    | some k => match aGet o k with
      | some t => ⟨fin nullable t, !sat p .string⟩
      | none => ⟨fin nullable .any, !sat p .string || (strict && !o.isEmpty)⟩
  | _ => ⟨.any, true⟩

/-- `number | any` -/
def numLike : VT → Bool
  | .number => true
  | .any => true
  | _ => false

/-- `bool | any` -/
def boolLike : VT → Bool
  | .bool => true
  | .any => true
  | _ => false

/-- `date | any` -/
def dateLike : VT → Bool
  | .date => true
  | .any => true
  | _ => false

/-- `check_enum_comparison` (type_provider.rs:721-751): `some true` for an error, `some false` when the two fit -/
def enumCheck (l r : VT) : Option Bool :=
  match l.unwrap.1, r.unwrap.1 with
  | .enum _ vs, .const c => some !(vs.contains c)
  | .const c, .enum _ vs => some !(vs.contains c)
  | .const a, .const b => some !(decide (a = b))
  | _, _ => none

/-- `value_set` (type_provider.rs:713-719) -/
def valueSet : VT → Option (List String)
  | .const c => some [c]
  | .enum _ vs => some vs
  | _ => none

/-- `types_disjoint` (type_provider.rs:704-711) -/
def disjoint (l r : VT) : Bool :=
  match valueSet l.unwrap.1, valueSet r.unwrap.1 with
  | some a, some b => !(a.any fun v => b.contains v)
  | _, _ => !sat l.unwrap.1 r.unwrap.1

/-- `structured_comparison` (type_provider.rs:877-883) -/
def structured : VT → VT → Bool
  | .obj _, .obj _ => true
  | .arr _, .arr _ => true
  | _, _ => false

/-- `is_nullable` (util.rs:128-130) -/
def mayBeNull : VT → Bool
  | .nullable _ => true
  | .null => true
  | _ => false

/-- addition (type_provider.rs:307-315) -/
def addKind (l r : VT) : TI :=
  match l.widen, r.widen with
  | .number, .number => ⟨.number, false⟩
  | .string, .string => ⟨.string, false⟩
  | .any, .number => ⟨.any, false⟩
  | .any, .string => ⟨.any, false⟩
  | .any, .any => ⟨.any, false⟩
  | .number, .any => ⟨.any, false⟩
  | .string, .any => ⟨.any, false⟩
  | _, _ => ⟨.any, true⟩

/-- `in` and `not in` (type_provider.rs:406-433) -/
def inKind (l r : VT) : TI :=
  match l.widen, r.widen with
  | _, .arr t => ⟨.bool, enumCheck l t == some true⟩
  | .number, .interval => ⟨.bool, false⟩
  | .date, .interval => ⟨.bool, false⟩
  | .string, .obj _ => ⟨.bool, false⟩
  | .any, _ => ⟨.bool, false⟩
  | _, .any => ⟨.bool, false⟩
  | _, _ => ⟨.any, true⟩

/-- `??` (type_provider.rs:336-359) -/
def coalesceKind (same : VT → VT → Bool) (l r : VT) : VT :=
  match l with
  | .nullable t => merge same t r
  | .null => r
  | t => t

/-- a binary operator (type_provider.rs:297-438) -/
def binKind (same : VT → VT → Bool) (op : Oper) (l r : VT) : TI :=
  match op with
  | .arith .add => addKind l r
  | .arith _ => if numLike l && numLike r then ⟨.number, false⟩ else ⟨.any, true⟩
  | .logic .coalesce => ⟨coalesceKind same l r, false⟩
  | .logic _ => if boolLike l && boolLike r then ⟨.bool, false⟩ else ⟨.any, true⟩
  | .cmp .eq => ⟨.bool, enumCheck l r == some true⟩
  | .cmp .ne => ⟨.bool, enumCheck l r == some true⟩
  | .cmp .in_ => inKind l r
  | .cmp .notIn => inKind l r
  | .cmp _ => if (dateLike l && dateLike r) || (numLike l && numLike r) then ⟨.bool, false⟩ else ⟨.any, true⟩
  | _ => ⟨.any, false⟩

/-- the remarks that are not errors: what the checker claims about the value (type_provider.rs:336-433) -/
inductive Hint where
  | always (b : Bool)
  | leftNull
  | leftNeverNull
deriving DecidableEq, Repr

/-- an equality the checker takes for false (type_provider.rs:367-368, 384-385) -/
def neverEqual (l r : VT) : Bool :=
  structured l r || (disjoint l r && !mayBeNull l && !mayBeNull r)

/-- the remark on a binary operator (type_provider.rs:336-359, 362-395, 406-426) -/
def hintOf (strict : Bool) (op : Oper) (l r : VT) : Option Hint :=
  match op with
  | .cmp .eq => if enumCheck l r = none ∧ neverEqual l r = true then some (.always false) else none
  | .cmp .ne => if enumCheck l r = none ∧ neverEqual l r = true then some (.always true) else none
  | .cmp .in_ => match r.widen with
    | .arr t => if enumCheck l t = none ∧ disjoint l t = true then some (.always false) else none
    | _ => none
  | .cmp .notIn => match r.widen with
    | .arr t => if enumCheck l t = none ∧ disjoint l t = true then some (.always true) else none
    | _ => none
  | .logic .coalesce => if strict then match l with
      | .nullable _ => none
      | .null => some .leftNull
      | .any => none
      | _ => some .leftNeverNull
    else none
  | _ => none

/-- a unary operator (type_provider.rs:457-497) -/
def unKind (op : Oper) (t : VT) : TI :=
  match op with
  | .arith .add => ⟨.number, !sat t .number⟩
  | .arith .sub => ⟨.number, !sat t .number⟩
  | .logic .not => ⟨.bool, !sat t .bool⟩
  | _ => ⟨.any, true⟩

/-- a slice (type_provider.rs:170-176) -/
def sliceKind (t : VT) : TI :=
  match t.widen with
  | .any => ⟨.any, false⟩
  | .arr t => ⟨.arr t, false⟩
  | .string => ⟨.string, false⟩
  | _ => ⟨.any, true⟩

/-- `merge_kind_from_types` (type_provider.rs:885-940) of the one type it is given -/
def mergeKindOf (t : VT) : TI :=
  match t.unwrap.1 with
  | .obj o => ⟨.obj o, false⟩
  | .arr _ => ⟨.arr (t.iterator.getD .any), false⟩
  | .any => ⟨.any, false⟩
  | .null => ⟨.any, false⟩
  | _ => ⟨.any, true⟩

/-- `merge_typecheck` (type_provider.rs:759-781) -/
def mergeKind : List VT → TI
  | [a] => match a.iterator with
    | none => ⟨.any, true⟩
    | some t => mergeKindOf t
  | _ => ⟨.any, true⟩

/-- `merge_deep_typecheck`, `merge_deep_from_types` (type_provider.rs:783-809, 942-967) for the one type it is
given -/
def mergeDeepKind : List VT → TI
  | [a] => match a.iterator with
    | none => ⟨.any, true⟩
    | some t => match t.unwrap.1 with
      | .obj o => ⟨.obj o, false⟩
      | .any => ⟨.obj [], false⟩
      | .null => ⟨.obj [], false⟩
      | _ => ⟨.any, true⟩
  | _ => ⟨.any, true⟩

/-- `flatten_contribution_for` (type_provider.rs:989-999) -/
def flatElem (same : VT → VT → Bool) : VT → VT
  | .nullable t => merge same .null (flatElem same t)
  | .arr t => t
  | .interval => .number
  | t => t

/-- `flatten_typecheck` (type_provider.rs:811-840) -/
def flattenKind (strict : Bool) (same : VT → VT → Bool) : List VT → TI
  | [a] => match a.iterator with
    | none => ⟨.any, true⟩
    | some t => ⟨.arr (flatElem same t), strict && isNullable a⟩
  | _ => ⟨.any, true⟩

/-- the union of the field types (type_provider.rs:864-871) -/
def unionOf (same : VT → VT → Bool) : List VT → Option VT
  | [] => none
  | t :: ts => some (ts.foldl (merge same) t)

/-- `values_typecheck` (type_provider.rs:844-875) -/
def valuesKind (same : VT → VT → Bool) : List VT → TI
  | [a] => match a.unwrap.1 with
    | .obj o => ⟨.arr ((unionOf same (o.map Prod.snd)).getD .any), false⟩
    | .any => ⟨.arr .any, false⟩
    | _ => ⟨.arr .any, true⟩
  | _ => ⟨.any, true⟩

/-- a call of an internal or deprecated function with the types of its arguments (type_provider.rs:560-587). Other
names do not reach the checker. -/
def callKind (strict : Bool) (same : VT → VT → Bool) (f : String) (args : List VT) : TI :=
  match Fn.Name.ofText f with
  | some .merge => mergeKind args
  | some .mergeDeep => mergeDeepKind args
  | some .flatten => flattenKind strict same args
  | some .values => valuesKind same args
  | some n => (fnDef n).check args
  | none => match Fn.DName.ofText f with
    | some n => (depDef n).check args
    | none => ⟨.any, false⟩

/-- a call of a method (type_provider.rs:646-677) -/
def methodKind (m : String) (args : List VT) : TI :=
  match aGet methodNames m with
  | some n => (methodDef n).check args
  | none => ⟨.any, false⟩

/-- the closures whose body must be a boolean (type_provider.rs:604-622) -/
def wantsBool : Clo → Bool
  | .map => false
  | .flatMap => false
  | _ => true

/-- a call of a closure function with the types of the iterated value and of the body (type_provider.rs:588-643) -/
def closureKind (strict : Bool) (k : Clo) (over body : VT) : TI :=
  let bad := !iterable over || (strict && isNullable over) || (wantsBool k && !sat body .bool)
  match k with
  | .filter => ⟨over, bad⟩
  | .count => ⟨.number, bad⟩
  | .map => ⟨.arr body, bad⟩
  | .flatMap => ⟨.arr (body.iterator.getD body), bad⟩
  | _ => ⟨.bool, bad⟩

/-- the scope of a closure body (type_provider.rs:533-554) -/
def TScope.enter (sc : TScope) (al : Option String) (over : VT) : TScope :=
  { sc with
    pointer := over.iterator.getD .any
    aliases := match al with
      | none => sc.aliases
      | some a => aSet sc.aliases a (over.iterator.getD .any) }

/-- the root of a scope in which something is assigned (type_provider.rs:203-205) -/
def asgRoot : VT → VT
  | .any => .obj []
  | .null => .obj []
  | t => t

mutual
/-- `determine` (type_provider.rs:118-701) -/
def determine (strict : Bool) (same : VT → VT → Bool) (sc : TScope) : Node → TI
  | .null => ⟨.null, false⟩
  | .bool _ => ⟨.bool, false⟩
  | .num _ => ⟨.number, false⟩
  | .str s => ⟨.const s, false⟩
  | .tmpl ps => ⟨.string, (detList strict same sc ps).2⟩
  | .pointer => ⟨sc.pointer, false⟩
  | .root => ⟨sc.root, false⟩
  | .slice n f t =>
    let tn := determine strict same sc n
    let bf := detIdx strict same sc f
    let bt := detIdx strict same sc t
    let r := sliceKind tn.kind
    ⟨r.kind, tn.bad || bf || bt || r.bad⟩
  | .arr xs =>
    let r := detList strict same sc xs
    ⟨.arr ((unionOf same r.1).getD .any), r.2⟩
  | .obj kvs =>
    let r := detObj strict same sc [] kvs
    ⟨.obj r.1, r.2⟩
  | .assigns list out =>
    let r := detAsg strict same { sc with root := asgRoot sc.root } [] list
    detOut strict same r.1 ⟨.obj r.2.1, r.2.2⟩ out
  | .ident i => match aGet sc.aliases i with
    | some t => ⟨t, false⟩
    | none => ⟨sc.root.get i, false⟩
  | .member n p =>
    let tn := determine strict same sc n
    let tp := determine strict same sc p
    let r := memberKind strict tn.kind tp.kind
    ⟨r.kind, tn.bad || tp.bad || r.bad⟩
  | .binary op l r =>
    let tl := determine strict same sc l
    let tr := determine strict same sc r
    let x := binKind same op tl.kind tr.kind
    ⟨x.kind, tl.bad || tr.bad || x.bad⟩
  | .cond c t f =>
    let tc := determine strict same sc c
    let tt := determine strict same sc t
    let tf := determine strict same sc f
    ⟨merge same tt.kind tf.kind, tc.bad || tt.bad || tf.bad || !sat tc.kind .bool⟩
  | .unary op n =>
    let tn := determine strict same sc n
    let r := unKind op tn.kind
    ⟨r.kind, tn.bad || r.bad⟩
  | .interval l r _ _ =>
    let tl := determine strict same sc l
    let tr := determine strict same sc r
    ⟨.interval, tl.bad || tr.bad || (!sat tl.kind .number && !sat tl.kind .date) ||
      (!sat tr.kind .number && !sat tr.kind .date)⟩
  | .call f args =>
    let r := detList strict same sc args
    let x := callKind strict same f r.1
    ⟨x.kind, r.2 || x.bad⟩
  | .closure k over al body =>
    let t := determine strict same sc over
    let b := determine strict same (sc.enter al t.kind) body
    let r := closureKind strict k t.kind b.kind
    ⟨r.kind, t.bad || b.bad || r.bad⟩
  | .method m this args =>
    let t := determine strict same sc this
    let r := detList strict same sc args
    let x := methodKind m (t.kind :: r.1)
    ⟨x.kind, t.bad || r.2 || x.bad⟩
  | .paren n => determine strict same sc n
  | .error => ⟨.any, true⟩
/-- the types of several nodes -/
def detList (strict : Bool) (same : VT → VT → Bool) (sc : TScope) : List Node → List VT × Bool
  | [] => ([], false)
  | n :: ns =>
    let t := determine strict same sc n
    let r := detList strict same sc ns
    (t.kind :: r.1, t.bad || r.2)
/-- an index of a slice (type_provider.rs:151-168) -/
def detIdx (strict : Bool) (same : VT → VT → Bool) (sc : TScope) : Option Node → Bool
  | none => false
  | some n =>
    let t := determine strict same sc n
    t.bad || !sat t.kind .number
/-- the entries of an object literal (type_provider.rs:188-197); an entry whose key has no constant type is
skipped, its value unseen -/
def detObj (strict : Bool) (same : VT → VT → Bool) (sc : TScope) (acc : List (String × VT)) :
    List (Node × Node) → List (String × VT) × Bool
  | [] => (acc, false)
  | (k, v) :: r =>
    let tk := determine strict same sc k
    match constStr tk.kind with
    | none =>
      let x := detObj strict same sc acc r
      (x.1, tk.bad || x.2)
    | some c =>
      let tv := determine strict same sc v
      let x := detObj strict same sc (aSet acc c tv.kind) r
      (x.1, tk.bad || tv.bad || x.2)
/-- assignments (type_provider.rs:207-222) -/
def detAsg (strict : Bool) (same : VT → VT → Bool) (sc : TScope) (acc : List (String × VT)) :
    List (Node × Node) → TScope × List (String × VT) × Bool
  | [] => (sc, acc, false)
  | (k, v) :: r =>
    let tk := determine strict same sc k
    match constStr tk.kind with
    | none =>
      let x := detAsg strict same sc acc r
      (x.1, x.2.1, tk.bad || x.2.2)
    | some c =>
      let tv := determine strict same sc v
      let sc' := { sc with root := (dotInsertP sc.root (splitDot c) tv.kind).getD sc.root }
      let x := detAsg strict same sc' (aSet acc c tv.kind) r
      (x.1, x.2.1, tk.bad || tv.bad || x.2.2)
/-- the value of assignments (type_provider.rs:224-228) -/
def detOut (strict : Bool) (same : VT → VT → Bool) (sc : TScope) (asg : TI) : Option Node → TI
  | none => asg
  | some n =>
    let t := determine strict same sc n
    ⟨t.kind, asg.bad || t.bad⟩
end

/-- the checker reports no error on the expression -/
def Accepted (strict : Bool) (same : VT → VT → Bool) (sc : TScope) (n : Node) : Prop :=
  (determine strict same sc n).bad = false

end Ty
end Zen
