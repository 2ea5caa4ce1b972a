import Verif.Policy.Imports
/-
The workspace database with its caches (core/engine/src/workspace/db.rs, core/engine/src/workspace/graph/queries.rs,
core/engine/src/workspace/graph/function.rs).

Parameters (`Lang`): what is computed from documents — parsing, the shallow pass, units, enriched states, the
signature of a policy, diagnostics, and the graph analyzer — is given by arbitrary functions. Their arguments are
what the code hands to them or what it reads from the database meanwhile. The analyzer of a graph is a `Prog`: it
ends with an analysis, or asks the database for the signature of a decision or for the type of a function and goes
on with the answer; these, the dictionaries and the kinds of the imports are all it takes from the database
(graph/analysis.rs:90, 154, 591, 1533).

Simplifications: a `HashMap` of documents is listed by path, other maps are unordered; what the code computes from
a map does not depend on its order of iteration. An `Arc` is an address with a content. The two stacks of frames
are one stack of pairs. The `OnceCell` of a unit is kept beside the unit in the cache. `function_requests`,
`function_requested`, `scope_roots`, `path_set`, `import_cycles`, `opcode_cache` and `eval_artifacts` are left out;
the last four are computed from the snapshot as diagnostics are.
-/
namespace Zen.Ws
open Zen Zen.Policy

/-! ## Maps -/

section
variable {K V : Type} [DecidableEq K]

def get : List (K × V) → K → Option V
  | [], _ => none
  | (k', v) :: l, k => if k' = k then some v else get l k

/-- `insert` -/
def set (l : List (K × V)) (k : K) (v : V) : List (K × V) := (k, v) :: l.filter fun e => decide (e.1 ≠ k)

/-- `insert` into the documents, listed by path -/
def put (k : String) (v : V) : List (String × V) → List (String × V)
  | [] => [(k, v)]
  | (k', v') :: l => if k' = k then (k, v) :: l else if k < k' then (k, v) :: (k', v') :: l else (k', v') :: put k v l

/-- `remove` -/
def del (l : List (K × V)) (k : K) : List (K × V) := l.filter fun e => decide (e.1 ≠ k)
end

/-- `Arc` -/
structure Ptr (α : Type) where
  addr : Nat
  val : α

/-- `Arc::ptr_eq` -/
def Ptr.same {α : Type} (a b : Ptr α) : Bool := a.addr == b.addr

/-! ## What is computed from documents -/

/-- `SignatureResolution` (graph/analysis.rs) -/
inductive Res (Sig : Type) where
  | found (s : Sig)
  | recursive
  | missing

/-- the graph analyzer; the answer for a function is `none` when it is `Unknown`
(graph/function.rs:25-29) -/
inductive Prog (Sig Source Ty Fn α : Type) where
  | ret (a : α)
  | sig (key : String) (k : Res Sig → Prog Sig Source Ty Fn α)
  | fn (s : Source) (t : Ty) (k : Option Fn → Prog Sig Source Ty Fn α)

structure Lang where
  PolDoc : Type
  GraphDoc : Type
  Parsed : Type
  Scope : Type
  Shallow : Type
  Unit : Type
  Enriched : Type
  Dict : Type
  Sig : Type
  Ana : Type
  Diag : Type
  Source : Type
  Ty : Type
  Key : Type
  Stamp : Type
  /-- `ResolvedFunction` -/
  Fn : Type
  decKey : DecidableEq Key
  decStamp : DecidableEq Stamp
  /-- `Policy::parse` -/
  parse : String → PolDoc → Parsed
  imports : Parsed → List String
  /-- the dictionaries of a policy with their names -/
  dicts : Parsed → List (String × Dict)
  /-- `compute_base_scope` -/
  scope : List (String × Parsed) → Scope
  /-- the closure handed to `shallow_or_compute` (policy/queries/dependency.rs:359-380) -/
  shallow : Scope → String → Parsed → Shallow
  /-- `compute_unit` (workspace/db.rs:836-929), given the members, what was parsed of them and their shallow
  analyses -/
  unit : List String → List (String × Parsed) → List (String × Shallow) → Unit
  /-- the closure of `enriched_of_unit` (workspace/db.rs:518-540) -/
  enrich : Unit → List (String × Parsed) → List (String × Shallow) → Enriched
  /-- the signature `decision_signature` builds for a policy (graph/queries.rs:109-119) -/
  polSig : Unit → Enriched → List (String × Parsed) → Sig
  /-- `compute_policy_diagnostics` (policy/queries/diagnostics.rs:13-54): the kinds of all documents (`true` for a
  policy), what is parsed and analyzed, the components, and the unit of the policy -/
  polDiag : List (String × Bool) → List (String × Parsed) → List (String × Shallow) → List (List String) → Unit →
    Enriched → String → Diag
  gimports : GraphDoc → List String
  /-- `GraphAnalyzer::new` and `analyze`, given the dictionaries of the imports and for each import whether it is
  a policy (`some true`), a graph or missing (graph/analysis.rs:89-173) -/
  prog : String → GraphDoc → List (String × Dict) → List (String × Option Bool) → Prog Sig Source Ty Fn Ana
  anaSig : Ana → Sig
  anaDiag : Ana → Diag
  noDiag : Diag
  /-- `function_key` (graph/function.rs:117-127) -/
  fkey : Source → Ty → Key
  /-- `function_state` of a table entry (graph/function.rs:104-115) -/
  stamp : Option Fn → Stamp

attribute [instance] Lang.decKey Lang.decStamp

variable (L : Lang)

/-- `DecisionContent` -/
inductive Content where
  | policy (p : Ptr L.PolDoc)
  | graph (g : L.GraphDoc)

/-- `GraphDeps` (workspace/db.rs:40-43) -/
structure Deps where
  docs : List (String × Option (Ptr (Content L)))
  fns : List (L.Key × L.Stamp)

/-- the entry of a unit: what it was computed from, the unit, and its cell -/
structure UnitEntry where
  parsed : List (Ptr L.Parsed)
  unit : L.Unit
  cell : Option L.Enriched

/-- `PolicyDerivedCache` (workspace/db.rs:45-51) -/
structure Cache where
  parsed : List (String × (Ptr L.PolDoc × Ptr L.Parsed)) := []
  shallow : List (String × (Ptr L.Parsed × L.Shallow)) := []
  units : List (List String × UnitEntry L) := []
  graphs : List (String × (Deps L × L.Ana)) := []

/-- `Snapshot` (workspace/db.rs:133-147) -/
structure Snap where
  parsed : List (String × Ptr L.Parsed)
  graphs : List (String × L.GraphDoc)
  shallow : List (String × L.Shallow)
  comps : List (List String)
  index : List (String × Nat)
  units : List (Nat × L.Unit)
  diags : List (String × L.Diag)

/-- `Db` (workspace/db.rs:182-196); `next` is the next free address -/
structure Db where
  docs : List (String × Ptr (Content L)) := []
  snap : Option (Snap L) := none
  cache : Cache L := {}
  stack : List String := []
  frames : List (List String × List (L.Key × L.Stamp)) := []
  fns : List (L.Key × L.Fn) := []
  resolver : Option (L.Source → L.Ty → L.Fn) := none
  next : Nat := 0

variable {L}

/-! ## Documents -/

/-- `invalidate_snapshot` (workspace/db.rs:313-315) -/
def invalidate (db : Db L) : Db L := { db with snap := none }

/-- `set_document` (workspace/db.rs:227-230) -/
def setDocument (db : Db L) (path : String) (doc : Ptr (Content L)) : Db L :=
  invalidate { db with docs := put path doc db.docs }

/-- `remove_document` (workspace/db.rs:236-242) -/
def removeDocument (db : Db L) (path : String) : Db L :=
  if (get db.docs path).isSome then invalidate { db with docs := del db.docs path } else db

/-- `set_function_type` (graph/function.rs:94-102) -/
def setFunctionType (db : Db L) (s : L.Source) (t : L.Ty) (f : L.Fn) : Db L :=
  invalidate { db with fns := set db.fns (L.fkey s t) f }

/-- `set_function_resolver` (workspace/db.rs:317-320) -/
def setResolver (db : Db L) (r : L.Source → L.Ty → L.Fn) : Db L := invalidate { db with resolver := some r }

/-! ## The snapshot -/

/-- the policies among the documents (workspace/db.rs:750-761) -/
def policiesOf (docs : List (String × Ptr (Content L))) : List (String × Ptr L.PolDoc) :=
  docs.filterMap fun e => match e.2.val with
    | .policy p => some (e.1, p)
    | .graph _ => none

/-- the graphs among the documents (workspace/db.rs:750-761) -/
def graphsOf (docs : List (String × Ptr (Content L))) : List (String × L.GraphDoc) :=
  docs.filterMap fun e => match e.2.val with
    | .policy _ => none
    | .graph g => some (e.1, g)

/-- `retain` (workspace/db.rs:54-67) -/
def retain (c : Cache L) (docs : List (String × Ptr (Content L))) : Cache L where
  parsed := c.parsed.filter fun e => (get docs e.1).isSome
  shallow := c.shallow.filter fun e => (get docs e.1).isSome
  units := c.units.filter fun e => e.1.all fun m => (get docs m).isSome
  graphs := c.graphs.filter fun e => (get docs e.1).isSome

/-- the address of a new `Arc` is not in use -/
def allocParsed (db : Db L) (path : String) (doc : Ptr L.PolDoc) : Ptr L.Parsed × Db L :=
  let p : Ptr L.Parsed := ⟨db.next, L.parse path doc.val⟩
  (p, { db with next := db.next + 1, cache := { db.cache with parsed := set db.cache.parsed path (doc, p) } })

/-- `parsed_or_compute` (workspace/db.rs:92-108) -/
def parsedOrCompute (db : Db L) (path : String) (doc : Ptr L.PolDoc) : Ptr L.Parsed × Db L :=
  match get db.cache.parsed path with
  | some (d, p) => if d.same doc then (p, db) else allocParsed db path doc
  | none => allocParsed db path doc

/-- `parse_all` (workspace/db.rs:960-972) -/
def parseAll : List (String × Ptr L.PolDoc) → Db L → List (String × Ptr L.Parsed) × Db L
  | [], db => ([], db)
  | (path, doc) :: l, db =>
    let (p, db) := parsedOrCompute db path doc
    let (ps, db) := parseAll l db
    ((path, p) :: ps, db)

/-- `shallow_or_compute` (workspace/db.rs:110-126) -/
def shallowOrCompute (db : Db L) (sc : L.Scope) (path : String) (p : Ptr L.Parsed) : L.Shallow × Db L :=
  let compute : L.Shallow × Db L :=
    let s := L.shallow sc path p.val
    (s, { db with cache := { db.cache with shallow := set db.cache.shallow path (p, s) } })
  match get db.cache.shallow path with
  | some (q, s) => if q.same p then (s, db) else compute
  | none => compute

/-- the loop of `compute_shallow` (policy/queries/dependency.rs:346-384) -/
def shallowAll (sc : L.Scope) : List (String × Ptr L.Parsed) → Db L → List (String × L.Shallow) × Db L
  | [], db => ([], db)
  | (path, p) :: l, db =>
    let (s, db) := shallowOrCompute db sc path p
    let (ss, db) := shallowAll sc l db
    ((path, s) :: ss, db)

/-- contents of pointers -/
def vals {α : Type} (l : List (String × Ptr α)) : List (String × α) := l.map fun e => (e.1, e.2.val)

/-- `compute_components` (workspace/db.rs:799-834) with enough fuel -/
def componentsOf (P : List (String × List String)) : List (List String) :=
  (computeComponents P (((P.map Prod.fst).map fun p => (importNbrs P p).length).sum + 2)).getD []

/-- `Snapshot::compute` (workspace/db.rs:745-797) -/
def computeSnap (db : Db L) : Snap L × Db L :=
  let db := { db with cache := retain db.cache db.docs }
  let (parsed, db) := parseAll (policiesOf db.docs) db
  let (shallow, db) := shallowAll (L.scope (vals parsed)) parsed db
  let comps := componentsOf ((vals parsed).map fun e => (e.1, L.imports e.2))
  ({ parsed, graphs := graphsOf db.docs, shallow, comps, index := componentIndex comps 0 [], units := [], diags := [] }, db)

/-- `snapshot` (workspace/db.rs:429-443) -/
def snapshot (db : Db L) : Snap L × Db L :=
  match db.snap with
  | some s => (s, db)
  | none =>
    let (s, db) := computeSnap db
    (s, { db with snap := some s })

/-! ## Units -/

/-- the test of `unit_or_compute` (workspace/db.rs:76-81) -/
def sameAll {α : Type} (a b : List (Ptr α)) : Bool := a.length == b.length && (a.zip b).all fun e => e.1.same e.2

/-- entries of the members, in their order: `filter_map(|m| all_parsed.get(m))` -/
def restrict {V : Type} (members : List String) (l : List (String × V)) : List (String × V) :=
  members.filterMap fun m => (get l m).map fun v => (m, v)

/-- `unit_or_compute` (workspace/db.rs:69-90) -/
def unitOrCompute (db : Db L) (snap : Snap L) (members : List String) (parsed : List (Ptr L.Parsed)) : L.Unit × Db L :=
  let compute : L.Unit × Db L :=
    let u := L.unit members (restrict members (vals snap.parsed)) (restrict members snap.shallow)
    (u, { db with cache := { db.cache with units := set db.cache.units members ⟨parsed, u, none⟩ } })
  match get db.cache.units members with
  | some e => if sameAll e.parsed parsed then (e.unit, db) else compute
  | none => compute

/-- the members of the component of a policy; none for an unknown policy -/
def Snap.members (s : Snap L) (policy : String) : List String :=
  match get s.index policy with
  | some i => s.comps.getD i []
  | none => []

/-- write into the snapshot, which is shared -/
def modSnap (db : Db L) (f : Snap L → Snap L) : Db L := { db with snap := db.snap.map f }

/-- `unit` (workspace/db.rs:449-469) -/
def unitOf (db : Db L) (policy : String) : L.Unit × Db L :=
  let (snap, db) := snapshot db
  match get snap.index policy with
  | none => unitOrCompute db snap [] []
  | some i => match get snap.units i with
    | some u => (u, db)
    | none =>
      let members := snap.comps.getD i []
      let (u, db) := unitOrCompute db snap members ((restrict members snap.parsed).map Prod.snd)
      (u, modSnap db fun s => { s with units := set s.units i u })

/-- `enriched_of_unit` (workspace/db.rs:516-542); the unit is the one last given out for these members -/
def enrichedOfUnit (db : Db L) (members : List String) (u : L.Unit) : L.Enriched × Db L :=
  let compute : L.Enriched × Db L :=
    let (snap, db) := snapshot db
    let e := L.enrich u (restrict members (vals snap.parsed)) (restrict members snap.shallow)
    (e, { db with cache := { db.cache with units := match get db.cache.units members with
      | some en => set db.cache.units members { en with cell := some e }
      | none => db.cache.units } })
  match get db.cache.units members with
  | some ⟨_, _, some e⟩ => (e, db)
  | _ => compute

/-- `enriched` (workspace/db.rs:511-514) -/
def enriched (db : Db L) (policy : String) : L.Enriched × Db L :=
  let (u, db) := unitOf db policy
  let (snap, db) := snapshot db
  enrichedOfUnit db (snap.members policy) u

/-- the signature of a policy: `inputs` and `outputs` in `decision_signature` (graph/queries.rs:109-119) -/
def policySig (db : Db L) (policy : String) : L.Sig × Db L :=
  let (u, db) := unitOf db policy
  let (e, db) := enriched db policy
  let (snap, db) := snapshot db
  (L.polSig u e (restrict (snap.members policy) (vals snap.parsed)), db)

/-! ## Graphs -/

/-- `graph_dep_record_many` (workspace/db.rs:350-354) -/
def recordDocs (db : Db L) (paths : List String) : Db L :=
  { db with frames := match db.frames with
    | [] => []
    | f :: fs => (paths ++ f.1, f.2) :: fs }

/-- `graph_fn_record` for each (workspace/db.rs:338-342); a later record of the same key replaces the earlier -/
def recordFns (db : Db L) (l : List (L.Key × L.Stamp)) : Db L :=
  { db with frames := match db.frames with
    | [] => []
    | f :: fs => (f.1, l.foldl (fun m e => set m e.1 e.2) f.2) :: fs }

/-- `function_outcome` (graph/function.rs:43-82) -/
def functionOutcome (db : Db L) (s : L.Source) (t : L.Ty) : Option L.Fn × Db L :=
  match get db.fns (L.fkey s t) with
  | some f => (some f, db)
  | none => match db.resolver with
    | some r => (some (r s t), { db with fns := set db.fns (L.fkey s t) (r s t) })
    | none => (none, db)

/-- `function_output_type` (graph/function.rs:32-41) -/
def functionOutputType (db : Db L) (s : L.Source) (t : L.Ty) : Option L.Fn × Db L :=
  let (o, db) := functionOutcome db s t
  (o, recordFns db [(L.fkey s t, L.stamp (get db.fns (L.fkey s t)))])

/-- one dictionary block of `graph_dictionary_blocks` (graph/queries.rs:66-75) -/
def addDict {V : Type} (out : List (String × V)) (d : String × V) : List (String × V) :=
  if (get out d.1).isSome then out else out ++ [d]

/-- `graph_dictionary_blocks` (graph/queries.rs:52-79): the paths visited and the dictionaries. The set of names
seen is the set of names in `out`. -/
def dictLoop (parsed : List (String × L.Parsed)) : Nat → List String → List String → List (String × L.Dict) →
    List String × List (String × L.Dict)
  | 0, _, visited, out => (visited, out)
  | _ + 1, [], visited, out => (visited, out)
  | n + 1, p :: queue, visited, out =>
    if p ∈ visited then dictLoop parsed n queue visited out
    else match get parsed p with
      | none => dictLoop parsed n queue (p :: visited) out
      | some q => dictLoop parsed n (queue ++ L.imports q) (p :: visited) ((L.dicts q).foldl addDict out)

/-- enough fuel for `dictLoop` -/
def dictFuel (parsed : List (String × L.Parsed)) (imports : List String) : Nat :=
  imports.length + (parsed.map fun e => (L.imports e.2).length).sum + 1

/-- `graph_dictionary_types` (graph/queries.rs:81-90) -/
def graphDictionaries (db : Db L) (imports : List String) : List (String × L.Dict) × Db L :=
  let (snap, db) := snapshot db
  let parsed := vals snap.parsed
  let r := dictLoop parsed (dictFuel parsed imports) imports [] []
  (r.2, recordDocs db r.1)

/-- what `check_imports` looks up (graph/analysis.rs:153-173) -/
def importKind (snap : Snap L) (path : String) : Option Bool :=
  if (get snap.parsed path).isSome then some true
  else if (get snap.graphs path).isSome then some false
  else none

/-- the test of `cached_graph_analysis` (workspace/db.rs:374-390) -/
def depsValid (db : Db L) (deps : Deps L) : Bool :=
  (deps.docs.all fun e => match e.2 with
    | some stamp => match get db.docs e.1 with
      | some doc => doc.same stamp
      | none => false
    | none => (get db.docs e.1).isNone) &&
  deps.fns.all fun e => decide (L.stamp (get db.fns e.1) = e.2)

/-- `cached_graph_analysis` (workspace/db.rs:369-399) -/
def cachedGraph (db : Db L) (path : String) : Option (L.Ana × Db L) :=
  match get db.cache.graphs path with
  | none => none
  | some (deps, a) =>
    if depsValid db deps then some (a, recordFns (recordDocs db (deps.docs.map Prod.fst)) deps.fns) else none

/-- `store_graph_analysis` (workspace/db.rs:401-427) -/
def storeGraph (db : Db L) (path : String) (docs : List String) (fns : List (L.Key × L.Stamp)) (a : L.Ana) : Db L :=
  { db with cache := { db.cache with
    graphs := set db.cache.graphs path (⟨docs.map fun p => (p, get db.docs p), fns⟩, a) } }

/-- the part of `decision_signature` (graph/queries.rs:92-122) after `graph_analysis` is given -/
def decisionSig (ana : String → Db L → Option L.Ana × Db L) (key : String) (db : Db L) : Res L.Sig × Db L :=
  let db := recordDocs db [key]
  let (snap, db) := snapshot db
  if (get snap.graphs key).isSome then
    if key ∈ db.stack then (.recursive, db)
    else match ana key db with
      | (some a, db) => (.found (L.anaSig a), db)
      | (none, db) => (.missing, db)
  else if (get snap.parsed key).isSome then
    let db := recordDocs db (snap.members key)
    let (s, db) := policySig db key
    (.found s, db)
  else (.missing, db)

/-- run the analyzer against the database -/
def runProg (ana : String → Db L → Option L.Ana × Db L) :
    Prog L.Sig L.Source L.Ty L.Fn L.Ana → Db L → L.Ana × Db L
  | .ret a, db => (a, db)
  | .sig key k, db =>
    let (r, db) := decisionSig ana key db
    runProg ana (k r) db
  | .fn s t k, db =>
    let (o, db) := functionOutputType db s t
    runProg ana (k o) db

/-- `graph_dep_frame_pop` (workspace/db.rs:363-367) and the pop of the stack -/
def popFrame (db : Db L) : (List String × List (L.Key × L.Stamp)) × Db L :=
  (db.frames.headD ([], []), { db with frames := db.frames.tail, stack := db.stack.tail })

/-- `graph_analysis` (graph/queries.rs:19-37); the fuel bounds the depth of nested decisions -/
def graphAnalysis : Nat → String → Db L → Option L.Ana × Db L
  | 0, _, db => (none, db)
  | n + 1, path, db =>
    let (snap, db) := snapshot db
    match get snap.graphs path with
    | none => (none, db)
    | some g => match cachedGraph db path with
      | some (a, db) => (some a, db)
      | none =>
        let db := { db with stack := path :: db.stack, frames := ([path], []) :: db.frames }
        let (dicts, db) := graphDictionaries db (L.gimports g)
        let kinds := (L.gimports g).map fun i => (i, importKind snap i)
        let (a, db) := runProg (graphAnalysis n) (L.prog path g dicts kinds) db
        let (f, db) := popFrame db
        let db := recordFns (recordDocs db f.1) f.2
        (some a, storeGraph db path f.1 f.2 a)

/-- `graph_analysis` with enough fuel: nested calls are for different graphs -/
def graphAnalysisTop (db : Db L) (path : String) : Option L.Ana × Db L :=
  graphAnalysis (db.docs.length + 1) path db

/-- `policy_diagnostics` (workspace/db.rs:708-726) -/
def policyDiagnostics (db : Db L) (path : String) : L.Diag × Db L :=
  let (snap, db) := snapshot db
  match get snap.diags path with
  | some d => (d, db)
  | none =>
    let (d, db) :=
      if (get snap.graphs path).isSome then
        match graphAnalysisTop db path with
        | (some a, db) => (L.anaDiag a, db)
        | (none, db) => (L.noDiag, db)
      else
        let (u, db) := unitOf db path
        let (e, db) := enriched db path
        (L.polDiag (db.docs.map fun e => (e.1, match e.2.val with
          | .policy _ => true
          | .graph _ => false)) (vals snap.parsed) snap.shallow snap.comps u e path, db)
    (d, modSnap db fun s => { s with diags := set s.diags path d })

/-! ## Histories -/

/-- questions about the workspace -/
inductive Query where
  | parsed (path : String)
  | shallow (path : String)
  | members (policy : String)
  | unit (policy : String)
  | enriched (policy : String)
  | graph (path : String)
  | diagnostics (path : String)

inductive Answer (L : Lang) where
  | parsed (p : Option L.Parsed)
  | shallow (s : Option L.Shallow)
  | members (l : List String)
  | unit (u : L.Unit)
  | enriched (e : L.Enriched)
  | graph (a : Option L.Ana)
  | diagnostics (d : L.Diag)

/-- the answer, and the database afterwards -/
def answer (db : Db L) : Query → Answer L × Db L
  | .parsed path =>
    let (s, db) := snapshot db
    (.parsed ((get s.parsed path).map (·.val)), db)
  | .shallow path =>
    let (s, db) := snapshot db
    (.shallow (get s.shallow path), db)
  | .members policy =>
    let (s, db) := snapshot db
    (.members (s.members policy), db)
  | .unit policy =>
    let (u, db) := unitOf db policy
    (.unit u, db)
  | .enriched policy =>
    let (e, db) := enriched db policy
    (.enriched e, db)
  | .graph path =>
    let (a, db) := graphAnalysisTop db path
    (.graph a, db)
  | .diagnostics path =>
    let (d, db) := policyDiagnostics db path
    (.diagnostics d, db)

/-- what is done to a workspace -/
inductive Op (L : Lang) where
  | set (path : String) (doc : Ptr (Content L))
  | remove (path : String)
  | setFn (s : L.Source) (t : L.Ty) (f : L.Fn)
  | setResolver (r : L.Source → L.Ty → L.Fn)
  | query (q : Query)

def step (db : Db L) : Op L → Db L
  | .set path doc => setDocument db path doc
  | .remove path => removeDocument db path
  | .setFn s t f => setFunctionType db s t f
  | .setResolver r => setResolver db r
  | .query q => (answer db q).2

def run (db : Db L) : List (Op L) → Db L
  | [] => db
  | op :: ops => run (step db op) ops

end Zen.Ws
