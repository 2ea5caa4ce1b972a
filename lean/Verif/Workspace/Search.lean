import Verif.Core.Json

/-!
# Search in the documents of a workspace

`core/engine/src/workspace/search.rs` and `core/engine/src/workspace/types/search.rs`, function by function.

Texts are lists of characters. `char::to_lowercase().next()`, `char::is_alphanumeric` and `char::is_whitespace` are parameters
(`Chars`): nothing is assumed of them. Numbers are natural numbers: that `u32` does not overflow (texts and queries shorter than
some four million characters) is left out.
-/

namespace Zen
namespace Search

abbrev Text := List Char

/-- what `search.rs` uses of Unicode: `lower` (search.rs:47-49), `char::is_alphanumeric`, `char::is_whitespace` -/
structure Chars where
  lower : Char → Char
  alnum : Char → Bool
  white : Char → Bool

/-- `str::split_whitespace` (search.rs:21-22): `cur` is the word being read -/
def words (w : Char → Bool) : Text → Text → List Text
  | cur, [] => if cur = [] then [] else [cur]
  | cur, c :: r => if w c then (if cur = [] then [] else [cur]) ++ words w [] r else words w (cur ++ [c]) r

/-- `SearchMatcher::new` (search.rs:19-27): the words in lower case, nothing if there are none -/
def matcher (C : Chars) (query : Text) : Option (List Text) :=
  let tokens := ((words C.white [] query).map (·.map C.lower)).filter (· ≠ [])
  if tokens = [] then none else some tokens

/-- `find_substring` (search.rs:92-97) -/
def findSub (hay needle : Text) : Option Nat :=
  if needle = [] ∨ hay.length < needle.length then none
  else (List.range (hay.length - needle.length + 1)).find? fun i => decide ((hay.drop i).take needle.length = needle)

/-- the loop of `score_token` (search.rs:66-79): `i` is the position, then `first`, `last`, what is left of the token and of the
text -/
def scan : Nat → Option Nat → Nat → Text → Text → Option Nat × Nat × Text
  | _, f, l, [], _ => (f, l, [])
  | _, f, l, t :: ts, [] => (f, l, t :: ts)
  | i, f, l, t :: ts, c :: r =>
    if c = t then scan (i + 1) (f.or (some i)) i ts r else scan (i + 1) f l (t :: ts) r

/-- `score_token` (search.rs:51-90) -/
def scoreToken (C : Chars) (hay token : Text) : Option (Nat × Nat × Nat) :=
  match findSub hay token with
  | some idx => some (
      (if idx = 0 ∧ token.length = hay.length then 1000
       else if idx = 0 then 800
       else if !(hay[idx - 1]?.any C.alnum) then 650 - min idx 150
       else 500 - min idx 400), idx, idx + token.length)
  | none => match scan 0 none 0 token hay with
    | (some first, last, []) =>
      let spread := last - first + 1
      if spread > token.length * 3 then none
      else some (100 + min (token.length * 100 / spread) 100, first, last + 1)
    | _ => none

/-- the loop of `SearchMatcher::score` (search.rs:34-43) -/
def scoreAll (C : Chars) (hay : Text) : List Text → Nat → Option (Nat × Nat) → Option (Nat × Option (Nat × Nat))
  | [], total, span => some (total, span)
  | t :: ts, total, span => match scoreToken C hay t with
    | none => none
    | some (s, sp) => scoreAll C hay ts (total + s)
        (some (match span with | some cur => if cur.1 ≤ sp.1 then cur else sp | none => sp))

/-- `SearchMatcher::score` (search.rs:29-45) -/
def score (C : Chars) (tokens : List Text) (text : Text) : Option (Nat × Nat × Nat) :=
  if text = [] then none
  else match scoreAll C (text.map C.lower) tokens 0 none with
    | some (total, some span) => some (total - min (text.length / 8) 40, span)
    | _ => none

/-- `SNIPPET_CHARS` (search.rs:13) -/
def SNIPPET : Nat := 200

/-- `snippet` (search.rs:99-115) -/
def snippet (text : Text) (span : Nat × Nat) : Text × Nat × Nat :=
  if text.length ≤ SNIPPET then (text, span)
  else
    let mid := (span.1 + span.2) / 2
    let start := min (mid - SNIPPET / 2) (text.length - SNIPPET)
    let stop := min (start + SNIPPET) text.length
    ((text.take stop).drop start, span.1 - start, min (span.2 - start) (stop - start))

/-- `SearchHitKind` (types/search.rs:31-55) -/
inductive Kind
  | document | heading | paragraph | listItem | codeBlock | expression | expressionKey | tableColumn | tableCell | matchKey
  | matchCondition | matchValue | assertionOutput | assertionCondition | dataModel | dataModelProperty | dictionary
  | dictionaryEntry | graphNode | switchCondition | function
  deriving DecidableEq

/-- `SearchHitKind::weight` (types/search.rs:58-82) -/
def Kind.weight : Kind → Nat
  | .dataModel => 140
  | .dataModelProperty | .dictionary => 135
  | .document | .tableColumn | .graphNode => 130
  | .dictionaryEntry | .heading => 120
  | .expressionKey | .matchKey | .assertionOutput => 115
  | .paragraph | .listItem => 100
  | .expression | .tableCell | .matchCondition | .matchValue | .assertionCondition | .switchCondition => 90
  | .codeBlock | .function => 60

/-- `HitSite` (search.rs:117-125) -/
structure Site where
  block : Option String := none
  node : Option String := none
  expr : Option String := none
  row : Option Nat := none
  column : Option String := none
  context : Option Text := none
  deriving DecidableEq

/-- `SearchHit` (types/search.rs:8-28) -/
structure Hit where
  path : String
  site : Site
  kind : Kind
  text : Text
  span : Nat × Nat
  score : Nat
  deriving DecidableEq

/-- `Collector::add` (search.rs:134-153): the hits it adds -/
def add (C : Chars) (M : List Text) (path : String) (kind : Kind) (text : Text) (site : Site) : List Hit :=
  match score C M text with
  | none => []
  | some (base, span) =>
    let (t, sp) := snippet text span
    [⟨path, site, kind, t, sp, base * kind.weight / 100⟩]

/-- `max_by_key` (search.rs:156-159): the last of the candidates with the greatest score -/
def best (C : Chars) (M : List Text) : List Text → Option (Nat × Text)
  | [] => none
  | t :: r => match score C M t, best C M r with
    | none, b => b
    | some (s, _), none => some (s, t)
    | some (s, _), some (s', t') => if s ≤ s' then some (s', t') else some (s, t)

/-- `Collector::add_best` (search.rs:155-163) -/
def addBest (C : Chars) (M : List Text) (path : String) (kind : Kind) (cands : List Text) (site : Site) : List Hit :=
  match best C M cands with
  | none => []
  | some (_, t) => add C M path kind t site

/-- a decision table: the columns (id, name, field) and the rows in the order in which the hash map of each gives its cells
(decision_table.rs:40-49) -/
structure Table where
  inputs : List (String × Text × Option Text)
  outputs : List (String × Text × Text)
  rules : List (List (String × Text))

abbrev J := Json Unit

/-- `BlockDoc` (raw.rs:15-42): what the search reads of it. Conditions, properties and statements are (id, text), arms
(id, condition, value), entries (id, label, value). -/
inductive Block
  | assertion (id : String) (output : Text) (conditions : List (String × Text))
  | expression (id : String) (key value : Text)
  | match_ (id : String) (key : Text) (arms : List (String × Text × Text))
  | table (id : String) (t : Table)
  | dataModel (id : String) (name : Text) (properties : List (String × Text))
  | dictionary (id : String) (name : Text) (entries : List (String × Text × Text))
  | ignored (v : J)

/-- what the search reads of `DecisionNodeKind`: expressions are (id, key, value) -/
inductive NodeKind
  | expression (es : List (String × Text × Text))
  | table (t : Table)
  | switch (ss : List (String × Text))
  | function (source : Text)
  | other

/-- `DecisionNode`: what the search reads of it -/
structure Node where
  id : String
  name : Text
  kind : NodeKind

/-- `DecisionContent` -/
inductive Doc
  | policy (blocks : List Block)
  | graph (nodes : List Node)

/-- `display_name` (search.rs:389-395) -/
def displayName (name field : Text) : Text := if name ≠ [] then name else field

/-- `column_names` (search.rs:251, 262, 273 and 420, 431, 442) -/
def columnNames (t : Table) : List (String × Text) :=
  t.inputs.map (fun c => (c.1, displayName c.2.1 (c.2.2.getD []))) ++ t.outputs.map (fun c => (c.1, displayName c.2.1 c.2.2))

/-- the searched texts of a table (search.rs:250-298 and 419-466): `base` is the place of the table, `ctx` the context of its
columns -/
def searchTable (C : Chars) (M : List Text) (path : String) (base : Site) (ctx : Option Text) (t : Table) : List Hit :=
  t.inputs.flatMap (fun c => addBest C M path .tableColumn [c.2.1, c.2.2.getD []]
    { base with column := some c.1, context := ctx }) ++
  t.outputs.flatMap (fun c => addBest C M path .tableColumn [c.2.1, c.2.2]
    { base with column := some c.1, context := ctx }) ++
  t.rules.zipIdx.flatMap (fun r => r.1.flatMap fun cell =>
    if cell.1.startsWith '_' then []
    else add C M path .tableCell cell.2
      { base with row := some r.2, column := some cell.1, context := ((columnNames t).find? (·.1 = cell.1)).map (·.2) })

/-- `Value::get` of an object, `Value::as_str`, `Value::as_array` of serde_json -/
def get (v : J) (k : String) : Option J := match v with | .obj m => m.lookup k | _ => none
def asStr : J → Option String | .str s => some s | _ => none
def asArr : J → Option (List J) | .arr xs => some xs | _ => none

/-- the text of a run (search.rs:363-385) -/
def runText (run : J) : Text :=
  match (get run "type").bind asStr with
  | some "text" => (((get run "text").bind asStr).map String.toList).getD []
  | some "link" => (((get run "content").bind asArr).getD []).flatMap fun inner =>
      (((get inner "text").bind asStr).map String.toList).getD []
  | some "fileRef" => ((((get run "props").bind (get · "label")).bind asStr).map String.toList).getD []
  | _ => []

/-- `prose_text` (search.rs:359-387) -/
def proseText (C : Chars) (v : J) : Option Text := do
  let runs ← (get v "content").bind asArr
  let out := runs.flatMap runText
  if out.all C.white then none else some out

/-- the hits for the prose of a block (search.rs:354-356) -/
def addProse (C : Chars) (M : List Text) (path : String) (v : J) (site : Site) (k : Kind) : List Hit :=
  match proseText C v with
  | some t => add C M path k t site
  | none => []

/-- `search_ignored_block` (search.rs:332-357) -/
def searchIgnored (C : Chars) (M : List Text) (path : String) (v : J) : List Hit :=
  let site : Site := { block := (get v "id").bind asStr }
  match (get v "type").bind asStr with
  | some "heading" => addProse C M path v site .heading
  | some "paragraph" => addProse C M path v site .paragraph
  | some "bulletListItem" => addProse C M path v site .listItem
  | some "numberedListItem" => addProse C M path v site .listItem
  | some "codeBlock" =>
    match (((get v "props").bind (get · "data")).bind (get · "code")).bind asStr with
    | some code => add C M path .codeBlock code.toList site
    | none => []
  | _ => []

/-- `search_policy_block` (search.rs:223-330) -/
def searchBlock (C : Chars) (M : List Text) (path : String) : Block → List Hit
  | .assertion id output cs => add C M path .assertionOutput output { block := some id } ++
      cs.flatMap fun c => add C M path .assertionCondition c.2 { block := some id, expr := some c.1 }
  | .expression id key value => add C M path .expressionKey key { block := some id } ++
      add C M path .expression value { block := some id }
  | .match_ id key arms => add C M path .matchKey key { block := some id } ++
      arms.flatMap fun a => add C M path .matchCondition a.2.1 { block := some id, expr := some a.1 } ++
        add C M path .matchValue a.2.2 { block := some id, expr := some a.1 }
  | .table id t => searchTable C M path { block := some id } none t
  | .dataModel id name ps => add C M path .dataModel name { block := some id } ++
      ps.flatMap fun p => add C M path .dataModelProperty p.2 { block := some id, expr := some p.1, context := some name }
  | .dictionary id name es => add C M path .dictionary name { block := some id } ++
      es.flatMap fun e => addBest C M path .dictionaryEntry [e.2.1, e.2.2]
        { block := some id, expr := some e.1, context := some name }
  | .ignored v => searchIgnored C M path v

/-- `search_graph_node` (search.rs:397-490) -/
def searchNode (C : Chars) (M : List Text) (path : String) (n : Node) : List Hit :=
  add C M path .graphNode n.name { node := some n.id } ++
  match n.kind with
  | .expression es => es.flatMap fun e =>
      add C M path .expressionKey e.2.1 { node := some n.id, expr := some e.1, context := some n.name } ++
      add C M path .expression e.2.2 { node := some n.id, expr := some e.1, context := some n.name }
  | .table t => searchTable C M path { node := some n.id } (some n.name) t
  | .switch ss => ss.flatMap fun s =>
      add C M path .switchCondition s.2 { node := some n.id, expr := some s.1, context := some n.name }
  | .function source => add C M path .function source { node := some n.id, context := some n.name }
  | .other => []

/-- `path.rsplit('/').next()` (search.rs:185) -/
def fileName (path : String) : Text := (path.toList.reverse.takeWhile (· ≠ '/')).reverse

/-- the hits of a document (search.rs:180-200) -/
def searchDoc (C : Chars) (M : List Text) (path : String) (d : Doc) : List Hit :=
  add C M path .document (fileName path) {} ++
  match d with
  | .policy bs => bs.flatMap (searchBlock C M path)
  | .graph ns => ns.flatMap (searchNode C M path)

/-- the order of hits (search.rs:203-211): ids are ordered by their bytes, nothing comes before something -/
def cmpHit : Hit → Hit → Ordering :=
  compareLex (fun a b => compare b.score a.score) <| compareLex (compareOn (·.path)) <|
  compareLex (compareOn (·.site.block)) <| compareLex (compareOn (·.site.node)) <|
  compareLex (compareOn (·.site.row)) (compareOn (·.span.1))

/-- `Db::search` (search.rs:167-215): `docs` are the documents in any order; sorting is stable -/
def search (C : Chars) (docs : List (String × Doc)) (query : Text) (limit : Option Nat) : List Hit :=
  match matcher C query with
  | none => []
  | some M =>
    let sorted := docs.mergeSort fun a b => (compare a.1 b.1).isLE
    let hits := sorted.flatMap fun d => searchDoc C M d.1 d.2
    (hits.mergeSort fun a b => (cmpHit a b).isLE).take (min (limit.getD 50) 500)

end Search
end Zen
