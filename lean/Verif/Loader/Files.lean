/-
The loader that reads decisions below a directory, loader/filesystem.rs:13-100.

The file system is a tree of directories and files with a place in it that relative paths start
from.  Paths and keys are lists of characters, read by the rules of Unix.

Simplified: there are no symbolic links, so `..` leads to the directory one came from; the right to
enter a directory is always there, the right to list it (`readable`) may be missing; no single entry
of a listing fails; the content of a file is what parsing it as a decision gives (`none` when it
cannot be opened or parsed); a name that is not Unicode is a number and the part after its last dot.
-/

namespace Zen.Fsl

/-- Text, as its characters. -/
abbrev Str := List Char

/-- The name of an entry: Unicode, or bytes that are not (`to_str` gives `None`,
filesystem.rs:87). -/
inductive Name where
  | text (s : Str)
  | raw (id : Nat) (ext : Option Str)
  deriving DecidableEq, Repr

/-- What a path leads to. -/
inductive Tree where
  | file (content : Option String)
  | dir (readable : Bool) (entries : List (Name × Tree))

/-- The file system: its top, and the current directory with the directories above it. -/
structure Files where
  top : Tree
  cwd : List Tree

/-- `Path::new(root).join(key)` (filesystem.rs:34-36): an absolute key replaces the root, otherwise a
separator is put between them unless one is there or the root is empty. -/
def join (root key : Str) : Str :=
  if key.head? = some '/' then key
  else if root = [] ∨ root.getLast? = some '/' then root ++ key
  else root ++ '/' :: key

/-- The parts of a path between the separators. -/
def segs : Str → List Str
  | [] => [[]]
  | c :: cs =>
    if c = '/' then [] :: segs cs
    else match segs cs with
      | s :: r => (c :: s) :: r
      | [] => [[c]]

/-- The entry of a directory with this name. -/
def find (es : List (Name × Tree)) (s : Str) : Option Tree :=
  (es.find? fun e => e.1 = .text s).map Prod.snd

/-- One step of the operating system along a path; the place is the tree reached with those above
it. -/
def step : List Tree → Str → Option (List Tree)
  | .dir r es :: above, s =>
    if s = [] ∨ s = ['.'] then some (.dir r es :: above)
    else if s = ['.', '.'] then
      match above with
      | [] => some [.dir r es]
      | _ => some above
    else (find es s).map fun t => t :: .dir r es :: above
  | _, _ => none

/-- The place a path leads to; the empty path leads nowhere. -/
def place (fs : Files) (p : Str) : Option (List Tree) :=
  if p = [] then none
  else (segs p).foldlM step (if p.head? = some '/' then [fs.top] else fs.cwd)

/-- What a path leads to, used for `Path::exists`, `File::open` and `read_dir`
(filesystem.rs:40-44, 77). -/
def resolve (fs : Files) (p : Str) : Option Tree :=
  (place fs p).bind List.head?

/-- The outcome of `read_content`. -/
inductive Outcome where
  | notFound
  | internal
  | ok (content : String)
  deriving DecidableEq, Repr

/-- `read_content`, filesystem.rs:38-57.  A directory can be opened and not read. -/
def load (fs : Files) (root key : Str) : Outcome :=
  match resolve fs (join root key) with
  | none => .notFound
  | some (.dir _ _) => .internal
  | some (.file none) => .internal
  | some (.file (some c)) => .ok c

/-- `Path::extension` of a path with this name: what follows the last dot, unless that dot is the
first character (filesystem.rs:84). -/
def extension : Name → Option Str
  | .raw _ e => e
  | .text s =>
    match s.reverse.dropWhile (· ≠ '.') with
    | _ :: _ :: _ => some (s.reverse.takeWhile (· ≠ '.')).reverse
    | _ => none

/-- The Unicode text of every name, `collect::<Option<Vec<_>>>()`, filesystem.rs:86-88. -/
def texts : List Name → Option (List Str)
  | [] => some []
  | .text s :: r => (texts r).map (s :: ·)
  | .raw _ _ :: _ => none

/-- `segments.join("/")`, filesystem.rs:89. -/
def glue : List Str → Str
  | [] => []
  | [s] => s
  | s :: r => s ++ '/' :: glue r

/-- The key of a path below the root, filesystem.rs:85-90. -/
def keyOf (names : List Name) : Option Str := (texts names).map glue

/-- What the walk holds: the directories to visit, with their names below the root, and the keys
found. -/
abbrev Walk := List (List Name × Tree) × List Str

/-- One entry of a directory, filesystem.rs:80-95. -/
def visit (path : List Name) (w : Walk) (e : Name × Tree) : Walk :=
  match e.2 with
  | .dir _ _ => ((path ++ [e.1], e.2) :: w.1, w.2)
  | .file _ =>
    if extension e.1 = some "json".toList then
      match keyOf (path ++ [e.1]) with
      | some k => (w.1, w.2 ++ [k])
      | none => w
    else w

/-- The size of what is still to be visited. -/
noncomputable def todo (st : List (List Name × Tree)) : Nat := (st.map fun s => sizeOf s.2).sum

/-- All entries of a directory, filesystem.rs:80-96. -/
def listing (path : List Name) (es : List (Name × Tree)) (w : Walk) : Walk := es.foldl (visit path) w

theorem listing_todo (path : List Name) (es : List (Name × Tree)) (w : Walk) :
    todo (listing path es w).1 < todo w.1 + sizeOf es := by
  unfold listing
  induction es generalizing w with
  | nil => simp
  | cons e es ih =>
    have h : todo (visit path w e).1 ≤ todo w.1 + sizeOf e.2 := by
      unfold visit
      split
      · rename_i h
        simp [todo, h]; omega
      · split
        · split <;> simp
        · simp
    have h2 := ih (visit path w e)
    obtain ⟨n, t⟩ := e
    simp only [List.foldl_cons, List.cons.sizeOf_spec, Prod.mk.sizeOf_spec] at *
    omega

/-- The loop over directories, filesystem.rs:76-97: one that cannot be listed is passed over. -/
def walk : List (List Name × Tree) → List Str → List Str
  | [], ks => ks
  | (_, .file _) :: rest, ks => walk rest ks
  | (_, .dir false _) :: rest, ks => walk rest ks
  | (path, .dir true es) :: rest, ks =>
    walk (listing path es (rest, ks)).1 (listing path es (rest, ks)).2
termination_by st => todo st
decreasing_by
  · simp [todo]; omega
  · simp [todo]; omega
  · have := listing_todo path es (rest, ks)
    simp only [todo, List.map_cons, List.sum_cons, Tree.dir.sizeOf_spec] at *
    omega

/-- `keys`, filesystem.rs:72-99. -/
def keys (fs : Files) (root : Str) : List Str :=
  match resolve fs root with
  | some t => walk [([], t)] []
  | none => []

end Zen.Fsl
