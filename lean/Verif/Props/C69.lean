import Verif.Edit.RenameSub
import Verif.Edit.RenameProof
import Verif.Edit.TextProof
/-
C69  Renaming a global or an entity keeps the meaning of the expressions and changes nothing else in the texts.
-/
namespace Zen.Rename
open Zen Reads Edit

/-! ## Specification

`sub x y false n` (Edit/Rename) is the expression in which every occurrence of `x` that no `as x` binds is `y`. `text ps rest` (Edit/TextProof)
is a text with marked occurrences. -/

/-- What one scope has under `x` the other has under `y`; everything else is the same. -/
def Moved (x y : String) (m m' : List (String × Val)) : Prop :=
  aGet m' y = aGet m x ∧ ∀ k, k ≠ x → k ≠ y → aGet m' k = aGet m k

/-- a step into a value: a property or an element -/
inductive Step
  | key (k : String)
  | elem (i : Nat)

/-- the part of a value that steps lead to -/
def part : Val → List Step → Option Val
  | v, [] => some v
  | .obj m, .key k :: r => match aGet m k with
    | some v => part v r
    | none => none
  | .arr xs, .elem i :: r => match xs[i]? with
    | some v => part v r
    | none => none
  | _, _ => none

/-- the marked occurrences of a text, as spans of bytes -/
def byteSpans : Nat → List (List Char × List Char) → List Span
  | _, [] => []
  | i, (gap, old) :: r =>
    (i + bytes gap, i + bytes gap + bytes old) :: byteSpans (i + bytes gap + bytes old) r

/-! ## Expressions -/

/-- The walk through the analysis renames exactly the occurrences that no `as x` binds, when the analysis knows every binding of
`x` (`clear`). `L` lists what is assigned, `A` the other aliases. -/
theorem C69_lexical {x y : String} {L A : List String} (hx : x ∉ L) (hd : "$" ∈ L) (unary : Bool) {n : Node} (h : clear x L A n = true) :
    renamed x y unary n = sub x y false n := renamed_eq hx hd unary n h

/-- A renamed expression has, on the renamed data, the value or the error of the expression. The locals (`$` in the cell of a
table) are the same in both. -/
theorem C69_meaning {x y : String} {L A : List String} (hx : x ∉ L) (hd : "$" ∈ L) (unary : Bool) {n : Node} (h : clear x L A n = true)
    (hf : fresh x y n = true) (B : Builtins) {m m' : List (String × Val)} (hm : Moved x y m m') {ls : List (String × Val)}
    (hl : (aKeys ls).Nodup) (hlx : aGet ls x = none) (hly : aGet ls y = none) :
    evaluate B ⟨.obj m, ls⟩ n = evaluate B ⟨.obj m', ls⟩ (renamed x y unary n) := by
  rw [C69_lexical hx hd unary h]
  have hs : Swap x y ⟨.obj m, ls⟩ ⟨.obj m', ls⟩ := by
    refine ⟨⟨_, rfl⟩, ⟨_, rfl⟩, hl, hl, ?_, fun k h1 h2 => ?_⟩
    · simp only [Scope.get, Scope.local_, hlx, hly]
      exact hm.1.symm
    · simp only [Scope.get, Scope.local_]
      cases aGet ls k with
      | some v => rfl
      | none => exact (hm.2 k h1 h2).symm
  have := alike (B := B) (r0 := ⟨.obj m, ls⟩) (r1 := ⟨.obj m', ls⟩) n false [] _ _ ⟨rfl, rfl⟩ hs hf
  unfold evaluate
  rcases this with ⟨e, h1, h2⟩ | ⟨v, e, e', h1, h2, _⟩
  · rw [h1, h2]
  · rw [h1, h2]; rfl

/-! ## Texts -/

theorem charSpans (ps : List (List Char × List Char)) (rest pre : List Char) :
    (byteSpans (bytes pre) ps).map (charSpan (pre ++ text ps rest)) = places pre.length ps := by
  induction ps generalizing pre with
  | nil => rfl
  | cons p r ih =>
    obtain ⟨g, o⟩ := p
    simp only [byteSpans, places, List.map_cons, text]
    congr 1
    · have := charSpan_part (pre ++ g) o (text r rest)
      simp only [bytes_append, List.append_assoc, List.length_append] at this
      simpa only [Nat.add_assoc] using this
    · have := ih (pre ++ g ++ o)
      simpa only [bytes_append, List.append_assoc, List.length_append, Nat.add_assoc] using this

/-- The occurrences at which an expression is to be changed are given as spans of bytes, in any order and any number of times; the
text afterwards has the new name at each and is otherwise unchanged, whatever characters it has. -/
theorem C69_text (ps : List (List Char × List Char)) (rest : List Char) (hne : ∀ p ∈ ps, p.2 ≠ []) (spans : List Span)
    (hs : ∀ s, s ∈ spans ↔ s ∈ byteSpans 0 ps) (new : List Char) :
    replaceAt (text ps rest) (spans.map (charSpan (text ps rest))) new = some (text (ps.map fun p => (p.1, new)) rest) := by
  refine replace_text ps rest _ hne fun s => ?_
  have := charSpans ps rest []
  simp only [List.nil_append, List.length_nil] at this
  rw [← this, List.mem_map, List.mem_map]
  constructor
  · rintro ⟨t, ht, rfl⟩; exact ⟨t, (hs t).1 ht, rfl⟩
  · rintro ⟨t, ht, rfl⟩; exact ⟨t, (hs t).2 ht, rfl⟩

/-- Any spans that are not empty: those that are replaced are some of the given ones, do not overlap, and each given one is replaced or
begins inside of a replaced one. -/
theorem C69_overlap (src : List Char) (spans : List Span) (h : ∀ s ∈ spans, s.1 < s.2 ∧ s.2 ≤ src.length) (new : List Char) :
    ∃ K, replaceAt src spans new = some (splice K new 0 src) ∧ (∀ s ∈ K, s ∈ spans) ∧
      K.Pairwise (fun s t => s.2 ≤ t.1) ∧ ∀ s ∈ spans, ∃ t ∈ K, s = t ∨ (t.1 ≤ s.1 ∧ s.1 < t.2) := by
  have hp : ∀ s ∈ spans, s.1 < s.2 := fun s hs => (h s hs).1
  refine ⟨kept spans, replaceAt_eq src spans h, fun s => kept_sub, ?_, kept_all hp⟩
  have : ∀ K, Apart K → K.Pairwise fun s t => s.2 ≤ t.1 := by
    intro K hK
    induction K with
    | nil => exact .nil
    | cons a r ih => exact .cons hK.1 (ih hK.2)
  exact this _ (kept_apart hp)

theorem bySource_get (sites : List (String × Span)) (new src : String) : aGet (bySource sites new) src =
    if src ∈ sites.map Prod.fst then
      (replaceAt src.toList ((sites.filter (·.1 = src)).map Prod.snd) new.toList).map String.ofList
    else none := by
  unfold bySource
  have key : ∀ l : List String, aGet (l.filterMap fun s => (replaceAt s.toList ((sites.filter (·.1 = s)).map Prod.snd) new.toList).map
      fun t => (s, String.ofList t)) src = if src ∈ l then
        (replaceAt src.toList ((sites.filter (·.1 = src)).map Prod.snd) new.toList).map String.ofList else none := by
    intro l
    induction l with
    | nil => rfl
    | cons a r ih =>
      rw [List.filterMap_cons]
      by_cases e : src = a
      · subst e
        cases hr : replaceAt src.toList ((sites.filter (·.1 = src)).map Prod.snd) new.toList with
        | none => simp [ih, hr]
        | some t => simp [aGet]
      · cases hr : replaceAt a.toList ((sites.filter (·.1 = a)).map Prod.snd) new.toList with
        | none => simp [ih, e]
        | some t => simp [aGet, Ne.symm e, ih, e]
  rw [key]
  simp only [List.mem_eraseDups]

/-- The new text of a source, from the sites found in all sources of a block: that of `C69_text`. Texts in which no site was
found have no new text. -/
theorem C69_source (sites : List (String × Span)) (new src : String) (ps : List (List Char × List Char)) (rest : List Char)
    (he : src.toList = text ps rest) (hne : ∀ p ∈ ps, p.2 ≠ [])
    (hs : ∀ s, (src, s) ∈ sites ↔ s ∈ (byteSpans 0 ps).map (charSpan src.toList)) :
    aGet (bySource sites new) src =
      if ps = [] then none else some (String.ofList (text (ps.map fun p => (p.1, new.toList)) rest)) := by
  rw [bySource_get]
  have hc := charSpans ps rest []
  simp only [List.nil_append, List.length_nil] at hc
  rw [he] at hs ⊢
  change ∀ s, _ ↔ s ∈ (byteSpans (bytes []) ps).map _ at hs
  rw [hc] at hs
  have hm : ∀ s, s ∈ (sites.filter (·.1 = src)).map Prod.snd ↔ s ∈ places 0 ps := by
    intro s
    rw [← hs s, List.mem_map]
    constructor
    · rintro ⟨⟨a, b⟩, h, rfl⟩
      rw [List.mem_filter] at h
      have : a = src := by simpa using h.2
      exact this ▸ h.1
    · intro h; exact ⟨(src, s), List.mem_filter.2 ⟨h, by simp⟩, rfl⟩
  rw [replace_text ps rest _ hne hm]
  cases ps with
  | nil =>
    rw [if_pos rfl, if_neg]
    rw [List.mem_map]
    rintro ⟨⟨a, b⟩, h, rfl⟩
    exact nomatch (hs b).1 h
  | cons p r =>
    have : src ∈ sites.map Prod.fst := by
      rw [List.mem_map]
      obtain ⟨s, h⟩ : ∃ s, s ∈ places 0 (p :: r) := ⟨_, List.mem_cons_self ..⟩
      exact ⟨(src, s), (hs s).2 h, rfl⟩
    rw [if_pos this, if_neg (by simp)]
    rfl

/-! ## Blocks -/

/-- text that `apply_to` treats as JSON of its own -/
def embedded (k : String) : Prop := k = "dataJson" ∨ k = "schemaJson"

theorem applyFields_get (bs : List (String × String)) (p : Bool) : ∀ (m : List (String × Val)) (k : String),
    aGet (applyFields bs p m) k = (aGet m k).map fun v => if p && nodeKeys.contains k then v
      else if k = "dataJson" || k = "schemaJson" then v else applyTo bs p v
  | [], _ => rfl
  | (a, v) :: r, k => by
    unfold applyFields
    by_cases h : a = k
    · subst h; simp [aGet]
    · simp [aGet, h, applyFields_get bs p r k]

theorem applyList_get (bs : List (String × String)) (p : Bool) : ∀ (xs : List Val) (i : Nat),
    (applyList bs p xs)[i]? = xs[i]?.map (applyTo bs p)
  | [], _ => by simp [applyList]
  | v :: r, 0 => by simp [applyList]
  | v :: r, i + 1 => by simp [applyList, applyList_get bs p r i]

/-- In a block of a policy every string that is one of the texts becomes the new text, in whatever place it stands, and every other
string stays; nothing is added or removed. -/
theorem C69_block (bs : List (String × String)) : ∀ (path : List Step) (v : Val), (∀ k, .key k ∈ path → ¬ embedded k) →
    part (applyTo bs false v) path = (part v path).map (applyTo bs false)
  | [], v, _ => by cases v <;> rfl
  | st :: r, v, h => by
    have hr : ∀ k, .key k ∈ r → ¬ embedded k := fun k hk => h k (by simp [hk])
    cases v with
    | arr xs =>
      cases st with
      | key k => rfl
      | elem i =>
        simp only [applyTo, part, applyList_get]
        cases xs[i]? with
        | none => rfl
        | some v => exact C69_block bs r v hr
    | obj m =>
      cases st with
      | elem i => rfl
      | key k =>
        have hk := h k (by simp)
        unfold embedded at hk
        simp only [applyTo, part, applyFields_get]
        cases aGet m k with
        | none => rfl
        | some v =>
          simp only [Option.map_some, Bool.false_and, Bool.false_eq_true, if_false]
          rw [if_neg (by simpa using hk)]
          exact C69_block bs r v hr
    | _ => cases st <;> rfl

theorem C69_string (bs : List (String × String)) (v : Val) (path : List Step) (h : ∀ k, .key k ∈ path → ¬ embedded k) (s : String)
    (hs : part v path = some (.str s)) : part (applyTo bs false v) path = some (.str ((aGet bs s).getD s)) := by
  rw [C69_block bs path v h, hs]
  rfl

/-- In the node of a graph nothing under a protected name is changed. -/
theorem C69_protected (bs : List (String × String)) (m : List (String × Val)) (k : String)
    (hk : k ∈ ["id", "_id", "type", "name", "kind", "sourceId", "targetId", "sourceHandle", "targetHandle"]) :
    aGet (applyFields bs true m) k = aGet m k := by
  rw [applyFields_get]
  replace hk : k ∈ nodeKeys := hk
  cases aGet m k <;> simp [hk]

/-! ## Keys -/

/-- The key of a write (`writeKeySpan`, editor.rs:323-331): a global is renamed where the key is its name, with or without `[]`. -/
theorem C69_key_global (x : List Char) (hx : x ≠ []) (h2 : ∀ s, x ≠ s ++ ['[', ']']) (new : List Char) :
    (writeKeySpan true x x).bind (fun s => replaceAt x [s] new) = some new ∧
    (writeKeySpan true x (x ++ ['[', ']'])).bind (fun s => replaceAt (x ++ ['[', ']']) [s] new) = some (new ++ ['[', ']']) := by
  have e1 : stripBrackets x = x := stripBrackets_none h2
  have e2 : stripBrackets (x ++ ['[', ']']) = x := stripBrackets_some x
  have r1 := replace_text (new := new) [([], x)] [] [(0, x.length)] (by simpa using hx) (by simp [places])
  have r2 := replace_text (new := new) [([], x)] ['[', ']'] [(0, x.length)] (by simpa using hx) (by simp [places])
  simp only [text, List.nil_append, List.append_nil, List.map_cons, List.map_nil] at r1 r2
  simp only [writeKeySpan, e1, e2, if_pos, Option.bind_some]
  exact ⟨r1, r2⟩

/-- An entity is renamed where it stands before the first dot of the key. -/
theorem C69_key_entity (x rest : List Char) (hx : x ≠ []) (hdot : '.' ∉ x) (new : List Char) :
    (writeKeySpan false x (x ++ '.' :: rest)).bind (fun s => replaceAt (x ++ '.' :: rest) [s] new) = some (new ++ '.' :: rest) := by
  have r1 := replace_text (new := new) [([], x)] ('.' :: rest) [(0, x.length)] (by simpa using hx) (by simp [places])
  simp only [text, List.nil_append, List.map_cons, List.map_nil] at r1
  rw [writeKeySpan_entity x rest hdot]
  exact r1

/-! ## A case that meets the hypotheses -/

/-- `t = rate; map(loans as l, [l.amount, rate, t]); ` with the output `filter(rate as rate, rate)` -/
def sample : Node :=
  .assigns [(.str "t", .ident "rate"),
      (.str "u", .closure .map (.ident "loans") (some "l") (.arr [.member (.ident "l") (.str "amount"), .ident "rate", .ident "t"]))]
    (some (.closure .map (.ident "rate") (some "rate") (.ident "rate")))

example : clear "rate" ["$", "t", "u"] ["l"] sample = true := by decide
example : fresh "rate" "apr" sample = true := by decide
example : renamed "rate" "apr" false sample =
    .assigns [(.str "t", .ident "apr"),
      (.str "u", .closure .map (.ident "loans") (some "l") (.arr [.member (.ident "l") (.str "amount"), .ident "apr", .ident "t"]))]
    (some (.closure .map (.ident "apr") (some "rate") (.ident "rate"))) := by rfl
example (v w : Val) : Moved "rate" "apr" [("rate", v), ("loans", w)] [("apr", v), ("loans", w)] := by
  refine ⟨rfl, fun k h1 h2 => ?_⟩
  simp [aGet, Ne.symm h1, Ne.symm h2]

/-- `é + x * x`, where the first `x` is at byte 5 and the second at byte 9 -/
example : replaceAt "é + x * x".toList ([(9, 10), (5, 6), (9, 10)].map (charSpan "é + x * x".toList)) "rate".toList =
    some "é + rate * rate".toList :=
  C69_text [("é + ".toList, ['x']), (" * ".toList, ['x'])] [] (by decide) [(9, 10), (5, 6), (9, 10)]
    (fun s => by
      rw [show byteSpans 0 [("é + ".toList, ['x']), (" * ".toList, ['x'])] = [(5, 6), (9, 10)] from by decide]
      simp only [List.mem_cons, List.not_mem_nil, or_false]
      grind) "rate".toList

/-! ## What is not kept -/

theorem loopMap_pure {f : Val → Scope → Res} {g : Val → Val} {e : Scope} (h : ∀ v, f v e = .ok (g v, e)) :
    ∀ xs, loopMap f xs e = .ok (xs.map g, e)
  | [] => rfl
  | v :: r => by simp only [loopMap, h, loopMap_pure h r, List.map_cons]

section findings
variable (B : Builtins) (m : List (String × Val)) (x y : String)

/-- Finding: where the elements of something else than a path are called `x`, the analysis calls the alias unresolved and takes its
occurrences for the global. `map([u] as x, x)` becomes `map([u] as x, y)`, which has the value of `y` instead of that of `u`. -/
theorem C69_unresolved (u : String) (hu : u ≠ x) (hxy : x ≠ y) :
    renamed x y false (.closure .map (.arr [.ident u]) (some x) (.ident x)) = .closure .map (.arr [.ident u]) (some x) (.ident y) ∧
    evaluate B ⟨.obj m, []⟩ (.closure .map (.arr [.ident u]) (some x) (.ident x)) = .ok (.arr [(aGet m u).getD .null]) ∧
    evaluate B ⟨.obj m, []⟩ (.closure .map (.arr [.ident u]) (some x) (.ident y)) = .ok (.arr [(aGet m y).getD .null]) := by
  refine ⟨?_, ?_, ?_⟩
  · simp [renamed, rn, rnList, readPath, source, sourcePath, innerScope, named, hu]
  · simp [evaluate, eval, evalList, opBegin, loopMeaning, loopMap, aliasOf, opFetchEnv, Scope.get, Scope.local_, aGet, Except.map]
  · simp [evaluate, eval, evalList, opBegin, loopMeaning, loopMap, aliasOf, opFetchEnv, Scope.get, Scope.local_, aGet, Except.map, hxy]

/-- Finding: nothing checks that the new name is free. Renaming `x` to the name of the elements in `map(u as y, x)` gives
`map(u as y, y)`. -/
theorem C69_captured (u : String) (hu : u ≠ x) (hxy : x ≠ y) (hd : x ≠ "$") (xs : List Val) (h : aGet m u = some (.arr xs)) :
    renamed x y false (.closure .map (.ident u) (some y) (.ident x)) = .closure .map (.ident u) (some y) (.ident y) ∧
    evaluate B ⟨.obj m, []⟩ (.closure .map (.ident u) (some y) (.ident x)) = .ok (.arr (xs.map fun _ => (aGet m x).getD .null)) ∧
    evaluate B ⟨.obj m, []⟩ (.closure .map (.ident u) (some y) (.ident y)) = .ok (.arr xs) := by
  refine ⟨?_, ?_, ?_⟩
  · simp [renamed, rn, rnSpine, readPath, source, innerScope, named, hu, hxy, Sc.isLocal, Sc.expand, aGet, aSet, iterated, Ne.symm hxy, hd]
  · simp [evaluate, eval, opBegin, loopMeaning, aliasOf, opFetchEnv, Scope.get, Scope.local_, aGet, Except.map, h, Ne.symm hxy]
    rw [loopMap_pure (g := fun _ => (aGet m x).getD .null) fun v => rfl]
  · simp [evaluate, eval, opBegin, loopMeaning, aliasOf, opFetchEnv, Scope.get, Scope.local_, aGet, Except.map, h]
    rw [loopMap_pure (g := fun v => v) fun v => rfl]
    simp

/-- Finding: the key of an assignment is not renamed but what is read of it is, so `x.a = u; x` becomes `x.a = u; y`, without the
property assigned. -/
theorem C69_assigned (v w : Val) :
    renamed "x" "y" false (.assigns [(.str "x.a", .ident "u")] (some (.ident "x"))) =
      .assigns [(.str "x.a", .ident "u")] (some (.ident "y")) ∧
    evaluate B ⟨.obj [("x", .obj [("b", v)]), ("u", w)], []⟩ (.assigns [(.str "x.a", .ident "u")] (some (.ident "x"))) =
      .ok (.obj [("b", v), ("a", w)]) ∧
    evaluate B ⟨.obj [("y", .obj [("b", v)]), ("u", w)], []⟩ (.assigns [(.str "x.a", .ident "u")] (some (.ident "y"))) =
      .ok (.obj [("b", v)]) := ⟨rfl, rfl, rfl⟩

/-- Finding: what is read through `$root` is not renamed. -/
theorem C69_root : renamed x y false (.member .root (.str x)) = .member .root (.str x) := by
  simp [renamed, rn, rnSpine, isChain]

/-- Finding: every string of a block that is the text of a site is changed. Renaming the global `date` in the data model that declares it with
the type `date` changes the type. -/
theorem C69_type (new : String) :
    applyTo (bySource [("date", (0, 4))] new) false (.obj [("id", .str "p1"), ("name", .str "date"), ("type", .str "date")]) =
      .obj [("id", .str "p1"), ("name", .str new), ("type", .str new)] := by
  have h : ∀ s, aGet (bySource [("date", (0, 4))] new) s = if s = "date" then some new else none := by
    intro s
    rw [bySource_get]
    by_cases e : s = "date"
    · subst e
      have := replace_text (new := new.toList) [([], "date".toList)] [] [(0, 4)] (by decide) (by simp [places])
      simp only [text, List.nil_append, List.append_nil, List.map_cons, List.map_nil] at this
      change (if _ then (replaceAt _ [(0, 4)] new.toList).map String.ofList else none) = some new
      rw [this]
      simp
    · simp [e]
  simp [applyTo, applyFields, h]

/-- Finding: a property that has the name of its entity is renamed with the entity. -/
theorem C69_property (new : String) :
    applyTo (bySource [("loan", (0, 4))] new) false (.obj [("name", .str "loan"), ("scope", .str "entity"),
        ("properties", .arr [.obj [("name", .str "loan"), ("type", .str "number")]])]) =
      .obj [("name", .str new), ("scope", .str "entity"),
        ("properties", .arr [.obj [("name", .str new), ("type", .str "number")]])] := by
  have h : ∀ s, aGet (bySource [("loan", (0, 4))] new) s = if s = "loan" then some new else none := by
    intro s
    rw [bySource_get]
    by_cases e : s = "loan"
    · subst e
      have := replace_text (new := new.toList) [([], "loan".toList)] [] [(0, 4)] (by decide) (by simp [places])
      simp only [text, List.nil_append, List.append_nil, List.map_cons, List.map_nil] at this
      change (if _ then (replaceAt _ [(0, 4)] new.toList).map String.ofList else none) = some new
      rw [this]
      simp
    · simp [e]
  simp [applyTo, applyFields, applyList, h]

/-- Finding: a key below a global is not renamed. -/
theorem C69_key_below (k : List Char) (x : List Char) (hx : '.' ∉ x) : writeKeySpan true x (x ++ '.' :: k) = none := by
  obtain ⟨r, hr⟩ := strip_dot x k
  simp only [writeKeySpan, hr, if_true]
  rw [if_neg fun e => hx (by rw [← e]; simp)]

/-- Replacing at one place: what is before and behind stays; a place of no length is an insertion. -/
theorem C69_replace_one (src new : List Char) (a b : Nat) (hab : a ≤ b) (hb : b ≤ src.length) :
    replaceAt src [(a, b)] new = some (src.take a ++ new ++ src.drop b) := by
  simp [replaceAt, kept, dedup, Edit.keep, cut, Nat.min_eq_left hb, Nat.min_eq_left (Nat.le_trans hab hb), hab]

end findings
end Zen.Rename
