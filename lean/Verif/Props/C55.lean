import Verif.Analysis.ReadsProof
/-
C55: the reads reported for an expression are enough to know its value. Two environments that agree at every reported
path give the same result, success or failure. This is what lets a policy decide from the reported reads which blocks
must run before an expression. It holds for expressions without assignments in places that are evaluated only sometimes, or
in another order than they are analysed, without assignments to `$root`, with closures nested less than 32 deep,
and for environments that agree on `$`, which is never reported. Each condition is needed.
-/
namespace Zen.Reads
open Zen

theorem planned_reported {unary : Bool} {n : Node} {p : List String} (h : p ∈ planned unary n) : p ∈ reported unary n := by
  obtain ⟨r, hr, rfl⟩ := List.mem_map.1 h
  exact List.mem_map.2 ⟨r, (List.mem_filter.1 hr).1, rfl⟩

/-- Environments that agree on the reported reads, and on `$`, give the same result. -/
theorem C55_reads_complete (B : Builtins) (unary : Bool) (n : Node) (m m' : List (String × Val)) (ht : tame n = true)
    (hd : nesting n < 32) (hD : Agree (.obj m) (.obj m') ["$"])
    (hr : ∀ p ∈ reported unary n, Agree (.obj m) (.obj m') p) :
    evaluate B ⟨.obj m, []⟩ n = evaluate B ⟨.obj m', []⟩ n :=
  planned_sufficient (unary := unary) ht hd hD fun p hp => hr p (planned_reported hp)

/-- The same for what is asked for before the expression is evaluated, which leaves out the reads that could not be
resolved, and for scopes in which `$` is the value tested by a cell of a table. -/
theorem C55_plan_complete (B : Builtins) (unary : Bool) (n : Node) (m m' : List (String × Val)) (ls : List (String × Val))
    (hls : ls = [] ∨ ∃ v, ls = [("$", v)]) (h0 : aGet m "$" = none) (h0' : aGet m' "$" = none) (ht : tame n = true)
    (hd : nesting n < 32) (hr : ∀ p ∈ planned unary n, Agree (.obj m) (.obj m') p) :
    evaluate B ⟨.obj m, ls⟩ n = evaluate B ⟨.obj m', ls⟩ n :=
  planned_local hls (.inr ⟨h0, h0'⟩) ht hd (by rw [agree_plain (by decide)]; simp [readAt, h0, h0']) hr

/-- a path that does not look at the name `k` of the environment -/
def Misses (k : String) : List String → Prop
  | ["$root"] => False
  | "$root" :: x :: _ => x ≠ k
  | x :: _ => x ≠ k
  | [] => False

theorem misses_agree {k : String} {v : Val} {m : List (String × Val)} (p : List String) (h : Misses k p) :
    Agree (.obj m) (.obj (aSet m k v)) p := by
  have key : ∀ x r, x ≠ k → readAt (.obj m) (x :: r) = readAt (.obj (aSet m k v)) (x :: r) := by
    intro x r hx
    simp only [readAt, aGet_aSet, if_neg hx]
  match p, h with
  | [], h => exact h.elim
  | x :: r, h =>
    by_cases hx : x = "$root"
    · subst hx
      cases r with
      | nil => exact h.elim
      | cons y t => exact key y t h
    · rw [agree_plain hx]
      refine key x r ?_
      unfold Misses at h
      split at h
      · rename_i e; injection e with e; exact absurd e hx
      · rename_i e; injection e with e; exact absurd e hx
      · rename_i e; injection e with e1 _; rw [e1]; exact h
      · rename_i e; cases e

/-- A part of the environment that no reported path looks at may be set to anything. -/
theorem C55_unreported (B : Builtins) (unary : Bool) (n : Node) (m : List (String × Val)) (k : String) (v : Val)
    (ht : tame n = true) (hd : nesting n < 32) (hk : k ≠ "$") (hr : ∀ p ∈ reported unary n, Misses k p) :
    evaluate B ⟨.obj (aSet m k v), []⟩ n = evaluate B ⟨.obj m, []⟩ n := by
  refine (C55_reads_complete B unary n m _ ht hd ?_ fun p hp => misses_agree p (hr p hp)).symm
  exact misses_agree ["$"] (by simpa [Misses] using fun e => hk e.symm)

/-- Names for elements stand for the path of the collection, also one inside the other, and also when the last part of the path is
the name of something assigned before. -/
theorem C55_alias_paths (k k' : Clo) (x a b t z : String) (c : Node) (hc : resolve c {} = ([], {})) (ht : splitDot t = [t]) (hxt : x ≠ t) (hab : a ≠ b)
    (hb : b ≠ "$") (ha : a ≠ "$") (hat : a ≠ t) (hx : x ≠ "$") :
    planned false (.assigns [(.str t, c)] (some (.closure k (.ident x) (some a)
      (.closure k' (.member (.ident a) (.str t)) (some b) (.member (.ident b) (.str z)))))) = [[x], [x, t], [x, t, z]] := by
  simp [planned, propReads, readsOf, resolve, resolveAsg, resolveOpt, hc, bind, ht, readPath, Sc.isLocal, innerScope, Sc.expand,
    hxt, hab, hb, hat, hx, ha, aGet, aSet, isChain, spine, Chain.start, Chain.seg, Chain.field, Chain.finish,
    Chain.emit, emitGroup, walkDeps, walkDep, maxDepth, keep, resolvePath, throughAlias]

/-- the value at a path of the analysis -/
def valueAt (b : Val) : List String → Val
  | "$root" :: r => readAt b r
  | p => readAt b p

theorem valueAt_path {m : List (String × Val)} {n : Node} {p : List String} (hp : readPath n = some p) (ht : tame n = true) :
    lenient ⟨.obj m, []⟩ ⟨.obj m, []⟩ [] n = some (valueAt (.obj m) p) := by
  obtain ⟨x, r, rfl⟩ := readPath_ne hp
  have := lenient_path (m := m) (e := ⟨.obj m, []⟩) (fr := []) hp ht
  rw [show inp m = ⟨.obj m, []⟩ from rfl] at this
  rw [this]
  by_cases hx : x = "$root"
  · subst hx
    rw [if_pos rfl]
    rfl
  · rw [if_neg hx]
    simp only [aliasOf]
    congr 1
    unfold valueAt
    split
    · rename_i h; cases h; exact absurd rfl hx
    · simp [rd, Scope.get, Scope.local_, aGet, readAt]

theorem kept_mem {f : Val → Scope → Res} (xs : List Val) :
    ∀ {env : Scope} {r}, loopFilter f xs env = .ok r → ∀ x ∈ r.1, x ∈ xs := by
  induction xs with
  | nil => intro env r h; cases h; exact fun _ h => h
  | cons x xs ih =>
    intro env r h
    simp only [loopFilter] at h
    split at h
    · cases h
    · rename_i h1
      split at h
      · cases h
      · rename_i h2
        cases h
        intro y hy
        rcases List.mem_cons.1 hy with rfl | hy
        · exact List.mem_cons_self
        · exact List.mem_cons_of_mem _ (ih h2 y hy)
    · exact fun y hy => List.mem_cons_of_mem _ (ih h y hy)
    · cases h

/-- A name for the elements of a collection stands for the path the elements come from: if an array is there, the collection is
an array of some of its elements. -/
theorem C55_source (B : Builtins) {m : List (String × Val)} {n : Node} : ∀ {p : List String}, sourcePath n = some p → tame n = true →
    ∀ {v : Val} {env : Scope}, eval B ⟨.obj m, []⟩ [] ⟨.obj m, []⟩ n = .ok (v, env) → ∀ {ys : List Val}, valueAt (.obj m) p = .arr ys →
    ∃ xs, v = .arr xs ∧ ∀ x ∈ xs, x ∈ ys := by
  induction n using Node.ind with
  | ident x =>
    intro p hs ht v env h ys hy
    have := valueAt_path (m := m) (n := .ident x) hs ht
    simp only [lenient, aliasOf] at this
    simp only [eval, aliasOf, opFetchEnv] at h
    simp only [Scope.local_, aGet] at h
    cases h
    rw [hy] at this
    simp only [Scope.get, Scope.local_, aGet, Option.some.injEq] at this
    exact ⟨ys, this, fun _ h => h⟩
  | root =>
    intro p hs ht v env h ys hy
    have := valueAt_path (m := m) (n := .root) hs ht
    simp only [lenient] at this
    cases h
    rw [hy] at this
    exact ⟨ys, by simpa using this, fun _ h => h⟩
  | member a b _ _ =>
    intro p hs ht v env h ys hy
    have := valueAt_path (m := m) (n := .member a b) hs ht
    simp only [eval, this] at h
    cases h
    exact ⟨ys, hy, fun _ h => h⟩
  | paren n ih =>
    intro p hs ht v env h ys hy
    exact ih hs ht h hy
  | binary op l r ihl _ =>
    intro p hs ht v env h ys hy
    have ho : op = .logic .coalesce := by
      unfold sourcePath at hs
      split at hs <;> simp_all
    subst ho
    simp only [sourcePath] at hs
    simp only [tame, Bool.and_eq_true] at ht
    simp only [eval] at h
    split at h
    · cases h
    · rename_i h1
      obtain ⟨xs, hx, -⟩ := ihl hs ht.1.1 h1 hy
      cases hx
    · rename_i h1
      cases h
      exact ihl hs ht.1.1 h1 hy
  | closure k o al b iho _ =>
    intro p hs ht v env h ys hy
    have hk : k = .filter := by
      unfold sourcePath at hs
      split at hs <;> simp_all
    subst hk
    simp only [sourcePath] at hs
    simp only [tame, Bool.and_eq_true] at ht
    simp only [eval] at h
    split at h
    · cases h
    · rename_i h1
      obtain ⟨xs, rfl, hx⟩ := iho hs ht.1.1 h1 hy
      simp only [opBegin, loopMeaning] at h
      obtain ⟨r, hr, he⟩ := exceptMap_ok h
      cases he
      exact ⟨r.1, rfl, fun x h => hx x (kept_mem _ hr x h)⟩
  | _ => intro p hs; simp [sourcePath] at hs

/-- `filter(order.items ?? [], #.price > 3)` -/
def picked : Node :=
  .closure .filter (.binary (.logic .coalesce) (.member (.ident "order") (.str "items")) (.arr [])) none
    (.binary (.cmp .gt) (.member .pointer (.str "price")) (.num 3))

example : sourcePath picked = some ["order", "items"] ∧ tame picked = true := by decide +kernel

/-! ### Cases -/

/-- `sum(map(order.items as i, i.price * rate)) > limits[tier].max` -/
def priced : Node :=
  .binary (.cmp .gt)
    (.call "sum" [.closure .map (.member (.ident "order") (.str "items")) (some "i")
      (.binary (.arith .mul) (.member (.ident "i") (.str "price")) (.ident "rate"))])
    (.member (.member (.ident "limits") (.ident "tier")) (.str "max"))

example : tame priced = true ∧ nesting priced < 32 := by decide
example : reported false priced =
    [["order", "items"], ["order", "items", "price"], ["rate"], ["limits"], ["tier"], ["limits", "max"]] := by
  decide +kernel

/-- `t = order.total * rate; t + bonus`: a name that is assigned is not read -/
def assigned : Node :=
  .assigns [(.str "t", .binary (.arith .mul) (.member (.ident "order") (.str "total")) (.ident "rate"))]
    (some (.binary (.arith .add) (.ident "t") (.ident "bonus")))

example : tame assigned = true ∧ reported false assigned = [["order", "total"], ["rate"], ["bonus"]] := by decide +kernel
example (B : Builtins) (m : List (String × Val)) (v : Val) :
    evaluate B ⟨.obj (aSet m "t" v), []⟩ assigned = evaluate B ⟨.obj m, []⟩ assigned :=
  C55_unreported B false assigned m "t" v (by decide) (by decide) (by decide) (by
    have e : reported false assigned = [["order", "total"], ["rate"], ["bonus"]] := by decide +kernel
    rw [e]
    simp [Misses])

/-- `map(values(lines) as l, l.price)`: a name for elements of something that is not a path from the
environment -/
def parts : Node :=
  .closure .map (.call "values" [.ident "lines"]) (some "l") (.member (.ident "l") (.str "price"))

example : tame parts = true ∧ reported false parts = [["lines"], ["l", "price"]] ∧ planned false parts = [["lines"]] := by
  decide +kernel

/-- `> limit and $.max < cap`, a test of a cell -/
def cell : Node :=
  .binary (.logic .and) (.binary (.cmp .gt) (.ident "$") (.ident "limit"))
    (.binary (.cmp .lt) (.member (.ident "$") (.str "max")) (.ident "cap"))

example : tame cell = true ∧ planned true cell = [["limit"], ["cap"]] := by decide +kernel
example (B : Builtins) (v x : Val) : evaluate B ⟨.obj [("limit", .num 1), ("cap", .num 2), ("other", x)], [("$", v)]⟩ cell =
    evaluate B ⟨.obj [("limit", .num 1), ("cap", .num 2)], [("$", v)]⟩ cell :=
  C55_plan_complete B true cell _ _ _ (.inr ⟨v, rfl⟩) rfl rfl (by decide) (by decide) (by
    have e : planned true cell = [["limit"], ["cap"]] := by decide +kernel
    rw [e]
    intro p hp
    rcases List.mem_cons.1 hp with rfl | hp
    · rfl
    · rw [List.mem_singleton.1 hp]; rfl)

/-! ### What is needed -/

/-- the claim for one expression -/
def Complete (B : Builtins) (unary : Bool) (n : Node) : Prop :=
  ∀ m m' : List (String × Val), Agree (.obj m) (.obj m') ["$"] → (∀ p ∈ reported unary n, Agree (.obj m) (.obj m') p) →
    evaluate B ⟨.obj m, []⟩ n = evaluate B ⟨.obj m', []⟩ n

/-- `c ? (x = 1; x) : x` -/
def branch : Node :=
  .cond (.ident "c") (.paren (.assigns [(.str "x", .num 1)] (some (.ident "x")))) (.ident "x")

/-- NEGATIVE: an assignment in one branch hides a read in the other. -/
theorem C55_branch_false (B : Builtins) : reported false branch = [["c"]] ∧ ¬ Complete B false branch := by
  refine ⟨by decide +kernel, fun h => ?_⟩
  have := h [("c", .bool false), ("x", .num 2)] [("c", .bool false), ("x", .num 3)] rfl (by
    have e : reported false branch = [["c"]] := by decide +kernel
    rw [e]
    intro p hp
    cases List.mem_singleton.1 hp
    rfl)
  revert this
  simp [evaluate, branch, eval, aliasOf, opFetchEnv, Scope.local_, aGet, Except.map]

/-- `(c and (x = 1; true)) or x` -/
def shortCut : Node :=
  .binary (.logic .or) (.paren (.binary (.logic .and) (.ident "c") (.paren (.assigns [(.str "x", .num 1)] (some (.bool true))))))
    (.ident "x")

/-- NEGATIVE: so does an assignment in an operand that may be left out. -/
theorem C55_shortcut_false (B : Builtins) : reported false shortCut = [["c"]] ∧ ¬ Complete B false shortCut := by
  refine ⟨by decide +kernel, fun h => ?_⟩
  have := h [("c", .bool false), ("x", .num 2)] [("c", .bool false), ("x", .num 3)] rfl (by
    have e : reported false shortCut = [["c"]] := by decide +kernel
    rw [e]
    intro p hp
    cases List.mem_singleton.1 hp
    rfl)
  revert this
  simp [evaluate, shortCut, eval, aliasOf, opFetchEnv, Scope.local_, aGet, Except.map]

/-- `xs[(i = 0; 0) : i]` -/
def sliced : Node :=
  .slice (.ident "xs") (some (.paren (.assigns [(.str "i", .num 0)] (some (.num 0))))) (some (.ident "i"))

/-- NEGATIVE: the end of a slice is evaluated before its start, but analysed after it. -/
theorem C55_slice_false (B : Builtins) : reported false sliced = [["xs"]] ∧ ¬ Complete B false sliced := by
  refine ⟨by decide +kernel, fun h => ?_⟩
  have := h [("xs", .str "abc"), ("i", .num 1)] [("xs", .str "abc"), ("i", .null)] rfl (by
    have e : reported false sliced = [["xs"]] := by decide +kernel
    rw [e]
    intro p hp
    cases List.mem_singleton.1 hp
    rfl)
  have e1 : evaluate B ⟨.obj [("xs", .str "abc"), ("i", .num 1)], []⟩ sliced = .ok (.str "ab") := by
    rfl
  have e2 : evaluate B ⟨.obj [("xs", .str "abc"), ("i", .null)], []⟩ sliced = .error (.opcode "Slice" "Unsupported type") := rfl
  rw [e1, e2] at this
  cases this

/-- `$root.x = 1; $root.x` -/
def rootAssigned : Node := .assigns [(.str "$root.x", .num 1)] (some (.member .root (.str "x")))

/-- NEGATIVE: an assignment below `$root` does not change what `$root` gives, but hides the read. -/
theorem C55_root_false (B : Builtins) : reported false rootAssigned = [] ∧ ¬ Complete B false rootAssigned := by
  refine ⟨by decide +kernel, fun h => ?_⟩
  have := h [("x", .num 2)] [("x", .num 3)] rfl (by
    have e : reported false rootAssigned = [] := by decide +kernel
    rw [e]
    intro p hp
    cases hp)
  have e1 : ∀ v, evaluate B ⟨.obj [("x", v)], []⟩ rootAssigned = .ok v := fun v => by
    rfl
  rw [e1, e1] at this
  cases this

/-- NEGATIVE: parts of `$` are not reported. -/
theorem C55_dollar_false (B : Builtins) : reported false (.member (.ident "$") (.str "a")) = [] ∧
    evaluate B ⟨.obj [("$", .obj [("a", .num 1)])], []⟩ (.member (.ident "$") (.str "a")) ≠
      evaluate B ⟨.obj [], []⟩ (.member (.ident "$") (.str "a")) := by
  refine ⟨by decide +kernel, ?_⟩
  simp [evaluate, eval, lenient, aliasOf, Scope.get, Scope.local_, aGet, fastProp, Except.map]

/-- `map([0], … map([0], x) …)` -/
def deep : Nat → Node
  | 0 => .ident "x"
  | k + 1 => .closure .map (.ident "xs") none (deep k)

/-- `v` in `k` arrays -/
def boxed (v : Val) : Nat → Val
  | 0 => v
  | k + 1 => .arr [boxed v k]

theorem deep_eval (B : Builtins) (root : Scope) (v : Val) (k : Nat) : ∀ fr : Frames, (∀ f ∈ fr, f.1 = none) →
    eval B root fr ⟨.obj [("xs", .arr [.num 0]), ("x", v)], []⟩ (deep k) =
      .ok (boxed v k, ⟨.obj [("xs", .arr [.num 0]), ("x", v)], []⟩) := by
  have ha : ∀ (fr : Frames) (n : String), (∀ f ∈ fr, f.1 = none) → aliasOf fr n = none := by
    intro fr n
    induction fr with
    | nil => intro _; rfl
    | cons f fr ih =>
      intro h
      obtain ⟨a, x⟩ := f
      have : a = none := h (a, x) (by simp)
      subst this
      exact ih fun f hf => h f (by simp [hf])
  induction k with
  | zero =>
    intro fr h
    simp [deep, eval, ha fr _ h, opFetchEnv, Scope.local_, aGet, boxed]
  | succ k ih =>
    intro fr h
    have := fun x => ih ((none, x) :: fr) (fun f hf => by
      rcases List.mem_cons.1 hf with rfl | hf
      · rfl
      · exact h f hf)
    simp [deep, eval, ha fr _ h, opFetchEnv, Scope.local_, aGet, boxed, opBegin, loopMeaning, loopMap, this, Except.map]

/-- NEGATIVE: reads below 32 closures are dropped. -/
theorem C55_depth_false (B : Builtins) : reported false (deep 32) = List.replicate 32 ["xs"] ∧ ¬ Complete B false (deep 32) := by
  have e : reported false (deep 32) = List.replicate 32 ["xs"] := by decide +kernel
  refine ⟨e, fun h => ?_⟩
  have := h [("xs", .arr [.num 0]), ("x", .num 1)] [("xs", .arr [.num 0]), ("x", .num 2)] rfl (by
    rw [e]
    intro p hp
    cases List.eq_of_mem_replicate hp
    rfl)
  unfold evaluate at this
  rw [deep_eval _ _ _ _ [] (by simp), deep_eval _ _ _ _ [] (by simp)] at this
  simp [Except.map, boxed] at this

end Zen.Reads
