import Verif.Props.C12
/-
C13  What an identifier denotes.
`fr` lists the enclosing closures, innermost first, each with its alias (if any) and the element
it is visiting.
-/
namespace Zen

/-- `v` is the current element of the innermost enclosing closure whose alias is `name` -/
def InnermostAlias (fr : Frames) (name : String) (v : Val) : Prop :=
  ∃ pre post, fr = pre ++ (some name, v) :: post ∧ ∀ p ∈ pre, p.1 ≠ some name

/-- no enclosing closure has the alias `name` -/
def NoAlias (fr : Frames) (name : String) : Prop := ∀ p ∈ fr, p.1 ≠ some name

/-- what a name denotes in a scope: a local, otherwise the input's property, otherwise null -/
inductive InScope (env : Scope) (name : String) : Val → Prop
  | local_ {v : Val} : (name, v) ∈ env.locals → (∀ w, (name, w) ∈ env.locals → w = v) →
      InScope env name v
  | property {m : List (String × Val)} {v : Val} : (∀ w, (name, w) ∉ env.locals) →
      env.base = .obj m → aGet m name = some v → InScope env name v
  | missing {m : List (String × Val)} : (∀ w, (name, w) ∉ env.locals) →
      env.base = .obj m → (∀ w, (name, w) ∉ m) → InScope env name .null
  | noInput : (∀ w, (name, w) ∉ env.locals) → env.base = .null → InScope env name .null

theorem aliasOf_innermost {fr : Frames} {name : String} {v : Val} (h : InnermostAlias fr name v) :
    aliasOf fr name = some v := by
  obtain ⟨pre, post, rfl, hp⟩ := h
  induction pre with
  | nil => simp [aliasOf]
  | cons p pre ih =>
    obtain ⟨a, w⟩ := p
    have h1 := hp (a, w) (List.mem_cons_self ..)
    have h2 := ih fun q hq => hp q (List.mem_cons_of_mem _ hq)
    cases a with
    | none => simpa [aliasOf] using h2
    | some a =>
      have : a ≠ name := fun e => h1 (by simp [e])
      simpa [aliasOf, this] using h2

theorem aliasOf_noAlias {fr : Frames} {name : String} (h : NoAlias fr name) :
    aliasOf fr name = none := by
  induction fr with
  | nil => rfl
  | cons p fr ih =>
    obtain ⟨a, w⟩ := p
    have h1 := h (a, w) (List.mem_cons_self ..)
    have h2 := ih fun q hq => h q (List.mem_cons_of_mem _ hq)
    cases a with
    | none => simpa [aliasOf] using h2
    | some a =>
      have : a ≠ name := fun e => h1 (by simp [e])
      simpa [aliasOf, this] using h2

theorem aGet_none_of_not_mem {m : List (String × Val)} {k : String} (h : ∀ w, (k, w) ∉ m) :
    aGet m k = none := by
  induction m with
  | nil => rfl
  | cons p m ih =>
    obtain ⟨a, w⟩ := p
    have : a ≠ k := fun e => h w (by simp [e])
    simp only [aGet, this, if_false]
    exact ih fun w hw => h w (List.mem_cons_of_mem _ hw)

theorem aGet_of_mem_unique {m : List (String × Val)} {k : String} {v : Val} (h : (k, v) ∈ m)
    (hu : ∀ w, (k, w) ∈ m → w = v) : aGet m k = some v := by
  induction m with
  | nil => cases h
  | cons p m ih =>
    obtain ⟨a, w⟩ := p
    by_cases e : a = k
    · subst e; rw [hu w (List.mem_cons_self ..)]; simp [aGet]
    · simp only [aGet, e, if_false]
      rcases List.mem_cons.1 h with h | h
      · exact absurd (congrArg Prod.fst h).symm e
      · exact ih h fun w hw => hu w (List.mem_cons_of_mem _ hw)

theorem opFetchEnv_inScope {env : Scope} {name : String} {v : Val} (h : InScope env name v) :
    opFetchEnv env name = .ok v := by
  unfold opFetchEnv Scope.local_
  cases h with
  | local_ h hu => rw [aGet_of_mem_unique h hu]
  | property hl hb hg => rw [aGet_none_of_not_mem hl, hb]; simp [hg]
  | missing hl hb hg => rw [aGet_none_of_not_mem hl, hb]; simp [aGet_none_of_not_mem hg]
  | noInput hl hb => rw [aGet_none_of_not_mem hl, hb]

/-- An identifier naming an enclosing alias denotes the element of the innermost such closure;
otherwise it denotes what the scope gives: local, input property, or null. -/
theorem C13_identifier (B : Builtins) (root : Scope) (fr : Frames) (env : Scope) (name : String)
    (v : Val) :
    (InnermostAlias fr name v → eval B root fr env (.ident name) = .ok (v, env)) ∧
    (NoAlias fr name → InScope env name v → eval B root fr env (.ident name) = .ok (v, env)) := by
  constructor
  · intro h; simp [eval, aliasOf_innermost h]
  · intro h hs; simp [eval, aliasOf_noAlias h, opFetchEnv_inScope hs]

/-- The same on the machine: the code the compiler emits for the identifier inside closures with
the aliases of `fr`, run while the loops visit the elements of `fr`, pushes that value. -/
theorem C13_machine (B : Builtins) (root : Scope) (fr : Frames) (env : Scope) (name : String)
    (v : Val) (seg code : List Op) (pc : Nat) (st : List Val) (ls : List Loop) (asg : List Val)
    (hc : compileNode B (fr.map Prod.fst) (.ident name) [] = .ok seg) (hl : LoopsOk fr ls)
    (hseg : CodeAt code pc seg)
    (h : InnermostAlias fr name v ∨ (NoAlias fr name ∧ InScope env name v)) :
    Steps B root code ⟨pc, st, ls, env, asg⟩ ⟨pc + seg.length, v :: st, ls, env, asg⟩ := by
  refine (C09_stack_discipline B root _ fr seg code pc st ls env asg hc hl hseg).1 v env ?_
  rcases h with h | ⟨h, hs⟩
  · exact (C13_identifier B root fr env name v).1 h
  · exact (C13_identifier B root fr env name v).2 h hs

/-- the property `k` of a value: null when the value is not an object or lacks the property -/
def property (k : String) : Val → Val
  | .obj m => (aGet m k).getD .null
  | _ => .null

theorem opFetch_str (a : Val) (k : String) : opFetch a (.str k) = .ok (property k a) := by
  cases a <;> rfl

/-- A property read through an identifier, `name.k`, is that property of what the identifier
denotes, although the compiler translates the two kinds of identifiers differently. -/
theorem C13_property (B : Builtins) (root : Scope) (fr : Frames) (env : Scope) (name k : String)
    (v : Val) (h : InnermostAlias fr name v ∨ (NoAlias fr name ∧ InScope env name v)) :
    eval B root fr env (.member (.ident name) (.str k)) = .ok (property k v, env) := by
  rcases h with h | ⟨h, hs⟩
  · have ha := aliasOf_innermost h
    simp only [eval, lenient, ha]
    rw [opFetch_str]
  · have ha := aliasOf_noAlias h
    simp only [eval, lenient, ha]
    have hg : (env.get name).getD .null = v := by
      unfold Scope.get Scope.local_
      cases hs with
      | local_ h hu => rw [aGet_of_mem_unique h hu]; rfl
      | property hl hb hg => rw [aGet_none_of_not_mem hl, hb]; simp [hg]
      | missing hl hb hg => rw [aGet_none_of_not_mem hl, hb]; simp [aGet_none_of_not_mem hg]
      | noInput hl hb => rw [aGet_none_of_not_mem hl, hb]; rfl
    rw [hg]
    cases v <;> rfl

/-- An input that is neither an object nor null has no properties: the bare identifier fails. -/
theorem C13_scalar_input (B : Builtins) (root : Scope) (fr : Frames) (env : Scope) (name : String)
    (h : NoAlias fr name) (hl : ∀ w, (name, w) ∉ env.locals)
    (hb : env.base ≠ .null) (ho : ∀ m, env.base ≠ .obj m) :
    eval B root fr env (.ident name) = .error (.opcode "FetchEnv" "Unsupported type") := by
  simp only [eval, aliasOf_noAlias h]
  unfold opFetchEnv Scope.local_
  rw [aGet_none_of_not_mem hl]
  cases he : env.base <;> simp_all

/-! ### Instances -/

/-- `map(xs as a, map(ys as a, map(zs as b, a)))`: the middle closure -/
example : InnermostAlias [(some "b", .num 3), (some "a", .num 2), (some "a", .num 1)] "a" (.num 2) :=
  ⟨[(some "b", .num 3)], [(some "a", .num 1)], rfl, by simp⟩
example : NoAlias [(some "b", .num 3), (none, .num 2)] "x" := by simp [NoAlias]
example : InScope demoScope "x" (.num 1) := .property (by simp [demoScope]) rfl (by simp [aGet])
example : InScope { base := .obj [("x", .num 1)], locals := [("x", .num 9)] } "x" (.num 9) :=
  .local_ (by simp) (by simp)
example : Yields demoB demoScope
    (.closure .map (.arr [.num 1]) (some "a")
      (.closure .map (.arr [.num 2]) (some "a")
        (.closure .map (.arr [.num 3]) (some "b") (.ident "a"))))
    (.ok (.arr [.arr [.arr [.num 2]]])) := ⟨_, 200, rfl, rfl⟩

end Zen
