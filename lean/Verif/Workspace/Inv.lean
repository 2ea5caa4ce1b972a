import Verif.Workspace.Model
import Verif.Props.C45
/- What the caches for policies hold, and that every operation keeps it so. -/
namespace Zen.Ws
open Zen Zen.Policy

/-! ## Maps -/

section
variable {K V : Type} [DecidableEq K]

theorem get_mem {l : List (K × V)} {k : K} {v : V} (h : get l k = some v) : (k, v) ∈ l := by
  induction l with
  | nil => cases h
  | cons e l ih =>
    obtain ⟨k', v'⟩ := e
    unfold get at h
    by_cases hk : k' = k
    · rw [if_pos hk] at h; cases h; subst hk; simp
    · rw [if_neg hk] at h; exact List.mem_cons_of_mem _ (ih h)

theorem get_isSome {l : List (K × V)} {k : K} : (get l k).isSome ↔ k ∈ l.map Prod.fst := by
  induction l with
  | nil => simp [get]
  | cons e l ih =>
    obtain ⟨k', v'⟩ := e
    unfold get
    by_cases hk : k' = k
    · simp [hk]
    · rw [if_neg hk, ih]; simp [Ne.symm hk]

theorem get_filter (P : K → Bool) (l : List (K × V)) (k : K) :
    get (l.filter fun e => P e.1) k = if P k then get l k else none := by
  induction l with
  | nil => simp [get]
  | cons e l ih =>
    obtain ⟨k', v'⟩ := e
    by_cases hp : P k' = true
    · rw [List.filter_cons_of_pos (by simpa using hp)]
      unfold get
      by_cases hk : k' = k
      · subst hk; simp [hp]
      · rw [if_neg hk, if_neg hk, ih]
    · rw [List.filter_cons_of_neg (by simpa using hp), ih]
      by_cases hk : k' = k
      · subst hk; simp [hp]
      · conv => rhs; unfold get
        rw [if_neg hk]

theorem get_set (l : List (K × V)) (k : K) (v : V) (k' : K) : get (set l k v) k' = if k = k' then some v else get l k' := by
  unfold set
  rw [get]
  by_cases h : k = k'
  · simp [h]
  · rw [if_neg h, if_neg h]
    have := get_filter (fun x => decide (x ≠ k)) l k'
    rw [this, if_pos (by simpa using Ne.symm h)]

theorem mem_set {l : List (K × V)} {k : K} {v : V} {e : K × V} (h : e ∈ set l k v) : e = (k, v) ∨ e ∈ l ∧ e.1 ≠ k := by
  unfold set at h
  rcases List.mem_cons.1 h with h | h
  · exact .inl h
  · obtain ⟨h1, h2⟩ := List.mem_filter.1 h
    exact .inr ⟨h1, by simpa using h2⟩

theorem get_map {W : Type} (f : K → V → W) (l : List (K × V)) (k : K) :
    get (l.map fun e => (e.1, f e.1 e.2)) k = (get l k).map (f k) := by
  induction l with
  | nil => rfl
  | cons e l ih =>
    obtain ⟨k', v'⟩ := e
    simp only [List.map_cons, get]
    by_cases hk : k' = k
    · subst hk; simp
    · rw [if_neg hk, if_neg hk, ih]
end

theorem get_eq_aGet {V : Type} (l : List (String × V)) (k : String) : get l k = aGet l k := by
  induction l with
  | nil => rfl
  | cons e l ih => obtain ⟨k', v'⟩ := e; simp only [get, aGet, ih]

theorem get_vals {α : Type} (l : List (String × Ptr α)) (k : String) : get (vals l) k = (get l k).map (·.val) := by
  exact get_map (fun _ v => v.val) l k

theorem restrict_map {V W : Type} (f : String → V → W) (ms : List String) (l : List (String × V)) :
    restrict ms (l.map fun e => (e.1, f e.1 e.2)) = (restrict ms l).map fun e => (e.1, f e.1 e.2) := by
  unfold restrict
  rw [List.map_filterMap]
  congr 1
  funext m
  rw [get_map]
  cases get l m <;> rfl

theorem restrict_keys {V : Type} {ms : List String} {l : List (String × V)} (h : ∀ m ∈ ms, (get l m).isSome) :
    (restrict ms l).map Prod.fst = ms := by
  induction ms with
  | nil => rfl
  | cons m ms ih =>
    obtain ⟨v, hv⟩ := Option.isSome_iff_exists.1 (h m (by simp))
    unfold restrict at ih ⊢
    rw [List.filterMap_cons_some (by rw [hv]; rfl)]
    rw [List.map_cons, ih fun m hm => h m (by simp [hm])]

theorem zip_map_snd {V : Type} (l : List (String × V)) : (l.map Prod.fst).zip (l.map Prod.snd) = l := by
  induction l with
  | nil => rfl
  | cons e l ih => simp [ih]

/-! ## What the documents determine -/

variable {L : Lang}

/-- the parsed policies of the documents -/
def parsedSpec (docs : List (String × Ptr (Content L))) : List (String × L.Parsed) :=
  (policiesOf docs).map fun e => (e.1, L.parse e.1 e.2.val)

/-- the shallow analyses of parsed policies -/
def shallowFrom (l : List (String × L.Parsed)) : List (String × L.Shallow) :=
  l.map fun e => (e.1, L.shallow (L.scope []) e.1 e.2)

def importsSpec (docs : List (String × Ptr (Content L))) : List (String × List String) :=
  (parsedSpec docs).map fun e => (e.1, L.imports e.2)

def compsSpec (docs : List (String × Ptr (Content L))) : List (List String) := componentsOf (importsSpec docs)

def membersSpec (docs : List (String × Ptr (Content L))) (policy : String) : List String :=
  match get (componentIndex (compsSpec docs) 0 []) policy with
  | some i => (compsSpec docs).getD i []
  | none => []

/-- the unit of parsed policies -/
def unitFrom (l : List (String × L.Parsed)) : L.Unit := L.unit (l.map Prod.fst) l (shallowFrom l)

def enrichFrom (l : List (String × L.Parsed)) : L.Enriched := L.enrich (unitFrom l) l (shallowFrom l)

def unitSpec (docs : List (String × Ptr (Content L))) (policy : String) : L.Unit :=
  unitFrom (restrict (membersSpec docs policy) (parsedSpec docs))

def enrichSpec (docs : List (String × Ptr (Content L))) (policy : String) : L.Enriched :=
  enrichFrom (restrict (membersSpec docs policy) (parsedSpec docs))

def sigSpec (docs : List (String × Ptr (Content L))) (policy : String) : L.Sig :=
  L.polSig (unitSpec docs policy) (enrichSpec docs policy) (restrict (membersSpec docs policy) (parsedSpec docs))

def kindsSpec (docs : List (String × Ptr (Content L))) : List (String × Bool) :=
  docs.map fun e => (e.1, match e.2.val with
    | .policy _ => true
    | .graph _ => false)

def diagSpec (docs : List (String × Ptr (Content L))) (path : String) : L.Diag :=
  L.polDiag (kindsSpec docs) (parsedSpec docs) (shallowFrom (parsedSpec docs)) (compsSpec docs) (unitSpec docs path)
    (enrichSpec docs path) path

/-- the shallow pass does not look at the scope -/
def ScopeFree (L : Lang) : Prop := ∀ sc sc' path p, L.shallow sc path p = L.shallow sc' path p

theorem components_some (P : List (String × List String)) : ∃ fuel, computeComponents P fuel = some (componentsOf P) := by
  have h : ∃ cs, computeComponents P (((P.map Prod.fst).map fun p => (importNbrs P p).length).sum + 2) = some cs := by
    refine componentsLoop_total (U := P.map Prod.fst) ?_ (by rw [workLeft_nil]; omega) _ _ _ fun p hp => mem_sortKeys.1 hp
    intro x _ y hy
    rcases mem_importNbrs.1 hy with ⟨l, _, _, h⟩ | ⟨l, h, _, _⟩
    · exact h
    · exact List.mem_map.2 ⟨(y, l), h, rfl⟩
  obtain ⟨cs, h⟩ := h
  exact ⟨((P.map Prod.fst).map fun p => (importNbrs P p).length).sum + 2, by unfold componentsOf; rw [h]; rfl⟩

theorem comps_parsed {docs : List (String × Ptr (Content L))} {i : Nat} {m : String} (hm : m ∈ (compsSpec docs).getD i []) :
    (get (parsedSpec docs) m).isSome := by
  obtain ⟨fuel, hf⟩ := components_some (importsSpec docs)
  have hc : ∃ c ∈ compsSpec docs, m ∈ c := by
    rw [List.getD_eq_getElem?_getD] at hm
    cases h : (compsSpec docs)[i]? with
    | none => rw [h] at hm; cases hm
    | some c => rw [h] at hm; exact ⟨c, List.mem_of_getElem? h, hm⟩
  have := ((C45_partition hf).1 m).2 hc
  rw [get_isSome]
  simpa [importsSpec, List.map_map, Function.comp_def] using this

theorem members_parsed {docs : List (String × Ptr (Content L))} {policy m : String} (hm : m ∈ membersSpec docs policy) :
    (get (parsedSpec docs) m).isSome := by
  unfold membersSpec at hm
  split at hm
  · exact comps_parsed hm
  · cases hm

/-! ## The invariant -/

/-- an address in use, and its content -/
def POk (G : Nat → Option L.Parsed) (n : Nat) (p : Ptr L.Parsed) : Prop := p.addr < n ∧ G p.addr = some p.val

theorem POk.val_eq {G : Nat → Option L.Parsed} {n : Nat} {p q : Ptr L.Parsed} (hp : POk G n p) (hq : POk G n q)
    (h : p.same q = true) : p.val = q.val := by
  have : p.addr = q.addr := by simpa [Ptr.same] using h
  exact Option.some.inj (by rw [← hp.2, ← hq.2, this])

theorem sameAll_vals {G : Nat → Option L.Parsed} {n : Nat} : ∀ {a b : List (Ptr L.Parsed)}, (∀ p ∈ a, POk G n p) →
    (∀ p ∈ b, POk G n p) → sameAll a b = true → a.map (·.val) = b.map (·.val)
  | [], [], _, _, _ => rfl
  | [], _ :: _, _, _, h => by simp [sameAll] at h
  | _ :: _, [], _, _, h => by simp [sameAll] at h
  | x :: a, y :: b, ha, hb, h => by
    simp only [sameAll, List.length_cons, List.zip_cons_cons, List.all_cons, Bool.and_eq_true, beq_iff_eq] at h
    obtain ⟨hl, hxy, hr⟩ := h
    have ht : sameAll a b = true := by
      simp only [sameAll, Bool.and_eq_true, beq_iff_eq]; exact ⟨by omega, hr⟩
    rw [List.map_cons, List.map_cons, (ha x (by simp)).val_eq (hb y (by simp)) hxy,
      sameAll_vals (fun p hp => ha p (by simp [hp])) (fun p hp => hb p (by simp [hp])) ht]

/-- what the caches for policies hold -/
structure CacheOk (H : Nat → Option L.PolDoc) (G : Nat → Option L.Parsed) (n : Nat) (c : Cache L) : Prop where
  parsed : ∀ e ∈ c.parsed, H e.2.1.addr = some e.2.1.val ∧ POk G n e.2.2 ∧ e.2.2.val = L.parse e.1 e.2.1.val
  shallow : ∀ e ∈ c.shallow, POk G n e.2.1 ∧ ∀ sc, e.2.2 = L.shallow sc e.1 e.2.1.val
  units : ∀ e ∈ c.units, (∀ p ∈ e.2.parsed, POk G n p) ∧ e.2.parsed.length = e.1.length ∧
    e.2.unit = unitFrom (e.1.zip (e.2.parsed.map (·.val))) ∧
    ∀ x, e.2.cell = some x → x = enrichFrom (e.1.zip (e.2.parsed.map (·.val)))

/-- the entry of a unit is up to date -/
def EntryOk (c : Cache L) (docs : List (String × Ptr (Content L))) (ms : List String) : Prop :=
  ∃ e, get c.units ms = some e ∧ ms.zip (e.parsed.map (·.val)) = restrict ms (parsedSpec docs)

/-- what a snapshot holds -/
structure SnapOk (G : Nat → Option L.Parsed) (n : Nat) (docs : List (String × Ptr (Content L))) (c : Cache L) (s : Snap L) : Prop where
  ptrs : ∀ e ∈ s.parsed, POk G n e.2
  parsed : vals s.parsed = parsedSpec docs
  graphs : s.graphs = graphsOf docs
  shallow : s.shallow = shallowFrom (parsedSpec docs)
  comps : s.comps = compsSpec docs
  index : s.index = componentIndex (compsSpec docs) 0 []
  units : ∀ i u, get s.units i = some u → u = unitFrom (restrict ((compsSpec docs).getD i []) (parsedSpec docs)) ∧
    EntryOk c docs ((compsSpec docs).getD i [])
  diags : ∀ p d, get s.diags p = some d → get (graphsOf docs) p = none → d = diagSpec docs p

/-- policy documents sit at their addresses -/
def DocsOk (H : Nat → Option L.PolDoc) (l : List (String × Ptr L.PolDoc)) : Prop := ∀ e ∈ l, H e.2.addr = some e.2.val

structure InvG (H : Nat → Option L.PolDoc) (G : Nat → Option L.Parsed) (db : Db L) : Prop where
  docs : DocsOk H (policiesOf db.docs)
  cache : CacheOk H G db.next db.cache
  snap : ∀ s, db.snap = some s → SnapOk G db.next db.docs db.cache s

/-- the invariant for policies -/
def Inv (H : Nat → Option L.PolDoc) (db : Db L) : Prop := ∃ G, InvG H G db

/-- what questions about policies leave alone -/
structure Keep (db db' : Db L) : Prop where
  docs : db'.docs = db.docs
  stack : db'.stack = db.stack
  frames : db'.frames = db.frames
  fns : db'.fns = db.fns
  resolver : db'.resolver = db.resolver
  graphs : ∀ e ∈ db'.cache.graphs, e ∈ db.cache.graphs
  diags : ∀ s', db'.snap = some s' → s'.diags = [] ∨ ∃ s, db.snap = some s ∧ s.diags = s'.diags

theorem Keep.refl (db : Db L) : Keep db db := ⟨rfl, rfl, rfl, rfl, rfl, fun _ h => h, fun s h => .inr ⟨s, h, rfl⟩⟩

theorem Keep.trans {a b c : Db L} (h : Keep a b) (k : Keep b c) : Keep a c :=
  ⟨k.docs.trans h.docs, k.stack.trans h.stack, k.frames.trans h.frames, k.fns.trans h.fns, k.resolver.trans h.resolver,
    fun e he => h.graphs e (k.graphs e he), fun s' hs => by
      rcases k.diags s' hs with h' | ⟨s, h1, h2⟩
      · exact .inl h'
      · rcases h.diags s h1 with h' | ⟨t, h3, h4⟩
        · exact .inl (h2 ▸ h')
        · exact .inr ⟨t, h3, h4.trans h2⟩⟩

/-- addresses stay in use -/
def Grow (G : Nat → Option L.Parsed) (n : Nat) (G' : Nat → Option L.Parsed) (n' : Nat) : Prop := ∀ p, POk G n p → POk G' n' p

theorem CacheOk.grow {H : Nat → Option L.PolDoc} {G G' : Nat → Option L.Parsed} {n n' : Nat} {c : Cache L} (h : CacheOk H G n c)
    (g : Grow G n G' n') : CacheOk H G' n' c :=
  ⟨fun e he => let ⟨a, b, d⟩ := h.parsed e he; ⟨a, g _ b, d⟩, fun e he => let ⟨a, b⟩ := h.shallow e he; ⟨g _ a, b⟩,
    fun e he => let ⟨a, b⟩ := h.units e he; ⟨fun p hp => g _ (a p hp), b⟩⟩

/-! ## The snapshot -/

/-- only the parsed policies change -/
def WithParsed (db db' : Db L) : Prop :=
  ∃ n c, db' = { db with next := n, cache := { db.cache with parsed := c } }

theorem WithParsed.refl (db : Db L) : WithParsed db db := ⟨_, _, rfl⟩

theorem WithParsed.trans {a b c : Db L} (h : WithParsed a b) (k : WithParsed b c) : WithParsed a c := by
  obtain ⟨n, x, rfl⟩ := h
  obtain ⟨m, y, rfl⟩ := k
  exact ⟨m, y, rfl⟩

theorem grow_update (G : Nat → Option L.Parsed) (n : Nat) (v : L.Parsed) : Grow G n (Function.update G n (some v)) (n + 1) := by
  rintro p ⟨h1, h2⟩
  exact ⟨by omega, by rw [Function.update_of_ne (by omega)]; exact h2⟩

theorem allocParsed_ok {H : Nat → Option L.PolDoc} {G : Nat → Option L.Parsed} {db : Db L} {path : String} {doc : Ptr L.PolDoc}
    (hc : CacheOk H G db.next db.cache) (hd : H doc.addr = some doc.val) :
    ∃ G', Grow G db.next G' (allocParsed db path doc).2.next ∧
      CacheOk H G' (allocParsed db path doc).2.next (allocParsed db path doc).2.cache ∧
      POk G' (allocParsed db path doc).2.next (allocParsed db path doc).1 ∧
      (allocParsed db path doc).1.val = L.parse path doc.val ∧ WithParsed db (allocParsed db path doc).2 := by
  refine ⟨Function.update G db.next (some (L.parse path doc.val)), grow_update _ _ _, ?_, ?_, rfl, ⟨_, _, rfl⟩⟩
  · have hg := hc.grow (grow_update G db.next (L.parse path doc.val))
    refine ⟨fun e he => ?_, hg.shallow, hg.units⟩
    rcases mem_set he with rfl | ⟨he, _⟩
    · exact ⟨hd, ⟨by simp [allocParsed], by simp⟩, rfl⟩
    · exact hg.parsed e he
  · exact ⟨by simp [allocParsed], by simp [allocParsed]⟩

theorem parsedOrCompute_ok {H : Nat → Option L.PolDoc} {G : Nat → Option L.Parsed} {db : Db L} {path : String} {doc : Ptr L.PolDoc}
    (hc : CacheOk H G db.next db.cache) (hd : H doc.addr = some doc.val) :
    ∃ G', Grow G db.next G' (parsedOrCompute db path doc).2.next ∧
      CacheOk H G' (parsedOrCompute db path doc).2.next (parsedOrCompute db path doc).2.cache ∧
      POk G' (parsedOrCompute db path doc).2.next (parsedOrCompute db path doc).1 ∧
      (parsedOrCompute db path doc).1.val = L.parse path doc.val ∧ WithParsed db (parsedOrCompute db path doc).2 := by
  unfold parsedOrCompute
  cases h : get db.cache.parsed path with
  | none => exact allocParsed_ok hc hd
  | some e =>
    obtain ⟨d, p⟩ := e
    dsimp only
    by_cases hs : d.same doc = true
    · rw [if_pos hs]
      obtain ⟨h1, h2, h3⟩ := hc.parsed _ (get_mem h)
      refine ⟨G, fun _ h => h, hc, h2, ?_, .refl _⟩
      have : d.addr = doc.addr := by simpa [Ptr.same] using hs
      dsimp only at h1 h3 ⊢
      rw [h3, Option.some.inj (h1.symm.trans (this ▸ hd))]
    · rw [if_neg hs]; exact allocParsed_ok hc hd

theorem parseAll_ok {H : Nat → Option L.PolDoc} : ∀ (l : List (String × Ptr L.PolDoc)) {G : Nat → Option L.Parsed} {db : Db L},
    CacheOk H G db.next db.cache → DocsOk H l →
    ∃ G', Grow G db.next G' (parseAll l db).2.next ∧ CacheOk H G' (parseAll l db).2.next (parseAll l db).2.cache ∧
      (∀ e ∈ (parseAll l db).1, POk G' (parseAll l db).2.next e.2) ∧
      vals (parseAll l db).1 = (l.map fun e => (e.1, L.parse e.1 e.2.val)) ∧ WithParsed db (parseAll l db).2
  | [], G, db, hc, _ => ⟨G, fun _ h => h, hc, (fun _ h => by cases h), rfl, .refl _⟩
  | (path, doc) :: l, G, db, hc, hd => by
    obtain ⟨G1, g1, c1, p1, v1, w1⟩ := parsedOrCompute_ok (path := path) hc (hd (path, doc) (by simp))
    obtain ⟨G2, g2, c2, p2, v2, w2⟩ := parseAll_ok l c1 fun e he => hd e (by simp [he])
    refine ⟨G2, fun p hp => g2 p (g1 p hp), c2, fun e he => ?_, ?_, w1.trans w2⟩
    · rcases List.mem_cons.1 he with rfl | he
      · exact g2 _ p1
      · exact p2 e he
    · simp only [parseAll, vals, List.map_cons]
      rw [v1]
      congr 1

/-- only the shallow analyses change -/
def WithShallow (db db' : Db L) : Prop := ∃ c, db' = { db with cache := { db.cache with shallow := c } }

theorem shallowOrCompute_ok (hsf : ScopeFree L) {H : Nat → Option L.PolDoc} {G : Nat → Option L.Parsed} {db : Db L} {sc : L.Scope}
    {path : String} {p : Ptr L.Parsed} (hc : CacheOk H G db.next db.cache) (hp : POk G db.next p) :
    (shallowOrCompute db sc path p).1 = L.shallow (L.scope []) path p.val ∧
      CacheOk H G (shallowOrCompute db sc path p).2.next (shallowOrCompute db sc path p).2.cache ∧
      WithShallow db (shallowOrCompute db sc path p).2 := by
  have compute : ∀ sc : L.Scope, CacheOk H G db.next { db.cache with shallow := set db.cache.shallow path (p, L.shallow sc path p.val) } := by
    intro sc
    refine ⟨hc.parsed, fun e he => ?_, hc.units⟩
    rcases mem_set he with rfl | ⟨he, _⟩
    · exact ⟨hp, fun sc' => hsf _ _ _ _⟩
    · exact hc.shallow e he
  unfold shallowOrCompute
  cases h : get db.cache.shallow path with
  | none => exact ⟨hsf _ _ _ _, compute sc, ⟨_, rfl⟩⟩
  | some e =>
    obtain ⟨q, s⟩ := e
    dsimp only
    by_cases hs : q.same p = true
    · rw [if_pos hs]
      obtain ⟨h1, h2⟩ := hc.shallow _ (get_mem h)
      refine ⟨?_, hc, ⟨_, rfl⟩⟩
      have h2 := h2 (L.scope [])
      dsimp only at h1 h2 ⊢
      rw [h2, h1.val_eq hp hs]
    · rw [if_neg hs]; exact ⟨hsf _ _ _ _, compute sc, ⟨_, rfl⟩⟩

theorem shallowAll_ok (hsf : ScopeFree L) {H : Nat → Option L.PolDoc} {G : Nat → Option L.Parsed} {sc : L.Scope} :
    ∀ (l : List (String × Ptr L.Parsed)) {db : Db L}, CacheOk H G db.next db.cache → (∀ e ∈ l, POk G db.next e.2) →
    (shallowAll sc l db).1 = shallowFrom (vals l) ∧
      CacheOk H G (shallowAll sc l db).2.next (shallowAll sc l db).2.cache ∧ WithShallow db (shallowAll sc l db).2
  | [], db, hc, _ => ⟨rfl, hc, ⟨_, rfl⟩⟩
  | (path, p) :: l, db, hc, hp => by
    obtain ⟨h1, c1, x, w1⟩ := shallowOrCompute_ok hsf (sc := sc) (path := path) hc (hp (path, p) (by simp))
    have hn : (shallowOrCompute db sc path p).2.next = db.next := by rw [w1]
    obtain ⟨h2, c2, y, w2⟩ := shallowAll_ok hsf (sc := sc) l c1 fun e he => by rw [hn]; exact hp e (by simp [he])
    refine ⟨?_, c2, y, ?_⟩
    · simp only [shallowAll, vals, shallowFrom, List.map_cons]
      rw [h1]
      congr 1
    · simp only [shallowAll]
      rw [w2, w1]

theorem retain_ok {H : Nat → Option L.PolDoc} {G : Nat → Option L.Parsed} {n : Nat} {c : Cache L} (h : CacheOk H G n c)
    (docs : List (String × Ptr (Content L))) : CacheOk H G n (retain c docs) :=
  ⟨fun e he => h.parsed e (List.mem_filter.1 he).1, fun e he => h.shallow e (List.mem_filter.1 he).1,
    fun e he => h.units e (List.mem_filter.1 he).1⟩

theorem computeSnap_ok (hsf : ScopeFree L) {H : Nat → Option L.PolDoc} {G : Nat → Option L.Parsed} {db : Db L} (h : InvG H G db) :
    ∃ G', InvG H G' { (computeSnap db).2 with snap := some (computeSnap db).1 } ∧
      Keep db { (computeSnap db).2 with snap := some (computeSnap db).1 } ∧ (computeSnap db).1.diags = [] := by
  have hr := retain_ok h.cache db.docs
  obtain ⟨G1, g1, c1, p1, v1, n1, x1, w1⟩ := parseAll_ok (policiesOf db.docs) (db := { db with cache := retain db.cache db.docs }) hr h.docs
  obtain ⟨s2, c2, x2, w2⟩ := shallowAll_ok hsf (sc := L.scope (vals (parseAll (policiesOf db.docs)
    { db with cache := retain db.cache db.docs }).1)) _ c1 p1
  have hn : (shallowAll (L.scope (vals (parseAll (policiesOf db.docs) { db with cache := retain db.cache db.docs }).1))
    (parseAll (policiesOf db.docs) { db with cache := retain db.cache db.docs }).1
    (parseAll (policiesOf db.docs) { db with cache := retain db.cache db.docs }).2).2.next =
    (parseAll (policiesOf db.docs) { db with cache := retain db.cache db.docs }).2.next := by rw [w2]
  refine ⟨G1, ⟨?_, ?_, ?_⟩, ⟨?_, ?_, ?_, ?_, ?_, ?_, ?_⟩, rfl⟩
  · simp only [computeSnap]; rw [w2, w1]; exact h.docs
  · simp only [computeSnap]; exact c2
  · intro s hs
    injection hs with hs
    subst hs
    have hdocs : (computeSnap db).2.docs = db.docs := by simp only [computeSnap]; rw [w2, w1]
    refine ⟨?_, ?_, ?_, ?_, ?_, ?_, (fun i u hu => by cases hu), (fun p d hd => by cases hd)⟩
    · intro e he
      simp only [computeSnap] at he ⊢
      rw [hn]; exact p1 e he
    · dsimp only; rw [hdocs]; exact v1
    · simp only [computeSnap]
    · dsimp only; rw [hdocs]; simp only [computeSnap]; rw [s2, v1]; rfl
    · dsimp only; rw [hdocs]; simp only [computeSnap]; rw [v1]; rfl
    · dsimp only; rw [hdocs]; simp only [computeSnap]; rw [v1]; rfl
  · simp only [computeSnap]; rw [w2, w1]
  · simp only [computeSnap]; rw [w2, w1]
  · simp only [computeSnap]; rw [w2, w1]
  · simp only [computeSnap]; rw [w2, w1]
  · simp only [computeSnap]; rw [w2, w1]
  · simp only [computeSnap]; rw [w2, w1]
    intro e he
    exact (List.mem_filter.1 he).1
  · intro s' hs'
    injection hs' with hs'
    subst hs'
    exact .inl rfl

/-- after `snapshot` -/
structure SnapPost (H : Nat → Option L.PolDoc) (db : Db L) (s : Snap L) (db' : Db L) : Prop where
  inv : ∃ G, InvG H G db'
  keep : Keep db db'
  snap : db'.snap = some s

theorem snapshot_ok (hsf : ScopeFree L) {H : Nat → Option L.PolDoc} {db : Db L} (h : Inv H db) :
    SnapPost H db (snapshot db).1 (snapshot db).2 := by
  unfold snapshot
  cases hs : db.snap with
  | some s => exact ⟨h, .refl _, hs⟩
  | none =>
    obtain ⟨G, h⟩ := h
    obtain ⟨G', hi, hk, _⟩ := computeSnap_ok hsf h
    exact ⟨⟨G', hi⟩, hk, rfl⟩

theorem snapshot_of_some {db : Db L} {s : Snap L} (h : db.snap = some s) : snapshot db = (s, db) := by
  unfold snapshot; rw [h]

/-! ## Units -/

theorem SnapOk.members {G : Nat → Option L.Parsed} {n : Nat} {docs : List (String × Ptr (Content L))} {c : Cache L} {s : Snap L}
    (h : SnapOk G n docs c s) (policy : String) : s.members policy = membersSpec docs policy := by
  unfold Snap.members membersSpec
  rw [h.index, h.comps]
  rfl

theorem shallowFrom_restrict (ms : List String) (l : List (String × L.Parsed)) :
    restrict ms (shallowFrom l) = shallowFrom (restrict ms l) :=
  restrict_map (fun k v => L.shallow (L.scope []) k v) ms l

theorem restrict_vals {α : Type} (ms : List String) (l : List (String × Ptr α)) : restrict ms (vals l) = vals (restrict ms l) :=
  restrict_map (fun _ (v : Ptr α) => v.val) ms l

theorem mem_restrict {V : Type} {ms : List String} {l : List (String × V)} {e : String × V} (h : e ∈ restrict ms l) : e ∈ l := by
  obtain ⟨m, _, h⟩ := List.mem_filterMap.1 h
  obtain ⟨v, hv, rfl⟩ := Option.map_eq_some_iff.1 h
  exact get_mem hv

/-- only the units change -/
def WithUnits (db db' : Db L) : Prop := ∃ c, db' = { db with cache := { db.cache with units := c } }

theorem WithUnits.keep {db db' : Db L} (h : WithUnits db db') : Keep db db' := by
  obtain ⟨c, rfl⟩ := h
  exact ⟨rfl, rfl, rfl, rfl, rfl, fun _ h => h, fun s h => .inr ⟨s, h, rfl⟩⟩

/-- the members of a component, or none -/
def Live (docs : List (String × Ptr (Content L))) (ms : List String) : Prop := ∀ m ∈ ms, (get (parsedSpec docs) m).isSome

/-- a good entry is stored -/
theorem set_unit_ok {H : Nat → Option L.PolDoc} {G : Nat → Option L.Parsed} {db : Db L} {ms : List String} {e : UnitEntry L} (h : InvG H G db)
    (he : (∀ p ∈ e.parsed, POk G db.next p) ∧ e.parsed.length = ms.length ∧
      e.unit = unitFrom (ms.zip (e.parsed.map (·.val))) ∧ ∀ x, e.cell = some x → x = enrichFrom (ms.zip (e.parsed.map (·.val))))
    (hv : ms.zip (e.parsed.map (·.val)) = restrict ms (parsedSpec db.docs)) :
    InvG H G { db with cache := { db.cache with units := set db.cache.units ms e } } ∧
      EntryOk { db.cache with units := set db.cache.units ms e } db.docs ms := by
  have keep : ∀ ms', EntryOk db.cache db.docs ms' → EntryOk { db.cache with units := set db.cache.units ms e } db.docs ms' := by
    rintro ms' ⟨e', h1, h2⟩
    by_cases hm : ms = ms'
    · subst hm; exact ⟨e, by rw [get_set, if_pos rfl], hv⟩
    · exact ⟨e', by rw [get_set, if_neg hm]; exact h1, h2⟩
  refine ⟨⟨h.docs, ⟨h.cache.parsed, h.cache.shallow, fun x hx => ?_⟩, fun s hs => ?_⟩, ⟨e, by rw [get_set, if_pos rfl], hv⟩⟩
  · rcases mem_set hx with rfl | ⟨hx, _⟩
    · exact he
    · exact h.cache.units x hx
  · have hs := h.snap s hs
    exact ⟨hs.ptrs, hs.parsed, hs.graphs, hs.shallow, hs.comps, hs.index,
      fun i u hu => ⟨(hs.units i u hu).1, keep _ (hs.units i u hu).2⟩, hs.diags⟩

theorem unitOrCompute_ok {H : Nat → Option L.PolDoc} {G : Nat → Option L.Parsed} {db : Db L} {s : Snap L} (h : InvG H G db)
    (hs : db.snap = some s) {ms : List String} (hm : Live db.docs ms) {ps : List (Ptr L.Parsed)}
    (hps : ps = (restrict ms s.parsed).map Prod.snd) :
    (unitOrCompute db s ms ps).1 = unitFrom (restrict ms (parsedSpec db.docs)) ∧ InvG H G (unitOrCompute db s ms ps).2 ∧
      WithUnits db (unitOrCompute db s ms ps).2 ∧ EntryOk (unitOrCompute db s ms ps).2.cache db.docs ms := by
  have hso := h.snap s hs
  have hpp : ∀ p ∈ ps, POk G db.next p := by
    subst hps
    intro p hp
    obtain ⟨e, he, rfl⟩ := List.mem_map.1 hp
    exact hso.ptrs e (mem_restrict he)
  have hkeys : (restrict ms (parsedSpec db.docs)).map Prod.fst = ms := restrict_keys hm
  have hvals : ps.map (·.val) = (restrict ms (parsedSpec db.docs)).map Prod.snd := by
    subst hps
    rw [← hso.parsed, restrict_vals, vals, List.map_map, List.map_map]; rfl
  have hzip : ms.zip (ps.map (·.val)) = restrict ms (parsedSpec db.docs) := by
    rw [hvals]
    conv => lhs; arg 1; rw [← hkeys]
    exact zip_map_snd _
  have hlen : ps.length = ms.length := by
    have := congrArg List.length hvals
    rw [List.length_map, List.length_map] at this
    rw [this, ← hkeys, List.length_map, hkeys]
  have hu : L.unit ms (restrict ms (vals s.parsed)) (restrict ms s.shallow) = unitFrom (restrict ms (parsedSpec db.docs)) := by
    unfold unitFrom
    rw [hso.parsed, hso.shallow, shallowFrom_restrict, hkeys]
  have compute := set_unit_ok (ms := ms) (e := ⟨ps, unitFrom (restrict ms (parsedSpec db.docs)), none⟩) h
    ⟨hpp, hlen, by dsimp only; rw [hzip], fun x hx => by cases hx⟩ hzip
  unfold unitOrCompute
  dsimp only
  rw [hu]
  cases hg : get db.cache.units ms with
  | none => exact ⟨rfl, compute.1, ⟨_, rfl⟩, compute.2⟩
  | some e =>
    dsimp only
    by_cases hc : sameAll e.parsed ps = true
    · rw [if_pos hc]
      obtain ⟨h1, h2, h3, h4⟩ := h.cache.units _ (get_mem hg)
      have hv := sameAll_vals h1 hpp hc
      dsimp only at h3 hv
      refine ⟨?_, h, ⟨_, rfl⟩, e, hg, ?_⟩
      · dsimp only; rw [h3, hv, hzip]
      · rw [hv, hzip]
    · rw [if_neg hc]; exact ⟨rfl, compute.1, ⟨_, rfl⟩, compute.2⟩

/-- after a question about policies -/
structure Post (H : Nat → Option L.PolDoc) (db db' : Db L) : Prop where
  inv : Inv H db'
  keep : Keep db db'

theorem Post.trans {H : Nat → Option L.PolDoc} {a b c : Db L} (h : Post H a b) (k : Post H b c) : Post H a c :=
  ⟨k.inv, h.keep.trans k.keep⟩

theorem unitOf_ok (hsf : ScopeFree L) {H : Nat → Option L.PolDoc} {db : Db L} (h : Inv H db) (policy : String) :
    (unitOf db policy).1 = unitSpec db.docs policy ∧ Post H db (unitOf db policy).2 ∧
      EntryOk (unitOf db policy).2.cache db.docs (membersSpec db.docs policy) ∧ (unitOf db policy).2.snap.isSome := by
  obtain ⟨⟨G, hi⟩, hk, hs⟩ := snapshot_ok hsf h
  have hso := hi.snap _ hs
  unfold unitOf
  generalize hS : snapshot db = S at hi hk hs hso ⊢
  obtain ⟨s, db1⟩ := S
  dsimp only at hi hk hs hso ⊢
  rw [← hk.docs]
  cases hx : get s.index policy with
  | none =>
    dsimp only
    have hm : membersSpec db1.docs policy = [] := by
      rw [← hso.members]; unfold Snap.members; rw [hx]
    obtain ⟨h1, h2, h3, h4⟩ := unitOrCompute_ok hi hs (ms := []) (ps := []) (fun m hm => by cases hm) rfl
    unfold unitSpec
    rw [hm]
    refine ⟨h1, ⟨⟨G, h2⟩, hk.trans h3.keep⟩, h4, ?_⟩
    obtain ⟨c, h3⟩ := h3
    rw [h3]; dsimp only; rw [hs]; rfl
  | some i =>
    dsimp only
    have hm : membersSpec db1.docs policy = (compsSpec db1.docs).getD i [] := by
      rw [← hso.members]; unfold Snap.members; rw [hx]; dsimp only; rw [hso.comps]
    unfold unitSpec
    rw [hm]
    cases hu : get s.units i with
    | some u =>
      obtain ⟨h1, h2⟩ := hso.units i u hu
      exact ⟨h1, ⟨⟨G, hi⟩, hk⟩, h2, by rw [hs]; rfl⟩
    | none =>
      dsimp only
      obtain ⟨h1, h2, h3, h4⟩ := unitOrCompute_ok hi hs (ms := s.comps.getD i []) (ps := (restrict (s.comps.getD i []) s.parsed).map Prod.snd)
        (fun m hm => by rw [hso.comps] at hm; exact comps_parsed hm) rfl
      obtain ⟨c, h3'⟩ := id h3
      generalize hR : unitOrCompute db1 s (s.comps.getD i []) ((restrict (s.comps.getD i []) s.parsed).map Prod.snd) = R at h1 h2 h3 h4 h3' ⊢
      obtain ⟨u, db2⟩ := R
      dsimp only at h1 h2 h3 h4 h3' ⊢
      have hs2 : db2.snap = some s := by rw [h3']; exact hs
      have hd2 : db2.docs = db1.docs := by rw [h3']
      rw [hso.comps] at h1 h4
      refine ⟨h1, ⟨⟨G, h2.docs, h2.cache, ?_⟩, hk.trans (h3.keep.trans ?_)⟩, h4, by simp [modSnap, hs2]⟩
      · intro s' hs'
        have hso2 := h2.snap s hs2
        simp only [modSnap, hs2, Option.map_some, Option.some.injEq] at hs'
        subst hs'
        refine ⟨hso2.ptrs, hso2.parsed, hso2.graphs, hso2.shallow, hso2.comps, hso2.index, fun j v hv => ?_, hso2.diags⟩
        dsimp only at hv
        rw [get_set] at hv
        by_cases hij : i = j
        · subst hij
          rw [if_pos rfl] at hv
          injection hv with hv
          subst hv
          simp only [modSnap]
          rw [hd2]
          exact ⟨h1, h4⟩
        · rw [if_neg hij] at hv
          exact hso2.units j v hv
      · refine ⟨rfl, rfl, rfl, rfl, rfl, fun _ h => h, fun s' hs' => .inr ⟨s, hs2, ?_⟩⟩
        simp only [modSnap, hs2, Option.map_some, Option.some.injEq] at hs'
        subst hs'
        rfl

theorem enrichedOfUnit_ok {H : Nat → Option L.PolDoc} {db : Db L} (h : Inv H db) {ms : List String} (hm : Live db.docs ms)
    (he : EntryOk db.cache db.docs ms) (hss : db.snap.isSome) :
    (enrichedOfUnit db ms (unitFrom (restrict ms (parsedSpec db.docs)))).1 = enrichFrom (restrict ms (parsedSpec db.docs)) ∧
      Post H db (enrichedOfUnit db ms (unitFrom (restrict ms (parsedSpec db.docs)))).2 ∧
      EntryOk (enrichedOfUnit db ms (unitFrom (restrict ms (parsedSpec db.docs)))).2.cache db.docs ms := by
  obtain ⟨G, hi⟩ := h
  obtain ⟨e, hg, hz⟩ := he
  obtain ⟨s, hs⟩ := Option.isSome_iff_exists.1 hss
  have hso := hi.snap s hs
  obtain ⟨h1, h2, h3, h4⟩ := hi.cache.units _ (get_mem hg)
  dsimp only at h1 h2 h3 h4
  unfold enrichedOfUnit
  rw [hg]
  obtain ⟨ps, u, cell⟩ := e
  dsimp only at h1 h2 h3 h4 hz
  cases cell with
  | some x =>
    dsimp only
    exact ⟨by rw [h4 x rfl, hz], ⟨⟨G, hi⟩, .refl _⟩, _, hg, hz⟩
  | none =>
    dsimp only
    rw [snapshot_of_some hs]
    dsimp only
    rw [hg]
    dsimp only
    have hkeys : (restrict ms (parsedSpec db.docs)).map Prod.fst = ms := restrict_keys hm
    have hx : L.enrich (unitFrom (restrict ms (parsedSpec db.docs))) (restrict ms (vals s.parsed)) (restrict ms s.shallow) =
        enrichFrom (restrict ms (parsedSpec db.docs)) := by
      unfold enrichFrom
      rw [hso.parsed, hso.shallow, shallowFrom_restrict]
    rw [hx]
    have := set_unit_ok (ms := ms) (e := ⟨ps, u, some (enrichFrom (restrict ms (parsedSpec db.docs)))⟩) hi
      ⟨h1, h2, h3, fun x hx => by injection hx with hx; rw [← hx]; dsimp only; rw [hz]⟩ hz
    exact ⟨rfl, ⟨⟨G, this.1⟩, WithUnits.keep ⟨_, rfl⟩⟩, this.2⟩

theorem enriched_ok (hsf : ScopeFree L) {H : Nat → Option L.PolDoc} {db : Db L} (h : Inv H db) (policy : String) :
    (enriched db policy).1 = enrichSpec db.docs policy ∧ Post H db (enriched db policy).2 := by
  obtain ⟨h1, h2, h3, h4⟩ := unitOf_ok hsf h policy
  unfold enriched
  generalize unitOf db policy = R at h1 h2 h3 h4 ⊢
  obtain ⟨u, db1⟩ := R
  dsimp only at h1 h2 h3 h4 ⊢
  obtain ⟨s, hs⟩ := Option.isSome_iff_exists.1 h4
  rw [snapshot_of_some hs]
  dsimp only
  obtain ⟨G, hi⟩ := h2.inv
  rw [(hi.snap s hs).members, h1]
  have hd : db1.docs = db.docs := h2.keep.docs
  rw [← hd] at h3 ⊢
  unfold unitSpec enrichSpec
  obtain ⟨k1, k2, _⟩ := enrichedOfUnit_ok h2.inv (fun m hm => members_parsed hm) h3 h4
  exact ⟨k1, h2.trans k2⟩

theorem policySig_ok (hsf : ScopeFree L) {H : Nat → Option L.PolDoc} {db : Db L} (h : Inv H db) (policy : String) :
    (policySig db policy).1 = sigSpec db.docs policy ∧ Post H db (policySig db policy).2 := by
  obtain ⟨h1, h2, _, _⟩ := unitOf_ok hsf h policy
  unfold policySig
  generalize unitOf db policy = R at h1 h2 ⊢
  obtain ⟨u, db1⟩ := R
  dsimp only at h1 h2 ⊢
  obtain ⟨k1, k2⟩ := enriched_ok hsf h2.inv policy
  generalize enriched db1 policy = R at k1 k2 ⊢
  obtain ⟨e, db2⟩ := R
  dsimp only at k1 k2 ⊢
  obtain ⟨⟨G, hi⟩, hk, hs⟩ := snapshot_ok hsf k2.inv
  have hso := hi.snap _ hs
  refine ⟨?_, h2.trans (k2.trans ⟨⟨G, hi⟩, hk⟩)⟩
  unfold sigSpec
  rw [h1, k1, hso.members, hso.parsed, hk.docs, k2.keep.docs, h2.keep.docs]

end Zen.Ws
