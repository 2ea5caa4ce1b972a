import Verif.Workspace.Graphs
/- Histories of a workspace: what they leave, and what is answered after them. -/
namespace Zen.Ws
open Zen Zen.Policy

variable {L : Lang}

/-! ## What a history leaves -/

/-- the document a history leaves at a path -/
def finalDoc (ops : List (Op L)) (path : String) : Option (Doc L) :=
  ops.foldl (fun d op => match op with
    | .set p x => if p = path then some (docVal x) else d
    | .remove p => if p = path then none else d
    | _ => d) none

/-- the type given last to a function -/
def givenFn (ops : List (Op L)) (s : L.Source) (t : L.Ty) : Option L.Fn :=
  ops.foldl (fun d op => match op with
    | .setFn s' t' f => if L.fkey s' t' = L.fkey s t then some f else d
    | _ => d) none

/-- the resolver set last -/
def finalResolver (ops : List (Op L)) : Option (L.Source → L.Ty → L.Fn) :=
  ops.foldl (fun d op => match op with
    | .setResolver r => some r
    | _ => d) none

/-- the type of a function: the one given, or what the resolver says -/
def finalFn (ops : List (Op L)) (s : L.Source) (t : L.Ty) : Option L.Fn :=
  match givenFn ops s t with
  | some f => some f
  | none => (finalResolver ops).map fun r => r s t

/-- an `Arc` is what it is: documents at one address are the same -/
structure Coherent (ops : List (Op L)) : Prop where
  outer : ∀ p d p' d', Op.set p d ∈ ops → Op.set p' d' ∈ ops → d.addr = d'.addr → d.val = d'.val
  inner : ∀ p a x p' a' x', Op.set p ⟨a, .policy x⟩ ∈ ops → Op.set p' ⟨a', .policy x'⟩ ∈ ops → x.addr = x'.addr → x.val = x'.val

/-- the documents whenever something is asked -/
def queried : List (String × Ptr (Content L)) → List (Op L) → List (List (String × Ptr (Content L)))
  | _, [] => []
  | docs, .set p d :: ops => queried (put p d docs) ops
  | docs, .remove p :: ops => queried (del docs p) ops
  | docs, .setFn _ _ _ :: ops => queried docs ops
  | docs, .setResolver _ :: ops => queried docs ops
  | docs, .query _ :: ops => docs :: queried docs ops

/-! ## Policies -/

theorem mem_policiesOf {docs : List (String × Ptr (Content L))} {e : String × Ptr L.PolDoc} :
    e ∈ policiesOf docs ↔ ∃ a, (e.1, (⟨a, .policy e.2⟩ : Ptr (Content L))) ∈ docs := by
  unfold policiesOf
  rw [List.mem_filterMap]
  constructor
  · rintro ⟨⟨p, a, v⟩, h1, h2⟩
    cases v with
    | policy x => simp only [Option.some.injEq] at h2; subst h2; exact ⟨a, h1⟩
    | graph g => cases h2
  · rintro ⟨a, h⟩
    exact ⟨_, h, rfl⟩

theorem mem_del {V : Type} {l : List (String × V)} {k : String} {e : String × V} (h : e ∈ del l k) : e ∈ l := (List.mem_filter.1 h).1

theorem inv_empty (H : Nat → Option L.PolDoc) : Inv H ({} : Db L) :=
  ⟨fun _ => none, fun e he => (by cases he), ⟨fun e he => (by cases he), fun e he => (by cases he), fun e he => (by cases he)⟩,
    fun s hs => (by cases hs)⟩

/-- new documents -/
theorem inv_docs {H : Nat → Option L.PolDoc} {db : Db L} (h : Inv H db) {db' : Db L} (hc : db'.cache = db.cache)
    (hn : db'.next = db.next) (hs : db'.snap = none) (hd : DocsOk H (policiesOf db'.docs)) : Inv H db' := by
  obtain ⟨G, h⟩ := h
  exact ⟨G, hd, by rw [hc, hn]; exact h.cache, fun s h => by rw [hs] at h; cases h⟩

theorem removeDocument_docs {db : Db L} {path : String} : (removeDocument db path).docs = del db.docs path := by
  unfold removeDocument
  by_cases h : (get db.docs path).isSome = true
  · rw [if_pos h]; rfl
  · rw [if_neg h]
    unfold del
    symm
    rw [List.filter_eq_self]
    intro e he
    rw [get_isSome] at h
    simp only [decide_eq_true_eq]
    rintro rfl
    exact h (List.mem_map_of_mem he)

/-- what holds of policies after any history -/
structure PInv (H : Nat → Option L.PolDoc) (db : Db L) : Prop where
  inv : Inv H db
  sorted : Sorted db.docs

theorem answer_docs {db : Db L} {H : Nat → Option L.PolDoc} (hsf : ScopeFree L) (h : Inv H db) (q : Query) :
    (answer db q).2.docs = db.docs := (answer_keeps hsf h q).2

theorem step_pinv (hsf : ScopeFree L) {H : Nat → Option L.PolDoc} {db : Db L} (h : PInv H db) (op : Op L)
    (hop : ∀ p a x, op = .set p ⟨a, .policy x⟩ → H x.addr = some x.val) : PInv H (step db op) := by
  obtain ⟨hi, hs⟩ := h
  have hd : DocsOk H (policiesOf db.docs) := let ⟨_, h⟩ := hi; h.docs
  cases op with
  | set p d =>
    refine ⟨inv_docs hi rfl rfl rfl ?_, sorted_put hs⟩
    intro e he
    obtain ⟨a, ha⟩ := mem_policiesOf.1 he
    rcases mem_put ha with h1 | h1
    · injection h1 with h2 h3
      subst h3
      exact hop p a e.2 rfl
    · exact hd e (mem_policiesOf.2 ⟨a, h1⟩)
  | remove p =>
    refine ⟨?_, by show Sorted (removeDocument db p).docs; rw [removeDocument_docs]; exact sorted_del hs⟩
    show Inv H (removeDocument db p)
    unfold removeDocument
    by_cases h : (get db.docs p).isSome = true
    · rw [if_pos h]
      refine inv_docs hi rfl rfl rfl ?_
      intro e he
      obtain ⟨a, ha⟩ := mem_policiesOf.1 he
      exact hd e (mem_policiesOf.2 ⟨a, mem_del ha⟩)
    · rw [if_neg h]; exact hi
  | setFn s t f => exact ⟨inv_docs hi rfl rfl rfl hd, hs⟩
  | setResolver r => exact ⟨inv_docs hi rfl rfl rfl hd, hs⟩
  | query q => exact ⟨(answer_keeps hsf hi q).1, by show Sorted (answer db q).2.docs; rw [answer_docs hsf hi]; exact hs⟩

theorem run_append (db : Db L) (a b : List (Op L)) : run db (a ++ b) = run (run db a) b := by
  induction a generalizing db with
  | nil => rfl
  | cons op a ih => exact ih (step db op)

theorem run_pinv (hsf : ScopeFree L) {H : Nat → Option L.PolDoc} : ∀ (ops : List (Op L)) {db : Db L}, PInv H db →
    (∀ p a x, Op.set p ⟨a, .policy x⟩ ∈ ops → H x.addr = some x.val) → PInv H (run db ops)
  | [], _, h, _ => h
  | op :: ops, _, h, ho => run_pinv hsf ops (step_pinv hsf h op fun p a x e => ho p a x (by simp [e]))
      fun p a x e => ho p a x (by simp [e])

/-- the heap of policies -/
theorem Coherent.polHeap {ops : List (Op L)} (h : Coherent ops) :
    ∃ H : Nat → Option L.PolDoc, ∀ p a x, Op.set p ⟨a, .policy x⟩ ∈ ops → H x.addr = some x.val := by
  classical
  refine ⟨fun n => if hx : ∃ x : Ptr L.PolDoc, x.addr = n ∧ ∃ p a, Op.set p ⟨a, .policy x⟩ ∈ ops then some hx.choose.val else none, ?_⟩
  intro p a x hm
  have hx : ∃ y : Ptr L.PolDoc, y.addr = x.addr ∧ ∃ p a, Op.set p ⟨a, .policy y⟩ ∈ ops := ⟨x, rfl, p, a, hm⟩
  dsimp only
  rw [dif_pos hx]
  obtain ⟨h1, p', a', h2⟩ := hx.choose_spec
  rw [h.inner _ _ _ _ _ _ h2 hm h1]

/-- the heap of documents -/
theorem Coherent.docHeap {ops : List (Op L)} (h : Coherent ops) :
    ∃ H : Nat → Option (Content L), ∀ p d, Op.set p d ∈ ops → H d.addr = some d.val := by
  classical
  refine ⟨fun n => if hx : ∃ x : Ptr (Content L), x.addr = n ∧ ∃ p, Op.set p x ∈ ops then some hx.choose.val else none, ?_⟩
  intro p x hm
  have hx : ∃ y : Ptr (Content L), y.addr = x.addr ∧ ∃ p, Op.set p y ∈ ops := ⟨x, rfl, p, hm⟩
  dsimp only
  rw [dif_pos hx]
  obtain ⟨h1, p', h2⟩ := hx.choose_spec
  rw [h.outer _ _ _ _ h2 hm h1]

theorem run_docs (hsf : ScopeFree L) {H : Nat → Option L.PolDoc} (path : String) : ∀ (ops : List (Op L)) {db : Db L}, PInv H db →
    (∀ p a x, Op.set p ⟨a, .policy x⟩ ∈ ops → H x.addr = some x.val) →
    docAt (run db ops).docs path = ops.foldl (fun d op => match op with
      | .set p x => if p = path then some (docVal x) else d
      | .remove p => if p = path then none else d
      | _ => d) (docAt db.docs path)
  | [], _, _, _ => rfl
  | op :: ops, db, h, ho => by
    have hs := step_pinv hsf h op fun p a x e => ho p a x (by simp [e])
    rw [run, run_docs hsf path ops hs fun p a x e => ho p a x (by simp [e]), List.foldl_cons]
    congr 1
    cases op with
    | set p d =>
      show docAt (put p d db.docs) path = _
      unfold docAt
      rw [get_put _ _ _ _ h.sorted]
      by_cases hp : p = path <;> simp [hp]
    | remove p =>
      show docAt (removeDocument db p).docs path = _
      rw [removeDocument_docs]
      unfold docAt
      rw [get_del]
      by_cases hp : p = path <;> simp [hp]
    | setFn => rfl
    | setResolver => rfl
    | query q => exact congrArg (docAt · path) (answer_docs hsf h.inv q)

/-- a question about policies: about a path that is not that of a graph -/
def Query.aboutPolicies (q : Query) (docs : String → Option (Doc L)) : Prop := match q with
  | .graph _ => False
  | .diagnostics p => (docs p).bind Doc.gr = none
  | _ => True

/-- what is answered about policies -/
def policyAnswer (docs : List (String × Ptr (Content L))) : Query → Option (Answer L)
  | .parsed p => some (.parsed (get (parsedSpec docs) p))
  | .shallow p => some (.shallow (get (shallowFrom (parsedSpec docs)) p))
  | .members p => some (.members (membersSpec docs p))
  | .unit p => some (.unit (unitSpec docs p))
  | .enriched p => some (.enriched (enrichSpec docs p))
  | .diagnostics p => some (.diagnostics (diagSpec docs p))
  | .graph _ => none

theorem answer_policies (hsf : ScopeFree L) {H : Nat → Option L.PolDoc} {db : Db L} (h : PInv H db) {q : Query}
    (hq : q.aboutPolicies (docAt db.docs)) : some (answer db q).1 = policyAnswer db.docs q := by
  have snap := snapshot_ok hsf h.inv
  obtain ⟨⟨G, hi⟩, hk, hs⟩ := snap
  have hso := hi.snap _ hs
  rw [hk.docs] at hso
  cases q with
  | parsed p =>
    simp only [answer, policyAnswer]
    rw [← hso.parsed, get_vals]
  | shallow p =>
    simp only [answer, policyAnswer]
    rw [hso.shallow]
  | members p =>
    simp only [answer, policyAnswer]
    rw [hso.members]
  | unit p =>
    simp only [answer, policyAnswer]
    rw [(unitOf_ok hsf h.inv p).1]
  | enriched p =>
    simp only [answer, policyAnswer]
    rw [(enriched_ok hsf h.inv p).1]
  | diagnostics p =>
    simp only [answer, policyAnswer]
    rw [(policyDiagnostics_ok hsf h.inv p).2 (by rw [get_graphsOf h.sorted]; exact hq)]
  | graph p => exact absurd hq (fun h => h)

theorem policyAnswer_congr {a b : List (String × Ptr (Content L))} (h : world a = world b) (q : Query) :
    policyAnswer a q = policyAnswer b q := by
  obtain ⟨h1, _, _⟩ := specs_congr h
  cases q with
  | parsed p => simp only [policyAnswer, h1]
  | shallow p => simp only [policyAnswer, h1]
  | members p => simp only [policyAnswer, membersSpec_congr h1]
  | unit p => simp only [policyAnswer, unitSpec_congr h1]
  | enriched p => simp only [policyAnswer, enrichSpec_congr h1]
  | diagnostics p => simp only [policyAnswer, diagSpec_congr h]
  | graph p => rfl

/-! ## Graphs -/

/-- no resolver is set once something was asked -/
def EarlyResolver (ops : List (Op L)) : Prop :=
  ∃ pre rest, ops = pre ++ rest ∧ (∀ q, Op.query q ∉ pre) ∧ ∀ r, Op.setResolver r ∉ rest

/-- everything may be read -/
def All {α : Type} : α → Prop := fun _ => True

/-- what holds of graphs after a history -/
structure HInv (H : Nat → Option L.PolDoc) (H₁ : Nat → Option (Content L)) (past : List (List (String × Ptr (Content L))))
    (db : Db L) : Prop where
  inv : PInv H db
  entries : ∀ e ∈ db.cache.graphs, EntryInv past db.resolver e
  heap : HeapOk H₁ db.docs
  stack : db.stack = []
  frames : db.frames = []
  diags : ∀ s, db.snap = some s → ∀ p d, get s.diags p = some d → (get (graphsOf db.docs) p).isSome →
    ∃ n a, Ana db.docs (fans db) All All n p a ∧ d = L.anaDiag a

theorem EntryInv.mono {past past' : List (List (String × Ptr (Content L)))} {res : Option (L.Source → L.Ty → L.Fn)}
    {e : String × (Deps L × L.Ana)} (h : EntryInv past res e) (hp : ∀ w ∈ past, w ∈ past') : EntryInv past' res e :=
  let ⟨w, hw, h⟩ := h; ⟨w, hp w hw, h⟩

/-- what is answered about a graph is right -/
def GraphAnswer (db : Db L) : Query → Answer L → Prop
  | .graph p, .graph o => ((get (graphsOf db.docs) p).isSome → ∃ n a, Ana db.docs (fans db) All All n p a ∧ o = some a) ∧
    (get (graphsOf db.docs) p = none → o = none)
  | .diagnostics p, .diagnostics d => (get (graphsOf db.docs) p).isSome → ∃ n a, Ana db.docs (fans db) All All n p a ∧ d = L.anaDiag a
  | _, _ => True

/-- the laws the parameters are assumed to obey -/
structure Laws (L : Lang) : Prop where
  sf : ScopeFree L
  key : KeyInj L
  stamp : StampInj L

theorem Ana.all {docs : List (String × Ptr (Content L))} {φ : L.Source → L.Ty → Option L.Fn} {D : String → Prop} {F : L.Key → Prop}
    {n : Nat} {p : String} {a : L.Ana} (h : Ana docs φ D F n p a) : Ana docs φ All All n p a :=
  h.mono (fun _ _ => trivial) (fun _ _ => trivial) (Nat.le_refl _)

theorem ext_nil {φ : L.Source → L.Ty → Option L.Fn} {fr : List (List String × List (L.Key × L.Stamp))} {D : String → Prop}
    {F : L.Key → Prop} (h : Ext φ [] fr D F) : fr = [] := by
  rcases h with ⟨_, h⟩ | ⟨_, _, _, h, _⟩
  · exact h
  · cases h

/-- a step of an analysis, done -/
theorem GStep.hinv {H : Nat → Option L.PolDoc} {H₁ : Nat → Option (Content L)} {past past' : List (List (String × Ptr (Content L)))}
    {db db' : Db L} {D : String → Prop} {F : L.Key → Prop} (g : GStep H past' db db' D F) (h : HInv H H₁ past db) :
    HInv H H₁ past' db' := by
  refine ⟨⟨g.st.inv, by rw [g.docs]; exact h.inv.sorted⟩, g.st.entries, by rw [g.docs]; exact h.heap, g.stack.trans h.stack,
    ext_nil (h.frames ▸ g.ext), ?_⟩
  intro s' hs' p d hd hg
  rw [g.docs] at hg ⊢
  rw [g.fans]
  rcases g.diags s' hs' with h' | ⟨s, h1, h2⟩
  · rw [h'] at hd; cases hd
  · exact h.diags s h1 p d (h2 ▸ hd) hg

theorem answer_hinv (hL : Laws L) {H : Nat → Option L.PolDoc} {H₁ : Nat → Option (Content L)}
    {past : List (List (String × Ptr (Content L)))} {db : Db L} (h : HInv H H₁ past db)
    (hpast : ∀ w ∈ past, Sorted w ∧ HeapOk H₁ w ∧ SteadyTo w db.docs) {rank : String → Nat} (hr : Ranked db.docs rank) (q : Query) :
    HInv H H₁ (db.docs :: past) (answer db q).2 ∧ GraphAnswer db q (answer db q).1 ∧ fans (answer db q).2 = fans db ∧
      (answer db q).2.resolver = db.resolver := by
  have hC : Ctx.Ok (⟨H, H₁, db.docs :: past, db.docs, rank⟩ : Ctx L) := by
    refine ⟨hL.sf, hL.key, hL.stamp, h.inv.sorted, h.heap, by simp, ?_, hr⟩
    intro w hw
    rcases List.mem_cons.1 hw with rfl | hw
    · exact ⟨h.inv.sorted, h.heap, fun _ _ _ _ => Iff.rfl⟩
    · exact hpast w hw
  have hst : St H (db.docs :: past) db := ⟨h.inv.inv, fun e he => (h.entries e he).mono fun w hw => by simp [hw]⟩
  -- questions about policies
  have pol : ∀ {db' : Db L}, Inv H db' → Keep db db' → HInv H H₁ (db.docs :: past) db' ∧ fans db' = fans db ∧ db'.resolver = db.resolver :=
    fun hi hk => ⟨(gstep_of_keep hst hi hk).hinv h, (gstep_of_keep hst hi hk).fans, hk.resolver⟩
  have snap := snapshot_ok hL.sf h.inv.inv
  -- questions about a graph
  have gr : ∀ (db1 : Db L) (p : String), St H (db.docs :: past) db1 → db1.docs = db.docs → db1.stack = [] →
      (get (graphsOf db.docs) p).isSome → ∃ a n D F, (graphAnalysisTop db1 p).1 = some a ∧
        GStep H (db.docs :: past) db1 (graphAnalysisTop db1 p).2 D F ∧ Ana db.docs (fans db1) D F n p a := by
    intro db1 p h1 h2 h3 hg
    have := graphAnalysis_ok hC (db1.docs.length + 1) p db1 ⟨h1, h2, hg, by rw [h3]; simp, by rw [h3]; simp, by rw [h3]; simp,
      by rw [h2]; dsimp only; omega⟩
    obtain ⟨a, n, D, F, e1, e2, e3⟩ := this
    exact ⟨a, n, D, F, e1, e2, e3⟩
  cases q with
  | parsed p => obtain ⟨a, b, c⟩ := pol snap.inv snap.keep; exact ⟨a, trivial, b, c⟩
  | shallow p => obtain ⟨a, b, c⟩ := pol snap.inv snap.keep; exact ⟨a, trivial, b, c⟩
  | members p => obtain ⟨a, b, c⟩ := pol snap.inv snap.keep; exact ⟨a, trivial, b, c⟩
  | unit p =>
    have hu := (unitOf_ok hL.sf h.inv.inv p).2.1
    obtain ⟨a, b, c⟩ := pol hu.inv hu.keep; exact ⟨a, trivial, b, c⟩
  | enriched p =>
    have hu := (enriched_ok hL.sf h.inv.inv p).2
    obtain ⟨a, b, c⟩ := pol hu.inv hu.keep; exact ⟨a, trivial, b, c⟩
  | graph p =>
    by_cases hg : (get (graphsOf db.docs) p).isSome = true
    · obtain ⟨a, n, D, F, e1, e2, e3⟩ := gr db p hst rfl h.stack hg
      simp only [answer]
      refine ⟨e2.hinv h, ⟨fun _ => ⟨n, a, e3.all, e1⟩, fun hn => ?_⟩, e2.fans, e2.resolver⟩
      rw [hn] at hg; cases hg
    · have hgn : get (graphsOf db.docs) p = none := by
        cases hx : get (graphsOf db.docs) p with
        | none => rfl
        | some _ => rw [hx] at hg; exact absurd rfl hg
      have hans : graphAnalysisTop db p = (none, (snapshot db).2) := by
        unfold graphAnalysisTop graphAnalysis
        obtain ⟨⟨G, hi⟩, hk, hs⟩ := snap
        have hso := hi.snap _ hs
        rw [hk.docs] at hso
        dsimp only
        rw [hso.graphs, hgn]
      simp only [answer]
      rw [hans]
      obtain ⟨a, b, c⟩ := pol snap.inv snap.keep
      exact ⟨a, ⟨fun hg' => absurd hg' hg, fun _ => rfl⟩, b, c⟩
  | diagnostics p =>
    have key : HInv H H₁ (db.docs :: past) (policyDiagnostics db p).2 ∧
        ((get (graphsOf db.docs) p).isSome → ∃ n a, Ana db.docs (fans db) All All n p a ∧ (policyDiagnostics db p).1 = L.anaDiag a) ∧
        fans (policyDiagnostics db p).2 = fans db ∧ (policyDiagnostics db p).2.resolver = db.resolver := by
      have hinvP := (policyDiagnostics_ok hL.sf h.inv.inv p).1
      unfold policyDiagnostics at hinvP ⊢
      obtain ⟨⟨G, hi⟩, hk, hs⟩ := snap
      generalize snapshot db = S at hi hk hs hinvP ⊢
      obtain ⟨s, db1⟩ := S
      dsimp only at hi hk hs hinvP ⊢
      have g1 := gstep_of_keep hst ⟨G, hi⟩ hk
      have h1 := g1.hinv h
      have hso := hi.snap s hs
      rw [hk.docs] at hso
      cases hd : get s.diags p with
      | some d =>
        refine ⟨h1, fun hg => ?_, g1.fans, g1.resolver⟩
        obtain ⟨n, a, e1, e2⟩ := h1.diags s hs p d hd (by rw [g1.docs]; exact hg)
        rw [g1.docs, g1.fans] at e1
        exact ⟨n, a, e1, e2⟩
      | none =>
        dsimp only
        rw [hd] at hinvP
        dsimp only at hinvP
        -- writing into the diagnostics
        have write : ∀ (d : L.Diag) (db2 : Db L) (D : String → Prop) (F : L.Key → Prop), GStep H (db.docs :: past) db db2 D F →
            Inv H (modSnap db2 fun s => { s with diags := set s.diags p d }) →
            ((get (graphsOf db.docs) p).isSome → ∃ n a, Ana db.docs (fans db) All All n p a ∧ d = L.anaDiag a) →
            HInv H H₁ (db.docs :: past) (modSnap db2 fun s => { s with diags := set s.diags p d }) := by
          intro d db2 D F g2 hi2 hdd
          have h2 := g2.hinv h
          refine ⟨⟨hi2, h2.inv.sorted⟩, h2.entries, h2.heap, h2.stack, h2.frames, ?_⟩
          intro s' hs' p' d' hd' hg'
          obtain ⟨s2, h3, rfl⟩ := Option.map_eq_some_iff.1 hs'
          dsimp only at hd'
          rw [get_set] at hd'
          by_cases hpp : p = p'
          · subst hpp
            rw [if_pos rfl] at hd'
            injection hd' with hd'
            subst hd'
            have : (get (graphsOf db.docs) p).isSome := by rw [← g2.docs]; exact hg'
            obtain ⟨n, a, e1, e2⟩ := hdd this
            rw [← g2.docs, ← g2.fans] at e1
            exact ⟨n, a, e1, e2⟩
          · rw [if_neg hpp] at hd'
            exact h2.diags s2 h3 p' d' hd' hg'
        rw [hso.graphs] at hinvP ⊢
        by_cases hg : (get (graphsOf db.docs) p).isSome = true
        · rw [if_pos hg] at hinvP ⊢
          obtain ⟨a, n, D, F, e1, e2, e3⟩ := gr db1 p g1.st g1.docs (g1.stack.trans h.stack) hg
          generalize graphAnalysisTop db1 p = R at e1 e2 hinvP ⊢
          obtain ⟨o, db2⟩ := R
          dsimp only at e1 e2
          subst e1
          dsimp only at hinvP ⊢
          rw [g1.fans] at e3
          have g2 := g1.trans e2
          exact ⟨write _ _ _ _ g2 hinvP.1 fun _ => ⟨n, a, e3.all, rfl⟩, fun _ => ⟨n, a, e3.all, rfl⟩, g2.fans, g2.resolver⟩
        · rw [if_neg hg] at hinvP ⊢
          have u2 := (unitOf_ok hL.sf g1.st.inv p).2.1
          generalize unitOf db1 p = R at u2 hinvP ⊢
          obtain ⟨u, db2⟩ := R
          dsimp only at u2 hinvP ⊢
          have e2 := (enriched_ok hL.sf u2.inv p).2
          generalize enriched db2 p = R at e2 hinvP ⊢
          obtain ⟨e, db3⟩ := R
          dsimp only at e2 hinvP ⊢
          have g2 := g1.trans ((gstep_of_keep g1.st u2.inv u2.keep).trans
            (gstep_of_keep (gstep_of_keep g1.st u2.inv u2.keep).st e2.inv e2.keep))
          exact ⟨write _ _ _ _ g2 hinvP.1 fun h => absurd h hg, fun h => absurd h hg, g2.fans, g2.resolver⟩
    exact ⟨key.1, key.2.1, key.2.2⟩

/-- what is required of a history -/
structure Settled (ops : List (Op L)) : Prop where
  coherent : Coherent ops
  early : EarlyResolver ops
  ranked : ∀ w ∈ queried [] ops, ∃ rank, Ranked w rank
  steady : (queried [] ops).Pairwise SteadyTo

theorem fans_setFn (db : Db L) (s : L.Source) (t : L.Ty) (f : L.Fn) (s' : L.Source) (t' : L.Ty) :
    fans (setFunctionType db s t f) s' t' = if L.fkey s t = L.fkey s' t' then some f else fans db s' t' := by
  unfold fans setFunctionType invalidate
  dsimp only
  rw [get_set]
  by_cases h : L.fkey s t = L.fkey s' t'
  · rw [if_pos h, if_pos h]
  · rw [if_neg h, if_neg h]

/-- before anything is asked -/
theorem run_quiet : ∀ (pre : List (Op L)) (db : Db L),
    (∀ q, Op.query q ∉ pre) → db.cache = {} → db.snap = none → db.stack = [] → db.frames = [] →
    (run db pre).cache = {} ∧ (run db pre).snap = none ∧ (run db pre).stack = [] ∧ (run db pre).frames = [] ∧
      queried db.docs pre = [] ∧ (run db pre).docs = pre.foldl (fun d op => match op with
        | .set p x => put p x d
        | .remove p => del d p
        | _ => d) db.docs
  | [], _, _, h1, h2, h3, h4 => ⟨h1, h2, h3, h4, rfl, rfl⟩
  | op :: pre, db, hq, h1, h2, h3, h4 => by
    have hq' : ∀ q, Op.query q ∉ pre := fun q h => hq q (by simp [h])
    rw [run]
    cases op with
    | set p d => exact run_quiet pre _ hq' h1 rfl h3 h4
    | remove p =>
      have e1 : (removeDocument db p).cache = {} := by unfold removeDocument; split <;> exact h1
      have e2 : (removeDocument db p).snap = none := by unfold removeDocument; split; rfl; exact h2
      have e3 : (removeDocument db p).stack = [] := by unfold removeDocument; split <;> exact h3
      have e4 : (removeDocument db p).frames = [] := by unfold removeDocument; split <;> exact h4
      have := run_quiet pre (removeDocument db p) hq' e1 e2 e3 e4
      rw [removeDocument_docs] at this
      exact this
    | setFn s t f => exact run_quiet pre _ hq' h1 rfl h3 h4
    | setResolver r => exact run_quiet pre _ hq' h1 rfl h3 h4
    | query q => exact absurd (by simp) (hq q)

/-- a function type given, as an operation on what is known -/
def fnStep (s : L.Source) (t : L.Ty) (d : Option L.Fn) (op : Op L) : Option L.Fn := match op with
  | .setFn s' t' f => if L.fkey s' t' = L.fkey s t then some f else d
  | _ => d

theorem givenFn_eq (ops : List (Op L)) (s : L.Source) (t : L.Ty) : givenFn ops s t = ops.foldl (fnStep s t) none := rfl

theorem foldl_fnStep (s : L.Source) (t : L.Ty) (R : Option L.Fn) : ∀ (ops : List (Op L)) (d : Option L.Fn),
    ops.foldl (fnStep s t) (d.or R) = (ops.foldl (fnStep s t) d).or R
  | [], _ => rfl
  | op :: ops, d => by
    rw [List.foldl_cons, List.foldl_cons, ← foldl_fnStep s t R ops]
    congr 1
    cases op with
    | setFn s' t' f =>
      simp only [fnStep]
      split <;> rfl
    | _ => rfl

theorem fans_or (db : Db L) (s : L.Source) (t : L.Ty) : fans db s t = (get db.fns (L.fkey s t)).or (db.resolver.map fun r => r s t) := by
  unfold fans; cases get db.fns (L.fkey s t) <;> rfl

theorem finalFn_or (ops : List (Op L)) (s : L.Source) (t : L.Ty) :
    finalFn ops s t = (givenFn ops s t).or ((finalResolver ops).map fun r => r s t) := by
  unfold finalFn; cases givenFn ops s t <;> rfl

theorem run_quiet_fns (s : L.Source) (t : L.Ty) : ∀ (pre : List (Op L)) (db : Db L), (∀ q, Op.query q ∉ pre) →
    get (run db pre).fns (L.fkey s t) = pre.foldl (fnStep s t) (get db.fns (L.fkey s t)) ∧
      (run db pre).resolver = pre.foldl (fun d op => match op with
        | .setResolver r => some r
        | _ => d) db.resolver
  | [], _, _ => ⟨rfl, rfl⟩
  | op :: pre, db, hq => by
    have hq' : ∀ q, Op.query q ∉ pre := fun q h => hq q (by simp [h])
    rw [run]
    obtain ⟨h1, h2⟩ := run_quiet_fns s t pre (step db op) hq'
    rw [h1, h2, List.foldl_cons, List.foldl_cons]
    cases op with
    | set p d => exact ⟨rfl, rfl⟩
    | remove p =>
      have e1 : (step db (.remove p)).fns = db.fns := by simp only [step]; unfold removeDocument; split <;> rfl
      have e2 : (step db (.remove p)).resolver = db.resolver := by simp only [step]; unfold removeDocument; split <;> rfl
      rw [e1, e2]
      exact ⟨rfl, rfl⟩
    | setFn s' t' f =>
      refine ⟨?_, rfl⟩
      congr 1
      simp only [step, setFunctionType, invalidate, fnStep]
      rw [get_set]
    | setResolver r => exact ⟨rfl, rfl⟩
    | query q => exact absurd (by simp) (hq q)

theorem mem_queried_append {docs : List (String × Ptr (Content L))} : ∀ (a b : List (Op L)),
    queried docs (a ++ b) = queried docs a ++ queried (a.foldl (fun d op => match op with
        | .set p x => put p x d
        | .remove p => del d p
        | _ => d) docs) b := by
  intro a
  induction a generalizing docs with
  | nil => intro b; rfl
  | cons op a ih =>
    intro b
    cases op with
    | set p d => exact ih b
    | remove p => exact ih b
    | setFn => exact ih b
    | setResolver => exact ih b
    | query q => exact congrArg (docs :: ·) (ih b)

/-- A history goes on, and something is asked. -/
theorem run_graphAnswer (hL : Laws L) {H : Nat → Option L.PolDoc} {H₁ : Nat → Option (Content L)} (q : Query) :
    ∀ (rest : List (Op L)) (db : Db L) (past : List (List (String × Ptr (Content L)))), HInv H H₁ past db →
      (∀ w ∈ past, Sorted w ∧ HeapOk H₁ w) → (∀ r, Op.setResolver r ∉ rest) →
      (∀ p a x, Op.set p ⟨a, .policy x⟩ ∈ rest → H x.addr = some x.val) → (∀ p d, Op.set p d ∈ rest → H₁ d.addr = some d.val) →
      (∀ w ∈ queried db.docs (rest ++ [.query q]), ∃ rank, Ranked w rank) →
      (∀ w ∈ past, ∀ w' ∈ queried db.docs (rest ++ [.query q]), SteadyTo w w') →
      (queried db.docs (rest ++ [.query q])).Pairwise SteadyTo →
      GraphAnswer (run db rest) q (answer (run db rest) q).1 ∧
        ∀ s t, fans (run db rest) s t = rest.foldl (fnStep s t) (fans db s t)
  | [], db, past, h, hp, _, _, _, hr, hs, _ => by
    obtain ⟨rank, hrank⟩ := hr db.docs (by simp [queried])
    exact ⟨(answer_hinv hL h (fun w hw => ⟨(hp w hw).1, (hp w hw).2, hs w hw db.docs (by simp [queried])⟩) hrank q).2.1, fun _ _ => rfl⟩
  | op :: rest, db, past, h, hp, hres, hH, hH₁, hr, hs, hpw => by
    have hres' : ∀ r, Op.setResolver r ∉ rest := fun r h => hres r (by simp [h])
    have hH' : ∀ p a x, Op.set p ⟨a, .policy x⟩ ∈ rest → H x.addr = some x.val := fun p a x h => hH p a x (by simp [h])
    have hH₁' : ∀ p d, Op.set p d ∈ rest → H₁ d.addr = some d.val := fun p d h => hH₁ p d (by simp [h])
    have hpi := step_pinv hL.sf h.inv op fun p a x e => hH p a x (by simp [e])
    rw [run]
    -- no question: entries stay, the snapshot goes
    have other : (step db op).cache = db.cache → (step db op).snap = none → (step db op).resolver = db.resolver →
        HeapOk H₁ (step db op).docs → (step db op).stack = db.stack → (step db op).frames = db.frames → HInv H H₁ past (step db op) :=
      fun e1 e2 e3 e4 e5 e6 => ⟨hpi, by rw [e1, e3]; exact h.entries, e4, e5.trans h.stack, e6.trans h.frames,
        fun s hs => by rw [e2] at hs; cases hs⟩
    cases op with
    | set p d =>
      have := other rfl rfl rfl (by
        intro e he
        rcases mem_put he with rfl | he
        · exact hH₁ p d (by simp)
        · exact h.heap e he) rfl rfl
      exact run_graphAnswer hL q rest _ past this hp hres' hH' hH₁' hr hs hpw
    | remove p =>
      have hd : (step db (.remove p)).docs = del db.docs p := removeDocument_docs
      have hf : fans (step db (.remove p)) = fans db := by simp only [step]; unfold removeDocument; split <;> rfl
      have hi : HInv H H₁ past (step db (.remove p)) := by
        simp only [step] at other hpi ⊢
        unfold removeDocument at other hpi ⊢
        by_cases hg : (get db.docs p).isSome = true
        · rw [if_pos hg] at other hpi ⊢
          exact other rfl rfl rfl (fun e he => h.heap e (mem_del he)) rfl rfl
        · rw [if_neg hg]; exact h
      have := run_graphAnswer hL q rest _ past hi hp hres' hH' hH₁' (by rw [hd]; exact hr) (by rw [hd]; exact hs) (by rw [hd]; exact hpw)
      refine ⟨this.1, fun s t => ?_⟩
      rw [this.2, hf]; rfl
    | setFn s' t' f =>
      have := run_graphAnswer hL q rest _ past (other rfl rfl rfl h.heap rfl rfl) hp hres' hH' hH₁' hr hs hpw
      refine ⟨this.1, fun s t => ?_⟩
      rw [this.2, List.foldl_cons]
      congr 1
      exact fans_setFn db s' t' f s t
    | setResolver r => exact absurd (by simp) (hres r)
    | query q' =>
      obtain ⟨rank, hrank⟩ := hr db.docs (by simp [queried])
      obtain ⟨h1, _, h3, h4⟩ := answer_hinv hL h (fun w hw => ⟨(hp w hw).1, (hp w hw).2, hs w hw db.docs (by simp [queried])⟩) hrank q'
      have hd : (step db (.query q')).docs = db.docs := answer_docs hL.sf h.inv.inv q'
      have hpw' := List.pairwise_cons.1 (show (db.docs :: queried db.docs (rest ++ [.query q])).Pairwise SteadyTo from hpw)
      have := run_graphAnswer hL q rest _ _ h1 (by
        intro w hw
        rcases List.mem_cons.1 hw with rfl | hw
        · exact ⟨h.inv.sorted, h.heap⟩
        · exact hp w hw) hres' hH' hH₁' (by
          intro w hw; rw [show (answer db q').2.docs = db.docs from hd] at hw; exact hr w (List.mem_cons_of_mem _ hw)) (by
          intro w hw w' hw'
          rw [show (answer db q').2.docs = db.docs from hd] at hw'
          rcases List.mem_cons.1 hw with rfl | hw
          · exact hpw'.1 w' hw'
          · exact hs w hw w' (List.mem_cons_of_mem _ hw')) (by rw [show (answer db q').2.docs = db.docs from hd]; exact hpw'.2)
      refine ⟨this.1, fun s t => ?_⟩
      show fans (run (answer db q').2 rest) s t = _
      rw [this.2, h3]; rfl

/-- After a settled history, what is said about a graph is its analysis, for the documents and the types of functions
left by the history. -/
theorem settled_answer (hL : Laws L) {ops : List (Op L)} {q : Query} (h : Settled (ops ++ [.query q])) :
    GraphAnswer (run {} ops) q (answer (run {} ops) q).1 ∧ fans (run {} ops) = finalFn ops ∧ Sorted (run {} ops).docs ∧
      ∀ p, docAt (run {} ops).docs p = finalDoc ops p := by
  obtain ⟨H, hH⟩ := h.coherent.polHeap
  obtain ⟨H₁, hH₁⟩ := h.coherent.docHeap
  have hH' : ∀ p a x, Op.set p ⟨a, .policy x⟩ ∈ ops → H x.addr = some x.val := fun p a x hm => hH p a x (by simp [hm])
  have p0 : PInv H ({} : Db L) := ⟨inv_empty H, List.Pairwise.nil⟩
  have hp := run_pinv hL.sf ops p0 hH'
  have hdocs : ∀ p, docAt (run {} ops).docs p = finalDoc ops p := fun p => run_docs hL.sf p ops p0 hH'
  obtain ⟨pre, rest, heq, hpre, hrest⟩ := h.early
  -- the question is in the rest
  obtain ⟨rest0, rfl, rfl⟩ : ∃ rest0, rest = rest0 ++ [.query q] ∧ ops = pre ++ rest0 := by
    rcases List.eq_nil_or_concat rest with rfl | ⟨r, x, rfl⟩
    · rw [List.append_nil] at heq
      exact absurd (by rw [← heq]; simp) (hpre q)
    · rw [List.concat_eq_append, ← List.append_assoc] at heq
      obtain ⟨h1, h2⟩ := List.append_inj' heq rfl
      injection h2 with h2
      subst h2
      exact ⟨r, by rw [List.concat_eq_append], h1⟩
  obtain ⟨e1, e2, e3, e4, e5, e6⟩ := run_quiet pre ({} : Db L) hpre rfl rfl rfl rfl
  have hpp : PInv H (run {} pre) := run_pinv hL.sf pre p0 fun p a x hm => hH p a x (by simp [hm])
  have hheap : ∀ (l : List (Op L)) (db : Db L), HeapOk H₁ db.docs → (∀ q, Op.query q ∉ l) → (∀ p d, Op.set p d ∈ l → H₁ d.addr = some d.val) →
      HeapOk H₁ (run db l).docs := by
    intro l
    induction l with
    | nil => exact fun _ h _ _ => h
    | cons op l ih =>
      intro db hd hq hl
      rw [run]
      refine ih _ ?_ (fun q h => hq q (by simp [h])) fun p d h => hl p d (by simp [h])
      cases op with
      | set p d =>
        intro e he
        rcases mem_put he with rfl | he
        · exact hl p d (by simp)
        · exact hd e he
      | remove p =>
        intro e he
        rw [show (step db (.remove p)).docs = del db.docs p from removeDocument_docs] at he
        exact hd e (mem_del he)
      | setFn => exact hd
      | setResolver => exact hd
      | query q => exact absurd (by simp) (hq q)
  have hi : HInv H H₁ [] (run {} pre) := by
    refine ⟨hpp, (by rw [e1]; intro e he; cases he), ?_, e3, e4, (by rw [e2]; intro s hs; cases hs)⟩
    exact hheap pre {} (fun e he => by cases he) hpre fun p d hm => hH₁ p d (by simp [hm])
  have hqd : queried [] ((pre ++ rest0) ++ [.query q]) = queried (run {} pre).docs (rest0 ++ [.query q]) := by
    rw [List.append_assoc, mem_queried_append, e6, show queried [] pre = [] from e5]
    rfl
  have hfin := run_graphAnswer hL q rest0 (run {} pre) [] hi (fun w hw => by cases hw) (fun r hr => hrest r (by simp [hr]))
    (fun p a x hm => hH p a x (by simp [hm])) (fun p d hm => hH₁ p d (by simp [hm]))
    (by rw [← hqd]; exact h.ranked) (fun w hw => by cases hw) (by rw [← hqd]; exact h.steady)
  rw [run_append] at hp hdocs ⊢
  refine ⟨hfin.1, ?_, hp.sorted, hdocs⟩
  funext s t
  obtain ⟨f1, f2⟩ := run_quiet_fns s t pre ({} : Db L) hpre
  rw [hfin.2, fans_or, f1, f2, foldl_fnStep, finalFn_or, givenFn_eq, List.foldl_append]
  congr 2
  unfold finalResolver
  rw [List.foldl_append]
  have hno : ∀ (l : List (Op L)), (∀ r, Op.setResolver r ∉ l) → ∀ d : Option (L.Source → L.Ty → L.Fn),
      l.foldl (fun d op => match op with
        | .setResolver r => some r
        | _ => d) d = d := by
    intro l
    induction l with
    | nil => exact fun _ _ => rfl
    | cons op l ih =>
      intro hl d
      rw [List.foldl_cons, ih fun r hr => hl r (by simp [hr])]
      cases op with
      | setResolver r => exact absurd (by simp) (hl r)
      | _ => rfl
  exact (hno rest0 (fun r hr => hrest r (by simp [hr])) _).symm

end Zen.Ws
