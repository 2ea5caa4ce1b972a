import Verif.Workspace.Spec
import Mathlib.Data.List.Perm.Subperm
/- What the cache of graph analyses holds, and that the analysis of a graph keeps it so. -/
namespace Zen.Ws
open Zen Zen.Policy

variable {L : Lang}

/-! ## Functions -/

/-- the type of a function, as the database answers -/
def fans (db : Db L) (s : L.Source) (t : L.Ty) : Option L.Fn :=
  match get db.fns (L.fkey s t) with
  | some f => some f
  | none => db.resolver.map fun r => r s t

/-- keys of functions tell functions and inputs apart -/
def KeyInj (L : Lang) : Prop := ∀ s t s' t', L.fkey s t = L.fkey s' t' → s = s' ∧ t = t'

/-- stamps tell the states of functions apart -/
def StampInj (L : Lang) : Prop := ∀ a b, L.stamp a = L.stamp b → a = b

theorem functionOutcome_ok (hk : KeyInj L) (db : Db L) (s : L.Source) (t : L.Ty) :
    (functionOutcome db s t).1 = fans db s t ∧ fans (functionOutcome db s t).2 = fans db ∧
      get (functionOutcome db s t).2.fns (L.fkey s t) = fans db s t ∧
      (functionOutcome db s t).2 = { db with fns := (functionOutcome db s t).2.fns } := by
  unfold functionOutcome
  cases hg : get db.fns (L.fkey s t) with
  | some f =>
    have : fans db s t = some f := by unfold fans; rw [hg]
    exact ⟨this.symm, rfl, by dsimp only; rw [hg, this], rfl⟩
  | none =>
    have hf : fans db s t = db.resolver.map fun r => r s t := by unfold fans; rw [hg]
    dsimp only
    cases hr : db.resolver with
    | none =>
      rw [hr] at hf
      refine ⟨hf.symm, rfl, by dsimp only; rw [hg, hf]; rfl, ?_⟩
      dsimp only
      rw [← hr]
    | some r =>
      rw [hr] at hf
      refine ⟨hf.symm, ?_, by dsimp only; rw [get_set, if_pos rfl, hf]; rfl, rfl⟩
      funext s' t'
      unfold fans
      dsimp only
      rw [get_set, hr]
      by_cases he : L.fkey s t = L.fkey s' t'
      · obtain ⟨rfl, rfl⟩ := hk _ _ _ _ he
        rw [if_pos rfl, hg]; rfl
      · rw [if_neg he]

/-! ## Entries -/

/-- documents sit at their addresses -/
def HeapOk (H : Nat → Option (Content L)) (docs : List (String × Ptr (Content L))) : Prop :=
  ∀ e ∈ docs, H e.2.addr = some e.2.val

def StampOk (φ : L.Source → L.Ty → Option L.Fn) (x : L.Key × L.Stamp) : Prop :=
  ∃ s t, x.1 = L.fkey s t ∧ x.2 = L.stamp (φ s t)

/-- what an entry is: an analysis that was right at the time -/
def EntryInv (past : List (List (String × Ptr (Content L)))) (res : Option (L.Source → L.Ty → L.Fn))
    (e : String × (Deps L × L.Ana)) : Prop :=
  ∃ w ∈ past, ∃ φ n, (∀ x ∈ e.2.1.docs, x.2 = get w x.1) ∧ (∀ x ∈ e.2.1.fns, StampOk φ x) ∧
    (res.isSome → ∀ s t, (φ s t).isSome) ∧
    Ana w φ (fun x => x ∈ e.2.1.docs.map Prod.fst) (fun k => k ∈ e.2.1.fns.map Prod.fst) n e.1 e.2.2

/-- an entry that is found valid is right now -/
theorem valid_ok (hk : KeyInj L) (hst : StampInj L) {H₁ : Nat → Option (Content L)} {past : List (List (String × Ptr (Content L)))}
    {db : Db L} (hpast : ∀ w ∈ past, Sorted w ∧ HeapOk H₁ w ∧ SteadyTo w db.docs) (hs : Sorted db.docs) (hh : HeapOk H₁ db.docs)
    {e : String × (Deps L × L.Ana)} (he : EntryInv past db.resolver e) (hv : depsValid db e.2.1 = true) :
    ∃ n, Ana db.docs (fans db) (fun x => x ∈ e.2.1.docs.map Prod.fst) (fun k => k ∈ e.2.1.fns.map Prod.fst) n e.1 e.2.2 ∧
      ∀ x ∈ e.2.1.fns, StampOk (fans db) x := by
  obtain ⟨w, hw, φ, n, h1, h2, h3, h4⟩ := he
  obtain ⟨p1, p2, p3⟩ := hpast w hw
  unfold depsValid at hv
  rw [Bool.and_eq_true, List.all_eq_true, List.all_eq_true] at hv
  obtain ⟨v1, v2⟩ := hv
  have hF : ∀ s t, L.fkey s t ∈ e.2.1.fns.map Prod.fst → fans db s t = φ s t := by
    intro s t hm
    obtain ⟨x, hx, hxe⟩ := List.mem_map.1 hm
    obtain ⟨s', t', e1, e2⟩ := h2 x hx
    obtain ⟨rfl, rfl⟩ := hk _ _ _ _ (hxe.symm.trans e1)
    have hg := hst _ _ ((of_decide_eq_true (v2 x hx)).trans e2)
    rw [hxe] at hg
    unfold fans
    rw [hg]
    cases hφ : φ s t with
    | some f => rfl
    | none =>
      cases hr : db.resolver with
      | none => rfl
      | some r => have := h3 (by rw [hr]; rfl) s t; rw [hφ] at this; cases this
  refine ⟨n, h4.transfer p1 hs p3 ?_ hF, ?_⟩
  · intro p hp
    obtain ⟨x, hx, rfl⟩ := List.mem_map.1 hp
    have hv := v1 x hx
    have hx2 := h1 x hx
    unfold docAt
    cases hx3 : x.2 with
    | none =>
      rw [hx3] at hv hx2
      rw [← hx2, Option.isNone_iff_eq_none.1 hv]
    | some d =>
      rw [hx3] at hv hx2
      dsimp only at hv
      cases hd : get db.docs x.1 with
      | none => rw [hd] at hv; cases hv
      | some d' =>
        rw [hd] at hv
        dsimp only at hv
        rw [← hx2]
        have ha : d'.addr = d.addr := by simpa [Ptr.same] using hv
        have e1 := hh _ (get_mem hd)
        have e2 := p2 _ (get_mem hx2.symm)
        dsimp only at e1 e2
        rw [ha, e2] at e1
        injection e1 with e1
        simp only [Option.map_some, docVal, e1]
  · intro x hx
    obtain ⟨s, t, e1, e2⟩ := h2 x hx
    exact ⟨s, t, e1, by rw [e2, hF s t (e1 ▸ List.mem_map_of_mem hx)]⟩

/-! ## Frames -/

/-- the top frame grows by `D` and `F` -/
def Ext (φ : L.Source → L.Ty → Option L.Fn) (fr fr' : List (List String × List (L.Key × L.Stamp))) (D : String → Prop)
    (F : L.Key → Prop) : Prop :=
  (fr = [] ∧ fr' = []) ∨ ∃ f fs f', fr = f :: fs ∧ fr' = f' :: fs ∧ (∀ x, x ∈ f.1 ∨ D x → x ∈ f'.1) ∧
    (∀ k, k ∈ f.2.map Prod.fst ∨ F k → k ∈ f'.2.map Prod.fst) ∧ ((∀ x ∈ f.2, StampOk φ x) → ∀ x ∈ f'.2, StampOk φ x)

theorem Ext.refl (φ : L.Source → L.Ty → Option L.Fn) (fr : List (List String × List (L.Key × L.Stamp))) :
    Ext φ fr fr (fun _ => False) (fun _ => False) := by
  cases fr with
  | nil => exact .inl ⟨rfl, rfl⟩
  | cons f fs => exact .inr ⟨f, fs, f, rfl, rfl, by simp, by simp, fun h => h⟩

theorem Ext.trans {φ : L.Source → L.Ty → Option L.Fn} {a b c : List (List String × List (L.Key × L.Stamp))} {D D' : String → Prop}
    {F F' : L.Key → Prop} (h : Ext φ a b D F) (k : Ext φ b c D' F') : Ext φ a c (fun x => D x ∨ D' x) (fun x => F x ∨ F' x) := by
  rcases h with ⟨rfl, rfl⟩ | ⟨f, fs, f', rfl, rfl, h1, h2, h3⟩
  · rcases k with ⟨_, rfl⟩ | ⟨f, fs, f', h, _⟩
    · exact .inl ⟨rfl, rfl⟩
    · cases h
  · rcases k with ⟨h, _⟩ | ⟨g, gs, g', h, rfl, k1, k2, k3⟩
    · cases h
    · injection h with ha hb
      subst ha hb
      refine .inr ⟨f, fs, g', rfl, rfl, ?_, ?_, fun h => k3 (h3 h)⟩
      · rintro x (h | h | h)
        · exact k1 x (.inl (h1 x (.inl h)))
        · exact k1 x (.inl (h1 x (.inr h)))
        · exact k1 x (.inr h)
      · rintro x (h | h | h)
        · exact k2 x (.inl (h2 x (.inl h)))
        · exact k2 x (.inl (h2 x (.inr h)))
        · exact k2 x (.inr h)

theorem ext_recordDocs (φ : L.Source → L.Ty → Option L.Fn) (db : Db L) (l : List String) :
    Ext φ db.frames (recordDocs db l).frames (· ∈ l) (fun _ => False) := by
  unfold recordDocs
  cases db.frames with
  | nil => exact .inl ⟨rfl, rfl⟩
  | cons f fs =>
    refine .inr ⟨f, fs, _, rfl, rfl, ?_, by simp, fun h => h⟩
    rintro x (h | h) <;> simp [h]

theorem mem_foldl_set {m l : List (L.Key × L.Stamp)} : ∀ {e}, e ∈ l.foldl (fun m e => set m e.1 e.2) m → e ∈ m ∨ e ∈ l := by
  induction l generalizing m with
  | nil => exact fun h => .inl h
  | cons x l ih =>
    intro e h
    rcases ih h with h | h
    · rcases mem_set h with rfl | ⟨h, _⟩
      · exact .inr (by simp)
      · exact .inl h
    · exact .inr (by simp [h])

theorem keys_foldl_set {m l : List (L.Key × L.Stamp)} : ∀ {k}, k ∈ m.map Prod.fst ∨ k ∈ l.map Prod.fst →
    k ∈ (l.foldl (fun m e => set m e.1 e.2) m).map Prod.fst := by
  induction l generalizing m with
  | nil => rintro k (h | h); exact h; cases h
  | cons x l ih =>
    intro k h
    refine ih ?_
    rw [← get_isSome, get_set]
    by_cases hk : x.1 = k
    · exact .inl (by simp [hk])
    · rw [if_neg hk, get_isSome]
      rcases h with h | h
      · exact .inl h
      · rw [List.map_cons, List.mem_cons] at h
        rcases h with h | h
        · exact absurd h.symm hk
        · exact .inr h

theorem ext_recordFns (φ : L.Source → L.Ty → Option L.Fn) (db : Db L) (l : List (L.Key × L.Stamp)) (hl : ∀ x ∈ l, StampOk φ x) :
    Ext φ db.frames (recordFns db l).frames (fun _ => False) (· ∈ l.map Prod.fst) := by
  unfold recordFns
  cases db.frames with
  | nil => exact .inl ⟨rfl, rfl⟩
  | cons f fs =>
    refine .inr ⟨f, fs, _, rfl, rfl, by simp, fun k h => keys_foldl_set h, fun h x hx => ?_⟩
    rcases mem_foldl_set hx with hx | hx
    · exact h x hx
    · exact hl x hx

/-! ## Steps -/

/-- the invariant for graphs -/
structure St (H : Nat → Option L.PolDoc) (past : List (List (String × Ptr (Content L)))) (db : Db L) : Prop where
  inv : Inv H db
  entries : ∀ e ∈ db.cache.graphs, EntryInv past db.resolver e

/-- what a step in the analysis of a graph does -/
structure GStep (H : Nat → Option L.PolDoc) (past : List (List (String × Ptr (Content L)))) (db db' : Db L) (D : String → Prop)
    (F : L.Key → Prop) : Prop where
  st : St H past db'
  docs : db'.docs = db.docs
  stack : db'.stack = db.stack
  resolver : db'.resolver = db.resolver
  fans : fans db' = fans db
  diags : ∀ s', db'.snap = some s' → s'.diags = [] ∨ ∃ s, db.snap = some s ∧ s.diags = s'.diags
  ext : Ext (Zen.Ws.fans db) db.frames db'.frames D F

theorem GStep.trans {H : Nat → Option L.PolDoc} {past : List (List (String × Ptr (Content L)))} {a b c : Db L} {D D' : String → Prop}
    {F F' : L.Key → Prop} (h : GStep H past a b D F) (k : GStep H past b c D' F') :
    GStep H past a c (fun x => D x ∨ D' x) (fun x => F x ∨ F' x) :=
  ⟨k.st, k.docs.trans h.docs, k.stack.trans h.stack, k.resolver.trans h.resolver, k.fans.trans h.fans, fun s' hs => by
      rcases k.diags s' hs with h' | ⟨s, h1, h2⟩
      · exact .inl h'
      · rcases h.diags s h1 with h' | ⟨t, h3, h4⟩
        · exact .inl (h2 ▸ h')
        · exact .inr ⟨t, h3, h4.trans h2⟩, h.ext.trans (h.fans ▸ k.ext)⟩

theorem fans_congr {db db' : Db L} (h1 : db'.fns = db.fns) (h2 : db'.resolver = db.resolver) : fans db' = fans db := by
  funext s t; unfold fans; rw [h1, h2]

theorem gstep_of_keep {H : Nat → Option L.PolDoc} {past : List (List (String × Ptr (Content L)))} {db db' : Db L} (hs : St H past db)
    (hi : Inv H db') (h : Keep db db') : GStep H past db db' (fun _ => False) (fun _ => False) :=
  ⟨⟨hi, fun e he => by rw [h.resolver]; exact hs.entries e (h.graphs e he)⟩, h.docs, h.stack, h.resolver, fans_congr h.fns h.resolver,
    h.diags, by rw [h.frames]; exact .refl _ _⟩

theorem GStep.refl {H : Nat → Option L.PolDoc} {past : List (List (String × Ptr (Content L)))} {db : Db L} (hs : St H past db) :
    GStep H past db db (fun _ => False) (fun _ => False) := gstep_of_keep hs hs.inv (.refl _)

theorem gstep_recordDocs {H : Nat → Option L.PolDoc} {past : List (List (String × Ptr (Content L)))} {db : Db L} (hs : St H past db)
    (l : List String) : GStep H past db (recordDocs db l) (· ∈ l) (fun _ => False) :=
  ⟨⟨(polSame_recordDocs db l).inv hs.inv, hs.entries⟩, rfl, rfl, rfl, rfl, fun s h => .inr ⟨s, h, rfl⟩, ext_recordDocs _ db l⟩

theorem gstep_recordFns {H : Nat → Option L.PolDoc} {past : List (List (String × Ptr (Content L)))} {db : Db L} (hs : St H past db)
    (l : List (L.Key × L.Stamp)) (hl : ∀ x ∈ l, StampOk (fans db) x) :
    GStep H past db (recordFns db l) (fun _ => False) (· ∈ l.map Prod.fst) :=
  ⟨⟨(polSame_recordFns db l).inv hs.inv, hs.entries⟩, rfl, rfl, rfl, rfl, fun s h => .inr ⟨s, h, rfl⟩, ext_recordFns _ db l hl⟩

theorem gstep_function (hk : KeyInj L) {H : Nat → Option L.PolDoc} {past : List (List (String × Ptr (Content L)))} {db : Db L}
    (hs : St H past db) (s : L.Source) (t : L.Ty) :
    (functionOutputType db s t).1 = fans db s t ∧
      ∃ D F, GStep H past db (functionOutputType db s t).2 D F ∧ F (L.fkey s t) := by
  obtain ⟨h1, h2, h3, h4⟩ := functionOutcome_ok hk db s t
  have hp := polSame_functionOutcome db s t
  unfold functionOutputType
  generalize functionOutcome db s t = R at h1 h2 h3 h4 hp ⊢
  obtain ⟨o, db1⟩ := R
  dsimp only at h1 h2 h3 h4 hp ⊢
  have g1 : GStep H past db db1 (fun _ => False) (fun _ => False) := by
    rw [h4] at h2 hp ⊢
    exact ⟨⟨hp.inv hs.inv, hs.entries⟩, rfl, rfl, rfl, h2, fun s h => .inr ⟨s, h, rfl⟩, .refl _ _⟩
  have g2 := gstep_recordFns g1.st [(L.fkey s t, L.stamp (get db1.fns (L.fkey s t)))] (by
    intro x hx
    rw [List.mem_singleton] at hx
    subst hx
    exact ⟨s, t, rfl, by rw [h3, h2]⟩)
  exact ⟨h1, _, _, g1.trans g2, by simp⟩

/-! ## Which decisions a graph may ask for -/

/-- a program that asks for a key, whatever the answers -/
inductive Asks : Prog L.Sig L.Source L.Ty L.Fn L.Ana → String → Prop
  | here {key k} : Asks (.sig key k) key
  | sig {key key' k} (r : Res L.Sig) : Asks (k r) key → Asks (.sig key' k) key
  | fn {key s t k} (o : Option L.Fn) : Asks (k o) key → Asks (.fn s t k) key

/-- the graph refers to the key -/
def Refers (path : String) (g : L.GraphDoc) (key : String) : Prop := ∃ ds ks, Asks (L.prog path g ds ks) key

/-- graphs can be ranked so that each refers only to graphs of lower rank -/
def Ranked (docs : List (String × Ptr (Content L))) (rank : String → Nat) : Prop :=
  ∀ p g, get (graphsOf docs) p = some g → ∀ key, Refers p g key → (get (graphsOf docs) key).isSome → rank key < rank p

/-- what is fixed while a question is answered -/
structure Ctx (L : Lang) where
  H : Nat → Option L.PolDoc
  H₁ : Nat → Option (Content L)
  past : List (List (String × Ptr (Content L)))
  docs : List (String × Ptr (Content L))
  rank : String → Nat

structure Ctx.Ok (C : Ctx L) : Prop where
  sf : ScopeFree L
  key : KeyInj L
  stamp : StampInj L
  sorted : Sorted C.docs
  heap : HeapOk C.H₁ C.docs
  here : C.docs ∈ C.past
  past : ∀ w ∈ C.past, Sorted w ∧ HeapOk C.H₁ w ∧ SteadyTo w C.docs
  ranked : Ranked C.docs C.rank

/-- ready to analyze a graph -/
structure Ready (C : Ctx L) (fuel : Nat) (key : String) (db : Db L) : Prop where
  st : St C.H C.past db
  docs : db.docs = C.docs
  graph : (get (graphsOf C.docs) key).isSome
  below : ∀ q ∈ db.stack, C.rank key < C.rank q
  nodup : db.stack.Nodup
  sub : ∀ q ∈ db.stack, q ∈ C.docs.map Prod.fst
  fuel : C.docs.length + 1 ≤ fuel + db.stack.length

/-- the analysis is right -/
def Done (C : Ctx L) (key : String) (db : Db L) (r : Option L.Ana × Db L) : Prop :=
  ∃ a n D F, r.1 = some a ∧ GStep C.H C.past db r.2 D F ∧ Ana C.docs (fans db) D F n key a

theorem kindAt_ok {G : Nat → Option L.Parsed} {n : Nat} {docs : List (String × Ptr (Content L))} {c : Cache L} {s : Snap L}
    (h : SnapOk G n docs c s) (hs : Sorted docs) (i : String) : importKind s i = kindAt docs i := by
  have h1 : (get s.parsed i).isSome = (get (parsedSpec docs) i).isSome := by
    rw [← h.parsed, get_vals, Option.isSome_map]
  unfold importKind kindAt
  rw [h1, h.graphs, get_parsedSpec hs, get_graphsOf hs]
  cases docAt docs i with
  | none => rfl
  | some d => cases d <;> rfl

theorem runProg_ok {C : Ctx L} (hC : C.Ok) {fuel : Nat} {ana : String → Db L → Option L.Ana × Db L}
    (hana : ∀ key db, Ready C fuel key db → Done C key db (ana key db)) :
    ∀ (P : Prog L.Sig L.Source L.Ty L.Fn L.Ana) (db : Db L), St C.H C.past db → db.docs = C.docs → db.stack.Nodup →
      (∀ q ∈ db.stack, q ∈ C.docs.map Prod.fst) → C.docs.length + 1 ≤ fuel + db.stack.length →
      (∀ key, Asks P key → (get (graphsOf C.docs) key).isSome → ∀ q ∈ db.stack, C.rank key < C.rank q) →
      ∃ n D F, GStep C.H C.past db (runProg ana P db).2 D F ∧
        Runs C.docs (fans db) (Ana C.docs (fans db) D F n) D F P (runProg ana P db).1
  | .ret a, db, hst, _, _, _, _, _ => ⟨0, _, _, .refl hst, .ret⟩
  | .fn s t k, db, hst, hd, hnd, hsub, hf, hr => by
    obtain ⟨h1, D1, F1, g1, hF⟩ := gstep_function hC.key hst s t
    unfold runProg
    generalize functionOutputType db s t = R at h1 g1 ⊢
    obtain ⟨o, db1⟩ := R
    dsimp only at h1 g1 ⊢
    obtain ⟨n, D2, F2, g2, h2⟩ := runProg_ok hC hana (k o) db1 g1.st (g1.docs.trans hd) (g1.stack ▸ hnd) (g1.stack ▸ hsub)
      (g1.stack ▸ hf) (fun key hk hg => g1.stack ▸ hr key (.fn o hk) hg)
    refine ⟨n, _, _, g1.trans g2, .fn (.inl hF) ?_⟩
    rw [← h1]
    rw [g1.fans] at h2
    exact h2.imp (fun p a h => h.mono (fun _ h => .inr h) (fun _ h => .inr h) (Nat.le_refl _)) (fun _ h => .inr h) (fun _ h => .inr h)
  | .sig key k, db, hst, hd, hnd, hsub, hf, hr => by
    unfold runProg decisionSig
    have g0 := gstep_recordDocs hst [key]
    generalize recordDocs db [key] = db0 at g0 ⊢
    dsimp only
    obtain ⟨⟨G, hi⟩, hkp, hs⟩ := snapshot_ok hC.sf g0.st.inv
    generalize snapshot db0 = S at hi hkp hs ⊢
    obtain ⟨s, db1⟩ := S
    dsimp only at hi hkp hs ⊢
    have g1 := g0.trans (gstep_of_keep g0.st ⟨G, hi⟩ hkp)
    have hd1 : db1.docs = C.docs := g1.docs.trans hd
    have hso := hi.snap s hs
    rw [hd1] at hso
    -- the rest of the program
    have rest : ∀ (r : Res L.Sig) (db2 : Db L) (D2 : String → Prop) (F2 : L.Key → Prop), GStep C.H C.past db db2 D2 F2 →
        ∃ (n : Nat) (D : String → Prop) (F : L.Key → Prop), GStep C.H C.past db (runProg ana (k r) db2).2 (fun x => D2 x ∨ D x) (fun x => F2 x ∨ F x) ∧
          ∀ m, n ≤ m → Runs C.docs (fans db) (Ana C.docs (fans db) (fun x => D2 x ∨ D x) (fun x => F2 x ∨ F x) m)
            (fun x => D2 x ∨ D x) (fun x => F2 x ∨ F x) (k r) (runProg ana (k r) db2).1 := by
      intro r db2 D2 F2 g2
      obtain ⟨n, D, F, g3, h3⟩ := runProg_ok hC hana (k r) db2 g2.st (g2.docs.trans hd) (g2.stack ▸ hnd) (g2.stack ▸ hsub)
        (g2.stack ▸ hf) (fun key hk hg => g2.stack ▸ hr key (.sig r hk) hg)
      refine ⟨n, D, F, g2.trans g3, fun m hm => ?_⟩
      rw [g2.fans] at h3
      exact h3.imp (fun p a h => h.mono (fun _ h => .inr h) (fun _ h => .inr h) hm) (fun _ h => .inr h) (fun _ h => .inr h)
    rw [hso.graphs]
    by_cases hg : (get (graphsOf C.docs) key).isSome = true
    · rw [if_pos hg]
      have hbelow : ∀ q ∈ db1.stack, C.rank key < C.rank q := g1.stack ▸ hr key .here hg
      rw [if_neg fun h => absurd (hbelow key h) (Nat.lt_irrefl _)]
      obtain ⟨a, n, D2, F2, h1, g2, h2⟩ := hana key db1 ⟨g1.st, hd1, hg, hbelow, g1.stack ▸ hnd, g1.stack ▸ hsub, g1.stack ▸ hf⟩
      generalize ana key db1 = R at h1 g2 ⊢
      obtain ⟨o, db2⟩ := R
      dsimp only at h1 g2
      subst h1
      dsimp only
      obtain ⟨m, D3, F3, g3, h3⟩ := rest (.found (L.anaSig a)) db2 _ _ (g1.trans g2)
      rw [g1.fans] at h2
      refine ⟨max m n, _, _, g3, .graph (b := a) (.inl (.inl (.inl (by simp)))) hg ?_ (h3 _ (Nat.le_max_left _ _))⟩
      exact h2.mono (fun _ h => .inl (.inr h)) (fun _ h => .inl (.inr h)) (Nat.le_max_right _ _)
    · rw [if_neg hg]
      have hgn : get (graphsOf C.docs) key = none := by
        cases h : get (graphsOf C.docs) key with
        | none => rfl
        | some _ => rw [h] at hg; exact absurd rfl hg
      have hpe : (get s.parsed key).isSome = (get (parsedSpec C.docs) key).isSome := by
        rw [← hso.parsed, get_vals, Option.isSome_map]
      rw [hpe]
      by_cases hp : (get (parsedSpec C.docs) key).isSome = true
      · rw [if_pos hp]
        rw [hso.members]
        have g2 := gstep_recordDocs g1.st (membersSpec C.docs key)
        generalize recordDocs db1 (membersSpec C.docs key) = db2 at g2 ⊢
        obtain ⟨h1, h2⟩ := policySig_ok hC.sf g2.st.inv key
        generalize policySig db2 key = R at h1 h2 ⊢
        obtain ⟨sg, db3⟩ := R
        dsimp only at h1 h2 ⊢
        have g3 := g2.trans (gstep_of_keep g2.st h2.inv h2.keep)
        obtain ⟨m, D3, F3, g4, h3⟩ := rest (.found sg) db3 _ _ (g1.trans g3)
        refine ⟨m, _, _, g4, .policy (.inl (.inl (.inl (by simp)))) hgn hp (fun m hm => .inl (.inr (.inl hm))) ?_⟩
        have : sg = sigSpec C.docs key := by rw [h1, g2.docs, hd1]
        rw [← this]
        exact h3 _ (Nat.le_refl _)
      · rw [if_neg hp]
        have hpn : get (parsedSpec C.docs) key = none := by
          cases h : get (parsedSpec C.docs) key with
          | none => rfl
          | some _ => rw [h] at hp; exact absurd rfl hp
        obtain ⟨m, D3, F3, g4, h3⟩ := rest .missing db1 _ _ g1
        exact ⟨m, _, _, g4, .missing (.inl (.inl (by simp))) hgn hpn (h3 _ (Nat.le_refl _))⟩

theorem graphAnalysis_ok {C : Ctx L} (hC : C.Ok) : ∀ (fuel : Nat) (key : String) (db : Db L), Ready C fuel key db →
    Done C key db (graphAnalysis fuel key db)
  | 0, key, db, h => by
    -- the stack is full
    have hk : key ∉ db.stack := fun hm => absurd (h.below key hm) (Nat.lt_irrefl _)
    have hkd : key ∈ C.docs.map Prod.fst := by
      obtain ⟨g, hg⟩ := Option.isSome_iff_exists.1 h.graph
      rw [get_graphsOf hC.sorted] at hg
      rw [← get_isSome]
      unfold docAt at hg
      cases hx : get C.docs key with
      | none => rw [hx] at hg; cases hg
      | some _ => rfl
    have := List.subperm_of_subset (l₂ := C.docs.map Prod.fst) (List.nodup_cons.2 ⟨hk, h.nodup⟩) (by
      intro x hx
      rcases List.mem_cons.1 hx with rfl | hx
      · exact hkd
      · exact h.sub x hx)
    have := this.length_le
    have hf := h.fuel
    simp only [List.length_cons, List.length_map] at this
    omega
  | fuel + 1, key, db, h => by
    unfold graphAnalysis
    obtain ⟨⟨G, hi⟩, hkp, hs⟩ := snapshot_ok hC.sf h.st.inv
    generalize snapshot db = S at hi hkp hs ⊢
    obtain ⟨s, db1⟩ := S
    dsimp only at hi hkp hs ⊢
    have g1 := gstep_of_keep h.st ⟨G, hi⟩ hkp
    have hd1 : db1.docs = C.docs := g1.docs.trans h.docs
    have hso := hi.snap s hs
    rw [hd1] at hso
    obtain ⟨g, hg⟩ := Option.isSome_iff_exists.1 h.graph
    rw [hso.graphs, hg]
    dsimp only
    cases hc : cachedGraph db1 key with
    | some r =>
      obtain ⟨a, db2⟩ := r
      dsimp only
      unfold cachedGraph at hc
      cases he : get db1.cache.graphs key with
      | none => rw [he] at hc; cases hc
      | some x =>
        obtain ⟨deps, a'⟩ := x
        rw [he] at hc
        dsimp only at hc
        by_cases hv : depsValid db1 deps = true
        · rw [if_pos hv] at hc
          injection hc with hc
          injection hc with h1 h2
          subst h1 h2
          obtain ⟨n, hn, hst⟩ := valid_ok hC.key hC.stamp (by rw [hd1]; exact hC.past) (by rw [hd1]; exact hC.sorted)
            (by rw [hd1]; exact hC.heap) (g1.st.entries _ (get_mem he)) hv
          have g2 := gstep_recordDocs g1.st (deps.docs.map Prod.fst)
          have g3 := gstep_recordFns g2.st deps.fns hst
          rw [hd1, g1.fans] at hn
          refine ⟨a', n, _, _, rfl, g1.trans (g2.trans g3), ?_⟩
          exact hn.mono (fun _ h => .inr (.inl h)) (fun _ h => .inr (.inr h)) (Nat.le_refl _)
        · rw [if_neg hv] at hc; cases hc
    | none =>
      dsimp only
      have hkd : key ∈ C.docs.map Prod.fst := by
        have hg' := hg
        rw [get_graphsOf hC.sorted] at hg'
        rw [← get_isSome]
        unfold docAt at hg'
        cases hx : get C.docs key with
        | none => rw [hx] at hg'; cases hg'
        | some _ => rfl
      have hst2 : St C.H C.past { db1 with stack := key :: db1.stack, frames := ([key], []) :: db1.frames } :=
        ⟨PolSame.inv (db := db1) ⟨rfl, rfl, rfl, rfl, rfl, rfl⟩ ⟨G, hi⟩, g1.st.entries⟩
      have hsnap2 : ({ db1 with stack := key :: db1.stack, frames := ([key], []) :: db1.frames } : Db L).snap = some s := hs
      have hstack2 : ({ db1 with stack := key :: db1.stack, frames := ([key], []) :: db1.frames } : Db L).stack = key :: db.stack := by
        dsimp only; rw [g1.stack]
      have hframes2 : ({ db1 with stack := key :: db1.stack, frames := ([key], []) :: db1.frames } : Db L).frames = ([key], []) :: db.frames := by
        dsimp only; rw [hkp.frames]
      have hdocs2 : ({ db1 with stack := key :: db1.stack, frames := ([key], []) :: db1.frames } : Db L).docs = C.docs := hd1
      have hfans2 : fans ({ db1 with stack := key :: db1.stack, frames := ([key], []) :: db1.frames } : Db L) = fans db := g1.fans
      have hres2 : ({ db1 with stack := key :: db1.stack, frames := ([key], []) :: db1.frames } : Db L).resolver = db.resolver := g1.resolver
      generalize ({ db1 with stack := key :: db1.stack, frames := ([key], []) :: db1.frames } : Db L) = db2 at hst2 hsnap2 hstack2 hframes2 hdocs2 hfans2 hres2 ⊢
      unfold graphDictionaries
      rw [snapshot_of_some hsnap2]
      dsimp only
      rw [hso.parsed]
      have hdict := dictLoop_ok (parsedSpec C.docs) (L.gimports g)
      generalize dictLoop (parsedSpec C.docs) (dictFuel (parsedSpec C.docs) (L.gimports g)) (L.gimports g) [] [] = dd at hdict ⊢
      obtain ⟨vs, ds⟩ := dd
      dsimp only at hdict ⊢
      have hkinds : (L.gimports g).map (fun i => (i, importKind s i)) = (L.gimports g).map fun i => (i, kindAt C.docs i) :=
        List.map_congr_left fun i _ => by rw [kindAt_ok hso hC.sorted]
      rw [hkinds]
      have g3 := gstep_recordDocs hst2 vs
      have hsnap3 : (recordDocs db2 vs).snap = some s := hsnap2
      generalize recordDocs db2 vs = db3 at g3 hsnap3 ⊢
      have hstack3 := g3.stack.trans hstack2
      have hk : key ∉ db.stack := fun hm => absurd (h.below key hm) (Nat.lt_irrefl _)
      obtain ⟨n, D, F, g4, h4⟩ := runProg_ok hC (fuel := fuel) (fun k d hr => graphAnalysis_ok hC fuel k d hr)
        (L.prog key g ds ((L.gimports g).map fun i => (i, kindAt C.docs i))) db3 g3.st (g3.docs.trans hdocs2)
        (by rw [hstack3]; exact List.nodup_cons.2 ⟨hk, h.nodup⟩)
        (by
          rw [hstack3]
          intro q hq
          rcases List.mem_cons.1 hq with rfl | hq
          · exact hkd
          · exact h.sub q hq)
        (by rw [hstack3, List.length_cons]; have := h.fuel; omega)
        (by
          rw [hstack3]
          intro k' hk' hgk q hq
          have hlt := hC.ranked key g hg k' ⟨_, _, hk'⟩ hgk
          rcases List.mem_cons.1 hq with rfl | hq
          · exact hlt
          · exact Nat.lt_trans hlt (h.below q hq))
      generalize runProg (graphAnalysis fuel) _ db3 = R at g4 h4 ⊢
      obtain ⟨a, db4⟩ := R
      dsimp only at g4 h4 ⊢
      have g34 := g3.trans g4
      -- the frame
      rcases g34.ext with ⟨hnil, _⟩ | ⟨f, fs, f', hf, hf', e1, e2, e3⟩
      · rw [hframes2] at hnil; cases hnil
      rw [hframes2] at hf
      injection hf with hff hfs
      subst hff hfs
      have hstk4 : db4.stack = key :: db.stack := g34.stack.trans hstack2
      have hd4 : db4.docs = C.docs := g34.docs.trans hdocs2
      have hfans4 : fans db4 = fans db := g34.fans.trans hfans2
      have hres4 : db4.resolver = db.resolver := g34.resolver.trans hres2
      have hstamps : ∀ x ∈ f'.2, StampOk (fans db) x := by
        rw [hfans2] at e3
        exact e3 fun x hx => by cases hx
      have hana : Ana C.docs (fans db) (· ∈ f'.1) (· ∈ f'.2.map Prod.fst) (n + 1) key a := by
        rw [g3.fans.trans hfans2] at h4
        refine ⟨e1 key (.inl (by simp)), g, hg, vs, ds, hdict, fun v hv => e1 v (.inr (.inl hv)), ?_⟩
        exact h4.imp (fun p x hx => hx.mono (fun x hx => e1 x (.inr (.inr hx))) (fun x hx => e2 x (.inr (.inr hx))) (Nat.le_refl _))
          (fun x hx => e1 x (.inr (.inr hx))) (fun x hx => e2 x (.inr (.inr hx)))
      -- the pop
      unfold popFrame
      rw [hf', hstk4]
      dsimp only [List.headD_cons, List.tail_cons]
      have g5 : GStep C.H C.past db { db4 with frames := db.frames, stack := db.stack } (fun _ => False) (fun _ => False) := by
        refine ⟨⟨PolSame.inv (db := db4) ⟨rfl, rfl, rfl, rfl, rfl, rfl⟩ g34.st.inv, g34.st.entries⟩, hd4.trans h.docs.symm, rfl, hres4, hfans4, ?_, .refl _ _⟩
        intro s' hs'
        have hdb2 : db4.snap = some s' := hs'
        rcases g34.diags s' hdb2 with h' | ⟨t, h1, h2⟩
        · exact .inl h'
        · rw [hsnap2] at h1
          injection h1 with h1
          subst h1
          rcases g1.diags s hs with h' | ⟨u, h3, h4⟩
          · exact .inl (h2 ▸ h')
          · exact .inr ⟨u, h3, h4.trans h2⟩
      generalize ({ db4 with frames := db.frames, stack := db.stack } : Db L) = db5 at g5 ⊢
      have g6 := gstep_recordDocs g5.st f'.1
      have g7 := gstep_recordFns g6.st f'.2 (by rw [g6.fans, g5.fans]; exact hstamps)
      have g67 := g5.trans (g6.trans g7)
      generalize recordFns (recordDocs db5 f'.1) f'.2 = db7 at g67 ⊢
      have hd7 : db7.docs = C.docs := g67.docs.trans h.docs
      refine ⟨a, n + 1, _, _, rfl, ⟨⟨PolSame.inv (db := db7) ⟨rfl, rfl, rfl, rfl, rfl, rfl⟩ g67.st.inv, ?_⟩, g67.docs, g67.stack, g67.resolver, g67.fans,
        g67.diags, g67.ext⟩, hana.mono (fun x hx => .inr (.inl hx)) (fun x hx => .inr (.inr hx)) (Nat.le_refl _)⟩
      intro e he
      rcases mem_set he with rfl | ⟨he, _⟩
      · refine ⟨C.docs, hC.here, fans db, n + 1, ?_, hstamps, ?_, ?_⟩
        · intro x hx
          obtain ⟨y, _, rfl⟩ := List.mem_map.1 hx
          dsimp only; rw [hd7]
        · intro hr s t
          have hr : db7.resolver.isSome := hr
          rw [g67.resolver] at hr
          unfold fans
          cases get db.fns (L.fkey s t) with
          | some f => rfl
          | none => rw [Option.isSome_map]; exact hr
        · dsimp only
          simp only [List.map_map, Function.comp_def, List.map_id']
          exact hana
      · exact g67.st.entries e he

end Zen.Ws
