import Verif.Workspace.Inv
import Mathlib.Data.String.Basic
/- Every operation keeps the invariant for policies; what is answered about policies. -/
namespace Zen.Ws
open Zen Zen.Policy

variable {L : Lang}

/-! ## Operations that touch nothing about policies -/

/-- the same, as far as policies go -/
structure PolSame (db db' : Db L) : Prop where
  docs : db'.docs = db.docs
  snap : db'.snap = db.snap
  next : db'.next = db.next
  parsed : db'.cache.parsed = db.cache.parsed
  shallow : db'.cache.shallow = db.cache.shallow
  units : db'.cache.units = db.cache.units

theorem PolSame.inv {H : Nat → Option L.PolDoc} {db db' : Db L} (h : PolSame db db') (hi : Inv H db) : Inv H db' := by
  obtain ⟨G, hi⟩ := hi
  refine ⟨G, by rw [h.docs]; exact hi.docs, ?_, ?_⟩
  · rw [h.next]
    exact ⟨by rw [h.parsed]; exact hi.cache.parsed, by rw [h.shallow]; exact hi.cache.shallow, by rw [h.units]; exact hi.cache.units⟩
  · intro s hs
    rw [h.snap] at hs
    have := hi.snap s hs
    rw [h.next, h.docs]
    refine ⟨this.ptrs, this.parsed, this.graphs, this.shallow, this.comps, this.index, fun i u hu => ?_, this.diags⟩
    obtain ⟨h1, e, h2, h3⟩ := this.units i u hu
    exact ⟨h1, e, by rw [h.units]; exact h2, h3⟩

theorem PolSame.refl (db : Db L) : PolSame db db := ⟨rfl, rfl, rfl, rfl, rfl, rfl⟩

theorem polSame_recordDocs (db : Db L) (l : List String) : PolSame db (recordDocs db l) := ⟨rfl, rfl, rfl, rfl, rfl, rfl⟩

theorem polSame_recordFns (db : Db L) (l : List (L.Key × L.Stamp)) : PolSame db (recordFns db l) := ⟨rfl, rfl, rfl, rfl, rfl, rfl⟩

theorem polSame_functionOutcome (db : Db L) (s : L.Source) (t : L.Ty) : PolSame db (functionOutcome db s t).2 := by
  unfold functionOutcome
  cases get db.fns (L.fkey s t) with
  | some f => exact .refl _
  | none => cases db.resolver <;> exact ⟨rfl, rfl, rfl, rfl, rfl, rfl⟩

/-- the invariant and the documents are kept -/
def Keeps (H : Nat → Option L.PolDoc) (db db' : Db L) : Prop := Inv H db' ∧ db'.docs = db.docs

theorem PolSame.keeps {H : Nat → Option L.PolDoc} {db db' : Db L} (h : PolSame db db') (hi : Inv H db) : Keeps H db db' :=
  ⟨h.inv hi, h.docs⟩

theorem Keeps.trans {H : Nat → Option L.PolDoc} {a b c : Db L} (h : Keeps H a b) (k : Keeps H b c) : Keeps H a c :=
  ⟨k.1, k.2.trans h.2⟩

theorem Post.keeps {H : Nat → Option L.PolDoc} {db db' : Db L} (h : Post H db db') : Keeps H db db' := ⟨h.inv, h.keep.docs⟩

theorem SnapPost.keeps {H : Nat → Option L.PolDoc} {db db' : Db L} {s : Snap L} (h : SnapPost H db s db') : Keeps H db db' :=
  ⟨h.inv, h.keep.docs⟩

section
variable (hsf : ScopeFree L) {H : Nat → Option L.PolDoc}
include hsf

theorem decisionSig_keeps {ana : String → Db L → Option L.Ana × Db L} (ha : ∀ p db, Inv H db → Keeps H db (ana p db).2)
    (key : String) {db : Db L} (h : Inv H db) : Keeps H db (decisionSig ana key db).2 := by
  unfold decisionSig
  have k0 := (polSame_recordDocs db [key]).keeps h
  generalize recordDocs db [key] = db0 at k0 ⊢
  dsimp only
  have k1 := (snapshot_ok hsf k0.1).keeps
  generalize snapshot db0 = S at k1 ⊢
  obtain ⟨s, db1⟩ := S
  dsimp only at k1 ⊢
  have k01 := k0.trans k1
  by_cases h1 : (get s.graphs key).isSome = true
  · rw [if_pos h1]
    by_cases h2 : key ∈ db1.stack
    · rw [if_pos h2]; exact k01
    · rw [if_neg h2]
      have k2 := ha key db1 k1.1
      generalize ana key db1 = R at k2 ⊢
      obtain ⟨o, db2⟩ := R
      cases o <;> exact k01.trans k2
  · rw [if_neg h1]
    by_cases h2 : (get s.parsed key).isSome = true
    · rw [if_pos h2]
      have k2 := (polSame_recordDocs db1 (s.members key)).keeps k1.1
      exact k01.trans (k2.trans (policySig_ok hsf k2.1 key).2.keeps)
    · rw [if_neg h2]; exact k01

theorem runProg_keeps {ana : String → Db L → Option L.Ana × Db L} (ha : ∀ p db, Inv H db → Keeps H db (ana p db).2) :
    ∀ (P : Prog L.Sig L.Source L.Ty L.Fn L.Ana) {db : Db L}, Inv H db → Keeps H db (runProg ana P db).2
  | .ret a, db, h => ⟨h, rfl⟩
  | .sig key k, db, h => by
    have k1 := decisionSig_keeps hsf ha key h
    unfold runProg
    generalize decisionSig ana key db = R at k1 ⊢
    obtain ⟨r, db1⟩ := R
    exact k1.trans (runProg_keeps ha (k r) k1.1)
  | .fn s t k, db, h => by
    have k1 := (polSame_functionOutcome db s t).keeps h
    unfold runProg functionOutputType
    generalize functionOutcome db s t = R at k1 ⊢
    obtain ⟨o, db1⟩ := R
    dsimp only at k1 ⊢
    have k2 := (polSame_recordFns db1 [(L.fkey s t, L.stamp (get db1.fns (L.fkey s t)))]).keeps k1.1
    exact k1.trans (k2.trans (runProg_keeps ha (k o) k2.1))

theorem graphAnalysis_keeps : ∀ (n : Nat) (path : String) {db : Db L}, Inv H db → Keeps H db (graphAnalysis n path db).2
  | 0, _, db, h => ⟨h, rfl⟩
  | n + 1, path, db, h => by
    unfold graphAnalysis
    have k1 := (snapshot_ok hsf h).keeps
    generalize snapshot db = S at k1 ⊢
    obtain ⟨s, db1⟩ := S
    dsimp only at k1 ⊢
    cases get s.graphs path with
    | none => exact k1
    | some g =>
      dsimp only
      cases hc : cachedGraph db1 path with
      | some r =>
        obtain ⟨a, db2⟩ := r
        dsimp only
        refine k1.trans (PolSame.keeps ?_ k1.1)
        unfold cachedGraph at hc
        split at hc
        · cases hc
        · split at hc
          · injection hc with hc; injection hc with _ hc; subst hc; exact ⟨rfl, rfl, rfl, rfl, rfl, rfl⟩
          · cases hc
      | none =>
        dsimp only
        have k2 : Keeps H db1 { db1 with stack := path :: db1.stack, frames := ([path], []) :: db1.frames } :=
          PolSame.keeps ⟨rfl, rfl, rfl, rfl, rfl, rfl⟩ k1.1
        generalize ({ db1 with stack := path :: db1.stack, frames := ([path], []) :: db1.frames } : Db L) = db2 at k2 ⊢
        unfold graphDictionaries
        have k3 := (snapshot_ok hsf k2.1).keeps
        generalize snapshot db2 = S at k3 ⊢
        obtain ⟨s3, db3⟩ := S
        dsimp only at k3 ⊢
        have k4 := (polSame_recordDocs db3 (dictLoop (vals s3.parsed) (dictFuel (vals s3.parsed) (L.gimports g)) (L.gimports g) [] []).1).keeps k3.1
        generalize recordDocs db3 _ = db4 at k4 ⊢
        have k5 := runProg_keeps hsf (fun p db h => graphAnalysis_keeps n p h) (L.prog path g
          (dictLoop (vals s3.parsed) (dictFuel (vals s3.parsed) (L.gimports g)) (L.gimports g) [] []).2
          (List.map (fun i => (i, importKind s i)) (L.gimports g))) k4.1
        generalize runProg (graphAnalysis n) _ db4 = R at k5 ⊢
        obtain ⟨a, db5⟩ := R
        dsimp only at k5 ⊢
        exact k1.trans (k2.trans (k3.trans (k4.trans (k5.trans (PolSame.keeps ⟨rfl, rfl, rfl, rfl, rfl, rfl⟩ k5.1)))))

/-- what is said about a path that is not that of a graph -/
theorem policyDiagnostics_ok {db : Db L} (h : Inv H db) (path : String) :
    Keeps H db (policyDiagnostics db path).2 ∧
      (get (graphsOf db.docs) path = none → (policyDiagnostics db path).1 = diagSpec db.docs path) := by
  unfold policyDiagnostics
  obtain ⟨⟨G, hi⟩, hk, hs⟩ := snapshot_ok hsf h
  generalize snapshot db = S at hi hk hs ⊢
  obtain ⟨s, db1⟩ := S
  dsimp only at hi hk hs ⊢
  have hso := hi.snap s hs
  have k1 : Keeps H db db1 := ⟨⟨G, hi⟩, hk.docs⟩
  rw [← k1.2]
  cases hd : get s.diags path with
  | some d => exact ⟨k1, fun hn => hso.diags path d hd hn⟩
  | none =>
    dsimp only
    -- writing into the diagnostics
    have write : ∀ (d : L.Diag) (db2 : Db L), Keeps H db1 db2 → (get (graphsOf db1.docs) path = none → d = diagSpec db1.docs path) →
        Keeps H db1 (modSnap db2 fun s => { s with diags := set s.diags path d }) := by
      rintro d db2 ⟨⟨G, h2⟩, hd2⟩ hdd
      refine ⟨⟨G, h2.docs, h2.cache, ?_⟩, hd2⟩
      intro s' hs'
      obtain ⟨s2, h3, h4⟩ := Option.map_eq_some_iff.1 hs'
      subst h4
      have := h2.snap s2 h3
      refine ⟨this.ptrs, this.parsed, this.graphs, this.shallow, this.comps, this.index, this.units, fun p d' hp hg => ?_⟩
      dsimp only at hp
      rw [get_set] at hp
      by_cases hpp : path = p
      · subst hpp
        rw [if_pos rfl] at hp
        injection hp with hp
        subst hp
        simp only [modSnap] at hg ⊢
        rw [hd2] at hg ⊢
        exact hdd hg
      · rw [if_neg hpp] at hp
        exact this.diags p d' hp hg
    by_cases hg : (get s.graphs path).isSome = true
    · rw [if_pos hg]
      have hgn : get (graphsOf db1.docs) path ≠ none := by
        rw [hso.graphs] at hg
        intro hn; rw [hn] at hg; cases hg
      have k2 := graphAnalysis_keeps hsf (db1.docs.length + 1) path k1.1
      unfold graphAnalysisTop
      generalize graphAnalysis (db1.docs.length + 1) path db1 = R at k2 ⊢
      obtain ⟨o, db2⟩ := R
      cases o with
      | none => exact ⟨k1.trans <| write _ _ k2 fun hn => absurd hn hgn, fun hn => absurd hn hgn⟩
      | some a => exact ⟨k1.trans <| write _ _ k2 fun hn => absurd hn hgn, fun hn => absurd hn hgn⟩
    · rw [if_neg hg]
      obtain ⟨u1, u2, _, _⟩ := unitOf_ok hsf k1.1 path
      generalize unitOf db1 path = R at u1 u2 ⊢
      obtain ⟨u, db2⟩ := R
      dsimp only at u1 u2 ⊢
      obtain ⟨e1, e2⟩ := enriched_ok hsf u2.inv path
      generalize enriched db2 path = R at e1 e2 ⊢
      obtain ⟨e, db3⟩ := R
      dsimp only at e1 e2 ⊢
      have hd3 : db3.docs = db1.docs := e2.keep.docs.trans u2.keep.docs
      have hdd : L.polDiag (List.map (fun e => (e.1, match e.2.val with
          | .policy _ => true
          | .graph _ => false)) db3.docs) (vals s.parsed) s.shallow s.comps u e path = diagSpec db1.docs path := by
        unfold diagSpec kindsSpec
        rw [u1, e1, u2.keep.docs, hd3, hso.parsed, hso.shallow, hso.comps]
        rfl
      exact ⟨k1.trans <| write _ _ (u2.keeps.trans e2.keeps) fun _ => hdd, fun _ => hdd⟩

theorem answer_keeps {db : Db L} (h : Inv H db) (q : Query) : Keeps H db (answer db q).2 := by
  cases q with
  | parsed p => exact (snapshot_ok hsf h).keeps
  | shallow p => exact (snapshot_ok hsf h).keeps
  | members p => exact (snapshot_ok hsf h).keeps
  | unit p => exact (unitOf_ok hsf h p).2.1.keeps
  | enriched p => exact (enriched_ok hsf h p).2.keeps
  | graph p => exact graphAnalysis_keeps hsf (db.docs.length + 1) p h
  | diagnostics p => exact (policyDiagnostics_ok hsf h p).1
end

/-! ## Documents -/

/-- the documents are listed by path -/
def Sorted {V : Type} (l : List (String × V)) : Prop := l.Pairwise fun a b => a.1 < b.1

theorem mem_put {V : Type} {k : String} {v : V} : ∀ {l : List (String × V)} {e : String × V}, e ∈ put k v l → e = (k, v) ∨ e ∈ l
  | [], e, h => .inl (by simpa [put] using h)
  | (k', v') :: l, e, h => by
    unfold put at h
    split at h
    · rcases List.mem_cons.1 h with h | h
      · exact .inl h
      · exact .inr (by simp [h])
    · split at h
      · rcases List.mem_cons.1 h with h | h
        · exact .inl h
        · exact .inr h
      · rcases List.mem_cons.1 h with h | h
        · exact .inr (by simp [h])
        · rcases mem_put h with h | h
          · exact .inl h
          · exact .inr (by simp [h])

theorem sorted_put {V : Type} {k : String} {v : V} : ∀ {l : List (String × V)}, Sorted l → Sorted (put k v l)
  | [], _ => List.pairwise_singleton _ _
  | (k', v') :: l, h => by
    obtain ⟨h1, h2⟩ := List.pairwise_cons.1 h
    unfold put
    split
    · rename_i hk
      subst hk
      exact List.pairwise_cons.2 ⟨h1, h2⟩
    · rename_i hk
      split
      · rename_i hlt
        refine List.pairwise_cons.2 ⟨fun e he => ?_, h⟩
        rcases List.mem_cons.1 he with rfl | he
        · exact hlt
        · exact lt_trans hlt (h1 e he)
      · rename_i hlt
        refine List.pairwise_cons.2 ⟨fun e he => ?_, sorted_put h2⟩
        rcases mem_put he with rfl | he
        · exact lt_of_le_of_ne (not_lt.1 hlt) hk
        · exact h1 e he

theorem get_put {V : Type} (k : String) (v : V) : ∀ (l : List (String × V)) (k' : String), Sorted l →
    get (put k v l) k' = if k = k' then some v else get l k'
  | [], k', _ => by simp [put, get]
  | (x, v') :: l, k', h => by
    obtain ⟨h1, h2⟩ := List.pairwise_cons.1 h
    unfold put
    by_cases hk : x = k
    · rw [if_pos hk]
      subst hk
      simp only [get]
      by_cases h3 : x = k' <;> simp [h3]
    · rw [if_neg hk]
      by_cases hlt : k < x
      · rw [if_pos hlt, get]
      · rw [if_neg hlt, get, get_put k v l k' h2]
        conv => rhs; rw [get]
        by_cases h3 : x = k'
        · rw [if_pos h3, if_pos h3, if_neg (fun h => hk (h3.trans h.symm))]
        · rw [if_neg h3, if_neg h3]

theorem sorted_del {V : Type} {k : String} {l : List (String × V)} (h : Sorted l) : Sorted (del l k) := h.filter _

theorem get_del {V : Type} (k : String) (l : List (String × V)) (k' : String) : get (del l k) k' = if k = k' then none else get l k' := by
  unfold del
  rw [get_filter (fun x => decide (x ≠ k))]
  by_cases h : k = k'
  · simp [h]
  · rw [if_pos (by simpa using Ne.symm h), if_neg h]

theorem get_of_lt {V : Type} {l : List (String × V)} {k : String} (h : ∀ e ∈ l, k < e.1) : get l k = none := by
  cases hg : get l k with
  | none => rfl
  | some v => exact absurd (h _ (get_mem hg)) (lt_irrefl _)

/-- documents listed by path are given by what is found at each path -/
theorem sorted_ext {V : Type} : ∀ {a b : List (String × V)}, Sorted a → Sorted b → (∀ k, get a k = get b k) → a = b
  | [], [], _, _, _ => rfl
  | [], (k, v) :: b, _, _, h => by have := h k; simp [get] at this
  | (k, v) :: a, [], _, _, h => by have := h k; simp [get] at this
  | (k, v) :: a, (k', v') :: b, ha, hb, h => by
    obtain ⟨ha1, ha2⟩ := List.pairwise_cons.1 ha
    obtain ⟨hb1, hb2⟩ := List.pairwise_cons.1 hb
    have hkk : k = k' := by
      rcases lt_trichotomy k k' with hlt | rfl | hlt
      · have := h k
        rw [get, if_pos rfl, get, if_neg (ne_of_gt hlt), get_of_lt fun e he => lt_trans hlt (hb1 e he)] at this
        cases this
      · rfl
      · have := h k'
        rw [get, if_neg (ne_of_gt hlt), get, if_pos rfl, get_of_lt fun e he => lt_trans hlt (ha1 e he)] at this
        cases this
    subst hkk
    have hv : v = v' := by
      have := h k
      rw [get, if_pos rfl, get, if_pos rfl] at this
      exact Option.some.inj this
    subst hv
    rw [sorted_ext ha2 hb2 fun x => ?_]
    by_cases hx : k = x
    · subst hx; rw [get_of_lt ha1, get_of_lt hb1]
    · have := h x
      rwa [get, if_neg hx, get, if_neg hx] at this

/-- a document without addresses -/
inductive Doc (L : Lang) where
  | policy (p : L.PolDoc)
  | graph (g : L.GraphDoc)

def docVal (d : Ptr (Content L)) : Doc L := match d.val with
  | .policy p => .policy p.val
  | .graph g => .graph g

def Doc.pol : Doc L → Option L.PolDoc
  | .policy p => some p
  | .graph _ => none

def Doc.gr : Doc L → Option L.GraphDoc
  | .policy _ => none
  | .graph g => some g

/-- the document at a path -/
def docAt (docs : List (String × Ptr (Content L))) (path : String) : Option (Doc L) := (get docs path).map docVal

/-- the documents without addresses -/
def world (docs : List (String × Ptr (Content L))) : List (String × Doc L) := docs.map fun e => (e.1, docVal e.2)

theorem get_world (docs : List (String × Ptr (Content L))) (p : String) : get (world docs) p = docAt docs p :=
  get_map (fun _ d => docVal d) docs p

theorem sorted_world {docs : List (String × Ptr (Content L))} (h : Sorted docs) : Sorted (world docs) := by
  unfold world Sorted
  rw [List.pairwise_map]
  exact h

theorem get_filterMap {V W : Type} (f : V → Option W) (l : List (String × V)) (h : Sorted l) (k : String) :
    get (l.filterMap fun e => (f e.2).map fun w => (e.1, w)) k = (get l k).bind f := by
  induction l with
  | nil => rfl
  | cons e l ih =>
    obtain ⟨k', v⟩ := e
    obtain ⟨h1, h2⟩ := List.pairwise_cons.1 h
    by_cases hk : k' = k
    · subst hk
      rw [get, if_pos rfl]
      cases hf : f v with
      | none =>
        rw [List.filterMap_cons_none (by simp [hf]), ih h2, get_of_lt h1]
        simp [hf]
      | some w =>
        rw [List.filterMap_cons_some (b := (k', w)) (by simp [hf]), get, if_pos rfl]
        simp [hf]
    · rw [get, if_neg hk]
      cases hf : f v with
      | none => rw [List.filterMap_cons_none (by simp [hf]), ih h2]
      | some w => rw [List.filterMap_cons_some (b := (k', w)) (by simp [hf]), get, if_neg hk, ih h2]

theorem graphsOf_world (docs : List (String × Ptr (Content L))) :
    graphsOf docs = (world docs).filterMap fun e => (Doc.gr e.2).map fun w => (e.1, w) := by
  unfold graphsOf world
  rw [List.filterMap_map]
  congr 1
  funext e
  obtain ⟨k, a, v⟩ := e
  cases v <;> rfl

theorem parsedSpec_world (docs : List (String × Ptr (Content L))) :
    parsedSpec docs = ((world docs).filterMap fun e => (Doc.pol e.2).map fun w => (e.1, w)).map fun e => (e.1, L.parse e.1 e.2) := by
  unfold parsedSpec policiesOf world
  rw [List.filterMap_map, List.map_filterMap, List.map_filterMap]
  congr 1
  funext e
  obtain ⟨k, a, v⟩ := e
  cases v <;> rfl

theorem get_graphsOf {docs : List (String × Ptr (Content L))} (h : Sorted docs) (p : String) :
    get (graphsOf docs) p = (docAt docs p).bind Doc.gr := by
  rw [graphsOf_world, get_filterMap _ _ (sorted_world h), get_world]

theorem get_parsedSpec {docs : List (String × Ptr (Content L))} (h : Sorted docs) (p : String) :
    get (parsedSpec docs) p = ((docAt docs p).bind Doc.pol).map (L.parse p) := by
  rw [parsedSpec_world, get_map (fun k v => L.parse k v), get_filterMap _ _ (sorted_world h), get_world]

/-- What is determined by the documents does not depend on their addresses. -/
theorem world_ext {a b : List (String × Ptr (Content L))} (ha : Sorted a) (hb : Sorted b) (h : ∀ p, docAt a p = docAt b p) :
    world a = world b :=
  sorted_ext (sorted_world ha) (sorted_world hb) fun p => by rw [get_world, get_world, h p]

theorem kindsSpec_world (docs : List (String × Ptr (Content L))) :
    kindsSpec docs = (world docs).map fun e => (e.1, e.2.pol.isSome) := by
  unfold kindsSpec world
  rw [List.map_map]
  congr 1
  funext e
  obtain ⟨k, a, v⟩ := e
  cases v <;> rfl

theorem specs_congr {a b : List (String × Ptr (Content L))} (h : world a = world b) :
    parsedSpec a = parsedSpec b ∧ graphsOf a = graphsOf b ∧ kindsSpec a = kindsSpec b := by
  rw [parsedSpec_world, parsedSpec_world, graphsOf_world, graphsOf_world, kindsSpec_world, kindsSpec_world, h]
  exact ⟨rfl, rfl, rfl⟩

theorem compsSpec_congr {a b : List (String × Ptr (Content L))} (h : parsedSpec a = parsedSpec b) : compsSpec a = compsSpec b := by
  unfold compsSpec importsSpec; rw [h]

theorem membersSpec_congr {a b : List (String × Ptr (Content L))} (h : parsedSpec a = parsedSpec b) (p : String) :
    membersSpec a p = membersSpec b p := by unfold membersSpec; rw [compsSpec_congr h]

theorem unitSpec_congr {a b : List (String × Ptr (Content L))} (h : parsedSpec a = parsedSpec b) (p : String) :
    unitSpec a p = unitSpec b p := by unfold unitSpec; rw [membersSpec_congr h, h]

theorem enrichSpec_congr {a b : List (String × Ptr (Content L))} (h : parsedSpec a = parsedSpec b) (p : String) :
    enrichSpec a p = enrichSpec b p := by unfold enrichSpec; rw [membersSpec_congr h, h]

theorem sigSpec_congr {a b : List (String × Ptr (Content L))} (h : parsedSpec a = parsedSpec b) (p : String) :
    sigSpec a p = sigSpec b p := by
  unfold sigSpec; rw [unitSpec_congr h, enrichSpec_congr h, membersSpec_congr h, h]

theorem diagSpec_congr {a b : List (String × Ptr (Content L))} (h : world a = world b) (p : String) : diagSpec a p = diagSpec b p := by
  obtain ⟨h1, _, h3⟩ := specs_congr h
  unfold diagSpec
  rw [unitSpec_congr h1, enrichSpec_congr h1, compsSpec_congr h1, h1, h3]

end Zen.Ws
