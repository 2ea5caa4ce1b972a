import Verif.Policy.Instances
import Verif.Core.MapLemmas
/-
The resolution of the instances with its memory and the paths being visited computes what the plain recursion computes.
-/
namespace Zen.Policy.Inst
open Zen Zen.Policy

/-! ## the same recursion without memory -/

def hopsP (G : Ents) (rec : String → Option Target) : String → Target → List String → Option Target
  | _, cur, [] => some cur
  | cum, cur, f :: fs =>
    if cur.array then none
    else match declared G cur.target f with
      | some t => hopsP G rec (cum ++ "." ++ f) t fs
      | none => match rec (cum ++ "." ++ f) with
        | none => none
        | some t => hopsP G rec (cum ++ "." ++ f) t fs

def srcP (G : Ents) (rec : String → Option Target) : List String → Option Target
  | [] => none
  | root :: rest =>
    if (aGet G.models root).isSome then hopsP G rec root ⟨root, G.pool.contains root⟩ rest
    else match aGet G.globals root with
      | some p => match leads p with
        | some t => hopsP G rec root t rest
        | none => none
      | none => match rec root with
        | none => none
        | some t => hopsP G rec root t rest

def resN (G : Ents) : Nat → String → Option Target
  | 0, _ => none
  | n + 1, p => match aGet G.sources p with
    | none => none
    | some src => (srcP G (resN G n) (splitDot src.path)).bind (pick src)

variable {G : Ents}

def Le (r r' : String → Option Target) : Prop := ∀ p t, r p = some t → r' p = some t

theorem hopsP_mono {r r' : String → Option Target} (h : Le r r') : ∀ (fs : List String) (cum : String) (cur t : Target),
    hopsP G r cum cur fs = some t → hopsP G r' cum cur fs = some t := by
  intro fs
  induction fs with
  | nil => intro cum cur t e; exact e
  | cons f fs ih =>
    intro cum cur t e
    simp only [hopsP] at e ⊢
    split at e
    · cases e
    · rename_i ha
      rw [if_neg ha]
      cases hd : declared G cur.target f with
      | some t1 => rw [hd] at e; exact ih _ _ _ e
      | none =>
        rw [hd] at e
        cases hr : r (cum ++ "." ++ f) with
        | none => rw [hr] at e; cases e
        | some t1 =>
          rw [hr] at e
          simp only [h _ _ hr]
          exact ih _ _ _ e

theorem srcP_mono {r r' : String → Option Target} (h : Le r r') (segs : List String) (t : Target) (e : srcP G r segs = some t) :
    srcP G r' segs = some t := by
  cases segs with
  | nil => exact e
  | cons root rest =>
    simp only [srcP] at e ⊢
    split at e
    · rename_i ha; rw [if_pos ha]; exact hopsP_mono h _ _ _ _ e
    · rename_i ha
      rw [if_neg ha]
      cases hg : aGet G.globals root with
      | some p =>
        rw [hg] at e
        cases hl : leads p with
        | none => simp only [hl] at e; cases e
        | some t1 => simp only [hl] at e ⊢; exact hopsP_mono h _ _ _ _ e
      | none =>
        rw [hg] at e
        cases hr : r root with
        | none => simp only [hr] at e; cases e
        | some t1 => simp only [hr] at e; simp only [h _ _ hr]; exact hopsP_mono h _ _ _ _ e

theorem resN_succ : ∀ n, Le (resN G n) (resN G (n + 1)) := by
  intro n
  induction n with
  | zero => intro p t h; cases h
  | succ n ih =>
    intro p t h
    simp only [resN] at h
    rw [resN]
    cases hs : aGet G.sources p with
    | none => rw [hs] at h; cases h
    | some src =>
      rw [hs] at h
      simp only [Option.bind_eq_some_iff] at h ⊢
      obtain ⟨a, ha, hb⟩ := h
      exact ⟨a, srcP_mono ih _ _ ha, hb⟩

theorem resN_mono {m n : Nat} (h : m ≤ n) : Le (resN G m) (resN G n) := by
  induction h with
  | refl => exact fun _ _ h => h
  | step _ ih => exact fun p t h => resN_succ _ _ _ (ih p t h)

theorem resN_unique {m n : Nat} {p : String} {t t' : Target} (h : resN G m p = some t) (h' : resN G n p = some t') : t = t' := by
  have a := resN_mono (Nat.le_max_left m n) _ _ h
  have b := resN_mono (Nat.le_max_right m n) _ _ h'
  rw [a] at b
  exact Option.some.inj b

/-! ## with memory -/

/-- what every path that is being visited needs, in fewer steps -/
def Needs (G : Ents) (vis : List String) (d : String) : Prop :=
  ∀ q ∈ vis, ∀ n t, resN G n q = some t → ∃ m < n, ∃ t', resN G m d = some t'

def Exact (G : Ents) (r : Option Target) (p : String) : Prop := ∀ t, r = some t ↔ ∃ n, resN G n p = some t

def MemoOk (G : Ents) (memo : Memo) : Prop := ∀ p r, aGet memo p = some r → Exact G r p

def RecOk (G : Ents) (vis : List String) (rec : Memo → String → Option Target × Memo) : Prop :=
  ∀ memo d, MemoOk G memo → Needs G vis d → Exact G (rec memo d).1 d ∧ MemoOk G (rec memo d).2

theorem hops_exact {vis : List String} {rec : Memo → String → Option Target × Memo} (hrec : RecOk G vis rec) :
    ∀ (fs : List String) (memo : Memo) (cum : String) (cur : Target), MemoOk G memo →
    (∀ q ∈ vis, ∀ n t, resN G n q = some t → ∃ m < n, ∃ t', hopsP G (resN G m) cum cur fs = some t') →
    (∀ t, (hops G rec memo cum cur fs).1 = some t ↔ ∃ n, hopsP G (resN G n) cum cur fs = some t) ∧ MemoOk G (hops G rec memo cum cur fs).2 := by
  intro fs
  induction fs with
  | nil => intro memo cum cur hm _; exact ⟨fun t => ⟨fun h => ⟨0, h⟩, fun ⟨_, h⟩ => h⟩, hm⟩
  | cons f fs ih =>
    intro memo cum cur hm hn
    simp only [hops, hopsP] at hn ⊢
    by_cases ha : cur.array = true
    · simp only [if_pos ha] at hn ⊢
      exact ⟨fun t => ⟨fun h => (by cases h), fun ⟨_, h⟩ => (by cases h)⟩, hm⟩
    · simp only [if_neg ha] at hn ⊢
      cases hd : declared G cur.target f with
      | some t1 => simp only [hd] at hn ⊢; exact ih memo _ t1 hm hn
      | none =>
        simp only [hd] at hn ⊢
        have hne : Needs G vis (cum ++ "." ++ f) := by
          intro q hq n t h
          obtain ⟨m, hm, t', e⟩ := hn q hq n t h
          cases hr : resN G m (cum ++ "." ++ f) with
          | none => rw [hr] at e; cases e
          | some t1 => exact ⟨m, hm, t1, hr⟩
        obtain ⟨he, hm'⟩ := hrec memo _ hm hne
        cases hr : rec memo (cum ++ "." ++ f) with
        | mk r memo' =>
          rw [hr] at he hm'
          cases r with
          | none =>
            refine ⟨fun t => ⟨fun h => (by cases h), fun ⟨n, h⟩ => ?_⟩, hm'⟩
            cases hr' : resN G n (cum ++ "." ++ f) with
            | none => rw [hr'] at h; cases h
            | some t1 => have := (he t1).2 ⟨n, hr'⟩; cases this
          | some t1 =>
            obtain ⟨n1, h1⟩ := (he t1).1 rfl
            have hu : ∀ n t2, resN G n (cum ++ "." ++ f) = some t2 → t2 = t1 := fun n t2 h => resN_unique h h1
            have := ih memo' (cum ++ "." ++ f) t1 hm' (fun q hq n t h => by
              obtain ⟨m, hm, t', e⟩ := hn q hq n t h
              cases hr' : resN G m (cum ++ "." ++ f) with
              | none => rw [hr'] at e; cases e
              | some t2 => rw [hr'] at e; cases hu _ _ hr'; exact ⟨m, hm, t', e⟩)
            refine ⟨fun t => (this.1 t).trans ⟨fun ⟨n, h⟩ => ?_, fun ⟨n, h⟩ => ?_⟩, this.2⟩
            · refine ⟨max n n1, ?_⟩
              rw [resN_mono (Nat.le_max_right n n1) _ _ h1]
              exact hopsP_mono (resN_mono (Nat.le_max_left n n1)) _ _ _ _ h
            · cases hr' : resN G n (cum ++ "." ++ f) with
              | none => rw [hr'] at h; cases h
              | some t2 => rw [hr'] at h; cases hu _ _ hr'; exact ⟨n, h⟩

theorem srcPath_exact {vis : List String} {rec : Memo → String → Option Target × Memo} (hrec : RecOk G vis rec) (segs : List String) (memo : Memo)
    (hm : MemoOk G memo) (hn : ∀ q ∈ vis, ∀ n t, resN G n q = some t → ∃ m < n, ∃ t', srcP G (resN G m) segs = some t') :
    (∀ t, (srcPath G rec memo segs).1 = some t ↔ ∃ n, srcP G (resN G n) segs = some t) ∧ MemoOk G (srcPath G rec memo segs).2 := by
  cases segs with
  | nil => exact ⟨fun t => ⟨fun h => (by cases h), fun ⟨_, h⟩ => (by cases h)⟩, hm⟩
  | cons root rest =>
    simp only [srcPath, srcP] at hn ⊢
    by_cases ha : (aGet G.models root).isSome = true
    · simp only [if_pos ha] at hn ⊢
      exact hops_exact hrec rest memo _ _ hm hn
    · simp only [if_neg ha] at hn ⊢
      cases hg : aGet G.globals root with
      | some p =>
        simp only [hg] at hn ⊢
        cases hl : leads p with
        | none => exact ⟨fun t => ⟨fun h => (by cases h), fun ⟨_, h⟩ => (by cases h)⟩, hm⟩
        | some t1 => simp only [hl] at hn ⊢; exact hops_exact hrec rest memo _ _ hm hn
      | none =>
        simp only [hg] at hn ⊢
        have hne : Needs G vis root := by
          intro q hq n t h
          obtain ⟨m, hm, t', e⟩ := hn q hq n t h
          cases hr : resN G m root with
          | none => rw [hr] at e; cases e
          | some t1 => exact ⟨m, hm, t1, hr⟩
        obtain ⟨he, hm'⟩ := hrec memo _ hm hne
        cases hr : rec memo root with
        | mk r memo' =>
          rw [hr] at he hm'
          cases r with
          | none =>
            refine ⟨fun t => ⟨fun h => (by cases h), fun ⟨n, h⟩ => ?_⟩, hm'⟩
            cases hr' : resN G n root with
            | none => rw [hr'] at h; cases h
            | some t1 => have := (he t1).2 ⟨n, hr'⟩; cases this
          | some t1 =>
            obtain ⟨n1, h1⟩ := (he t1).1 rfl
            have hu : ∀ n t2, resN G n root = some t2 → t2 = t1 := fun n t2 h => resN_unique h h1
            have := hops_exact hrec rest memo' root t1 hm' (fun q hq n t h => by
              obtain ⟨m, hm, t', e⟩ := hn q hq n t h
              cases hr' : resN G m root with
              | none => rw [hr'] at e; cases e
              | some t2 => rw [hr'] at e; cases hu _ _ hr'; exact ⟨m, hm, t', e⟩)
            refine ⟨fun t => (this.1 t).trans ⟨fun ⟨n, h⟩ => ?_, fun ⟨n, h⟩ => ?_⟩, this.2⟩
            · refine ⟨max n n1, ?_⟩
              rw [resN_mono (Nat.le_max_right n n1) _ _ h1]
              exact hopsP_mono (resN_mono (Nat.le_max_left n n1)) _ _ _ _ h
            · cases hr' : resN G n root with
              | none => rw [hr'] at h; cases h
              | some t2 => rw [hr'] at h; cases hu _ _ hr'; exact ⟨n, h⟩

theorem memo_set {memo : Memo} (hm : MemoOk G memo) {p : String} {r : Option Target} (h : Exact G r p) : MemoOk G (aSet memo p r) := by
  intro q r' e
  rw [aGet_aSet] at e
  split at e
  · rename_i hq; subst hq; cases e; exact h
  · exact hm q r' e

theorem open_lt {p : String} {vis : List String} : ∀ {l : List String}, p ∈ l → p ∉ vis →
    (l.filter fun x => decide (x ∉ p :: vis)).length < (l.filter fun x => decide (x ∉ vis)).length := by
  intro l hl hv
  have le : ∀ l : List String, (l.filter fun x => decide (x ∉ p :: vis)).length ≤ (l.filter fun x => decide (x ∉ vis)).length := by
    intro l
    induction l with
    | nil => exact Nat.le_refl _
    | cons a l ih =>
      simp only [List.filter_cons, List.mem_cons, not_or]
      by_cases h : a = p <;> by_cases h' : a ∈ vis <;> simp_all <;> omega
  induction l with
  | nil => cases hl
  | cons a l ih =>
    by_cases h : a = p
    · subst h
      have := le l
      simp only [List.filter_cons]
      simp [hv]
      simp at this
      omega
    · have := ih (by rcases List.mem_cons.1 hl with e | e; exact absurd e.symm h; exact e)
      simp only [List.filter_cons]
      by_cases h' : a ∈ vis <;> simp_all <;> omega

theorem resolve_exact : ∀ (n : Nat) (vis : List String), ((G.sources.map Prod.fst).filter fun x => decide (x ∉ vis)).length < n →
    RecOk G vis (resolve G n vis) := by
  intro n
  induction n with
  | zero => intro vis h; omega
  | succ n ih =>
    intro vis hf memo p hm hn
    simp only [resolve]
    cases hk : aGet memo p with
    | some known => exact ⟨hm p known hk, hm⟩
    | none =>
      dsimp only
      by_cases hv : p ∈ vis
      · rw [if_pos hv]
        have no : ∀ k t, resN G k p ≠ some t := by
          intro k
          induction k using Nat.strongRecOn with
          | ind k ihk =>
            intro t h
            obtain ⟨m, hmk, t', h'⟩ := hn p hv k t h
            exact ihk m hmk t' h'
        exact ⟨fun t => ⟨fun h => (by cases h), fun ⟨k, h⟩ => absurd h (no k t)⟩, hm⟩
      · rw [if_neg hv]
        cases hs : aGet G.sources p with
        | none =>
          have : Exact G none p := fun t => ⟨fun h => (by cases h), fun ⟨k, h⟩ => by
            cases k with
            | zero => cases h
            | succ k => simp only [resN, hs] at h; cases h⟩
          exact ⟨this, memo_set hm this⟩
        | some src =>
          have hpk : p ∈ G.sources.map Prod.fst := by
            have := aGet_mem hs
            exact List.mem_map.2 ⟨_, this, rfl⟩
          have hlt := open_lt (vis := vis) hpk hv
          have hrec := ih (p :: vis) (by omega)
          have key : ∀ q ∈ p :: vis, ∀ k t, resN G k q = some t → ∃ m < k, ∃ t', srcP G (resN G m) (splitDot src.path) = some t' := by
            have self : ∀ k t, resN G k p = some t → ∃ m < k, ∃ t', srcP G (resN G m) (splitDot src.path) = some t' := by
              intro k t h
              cases k with
              | zero => cases h
              | succ k =>
                simp only [resN, hs, Option.bind_eq_some_iff] at h
                obtain ⟨a, ha, _⟩ := h
                exact ⟨k, Nat.lt_succ_self k, a, ha⟩
            intro q hq k t h
            rcases List.mem_cons.1 hq with rfl | hq
            · exact self k t h
            · obtain ⟨m, hmk, t', h'⟩ := hn q hq k t h
              obtain ⟨m', hm', t'', h''⟩ := self m t' h'
              exact ⟨m', by omega, t'', h''⟩
          obtain ⟨he, hm'⟩ := srcPath_exact hrec (splitDot src.path) memo hm key
          cases hr : srcPath G (resolve G n (p :: vis)) memo (splitDot src.path) with
          | mk r memo' =>
            rw [hr] at he hm'
            have : Exact G (r.bind (pick src)) p := by
              intro t
              simp only [Option.bind_eq_some_iff]
              constructor
              · rintro ⟨a, ha, hb⟩
                obtain ⟨k, hk⟩ := (he a).1 ha
                refine ⟨k + 1, ?_⟩
                simp only [resN, hs, Option.bind_eq_some_iff]
                exact ⟨a, hk, hb⟩
              · rintro ⟨k, h⟩
                cases k with
                | zero => cases h
                | succ k =>
                  simp only [resN, hs, Option.bind_eq_some_iff] at h
                  obtain ⟨a, ha, hb⟩ := h
                  exact ⟨a, (he a).2 ⟨k, ha⟩, hb⟩
            simp only [hr]
            exact ⟨this, memo_set hm' this⟩

/-! ## everything that was visited is kept -/

/-- the keys stay, and stay different -/
def Grow (a b : Memo) : Prop := ((aKeys a).Nodup → (aKeys b).Nodup) ∧ ∀ q ∈ aKeys a, q ∈ aKeys b

theorem Grow.rfl' {a : Memo} : Grow a a := ⟨id, fun _ h => h⟩
theorem Grow.trans {a b c : Memo} (h : Grow a b) (h' : Grow b c) : Grow a c := ⟨fun x => h'.1 (h.1 x), fun q hq => h'.2 q (h.2 q hq)⟩
theorem Grow.set (a : Memo) (p : String) (r : Option Target) : Grow a (aSet a p r) := by
  refine ⟨aKeys_aSet_nodup p r, fun q hq => ?_⟩
  rw [← aGet_isSome_iff] at hq ⊢
  rw [aGet_aSet]
  split
  · rfl
  · exact hq

theorem hops_grow {rec : Memo → String → Option Target × Memo} (hr : ∀ m p, Grow m (rec m p).2) : ∀ (fs : List String) (memo : Memo) (cum : String) (cur : Target),
    Grow memo (hops G rec memo cum cur fs).2 := by
  intro fs
  induction fs with
  | nil => intro memo cum cur; exact .rfl'
  | cons f fs ih =>
    intro memo cum cur
    simp only [hops]
    split
    · exact .rfl'
    · split
      · exact ih _ _ _
      · have := hr memo (cum ++ "." ++ f)
        cases hx : rec memo (cum ++ "." ++ f) with
        | mk r memo' =>
          rw [hx] at this
          cases r with
          | none => exact this
          | some t => exact this.trans (ih _ _ _)

theorem srcPath_grow {rec : Memo → String → Option Target × Memo} (hr : ∀ m p, Grow m (rec m p).2) (memo : Memo) (segs : List String) :
    Grow memo (srcPath G rec memo segs).2 := by
  cases segs with
  | nil => exact .rfl'
  | cons root rest =>
    simp only [srcPath]
    split
    · exact hops_grow hr _ _ _ _
    · split
      · split
        · exact hops_grow hr _ _ _ _
        · exact .rfl'
      · have := hr memo root
        cases hx : rec memo root with
        | mk r memo' =>
          rw [hx] at this
          cases r with
          | none => exact this
          | some t => exact this.trans (hops_grow hr _ _ _ _)

theorem resolve_grow : ∀ (n : Nat) (vis : List String) (memo : Memo) (p : String), Grow memo (resolve G n vis memo p).2 := by
  intro n
  induction n with
  | zero => intro vis memo p; exact .rfl'
  | succ n ih =>
    intro vis memo p
    simp only [resolve]
    split
    · exact .rfl'
    · split
      · exact .rfl'
      · split
        · exact .set _ _ _
        · exact (srcPath_grow (ih _) _ _).trans (.set _ _ _)

/-- a path that was asked for has an answer -/
theorem resolve_has (n : Nat) (memo : Memo) (p : String) : p ∈ aKeys (resolve G (n + 1) [] memo p).2 := by
  rw [← aGet_isSome_iff]
  simp only [resolve]
  cases hk : aGet memo p with
  | some known => simp [hk]
  | none =>
    simp only [List.not_mem_nil, if_false]
    split
    · rw [aGet_aSet, if_pos rfl]; rfl
    · rw [aGet_aSet, if_pos rfl]; rfl

theorem targets_exact (order : List String) (hc : ∀ p ∈ aKeys G.sources, p ∈ order) (p : String) (t : Target) :
    (p, t) ∈ targets G order ↔ ∃ n, resN G n p = some t := by
  have hrec : RecOk G [] (resolve G (G.sources.length + 2) []) := resolve_exact _ _ (by
    have := List.length_filter_le (fun x => decide (x ∉ ([] : List String))) (G.sources.map Prod.fst)
    rw [List.length_map] at this
    omega)
  have fold : ∀ (order : List String) (memo : Memo), MemoOk G memo → (aKeys memo).Nodup →
      let m := order.foldl (fun memo p => (resolve G (G.sources.length + 2) [] memo p).2) memo
      MemoOk G m ∧ (aKeys m).Nodup ∧ (∀ p ∈ order, p ∈ aKeys m) ∧ ∀ p ∈ aKeys memo, p ∈ aKeys m := by
    intro order
    induction order with
    | nil => intro memo hm hd; exact ⟨hm, hd, fun p h => (by cases h), fun p h => h⟩
    | cons p order ih =>
      intro memo hm hd
      have h1 := (hrec memo p hm (fun q hq => by cases hq)).2
      have h2 := resolve_grow (G := G) (G.sources.length + 2) [] memo p
      obtain ⟨a, b, c, d⟩ := ih _ h1 (h2.1 hd)
      refine ⟨a, b, fun q hq => ?_, fun q hq => d q (h2.2 q hq)⟩
      rcases List.mem_cons.1 hq with rfl | hq
      · exact d _ (resolve_has _ memo q)
      · exact c q hq
  obtain ⟨hm, hd, hall, _⟩ := fold order [] (fun p r h => by cases h) (List.nodup_nil)
  unfold targets
  generalize order.foldl (fun memo p => (resolve G (G.sources.length + 2) [] memo p).2) [] = m at hm hd hall
  simp only [List.mem_filterMap, Option.map_eq_some_iff, Prod.exists, Prod.mk.injEq]
  constructor
  · rintro ⟨a, r, hmem, t', rfl, rfl, rfl⟩
    exact (hm a _ (aGet_of_mem hd hmem) t').1 rfl
  · rintro ⟨n, h⟩
    have hk : p ∈ aKeys G.sources := by
      rw [← aGet_isSome_iff]
      cases n with
      | zero => cases h
      | succ n =>
        simp only [resN] at h
        cases hs : aGet G.sources p with
        | none => rw [hs] at h; cases h
        | some s => rfl
    have := hall p (hc p hk)
    rw [← aGet_isSome_iff] at this
    obtain ⟨r, hr⟩ := Option.isSome_iff_exists.1 this
    have he := (hm p r hr t).2 ⟨n, h⟩
    subst he
    exact ⟨p, some t, aGet_mem hr, t, rfl, rfl, rfl⟩

end Zen.Policy.Inst
