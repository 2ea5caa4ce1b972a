import Verif.Loader.Files
import Mathlib.Data.List.Nodup

/-
C80: the loader of files lists exactly the decisions below its root, once each, and loads for a
listed key the file it was listed for; a key without `..` stays below the root, while an absolute key
or one with `..` does not.
-/

namespace Zen.Fsl.C80

open Zen Zen.Fsl

/-- `t'` is reached from `t` through these names; with `q`, every directory on the way can be
listed. -/
inductive Below (q : Bool) : Tree → List Name → Tree → Prop
  | here (t : Tree) : Below q t [] t
  | into {r : Bool} {es : List (Name × Tree)} {n : Name} {t t' : Tree} {ns : List Name}
      (hr : q = true → r = true) (hm : (n, t) ∈ es) (h : Below q t ns t') :
      Below q (.dir r es) (n :: ns) t'

/-- A name that an entry of a directory can have. -/
def Name.Valid : Name → Prop
  | .text s => s ≠ [] ∧ '/' ∉ s ∧ s ≠ ['.'] ∧ s ≠ ['.', '.']
  | .raw _ _ => True

/-- What operating systems ensure: within a directory names are valid and different. -/
def Proper (t : Tree) : Prop :=
  ∀ ns r es, Below false t ns (.dir r es) → (es.map Prod.fst).Nodup ∧ ∀ e ∈ es, Name.Valid e.1

/-- A part of a path that names an entry. -/
def Plain (s : Str) : Prop := s ≠ [] ∧ s ≠ ['.'] ∧ s ≠ ['.', '.']

theorem Below.weaken {t t' : Tree} {ns : List Name} (h : Below true t ns t') :
    Below false t ns t' := by
  induction h with
  | here t => exact .here t
  | into hr hm _ ih => exact .into (by simp) hm ih

theorem Below.snoc {q : Bool} {t : Tree} {ns : List Name} {r : Bool} {es : List (Name × Tree)}
    {n : Name} {t' : Tree} (h : Below q t ns (.dir r es)) (hr : q = true → r = true)
    (hm : (n, t') ∈ es) : Below q t (ns ++ [n]) t' := by
  generalize hd : Tree.dir r es = d at h
  induction h with
  | here t => subst hd; exact .into hr hm (.here _)
  | into hr' hm' _ ih => exact .into hr' hm' (ih hd)

theorem Below.trans {q : Bool} {t t' t'' : Tree} {ns ms : List Name} (h : Below q t ns t')
    (h2 : Below q t' ms t'') : Below q t (ns ++ ms) t'' := by
  induction h with
  | here t => exact h2
  | into hr hm _ ih => exact .into hr hm (ih h2)

theorem Proper.sub {t t' : Tree} {ns : List Name} (hp : Proper t) (h : Below false t ns t') :
    Proper t' := fun ms r es hb => hp (ns ++ ms) r es (h.trans hb)

/-! ### Parts of paths -/

theorem segs_ne (p : Str) : segs p ≠ [] := by
  cases p with
  | nil => simp [segs]
  | cons c cs =>
    simp only [segs]
    split
    · simp
    · split <;> simp

theorem segs_append (a b : Str) : segs (a ++ '/' :: b) = segs a ++ segs b := by
  induction a with
  | nil => simp [segs]
  | cons c cs ih =>
    by_cases hc : c = '/'
    · simp [segs, hc, ih]
    · simp only [List.cons_append, segs, if_neg hc, ih]
      cases h : segs cs with
      | nil => exact absurd h (segs_ne cs)
      | cons s r => simp

theorem segs_single {s : Str} (h : '/' ∉ s) : segs s = [s] := by
  induction s with
  | nil => rfl
  | cons c cs ih =>
    simp only [List.mem_cons, not_or] at h
    simp [segs, Ne.symm h.1, ih h.2]

theorem segs_glue {l : List Str} (hl : l ≠ []) (h : ∀ s ∈ l, '/' ∉ s) : segs (glue l) = l := by
  induction l with
  | nil => exact absurd rfl hl
  | cons s r ih =>
    cases r with
    | nil => exact segs_single (h s (by simp))
    | cons s' r' =>
      rw [glue, segs_append, segs_single (h s (by simp)), ih (by simp)
        fun x hx => h x (List.mem_cons_of_mem _ hx)]
      · rfl
      · simp

theorem glue_segs (p : Str) : glue (segs p) = p := by
  induction p with
  | nil => rfl
  | cons c cs ih =>
    cases h : segs cs with
    | nil => exact absurd h (segs_ne cs)
    | cons s r =>
      rw [h] at ih
      by_cases hc : c = '/'
      · simp [segs, hc, h, glue, ih]
      · simp only [segs, if_neg hc, h]
        cases r with
        | nil => simpa [glue] using ih
        | cons s' r' =>
          simp only [glue, List.cons_append] at ih ⊢
          rw [ih]

theorem segs_no_slash (p : Str) : ∀ s ∈ segs p, '/' ∉ s := by
  induction p with
  | nil => simp [segs]
  | cons c cs ih =>
    by_cases hc : c = '/'
    · simpa [segs, hc] using ih
    · cases h : segs cs with
      | nil => exact absurd h (segs_ne cs)
      | cons s r =>
        rw [h] at ih
        simp only [segs, if_neg hc, h]
        intro x hx
        rcases List.mem_cons.1 hx with rfl | hx
        · simp only [List.mem_cons, not_or]
          exact ⟨Ne.symm hc, ih s (by simp)⟩
        · exact ih x (by simp [hx])

theorem texts_some {ns : List Name} {l : List Str} :
    texts ns = some l ↔ ns = l.map Name.text := by
  induction ns generalizing l with
  | nil => cases l <;> simp [texts]
  | cons n r ih =>
    cases n with
    | raw => cases l <;> simp [texts]
    | text s =>
      cases l with
      | nil => simp [texts]
      | cons s' l' => simp [texts, ih, and_comm]

theorem keyOf_inj {a b : List Name} {k : Str} (ha : keyOf a = some k) (hb : keyOf b = some k)
    (na : a ≠ []) (nb : b ≠ []) (va : ∀ n ∈ a, Name.Valid n) (vb : ∀ n ∈ b, Name.Valid n) :
    a = b := by
  simp only [keyOf, Option.map_eq_some_iff] at ha hb
  obtain ⟨la, ha, ga⟩ := ha
  obtain ⟨lb, hb, gb⟩ := hb
  rw [texts_some] at ha hb
  subst ha hb
  have h1 : segs (glue la) = la := segs_glue (by simpa using na) fun s hs =>
    (va (.text s) (by simp [hs])).2.1
  have h2 : segs (glue lb) = lb := segs_glue (by simpa using nb) fun s hs =>
    (vb (.text s) (by simp [hs])).2.1
  rw [← h1, ← h2, ga, gb]

/-! ### The walk -/

/-- The directories an entry list adds. -/
def subs (path : List Name) : List (Name × Tree) → List (List Name × Tree)
  | [] => []
  | (n, .dir r es) :: rest => subs path rest ++ [(path ++ [n], .dir r es)]
  | (_, .file _) :: rest => subs path rest

/-- The keys an entry list adds. -/
def found (path : List Name) : List (Name × Tree) → List Str
  | [] => []
  | (_, .dir _ _) :: rest => found path rest
  | (n, .file _) :: rest =>
    (if extension n = some "json".toList then (keyOf (path ++ [n])).toList else []) ++ found path rest

theorem listing_eq (path : List Name) (es : List (Name × Tree)) (w : Walk) :
    listing path es w = (subs path es ++ w.1, w.2 ++ found path es) := by
  unfold listing
  induction es generalizing w with
  | nil => simp [subs, found]
  | cons e rest ih =>
    obtain ⟨n, t⟩ := e
    rw [List.foldl_cons, ih]
    cases t with
    | dir r es => simp [visit, subs, found]
    | file c =>
      simp only [visit, subs, found]
      split
      · split <;> rename_i h <;> simp [h]
      · simp

theorem mem_subs {path : List Name} {es : List (Name × Tree)} {s : List Name × Tree} :
    s ∈ subs path es ↔ ∃ n r es', (n, Tree.dir r es') ∈ es ∧ s = (path ++ [n], .dir r es') := by
  induction es with
  | nil => simp [subs]
  | cons e rest ih =>
    obtain ⟨n, t⟩ := e
    cases t with
    | dir r es' =>
      rw [subs, List.mem_append, ih, List.mem_singleton]
      simp only [List.mem_cons]
      constructor
      · rintro (⟨m, r2, e2, h, rfl⟩ | rfl)
        · exact ⟨m, r2, e2, .inr h, rfl⟩
        · exact ⟨n, r, es', .inl rfl, rfl⟩
      · rintro ⟨m, r2, e2, h | h, rfl⟩
        · simp only [Prod.mk.injEq] at h
          obtain ⟨rfl, h⟩ := h
          exact .inr (by rw [h])
        · exact .inl ⟨m, r2, e2, h, rfl⟩
    | file c => simp [subs, ih]

theorem mem_found {path : List Name} {es : List (Name × Tree)} {k : Str} :
    k ∈ found path es ↔ ∃ n c, (n, Tree.file c) ∈ es ∧ extension n = some "json".toList ∧
      keyOf (path ++ [n]) = some k := by
  induction es with
  | nil => simp [found]
  | cons e rest ih =>
    obtain ⟨n, t⟩ := e
    cases t with
    | dir r es' => simp [found, ih]
    | file c =>
      simp only [found, List.mem_append, ih, List.mem_cons]
      constructor
      · rintro (h | ⟨m, c2, h, h2⟩)
        · split at h
          · rename_i he
            exact ⟨n, c, .inl rfl, he, by simpa using h⟩
          · simp at h
        · exact ⟨m, c2, .inr h, h2⟩
      · rintro ⟨m, c2, h | h, h2, h3⟩
        · simp only [Prod.mk.injEq] at h
          obtain ⟨rfl, h⟩ := h
          exact .inl (by rw [if_pos h2, h3]; simp)
        · exact .inr ⟨m, c2, h, h2, h3⟩

/-- A decision below `t` whose key, put after `path`, is `k`. -/
def Lists (path : List Name) (t : Tree) (k : Str) : Prop :=
  ∃ ns n c, Below true t (ns ++ [n]) (.file c) ∧ extension n = some "json".toList ∧
    keyOf (path ++ (ns ++ [n])) = some k

theorem lists_dir {path : List Name} {es : List (Name × Tree)} {k : Str} :
    Lists path (.dir true es) k ↔
      k ∈ found path es ∨ ∃ s ∈ subs path es, Lists s.1 s.2 k := by
  constructor
  · rintro ⟨ns, n, c, hb, he, hk⟩
    cases ns with
    | nil =>
      cases hb with
      | into hr hm h =>
        cases h
        exact .inl (mem_found.2 ⟨n, c, hm, he, hk⟩)
    | cons m ns =>
      cases hb with
      | into hr hm h =>
        rename_i t
        cases t with
        | file c2 =>
          cases ns <;> cases h
        | dir r es' =>
          exact .inr ⟨_, mem_subs.2 ⟨m, r, es', hm, rfl⟩, ns, n, c, h, he, by simpa using hk⟩
  · rintro (h | ⟨s, hs, ns, n, c, hb, he, hk⟩)
    · obtain ⟨n, c, hm, he, hk⟩ := mem_found.1 h
      exact ⟨[], n, c, .into (by simp) hm (.here _), he, hk⟩
    · obtain ⟨m, r, es', hm, rfl⟩ := mem_subs.1 hs
      exact ⟨m :: ns, n, c, .into (by simp) hm hb, he, by simpa using hk⟩

theorem mem_walk (st : List (List Name × Tree)) (ks : List Str) (k : Str) :
    k ∈ walk st ks ↔ k ∈ ks ∨ ∃ s ∈ st, Lists s.1 s.2 k := by
  induction st, ks using walk.induct with
  | case1 ks => simp [walk]
  | case2 p c rest ks ih =>
    rw [walk, ih]
    have : ¬ Lists p (.file c) k := by
      rintro ⟨ns, n, c', hb, -⟩
      cases ns <;> cases hb
    simp [this]
  | case3 p es rest ks ih =>
    rw [walk, ih]
    have : ¬ Lists p (.dir false es) k := by
      rintro ⟨ns, n, c', hb, -⟩
      cases ns <;> cases hb <;> rename_i hr _ _ <;> simp at hr
    simp [this]
  | case4 path es rest ks ih =>
    rw [walk, ih, listing_eq]
    simp only [List.mem_append, List.mem_cons, lists_dir, exists_eq_or_imp]
    constructor
    · rintro ((h | h) | ⟨s, hs | hs, h⟩)
      · exact .inl h
      · exact .inr (.inl (.inl h))
      · exact .inr (.inl (.inr ⟨s, hs, h⟩))
      · exact .inr (.inr ⟨s, hs, h⟩)
    · rintro (h | (h | ⟨s, hs, h⟩) | ⟨s, hs, h⟩)
      · exact .inl (.inl h)
      · exact .inl (.inr h)
      · exact .inr ⟨s, .inl hs, h⟩
      · exact .inr ⟨s, .inr hs, h⟩

/-! ### The steps of the operating system -/

theorem find_mem {es : List (Name × Tree)} {s : Str} {t : Tree} (h : find es s = some t) :
    (.text s, t) ∈ es := by
  simp only [find, Option.map_eq_some_iff] at h
  obtain ⟨⟨n, t'⟩, h, rfl⟩ := h
  have h1 := List.mem_of_find?_eq_some h
  have h2 := List.find?_some h
  simp only [decide_eq_true_eq] at h2
  subst h2
  exact h1

theorem mem_find {es : List (Name × Tree)} {s : Str} {t : Tree} (hn : (es.map Prod.fst).Nodup)
    (h : (.text s, t) ∈ es) : find es s = some t := by
  induction es with
  | nil => simp at h
  | cons e rest ih =>
    simp only [List.map_cons, List.nodup_cons] at hn
    rcases List.mem_cons.1 h with rfl | h
    · simp [find]
    · have hne : e.1 ≠ .text s := by
        intro he
        exact hn.1 (he ▸ List.mem_map_of_mem (f := Prod.fst) h)
      have := ih hn.2 h
      simp only [find] at this ⊢
      rw [List.find?_cons_of_neg (by simpa using hne)]
      exact this

/-- Steps along plain parts go down. -/
theorem steps_down {t : Tree} {above st : List Tree} {ss : List Str}
    (hs : ['.', '.'] ∉ ss) (h : ss.foldlM step (t :: above) = some st) :
    ∃ t' rest ns, st = t' :: rest ∧ Below false t ns t' ∧
      ((∀ s ∈ ss, Plain s) → ns = ss.map Name.text) := by
  induction ss generalizing t above with
  | nil =>
    simp only [List.foldlM_nil, pure, Option.some.injEq] at h
    exact ⟨t, above, [], h.symm, .here t, by simp⟩
  | cons s ss ih =>
    simp only [List.mem_cons, not_or] at hs
    simp only [List.foldlM_cons, bind, Option.bind_eq_some_iff] at h
    obtain ⟨mid, h1, h2⟩ := h
    cases t with
    | file c => simp [step] at h1
    | dir r es =>
      simp only [step] at h1
      split at h1
      · rename_i hd
        simp only [Option.some.injEq] at h1
        subst h1
        obtain ⟨t', rest, ns, h3, h4, h5⟩ := ih hs.2 h2
        refine ⟨t', rest, ns, h3, h4, fun hp => ?_⟩
        have := hp s (by simp)
        rcases hd with rfl | rfl
        · exact absurd rfl this.1
        · exact absurd rfl this.2.1
      · rw [if_neg (Ne.symm hs.1)] at h1
        simp only [Option.map_eq_some_iff] at h1
        obtain ⟨t1, hf, rfl⟩ := h1
        obtain ⟨t', rest, ns, h3, h4, h5⟩ := ih hs.2 h2
        refine ⟨t', rest, .text s :: ns, h3, .into (by simp) (find_mem hf) h4, fun hp => ?_⟩
        rw [h5 fun x hx => hp x (by simp [hx])]
        rfl

/-- Names lead down to what is there. -/
theorem steps_reach {t t' : Tree} {ss : List Str} (hp : Proper t)
    (hb : Below false t (ss.map Name.text) t') (above : List Tree) :
    ∃ rest, ss.foldlM step (t :: above) = some (t' :: rest) := by
  induction ss generalizing t above with
  | nil =>
    cases hb
    exact ⟨above, rfl⟩
  | cons s ss ih =>
    cases hb with
    | into hr hm h =>
      rename_i r es t1
      have hp1 := hp [] r es (.here _)
      have hv : Name.Valid (.text s) := hp1.2 _ hm
      obtain ⟨h1, h2, h3, h4⟩ := hv
      obtain ⟨rest, ih⟩ := ih (hp.sub (.into (by simp) hm (.here _))) h (.dir r es :: above)
      refine ⟨rest, ?_⟩
      simp only [List.foldlM_cons, bind, step, h1, h3, h4, or_self, if_false,
        mem_find hp1.1 hm, Option.map_some, Option.bind_some]
      exact ih

theorem place_join {fs : Files} {root key : Str} (hr : root ≠ []) (hk : key.head? ≠ some '/') :
    place fs (join root key) = (place fs root).bind ((segs key).foldlM step ·) := by
  have hh : ∀ x : Str, (root ++ x).head? = root.head? := by
    cases root with
    | nil => exact absurd rfl hr
    | cons c cs => simp
  have hne : ∀ x : Str, root ++ x ≠ [] := by simp [hr]
  by_cases hl : root.getLast? = some '/'
  · have hj : join root key = root ++ key := by simp [join, hk, hl]
    obtain ⟨r', rfl⟩ : ∃ r', root = r' ++ ['/'] := by
      obtain ⟨r', h⟩ := List.getLast?_eq_some_iff.1 hl
      exact ⟨r', h⟩
    have e1 : segs (r' ++ ['/'] ++ key) = segs r' ++ segs key := by
      rw [List.append_assoc]; exact segs_append r' key
    have e2 : segs (r' ++ ['/']) = segs r' ++ [[]] := segs_append r' []
    rw [hj, place, place, if_neg (hne key), if_neg hr, hh, e1, e2, List.foldlM_append,
      List.foldlM_append]
    generalize (if (r' ++ ['/']).head? = some '/' then [fs.top] else fs.cwd) = start
    cases hs : (segs r').foldlM step start with
    | none => rfl
    | some st =>
      simp only [bind, Option.bind_some, List.foldlM_cons, List.foldlM_nil]
      cases st with
      | nil =>
        cases hsk : segs key with
        | nil => exact absurd hsk (segs_ne key)
        | cons s r => simp [step]
      | cons t above =>
        cases t with
        | file c =>
          cases hsk : segs key with
          | nil => exact absurd hsk (segs_ne key)
          | cons s r => simp [step]
        | dir r es => simp [step, pure]
  · have hj : join root key = root ++ '/' :: key := by simp [join, hk, hl, hr]
    rw [hj, place, place, if_neg (hne _), if_neg hr, hh, segs_append, List.foldlM_append]
    rfl

theorem resolve_place {fs : Files} {p : Str} {t : Tree} (h : resolve fs p = some t) :
    ∃ above, place fs p = some (t :: above) := by
  simp only [resolve, Option.bind_eq_some_iff] at h
  obtain ⟨st, h1, h2⟩ := h
  cases st with
  | nil => simp at h2
  | cons t' above =>
    simp only [List.head?_cons, Option.some.injEq] at h2
    exact ⟨above, h2 ▸ h1⟩

theorem resolve_ne {fs : Files} {p : Str} {t : Tree} (h : resolve fs p = some t) : p ≠ [] := by
  rintro rfl
  simp [resolve, place] at h

theorem relative_of_plain {k : Str} (h : ∀ s ∈ segs k, s ≠ []) : k.head? ≠ some '/' := by
  cases k with
  | nil => simp
  | cons c cs =>
    intro hc
    simp only [List.head?_cons, Option.some.injEq] at hc
    subst hc
    exact h [] (by simp [segs]) rfl

theorem below_valid {t t' : Tree} {ns : List Name} (hp : Proper t) (hb : Below false t ns t') :
    ∀ n ∈ ns, Name.Valid n := by
  induction hb with
  | here t => simp
  | into hr hm h ih =>
    intro n hn
    rcases List.mem_cons.1 hn with rfl | hn
    · exact (hp [] _ _ (.here _)).2 _ hm
    · exact ih (hp.sub (.into (by simp) hm (.here _))) n hn

/-- The place that a key with plain parts leads to is the one its parts name below the root. -/
theorem resolve_plain {fs : Files} {root k : Str} {t t' : Tree} (hr : resolve fs root = some t)
    (hp : Proper t) (hk : ∀ s ∈ segs k, Plain s) :
    resolve fs (join root k) = some t' ↔ Below false t ((segs k).map Name.text) t' := by
  obtain ⟨above, hpl⟩ := resolve_place hr
  have hrel := relative_of_plain fun s hs => (hk s hs).1
  rw [resolve, place_join (resolve_ne hr) hrel, hpl]
  simp only [Option.bind_some, Option.bind_eq_some_iff]
  constructor
  · rintro ⟨st, h1, h2⟩
    obtain ⟨t2, rest, ns, rfl, h4, h5⟩ := steps_down (fun hm => (hk _ hm).2.2 rfl) h1
    simp only [List.head?_cons, Option.some.injEq] at h2
    rw [← h5 hk, ← h2]
    exact h4
  · intro hb
    obtain ⟨rest, h⟩ := steps_reach hp hb above
    exact ⟨_, h, rfl⟩

/-! ### The properties -/

/-- **What is listed.** The keys are exactly those of the files below the root, at any depth through
directories that can be listed, whose name has the extension `json` and whose names are Unicode. -/
theorem C80_listed {fs : Files} {root : Str} {t : Tree} (hr : resolve fs root = some t) (k : Str) :
    k ∈ keys fs root ↔ ∃ ns n c, Below true t (ns ++ [n]) (.file c) ∧
      extension n = some "json".toList ∧ keyOf (ns ++ [n]) = some k := by
  simp [keys, hr, mem_walk, Lists]

/-- A root that leads nowhere, such as the empty one, lists nothing. -/
theorem C80_no_root {fs : Files} {root : Str} (hr : resolve fs root = none) :
    keys fs root = [] := by
  simp [keys, hr]

/-- The key of a listed path is made of plain parts that are its names. -/
theorem key_segs {t t' : Tree} {ns : List Name} {k : Str} (hp : Proper t) (hn : ns ≠ [])
    (hb : Below false t ns t') (hk : keyOf ns = some k) :
    ns = (segs k).map Name.text ∧ ∀ s ∈ segs k, Plain s := by
  simp only [keyOf, Option.map_eq_some_iff] at hk
  obtain ⟨l, h1, rfl⟩ := hk
  rw [texts_some] at h1
  subst h1
  have hv := below_valid hp hb
  have hl : ∀ s ∈ l, Name.Valid (.text s) := fun s hs => hv _ (by simp [hs])
  rw [segs_glue (by simpa using hn) fun s hs => (hl s hs).2.1]
  exact ⟨rfl, fun s hs => ⟨(hl s hs).1, (hl s hs).2.2⟩⟩

/-- **A listed key loads the file it was listed for.** In particular it is never reported as
missing. -/
theorem C80_loads {fs : Files} {root : Str} {t : Tree} (hr : resolve fs root = some t)
    (hp : Proper t) {ns : List Name} {c : Option String} {k : Str} (hn : ns ≠ [])
    (hb : Below false t ns (.file c)) (hk : keyOf ns = some k) :
    load fs root k = match c with
      | some d => .ok d
      | none => .internal := by
  obtain ⟨h1, h2⟩ := key_segs hp hn hb hk
  have : resolve fs (join root k) = some (.file c) := (resolve_plain hr hp h2).2 (h1 ▸ hb)
  rw [load, this]
  cases c <;> rfl

/-- **A listed key is never missing.** -/
theorem C80_found {fs : Files} {root : Str} {t : Tree} (hr : resolve fs root = some t)
    (hp : Proper t) {k : Str} (hk : k ∈ keys fs root) : load fs root k ≠ .notFound := by
  obtain ⟨ns, n, c, hb, -, hk⟩ := (C80_listed hr k).1 hk
  rw [C80_loads hr hp (by simp) hb.weaken hk]
  cases c <;> simp

/-- **Which keys are listed, in terms of loading.** When every directory below the root can be
listed, a key made of plain parts is listed exactly when it leads to a file and its last part has the
extension `json`. -/
theorem C80_listed_iff {fs : Files} {root : Str} {t : Tree} (hr : resolve fs root = some t)
    (hp : Proper t) (ho : ∀ ns r es, Below false t ns (.dir r es) → r = true) {k : Str}
    (hk : ∀ s ∈ segs k, Plain s) :
    k ∈ keys fs root ↔ (∃ c, resolve fs (join root k) = some (.file c)) ∧
      ∃ s, (segs k).getLast? = some s ∧ extension (.text s) = some "json".toList := by
  have hup : ∀ {ns t'}, Below false t ns t' → Below true t ns t' := by
    intro ns t' h
    have key : ∀ {a b : Tree} {ms : List Name}, Below false a ms b →
        (∀ ns r es, Below false a ns (.dir r es) → r = true) → Below true a ms b := by
      intro a b ms h
      induction h with
      | here t => exact fun _ => .here t
      | into hr hm h ih =>
        intro ho
        exact .into (fun _ => ho [] _ _ (.here _)) hm
          (ih fun ns r es hb => ho (_ :: ns) r es (.into (by simp) hm hb))
    exact key h ho
  rw [C80_listed hr]
  constructor
  · rintro ⟨ns, n, c, hb, he, hko⟩
    obtain ⟨h1, h2⟩ := key_segs hp (by simp) hb.weaken hko
    refine ⟨⟨c, (resolve_plain hr hp hk).2 (h1 ▸ hb.weaken)⟩, ?_⟩
    have h3 : ((segs k).map Name.text).getLast? = some n := by rw [← h1]; simp
    rw [List.getLast?_map, Option.map_eq_some_iff] at h3
    obtain ⟨s, h3, rfl⟩ := h3
    exact ⟨s, h3, he⟩
  · rintro ⟨⟨c, hc⟩, s, hs, he⟩
    have hb := (resolve_plain hr hp hk).1 hc
    obtain ⟨l, hl⟩ := List.getLast?_eq_some_iff.1 hs
    refine ⟨l.map Name.text, .text s, c, ?_, he, ?_⟩
    · have := hup hb
      rw [hl] at this
      simpa using this
    · have : texts (l.map Name.text ++ [Name.text s]) = some (segs k) := by
        rw [texts_some, hl]; simp
      rw [keyOf, this, Option.map_some, glue_segs]

/-- **No key is listed twice.** -/
theorem C80_once {fs : Files} {root : Str} {t : Tree} (hr : resolve fs root = some t)
    (hp : Proper t) : (keys fs root).Nodup := by
  have key : ∀ (st : List (List Name × Tree)) (ks : List Str), ks.Nodup →
      (∀ s ∈ st, Proper s.2) → (∀ s ∈ st, ∀ n ∈ s.1, Name.Valid n) →
      st.Pairwise (fun a b => ¬ a.1 <+: b.1 ∧ ¬ b.1 <+: a.1) →
      (∀ k ∈ ks, ∃ a, a ≠ [] ∧ (∀ n ∈ a, Name.Valid n) ∧ keyOf a = some k ∧
        ∀ s ∈ st, ¬ s.1 <+: a) →
      (walk st ks).Nodup := by
    intro st ks
    induction st, ks using walk.induct with
    | case1 ks => intro h _ _ _ _; simpa [walk] using h
    | case2 p c rest ks ih =>
      intro h1 h2 h3 h4 h5
      rw [walk]
      exact ih h1 (fun s hs => h2 s (by simp [hs])) (fun s hs => h3 s (by simp [hs]))
        (List.pairwise_cons.1 h4).2 fun k hk => by
          obtain ⟨a, x1, x2, x3, x4⟩ := h5 k hk
          exact ⟨a, x1, x2, x3, fun s hs => x4 s (by simp [hs])⟩
    | case3 p es rest ks ih =>
      intro h1 h2 h3 h4 h5
      rw [walk]
      exact ih h1 (fun s hs => h2 s (by simp [hs])) (fun s hs => h3 s (by simp [hs]))
        (List.pairwise_cons.1 h4).2 fun k hk => by
          obtain ⟨a, x1, x2, x3, x4⟩ := h5 k hk
          exact ⟨a, x1, x2, x3, fun s hs => x4 s (by simp [hs])⟩
    | case4 path es rest ks ih =>
      intro h1 h2 h3 h4 h5
      rw [walk]
      have hpt : Proper (.dir true es) := h2 (path, .dir true es) (by simp)
      have hpath : ∀ n ∈ path, Name.Valid n := h3 (path, .dir true es) (by simp)
      obtain ⟨hnd, hval⟩ := hpt [] true es (.here _)
      obtain ⟨h4a, h4b⟩ := List.pairwise_cons.1 h4
      have hv : ∀ {n t}, (n, t) ∈ es → ∀ m ∈ path ++ [n], Name.Valid m := by
        intro n t hm m hx
        rcases List.mem_append.1 hx with hx | hx
        · exact hpath m hx
        · rw [List.mem_singleton.1 hx]; exact hval _ hm
      have huniq : ∀ {n t t'}, (n, t) ∈ es → (n, t') ∈ es → t = t' := by
        intro n t t' ha hb
        have := List.inj_on_of_nodup_map hnd ha hb rfl
        simpa using this
      -- names below `path` are not below another directory on the list
      have hapart : ∀ s ∈ rest, ∀ n, ¬ s.1 <+: path ++ [n] := by
        intro s hs n hx
        rcases List.prefix_concat_iff.1 hx with hx | hx
        · exact (h4a s hs).1 ⟨[n], hx.symm⟩
        · exact (h4a s hs).2 hx
      rw [listing_eq] at ih ⊢
      refine ih ?_ ?_ ?_ ?_ ?_
      · refine List.nodup_append.2 ⟨h1, ?_, ?_⟩
        · -- the keys found are different
          have : ∀ l : List (Name × Tree), l.Sublist es → (l.map Prod.fst).Nodup → (found path l).Nodup := by
            intro l hl hn
            induction l with
            | nil => simp [found]
            | cons e l ihl =>
              obtain ⟨n, t⟩ := e
              simp only [List.map_cons, List.nodup_cons] at hn
              have ihl := ihl ((List.sublist_cons_self _ _).trans hl) hn.2
              cases t with
              | dir r es' => exact ihl
              | file c =>
                simp only [found]
                split
                · refine List.nodup_append.2 ⟨?_, ihl, ?_⟩
                  · cases keyOf (path ++ [n]) <;> simp
                  · intro a ha b hb hab
                    subst hab
                    obtain ⟨m, c', hm, -, hk⟩ := mem_found.1 hb
                    have hk' : keyOf (path ++ [n]) = some a := by simpa using ha
                    have := keyOf_inj hk' hk (by simp) (by simp)
                      (hv (hl.subset (List.mem_cons_self ..)))
                      (hv (hl.subset (List.mem_cons_of_mem _ hm)))
                    have : n = m := by simpa using this
                    subst this
                    exact hn.1 (List.mem_map_of_mem (f := Prod.fst) hm)
                · simpa using ihl
          exact this es (List.Sublist.refl _) hnd
        · intro a ha b hb hab
          subst hab
          obtain ⟨x, x1, x2, x3, x4⟩ := h5 a ha
          obtain ⟨m, c', hm, -, hk⟩ := mem_found.1 hb
          have := keyOf_inj x3 hk x1 (by simp) x2 (hv hm)
          exact x4 (path, .dir true es) (by simp) ⟨[m], this.symm⟩
      · intro s hs
        rcases List.mem_append.1 hs with hs | hs
        · obtain ⟨n, r, es', hm, rfl⟩ := mem_subs.1 hs
          exact hpt.sub (.into (by simp) hm (.here _))
        · exact h2 s (by simp [hs])
      · intro s hs
        rcases List.mem_append.1 hs with hs | hs
        · obtain ⟨n, r, es', hm, rfl⟩ := mem_subs.1 hs
          exact hv hm
        · exact h3 s (by simp [hs])
      · refine List.pairwise_append.2 ⟨?_, h4b, ?_⟩
        · have : ∀ l : List (Name × Tree), (l.map Prod.fst).Nodup →
              (subs path l).Pairwise (fun a b => ¬ a.1 <+: b.1 ∧ ¬ b.1 <+: a.1) := by
            intro l hn
            induction l with
            | nil => simp [subs]
            | cons e l ihl =>
              obtain ⟨n, t⟩ := e
              simp only [List.map_cons, List.nodup_cons] at hn
              cases t with
              | file c => exact ihl hn.2
              | dir r es' =>
                rw [subs]
                refine List.pairwise_append.2 ⟨ihl hn.2, by simp, ?_⟩
                intro a ha b hb
                rw [List.mem_singleton.1 hb]
                obtain ⟨m, r', es2, hm, rfl⟩ := mem_subs.1 ha
                have hne : m ≠ n := by
                  rintro rfl
                  exact hn.1 (List.mem_map_of_mem (f := Prod.fst) hm)
                simp [List.prefix_append_right_inj, hne, hne.symm]
          exact this es hnd
        · intro a ha b hb
          obtain ⟨m, r', es2, hm, rfl⟩ := mem_subs.1 ha
          refine ⟨fun hx => (h4a b hb).1 ((List.prefix_append _ _).trans hx), hapart b hb m⟩
      · intro k hk
        rcases List.mem_append.1 hk with hk | hk
        · obtain ⟨a, x1, x2, x3, x4⟩ := h5 k hk
          refine ⟨a, x1, x2, x3, fun s hs => ?_⟩
          rcases List.mem_append.1 hs with hs | hs
          · obtain ⟨n, r, es', hm, rfl⟩ := mem_subs.1 hs
            exact fun hx => x4 (path, .dir true es) (by simp) ((List.prefix_append _ _).trans hx)
          · exact x4 s (by simp [hs])
        · obtain ⟨n, c, hm, -, hk⟩ := mem_found.1 hk
          refine ⟨path ++ [n], by simp, hv hm, hk, fun s hs => ?_⟩
          rcases List.mem_append.1 hs with hs | hs
          · obtain ⟨m, r, es', hm', rfl⟩ := mem_subs.1 hs
            intro hx
            have : m = n := by simpa [List.prefix_append_right_inj] using hx
            subst this
            exact absurd (huniq hm hm') (by simp)
          · exact hapart s hs n
  rw [keys, hr]
  refine key _ _ (by simp) ?_ (by simp) (by simp) (by simp)
  intro s hs
  rw [List.mem_singleton.1 hs]
  exact hp

/-- **Without `..` a key stays below the root.** What a relative key without the part `..` leads to is
the root or lies below it. -/
theorem C80_inside {fs : Files} {root key : Str} {t' : Tree} (hr : root ≠ [])
    (hk : key.head? ≠ some '/') (hd : ['.', '.'] ∉ segs key)
    (h : resolve fs (join root key) = some t') :
    ∃ t, resolve fs root = some t ∧ ∃ ns, Below false t ns t' := by
  obtain ⟨above, hp⟩ := resolve_place h
  rw [place_join hr hk, Option.bind_eq_some_iff] at hp
  obtain ⟨st, h1, h2⟩ := hp
  cases st with
  | nil =>
    cases hs : segs key with
    | nil => exact absurd hs (segs_ne key)
    | cons s r => simp [hs, step] at h2
  | cons t rest =>
    obtain ⟨t2, rest', ns, h3, h4, -⟩ := steps_down hd h2
    simp only [List.cons.injEq] at h3
    refine ⟨t, by simp [resolve, h1], ns, ?_⟩
    rw [h3.1]
    exact h4

/-- **An absolute key ignores the root.** -/
theorem C80_absolute (fs : Files) (r1 r2 key : Str) (h : key.head? = some '/') :
    load fs r1 key = load fs r2 key := by
  simp [load, join, h]

/-- **A key is not the only one of its file.** Put after `./` it loads the same, from any root that is
a directory. -/
theorem C80_alias {fs : Files} {root key : Str} {r : Bool} {es : List (Name × Tree)}
    (hr : resolve fs root = some (.dir r es)) (hk : key.head? ≠ some '/') :
    load fs root ('.' :: '/' :: key) = load fs root key := by
  obtain ⟨above, hp⟩ := resolve_place hr
  have hs : segs ('.' :: '/' :: key) = ['.'] :: segs key := segs_append ['.'] key
  have : resolve fs (join root ('.' :: '/' :: key)) = resolve fs (join root key) := by
    rw [resolve, resolve, place_join (resolve_ne hr) (by simp), place_join (resolve_ne hr) hk, hp, hs]
    simp [List.foldlM_cons, step]
  rw [load, load, this]

/-- **Above the top is the top.** -/
theorem C80_top {fs : Files} {r : Bool} {es : List (Name × Tree)} (h : fs.top = .dir r es) (root key : Str) :
    load fs root ('/' :: '.' :: '.' :: '/' :: key) = load fs root ('/' :: key) := by
  have e1 : segs ('/' :: '.' :: '.' :: '/' :: key) = [] :: ['.', '.'] :: segs key := by
    simp [segs]
  have e2 : segs ('/' :: key) = [] :: segs key := by simp [segs]
  have : resolve fs (join root ('/' :: '.' :: '.' :: '/' :: key)) = resolve fs (join root ('/' :: key)) := by
    simp [join, resolve, place, e1, e2, List.foldlM_cons, h, step]
  rw [load, load, this]

/-! ### Cases -/

/-- `/srv/rules` with a decision in a directory, one that is only an extension, one with a capital
extension and a note; next to it a secret. -/
def rules : Tree := .dir true [
  (.text "a.json".toList, .file (some "A")),
  (.text ".json".toList, .file (some "hidden")),
  (.text "b.JSON".toList, .file (some "B")),
  (.text "sub".toList, .dir true [(.text "c.json".toList, .file none),
    (.raw 7 (some "json".toList), .file (some "R"))]),
  (.text "locked".toList, .dir false [(.text "d.json".toList, .file (some "D"))]),
  (.text "note.txt".toList, .file none)]

/-- A file system with `rules`. -/
def disk : Files where
  top := .dir true [(.text "srv".toList, .dir true [(.text "rules".toList, rules),
    (.text "secret".toList, .file (some "S"))])]
  cwd := [.dir true [(.text "rules".toList, rules), (.text "secret".toList, .file (some "S"))],
    .dir true [(.text "srv".toList, .dir true [(.text "rules".toList, rules),
      (.text "secret".toList, .file (some "S"))])]]

theorem disk_root : resolve disk "/srv/rules".toList = some rules := by
  simp [resolve, place, segs, step, find, disk, List.find?]

theorem below_file {q : Bool} {c : Option String} {ns : List Name} {t : Tree}
    (h : Below q (.file c) ns t) : t = .file c := by
  cases h
  rfl

theorem rules_proper : Proper rules := by
  intro ns r es h
  cases h with
  | here => simp [Name.Valid]
  | into _ hm h =>
    simp only [List.mem_cons, Prod.mk.injEq, List.not_mem_nil, or_false] at hm
    rcases hm with ⟨-, rfl⟩ | ⟨-, rfl⟩ | ⟨-, rfl⟩ | ⟨-, rfl⟩ | ⟨-, rfl⟩ | ⟨-, rfl⟩
    · exact absurd (below_file h) (by simp)
    · exact absurd (below_file h) (by simp)
    · exact absurd (below_file h) (by simp)
    · cases h with
      | here => simp [Name.Valid]
      | into _ hm h =>
        simp only [List.mem_cons, Prod.mk.injEq, List.not_mem_nil, or_false] at hm
        rcases hm with ⟨-, rfl⟩ | ⟨-, rfl⟩ <;> exact absurd (below_file h) (by simp)
    · cases h with
      | here => simp [Name.Valid]
      | into _ hm h =>
        simp only [List.mem_cons, Prod.mk.injEq, List.not_mem_nil, or_false] at hm
        obtain ⟨-, rfl⟩ := hm
        exact absurd (below_file h) (by simp)
    · exact absurd (below_file h) (by simp)

/-- Two of the files are listed: not the one without a stem, not the capital extension, not the one
whose name is not Unicode, not the one in the locked directory. -/
theorem disk_keys : keys disk "/srv/rules".toList = ["a.json".toList, "sub/c.json".toList] := by
  rw [keys, disk_root]
  simp [rules, walk, listing, visit, extension, keyOf, texts, glue]

example : (keys disk "/srv/rules".toList).Nodup := C80_once disk_root rules_proper

example : load disk "/srv/rules".toList "sub/c.json".toList ≠ .notFound :=
  C80_found disk_root rules_proper (by rw [disk_keys]; simp)

/-- **A key leads out of the root (as it should not).** With `..`, and as an absolute path, a key loads
a file that is not below the root. -/
theorem C80_escape : load disk "/srv/rules".toList "../secret".toList = .ok "S" ∧
    load disk "/srv/rules".toList "/srv/secret".toList = .ok "S" ∧
    ∀ ns, ¬ Below false rules ns (.file (some "S")) := by
  refine ⟨?_, ?_, ?_⟩
  · simp [load, join, resolve, place, segs, step, find, disk, rules, List.find?]
  · simp [load, join, resolve, place, segs, step, find, disk, rules, List.find?]
  · intro ns h
    cases h with
    | into _ hm h =>
      simp only [List.mem_cons, Prod.mk.injEq, List.not_mem_nil, or_false] at hm
      rcases hm with ⟨-, rfl⟩ | ⟨-, rfl⟩ | ⟨-, rfl⟩ | ⟨-, rfl⟩ | ⟨-, rfl⟩ | ⟨-, rfl⟩
      · exact absurd (below_file h) (by simp)
      · exact absurd (below_file h) (by simp)
      · exact absurd (below_file h) (by simp)
      · cases h with
        | into _ hm h =>
          simp only [List.mem_cons, Prod.mk.injEq, List.not_mem_nil, or_false] at hm
          rcases hm with ⟨-, rfl⟩ | ⟨-, rfl⟩ <;> exact absurd (below_file h) (by simp)
      · cases h with
        | into _ hm h =>
          simp only [List.mem_cons, Prod.mk.injEq, List.not_mem_nil, or_false] at hm
          obtain ⟨-, rfl⟩ := hm
          exact absurd (below_file h) (by simp)
      · exact absurd (below_file h) (by simp)

/-- **A key that loads need not be listed (as it should be).** A capital extension, a name that is only
an extension and a file in a directory that cannot be listed all load. -/
theorem C80_unlisted : load disk "/srv/rules".toList "b.JSON".toList = .ok "B" ∧
    load disk "/srv/rules".toList ".json".toList = .ok "hidden" ∧
    load disk "/srv/rules".toList "locked/d.json".toList = .ok "D" ∧
    "b.JSON".toList ∉ keys disk "/srv/rules".toList ∧
    ".json".toList ∉ keys disk "/srv/rules".toList ∧
    "locked/d.json".toList ∉ keys disk "/srv/rules".toList := by
  rw [disk_keys]
  refine ⟨?_, ?_, ?_, by simp, by simp, by simp⟩ <;>
    simp [load, join, resolve, place, segs, step, find, disk, rules, List.find?]

/-- **The empty root loads and lists nothing (as it should not).** Keys are then read from the current
directory, which is not walked. -/
theorem C80_empty_root : (∀ fs, keys fs [] = []) ∧
    load disk [] "rules/a.json".toList = .ok "A" := by
  refine ⟨fun fs => C80_no_root (by simp [resolve, place]), ?_⟩
  simp [load, join, resolve, place, segs, step, find, disk, rules, List.find?]

example : load disk "/srv/rules/".toList "./sub/../a.json".toList = .ok "A" := by
  simp [load, join, resolve, place, segs, step, find, disk, rules, List.find?]

end Zen.Fsl.C80
