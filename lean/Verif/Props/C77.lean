import Verif.Policy.RepeatLemmas
/-
C77: the lint for repeated derivations. `ws` is `char::is_whitespace`, `ord` the iteration order of a
hash map: any permutation.
-/
namespace Zen.Policy.Repeat
variable {ws : Char → Bool} {ord : Frags → Frags} {locs : List Loc}

/-! ## What a derivation is -/

/-- the node is in the tree -/
inductive In : LNode → LNode → Prop
  | here {n : LNode} : In n n
  | under {n m : LNode} {k s l} : m ∈ l → In n m → In n (.mk k s l)

/-- an operation -/
def IsOperation (n : LNode) : Prop :=
  n.kind ∈ [.binary, .unary, .conditional, .functionCall, .methodCall, .interval, .slice, .templateString] ∨
    (n.kind ∈ [Kind.object, .array] ∧ n.kids ≠ [])

theorem isOp_iff (n : LNode) : n.isOp = true ↔ IsOperation n := by
  unfold LNode.isOp IsOperation
  cases n with
  | mk k s l => cases k <;> simp [LNode.kind, LNode.kids]

mutual
theorem mem_walk : ∀ {n m : LNode}, n ∈ m.walk ↔ In n m
  | n, .mk k s l => by
    rw [LNode.walk, List.mem_cons, mem_walks]
    constructor
    · rintro (rfl | ⟨m, h1, h2⟩)
      · exact .here
      · exact .under h1 h2
    · intro h
      cases h with
      | here => exact .inl rfl
      | under h1 h2 => exact .inr ⟨_, h1, h2⟩
theorem mem_walks : ∀ {n : LNode} {l : List LNode}, n ∈ LNode.walks l ↔ ∃ m ∈ l, In n m
  | n, [] => by simp [LNode.walks]
  | n, m :: l => by
    rw [LNode.walks, List.mem_append, mem_walk, mem_walks]
    simp
end

/-- the number of operations in a tree: of those in the trees below, and one more for an operation -/
theorem C77_ops (k : Kind) (s : Option Span) (l : List LNode) :
    (LNode.mk k s l).opCount = (l.map LNode.opCount).sum + if (LNode.mk k s l).isOp then 1 else 0 := by
  have hw : ∀ l : List LNode, ((LNode.walks l).filter LNode.isOp).length = (l.map LNode.opCount).sum := by
    intro l
    induction l with
    | nil => rfl
    | cons n l ih => rw [LNode.walks, List.filter_append, List.length_append, ih]; rfl
  rw [LNode.opCount, LNode.walk, List.filter_cons]
  split
  · rw [List.length_cons, hw]
  · rw [hw]; rfl

/-- the operation at a place of an expression outside of decision tables, as far as it has at least 6
characters that are not white space: its text without white space -/
structure Occurs (ws : Char → Bool) (locs : List Loc) (key : List Char) (ops : Nat) (o : Occ) : Prop where
  loc : ∃ loc ∈ locs, loc.inTable = false ∧ loc.standard = true ∧ o.site = (loc.policy, loc.block, loc.expr) ∧
    (∃ root n, loc.tree = some root ∧ In n root ∧ IsOperation n ∧ n.span = some o.span ∧ ops = n.opCount) ∧
    key = ((loc.source.take o.span.2).drop o.span.1).filter fun c => !ws c
  long : 6 ≤ key.length

/-- What is collected are exactly the operations. -/
theorem C77_occurrences {key : List Char} {ops : Nat} {o : Occ} :
    (∃ r ∈ recs ws locs, r.key = key ∧ r.ops = ops ∧ r.occ = o) ↔ Occurs ws locs key ops o := by
  have hc : ∀ (s : List Char) (a b : Nat), (s.drop a).take (b - a) = (s.take b).drop a := fun s a b => by
    rw [List.drop_take]
  constructor
  · rintro ⟨r, hr, rfl, rfl, rfl⟩
    obtain ⟨loc, hl, hr⟩ := List.mem_flatMap.1 hr
    unfold locRecs at hr
    split at hr
    · cases hr
    · rename_i hs
      obtain ⟨p, hp, rfl⟩ := List.mem_map.1 hr
      obtain ⟨hp, hlen⟩ := List.mem_filter.1 hp
      have hs : loc.inTable = false ∧ loc.standard = true := by simpa using hs
      refine ⟨⟨loc, hl, hs.1, hs.2, rfl, ?_, ?_⟩, by simpa using hlen⟩
      · unfold found at hp
        split at hp
        · cases hp
        · rename_i root ht
          obtain ⟨n, hn, he⟩ := List.mem_filterMap.1 hp
          split at he
          · rename_i hop
            cases hsp : n.span with
            | none => rw [hsp] at he; cases he
            | some s =>
              rw [hsp] at he
              injection he with he
              subst he
              exact ⟨root, n, ht, mem_walk.1 hn, (isOp_iff n).1 hop, hsp, rfl⟩
          · cases he
      · dsimp only
        rw [fingerprint, charsAt, hc]
  · rintro ⟨⟨loc, hl, h1, h2, h3, ⟨root, n, h4, h5, h6, h7, h8⟩, h9⟩, h10⟩
    have hk : fingerprint ws loc.source o.span = key := by rw [fingerprint, charsAt, hc, h9]
    refine ⟨⟨key, ops, displaySnippet ws loc.source o.span, o⟩, List.mem_flatMap.2 ⟨loc, hl, ?_⟩, rfl, rfl, rfl⟩
    unfold locRecs
    rw [if_neg (by simp [h1, h2])]
    refine List.mem_map.2 ⟨(o.span, ops), List.mem_filter.2 ⟨?_, by rw [hk]; simpa using h10⟩, ?_⟩
    · unfold found
      rw [h4]
      refine List.mem_filterMap.2 ⟨n, mem_walk.2 h5, ?_⟩
      rw [if_pos ((isOp_iff n).2 h6), h7, h8]; rfl
    · cases o
      simp only at h3 hk ⊢
      rw [hk, h3]

/-- The fragments: one for each text that occurs, with all occurrences of the text, in order. Its
number of operations and what is shown of it are those of the first occurrence, its policies those of
all occurrences. -/
theorem C77_fragments : ((collect ws locs).map Prod.fst).Nodup ∧
    (∀ r ∈ recs ws locs, ∃ f, (r.key, f) ∈ collect ws locs) ∧
    ∀ k f, (k, f) ∈ collect ws locs →
      (∃ r l, (recs ws locs).filter (fun r => decide (r.key = k)) = r :: l ∧ f.ops = r.ops ∧ f.display = r.display ∧
        f.occs = (r :: l).map Rec.occ) ∧
      f.policies.Nodup ∧ ∀ p, p ∈ f.policies ↔ ∃ o ∈ f.occs, o.site.1 = p := by
  have h := collect_represents ws locs
  refine ⟨h.keys, fun r hr => ?_, fun k f hf => ?_⟩
  · obtain ⟨⟨k, f⟩, h1, h2⟩ := List.mem_map.1 (h.all r hr)
    exact ⟨f, by rw [← h2]; exact h1⟩
  · have hfr := h.frags _ hf
    obtain ⟨r, l, h1, h2, h3⟩ := hfr.first
    refine ⟨⟨r, l, h1, h2, h3, by rw [← h1]; exact hfr.occs⟩, hfr.nodup, fun p => ?_⟩
    rw [hfr.policies p, hfr.occs]
    constructor
    · rintro ⟨r, hr, hk, hp⟩
      exact ⟨r.occ, List.mem_map.2 ⟨r, List.mem_filter.2 ⟨hr, by simpa using hk⟩, rfl⟩, hp⟩
    · rintro ⟨o, ho, hp⟩
      obtain ⟨r, hr, rfl⟩ := List.mem_map.1 ho
      obtain ⟨hr, hk⟩ := List.mem_filter.1 hr
      exact ⟨r, hr, by simpa using hk, hp⟩

/-! ## What is reported -/

/-- the place is within the other: same expression, not beyond its span -/
def Within (o c : Occ) : Prop := c.site = o.site ∧ c.span.1 ≤ o.span.1 ∧ o.span.2 ≤ c.span.2

instance (o c : Occ) : Decidable (Within o c) := by unfold Within; infer_instance

/-- what the lint finds, before it is narrowed down to a policy -/
def reported (ws : Char → Bool) (ord : Frags → Frags) (locs : List Loc) : List (List Char × Frag × List Occ) :=
  groups (ordered ord (collect ws locs)) []

/-- an occurrence of the fragment that is not within one reported for an earlier fragment -/
def Free (G : List (List Char × Frag × List Occ)) (k : List Char) (f : Frag) (o : Occ) : Prop :=
  ¬ ∃ g ∈ G, Earlier (g.1, g.2.1) (k, f) ∧ ∃ c ∈ g.2.2, Within o c

theorem isCovered_iff {cov : List Occ} {o : Occ} : isCovered cov o = true ↔ ∃ c ∈ cov, Within o c := by
  unfold isCovered Within
  simp [List.any_eq_true, and_assoc]

open Classical in
/-- Exactly this is reported: a text with its occurrences that are not within those reported for
earlier texts (more operations first, then longer ones, then by characters), provided there are at
least 3 of them, or 2 if it has 3 or more operations. -/
theorem C77_reported (ho : ∀ l, (ord l).Perm l) (k : List Char) (f : Frag) (live : List Occ) :
    (k, f, live) ∈ reported ws ord locs ↔
      (k, f) ∈ collect ws locs ∧ live = f.occs.filter (fun o => decide (Free (reported ws ord locs) k f o)) ∧
        (if 3 ≤ f.ops then 2 else 3) ≤ live.length := by
  have hsort := ordered_sorted ho (collect_represents ws locs).keys
  have hsplit : ∀ {pre post : Frags}, ordered ord (collect ws locs) = pre ++ (k, f) :: post →
      ((k, f, live) ∈ reported ws ord locs ↔
        live = f.occs.filter (fun o => decide (Free (reported ws ord locs) k f o)) ∧ threshold f.ops ≤ live.length) := by
    intro pre post he
    have hkeys := hsort.keys
    have hord := hsort.order
    rw [he] at hkeys hord
    have hG : reported ws ord locs = groups pre [] ++ groups ((k, f) :: post) ((groups pre []).flatMap (·.2.2)) := by
      rw [reported, he, groups_append, List.nil_append]
    rw [List.pairwise_append] at hord
    have hpre : ∀ g ∈ groups pre [], Earlier (g.1, g.2.1) (k, f) := fun g hg =>
      hord.2.2 _ (groups_mem hg) _ (List.mem_cons_self ..)
    have hpost : ∀ p ∈ post, Earlier (k, f) p := (List.pairwise_cons.1 hord.2.1).1
    -- the earlier ones are those before
    have hfree : ∀ o, Free (reported ws ord locs) k f o ↔ isCovered ((groups pre []).flatMap (·.2.2)) o = false := by
      intro o
      rw [← Bool.not_eq_true, isCovered_iff, Free]
      refine not_congr ⟨?_, ?_⟩
      · rintro ⟨g, hg, hearly, c, hc, hw⟩
        rw [hG] at hg
        rcases List.mem_append.1 hg with hg | hg
        · exact ⟨c, List.mem_flatMap.2 ⟨g, hg, hc⟩, hw⟩
        · exfalso
          rcases List.mem_cons.1 (groups_mem hg) with h1 | h1
          · rw [h1] at hearly; exact earlier_asymm hearly hearly
          · exact earlier_asymm hearly (hpost _ h1)
      · rintro ⟨c, hc, hw⟩
        obtain ⟨g, hg, hc⟩ := List.mem_flatMap.1 hc
        exact ⟨g, by rw [hG]; exact List.mem_append_left _ hg, hpre g hg, c, hc, hw⟩
    have hfil : f.occs.filter (fun o => decide (Free (reported ws ord locs) k f o)) =
        f.occs.filter (fun o => !isCovered ((groups pre []).flatMap (·.2.2)) o) := by
      apply List.filter_congr
      intro o _
      rw [Bool.eq_iff_iff, decide_eq_true_eq, hfree o]
      simp
    rw [hfil]
    have hkn : ∀ g ∈ groups pre [], g.1 ≠ k := by
      intro g hg hgk
      rw [List.map_append] at hkeys
      exact (List.nodup_append.1 hkeys).2.2 _ (List.mem_map_of_mem (groups_mem hg)) k (by simp) hgk
    have hkp : ∀ cov, ∀ g ∈ groups post cov, g.1 ≠ k := by
      intro cov g hg hgk
      rw [List.map_append] at hkeys
      have := (List.nodup_append.1 hkeys).2.1
      rw [List.map_cons, List.nodup_cons] at this
      exact this.1 (hgk ▸ List.mem_map.2 ⟨_, groups_mem hg, rfl⟩)
    rw [hG, List.mem_append, groups]
    constructor
    · rintro (h | h)
      · exact absurd rfl (hkn _ h)
      · split at h
        · exact absurd rfl (hkp _ _ h)
        · rename_i hlen
          rcases List.mem_cons.1 h with h | h
          · injection h with _ h; injection h with _ h
            rw [h]
            exact ⟨rfl, Nat.le_of_not_lt hlen⟩
          · exact absurd rfl (hkp _ _ h)
    · rintro ⟨h1, h2⟩
      right
      rw [h1] at h2
      rw [if_neg (Nat.not_lt.2 h2), h1]
      exact List.mem_cons_self ..
  rw [show (if 3 ≤ f.ops then 2 else 3) = threshold f.ops from rfl]
  by_cases hm : (k, f) ∈ ordered ord (collect ws locs)
  · obtain ⟨pre, post, he⟩ := List.append_of_mem hm
    rw [hsplit he]
    have : (k, f) ∈ collect ws locs := (List.mem_filter.1 (hsort.perm.mem_iff.1 hm)).1
    simp [this]
  · constructor
    · intro h
      exact absurd (groups_mem h) hm
    · rintro ⟨h1, h2, h3⟩
      refine absurd (hsort.perm.mem_iff.2 (List.mem_filter.2 ⟨h1, ?_⟩)) hm
      rw [decide_eq_true_eq]
      rw [h2] at h3
      exact Nat.le_trans h3 (List.length_filter_le ..)

/-- The hints are the reported occurrences in the policy looked at: each at its place, with the text
and the number of occurrences reported. -/
theorem C77_hints {target : String} {h : Hint} :
    h ∈ check ws ord target locs ↔ ∃ k f live o, (k, f, live) ∈ reported ws ord locs ∧ o ∈ live ∧ o.site.1 = target ∧
      h.site = o.site ∧ h.span = o.span ∧ h.snippet = f.display ∧ h.count = live.length ∧
      h.policies = if f.policies.length > 1 then some f.policies.length else none := by
  unfold check
  rw [List.mem_flatMap]
  constructor
  · rintro ⟨⟨k, f, live⟩, h1, h2⟩
    obtain ⟨o, ho, rfl⟩ := List.mem_map.1 h2
    obtain ⟨ho, ht⟩ := List.mem_filter.1 ho
    exact ⟨k, f, live, o, h1, ho, by simpa using ht, rfl, rfl, rfl, rfl, rfl⟩
  · rintro ⟨k, f, live, o, h1, h2, h3, h4, h5, h6, h7, h8⟩
    refine ⟨_, h1, List.mem_map.2 ⟨o, List.mem_filter.2 ⟨h2, by simpa using h3⟩, ?_⟩⟩
    cases h
    simp only at h4 h5 h6 h7 h8
    subst h4; subst h5; subst h6; subst h7; subst h8
    rfl

/-- The result does not depend on the order of hash maps. -/
theorem C77_determined {ord' : Frags → Frags} (ho : ∀ l, (ord l).Perm l) (ho' : ∀ l, (ord' l).Perm l) (target : String) :
    check ws ord target locs = check ws ord' target locs := by
  unfold check
  rw [(ordered_sorted ho (collect_represents ws locs).keys).unique (ordered_sorted ho' (collect_represents ws locs).keys)]

/-- Every hint is at an operation of the policy, and it stands for at least 2 places (3 if the text has
less than 3 operations) with the same text apart from white space. -/
theorem C77_sound (ho : ∀ l, (ord l).Perm l) {target : String} {h : Hint} (hh : h ∈ check ws ord target locs) :
    h.site.1 = target ∧ ∃ (k : List Char) (ops : Nat) (l : List Occ), Occurs ws locs k ops ⟨h.site, h.span⟩ ∧ ⟨h.site, h.span⟩ ∈ l ∧ h.count = l.length ∧
      2 ≤ l.length ∧ (∀ o ∈ l, ∃ n, Occurs ws locs k n o) ∧
      ((∀ o n, Occurs ws locs k n o → n < 3) → 3 ≤ l.length) := by
  obtain ⟨k, f, live, o, h1, h2, h3, h4, h5, _, h7, _⟩ := C77_hints.1 hh
  obtain ⟨h8, h9, h10⟩ := (C77_reported ho k f live).1 h1
  obtain ⟨⟨r, l, e1, e2, e3, e4⟩, _⟩ := C77_fragments.2.2 k f h8
  have hocc : ∀ o ∈ live, ∃ n, Occurs ws locs k n o := by
    intro o hol
    rw [h9] at hol
    have hol := (List.mem_filter.1 hol).1
    rw [e4, ← e1] at hol
    obtain ⟨r, hr, rfl⟩ := List.mem_map.1 hol
    obtain ⟨hr, hk⟩ := List.mem_filter.1 hr
    exact ⟨r.ops, C77_occurrences.1 ⟨r, hr, by simpa using hk, rfl, rfl⟩⟩
  have he : (⟨h.site, h.span⟩ : Occ) = o := by rw [h4, h5]
  obtain ⟨n, hn⟩ := hocc o h2
  refine ⟨by rw [h4]; exact h3, k, n, live, by rw [he]; exact hn, by rw [he]; exact h2, h7, ?_, hocc, fun hall => ?_⟩
  · split at h10 <;> omega
  · have hr : r ∈ (recs ws locs).filter (fun r => decide (r.key = k)) := by rw [e1]; exact List.mem_cons_self ..
    obtain ⟨hr, hk⟩ := List.mem_filter.1 hr
    have := hall r.occ r.ops (C77_occurrences.1 ⟨r, hr, by simpa using hk, rfl, rfl⟩)
    rw [if_neg (by omega)] at h10
    exact h10

/-- A text that occurs often enough is reported, unless it occurs within something larger that is: all
its occurrences are within earlier reported ones but for fewer than are needed. -/
theorem C77_complete (ho : ∀ l, (ord l).Perm l) {k : List Char} {f : Frag} (hf : (k, f) ∈ collect ws locs) {l : List Occ}
    (hl : l.Nodup) (hocc : ∀ o ∈ l, o ∈ f.occs) (hfree : ∀ o ∈ l, Free (reported ws ord locs) k f o)
    (hlen : (if 3 ≤ f.ops then 2 else 3) ≤ l.length) {target : String} {o : Occ} (hm : o ∈ l) (ht : o.site.1 = target) :
    ∃ h ∈ check ws ord target locs, h.site = o.site ∧ h.span = o.span ∧ h.snippet = f.display := by
  classical
  have hsub : l ⊆ f.occs.filter (fun o => decide (Free (reported ws ord locs) k f o)) := fun o h =>
    List.mem_filter.2 ⟨hocc o h, by simpa using hfree o h⟩
  have hle : l.length ≤ (f.occs.filter (fun o => decide (Free (reported ws ord locs) k f o))).length :=
    hl.length_le_of_subset hsub
  refine ⟨⟨o.site, o.span, f.display, _, _⟩, C77_hints.2 ⟨k, f, _, o, (C77_reported ho k f _).2 ⟨hf, rfl, Nat.le_trans hlen hle⟩, hsub hm, ht, rfl, rfl, rfl, rfl, rfl⟩, rfl, rfl, rfl⟩

/-- Nothing reported is within what is reported for an earlier text. -/
theorem C77_outermost (ho : ∀ l, (ord l).Perm l) {k k' : List Char} {f f' : Frag} {live live' : List Occ} {o o' : Occ}
    (h : (k, f, live) ∈ reported ws ord locs) (h' : (k', f', live') ∈ reported ws ord locs) (hm : o ∈ live) (hm' : o' ∈ live')
    (he : Earlier (k', f') (k, f)) : ¬ Within o o' := by
  classical
  obtain ⟨_, h2, _⟩ := (C77_reported ho k f live).1 h
  rw [h2] at hm
  have := (List.mem_filter.1 hm).2
  rw [decide_eq_true_eq] at this
  exact fun hw => this ⟨_, h', he, o', hm', hw⟩

theorem le_sum_of_mem {l : List Nat} {a : Nat} (h : a ∈ l) : a ≤ l.sum := by
  induction l with
  | nil => cases h
  | cons b l ih =>
    rw [List.sum_cons]
    rcases List.mem_cons.1 h with rfl | h
    · exact Nat.le_add_right ..
    · exact Nat.le_trans (ih h) (Nat.le_add_left ..)

/-- an operation has more operations than what is below it -/
theorem C77_ops_below {n m : LNode} (h : In n m) (hn : n ≠ m) (hm : IsOperation m) : n.opCount < m.opCount := by
  have hle : ∀ {n m : LNode}, In n m → n.opCount ≤ m.opCount := by
    intro n m h
    induction h with
    | here => exact Nat.le_refl _
    | under h1 _ ih =>
      rw [C77_ops]
      exact Nat.le_trans ih (Nat.le_trans (le_sum_of_mem (List.mem_map_of_mem h1)) (Nat.le_add_right ..))
  cases h with
  | here => exact absurd rfl hn
  | under h1 h2 =>
    rw [C77_ops, if_pos ((isOp_iff _).2 hm)]
    have := Nat.le_trans (hle h2) (le_sum_of_mem (List.mem_map_of_mem (f := LNode.opCount) h1))
    omega

/-- As long as the same text has the same number of operations everywhere, no reported operation is
below another reported one in the same expression. -/
theorem C77_nested (ho : ∀ l, (ord l).Perm l)
    (hsame : ∀ {k : List Char} {a b : Nat} {o o' : Occ}, Occurs ws locs k a o → Occurs ws locs k b o' → a = b)
    {k k' : List Char} {f f' : Frag} {live live' : List Occ} {o o' : Occ}
    (h : (k, f, live) ∈ reported ws ord locs) (h' : (k', f', live') ∈ reported ws ord locs) (hm : o ∈ live) (hm' : o' ∈ live')
    {n m : LNode} (hn : Occurs ws locs k n.opCount o) (hn' : Occurs ws locs k' m.opCount o')
    (hin : In n m) (hne : n ≠ m) (hop : IsOperation m) : ¬ Within o o' := by
  classical
  have hops : ∀ {k f live}, (k, f, live) ∈ reported ws ord locs → ∀ {a o}, Occurs ws locs k a o → f.ops = a := by
    intro k f live h a o ha
    obtain ⟨h8, _⟩ := (C77_reported ho k f live).1 h
    obtain ⟨⟨r, l, e1, e2, _⟩, _⟩ := C77_fragments.2.2 k f h8
    have hr : r ∈ (recs ws locs).filter (fun r => decide (r.key = k)) := by rw [e1]; exact List.mem_cons_self ..
    obtain ⟨hr, hk⟩ := List.mem_filter.1 hr
    rw [e2]
    exact hsame (C77_occurrences.1 ⟨r, hr, by simpa using hk, rfl, rfl⟩) ha
  apply C77_outermost ho h h' hm hm'
  have := C77_ops_below hin hne hop
  exact .inl (by show f.ops < f'.ops; rw [hops h hn, hops h' hn']; exact this)

/-! ## What is shown -/

/-- the words of a text -/
inductive Words (ws : Char → Bool) : List Char → List (List Char) → Prop
  | nil {gap} : (∀ c ∈ gap, ws c = true) → Words ws gap []
  | cons {gap w rest l} : (∀ c ∈ gap, ws c = true) → w ≠ [] → (∀ c ∈ w, ws c = false) →
      (∀ c ∈ rest.head?, ws c = true) → Words ws rest l → Words ws (gap ++ (w ++ rest)) (w :: l)

theorem words_exist (ws : Char → Bool) : ∀ s : List Char, ∃ l, Words ws s l
  | [] => ⟨[], .nil (by simp)⟩
  | c :: s => by
    obtain ⟨l, hl⟩ := words_exist ws s
    by_cases hc : ws c = true
    · refine ⟨l, ?_⟩
      cases hl with
      | nil hg => exact .nil fun d hd => (List.mem_cons.1 hd).elim (fun e => e ▸ hc) (hg d)
      | @cons gap w rest l hg hwn hw hr h =>
        exact Words.cons (gap := c :: gap)
          (fun d hd => (List.mem_cons.1 hd).elim (fun e => e ▸ hc) (hg d)) hwn hw hr h
    · have hc : ws c = false := by simpa using hc
      by_cases hs : ∀ d ∈ s.head?, ws d = true
      · exact ⟨[c] :: l, Words.cons (gap := []) (w := [c]) (by simp) (by simp) (by simpa using hc) hs hl⟩
      · cases hl with
        | nil hg =>
          refine absurd (fun d hd => hg d ?_) hs
          exact List.mem_of_mem_head? hd
        | @cons gap w rest l hg hwn hw hr h =>
          cases gap with
          | nil =>
            exact ⟨(c :: w) :: l, Words.cons (gap := []) (by simp) (by simp)
              (fun d hd => (List.mem_cons.1 hd).elim (fun e => e ▸ hc) (hw d)) hr h⟩
          | cons g gap => exact absurd (by simpa using hg g (List.mem_cons_self ..)) hs

theorem snippet_gap (gap r out : List Char) (p : Bool) (hg : ∀ c ∈ gap, ws c = true) (hn : gap ≠ []) :
    snippetLoop ws (gap ++ r) out p = snippetLoop ws r out (!out.isEmpty) := by
  induction gap generalizing p with
  | nil => exact absurd rfl hn
  | cons c gap ih =>
    rw [List.cons_append, snippetLoop, if_pos (hg c (List.mem_cons_self ..))]
    cases gap with
    | nil => rfl
    | cons d gap => exact ih _ (fun c hc => hg c (List.mem_cons_of_mem _ hc)) (by simp)

theorem snippet_word (w r out : List Char) (p : Bool) (hw : ∀ c ∈ w, ws c = false) (hn : w ≠ []) :
    snippetLoop ws (w ++ r) out p = snippetLoop ws r (out ++ if p then ' ' :: w else w) false := by
  induction w generalizing p out with
  | nil => exact absurd rfl hn
  | cons c w ih =>
    rw [List.cons_append, snippetLoop, if_neg (by simp [hw c (List.mem_cons_self ..)])]
    cases w with
    | nil => cases p <;> rfl
    | cons d w =>
      rw [ih _ _ (fun c hc => hw c (List.mem_cons_of_mem _ hc)) (by simp)]
      cases p <;> simp

theorem snippet_words {s : List Char} {l : List (List Char)} (h : Words ws s l) :
    ∀ out, (out = [] ∨ ∀ c ∈ s.head?, ws c = true) →
      snippetLoop ws s out false = out ++ if out = [] then [' '].intercalate l else l.flatMap (' ' :: ·) := by
  induction h with
  | @nil gap hg =>
    intro out _
    by_cases hn : gap = []
    · subst hn; simp [snippetLoop, List.intercalate]
    · have := snippet_gap gap [] out false hg hn
      rw [List.append_nil] at this
      rw [this]; simp [snippetLoop, List.intercalate]
  | @cons gap w rest l hg hwn hw hr _ ih =>
    intro out hout
    have hj : ∀ l : List (List Char), w ++ l.flatMap (' ' :: ·) = [' '].intercalate (w :: l) := by
      intro l
      clear hw hwn ih hout
      induction l generalizing w with
      | nil => simp [List.intercalate]
      | cons x l ihl =>
        rw [List.flatMap_cons]
        have := ihl (w := x)
        simp only [List.intercalate, List.intersperse_cons_cons, List.flatten_cons] at this ⊢
        rw [← this]; simp
    by_cases hn : gap = []
    · subst hn
      have ho : out = [] := by
        rcases hout with h | h
        · exact h
        · cases w with
          | nil => exact absurd rfl hwn
          | cons c w =>
            have := h c (by simp)
            rw [hw c (List.mem_cons_self ..)] at this
            cases this
      subst ho
      rw [List.nil_append, snippet_word w rest [] false hw hwn, ih _ (.inr hr)]
      simp [hwn, hj]
    · rw [snippet_gap gap _ out false hg hn, snippet_word w rest out _ hw hwn, ih _ (.inr hr)]
      cases out with
      | nil => simp [hwn, hj]
      | cons c out => simp

/-- What is shown are the words of the expression with one space between, or the first 59 characters of
that and an ellipsis: never more than 60 characters. -/
theorem C77_snippet (source : List Char) (span : Span) :
    (∃ l, Words ws ((source.take span.2).drop span.1) l) ∧
    (∀ l, Words ws ((source.take span.2).drop span.1) l → displaySnippet ws source span =
      if ([' '].intercalate l).length ≤ 60 then [' '].intercalate l else ([' '].intercalate l).take 59 ++ ['…']) ∧
    (displaySnippet ws source span).length ≤ 60 := by
  refine ⟨words_exist ws _, fun l hl => ?_, ?_⟩
  · have := snippet_words hl [] (.inl rfl)
    rw [List.nil_append, if_pos rfl] at this
    unfold displaySnippet
    rw [charsAt, ← List.drop_take, this]
    dsimp only
    by_cases h : ([' '].intercalate l).length ≤ 60
    · rw [if_neg (by omega), if_pos h]
    · rw [if_pos (by omega), if_neg h]
  · unfold displaySnippet
    dsimp only
    split
    · simp
      omega
    · omega

/-! ## Examples and what the lint does not see -/

/-- white space for the examples -/
def blank (c : Char) : Bool := c = ' '

/-- an expression in a block of its own with one operation that spans it all, of `n` operations nested
one in the other at the beginning -/
def sum (a b : Nat) (l : List LNode) : LNode := .mk .binary (some (a, b)) l

def loc (policy block : String) (source : String) (tree : LNode) : Loc :=
  ⟨policy, block, "e", false, true, source.toList, some tree⟩

instance (a b : List Char × Frag) : Decidable (Earlier a b) := by unfold Earlier; infer_instance

/-- what is found, given the texts in order -/
theorem check_eq (ho : ∀ l, (ord l).Perm l) {l : Frags} (h : Sorted (collect ws locs) l) (target : String) :
    check ws ord target locs = (groups l []).flatMap (hintsOf target) := by
  rw [check, (ordered_sorted ho (collect_represents ws locs).keys).unique h]

def exA : List Loc :=
  [loc "p" "1" "a + bb+cc" (sum 0 9 [sum 0 6 []]), loc "p" "2" "a+bb + cc" (sum 0 9 [sum 0 4 []]),
   loc "p" "3" "a+bb+cc*d" (sum 0 9 [sum 0 4 [], sum 5 9 []]), loc "q" "4" "a+bb+cc" (sum 0 7 [sum 0 4 []])]

/-- three times the same sum, written differently -/
example (ho : ∀ l, (ord l).Perm l) : check blank ord "p" exA =
    [⟨("p", "1", "e"), (0, 9), "a + bb+cc".toList, 3, some 2⟩, ⟨("p", "2", "e"), (0, 9), "a + bb+cc".toList, 3, some 2⟩] := by
  rw [check_eq ho (l := (collect blank exA).filter fun p => p.2.occs.length ≥ threshold p.2.ops) ⟨.refl _, by decide, by decide⟩]
  decide

/-- twice is enough for three operations; what is within is not reported on its own though it occurs
three times: only the third is left -/
def exB : List Loc :=
  [loc "p" "1" "aa+bb+cc+dd" (sum 0 11 [sum 0 8 [sum 0 5 []]]), loc "p" "2" "aa+bb+cc+dd" (sum 0 11 [sum 0 8 [sum 0 5 []]]),
   loc "p" "3" "aa+bb+cc" (sum 0 8 [sum 0 5 []])]

example (ho : ∀ l, (ord l).Perm l) : (check blank ord "p" exB).map (fun h => (h.site.2.1, h.span, h.count)) =
    [("1", (0, 11), 2), ("2", (0, 11), 2)] := by
  rw [check_eq ho (l := (collect blank exB).filter fun p => p.2.occs.length ≥ threshold p.2.ops) ⟨.refl _, by decide, by decide⟩]
  decide

/-- NEGATIVE: white space is dropped from strings too. Three comparisons with different strings are
one "repeated derivation". -/
def exStrings : List Loc :=
  [loc "p" "1" "x == 'a b'" (sum 0 10 []), loc "p" "2" "x == 'ab'" (sum 0 9 []), loc "p" "3" "x == ' ab'" (sum 0 10 [])]

theorem C77_strings (ho : ∀ l, (ord l).Perm l) : (check blank ord "p" exStrings).map (fun h => (h.site.2.1, h.snippet, h.count)) =
    [("1", "x == 'a b'".toList, 3), ("2", "x == 'a b'".toList, 3), ("3", "x == 'a b'".toList, 3)] := by
  rw [check_eq ho (l := (collect blank exStrings).filter fun p => p.2.occs.length ≥ threshold p.2.ops) ⟨.refl _, by decide, by decide⟩]
  decide

/-- NEGATIVE: the number of policies in the message counts those of all occurrences. Here all three
places the message is about are in `p`, the message says "3 times across 2 policies": in `q` the text
only occurs within what is reported on its own. -/
def exPolicies : List Loc :=
  [loc "p" "1" "aa+bb+cc" (sum 0 8 [sum 0 5 []]), loc "p" "2" "aa+bb+cc" (sum 0 8 [sum 0 5 []]),
   loc "p" "3" "aa+bb+cc" (sum 0 8 [sum 0 5 []]), loc "q" "4" "aa+bb+cc+dd" (sum 0 11 [sum 0 8 [sum 0 5 []]]),
   loc "q" "5" "aa+bb+cc+dd" (sum 0 11 [sum 0 8 [sum 0 5 []]])]

theorem C77_policies (ho : ∀ l, (ord l).Perm l) :
    (check blank ord "p" exPolicies).map (fun h => (h.site.2.1, h.count, h.policies)) = [("1", 3, some 2), ("2", 3, some 2), ("3", 3, some 2)] ∧
    (check blank ord "q" exPolicies).map (fun h => (h.site.2.1, h.span, h.count, h.policies)) =
      [("4", (0, 11), 2, none), ("5", (0, 11), 2, none)] := by
  have h : Sorted (collect blank exPolicies)
      (((collect blank exPolicies).filter fun p => p.2.occs.length ≥ threshold p.2.ops).reverse) :=
    ⟨List.reverse_perm _, by decide, by decide⟩
  rw [check_eq ho h, check_eq ho h]
  decide

end Zen.Policy.Repeat
