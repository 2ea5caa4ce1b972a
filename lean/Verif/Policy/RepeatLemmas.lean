import Verif.Policy.RepeatLint
namespace Zen.Policy.Repeat

/-! ## Collecting -/

/-- an occurrence as it is collected -/
structure Rec where
  key : List Char
  ops : Nat
  display : List Char
  occ : Occ

/-- the occurrences of an expression, in order -/
def locRecs (ws : Char → Bool) (loc : Loc) : List Rec :=
  if loc.inTable || !loc.standard then []
  else ((found loc.tree).filter fun p => 6 ≤ (fingerprint ws loc.source p.1).length).map fun p =>
    ⟨fingerprint ws loc.source p.1, p.2, displaySnippet ws loc.source p.1, ⟨(loc.policy, loc.block, loc.expr), p.1⟩⟩

def recs (ws : Char → Bool) (locs : List Loc) : List Rec := locs.flatMap (locRecs ws)

/-- a fragment is made of the occurrences of its text -/
structure FragOf (rs : List Rec) (k : List Char) (f : Frag) : Prop where
  first : ∃ r l, rs.filter (fun r => decide (r.key = k)) = r :: l ∧ f.ops = r.ops ∧ f.display = r.display
  occs : f.occs = (rs.filter fun r => decide (r.key = k)).map Rec.occ
  nodup : f.policies.Nodup
  policies : ∀ p, p ∈ f.policies ↔ ∃ r ∈ rs, r.key = k ∧ r.occ.site.1 = p

structure Represents (m : Frags) (rs : List Rec) : Prop where
  keys : (m.map Prod.fst).Nodup
  frags : ∀ p ∈ m, FragOf rs p.1 p.2
  all : ∀ r ∈ rs, r.key ∈ m.map Prod.fst

theorem insertNew_nodup {l : List String} (h : l.Nodup) (s : String) : (insertNew l s).Nodup := by
  unfold insertNew
  split
  · exact h
  · rename_i hs
    exact List.nodup_append.2 ⟨h, by simp, fun a ha b hb => by
      rw [List.mem_singleton.1 hb]; exact fun hab => hs (hab ▸ ha)⟩

theorem mem_insertNew {l : List String} {s p : String} : p ∈ insertNew l s ↔ p ∈ l ∨ p = s := by
  unfold insertNew
  split
  · rename_i hs
    exact ⟨.inl, fun h => h.elim id fun h => h ▸ hs⟩
  · simp

theorem add_keys (ws : Char → Bool) (loc : Loc) (key : List Char) (span : Span) (ops : Nat) : ∀ m : Frags,
    (m.add ws loc key span ops).map Prod.fst = if key ∈ m.map Prod.fst then m.map Prod.fst else m.map Prod.fst ++ [key]
  | [] => by simp [Frags.add]
  | (k, f) :: r => by
    unfold Frags.add
    by_cases h : k = key
    · simp [h]
    · rw [if_neg h, List.map_cons, add_keys ws loc key span ops r, List.map_cons]
      have h' : ¬ key = k := fun e => h e.symm
      by_cases hm : key ∈ r.map Prod.fst
      · rw [if_pos hm, if_pos (List.mem_cons_of_mem _ hm)]
      · rw [if_neg hm, if_neg (by simpa [h'] using hm)]; rfl

theorem FragOf.other {rs : List Rec} {k : List Char} {f : Frag} (h : FragOf rs k f) {r : Rec} (hr : r.key ≠ k) :
    FragOf (rs ++ [r]) k f := by
  have e : (rs ++ [r]).filter (fun r => decide (r.key = k)) = rs.filter (fun r => decide (r.key = k)) := by
    rw [List.filter_append]; simp [hr]
  refine ⟨by rw [e]; exact h.first, by rw [e]; exact h.occs, h.nodup, fun p => ?_⟩
  rw [h.policies p]
  constructor
  · rintro ⟨s, h1, h2⟩; exact ⟨s, List.mem_append_left _ h1, h2⟩
  · rintro ⟨s, h1, h2, h3⟩
    rcases List.mem_append.1 h1 with h1 | h1
    · exact ⟨s, h1, h2, h3⟩
    · rw [List.mem_singleton.1 h1] at h2; exact absurd h2 hr

theorem mem_add {ws : Char → Bool} {loc : Loc} {key : List Char} {span : Span} {ops : Nat} : ∀ {m : Frags} {p : List Char × Frag},
    (m.map Prod.fst).Nodup → p ∈ m.add ws loc key span ops →
    (p ∈ m ∧ p.1 ≠ key) ∨
    (∃ f, (key, f) ∈ m ∧ p = (key, { f with policies := insertNew f.policies loc.policy
                                            occs := f.occs ++ [⟨(loc.policy, loc.block, loc.expr), span⟩] })) ∨
    (key ∉ m.map Prod.fst ∧
      p = (key, ⟨ops, displaySnippet ws loc.source span, [loc.policy], [⟨(loc.policy, loc.block, loc.expr), span⟩]⟩))
  | [], p, _, h => by
    right; right
    exact ⟨by simp, by simpa [Frags.add] using h⟩
  | (k, f) :: r, p, hn, h => by
    unfold Frags.add at h
    rw [List.map_cons, List.nodup_cons] at hn
    split at h
    · rename_i hk
      rcases List.mem_cons.1 h with h | h
      · right; left
        exact ⟨f, by rw [hk]; exact List.mem_cons_self .., by rw [h, hk]⟩
      · refine .inl ⟨List.mem_cons_of_mem _ h, fun he => hn.1 ?_⟩
        rw [hk, ← he]; exact List.mem_map.2 ⟨p, h, rfl⟩
    · rename_i hk
      rcases List.mem_cons.1 h with h | h
      · exact .inl ⟨by rw [h]; exact List.mem_cons_self .., by rw [h]; exact hk⟩
      · rcases mem_add hn.2 h with ⟨h1, h2⟩ | ⟨f', h1, h2⟩ | ⟨h1, h2⟩
        · exact .inl ⟨List.mem_cons_of_mem _ h1, h2⟩
        · exact .inr (.inl ⟨f', List.mem_cons_of_mem _ h1, h2⟩)
        · refine .inr (.inr ⟨?_, h2⟩)
          rw [List.map_cons, List.mem_cons, not_or]
          exact ⟨fun e => hk e.symm, h1⟩

theorem Represents.add {m : Frags} {rs : List Rec} (h : Represents m rs) (ws : Char → Bool) (loc : Loc) (key : List Char) (span : Span)
    (ops : Nat) :
    Represents (m.add ws loc key span ops)
      (rs ++ [⟨key, ops, displaySnippet ws loc.source span, ⟨(loc.policy, loc.block, loc.expr), span⟩⟩]) := by
  refine ⟨?_, fun p hp => ?_, fun r hr => ?_⟩
  · rw [add_keys]
    split
    · exact h.keys
    · rename_i hk
      exact List.nodup_append.2 ⟨h.keys, by simp, fun a ha b hb => by
        rw [List.mem_singleton.1 hb]; exact fun hab => hk (hab ▸ ha)⟩
  · rcases mem_add h.keys hp with ⟨h1, h2⟩ | ⟨f, h1, rfl⟩ | ⟨h1, rfl⟩
    · exact (h.frags p h1).other fun e => h2 e.symm
    · have hf := h.frags _ h1
      dsimp only at hf
      refine ⟨?_, ?_, insertNew_nodup hf.nodup _, fun q => ?_⟩
      · obtain ⟨r, l, h2, h3, h4⟩ := hf.first
        exact ⟨r, l ++ [⟨key, ops, displaySnippet ws loc.source span, ⟨(loc.policy, loc.block, loc.expr), span⟩⟩],
          by rw [List.filter_append, h2]; simp, h3, h4⟩
      · dsimp only
        rw [List.filter_append, List.map_append, hf.occs]; simp
      · dsimp only
        rw [mem_insertNew, hf.policies q]
        constructor
        · rintro (⟨r, h2, h3⟩ | rfl)
          · exact ⟨r, List.mem_append_left _ h2, h3⟩
          · exact ⟨_, List.mem_append_right _ (List.mem_singleton.2 rfl), rfl, rfl⟩
        · rintro ⟨r, h2, h3, h4⟩
          rcases List.mem_append.1 h2 with h2 | h2
          · exact .inl ⟨r, h2, h3, h4⟩
          · rw [List.mem_singleton.1 h2] at h4; exact .inr h4.symm
    · have e : rs.filter (fun r => decide (r.key = key)) = [] :=
        List.filter_eq_nil_iff.2 fun r hr he => h1 (of_decide_eq_true he ▸ h.all r hr)
      refine ⟨⟨_, [], by rw [List.filter_append, e]; simp; rfl, rfl, rfl⟩, ?_, by simp, fun q => ?_⟩
      · dsimp only
        rw [List.filter_append, e]; simp
      · dsimp only
        rw [List.mem_singleton]
        constructor
        · rintro rfl
          exact ⟨_, List.mem_append_right _ (List.mem_singleton.2 rfl), rfl, rfl⟩
        · rintro ⟨r, h2, h3, h4⟩
          rcases List.mem_append.1 h2 with h2 | h2
          · exact absurd (h3 ▸ h.all r h2) h1
          · rw [List.mem_singleton.1 h2] at h4; exact h4.symm
  · rw [add_keys]
    rcases List.mem_append.1 hr with hr | hr
    · have := h.all r hr
      split
      · exact this
      · exact List.mem_append_left _ this
    · rw [List.mem_singleton.1 hr]
      dsimp only
      split
      · rename_i hk; exact hk
      · exact List.mem_append_right _ (List.mem_singleton.2 rfl)

theorem collectLoc_represents (ws : Char → Bool) {m : Frags} {rs : List Rec} (h : Represents m rs) (loc : Loc) :
    Represents (collectLoc ws m loc) (rs ++ locRecs ws loc) := by
  unfold collectLoc locRecs
  split
  · simpa using h
  · generalize found loc.tree = l
    induction l generalizing m rs with
    | nil => simpa using h
    | cons p l ih =>
      rw [List.foldl_cons]
      dsimp only
      split
      · rename_i hlt
        rw [List.filter_cons_of_neg (by simpa using hlt)]
        exact ih h
      · rename_i hlt
        rw [List.filter_cons_of_pos (by simpa using hlt), List.map_cons,
          show ∀ (a : Rec) (x : List Rec), rs ++ a :: x = (rs ++ [a]) ++ x from by simp]
        exact ih (h.add ws loc _ _ _)

theorem collect_represents (ws : Char → Bool) (locs : List Loc) : Represents (collect ws locs) (recs ws locs) := by
  have : ∀ (locs : List Loc) {m : Frags} {rs : List Rec}, Represents m rs →
      Represents (locs.foldl (collectLoc ws) m) (rs ++ recs ws locs) := by
    intro locs
    induction locs with
    | nil => intro m rs h; simpa [recs] using h
    | cons loc locs ih =>
      intro m rs h
      rw [List.foldl_cons, recs, List.flatMap_cons, ← List.append_assoc]
      exact ih (collectLoc_represents ws h loc)
  exact this locs (m := []) (rs := []) ⟨.nil, by simp, by simp⟩

/-! ## The order -/

theorem strLe_iff : ∀ a b : List Char, strLe a b = true ↔ ¬ b < a
  | [], b => by simp [strLe]
  | a :: l, [] => by simp [strLe]
  | a :: l, b :: r => by
    have ih := strLe_iff l r
    unfold strLe
    rw [List.cons_lt_cons_iff]
    have hlt : ∀ x y : Char, x < y ↔ x.toNat < y.toNat := fun x y => Iff.rfl
    split
    · rename_i he
      have hab : a = b := Char.toNat_inj.1 he
      subst hab
      rw [ih]
      simp
    · rename_i he
      rw [decide_eq_true_eq, hlt]
      have hne : ¬ b = a := fun h => he (by rw [h])
      simp only [hne, false_and, or_false]
      omega

/-- the first of two fragments -/
def Earlier (a b : List Char × Frag) : Prop :=
  b.2.ops < a.2.ops ∨ (a.2.ops = b.2.ops ∧ (byteLen b.1 < byteLen a.1 ∨ (byteLen a.1 = byteLen b.1 ∧ a.1 < b.1)))

theorem fragLe_iff (a b : List Char × Frag) : fragLe a b = true ↔ ¬ Earlier b a := by
  unfold fragLe Earlier
  split
  · rename_i h
    split
    · rename_i h'
      rw [strLe_iff]
      constructor
      · rintro h1 (h2 | ⟨_, h2 | ⟨_, h2⟩⟩)
        · omega
        · omega
        · exact h1 h2
      · intro h1 h2
        exact h1 (.inr ⟨h.symm, .inr ⟨h'.symm, h2⟩⟩)
    · rename_i h'
      rw [decide_eq_true_eq]
      constructor
      · rintro h1 (h2 | ⟨_, h2 | ⟨h2, _⟩⟩)
        · omega
        · omega
        · exact h' h2.symm
      · intro h1
        rcases Nat.lt_trichotomy (byteLen a.1) (byteLen b.1) with h2 | h2 | h2
        · exact absurd (.inr ⟨h.symm, .inl h2⟩) h1
        · exact absurd h2 h'
        · exact h2
  · rename_i h
    rw [decide_eq_true_eq]
    constructor
    · rintro h1 (h2 | ⟨h2, _⟩)
      · omega
      · exact h h2.symm
    · intro h1
      rcases Nat.lt_trichotomy a.2.ops b.2.ops with h2 | h2 | h2
      · exact absurd (.inl h2) h1
      · exact absurd h2 h
      · exact h2

theorem earlier_asymm {a b : List Char × Frag} (h : Earlier a b) : ¬ Earlier b a := by
  rintro (h1 | ⟨h1, h2 | ⟨h2, h3⟩⟩)
  · rcases h with h | ⟨h, _⟩ <;> omega
  · rcases h with h | ⟨_, h | ⟨h, _⟩⟩ <;> omega
  · rcases h with h | ⟨_, h | ⟨_, h⟩⟩
    · omega
    · omega
    · exact absurd h3 (List.lt_asymm h)

theorem earlier_total {a b : List Char × Frag} (h : a.1 ≠ b.1) : Earlier a b ∨ Earlier b a := by
  unfold Earlier
  rcases Nat.lt_trichotomy a.2.ops b.2.ops with h1 | h1 | h1
  · exact .inr (.inl h1)
  · rcases Nat.lt_trichotomy (byteLen a.1) (byteLen b.1) with h2 | h2 | h2
    · exact .inr (.inr ⟨h1.symm, .inl h2⟩)
    · by_cases h3 : a.1 < b.1
      · exact .inl (.inr ⟨h1, .inr ⟨h2, h3⟩⟩)
      · by_cases h4 : b.1 < a.1
        · exact .inr (.inr ⟨h1.symm, .inr ⟨h2.symm, h4⟩⟩)
        · exact absurd (List.le_antisymm h4 h3) h
    · exact .inl (.inr ⟨h1, .inl h2⟩)
  · exact .inl (.inl h1)

theorem earlier_trans {a b c : List Char × Frag} (h : Earlier a b) (h' : Earlier b c) : Earlier a c := by
  unfold Earlier at *
  rcases h with h | ⟨h, h1 | ⟨h1, h2⟩⟩ <;> rcases h' with h' | ⟨h', h1' | ⟨h1', h2'⟩⟩
  · left; omega
  · left; omega
  · left; omega
  · left; omega
  · exact .inr ⟨by omega, .inl (by omega)⟩
  · exact .inr ⟨by omega, .inl (by omega)⟩
  · left; omega
  · exact .inr ⟨by omega, .inl (by omega)⟩
  · exact .inr ⟨by omega, .inr ⟨by omega, List.lt_trans h2 h2'⟩⟩

theorem fragLe_total (a b : List Char × Frag) : (fragLe a b || fragLe b a) = true := by
  rw [Bool.or_eq_true, fragLe_iff, fragLe_iff]
  by_cases h : Earlier b a
  · exact .inr (earlier_asymm h)
  · exact .inl h

theorem fragLe_trans (a b c : List Char × Frag) (h : fragLe a b = true) (h' : fragLe b c = true) : fragLe a c = true := by
  rw [fragLe_iff] at *
  intro hca
  -- c before a; neither b before a nor c before b
  unfold Earlier at *
  rcases Nat.lt_trichotomy a.2.ops b.2.ops with h1 | h1 | h1
  · exact h (.inl h1)
  · rcases Nat.lt_trichotomy b.2.ops c.2.ops with h2 | h2 | h2
    · exact h' (.inl h2)
    · rcases Nat.lt_trichotomy (byteLen a.1) (byteLen b.1) with h3 | h3 | h3
      · exact h (.inr ⟨h1.symm, .inl h3⟩)
      · rcases Nat.lt_trichotomy (byteLen b.1) (byteLen c.1) with h4 | h4 | h4
        · exact h' (.inr ⟨h2.symm, .inl h4⟩)
        · rcases hca with h5 | ⟨_, h5 | ⟨_, h5⟩⟩
          · omega
          · omega
          · have e1 : ¬ b.1 < a.1 := fun hh => h (.inr ⟨h1.symm, .inr ⟨h3.symm, hh⟩⟩)
            have e2 : ¬ c.1 < b.1 := fun hh => h' (.inr ⟨h2.symm, .inr ⟨h4.symm, hh⟩⟩)
            exact absurd h5 (List.le_trans e1 e2)
        · rcases hca with h5 | ⟨_, h5 | ⟨h5, _⟩⟩ <;> omega
      · rcases hca with h5 | ⟨_, h5 | ⟨h5, _⟩⟩
        · omega
        · rcases Nat.lt_trichotomy (byteLen b.1) (byteLen c.1) with h4 | h4 | h4
          · exact h' (.inr ⟨h2.symm, .inl h4⟩)
          · omega
          · omega
        · rcases Nat.lt_trichotomy (byteLen b.1) (byteLen c.1) with h4 | h4 | h4
          · exact h' (.inr ⟨h2.symm, .inl h4⟩)
          · omega
          · omega
    · rcases hca with h5 | ⟨h5, _⟩ <;> omega
  · rcases hca with h5 | ⟨h5, _⟩
    · have : ¬ b.2.ops < c.2.ops := fun hh => h' (.inl hh)
      omega
    · have : ¬ b.2.ops < c.2.ops := fun hh => h' (.inl hh)
      omega

/-- the fragments processed: those with enough occurrences, each after all that come earlier -/
structure Sorted (m l : Frags) : Prop where
  perm : l.Perm (m.filter fun p => p.2.occs.length ≥ threshold p.2.ops)
  keys : (l.map Prod.fst).Nodup
  order : l.Pairwise Earlier

theorem ordered_sorted {ord : Frags → Frags} (ho : ∀ l, (ord l).Perm l) {m : Frags} (hm : (m.map Prod.fst).Nodup) :
    Sorted m (ordered ord m) := by
  have hp : (ordered ord m).Perm (m.filter fun p => p.2.occs.length ≥ threshold p.2.ops) :=
    (List.mergeSort_perm _ _).trans ((ho m).filter _)
  have hk : ((ordered ord m).map Prod.fst).Nodup :=
    (hp.map _).nodup_iff.2 ((List.filter_sublist.map _).nodup hm)
  refine ⟨hp, hk, ?_⟩
  have h1 : (ordered ord m).Pairwise fun a b => fragLe a b = true :=
    List.pairwise_mergeSort fragLe_trans fragLe_total _
  rw [List.Nodup, List.pairwise_map] at hk
  refine (h1.and hk).imp ?_
  rintro a b ⟨h2, h3⟩
  exact (earlier_total h3).resolve_right ((fragLe_iff a b).1 h2)

/-- there is one such list -/
theorem Sorted.unique {m l l' : Frags} (h : Sorted m l) (h' : Sorted m l') : l = l' :=
  List.Perm.eq_of_pairwise (le := Earlier) (fun _ _ _ _ hab hba => absurd hba (earlier_asymm hab)) h.order h'.order
    (h.perm.trans h'.perm.symm)

/-! ## The groups -/

theorem groups_append : ∀ (a b : Frags) (cov : List Occ),
    groups (a ++ b) cov = groups a cov ++ groups b (cov ++ (groups a cov).flatMap (·.2.2))
  | [], b, cov => by simp [groups]
  | (k, f) :: a, b, cov => by
    rw [List.cons_append, groups, groups]
    split
    · exact groups_append a b cov
    · rw [groups_append a b, List.flatMap_cons, List.cons_append, List.append_assoc]

theorem groups_mem : ∀ {l : Frags} {cov : List Occ} {g}, g ∈ groups l cov → (g.1, g.2.1) ∈ l
  | [], cov, g, h => by simp [groups] at h
  | (k, f) :: r, cov, g, h => by
    unfold groups at h
    dsimp only at h
    split at h
    · exact List.mem_cons_of_mem _ (groups_mem h)
    · rcases List.mem_cons.1 h with h | h
      · rw [h]; exact List.mem_cons_self ..
      · exact List.mem_cons_of_mem _ (groups_mem h)

end Zen.Policy.Repeat
