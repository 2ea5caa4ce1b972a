import Verif.Analysis.ReadsSim
/-
What the walk does to its scope, and paths covered by reported reads.
-/
namespace Zen.Reads
open Zen

/-- a name of an enclosing closure -/
def Sc.aliased (S : Sc) (x : String) : Prop := (aGet S.aliases x).isSome = true ∨ x ∈ S.unresolved

/-- `$root` is neither local nor bound nor an alias. -/
structure SOk (S : Sc) : Prop where
  locals : "$root" ∉ S.locals
  bindings : ∀ b ∈ S.bindings, b ≠ [] ∧ b.head? ≠ some "$root"
  aliases : ¬ S.aliased "$root"

structure Le (S S' : Sc) : Prop where
  aliases : S'.aliases = S.aliases
  unresolved : S'.unresolved = S.unresolved
  loc : ∀ p, S.isLocal p = true → S'.isLocal p = true

theorem Le.refl (S : Sc) : Le S S := ⟨rfl, rfl, fun _ h => h⟩
theorem Le.trans {S T U : Sc} (h : Le S T) (k : Le T U) : Le S U :=
  ⟨k.aliases.trans h.aliases, k.unresolved.trans h.unresolved, fun p hp => k.loc p (h.loc p hp)⟩

theorem isLocal_root {S : Sc} (h : SOk S) (r : List String) : S.isLocal ("$root" :: r) = false := by
  unfold Sc.isLocal
  rw [Bool.or_eq_false_iff]
  refine ⟨?_, ?_⟩
  · simpa using h.locals
  · rw [List.any_eq_false]
    intro b hb hp
    obtain ⟨h1, h2⟩ := h.bindings b hb
    cases b with
    | nil => exact h1 rfl
    | cons y t =>
      simp only [List.isPrefixOf, Bool.and_eq_true, beq_iff_eq] at hp
      exact h2 (by simp [hp.1])

theorem isLocal_ext {S : Sc} {p : List String} (q : List String) (h : S.isLocal p = true) : S.isLocal (p ++ q) = true := by
  cases p with
  | nil => cases h
  | cons x r =>
    unfold Sc.isLocal at h ⊢
    simp only [List.cons_append, Bool.or_eq_true, List.any_eq_true] at h ⊢
    rcases h with h | ⟨b, hb, hp⟩
    · exact .inl h
    · refine .inr ⟨b, hb, ?_⟩
      rw [List.isPrefixOf_iff_prefix] at hp ⊢
      exact hp.trans ⟨q, by simp⟩

theorem bind_le (S : Sc) (k : String) : Le S (bind S (.str k)) := by
  unfold bind
  dsimp only
  split
  · refine ⟨rfl, rfl, fun p hp => ?_⟩
    cases p with
    | nil => cases hp
    | cons y r =>
      unfold Sc.isLocal at hp ⊢
      simp only [Bool.or_eq_true, List.contains_iff_mem, List.mem_cons] at hp ⊢
      rcases hp with h | h
      · exact .inl (.inr h)
      · exact .inr h
  · refine ⟨rfl, rfl, fun p hp => ?_⟩
    cases p with
    | nil => cases hp
    | cons y r =>
      unfold Sc.isLocal at hp ⊢
      simp only [Bool.or_eq_true, List.any_cons] at hp ⊢
      rcases hp with h | h
      · exact .inl h
      · exact .inr (.inr h)

theorem bind_local {S : Sc} {k : String} {p : List String} (h : (bind S (.str k)).isLocal p = true) :
    S.isLocal p = true ∨ (splitDot k).isPrefixOf p = true := by
  cases p with
  | nil => cases h
  | cons y r =>
    unfold bind at h
    dsimp only at h
    split at h
    · rename_i x hx
      rw [hx]
      unfold Sc.isLocal at h ⊢
      simp only [Bool.or_eq_true, List.contains_iff_mem, List.mem_cons] at h ⊢
      rcases h with (h | h) | h
      · right; simp [List.isPrefixOf, h]
      · exact .inl (.inl h)
      · exact .inl (.inr h)
    · unfold Sc.isLocal at h ⊢
      simp only [Bool.or_eq_true, List.any_cons] at h ⊢
      rcases h with h | h | h
      · exact .inl (.inl h)
      · exact .inr h
      · exact .inl (.inr h)

theorem bind_ok {S : Sc} {k : String} (h : SOk S) (hk : keyOk (.str k) = true) : SOk (bind S (.str k)) := by
  simp only [keyOk, decide_eq_true_eq] at hk
  unfold bind
  dsimp only
  split
  · rename_i x hx
    rw [hx] at hk
    refine ⟨?_, h.bindings, h.aliases⟩
    simp only [List.mem_cons, not_or]
    exact ⟨fun e => hk (by simp [← e]), h.locals⟩
  · refine ⟨h.locals, ?_, h.aliases⟩
    intro b hb
    rcases List.mem_cons.1 hb with rfl | hb
    · exact ⟨splitDot_ne k, hk⟩
    · exact h.bindings b hb

/-- what a walk does to the scope -/
def Keeps (n : Node) (f : Sc → Sc) : Prop :=
  ∀ S, tame n = true → SOk S → Le S (f S) ∧ SOk (f S) ∧ (asgFree n = true → f S = S)

theorem seg_scope (c : Chain) (S : Sc) (p : Node) : (c.seg S p (resolve p S)).2 = (resolve p S).2 := by
  unfold Chain.seg
  split
  · simp [resolve]
  · rfl

theorem resolve_keeps (n : Node) : Keeps n (fun S => (resolve n S).2) ∧ Keeps n fun S => (spine n S).2 := by
  have same : ∀ {n : Node} {f : Sc → Sc}, (∀ S, f S = S) → Keeps n f := fun hf S _ h => by
    rw [hf]; exact ⟨Le.refl S, h, fun _ => rfl⟩
  have two : ∀ {a b n : Node} {f g : Sc → Sc}, (tame n = true → tame a = true ∧ tame b = true) →
      (asgFree n = true → asgFree a = true ∧ asgFree b = true) → Keeps a f → Keeps b g → Keeps n fun S => g (f S) := by
    intro a b n f g ht ha kf kg S hn h
    obtain ⟨l1, s1, e1⟩ := kf S (ht hn).1 h
    obtain ⟨l2, s2, e2⟩ := kg (f S) (ht hn).2 s1
    exact ⟨l1.trans l2, s2, fun hh => by dsimp only; rw [e2 (ha hh).2, e1 (ha hh).1]⟩
  have list : ∀ ps : List Node, (∀ n ∈ ps, Keeps n fun S => (resolve n S).2) → ∀ S, tameL ps = true → SOk S →
      Le S (resolveList ps S).2 ∧ SOk (resolveList ps S).2 ∧ (asgFreeL ps = true → (resolveList ps S).2 = S) := by
    intro ps
    induction ps with
    | nil => intro _ S _ h; exact ⟨Le.refl S, h, fun _ => rfl⟩
    | cons n ns ih =>
      intro hk S ht h
      simp only [tameL, Bool.and_eq_true] at ht
      obtain ⟨l1, s1, e1⟩ := hk n (by simp) S ht.1 h
      obtain ⟨l2, s2, e2⟩ := ih (fun n hn => hk n (by simp [hn])) _ ht.2 s1
      refine ⟨l1.trans l2, s2, fun hh => ?_⟩
      simp only [asgFreeL, Bool.and_eq_true] at hh
      simp only [resolveList]
      rw [e2 hh.2, e1 hh.1]
  have opt : ∀ o : Option Node, (∀ n, o = some n → Keeps n fun S => (resolve n S).2) → ∀ S, tameO o = true → SOk S →
      Le S (resolveOpt o S).2 ∧ SOk (resolveOpt o S).2 ∧ (asgFreeO o = true → (resolveOpt o S).2 = S) := by
    intro o hk S ht h
    cases o with
    | none => exact ⟨Le.refl S, h, fun _ => rfl⟩
    | some n => exact hk n rfl S ht h
  refine Node.ind (P := fun n => Keeps n (fun S => (resolve n S).2) ∧ Keeps n fun S => (spine n S).2) ?_ ?_ ?_ ?_ ?_ ?_ ?_ ?_ ?_ ?_ ?_ ?_ ?_ ?_ ?_ ?_ ?_ ?_ ?_ ?_ ?_ ?_ n
  · exact ⟨same fun _ => rfl, same fun _ => rfl⟩
  · exact fun _ => ⟨same fun _ => rfl, same fun _ => rfl⟩
  · exact fun _ => ⟨same fun _ => rfl, same fun _ => rfl⟩
  · exact fun _ => ⟨same fun _ => rfl, same fun _ => rfl⟩
  · exact fun ps ih => ⟨fun S ht h => list ps (fun n hn => (ih n hn).1) S ht h, same fun _ => rfl⟩
  · exact ⟨same fun _ => rfl, same fun _ => rfl⟩
  · exact fun ps ih => ⟨fun S ht h => list ps (fun n hn => (ih n hn).1) S ht h, same fun _ => rfl⟩
  · intro kvs ih
    refine ⟨?_, same fun _ => rfl⟩
    have : ∀ S, tameP kvs = true → SOk S → Le S (resolvePairs kvs S).2 ∧ SOk (resolvePairs kvs S).2 ∧
        (asgFreeP kvs = true → (resolvePairs kvs S).2 = S) := by
      induction kvs with
      | nil => intro S _ h; exact ⟨Le.refl S, h, fun _ => rfl⟩
      | cons x ns ihn =>
        intro S ht h
        obtain ⟨a, b⟩ := x
        simp only [tameP, Bool.and_eq_true] at ht
        obtain ⟨l1, s1, e1⟩ := (ih (a, b) (by simp)).1.1 S ht.1.1 h
        obtain ⟨l2, s2, e2⟩ := (ih (a, b) (by simp)).2.1 _ ht.1.2 s1
        obtain ⟨l3, s3, e3⟩ := ihn (fun n hn => ih n (by simp [hn])) _ ht.2 s2
        refine ⟨(l1.trans l2).trans l3, s3, fun hh => ?_⟩
        simp only [asgFreeP, Bool.and_eq_true] at hh
        simp only [resolvePairs]
        rw [e3 hh.2, e2 hh.1.2, e1 hh.1.1]
    exact this
  · intro kvs o ih iho
    refine ⟨?_, same fun _ => rfl⟩
    have hl : ∀ S, tameA kvs = true → SOk S → Le S (resolveAsg kvs S).2 ∧ SOk (resolveAsg kvs S).2 := by
      induction kvs with
      | nil => intro S _ h; exact ⟨Le.refl S, h⟩
      | cons x ns ihn =>
        intro S ht h
        obtain ⟨a, b⟩ := x
        simp only [tameA, Bool.and_eq_true] at ht
        obtain ⟨l1, s1, -⟩ := (ih (a, b) (by simp)).2.1 S ht.1.2 h
        cases a with
        | str k =>
          obtain ⟨l3, s3⟩ := ihn (fun n hn => ih n (by simp [hn])) _ ht.2 (bind_ok s1 ht.1.1)
          exact ⟨(l1.trans (bind_le _ k)).trans l3, s3⟩
        | _ => simp [keyOk] at ht
    intro S ht h
    simp only [tame, Bool.and_eq_true] at ht
    obtain ⟨l1, s1⟩ := hl S ht.1 h
    obtain ⟨l2, s2, -⟩ := opt o (fun n hn => (iho n hn).1) _ ht.2 s1
    exact ⟨l1.trans l2, s2, fun hh => by simp [asgFree] at hh⟩
  · intro v
    refine ⟨same fun S => ?_, same fun _ => rfl⟩
    simp only [resolve]
    split
    · rfl
    · split <;> rfl
  · exact fun n ih => ⟨ih.1, same fun _ => rfl⟩
  · exact ⟨same fun _ => rfl, same fun _ => rfl⟩
  · intro n p hn hp
    have ht : tame (.member n p) = true → tame n = true ∧ tame p = true := by simp [tame]
    have ha : asgFree (.member n p) = true → asgFree n = true ∧ asgFree p = true := by simp [asgFree]
    have hs : Keeps (.member n p) fun S => (spine (.member n p) S).2 := by
      have := two ht ha hn.2 hp.1
      intro S
      have e : (spine (.member n p) S).2 = (resolve p (spine n S).2).2 := by
        simp only [spine]
        exact seg_scope _ _ _
      dsimp only
      rw [e]
      exact this S
    refine ⟨?_, hs⟩
    intro S
    by_cases hc : isChain n = true
    · have e : (resolve (.member n p) S).2 = (resolve p (spine n S).2).2 := by
        simp only [resolve, if_pos hc]
        exact seg_scope _ _ _
      dsimp only
      rw [e]
      exact two ht ha hn.2 hp.1 S
    · have e : (resolve (.member n p) S).2 = (resolve p (resolve n S).2).2 := by
        simp only [resolve, if_neg hc]
      dsimp only
      rw [e]
      exact two ht ha hn.1 hp.1 S
  · intro n f t hn hf ht
    refine ⟨?_, same fun _ => rfl⟩
    intro S hh h
    simp only [tame, Bool.and_eq_true] at hh
    obtain ⟨l1, s1, e1⟩ := hn.1 S hh.1.1 h
    obtain ⟨l2, s2, e2⟩ := opt f (fun n hn => (hf n hn).1) _ hh.1.2.1 s1
    obtain ⟨l3, s3, e3⟩ := opt t (fun n hn => (ht n hn).1) _ hh.2.1 s2
    refine ⟨(l1.trans l2).trans l3, s3, fun ha => ?_⟩
    simp only [asgFree, Bool.and_eq_true] at ha
    simp only [resolve]
    dsimp only at e1 e2 e3
    rw [e3 ha.2, e2 ha.1.2, e1 ha.1.1]
  · exact fun l r _ _ hl hr => ⟨two (by simp [tame]) (by simp [asgFree]) hl.1 hr.1, same fun _ => rfl⟩
  · intro c t f hc ht hf
    refine ⟨?_, same fun _ => rfl⟩
    intro S hh h
    simp only [tame, Bool.and_eq_true] at hh
    obtain ⟨l1, s1, e1⟩ := hc.1 S hh.1.1 h
    obtain ⟨l2, s2, e2⟩ := ht.1 _ hh.1.2.1 s1
    obtain ⟨l3, s3, e3⟩ := hf.1 _ hh.2.1 s2
    refine ⟨(l1.trans l2).trans l3, s3, fun ha => ?_⟩
    simp only [asgFree, Bool.and_eq_true] at ha
    simp only [resolve]
    dsimp only at e1 e2 e3
    rw [e3 ha.2, e2 ha.1.2, e1 ha.1.1]
  · exact fun _ n ih => ⟨ih.1, same fun _ => rfl⟩
  · intro op l r hl hr
    exact ⟨two (by simp only [tame, Bool.and_eq_true]; exact fun h => h.1) (by simp [asgFree]) hl.1 hr.1, same fun _ => rfl⟩
  · exact fun _ as ih => ⟨fun S ht h => list as (fun n hn => (ih n hn).1) S ht h, same fun _ => rfl⟩
  · intro k o al b ho _
    refine ⟨?_, same fun _ => rfl⟩
    intro S hh h
    simp only [tame, Bool.and_eq_true] at hh
    have h1 := ho.1 S hh.1.1 h
    have h2 : Le S S ∧ SOk S ∧ (asgFree (.closure k o al b) = true → S = S) := ⟨Le.refl S, h, fun _ => rfl⟩
    have h3 : Le S (resolve o S).2 ∧ SOk (resolve o S).2 ∧ (asgFree (.closure k o al b) = true → (resolve o S).2 = S) :=
      ⟨h1.1, h1.2.1, fun ha => h1.2.2 (by simpa [asgFree] using ha)⟩
    simp only [resolve]
    split
    · split
      · split <;> exact h3
      · exact h2
    · split
      · split <;> exact h3
      · exact h3
  · intro m t as ht ih
    refine ⟨?_, same fun _ => rfl⟩
    intro S hh h
    simp only [tame, Bool.and_eq_true] at hh
    obtain ⟨l1, s1, e1⟩ := ht.1 S hh.1 h
    obtain ⟨l2, s2, e2⟩ := list as (fun n hn => (ih n hn).1) _ hh.2 s1
    refine ⟨l1.trans l2, s2, fun ha => ?_⟩
    simp only [asgFree, Bool.and_eq_true] at ha
    simp only [resolve]
    rw [e2 ha.2, e1 ha.1]
  · exact ⟨same fun _ => rfl, same fun _ => rfl⟩

end Zen.Reads
