import Verif.Edit.Rename
import Verif.Analysis.ReadsPath
import Verif.Core.MapLemmas
/-
The walk of the analysis renames exactly the occurrences that are not bound by an alias, in expressions where the analysis
knows every binding of the name.
-/
namespace Zen.Rename
open Zen Reads

variable {x y : String} {L A : List String}

/-- what is known about the scope of the analysis -/
structure Inv (x : String) (L A : List String) (S : Sc) (bound : Bool) : Prop where
  unres : S.unresolved.contains x = false
  locals : ∀ l ∈ S.locals, l ∈ L
  bindings : ∀ b ∈ S.bindings, ∃ h t, b = h :: t ∧ h ∈ L
  keys : ∀ k, (aGet S.aliases k).isSome = true → k = x ∨ k ∈ A
  coll : ∀ c, aGet S.aliases x = some c → ∃ h t, c = h :: t ∧ h ∉ L
  bound : bound = (aGet S.aliases x).isSome

theorem Inv.out {S : Sc} {b : Bool} (I : Inv x L A S b) {h : String} (hh : h ∉ L) (t : List String) :
    S.isLocal (h :: t) = false := by
  simp only [Sc.isLocal, Bool.or_eq_false_iff]
  refine ⟨?_, ?_⟩
  · cases hc : S.locals.contains h with
    | false => rfl
    | true => exact absurd (I.locals h (by simpa using hc)) hh
  · rw [List.any_eq_false]
    intro b hb he
    obtain ⟨h', t', rfl, hl⟩ := I.bindings b hb
    have : h' = h := by
      simp only [List.isPrefixOf, Bool.and_eq_true, beq_iff_eq] at he
      exact he.1
    exact hh (this ▸ hl)

theorem group_open : ∀ {n : Node}, (group n).2 = true → (group n).1 ≠ [] := by
  intro n h
  cases n <;> simp only [group] at h ⊢ <;> try simp at h
  · simp
  · simp
  · split at h
    · simp
    · simp at h

theorem group_member (n p : Node) : (group (.member n p)).1.head? = (group n).1.head? := by
  simp only [group]
  split
  · rename_i g k e
    have := @group_open n (by rw [e])
    rw [e] at this ⊢
    cases g with
    | nil => exact absurd rfl this
    | cons a g => rfl
  · rename_i e _
    rw [e]

theorem group_readPath : ∀ {n : Node} {p : List String}, readPath n = some p → group n = (p, true) := by
  intro n
  induction n using Node.ind with
  | ident v => intro p h; simp [readPath] at h; subst h; rfl
  | root => intro p h; simp [readPath] at h; subst h; rfl
  | member n q ihn _ =>
    intro p h
    obtain ⟨k, r, rfl, h1, rfl⟩ := readPath_member h
    simp only [group]
    rw [ihn h1]
  | _ => intro p h; simp [readPath] at h

theorem Inv.bind {S : Sc} {b : Bool} (I : Inv x L A S b) {k : Node} {h : String} (hk : keyHead k = some h) (hl : h ∈ L) :
    Inv x L A (Reads.bind S k) b := by
  cases k <;> simp only [keyHead] at hk <;> try (cases hk)
  rename_i k
  simp only [Reads.bind]
  split
  · rename_i z e
    rw [e] at hk
    injection hk with hk
    subst hk
    refine { I with locals := ?_ }
    intro l hm
    rcases List.mem_cons.1 hm with rfl | hm
    · exact hl
    · exact I.locals l hm
  · rename_i p hne
    refine { I with bindings := ?_ }
    intro b hm
    rcases List.mem_cons.1 hm with rfl | hm
    · cases hp : splitDot k with
      | nil => rw [hp] at hk; cases hk
      | cons a t =>
        rw [hp] at hk
        injection hk with hk
        exact ⟨a, t, rfl, hk ▸ hl⟩
    · exact I.bindings b hm

/-- the condition on the alias of a closure -/
def aliasClear (x : String) (L A : List String) (over : Node) : Option String → Bool
  | none => true
  | some a =>
    if a = x then match source over with
      | some (r :: _) => r == x || (!L.contains r && !A.contains r)
      | _ => false
    else A.contains a

theorem Inv.inner {S : Sc} {b : Bool} (hx : x ∉ L) (hd : "$" ∈ L) (I : Inv x L A S b) {over : Node} {al : Option String}
    (h : aliasClear x L A over al = true) : Inv x L A (innerScope S (source over) al) (b || al == some x) := by
  have hl : ∀ l ∈ "$" :: S.locals, l ∈ L := by
    intro l hm
    rcases List.mem_cons.1 hm with rfl | hm
    · exact hd
    · exact I.locals l hm
  cases al with
  | none =>
    have e : (b || (none : Option String) == some x) = b := by simp
    rw [e]
    simp only [innerScope]
    exact { I with locals := hl }
  | some a =>
    simp only [aliasClear] at h
    by_cases ha : a = x
    · subst ha
      rw [if_pos rfl] at h
      cases hs : source over with
      | none => rw [hs] at h; cases h
      | some s =>
        rw [hs] at h
        cases s with
        | nil => cases h
        | cons r t =>
          have hexp : ∃ h' t', S.expand (r :: t) = h' :: t' ∧ h' ∉ L := by
            simp only [Sc.expand]
            cases hr : aGet S.aliases r with
            | none =>
              refine ⟨r, t, rfl, ?_⟩
              simp only [Bool.or_eq_true, beq_iff_eq, Bool.and_eq_true, Bool.not_eq_true'] at h
              rcases h with rfl | ⟨h, _⟩
              · exact hx
              · simpa using h
            | some c =>
              have hra : r = a := by
                rcases I.keys r (by rw [hr]; rfl) with e | e
                · exact e
                · simp only [Bool.or_eq_true, beq_iff_eq, Bool.and_eq_true, Bool.not_eq_true'] at h
                  rcases h with h | ⟨_, h⟩
                  · exact h
                  · simp at h; exact absurd e h
              subst hra
              obtain ⟨h', t', rfl, hn⟩ := I.coll c hr
              exact ⟨h', t' ++ t, rfl, hn⟩
          obtain ⟨h', t', he, hn⟩ := hexp
          have e : (b || some a == some a) = true := by simp
          rw [e]
          simp only [innerScope]
          rw [he, I.out hn, if_neg (by simp)]
          refine ⟨I.unres, hl, I.bindings, ?_, ?_, ?_⟩
          · intro k hk
            by_cases hka : k = a
            · exact .inl hka
            · exact I.keys k (by simpa [aGet_aSet, hka] using hk)
          · intro c hc
            simp [aGet_aSet] at hc
            exact ⟨h', t', hc.symm, hn⟩
          · simp [aGet_aSet]
    · rw [if_neg ha] at h
      have haA : a ∈ A := by simpa using h
      have e : (b || some a == some x) = b := by simp [ha]
      rw [e]
      have hu : (a :: S.unresolved).contains x = false := by
        have := I.unres
        simp only [List.contains_cons, this, Bool.or_false, beq_eq_false_iff_ne]
        exact fun e => ha e.symm
      simp only [innerScope]
      split
      · rename_i hh _; injection hh with hh; subst hh
        split
        · exact { I with locals := hl, unres := hu }
        · have hax : x ≠ a := fun e => ha e.symm
          refine ⟨I.unres, hl, I.bindings, ?_, ?_, ?_⟩
          · intro k hk
            by_cases hka : k = a
            · exact .inr (hka ▸ haA)
            · exact I.keys k (by simpa [aGet_aSet, hka] using hk)
          · intro c hc
            exact I.coll c (by simpa [aGet_aSet, hax] using hc)
          · simpa [aGet_aSet, hax] using I.bound
      · rename_i hh _; injection hh with hh; subst hh
        exact { I with locals := hl, unres := hu }
      · rename_i hh; cases hh

/-- the walk gives the lexical renaming -/
def Good (x y : String) (L A : List String) (n : Node) : Prop :=
  ∀ S b, Inv x L A S b → clear x L A n = true → (rn x y n S).1 = sub x y b n ∧ Inv x L A (rn x y n S).2 b

def GoodSpine (x y : String) (L A : List String) (n : Node) : Prop :=
  ∀ hit S b, isChain n = true → Inv x L A S b → clear x L A n = true → ((group n).1.head? = some x → hit = !b) →
    (rnSpine x y hit n S).1 = sub x y b n ∧ Inv x L A (rnSpine x y hit n S).2 b

theorem good_opt {o : Option Node} (ih : ∀ n, o = some n → Good x y L A n) : ∀ S b, Inv x L A S b → clearOpt x L A o = true →
    (rnOpt x y o S).1 = subOpt x y b o ∧ Inv x L A (rnOpt x y o S).2 b := by
  intro S b I h
  cases o with
  | none => exact ⟨rfl, I⟩
  | some n =>
    obtain ⟨h1, h2⟩ := ih n rfl S b I h
    exact ⟨congrArg some h1, h2⟩

theorem good_list {ps : List Node} (ih : ∀ n ∈ ps, Good x y L A n) : ∀ S b, Inv x L A S b → clearList x L A ps = true →
    (rnList x y ps S).1 = subList x y b ps ∧ Inv x L A (rnList x y ps S).2 b := by
  induction ps with
  | nil => intro S b I _; exact ⟨rfl, I⟩
  | cons n ns ihn =>
    intro S b I h
    simp only [clearList, Bool.and_eq_true] at h
    obtain ⟨h1, h2⟩ := ih n (by simp) S b I h.1
    obtain ⟨h3, h4⟩ := ihn (fun m hm => ih m (by simp [hm])) _ b h2 h.2
    simp only [rnList, subList]
    exact ⟨by rw [h1, h3], h4⟩

theorem good_pairs {ps : List (Node × Node)} (ih : ∀ p ∈ ps, Good x y L A p.1 ∧ Good x y L A p.2) : ∀ S b, Inv x L A S b →
    clearPairs x L A ps = true → (rnPairs x y ps S).1 = subPairs x y b ps ∧ Inv x L A (rnPairs x y ps S).2 b := by
  induction ps with
  | nil => intro S b I _; exact ⟨rfl, I⟩
  | cons p ns ihn =>
    obtain ⟨k, v⟩ := p
    intro S b I h
    simp only [clearPairs, Bool.and_eq_true] at h
    obtain ⟨h1, h2⟩ := (ih (k, v) (by simp)).1 S b I h.1.1
    obtain ⟨h3, h4⟩ := (ih (k, v) (by simp)).2 _ b h2 h.1.2
    obtain ⟨h5, h6⟩ := ihn (fun m hm => ih m (by simp [hm])) _ b h4 h.2
    simp only [rnPairs, subPairs]
    exact ⟨by rw [h1, h3, h5], h6⟩

theorem good_asg {ps : List (Node × Node)} (ih : ∀ p ∈ ps, Good x y L A p.1 ∧ Good x y L A p.2) : ∀ S b, Inv x L A S b →
    clearAsg x L A ps = true → (rnAsg x y ps S).1 = subAsg x y b ps ∧ Inv x L A (rnAsg x y ps S).2 b := by
  induction ps with
  | nil => intro S b I _; exact ⟨rfl, I⟩
  | cons p ns ihn =>
    obtain ⟨k, v⟩ := p
    intro S b I h
    simp only [clearAsg, Bool.and_eq_true] at h
    obtain ⟨h3, h4⟩ := (ih (k, v) (by simp)).2 S b I h.1.2
    cases hk : keyHead k with
    | none => rw [hk] at h; simp at h
    | some hd =>
      rw [hk] at h
      obtain ⟨h5, h6⟩ := ihn (fun m hm => ih m (by simp [hm])) _ b (h4.bind hk (by simpa using h.1.1)) h.2
      simp only [rnAsg, subAsg]
      exact ⟨by rw [h3, h5], h6⟩

theorem good (hx : x ∉ L) (hd : "$" ∈ L) (n : Node) : Good x y L A n ∧ GoodSpine x y L A n := by
  have hxd : x ≠ "$" := fun e => hx (e ▸ hd)
  induction n using Node.ind with
  | null => exact ⟨fun S b I _ => ⟨rfl, I⟩, fun _ _ _ h => by simp [isChain] at h⟩
  | bool => exact ⟨fun S b I _ => ⟨rfl, I⟩, fun _ _ _ h => by simp [isChain] at h⟩
  | num => exact ⟨fun S b I _ => ⟨rfl, I⟩, fun _ _ _ h => by simp [isChain] at h⟩
  | str => exact ⟨fun S b I _ => ⟨rfl, I⟩, fun _ _ _ h => by simp [isChain] at h⟩
  | error => exact ⟨fun S b I _ => ⟨rfl, I⟩, fun _ _ _ h => by simp [isChain] at h⟩
  | pointer => exact ⟨fun S b I _ => ⟨rfl, I⟩, fun _ S b _ I _ _ => ⟨rfl, I⟩⟩
  | root => exact ⟨fun S b I _ => ⟨rfl, I⟩, fun _ S b _ I _ _ => ⟨rfl, I⟩⟩
  | ident v =>
    refine ⟨fun S b I _ => ⟨?_, I⟩, fun hit S b _ I _ hh => ⟨?_, I⟩⟩
    · simp only [rn, sub]
      by_cases hv : v = x
      · subst hv
        have e : named S v = !b := by
          simp only [named, I.unres, I.out hx, Bool.false_or, Bool.not_false, Bool.and_true, I.bound]
          cases aGet S.aliases v <;> rfl
        rw [e]
      · simp [hv]
    · simp only [rnSpine, sub]
      by_cases hv : v = x
      · subst hv
        rw [hh rfl, Bool.and_comm]
      · simp [hv]
  | member n p ihn ihp =>
    have sp : GoodSpine x y L A (.member n p) := by
      intro hit S b hc I h hh
      simp only [clear, Bool.and_eq_true] at h
      simp only [isChain] at hc
      obtain ⟨h1, h2⟩ := ihn.2 hit S b hc I h.1 (by rw [← group_member n p]; exact hh)
      obtain ⟨h3, h4⟩ := ihp.1 _ b h2 h.2
      simp only [rnSpine, sub]
      exact ⟨by rw [h1, h3], h4⟩
    refine ⟨fun S b I h => ?_, sp⟩
    cases hc : isChain n with
    | true =>
      have e : rn x y (.member n p) S = rnSpine x y (rooted S (.member n p)) (.member n p) S := by
        simp only [rn, rnSpine, hc, if_true]
      rw [e]
      refine sp _ S b (by simpa [isChain] using hc) I h fun hg => ?_
      simp only [rooted]
      cases hr : (group (.member n p)).1 with
      | nil => rw [hr] at hg; cases hg
      | cons v r =>
        rw [hr] at hg
        injection hg with hg
        subst hg
        have e : (v != "$") = true := by simpa using hxd
        simp only [e, I.unres, I.out hx, Bool.false_or, Bool.not_false, Bool.and_true, Bool.true_and, I.bound]
        cases aGet S.aliases v <;> rfl
    | false =>
      simp only [clear, Bool.and_eq_true] at h
      obtain ⟨h1, h2⟩ := ihn.1 S b I h.1
      obtain ⟨h3, h4⟩ := ihp.1 _ b h2 h.2
      simp only [rn, hc, sub]
      exact ⟨by simp [h1, h3], by simpa using h4⟩
  | closure k o al bd iho ihb =>
    refine ⟨fun S b I h => ?_, fun _ _ _ h => by simp [isChain] at h⟩
    have h' : (clear x L A o = true ∧ clear x L A bd = true) ∧ aliasClear x L A o al = true := by
      simp only [clear, Bool.and_eq_true] at h
      exact h
    have hb := (ihb.1 _ _ (I.inner hx hd h'.2) h'.1.2).1
    simp only [rn, sub]
    cases hp : readPath o with
    | none =>
      obtain ⟨h1, h2⟩ := iho.1 S b I h'.1.1
      exact ⟨by simp only [h1, hb], h2⟩
    | some p =>
      dsimp only
      cases hl : S.isLocal p with
      | true =>
        obtain ⟨h1, h2⟩ := iho.1 S b I h'.1.1
        exact ⟨by simp [h1, hb], by simpa using h2⟩
      | false =>
        obtain ⟨h1, h2⟩ := iho.2 (iterated S p) S b (readPath_chain hp) I h'.1.1 (by
          rw [group_readPath hp]
          intro hg
          cases p with
          | nil => cases hg
          | cons v r =>
            injection hg with hg
            subst hg
            simp only [iterated, I.bound]
            cases aGet S.aliases v <;> rfl)
        exact ⟨by simp [h1, hb], by simpa using h2⟩
  | tmpl ps ih | arr ps ih =>
    refine ⟨fun S b I h => ?_, fun _ _ _ h => by simp [isChain] at h⟩
    obtain ⟨h1, h2⟩ := good_list (fun n hn => (ih n hn).1) S b I h
    simp only [rn, sub]
    exact ⟨by rw [h1], h2⟩
  | call f ps ih =>
    refine ⟨fun S b I h => ?_, fun _ _ _ h => by simp [isChain] at h⟩
    obtain ⟨h1, h2⟩ := good_list (fun n hn => (ih n hn).1) S b I h
    simp only [rn, sub]
    exact ⟨by rw [h1], h2⟩
  | obj ps ih =>
    refine ⟨fun S b I h => ?_, fun _ _ _ h => by simp [isChain] at h⟩
    obtain ⟨h1, h2⟩ := good_pairs (fun n hn => ⟨(ih n hn).1.1, (ih n hn).2.1⟩) S b I h
    simp only [rn, sub]
    exact ⟨by rw [h1], h2⟩
  | assigns ps o ih iho =>
    refine ⟨fun S b I h => ?_, fun _ _ _ h => by simp [isChain] at h⟩
    simp only [clear, Bool.and_eq_true] at h
    obtain ⟨h1, h2⟩ := good_asg (fun n hn => ⟨(ih n hn).1.1, (ih n hn).2.1⟩) S b I h.1
    obtain ⟨h3, h4⟩ := good_opt (fun n hn => (iho n hn).1) _ b h2 h.2
    simp only [rn, sub]
    exact ⟨by rw [h1, h3], h4⟩
  | method m t ps iht ih =>
    refine ⟨fun S b I h => ?_, fun _ _ _ h => by simp [isChain] at h⟩
    simp only [clear, Bool.and_eq_true] at h
    obtain ⟨h1, h2⟩ := iht.1 S b I h.1
    obtain ⟨h3, h4⟩ := good_list (fun n hn => (ih n hn).1) _ b h2 h.2
    simp only [rn, sub]
    exact ⟨by rw [h1, h3], h4⟩
  | slice n f t ihn ihf iht =>
    refine ⟨fun S b I h => ?_, fun _ _ _ h => by simp [isChain] at h⟩
    simp only [clear, Bool.and_eq_true] at h
    obtain ⟨h1, h2⟩ := ihn.1 S b I h.1.1
    obtain ⟨h3, h4⟩ := good_opt (fun n hn => (ihf n hn).1) _ b h2 h.1.2
    obtain ⟨h5, h6⟩ := good_opt (fun n hn => (iht n hn).1) _ b h4 h.2
    simp only [rn, sub]
    exact ⟨by rw [h1, h3, h5], h6⟩
  | cond c t f ihc iht ihf =>
    refine ⟨fun S b I h => ?_, fun _ _ _ h => by simp [isChain] at h⟩
    simp only [clear, Bool.and_eq_true] at h
    obtain ⟨h1, h2⟩ := ihc.1 S b I h.1.1
    obtain ⟨h3, h4⟩ := iht.1 _ b h2 h.1.2
    obtain ⟨h5, h6⟩ := ihf.1 _ b h4 h.2
    simp only [rn, sub]
    exact ⟨by rw [h1, h3, h5], h6⟩
  | interval l r lb rb ihl ihr =>
    refine ⟨fun S b I h => ?_, fun _ _ _ h => by simp [isChain] at h⟩
    simp only [clear, Bool.and_eq_true] at h
    obtain ⟨h1, h2⟩ := ihl.1 S b I h.1
    obtain ⟨h3, h4⟩ := ihr.1 _ b h2 h.2
    simp only [rn, sub]
    exact ⟨by rw [h1, h3], h4⟩
  | binary op l r ihl ihr =>
    refine ⟨fun S b I h => ?_, fun _ _ _ h => by simp [isChain] at h⟩
    simp only [clear, Bool.and_eq_true] at h
    obtain ⟨h1, h2⟩ := ihl.1 S b I h.1
    obtain ⟨h3, h4⟩ := ihr.1 _ b h2 h.2
    simp only [rn, sub]
    exact ⟨by rw [h1, h3], h4⟩
  | unary op n ih =>
    refine ⟨fun S b I h => ?_, fun _ _ _ h => by simp [isChain] at h⟩
    obtain ⟨h1, h2⟩ := ih.1 S b I h
    simp only [rn, sub]
    exact ⟨by rw [h1], h2⟩
  | paren n ih =>
    refine ⟨fun S b I h => ?_, fun _ _ _ h => by simp [isChain] at h⟩
    obtain ⟨h1, h2⟩ := ih.1 S b I h
    simp only [rn, sub]
    exact ⟨by rw [h1], h2⟩

/-- Renaming is the lexical renaming. -/
theorem renamed_eq (hx : x ∉ L) (hd : "$" ∈ L) (unary : Bool) (n : Node) (h : clear x L A n = true) :
    renamed x y unary n = sub x y false n := by
  refine ((good hx hd n).1 _ false ⟨?_, ?_, ?_, ?_, ?_, ?_⟩ h).1
  · cases unary <;> rfl
  · intro l hl
    cases unary
    · cases hl
    · simp at hl; exact hl ▸ hd
  · intro b hb; cases hb
  · intro k hk; simp [aGet] at hk
  · intro c hc; simp [aGet] at hc
  · simp [aGet]

end Zen.Rename
