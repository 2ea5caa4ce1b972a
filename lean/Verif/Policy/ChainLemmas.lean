import Verif.Policy.ChainLint
import Verif.Expr.Safe
import Verif.Analysis.ReadsPath
/-
Helpers for C65: what is visited by `walked`, and what an expression without assignments leaves of the scope in which its
reads are resolved.
-/
namespace Zen.Policy
open Zen Reads

theorem walkedL_iff (ns : List Node) (p : String) (ih : ∀ n ∈ ns, (p ∈ walked n ↔ ∃ m, Node.Occ m n ∧ pathOf m = some p)) :
    p ∈ walkedL ns ↔ ∃ n ∈ ns, ∃ m, Node.Occ m n ∧ pathOf m = some p := by
  induction ns with
  | nil => simp [walkedL]
  | cons n ns ihn =>
    simp only [walkedL, List.mem_append, ih n (List.mem_cons_self ..), ihn fun x hx => ih x (List.mem_cons_of_mem _ hx),
      List.mem_cons, exists_eq_or_imp]

theorem walkedO_iff (o : Option Node) (p : String) (ih : ∀ n, o = some n → (p ∈ walked n ↔ ∃ m, Node.Occ m n ∧ pathOf m = some p)) :
    p ∈ walkedO o ↔ ∃ n, o = some n ∧ ∃ m, Node.Occ m n ∧ pathOf m = some p := by
  cases o with
  | none => simp [walkedO]
  | some n => simp [walkedO, ih n rfl]

theorem walkedP_iff (ns : List (Node × Node)) (p : String)
    (ih : ∀ x ∈ ns, (p ∈ walked x.1 ↔ ∃ m, Node.Occ m x.1 ∧ pathOf m = some p) ∧ (p ∈ walked x.2 ↔ ∃ m, Node.Occ m x.2 ∧ pathOf m = some p)) :
    p ∈ walkedP ns ↔ ∃ x ∈ ns, ∃ m, (Node.Occ m x.1 ∨ Node.Occ m x.2) ∧ pathOf m = some p := by
  induction ns with
  | nil => simp [walkedP]
  | cons x ns ihn =>
    obtain ⟨k, v⟩ := x
    have h := ih (k, v) (List.mem_cons_self ..)
    simp only at h
    simp only [walkedP, List.mem_append, h.1, h.2, ihn fun x hx => ih x (List.mem_cons_of_mem _ hx), List.mem_cons, or_and_right,
      exists_or, exists_eq_left]

/-- The paths are those of the parts of the expression. -/
theorem walked_iff (n : Node) (p : String) : p ∈ walked n ↔ ∃ m, Node.Occ m n ∧ pathOf m = some p := by
  have key : ∀ n : Node, p ∈ walked n ↔ ∃ m, Node.Occ m n ∧ pathOf m = some p := by
    refine Node.ind ?_ ?_ ?_ ?_ ?_ ?_ ?_ ?_ ?_ ?_ ?_ ?_ ?_ ?_ ?_ ?_ ?_ ?_ ?_ ?_ ?_ ?_
    · exact ⟨fun h => by simp [walked] at h, fun ⟨m, h, e⟩ => by cases h; simp [pathOf, pathIn] at e⟩
    · exact fun b => ⟨fun h => by simp [walked] at h, fun ⟨m, h, e⟩ => by cases h; simp [pathOf, pathIn] at e⟩
    · exact fun b => ⟨fun h => by simp [walked] at h, fun ⟨m, h, e⟩ => by cases h; simp [pathOf, pathIn] at e⟩
    · exact fun b => ⟨fun h => by simp [walked] at h, fun ⟨m, h, e⟩ => by cases h; simp [pathOf, pathIn] at e⟩
    · intro ps ih
      rw [walked, walkedL_iff ps p ih]
      constructor
      · rintro ⟨n, hn, m, hm, e⟩; exact ⟨m, .tmpl hn hm, e⟩
      · rintro ⟨m, hm, e⟩
        cases hm with
        | refl => simp [pathOf, pathIn] at e
        | tmpl hn hm => exact ⟨_, hn, m, hm, e⟩
    · exact ⟨fun h => by simp [walked] at h, fun ⟨m, h, e⟩ => by cases h; simp [pathOf, pathIn] at e⟩
    · intro ps ih
      rw [walked, walkedL_iff ps p ih]
      constructor
      · rintro ⟨n, hn, m, hm, e⟩; exact ⟨m, .arr hn hm, e⟩
      · rintro ⟨m, hm, e⟩
        cases hm with
        | refl => simp [pathOf, pathIn] at e
        | arr hn hm => exact ⟨_, hn, m, hm, e⟩
    · intro ps ih
      rw [walked, walkedP_iff ps p ih]
      constructor
      · rintro ⟨n, hn, m, hm | hm, e⟩
        · exact ⟨m, .objKey hn hm, e⟩
        · exact ⟨m, .objVal hn hm, e⟩
      · rintro ⟨m, hm, e⟩
        cases hm with
        | refl => simp [pathOf, pathIn] at e
        | objKey hn hm => exact ⟨_, hn, m, .inl hm, e⟩
        | objVal hn hm => exact ⟨_, hn, m, .inr hm, e⟩
    · intro ps o ih iho
      rw [walked, List.mem_append, walkedP_iff ps p ih, walkedO_iff o p iho]
      constructor
      · rintro (⟨n, hn, m, hm | hm, e⟩ | ⟨n, rfl, m, hm, e⟩)
        · exact ⟨m, .asgKey hn hm, e⟩
        · exact ⟨m, .asgVal hn hm, e⟩
        · exact ⟨m, .asgOut hm, e⟩
      · rintro ⟨m, hm, e⟩
        cases hm with
        | refl => simp [pathOf, pathIn] at e
        | asgKey hn hm => exact .inl ⟨_, hn, m, .inl hm, e⟩
        | asgVal hn hm => exact .inl ⟨_, hn, m, .inr hm, e⟩
        | asgOut hm => exact .inr ⟨_, rfl, m, hm, e⟩
    · intro s
      constructor
      · intro h
        simp only [walked, List.mem_singleton] at h
        exact ⟨_, .refl _, by simp [pathOf, pathIn, h]⟩
      · rintro ⟨m, hm, e⟩
        cases hm
        simp only [pathOf, pathIn, Option.some.injEq] at e
        simp [walked, e]
    · intro n ih
      rw [walked, ih]
      constructor
      · rintro ⟨m, hm, e⟩; exact ⟨m, .paren hm, e⟩
      · rintro ⟨m, hm, e⟩
        cases hm with
        | refl => simp [pathOf] at e
        | paren hm => exact ⟨m, hm, e⟩
    · exact ⟨fun h => by simp [walked] at h, fun ⟨m, h, e⟩ => by cases h; simp [pathOf, pathIn] at e⟩
    · intro n q hn hq
      rw [walked, List.mem_append, List.mem_append, hn, hq, Option.mem_toList]
      constructor
      · rintro ((h | ⟨m, hm, e⟩) | ⟨m, hm, e⟩)
        · exact ⟨_, .refl _, h⟩
        · exact ⟨m, .memL hm, e⟩
        · exact ⟨m, .memR hm, e⟩
      · rintro ⟨m, hm, e⟩
        cases hm with
        | refl => exact .inl (.inl e)
        | memL hm => exact .inl (.inr ⟨m, hm, e⟩)
        | memR hm => exact .inr ⟨m, hm, e⟩
    · intro n f t hn hf ht
      rw [walked, List.mem_append, List.mem_append, hn, walkedO_iff f p hf, walkedO_iff t p ht]
      constructor
      · rintro ((⟨m, hm, e⟩ | ⟨n, rfl, m, hm, e⟩) | ⟨n, rfl, m, hm, e⟩)
        · exact ⟨m, .slice hm, e⟩
        · exact ⟨m, .sliceT hm, e⟩
        · exact ⟨m, .sliceF hm, e⟩
      · rintro ⟨m, hm, e⟩
        cases hm with
        | refl => simp [pathOf, pathIn] at e
        | slice hm => exact .inl (.inl ⟨m, hm, e⟩)
        | sliceT hm => exact .inl (.inr ⟨_, rfl, m, hm, e⟩)
        | sliceF hm => exact .inr ⟨_, rfl, m, hm, e⟩
    · intro l r lb rb hl hr
      rw [walked, List.mem_append, hl, hr]
      constructor
      · rintro (⟨m, hm, e⟩ | ⟨m, hm, e⟩)
        · exact ⟨m, .intL hm, e⟩
        · exact ⟨m, .intR hm, e⟩
      · rintro ⟨m, hm, e⟩
        cases hm with
        | refl => simp [pathOf, pathIn] at e
        | intL hm => exact .inl ⟨m, hm, e⟩
        | intR hm => exact .inr ⟨m, hm, e⟩
    · intro c t f hc ht hf
      rw [walked, List.mem_append, List.mem_append, hc, ht, hf]
      constructor
      · rintro ((⟨m, hm, e⟩ | ⟨m, hm, e⟩) | ⟨m, hm, e⟩)
        · exact ⟨m, .condC hm, e⟩
        · exact ⟨m, .condT hm, e⟩
        · exact ⟨m, .condF hm, e⟩
      · rintro ⟨m, hm, e⟩
        cases hm with
        | refl => simp [pathOf, pathIn] at e
        | condC hm => exact .inl (.inl ⟨m, hm, e⟩)
        | condT hm => exact .inl (.inr ⟨m, hm, e⟩)
        | condF hm => exact .inr ⟨m, hm, e⟩
    · intro o n ih
      rw [walked, ih]
      constructor
      · rintro ⟨m, hm, e⟩; exact ⟨m, .unary hm, e⟩
      · rintro ⟨m, hm, e⟩
        cases hm with
        | refl => simp [pathOf, pathIn] at e
        | unary hm => exact ⟨m, hm, e⟩
    · intro o l r hl hr
      rw [walked, List.mem_append, hl, hr]
      constructor
      · rintro (⟨m, hm, e⟩ | ⟨m, hm, e⟩)
        · exact ⟨m, .binL hm, e⟩
        · exact ⟨m, .binR hm, e⟩
      · rintro ⟨m, hm, e⟩
        cases hm with
        | refl => simp [pathOf, pathIn] at e
        | binL hm => exact .inl ⟨m, hm, e⟩
        | binR hm => exact .inr ⟨m, hm, e⟩
    · intro f ps ih
      rw [walked, walkedL_iff ps p ih]
      constructor
      · rintro ⟨n, hn, m, hm, e⟩; exact ⟨m, .call hn hm, e⟩
      · rintro ⟨m, hm, e⟩
        cases hm with
        | refl => simp [pathOf, pathIn] at e
        | call hn hm => exact ⟨_, hn, m, hm, e⟩
    · intro k o al b ho hb
      rw [walked, List.mem_append, ho, hb]
      constructor
      · rintro (⟨m, hm, e⟩ | ⟨m, hm, e⟩)
        · exact ⟨m, .cloO hm, e⟩
        · exact ⟨m, .cloB hm, e⟩
      · rintro ⟨m, hm, e⟩
        cases hm with
        | refl => simp [pathOf, pathIn] at e
        | cloO hm => exact .inl ⟨m, hm, e⟩
        | cloB hm => exact .inr ⟨m, hm, e⟩
    · intro f t ps ht ih
      rw [walked, List.mem_append, ht, walkedL_iff ps p ih]
      constructor
      · rintro (⟨m, hm, e⟩ | ⟨n, hn, m, hm, e⟩)
        · exact ⟨m, .mthT hm, e⟩
        · exact ⟨m, .mthA hn hm, e⟩
      · rintro ⟨m, hm, e⟩
        cases hm with
        | refl => simp [pathOf, pathIn] at e
        | mthT hm => exact .inl ⟨m, hm, e⟩
        | mthA hn hm => exact .inr ⟨_, hn, m, hm, e⟩
    · exact ⟨fun h => by simp [walked] at h, fun ⟨m, h, e⟩ => by cases h; simp [pathOf, pathIn] at e⟩
  exact key n

theorem longer_iff {q p : String} : longer q p = true ↔ ∃ rest, q = p ++ "." ++ rest := by
  simp only [longer, Bool.and_eq_true, decide_eq_true_eq, List.isPrefixOf_iff_prefix]
  constructor
  · rintro ⟨-, t, ht⟩
    refine ⟨String.ofList t, ?_⟩
    apply String.toList_injective
    rw [← ht]
    simp
  · rintro ⟨r, rfl⟩
    refine ⟨by simp, r.toList, by simp⟩

theorem mem_maximal {n : Node} {p : String} : p ∈ maximal n ↔ p ∈ walked n ∧ ∀ rest, p ++ "." ++ rest ∉ walked n := by
  simp only [maximal, List.mem_eraseDups, List.mem_filter, Bool.not_eq_true', List.any_eq_false, Bool.not_eq_true]
  refine and_congr_right fun _ => ⟨fun h rest hr => ?_, fun h q hq => ?_⟩
  · have := h _ hr
    have e : longer (p ++ "." ++ rest) p = true := longer_iff.2 ⟨rest, rfl⟩
    rw [this] at e
    cases e
  · rw [Bool.eq_false_iff]
    intro he
    obtain ⟨rest, rfl⟩ := longer_iff.1 he
    exact h rest hq

theorem eraseDups_nodup : ∀ (k : Nat) (l : List String), l.length ≤ k → l.eraseDups.Nodup
  | _, [], _ => by simp
  | k + 1, a :: l, h => by
    rw [List.eraseDups_cons, List.nodup_cons]
    refine ⟨by simp, eraseDups_nodup k _ ?_⟩
    have := List.length_filter_le (fun b => !b == a) l
    simp only [List.length_cons] at h
    omega

theorem maximal_nodup (n : Node) : (maximal n).Nodup := eraseDups_nodup _ _ (Nat.le_refl _)

theorem foldl_common (ps : List (List String)) : ∀ (acc : List String),
    (∀ p, p ∈ ps.foldl (fun acc q => acc.filter fun x => q.contains x) acc ↔ p ∈ acc ∧ ∀ q ∈ ps, p ∈ q) ∧
    (acc.Nodup → (ps.foldl (fun acc q => acc.filter fun x => q.contains x) acc).Nodup) := by
  induction ps with
  | nil => intro acc; simp
  | cons q qs ih =>
    intro acc
    obtain ⟨h1, h2⟩ := ih (acc.filter fun x => q.contains x)
    refine ⟨fun p => ?_, fun h => h2 (h.filter _)⟩
    rw [List.foldl_cons, h1]
    simp [and_assoc]

/-! ### Reads -/

/-- An expression without assignments leaves the scope as it is. -/
theorem resolve_plain (n : Node) : NoAssign n → ∀ S, (resolve n S).2 = S ∧ (spine n S).2 = S := by
  have list : ∀ ps : List Node, (∀ n ∈ ps, NoAssign n → ∀ S, (resolve n S).2 = S ∧ (spine n S).2 = S) → NoAssignL ps →
      ∀ S, (resolveList ps S).2 = S := by
    intro ps
    induction ps with
    | nil => intro _ _ S; rfl
    | cons n ns ih =>
      intro hk ha S
      simp only [resolveList]
      rw [ih (fun n hn => hk n (List.mem_cons_of_mem _ hn)) ha.2, (hk n (List.mem_cons_self ..) ha.1 S).1]
  have opt : ∀ o : Option Node, (∀ n, o = some n → NoAssign n → ∀ S, (resolve n S).2 = S ∧ (spine n S).2 = S) → NoAssignO o →
      ∀ S, (resolveOpt o S).2 = S := by
    intro o hk ha S
    cases o with
    | none => rfl
    | some n => exact (hk n rfl ha S).1
  refine Node.ind (P := fun n => NoAssign n → ∀ S, (resolve n S).2 = S ∧ (spine n S).2 = S) ?_ ?_ ?_ ?_ ?_ ?_ ?_ ?_ ?_ ?_ ?_ ?_ ?_ ?_ ?_ ?_ ?_ ?_ ?_ ?_ ?_ ?_ n
  · exact fun _ S => ⟨rfl, rfl⟩
  · exact fun _ _ S => ⟨rfl, rfl⟩
  · exact fun _ _ S => ⟨rfl, rfl⟩
  · exact fun _ _ S => ⟨rfl, rfl⟩
  · exact fun ps ih ha S => ⟨list ps ih ha S, rfl⟩
  · exact fun _ S => ⟨rfl, rfl⟩
  · exact fun ps ih ha S => ⟨list ps ih ha S, rfl⟩
  · intro kvs ih ha S
    refine ⟨?_, rfl⟩
    show (resolvePairs kvs S).2 = S
    have ha : NoAssignP kvs := ha
    revert S
    induction kvs with
    | nil => intro S; rfl
    | cons x ns ihn =>
      intro S
      obtain ⟨a, b⟩ := x
      obtain ⟨h1, h2, h3⟩ := ha
      simp only [resolvePairs]
      rw [ihn (fun n hn => ih n (List.mem_cons_of_mem _ hn)) h3 h3, ((ih (a, b) (List.mem_cons_self ..)).2 h2 _).1,
        ((ih (a, b) (List.mem_cons_self ..)).1 h1 _).1]
  · exact fun _ _ _ _ ha => absurd ha (by simp [NoAssign])
  · intro v _ S
    refine ⟨?_, rfl⟩
    simp only [resolve]
    split
    · rfl
    · split <;> rfl
  · exact fun n ih ha S => ⟨(ih ha S).1, rfl⟩
  · exact fun _ S => ⟨rfl, rfl⟩
  · intro n p hn hp ha S
    have hs : ∀ c : Chain, (c.seg S p (resolve p S)).2 = S := fun c => (seg_scope c S p).trans (hp ha.2 S).1
    refine ⟨?_, ?_⟩
    · by_cases hc : isChain n = true
      · simp only [resolve, if_pos hc]
        rw [(hn ha.1 S).2]
        exact hs _
      · simp only [resolve, if_neg hc]
        rw [(hn ha.1 S).1, (hp ha.2 S).1]
    · simp only [spine]
      rw [(hn ha.1 S).2]
      exact hs _
  · intro n f t hn hf ht ha S
    refine ⟨?_, rfl⟩
    simp only [resolve]
    rw [opt t ht ha.2.2, opt f hf ha.2.1, (hn ha.1 S).1]
  · exact fun l r _ _ hl hr ha S => ⟨by simp only [resolve]; rw [(hr ha.2 _).1, (hl ha.1 _).1], rfl⟩
  · exact fun c t f hc ht hf ha S => ⟨by simp only [resolve]; rw [(hf ha.2.2 _).1, (ht ha.2.1 _).1, (hc ha.1 _).1], rfl⟩
  · exact fun _ n ih ha S => ⟨(ih ha S).1, rfl⟩
  · exact fun _ l r hl hr ha S => ⟨by simp only [resolve]; rw [(hr ha.2 _).1, (hl ha.1 _).1], rfl⟩
  · exact fun _ ps ih ha S => ⟨list ps ih ha S, rfl⟩
  · intro k o al b ho hb ha S
    refine ⟨?_, rfl⟩
    have e := (ho ha.1 S).1
    simp only [resolve]
    split
    · split
      · split <;> exact e
      · rfl
    · split
      · split <;> exact e
      · exact e
  · exact fun _ t ps ht ih ha S => ⟨by simp only [resolve]; rw [list ps ih ha.2, (ht ha.1 _).1], rfl⟩
  · exact fun _ S => ⟨rfl, rfl⟩

theorem planned_cond {k : Bool} {c t f : Node} (h : NoAssign (.cond c t f)) :
    planned k (.cond c t f) = planned k c ++ planned k t ++ planned k f := by
  simp only [planned, propReads, readsOf, resolve]
  rw [(resolve_plain c h.1 _).1, (resolve_plain t h.2.1 _).1]
  rw [walkDeps_append (by decide), walkDeps_append (by decide)]
  simp

end Zen.Policy
