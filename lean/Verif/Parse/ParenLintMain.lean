import Verif.Parse.ParenLintLemmas
/-
Parentheses that are found not to be needed can be dropped from the written form.
-/
namespace Zen
namespace Parse
open Zen.Lex

/-- no operand of a product, a power or `??` in which a `not` reaches to the end -/
def Finding.Sound {α : Type} (f : Finding α) : Prop :=
  ∀ o side k, f.site = .operand o side → strength o = some k → k ≤ 4 ∨ opensNot f.inner = false

/-- what is shown by induction -/
def Drops (C : PCfg) (c : Ctx) (d L : Nat) (n : Node) (ts : List Token) : Prop :=
  ∀ s f, f ∈ visit s n → f.Sound → L ≤ limit s →
    ∃ ts', Dropped C f.inner ts ts' ∧ Written C c d L f.result ts' ∧ min (edge n) (need s) ≤ edge f.result

/-- written, and with what is shown by induction -/
abbrev Both (C : PCfg) (N : Nat) : Expr := fun c d L n ts => Written C c d L n ts ∧ Drops C c d L n ts ∧ ts.length < N

theorem Drops.delimited {C : PCfg} {c d n ts} (h : Drops C c d 0 n ts) {f : Finding Node} (hf : f ∈ visit .delimited n) (hs : f.Sound) :
    ∃ ts', Dropped C f.inner ts ts' ∧ Written C c d 0 f.result ts' := by
  obtain ⟨ts', h1, h2, _⟩ := h _ _ hf hs (Nat.zero_le _)
  exact ⟨ts', h1, h2⟩

theorem Dropped.pre {C : PCfg} {x : Node} {ts ts' : List Token} (h : Dropped C x ts ts') (p : List Token) :
    Dropped C x (p ++ ts) (p ++ ts') := by simpa using h.ctx p []

theorem Dropped.post {C : PCfg} {x : Node} {ts ts' : List Token} (h : Dropped C x ts ts') (q : List Token) :
    Dropped C x (ts ++ q) (ts' ++ q) := by simpa using h.ctx [] q

theorem Dropped.cons {C : PCfg} {x : Node} {ts ts' : List Token} (h : Dropped C x ts ts') (t : Token) :
    Dropped C x (t :: ts) (t :: ts') := h.pre [t]

section
variable {C : PCfg} {N : Nat}

theorem Items.written {b d xs ts} (h : Items (Both C N) b d xs ts) : Items (Written C) b d xs ts :=
  h.mono (Nat.le_refl _) fun _ _ _ _ _ _ h => h.1

theorem Items.drops {b d xs ts} (h : Items (Both C N) b d xs ts) : ∀ f ∈ visitList xs, f.Sound →
    ∃ ts', Dropped C f.inner ts ts' ∧ Items (Written C) b d f.result ts' := by
  induction h with
  | nil => intro f hf; simp [visitList] at hf
  | last h hz =>
    intro f hf hs
    simp only [visitList, List.map_nil, List.append_nil, List.mem_map] at hf
    obtain ⟨g, hg, rfl⟩ := hf
    obtain ⟨ts', h1, h2⟩ := h.2.1.delimited hg hs
    exact ⟨_, h1.post _, .last h2 hz⟩
  | more h ht h' ih =>
    intro f hf hs
    simp only [visitList, List.mem_append, List.mem_map] at hf
    rcases hf with ⟨g, hg, rfl⟩ | ⟨g, hg, rfl⟩
    · obtain ⟨ts', h1, h2⟩ := h.2.1.delimited hg hs
      exact ⟨_, h1.post _, .more h2 ht h'.written⟩
    · obtain ⟨ts', h1, h2⟩ := ih g hg hs
      exact ⟨_, (h1.cons _).pre _, .more h.1 ht h2⟩

theorem Parts.written {d xs ts} (h : Parts C (Both C N) d xs ts) : Parts C (Written C) d xs ts :=
  h.mono (Nat.le_refl _) fun _ _ _ _ _ _ h => h.1

theorem Parts.drops {d xs ts} (h : Parts C (Both C N) d xs ts) : ∀ f ∈ visitList xs, f.Sound →
    ∃ ts', Dropped C f.inner ts ts' ∧ Parts C (Written C) d f.result ts' := by
  induction h with
  | nil => intro f hf; simp [visitList] at hf
  | text ht h ih =>
    intro f hf hs
    simp only [visitList, visit, List.map_nil, List.nil_append, List.mem_map] at hf
    obtain ⟨g, hg, rfl⟩ := hf
    obtain ⟨ts', h1, h2⟩ := ih g hg hs
    exact ⟨_, h1.cons _, .text ht h2⟩
  | stray ht h ih =>
    intro f hf hs
    obtain ⟨ts', h1, h2⟩ := ih f hf hs
    exact ⟨_, h1.cons _, .stray ht h2⟩
  | expr ha h hb h' ih =>
    intro f hf hs
    simp only [visitList, List.mem_append, List.mem_map] at hf
    rcases hf with ⟨g, hg, rfl⟩ | ⟨g, hg, rfl⟩
    · obtain ⟨ts', h1, h2⟩ := h.2.1.delimited hg hs
      exact ⟨_, (h1.cons _).post _, .expr ha h2 hb h'.written⟩
    · obtain ⟨ts', h1, h2⟩ := ih g hg hs
      exact ⟨_, (h1.cons _).pre _, .expr ha h.1 hb h2⟩

theorem Key.written {d k ts} (h : Key C (Both C N) d k ts) : Key C (Written C) d k ts :=
  h.mono (Nat.le_refl _) fun _ _ _ _ _ _ h => h.1

theorem Key.drops {d k ts} (h : Key C (Both C N) d k ts) : ∀ f ∈ visit .delimited k, f.Sound →
    ∃ ts', Dropped C f.inner ts ts' ∧ Key C (Written C) d f.result ts' := by
  intro f hf hs
  cases h with
  | computed h1 h2 h3 =>
    obtain ⟨ts', g1, g2⟩ := h2.2.1.delimited hf hs
    exact ⟨_, (g1.cons _).post _, .computed h1 g2 h3⟩
  | _ => simp [visit] at hf

theorem Entries.written {d kvs ts} (h : Entries C (Both C N) d kvs ts) : Entries C (Written C) d kvs ts :=
  h.mono (Nat.le_refl _) fun _ _ _ _ _ _ h => h.1

theorem Entries.drops {d kvs ts} (h : Entries C (Both C N) d kvs ts) : ∀ f ∈ visitPairs .delimited kvs, f.Sound →
    ∃ ts', Dropped C f.inner ts ts' ∧ Entries C (Written C) d f.result ts' := by
  induction h with
  | last h1 h2 h3 h4 =>
    intro f hf hs
    simp only [visitPairs, List.map_nil, List.append_nil, List.mem_append, List.mem_map] at hf
    rcases hf with ⟨g, hg, rfl⟩ | ⟨g, hg, rfl⟩
    · obtain ⟨ts', g1, g2⟩ := h1.drops g hg hs
      exact ⟨_, (g1.post _).post _, .last g2 h2 h3.1 h4⟩
    · obtain ⟨ts', g1, g2⟩ := h3.2.1.delimited hg hs
      exact ⟨_, ((g1.cons _).pre _).post _, .last h1.written h2 g2 h4⟩
  | more h1 h2 h3 h4 h5 ih =>
    intro f hf hs
    simp only [visitPairs, List.mem_append, List.mem_map] at hf
    rcases hf with (⟨g, hg, rfl⟩ | ⟨g, hg, rfl⟩) | ⟨g, hg, rfl⟩
    · obtain ⟨ts', g1, g2⟩ := h1.drops g hg hs
      exact ⟨_, (g1.post _).post _, .more g2 h2 h3.1 h4 h5.written⟩
    · obtain ⟨ts', g1, g2⟩ := h3.2.1.delimited hg hs
      exact ⟨_, ((g1.cons _).pre _).post _, .more h1.written h2 g2 h4 h5.written⟩
    · obtain ⟨ts', g1, g2⟩ := ih g hg hs
      exact ⟨_, (g1.cons _).pre _, .more h1.written h2 h3.1 h4 g2⟩

theorem Bound.written {d x ts} (h : Bound (Both C N) d x ts) : Bound (Written C) d x ts := by
  cases h with
  | none => exact .none
  | some h => exact .some h.1

theorem Bound.drops {d x ts} (h : Bound (Both C N) d x ts) : ∀ f ∈ visitOpt x, f.Sound →
    ∃ ts', Dropped C f.inner ts ts' ∧ Bound (Written C) d f.result ts' := by
  intro f hf hs
  cases h with
  | none => simp [visitOpt] at hf
  | some h =>
    simp only [visitOpt, List.mem_map] at hf
    obtain ⟨g, hg, rfl⟩ := hf
    obtain ⟨ts', g1, g2⟩ := h.2.1.delimited hg hs
    exact ⟨_, g1, .some g2⟩

theorem visitList_ne {xs : List Node} {f : Finding (List Node)} (h : f ∈ visitList xs) : f.result ≠ [] := by
  cases xs with
  | nil => simp [visitList] at h
  | cons x xs =>
    simp only [visitList, List.mem_append, List.mem_map] at h
    rcases h with ⟨g, _, rfl⟩ | ⟨g, _, rfl⟩ <;> simp [Finding.map]

theorem Primary.flag {E : Expr} {d f n ts} (h : Primary C E d f n ts) (hb : isBase n = true) : f = true := by
  cases h <;> first | rfl | cases hb

theorem Primary.written {d fl n ts} (h : Primary C (Both C N) d fl n ts) : Primary C (Written C) d fl n ts :=
  h.mono (Nat.le_refl _) fun _ _ _ _ _ _ h => h.1

/-- dropping parentheses from an expression without operators at its top: either they are inside it, or they are all of it -/
theorem Primary.drops {d fl n ts} (h : Primary C (Both C N) d fl n ts) : ∀ s f, f ∈ visit s n → f.Sound →
    ∃ ts', Dropped C f.inner ts ts' ∧ (Primary C (Written C) d fl f.result ts' ∨
      (redundant f.result s = true ∧ f.inner = f.result ∧ f.site = s ∧ Written C .global d 0 f.result ts')) := by
  have base : ∀ {d n ts} {f : Finding Node}, f.Sound →
      (∀ s f, f ∈ visit s n → f.Sound →
        ∃ ts', Dropped C f.inner ts ts' ∧ (Primary C (Written C) d true f.result ts' ∨
          (redundant f.result s = true ∧ f.inner = f.result ∧ f.site = s ∧ Written C .global d 0 f.result ts'))) →
      f ∈ visit .base n → ∃ ts', Dropped C f.inner ts ts' ∧ Primary C (Written C) d true f.result ts' := by
    intro d n ts f hs ih hf
    obtain ⟨ts', h1, h2 | ⟨h2, _, _, h3⟩⟩ := ih _ f hf hs
    · exact ⟨ts', h1, h2⟩
    · obtain ⟨b, hb⟩ := h3.atom (by
        simp only [redundant] at h2
        generalize f.result = x at h2
        cases x <;> simp_all [isBase, isAtom])
      rw [hb.flag h2] at hb
      exact ⟨ts', h1, hb⟩
  induction h with
  | null => intro s f hf; simp [visit] at hf
  | bool => intro s f hf; simp [visit] at hf
  | num => intro s f hf; simp [visit] at hf
  | str => intro s f hf; simp [visit] at hf
  | name => intro s f hf; simp [visit] at hf
  | root => intro s f hf; simp [visit] at hf
  | pointer => intro s f hf; simp [visit] at hf
  | emptyObj => intro s f hf; simp [visit, visitPairs] at hf
  | tmpl h1 h2 =>
    intro s f hf hs
    simp only [visit, List.mem_map] at hf
    obtain ⟨g, hg, rfl⟩ := hf
    obtain ⟨ts', g1, g2⟩ := h2.drops g hg hs
    exact ⟨_, g1.cons _, .inl (.tmpl h1 g2)⟩
  | obj h1 h2 =>
    intro s f hf hs
    simp only [visit, List.mem_map] at hf
    obtain ⟨g, hg, rfl⟩ := hf
    obtain ⟨ts', g1, g2⟩ := h2.drops g hg hs
    exact ⟨_, g1.cons _, .inl (.obj h1 g2)⟩
  | @paren d a x ts b h1 h2 h3 =>
    intro s f hf hs
    simp only [visit, List.mem_append, List.mem_map] at hf
    rcases hf with hf | ⟨g, hg, rfl⟩
    · split at hf
      next hr =>
        simp only [List.mem_singleton] at hf
        subst hf
        exact ⟨ts, ⟨d, [], a, ts, b, [], by simp, by simp, h1, h3, h2.1⟩, .inr ⟨hr, rfl, rfl, h2.1⟩⟩
      next => simp at hf
    · obtain ⟨ts', g1, g2, _⟩ := h2.2.1 _ g hg hs (Nat.zero_le _)
      exact ⟨_, (g1.cons _).post _, .inl (.paren h1 g2 h3)⟩
  | arr h1 h2 h3 =>
    intro s f hf hs
    simp only [visit, List.mem_map] at hf
    obtain ⟨g, hg, rfl⟩ := hf
    obtain ⟨ts', g1, g2⟩ := h2.drops g hg hs
    exact ⟨_, g1.cons _, .inl (.arr h1 g2 fun e => absurd e (visitList_ne hg))⟩
  | interval h1 h2 h3 h4 h5 h6 h7 h8 h9 =>
    intro s f hf hs
    simp only [visit, List.mem_append, List.mem_map] at hf
    rcases hf with ⟨g, hg, rfl⟩ | ⟨g, hg, rfl⟩
    · obtain ⟨ts', g1, g2⟩ := h4.2.1.delimited hg hs
      exact ⟨_, ((g1.cons _).post _).post _, .inl (.interval h1 h2 h3 g2 h5 h6.1 h7 h8 h9)⟩
    · obtain ⟨ts', g1, g2⟩ := h6.2.1.delimited hg hs
      exact ⟨_, ((g1.cons _).pre _).post _, .inl (.interval h1 h2 h3 h4.1 h5 g2 h7 h8 h9)⟩
  | call h1 h2 h3 h4 =>
    intro s f hf hs
    simp only [visit, List.mem_map] at hf
    obtain ⟨g, hg, rfl⟩ := hf
    obtain ⟨ts', g1, g2⟩ := h4.drops g hg hs
    exact ⟨_, (g1.cons _).cons _, .inl (.call h1 h2 h3 g2)⟩
  | closure h1 h2 h3 h4 h5 h6 h7 h8 h9 =>
    intro s f hf hs
    simp only [visit, List.mem_append, List.mem_map] at hf
    rcases hf with ⟨g, hg, rfl⟩ | ⟨g, hg, rfl⟩
    · obtain ⟨ts', g1, g2⟩ := h5.2.1.delimited hg hs
      exact ⟨_, ((((g1.cons _).cons _).post _).post _).post _, .inl (.closure h1 h2 h3 h4 g2 h6 h7 h8.1 h9)⟩
    · obtain ⟨ts', g1, g2⟩ := h8.2.1.delimited hg hs
      exact ⟨_, ((g1.cons _).pre _).post _, .inl (.closure h1 h2 h3 h4 h5.1 h6 h7 g2 h9)⟩
  | member _ h2 h3 ih =>
    intro s f hf hs
    simp only [visit, List.map_nil, List.append_nil, List.mem_map] at hf
    obtain ⟨g, hg, rfl⟩ := hf
    obtain ⟨ts', g1, g2⟩ := base (f := g) hs ih hg
    exact ⟨_, g1.post _, .inl (.member g2 h2 h3)⟩
  | index h1 h2 h3 h4 ih =>
    intro s f hf hs
    simp only [visit, List.mem_append, List.mem_map] at hf
    rcases hf with ⟨g, hg, rfl⟩ | ⟨g, hg, rfl⟩
    · obtain ⟨ts', g1, g2⟩ := base (f := g) hs ih hg
      exact ⟨_, (g1.post _).post _, .inl (.index g2 h2 h3.1 h4)⟩
    · obtain ⟨ts', g1, g2⟩ := h3.2.1.delimited hg hs
      exact ⟨_, ((g1.cons _).pre _).post _, .inl (.index h1.written h2 g2 h4)⟩
  | slice h1 h2 h3 h4 h5 h6 ih =>
    intro s f hf hs
    simp only [visit, List.mem_append, List.mem_map] at hf
    rcases hf with (⟨g, hg, rfl⟩ | ⟨g, hg, rfl⟩) | ⟨g, hg, rfl⟩
    · obtain ⟨ts', g1, g2⟩ := base (f := g) hs ih hg
      exact ⟨_, ((g1.post _).post _).post _, .inl (.slice g2 h2 h3.written h4 h5.written h6)⟩
    · obtain ⟨ts', g1, g2⟩ := h3.drops g hg hs
      exact ⟨_, (((g1.cons _).pre _).post _).post _, .inl (.slice h1.written h2 g2 h4 h5.written h6)⟩
    · obtain ⟨ts', g1, g2⟩ := h5.drops g hg hs
      exact ⟨_, ((g1.cons _).pre _).post _, .inl (.slice h1.written h2 h3.written h4 g2 h6)⟩
  | method h1 h2 h3 h4 h5 h6 ih =>
    intro s f hf hs
    simp only [visit, List.mem_append, List.mem_map] at hf
    rcases hf with ⟨g, hg, rfl⟩ | ⟨g, hg, rfl⟩
    · obtain ⟨ts', g1, g2⟩ := base (f := g) hs ih hg
      exact ⟨_, g1.post _, .inl (.method g2 h2 h3 h4 h5 h6.written)⟩
    · obtain ⟨ts', g1, g2⟩ := h6.drops g hg hs
      exact ⟨_, (((g1.cons _).cons _).cons _).pre _, .inl (.method h1.written h2 h3 h4 h5 g2)⟩
end

/-- parentheses that are found not to be needed can be dropped from the written form -/
theorem Written.drops {C : PCfg} (hC : C.unary = false) {c d L n ts} (h : Written C c d L n ts) : Drops C c d L n ts := by
  have hj : ∀ c o, ¬ joins C c o := fun c o h => by cases hC.symm.trans h.1
  have hps : ∀ {o s}, prefixStrength o = some s → s ≤ 9 := by
    intro o s h
    cases o with
    | arith a => cases a <;> simp [prefixStrength] at h <;> omega
    | logic a => cases a <;> simp [prefixStrength] at h; omega
    | _ => simp [prefixStrength] at h
  refine Written.ind (P := Drops C) ?_ ?_ ?_ ?_ h
  · intro c d L fl n ts h s f hf hs hL
    obtain ⟨ts', h1, h2 | ⟨h2, h3, h4, h5⟩⟩ := Primary.drops (N := ts.length) h s f hf hs
    · exact ⟨ts', h1, .primary h2, by rw [h.edge, h2.edge]; exact Nat.min_le_left _ _⟩
    · have := redundant_written hC h5 h2 (by intro o side k e hk; rw [← h3]; exact hs o side k (h4.trans e) hk)
      exact ⟨ts', h1, this.1 c L hL, Nat.le_trans (Nat.min_le_right _ _) this.2⟩
  · intro c d L o t s x ts h1 h2 h3 ih site f hf hs hL
    simp only [visit, List.mem_map] at hf
    obtain ⟨g, hg, rfl⟩ := hf
    obtain ⟨ts', g1, g2, g3⟩ := ih _ g hg hs (by have := hps h2; simp [limit]; omega)
    refine ⟨_, g1.cons _, .unary h1 h2 g2, ?_⟩
    have := hps h2
    simp only [Finding.map, edge, need, h2, Option.getD_some] at g3 ⊢
    omega
  · intro c d L o t k l tl r tr h1 h2 h3 h4 h5 ihl h6 h7 ihr site f hf hs hL
    simp only [visit, List.mem_append, List.mem_map, operandSite_of h2] at hf
    have hop : 2 * k < edge l := h6.resolve_right fun h => hj _ _ h.2
    rcases hf with ⟨g, hg, rfl⟩ | ⟨g, hg, rfl⟩
    · obtain ⟨ts', g1, g2, g3⟩ := ihl _ g hg hs (by simpa [limit, h2] using h4)
      refine ⟨_, g1.post _, .binary h1 h2 h3 h4 g2 (.inl ?_) h7, ?_⟩
      · simp only [need, h2, Option.getD_some] at g3
        omega
      · simp only [Finding.map, edge]
        exact Nat.min_le_left _ _
    · obtain ⟨ts', g1, g2, g3⟩ := ihr _ g hg hs (by simp [limit, h2])
      refine ⟨_, (g1.cons _).pre _, .binary h1 h2 h3 h4 h5 h6 g2, ?_⟩
      simp only [Finding.map, edge, need, h2, Option.getD_some] at g3 ⊢
      omega
  · intro c d q s x tx y ty z tz h1 h2 h3 ihx h4 h5 ihy h6 ihz site f hf hs hL
    simp only [visit, List.mem_append, List.mem_map] at hf
    rcases hf with (⟨g, hg, rfl⟩ | ⟨g, hg, rfl⟩) | ⟨g, hg, rfl⟩
    · obtain ⟨ts', g1, g2, g3⟩ := ihx _ g hg hs (Nat.zero_le _)
      refine ⟨_, (g1.post _).post _, .cond h1 h2 g2 ?_ h5 h6, by simp [edge]⟩
      simp only [need] at g3
      omega
    · obtain ⟨ts', g1, g2, g3⟩ := ihy _ g hg hs (Nat.zero_le _)
      exact ⟨_, ((g1.cons _).pre _).post _, .cond h1 h2 h3 h4 g2 h6, by simp [edge]⟩
    · obtain ⟨ts', g1, g2, g3⟩ := ihz _ g hg hs (Nat.zero_le _)
      exact ⟨_, (g1.cons _).pre _, .cond h1 h2 h3 h4 h5 g2, by simp [edge]⟩

end Parse
end Zen
