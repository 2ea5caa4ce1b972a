import Verif.Parse.ParenLintMain
import Verif.Expr.Bare
/-
Dropping parentheses keeps everything but the parentheses.
-/
namespace Zen
namespace Parse
open Zen.Lex

/-- dropping the parentheses leaves the rest of the expression as it is -/
def SameBare (n : Node) : Prop := ∀ s f, f ∈ visit s n → bare f.result = bare n

theorem visitList_bare (ns : List Node) (ih : ∀ n ∈ ns, SameBare n) : ∀ f ∈ visitList ns, bareL f.result = bareL ns := by
  induction ns with
  | nil => intro f hf; simp [visitList] at hf
  | cons n ns ihn =>
    intro f hf
    simp only [visitList, List.mem_append, List.mem_map] at hf
    rcases hf with ⟨g, hg, rfl⟩ | ⟨g, hg, rfl⟩
    · simp [Finding.map, bareL, ih n (by simp) _ g hg]
    · simp [Finding.map, bareL, ihn (fun m hm => ih m (by simp [hm])) g hg]

theorem visitPairs_bare (s : Site) (ns : List (Node × Node)) (ih : ∀ p ∈ ns, SameBare p.1 ∧ SameBare p.2) :
    ∀ f ∈ visitPairs s ns, bareP f.result = bareP ns := by
  induction ns with
  | nil => intro f hf; simp [visitPairs] at hf
  | cons p ns ihn =>
    obtain ⟨k, v⟩ := p
    intro f hf
    simp only [visitPairs, List.mem_append, List.mem_map] at hf
    have := ih (k, v) (by simp)
    rcases hf with (⟨g, hg, rfl⟩ | ⟨g, hg, rfl⟩) | ⟨g, hg, rfl⟩
    · simp [Finding.map, bareP, this.1 _ g hg]
    · simp [Finding.map, bareP, this.2 _ g hg]
    · simp [Finding.map, bareP, ihn (fun m hm => ih m (by simp [hm])) g hg]

theorem visitOpt_bare (o : Option Node) (ih : ∀ n, o = some n → SameBare n) : ∀ f ∈ visitOpt o, bareO f.result = bareO o := by
  intro f hf
  cases o with
  | none => simp [visitOpt] at hf
  | some n =>
    simp only [visitOpt, List.mem_map] at hf
    obtain ⟨g, hg, rfl⟩ := hf
    simp [Finding.map, bareO, ih n rfl _ g hg]

theorem visit_bare (n : Node) : SameBare n := by
  refine Node.ind (P := SameBare)
    ?null ?bool ?num ?str ?tmpl ?pointer ?arr ?obj ?assigns ?ident ?paren ?root ?member ?slice
    ?interval ?cond ?unary ?binary ?call ?closure ?method ?error n
  case null => intro s f hf; simp [visit] at hf
  case bool => intro _ s f hf; simp [visit] at hf
  case num => intro _ s f hf; simp [visit] at hf
  case str => intro _ s f hf; simp [visit] at hf
  case pointer => intro s f hf; simp [visit] at hf
  case ident => intro _ s f hf; simp [visit] at hf
  case root => intro s f hf; simp [visit] at hf
  case error => intro s f hf; simp [visit] at hf
  case tmpl =>
    intro ps ih s f hf
    simp only [visit, List.mem_map] at hf
    obtain ⟨g, hg, rfl⟩ := hf
    simp [Finding.map, bare, visitList_bare ps ih g hg]
  case arr =>
    intro ps ih s f hf
    simp only [visit, List.mem_map] at hf
    obtain ⟨g, hg, rfl⟩ := hf
    simp [Finding.map, bare, visitList_bare ps ih g hg]
  case obj =>
    intro ps ih s f hf
    simp only [visit, List.mem_map] at hf
    obtain ⟨g, hg, rfl⟩ := hf
    simp [Finding.map, bare, visitPairs_bare _ ps ih g hg]
  case call =>
    intro c ps ih s f hf
    simp only [visit, List.mem_map] at hf
    obtain ⟨g, hg, rfl⟩ := hf
    simp [Finding.map, bare, visitList_bare ps ih g hg]
  case assigns =>
    intro ps o ih iho s f hf
    simp only [visit, List.mem_append, List.mem_map] at hf
    rcases hf with ⟨g, hg, rfl⟩ | ⟨g, hg, rfl⟩
    · simp [Finding.map, bare, visitPairs_bare _ ps ih g hg]
    · simp [Finding.map, bare, visitOpt_bare o iho g hg]
  case paren =>
    intro n ih s f hf
    simp only [visit, List.mem_append, List.mem_map] at hf
    rcases hf with hf | ⟨g, hg, rfl⟩
    · split at hf
      · simp only [List.mem_singleton] at hf
        subst hf
        simp [bare]
      · simp at hf
    · simp [Finding.map, bare, ih _ g hg]
  case unary =>
    intro o n ih s f hf
    simp only [visit, List.mem_map] at hf
    obtain ⟨g, hg, rfl⟩ := hf
    simp [Finding.map, bare, ih _ g hg]
  case member =>
    intro n p ihn ihp s f hf
    simp only [visit, List.mem_append, List.mem_map] at hf
    rcases hf with ⟨g, hg, rfl⟩ | ⟨g, hg, rfl⟩
    · simp [Finding.map, bare, ihn _ g hg]
    · simp [Finding.map, bare, ihp _ g hg]
  case interval =>
    intro n p lb rb ihn ihp s f hf
    simp only [visit, List.mem_append, List.mem_map] at hf
    rcases hf with ⟨g, hg, rfl⟩ | ⟨g, hg, rfl⟩
    · simp [Finding.map, bare, ihn _ g hg]
    · simp [Finding.map, bare, ihp _ g hg]
  case binary =>
    intro o n p ihn ihp s f hf
    simp only [visit, List.mem_append, List.mem_map] at hf
    rcases hf with ⟨g, hg, rfl⟩ | ⟨g, hg, rfl⟩
    · simp [Finding.map, bare, ihn _ g hg]
    · simp [Finding.map, bare, ihp _ g hg]
  case closure =>
    intro k n al p ihn ihp s f hf
    simp only [visit, List.mem_append, List.mem_map] at hf
    rcases hf with ⟨g, hg, rfl⟩ | ⟨g, hg, rfl⟩
    · simp [Finding.map, bare, ihn _ g hg]
    · simp [Finding.map, bare, ihp _ g hg]
  case cond =>
    intro c t e ihc iht ihe s f hf
    simp only [visit, List.mem_append, List.mem_map] at hf
    rcases hf with (⟨g, hg, rfl⟩ | ⟨g, hg, rfl⟩) | ⟨g, hg, rfl⟩
    · simp [Finding.map, bare, ihc _ g hg]
    · simp [Finding.map, bare, iht _ g hg]
    · simp [Finding.map, bare, ihe _ g hg]
  case slice =>
    intro n a b ihn iha ihb s f hf
    simp only [visit, List.mem_append, List.mem_map] at hf
    rcases hf with (⟨g, hg, rfl⟩ | ⟨g, hg, rfl⟩) | ⟨g, hg, rfl⟩
    · simp [Finding.map, bare, ihn _ g hg]
    · simp [Finding.map, bare, visitOpt_bare a iha g hg]
    · simp [Finding.map, bare, visitOpt_bare b ihb g hg]
  case method =>
    intro m n as ihn ih s f hf
    simp only [visit, List.mem_append, List.mem_map] at hf
    rcases hf with ⟨g, hg, rfl⟩ | ⟨g, hg, rfl⟩
    · simp [Finding.map, bare, ihn _ g hg]
    · simp [Finding.map, bare, visitList_bare as ih g hg]

section
variable {C : PCfg} {E : Expr} (hE : ∀ c d L n ts, E c d L n ts → NoAssign n)
include hE

theorem Items.noAssign {b d xs ts} (h : Items E b d xs ts) : NoAssignL xs := by
  induction h with
  | nil => trivial
  | last h => exact ⟨hE _ _ _ _ _ h, trivial⟩
  | more h _ _ ih => exact ⟨hE _ _ _ _ _ h, ih⟩

theorem Parts.noAssign {d xs ts} (h : Parts C E d xs ts) : NoAssignL xs := by
  induction h with
  | nil => trivial
  | text _ _ ih => exact ⟨trivial, ih⟩
  | stray _ _ ih => exact ih
  | expr _ h _ _ ih => exact ⟨hE _ _ _ _ _ h, ih⟩

theorem Key.noAssign {d k ts} (h : Key C E d k ts) : NoAssign k := by
  cases h with
  | computed _ h => exact hE _ _ _ _ _ h
  | _ => trivial

theorem Entries.noAssign {d kvs ts} (h : Entries C E d kvs ts) : NoAssignP kvs := by
  induction h with
  | last h1 _ h2 => exact ⟨h1.noAssign hE, hE _ _ _ _ _ h2, trivial⟩
  | more h1 _ h2 _ _ ih => exact ⟨h1.noAssign hE, hE _ _ _ _ _ h2, ih⟩

theorem Bound.noAssign {d x ts} (h : Bound E d x ts) : NoAssignO x := by
  cases h with
  | none => trivial
  | some h => exact hE _ _ _ _ _ h

theorem Primary.noAssign {d f n ts} (h : Primary C E d f n ts) : NoAssign n := by
  induction h with
  | tmpl _ h => exact h.noAssign hE
  | emptyObj => trivial
  | obj _ h => exact h.noAssign hE
  | paren _ h => simpa only [NoAssign] using hE _ _ _ _ _ h
  | arr _ h => exact h.noAssign hE
  | interval _ _ _ h _ h' => exact ⟨hE _ _ _ _ _ h, hE _ _ _ _ _ h'⟩
  | call _ _ _ h => exact h.noAssign hE
  | closure _ _ _ _ h _ _ h' => exact ⟨hE _ _ _ _ _ h, hE _ _ _ _ _ h'⟩
  | member _ _ _ ih => exact ⟨ih, trivial⟩
  | index _ _ h _ ih => exact ⟨ih, hE _ _ _ _ _ h⟩
  | slice _ _ h _ h' _ ih => exact ⟨ih, h.noAssign hE, h'.noAssign hE⟩
  | method _ _ _ _ _ h ih => exact ⟨ih, h.noAssign hE⟩
  | _ => trivial
end

/-- the written expressions have no assignments -/
theorem Written.noAssign {C : PCfg} {c d L n ts} (h : Written C c d L n ts) : NoAssign n := by
  refine Written.ind (P := fun _ _ _ n _ => NoAssign n) ?_ ?_ ?_ ?_ h
  · intro _ _ _ _ _ _ h
    exact h.noAssign fun _ _ _ _ _ h => h.2.1
  · intro _ _ _ o t s x ts _ _ _ h
    exact h
  · intro _ _ _ _ _ _ _ _ _ _ _ _ _ _ _ h _ _ h'
    exact ⟨h, h'⟩
  · intro _ _ _ _ _ _ _ _ _ _ _ _ _ h _ _ h' _ h''
    exact ⟨h, h', h''⟩

end Parse

/-- parentheses do not count for whether there are assignments -/
theorem noAssign_bare (n : Node) : NoAssign (bare n) ↔ NoAssign n := by
  have list : ∀ ns : List Node, (∀ n ∈ ns, NoAssign (bare n) ↔ NoAssign n) → (NoAssignL (bareL ns) ↔ NoAssignL ns) := by
    intro ns
    induction ns with
    | nil => intro _; rfl
    | cons n ns ih =>
      intro h
      simp only [bareL, NoAssignL]
      rw [h n (by simp), ih fun m hm => h m (by simp [hm])]
  have pairs : ∀ ns : List (Node × Node), (∀ p ∈ ns, (NoAssign (bare p.1) ↔ NoAssign p.1) ∧ (NoAssign (bare p.2) ↔ NoAssign p.2)) →
      (NoAssignP (bareP ns) ↔ NoAssignP ns) := by
    intro ns
    induction ns with
    | nil => intro _; rfl
    | cons p ns ih =>
      obtain ⟨k, v⟩ := p
      intro h
      simp only [bareP, NoAssignP]
      have := h (k, v) (by simp)
      rw [this.1, this.2, ih fun m hm => h m (by simp [hm])]
  have opt : ∀ o : Option Node, (∀ n, o = some n → (NoAssign (bare n) ↔ NoAssign n)) → (NoAssignO (bareO o) ↔ NoAssignO o) := by
    intro o h
    cases o with
    | none => rfl
    | some n => simpa only [bareO, NoAssignO] using h n rfl
  refine Node.ind (P := fun n => NoAssign (bare n) ↔ NoAssign n)
    ?null ?bool ?num ?str ?tmpl ?pointer ?arr ?obj ?assigns ?ident ?paren ?root ?member ?slice
    ?interval ?cond ?unary ?binary ?call ?closure ?method ?error n
  case null => rfl
  case bool => intro _; rfl
  case num => intro _; rfl
  case str => intro _; rfl
  case pointer => rfl
  case ident => intro _; rfl
  case root => rfl
  case error => rfl
  case assigns => intro kvs o _ _; simp only [bare, NoAssign]
  case paren => intro n ih; simpa only [bare, NoAssign] using ih
  case tmpl => intro ps ih; simpa only [bare, NoAssign] using list ps ih
  case arr => intro ps ih; simpa only [bare, NoAssign] using list ps ih
  case obj => intro ps ih; simpa only [bare, NoAssign] using pairs ps ih
  case call => intro f ps ih; simpa only [bare, NoAssign] using list ps ih
  case unary => intro o n ih; simpa only [bare, NoAssign] using ih
  case member => intro n p h1 h2; simp only [bare, NoAssign, h1, h2]
  case interval => intro n p _ _ h1 h2; simp only [bare, NoAssign, h1, h2]
  case binary => intro o n p h1 h2; simp only [bare, NoAssign, h1, h2]
  case closure => intro k n al p h1 h2; simp only [bare, NoAssign, h1, h2]
  case cond => intro c t f h1 h2 h3; simp only [bare, NoAssign, h1, h2, h3]
  case slice => intro n f t h1 h2 h3; simp only [bare, NoAssign, h1, opt f h2, opt t h3]
  case method => intro m t ps h1 h2; simp only [bare, NoAssign, h1, list ps h2]

end Zen
