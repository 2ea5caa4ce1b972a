import Verif.Heap.Lemmas
import Verif.Engine.Engine
/- The cleaner on shared, possibly cyclic, values. -/
namespace Zen
open Heap

/-- the address a value points to -/
def HVal.ptr : HVal → Option Nat
  | .arr a => some a
  | .obj a => some a
  | _ => none

/-- the values a cell holds -/
def Cell.kids : Cell → List HVal
  | .arr xs => xs
  | .obj m => m.map Prod.snd

/-- the addresses that can be reached from a value -/
inductive HReach (h : Heap) (v : HVal) : Nat → Prop
  | start {a : Nat} : v.ptr = some a → HReach h v a
  | step {a b : Nat} {c : Cell} {x : HVal} : HReach h v a → h[a]? = some c → x ∈ c.kids → x.ptr = some b → HReach h v b

/-- a cell without the reserved property -/
def Cell.stripped : Cell → Cell
  | .arr xs => .arr xs
  | .obj m => .obj (aErase m "$nodes")

theorem kids_stripped {c : Cell} {x : HVal} (hx : x ∈ c.stripped.kids) : x ∈ c.kids := by
  cases c with
  | arr xs => exact hx
  | obj m =>
    obtain ⟨e, he, rfl⟩ := List.mem_map.1 hx
    exact List.mem_map.2 ⟨e, (aErase_sublist m "$nodes").subset he, rfl⟩

theorem HReach.mono {h h' : Heap} {v : HVal} (hc : ∀ (a : Nat) (c : Cell), h'[a]? = some c → ∃ c' : Cell, h[a]? = some c' ∧ ∀ x ∈ c.kids, x ∈ c'.kids)
    {a : Nat} (r : HReach h' v a) : HReach h v a := by
  induction r with
  | start e => exact .start e
  | step _ e hx hp ih =>
    obtain ⟨c', h1, h2⟩ := hc _ _ e
    exact .step ih h1 (h2 _ hx) hp

theorem HReach.trans {h : Heap} {v x : HVal} {a : Nat} {c : Cell} (r : HReach h v a) (e : h[a]? = some c) (hx : x ∈ c.kids) {b : Nat}
    (r' : HReach h x b) : HReach h v b := by
  induction r' with
  | start hp => exact .step r e hx hp
  | step _ e' hx' hp ih => exact .step ih e' hx' hp

/-- a value points to a cell of its own kind: an `Rc<RefCell<Vec>>` holds a vector, an `Rc<RefCell<Map>>` a map -/
def HVal.Ok (h : Heap) : HVal → Prop
  | .arr a => ∃ xs, h[a]? = some (.arr xs)
  | .obj a => ∃ m, h[a]? = some (.obj m)
  | _ => True

/-- all values in cells point to cells of their kind -/
def HeapOk (h : Heap) : Prop := ∀ (a : Nat) (c : Cell), h[a]? = some c → ∀ x ∈ c.kids, x.Ok h

/-- what a run of the cleaner over some values has done -/
structure Cleaned (vis : List Nat) (h : Heap) (vs : List HVal) (vis' : List Nat) (h' : Heap) : Prop where
  sub : ∀ a ∈ vis, a ∈ vis'
  old : ∀ a, a ∈ vis ∨ a ∉ vis' → h'[a]? = h[a]?
  new : ∀ a ∈ vis', a ∉ vis → h'[a]? = (h[a]?).map Cell.stripped
  here : ∀ v ∈ vs, ∀ a, v.ptr = some a → a ∈ vis'
  closed : ∀ a ∈ vis', a ∉ vis → ∀ c, h'[a]? = some c → ∀ x ∈ c.kids, ∀ b, x.ptr = some b → b ∈ vis'
  reach : ∀ a ∈ vis', a ∉ vis → ∃ v ∈ vs, HReach (h.map Cell.stripped) v a
  len : h'.length = h.length

theorem Cleaned.kids {vis : List Nat} {h : Heap} {vs : List HVal} {vis' : List Nat} {h' : Heap} (H : Cleaned vis h vs vis' h') :
    ∀ (a : Nat) (c : Cell), h'[a]? = some c → ∃ c' : Cell, h[a]? = some c' ∧ ∀ x ∈ c.kids, x ∈ c'.kids := by
  intro a c e
  by_cases ha : a ∈ vis ∨ a ∉ vis'
  · rw [H.old a ha] at e; exact ⟨c, e, fun _ hx => hx⟩
  · have ⟨h1, h2⟩ := not_or.1 ha
    rw [H.new a (Decidable.not_not.1 h2) h1] at e
    cases hc : h[a]? with
    | none => rw [hc] at e; cases e
    | some c' => rw [hc] at e; cases e; exact ⟨c', rfl, fun _ hx => kids_stripped hx⟩

theorem Cleaned.skids {vis : List Nat} {h : Heap} {vs : List HVal} {vis' : List Nat} {h' : Heap} (H : Cleaned vis h vs vis' h') :
    ∀ (a : Nat) (c : Cell), (h'.map Cell.stripped)[a]? = some c → ∃ c' : Cell, (h.map Cell.stripped)[a]? = some c' ∧ ∀ x ∈ c.kids, x ∈ c'.kids := by
  intro a c e
  rw [List.getElem?_map] at e ⊢
  by_cases ha : a ∈ vis ∨ a ∉ vis'
  · rw [H.old a ha] at e; exact ⟨c, e, fun _ hx => hx⟩
  · have ⟨h1, h2⟩ := not_or.1 ha
    rw [H.new a (Decidable.not_not.1 h2) h1] at e
    cases hc : h[a]? with
    | none => rw [hc] at e; cases e
    | some c' => rw [hc] at e; cases e; exact ⟨_, rfl, fun _ hx => kids_stripped hx⟩

theorem Cleaned.ok {vis : List Nat} {h : Heap} {vs : List HVal} {vis' : List Nat} {h' : Heap} (H : Cleaned vis h vs vis' h')
    {v : HVal} (hv : v.Ok h) : v.Ok h' := by
  have key : ∀ (a : Nat) (c : Cell), h[a]? = some c → h'[a]? = some c ∨ h'[a]? = some c.stripped := by
    intro a c e
    by_cases ha : a ∈ vis ∨ a ∉ vis'
    · rw [H.old a ha]; exact .inl e
    · have ⟨h1, h2⟩ := not_or.1 ha
      rw [H.new a (Decidable.not_not.1 h2) h1, e]; exact .inr rfl
  cases v with
  | arr a =>
    obtain ⟨xs, e⟩ := hv
    exact (key a _ e).elim (fun e => ⟨_, e⟩) (fun e => ⟨_, e⟩)
  | obj a =>
    obtain ⟨xs, e⟩ := hv
    exact (key a _ e).elim (fun e => ⟨_, e⟩) (fun e => ⟨_, e⟩)
  | _ => trivial

theorem Cleaned.heapOk {vis : List Nat} {h : Heap} {vs : List HVal} {vis' : List Nat} {h' : Heap} (H : Cleaned vis h vs vis' h')
    (ho : HeapOk h) : HeapOk h' := by
  intro a c e x hx
  obtain ⟨c', e', hs⟩ := H.kids a c e
  exact H.ok (ho a c' e' x (hs x hx))

theorem strip_ok {h : Heap} {a : Nat} {c : Cell} (e : h[a]? = some c) {v : HVal} (hv : v.Ok h) : v.Ok (h.set a c.stripped) := by
  cases v with
  | arr b =>
    obtain ⟨xs, e'⟩ := hv
    by_cases hb : b = a
    · subst hb; rw [e] at e'; cases e'; exact ⟨_, List.getElem?_set_self (lt_of_get e)⟩
    · exact ⟨xs, by rw [List.getElem?_set_ne (Ne.symm hb)]; exact e'⟩
  | obj b =>
    obtain ⟨xs, e'⟩ := hv
    by_cases hb : b = a
    · subst hb; rw [e] at e'; cases e'; exact ⟨_, List.getElem?_set_self (lt_of_get e)⟩
    · exact ⟨xs, by rw [List.getElem?_set_ne (Ne.symm hb)]; exact e'⟩
  | _ => trivial

theorem strip_heapOk {h : Heap} {a : Nat} {c : Cell} (e : h[a]? = some c) (ho : HeapOk h) : HeapOk (h.set a c.stripped) := by
  intro b c' e' x hx
  apply strip_ok e
  by_cases hb : b = a
  · subst hb; rw [List.getElem?_set_self (lt_of_get e)] at e'; cases e'
    exact ho b c e x (kids_stripped hx)
  · rw [List.getElem?_set_ne (Ne.symm hb)] at e'; exact ho b c' e' x hx

theorem Cleaned.append {vis : List Nat} {h : Heap} {v : HVal} {vs : List HVal} {vis1 : List Nat} {h1 : Heap} {vis2 : List Nat} {h2 : Heap}
    (H : Cleaned vis h [v] vis1 h1) (K : Cleaned vis1 h1 vs vis2 h2) : Cleaned vis h (v :: vs) vis2 h2 where
  sub a ha := K.sub a (H.sub a ha)
  old a ha := by
    rcases ha with ha | ha
    · rw [K.old a (.inl (H.sub a ha)), H.old a (.inl ha)]
    · rw [K.old a (.inr ha), H.old a (.inr fun hh => ha (K.sub a hh))]
  new a ha hn := by
    by_cases h1' : a ∈ vis1
    · rw [K.old a (.inl h1'), H.new a h1' hn]
    · rw [K.new a ha h1', H.old a (.inr h1')]
  here w hw a hp := by
    rcases List.mem_cons.1 hw with rfl | hw
    · exact K.sub a (H.here w (by simp) a hp)
    · exact K.here w hw a hp
  closed a ha hn c e x hx b hp := by
    by_cases h1' : a ∈ vis1
    · rw [K.old a (.inl h1')] at e
      exact K.sub b (H.closed a h1' hn c e x hx b hp)
    · exact K.closed a ha h1' c e x hx b hp
  reach a ha hn := by
    by_cases h1' : a ∈ vis1
    · obtain ⟨w, hw, r⟩ := H.reach a h1' hn
      exact ⟨w, by simp at hw; simp [hw], r⟩
    · obtain ⟨w, hw, r⟩ := K.reach a ha h1'
      exact ⟨w, by simp [hw], r.mono H.skids⟩
  len := by rw [K.len, H.len]

theorem Cleaned.refl (vis : List Nat) (h : Heap) (v : HVal) (hv : ∀ a, v.ptr = some a → a ∈ vis) : Cleaned vis h [v] vis h where
  sub _ h := h
  old _ _ := rfl
  new a ha hn := absurd ha hn
  here w hw a hp := by simp at hw; subst hw; exact hv a hp
  closed a ha hn := absurd ha hn
  reach a ha hn := absurd ha hn
  len := rfl

theorem filter_sub {p q : Nat → Bool} (hpq : ∀ a, p a = true → q a = true) :
    ∀ l : List Nat, (l.filter p).length ≤ (l.filter q).length
  | [] => by simp
  | x :: l => by
    have := filter_sub hpq l
    simp only [List.filter_cons]
    by_cases h1 : p x = true
    · simp [h1, hpq x h1]; exact this
    · by_cases h2 : q x = true
      · simp [h1, h2]; omega
      · simp [h1, h2]; exact this

/-- addresses not yet visited that are in the heap -/
def todo (h : Heap) (vis : List Nat) : Nat := ((List.range h.length).filter (· ∉ vis)).length

theorem todo_mono {h : Heap} {vis vis' : List Nat} (hs : ∀ a ∈ vis, a ∈ vis') : todo h vis' ≤ todo h vis := by
  unfold todo
  apply filter_sub
  intro a ha
  simp only [decide_eq_true_eq] at ha ⊢
  exact fun hh => ha (hs a hh)

theorem todo_lt {h : Heap} {vis vis' : List Nat} (hs : ∀ a ∈ vis, a ∈ vis') {a : Nat} (ha : a < h.length) (hn : a ∉ vis)
    (hm : a ∈ vis') : todo h vis' < todo h vis := by
  unfold todo
  have : ∀ l : List Nat, a ∈ l → (l.filter (· ∉ vis')).length < (l.filter (· ∉ vis)).length := by
    intro l
    induction l with
    | nil => intro h; cases h
    | cons x l ih =>
      intro hx
      have hle : (l.filter (· ∉ vis')).length ≤ (l.filter (· ∉ vis)).length := by
        apply filter_sub
        intro b hb
        simp only [decide_eq_true_eq] at hb ⊢
        exact fun hh => hb (hs b hh)
      rcases List.mem_cons.1 hx with rfl | hx
      · simp only [List.filter_cons, hn, hm, not_false_eq_true, not_true_eq_false, decide_true, decide_false, if_true,
          Bool.false_eq_true, if_false, List.length_cons]
        omega
      · have := ih hx
        simp only [List.filter_cons]
        by_cases h1 : x ∈ vis'
        · by_cases h2 : x ∈ vis <;> simp [h1, h2] at this ⊢ <;> omega
        · have h2 : x ∉ vis := fun hh => h1 (hs x hh)
          simp [h1, h2] at this ⊢; omega
  exact this _ (List.mem_range.2 ha)

theorem cleanLoop_ok {f : List Nat → Heap → HVal → Option (List Nat × Heap)} {B : Nat}
    (hf : ∀ vis h v, todo h vis < B → HeapOk h → v.Ok h → ∃ vis' h', f vis h v = some (vis', h') ∧ Cleaned vis h [v] vis' h') :
    ∀ (xs : List HVal) (vis : List Nat) (h : Heap), todo h vis < B → HeapOk h → (∀ x ∈ xs, x.Ok h) → ∃ vis' h', cleanLoop f vis h xs = some (vis', h') ∧
      Cleaned vis h xs vis' h'
  | [], vis, h, _, _, _ => ⟨vis, h, rfl, ⟨fun _ h => h, fun _ _ => rfl, fun a ha hn => absurd ha hn, by simp,
      fun a ha hn => absurd ha hn, fun a ha hn => absurd ha hn, rfl⟩⟩
  | x :: xs, vis, h, hB, ho, hx => by
    obtain ⟨vis1, h1, e1, c1⟩ := hf vis h x hB ho (hx x (by simp))
    have : todo h1 vis1 < B := by
      have := todo_mono (h := h) c1.sub
      unfold todo at this hB ⊢
      rw [c1.len]; omega
    obtain ⟨vis2, h2, e2, c2⟩ := cleanLoop_ok hf xs vis1 h1 this (c1.heapOk ho) (fun y hy => c1.ok (hx y (by simp [hy])))
    exact ⟨vis2, h2, by simp only [cleanLoop, e1, e2], c1.append c2⟩

theorem clean_ok : ∀ (n : Nat) (vis : List Nat) (h : Heap) (v : HVal), todo h vis < n → HeapOk h → v.Ok h →
    ∃ vis' h', Heap.clean n vis h v = some (vis', h') ∧ Cleaned vis h [v] vis' h'
  | 0, _, _, _, hn, _, _ => by omega
  | n + 1, vis, h, v, hn, ho, hv => by
    -- visiting a cell: strip it, then its values
    have visit : ∀ (a : Nat) (c : Cell), v.ptr = some a → a ∉ vis → h[a]? = some c →
        ∃ vis' h', cleanLoop (Heap.clean n) (a :: vis) (h.set a c.stripped) c.stripped.kids = some (vis', h') ∧
          Cleaned vis h [v] vis' h' := by
      intro a c hp ha e
      have hlt := lt_of_get e
      have hB : todo (h.set a c.stripped) (a :: vis) < n := by
        have h1 : todo (h.set a c.stripped) (a :: vis) = todo h (a :: vis) := by unfold todo; simp
        have := todo_lt (h := h) (vis := vis) (vis' := a :: vis) (fun b hb => by simp [hb]) hlt ha (by simp)
        omega
      obtain ⟨vis', h', e1, H⟩ := cleanLoop_ok (B := n) (fun vis h v hB => clean_ok n vis h v hB) c.stripped.kids _ _ hB
        (strip_heapOk e ho) (fun x hx => strip_ok e (ho a c e x (kids_stripped hx)))
      have hset : ∀ b, b ≠ a → (h.set a c.stripped)[b]? = h[b]? := fun b hb => List.getElem?_set_ne (Ne.symm hb)
      have ha' : h'[a]? = some c.stripped := by
        rw [H.old a (.inl (by simp)), List.getElem?_set_self hlt]
      refine ⟨vis', h', e1, ?_, ?_, ?_, ?_, ?_, ?_, by rw [H.len]; simp⟩
      · intro b hb; exact H.sub b (by simp [hb])
      · intro b hb
        have hne : b ≠ a := by
          rintro rfl
          rcases hb with hb | hb
          · exact ha hb
          · exact hb (H.sub _ (by simp))
        rw [H.old b (hb.imp (fun hb => by simp [hb]) id), hset b hne]
      · intro b hb hn
        by_cases hne : b = a
        · subst hne; rw [ha', e]; rfl
        · rw [H.new b hb (by simp [hne, hn]), hset b hne]
      · intro w hw b hpb
        simp at hw; subst hw
        rw [hp] at hpb; cases hpb
        exact H.sub a (by simp)
      · intro b hb hn c' e' x hx b' hpb
        by_cases hne : b = a
        · subst hne
          rw [ha'] at e'; cases e'
          exact H.here x hx b' hpb
        · exact H.closed b hb (by simp [hne, hn]) c' e' x hx b' hpb
      · intro b hb hn
        refine ⟨v, by simp, ?_⟩
        by_cases hne : b = a
        · subst hne; exact .start hp
        · obtain ⟨w, hw, r⟩ := H.reach b hb (by simp [hne, hn])
          refine HReach.trans (.start hp) (c := c.stripped) (by rw [List.getElem?_map, e]; rfl) hw (r.mono ?_)
          intro b c' e'
          rw [List.getElem?_map] at e' ⊢
          by_cases hba : b = a
          · subst hba
            rw [List.getElem?_set_self hlt] at e'; cases e'
            exact ⟨c.stripped, by rw [e]; rfl, fun _ hx => kids_stripped hx⟩
          · rw [hset b hba] at e'; exact ⟨c', e', fun _ hx => hx⟩
    cases v with
    | arr a =>
      simp only [Heap.clean]
      by_cases ha : a ∈ vis
      · simp only [ha, if_true]
        exact ⟨vis, h, rfl, Cleaned.refl vis h _ (by simp [HVal.ptr, ha])⟩
      · simp only [ha, if_false]
        obtain ⟨xs, e⟩ := hv
        obtain ⟨vis', h', e1, H⟩ := visit a _ rfl ha e
        have hs : h.set a (Cell.arr xs).stripped = h := by
          apply List.ext_getElem?
          intro b
          by_cases hb : b = a
          · subst hb; rw [List.getElem?_set_self (lt_of_get e), e]; rfl
          · rw [List.getElem?_set_ne (Ne.symm hb)]
        rw [hs] at e1
        rw [e]
        exact ⟨vis', h', e1, H⟩
    | obj a =>
      simp only [Heap.clean]
      by_cases ha : a ∈ vis
      · simp only [ha, if_true]
        exact ⟨vis, h, rfl, Cleaned.refl vis h _ (by simp [HVal.ptr, ha])⟩
      · simp only [ha, if_false]
        obtain ⟨m, e⟩ := hv
        rw [objAt_of e]
        exact visit a _ rfl ha e
    | _ => exact ⟨vis, h, rfl, Cleaned.refl vis h _ (by simp [HVal.ptr])⟩

theorem todo_nil (h : Heap) : todo h [] ≤ h.length := by
  unfold todo
  exact Nat.le_trans (List.length_filter_le _ _) (by simp)

/-- after a run from no visited cells: the visited ones are the ones reachable without passing through a
reserved property -/
theorem Cleaned.vis_iff {h : Heap} {v : HVal} {vis' : List Nat} {h' : Heap} (H : Cleaned [] h [v] vis' h') (a : Nat) :
    a ∈ vis' ↔ HReach (h.map Cell.stripped) v a := by
  constructor
  · intro ha
    obtain ⟨w, hw, r⟩ := H.reach a ha (by simp)
    simp at hw; subst hw; exact r
  · intro r
    induction r with
    | start hp => exact H.here v (by simp) _ hp
    | step _ e hx hp ih =>
      rw [List.getElem?_map, ← H.new _ ih (by simp)] at e
      exact H.closed _ ih (by simp) _ e _ hx _ hp

/-- a stripped cell has no reserved property -/
theorem stripped_none {m : List (String × HVal)} (hn : (aKeys m).Nodup) : aGet (aErase m "$nodes") "$nodes" = none := by
  rw [aGet_aErase _ _ hn]; simp

section
variable {h h' : Heap} {vis : List Nat} (hcell : ∀ a ∈ vis, h'[a]? = (h[a]?).map Cell.stripped)
  (hcl : ∀ a ∈ vis, ∀ c, h'[a]? = some c → ∀ x ∈ c.kids, ∀ b, x.ptr = some b → b ∈ vis)
include hcell hcl

mutual
/-- what a value shows once everything it reaches has been stripped -/
theorem den_clean : ∀ {v : HVal} {x : Val} {F : List Nat}, Den h v x F → (∀ b, v.ptr = some b → b ∈ vis) →
    ∃ G, Den h' v x.clean G
  | _, _, _, .null, _ => ⟨_, .null⟩
  | _, _, _, .bool b, _ => ⟨_, .bool b⟩
  | _, _, _, .num b, _ => ⟨_, .num b⟩
  | _, _, _, .str b, _ => ⟨_, .str b⟩
  | _, _, _, .dyn b, _ => ⟨_, .dyn b⟩
  | _, _, _, .arr (a := a) (xs := xs) e d, hv => by
    have ha := hv a rfl
    have e' : h'[a]? = some (.arr xs) := by rw [hcell a ha, e]; rfl
    obtain ⟨G, dG⟩ := denL_clean d (hcl a ha _ e')
    exact ⟨_, .arr e' dG⟩
  | _, _, _, .obj (a := a) (m := m) e d, hv => by
    have ha := hv a rfl
    have e' : h'[a]? = some (.obj (aErase m "$nodes")) := by rw [hcell a ha, e]; rfl
    obtain ⟨G, dG⟩ := denE_erase_cl d (fun x hx => hcl a ha _ e' x hx)
    exact ⟨_, .obj e' dG⟩
theorem denL_clean : ∀ {v : List HVal} {x : List Val} {F : List Nat}, DenL h v x F → (∀ y ∈ v, ∀ b, y.ptr = some b → b ∈ vis) →
    ∃ G, DenL h' v (Val.cleanL x) G
  | _, _, _, .nil, _ => ⟨_, .nil⟩
  | _, _, _, .cons d ds, hv => by
    obtain ⟨G, dG⟩ := den_clean d (hv _ (by simp))
    obtain ⟨H, dH⟩ := denL_clean ds (fun y hy => hv y (by simp [hy]))
    exact ⟨_, .cons dG dH⟩
theorem denE_clean : ∀ {v : List (String × HVal)} {x : List (String × Val)} {F : List Nat}, DenE h v x F →
    (∀ y ∈ v.map Prod.snd, ∀ b, y.ptr = some b → b ∈ vis) → ∃ G, DenE h' v (Val.cleanE x) G
  | _, _, _, .nil, _ => ⟨_, .nil⟩
  | _, _, _, .cons d ds, hv => by
    obtain ⟨G, dG⟩ := den_clean d (hv _ (by simp))
    obtain ⟨H, dH⟩ := denE_clean ds (fun y hy => hv y (by rw [List.map_cons]; exact List.mem_cons_of_mem _ hy))
    exact ⟨_, .cons dG dH⟩
theorem denE_erase_cl : ∀ {v : List (String × HVal)} {x : List (String × Val)} {F : List Nat}, DenE h v x F →
    (∀ y ∈ (aErase v "$nodes").map Prod.snd, ∀ b, y.ptr = some b → b ∈ vis) →
    ∃ G, DenE h' (aErase v "$nodes") (aErase (Val.cleanE x) "$nodes") G
  | _, _, _, .nil, _ => ⟨_, .nil⟩
  | _, _, _, .cons (k := k) d ds, hv => by
    by_cases hk : k = "$nodes"
    · simp only [aErase, hk, Val.cleanE, if_true] at hv ⊢
      exact denE_clean ds hv
    · simp only [aErase, hk, Val.cleanE, if_false] at hv ⊢
      obtain ⟨G, dG⟩ := den_clean d (hv _ (by simp))
      obtain ⟨H, dH⟩ := denE_erase_cl ds (fun y hy => hv y (by rw [List.map_cons]; exact List.mem_cons_of_mem _ hy))
      exact ⟨_, .cons dG dH⟩
end
end

end Zen
