import Verif.Policy.Iterate
import Verif.Heap.Clean
import Verif.Heap.InPlace
/- Writing through the scope of an iterated block and writing on the instance. -/
namespace Zen.Policy.Iter
open Zen Heap

/-! ### Association lists -/

variable {V : Type}

theorem aErase_aSet {l : List (String × V)} {k n : String} (x : V) (hk : k ≠ n) : aErase (aSet l k x) n = aSet (aErase l n) k x := by
  have hg : ∀ l : List (String × V), aGet (aErase l n) k = aGet l k := by
    intro l
    induction l with
    | nil => rfl
    | cons e l ih =>
      obtain ⟨j, v⟩ := e
      simp only [aErase]
      by_cases hj : j = n
      · subst hj; simp [aGet, Ne.symm hk]
      · simp only [if_neg hj, aGet]; rw [ih]
  have hr : ∀ l : List (String × V), aErase (aReplace l k x) n = aReplace (aErase l n) k x := by
    intro l
    induction l with
    | nil => rfl
    | cons e l ih =>
      obtain ⟨j, v⟩ := e
      by_cases hj : j = n
      · subst hj; simp [aErase, aReplace, Ne.symm hk]
      · by_cases hjk : j = k
        · subst hjk; simp [aErase, aReplace, hj]
        · simp only [aErase, aReplace, if_neg hj, if_neg hjk]; rw [ih]
  have ha : ∀ l : List (String × V), aErase (l ++ [(k, x)]) n = aErase l n ++ [(k, x)] := by
    intro l
    induction l with
    | nil => simp [aErase, hk]
    | cons e l ih =>
      obtain ⟨j, v⟩ := e
      by_cases hj : j = n
      · subst hj; simp [aErase]
      · simp only [List.cons_append, aErase, if_neg hj]; rw [ih]
  simp only [aSet, hg]
  cases aGet l k with
  | none => exact ha l
  | some y => exact hr l

theorem aGet_erase_ne {k n : String} (hk : k ≠ n) : ∀ l : List (String × V), aGet (aErase l n) k = aGet l k
  | [] => rfl
  | (j, v) :: l => by
    simp only [aErase]
    by_cases hj : j = n
    · subst hj; simp [aGet, Ne.symm hk]
    · simp only [if_neg hj, aGet]; rw [aGet_erase_ne hk l]

theorem aErase_last {n : String} (o : V) : ∀ {l : List (String × V)}, n ∉ aKeys l → aErase (l ++ [(n, o)]) n = l
  | [], _ => by simp [aErase]
  | (k, v) :: l, hn => by
    simp only [aKeys_cons, List.mem_cons, not_or] at hn
    simp only [List.cons_append, aErase, if_neg (Ne.symm hn.1)]
    rw [aErase_last o hn.2]

/-- setting all entries of a list that goes on from the keys of another gives that list -/
theorem foldl_aSet_onto : ∀ (xs pre m : List (String × V)), aKeys m <+: aKeys xs → (aKeys (pre ++ xs)).Nodup →
    xs.foldl (fun l e => aSet l e.1 e.2) (pre ++ m) = pre ++ xs
  | [], pre, m, hp, _ => by
    have : m = [] := by
      have := List.prefix_nil.1 hp
      simpa [aKeys] using this
    simp [this]
  | (k, v) :: xs, pre, m, hp, nd => by
    have hk : k ∉ aKeys pre := by
      intro hh
      rw [aKeys_append] at nd
      exact (List.nodup_append.1 nd).2.2 k hh k (by simp) rfl
    have hnone : aGet pre k = none := (aGet_eq_none_iff pre k).2 hk
    have hnd : (aKeys ((pre ++ [(k, v)]) ++ xs)).Nodup := by simpa using nd
    cases m with
    | nil =>
      simp only [List.foldl_cons, List.append_nil]
      have : aSet pre k v = (pre ++ [(k, v)]) ++ [] := by simp [aSet, hnone]
      rw [this, foldl_aSet_onto xs _ [] (List.nil_prefix) hnd]
      simp
    | cons e m =>
      obtain ⟨j, u⟩ := e
      simp only [aKeys_cons] at hp
      obtain ⟨hj, hp2⟩ := List.cons_prefix_cons.1 hp
      subst hj
      simp only [List.foldl_cons]
      have : aSet (pre ++ (j, u) :: m) j v = (pre ++ [(j, v)]) ++ m := by
        have hg : aGet (pre ++ (j, u) :: m) j = some u := by rw [aGet_append, hnone]; simp [aGet]
        simp only [aSet, hg]
        have hr : ∀ p : List (String × V), j ∉ aKeys p → aReplace (p ++ (j, u) :: m) j v = (p ++ [(j, v)]) ++ m := by
          intro p
          induction p with
          | nil => intro _; simp [aReplace]
          | cons e p ih =>
            obtain ⟨i, z⟩ := e
            intro hn
            simp only [aKeys_cons, List.mem_cons, not_or] at hn
            simp only [List.cons_append, aReplace, if_neg (Ne.symm hn.1)]
            rw [ih hn.2]
        exact hr pre hk
      rw [this, foldl_aSet_onto xs _ m hp2 hnd]
      simp

theorem aKeys_aSet_prefix (l : List (String × V)) (k : String) (x : V) : aKeys l <+: aKeys (aSet l k x) := by
  rw [aKeys_aSet]; split <;> simp

/-! ### Values that keep away from some cells -/

/-- a set of cells with all they point to -/
def Closed (h : Heap) (R : Nat → Prop) : Prop :=
  ∀ b c, R b → h[b]? = some c → ∀ x ∈ c.kids, ∀ d, x.ptr = some d → R d

/-- nothing bad is reached from the value -/
def Safe (bad : Nat → Prop) (h : Heap) (v : HVal) : Prop :=
  ∃ R : Nat → Prop, (∀ b, R b → ¬ bad b) ∧ Closed h R ∧ ∀ b, v.ptr = some b → R b

theorem safe_iff (bad : Nat → Prop) (h : Heap) (v : HVal) : Safe bad h v ↔ ∀ b, HReach h v b → ¬ bad b := by
  constructor
  · rintro ⟨R, hR, hc, hv⟩ b r
    have : R b := by
      induction r with
      | start e => exact hv _ e
      | step _ e hx hp ih => exact hc _ _ ih e _ hx _ hp
    exact hR b this
  · intro H
    exact ⟨HReach h v, H, fun b c hb e x hx d hd => .step hb e hx hd, fun b e => .start e⟩

mutual
theorem den_closed {h : Heap} : ∀ {v : HVal} {x : Val} {F : List Nat}, Den h v x F →
    Closed h (· ∈ F) ∧ ∀ b, v.ptr = some b → b ∈ F
  | _, _, _, .null => ⟨by intro b c hb; simp at hb, by simp [HVal.ptr]⟩
  | _, _, _, .bool _ => ⟨by intro b c hb; simp at hb, by simp [HVal.ptr]⟩
  | _, _, _, .num _ => ⟨by intro b c hb; simp at hb, by simp [HVal.ptr]⟩
  | _, _, _, .str _ => ⟨by intro b c hb; simp at hb, by simp [HVal.ptr]⟩
  | _, _, _, .dyn _ => ⟨by intro b c hb; simp at hb, by simp [HVal.ptr]⟩
  | _, _, _, .arr (a := a) e d => by
    obtain ⟨hc, hk⟩ := denL_closed d
    refine ⟨?_, by simp [HVal.ptr]⟩
    intro b c hb eb x hx p hp
    rcases List.mem_cons.1 hb with rfl | hb
    · rw [e] at eb; cases eb
      exact List.mem_cons_of_mem _ (hk x hx p hp)
    · exact List.mem_cons_of_mem _ (hc b c hb eb x hx p hp)
  | _, _, _, .obj (a := a) e d => by
    obtain ⟨hc, hk⟩ := denE_closed d
    refine ⟨?_, by simp [HVal.ptr]⟩
    intro b c hb eb x hx p hp
    rcases List.mem_cons.1 hb with rfl | hb
    · rw [e] at eb; cases eb
      exact List.mem_cons_of_mem _ (hk x hx p hp)
    · exact List.mem_cons_of_mem _ (hc b c hb eb x hx p hp)
theorem denL_closed {h : Heap} : ∀ {v : List HVal} {x : List Val} {F : List Nat}, DenL h v x F →
    Closed h (· ∈ F) ∧ ∀ y ∈ v, ∀ b, y.ptr = some b → b ∈ F
  | _, _, _, .nil => ⟨by intro b c hb; simp at hb, by simp⟩
  | _, _, _, .cons d ds => by
    obtain ⟨h1, h2⟩ := den_closed d
    obtain ⟨h3, h4⟩ := denL_closed ds
    refine ⟨?_, ?_⟩
    · intro b c hb eb x hx p hp
      rcases List.mem_append.1 hb with hb | hb
      · exact List.mem_append_left _ (h1 b c hb eb x hx p hp)
      · exact List.mem_append_right _ (h3 b c hb eb x hx p hp)
    · intro y hy b hb
      rcases List.mem_cons.1 hy with rfl | hy
      · exact List.mem_append_left _ (h2 b hb)
      · exact List.mem_append_right _ (h4 y hy b hb)
theorem denE_closed {h : Heap} : ∀ {v : List (String × HVal)} {x : List (String × Val)} {F : List Nat}, DenE h v x F →
    Closed h (· ∈ F) ∧ ∀ y ∈ v.map Prod.snd, ∀ b, y.ptr = some b → b ∈ F
  | _, _, _, .nil => ⟨by intro b c hb; simp at hb, by simp⟩
  | _, _, _, .cons d ds => by
    obtain ⟨h1, h2⟩ := den_closed d
    obtain ⟨h3, h4⟩ := denE_closed ds
    refine ⟨?_, ?_⟩
    · intro b c hb eb x hx p hp
      rcases List.mem_append.1 hb with hb | hb
      · exact List.mem_append_left _ (h1 b c hb eb x hx p hp)
      · exact List.mem_append_right _ (h3 b c hb eb x hx p hp)
    · intro y hy b hb
      rw [List.map_cons] at hy
      rcases List.mem_cons.1 hy with rfl | hy
      · exact List.mem_append_left _ (h2 b hb)
      · exact List.mem_append_right _ (h4 y hy b hb)
end

theorem den_safe {bad : Nat → Prop} {h : Heap} {v : HVal} {x : Val} {F : List Nat} (d : Den h v x F) (hb : ∀ b ∈ F, ¬ bad b) :
    Safe bad h v := ⟨(· ∈ F), hb, (den_closed d).1, (den_closed d).2⟩

/-! ### A write below a value that keeps away from some cells -/

theorem mem_aSet {l : List (String × V)} {k : String} {x : V} {e : String × V} (he : e ∈ aSet l k x) : e = (k, x) ∨ e ∈ l := by
  have hr : ∀ l : List (String × V), e ∈ aReplace l k x → e = (k, x) ∨ e ∈ l := by
    intro l
    induction l with
    | nil => intro h; exact absurd h (by simp [aReplace])
    | cons y l ih =>
      obtain ⟨j, v⟩ := y
      intro h
      simp only [aReplace] at h
      split at h
      · rename_i hj; subst hj
        rcases List.mem_cons.1 h with h | h
        · exact .inl h
        · exact .inr (List.mem_cons_of_mem _ h)
      · rcases List.mem_cons.1 h with h | h
        · exact .inr (by simp [h])
        · rcases ih h with h | h
          · exact .inl h
          · exact .inr (List.mem_cons_of_mem _ h)
  simp only [aSet] at he
  cases hg : aGet l k with
  | none => rw [hg] at he; rcases List.mem_append.1 he with h | h
            · exact .inr h
            · exact .inl (by simpa using h)
  | some y => rw [hg] at he; exact hr l he

theorem get_set_ne {h : Heap} {a b : Nat} {c : Cell} (hb : b ≠ a) : (h.set a c)[b]? = h[b]? := List.getElem?_set_ne (Ne.symm hb)
theorem get_set_eq {h : Heap} {a : Nat} {c : Cell} (ha : a < h.length) : (h.set a c)[a]? = some c := by simp [ha]

/-- on two heaps that differ in bad cells only, the same write below a value that does not lead to them does the same and
leaves them alone -/
theorem write_agree (bad : Nat → Prop) : ∀ (ps : List String) (k : String) (x : HVal) (h g : Heap) (y : HVal) (R : Nat → Prop),
    h.length = g.length → (∀ b, ¬ bad b → h[b]? = g[b]?) → (∀ b, bad b → b < g.length) →
    (∀ b, R b → ¬ bad b) → Closed g R → (∀ b, y.ptr = some b → R b) →
    (finish (walk h y ps) k x).1.length = (finish (walk g y ps) k x).1.length ∧
    (∀ b, ¬ bad b → (finish (walk h y ps) k x).1[b]? = (finish (walk g y ps) k x).1[b]?) ∧
    (∀ b, bad b → (finish (walk h y ps) k x).1[b]? = h[b]? ∧ (finish (walk g y ps) k x).1[b]? = g[b]?)
  | ps, k, x, h, g, y, R, hl, hag, hlt, hR, hc, hy => by
    by_cases hyo : ∃ c, y = .obj c
    · obtain ⟨c, rfl⟩ := hyo
      have hcb : ¬ bad c := hR c (hy c rfl)
      have hobj : h.objAt c = g.objAt c := by simp only [Heap.objAt, hag c hcb]
      cases hm : g.objAt c with
      | none =>
        cases ps with
        | nil => simp only [walk, finish, hobj, hm]; exact ⟨hl, hag, fun b _ => by simp⟩
        | cons p ps => simp only [walk, finish, hobj, hm]; exact ⟨hl, hag, fun b _ => by simp⟩
      | some m =>
        have hgc := of_objAt hm
        have hcl := lt_of_get hgc
        cases ps with
        | nil =>
          simp only [walk, finish, hobj, hm]
          refine ⟨by simp [hl], ?_, ?_⟩
          · intro b hb
            by_cases hbc : b = c
            · subst hbc; rw [get_set_eq (by omega), get_set_eq hcl]
            · rw [get_set_ne hbc, get_set_ne hbc, hag b hb]
          · intro b hb
            have hbc : b ≠ c := fun hh => hcb (hh ▸ hb)
            exact ⟨get_set_ne hbc, get_set_ne hbc⟩
        | cons p ps =>
          cases hp : aGet m p with
          | some z =>
            have hz : ∀ b, z.ptr = some b → R b := fun b hb =>
              hc c _ (hy c rfl) hgc z (List.mem_map.2 ⟨(p, z), aGet_mem hp, rfl⟩) b hb
            have e1 : walk h (.obj c) (p :: ps) = walk h z ps := by simp only [walk, hobj, hm, hp]
            have e2 : walk g (.obj c) (p :: ps) = walk g z ps := by simp only [walk, hm, hp]
            rw [e1, e2]
            exact write_agree bad ps k x h g z R hl hag hlt hR hc hz
          | none =>
            have e1 : walk h (.obj c) (p :: ps) = walk ((h ++ [Cell.obj []]).set c (.obj (aSet m p (.obj g.length)))) (.obj g.length) ps := by
              simp only [walk, hobj, hm, hp, Heap.newObj, hl]
            have e2 : walk g (.obj c) (p :: ps) = walk ((g ++ [Cell.obj []]).set c (.obj (aSet m p (.obj g.length)))) (.obj g.length) ps := by
              simp only [walk, hm, hp, Heap.newObj]
            rw [e1, e2]
            have key := write_agree bad ps k x ((h ++ [Cell.obj []]).set c (.obj (aSet m p (.obj g.length))))
              ((g ++ [Cell.obj []]).set c (.obj (aSet m p (.obj g.length)))) (.obj g.length) (fun b => R b ∨ b = g.length)
              (by simp [hl]) (by
                intro b hb
                by_cases hbc : b = c
                · subst hbc; rw [get_set_eq (by simp; omega), get_set_eq (by simp; omega)]
                · rw [get_set_ne hbc, get_set_ne hbc]
                  rcases Nat.lt_trichotomy b g.length with hlt' | rfl | hgt
                  · rw [List.getElem?_append_left (by omega), List.getElem?_append_left hlt', hag b hb]
                  · rw [← hl]; simp [hl]
                  · rw [List.getElem?_eq_none (by simp; omega), List.getElem?_eq_none (by simp; omega)])
              (by intro b hb; have := hlt b hb; simp; omega)
              (by rintro b (hb | rfl)
                  · exact hR b hb
                  · intro hh; exact absurd (hlt _ hh) (by omega))
              (by
                intro b cc hb eb v hv d hd
                by_cases hbc : b = c
                · subst hbc
                  rw [get_set_eq (by simp; omega)] at eb
                  cases eb
                  obtain ⟨⟨j, u⟩, hu, rfl⟩ := List.mem_map.1 hv
                  rcases mem_aSet hu with hu | hu
                  · cases hu
                    simp only [HVal.ptr, Option.some.injEq] at hd
                    exact .inr hd.symm
                  · exact .inl (hc b _ (hy b rfl) hgc u (List.mem_map.2 ⟨_, hu, rfl⟩) d hd)
                · rw [get_set_ne hbc] at eb
                  rcases hb with hb | rfl
                  · by_cases hbl : b < g.length
                    · rw [List.getElem?_append_left hbl] at eb
                      exact .inl (hc b cc hb eb v hv d hd)
                    · rcases Nat.lt_or_ge g.length b with h1 | h1
                      · rw [List.getElem?_eq_none (by simp; omega)] at eb; cases eb
                      · have : b = g.length := by omega
                        subst this
                        simp at eb
                        subst eb
                        simp [Cell.kids] at hv
                  · simp at eb
                    subst eb
                    simp [Cell.kids] at hv)
              (by intro b hb; simp only [HVal.ptr, Option.some.injEq] at hb; exact .inr hb.symm)
            obtain ⟨k1, k2, k3⟩ := key
            refine ⟨k1, k2, fun b hb => ?_⟩
            obtain ⟨k4, k5⟩ := k3 b hb
            have hbc : b ≠ c := fun hh => hcb (hh ▸ hb)
            have hbl := hlt b hb
            rw [k4, k5, get_set_ne hbc, get_set_ne hbc, List.getElem?_append_left (by omega), List.getElem?_append_left hbl]
            exact ⟨rfl, rfl⟩
    · have hys : ∀ c, y ≠ .obj c := fun c hh => hyo ⟨c, hh⟩
      rw [walk_scalar hys, walk_scalar hys]
      exact ⟨hl, hag, fun b _ => ⟨rfl, rfl⟩⟩
  termination_by ps => ps.length

end Zen.Policy.Iter
