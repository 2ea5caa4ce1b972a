import Verif.Heap.Spec
import Verif.Core.MapLemmas
import Verif.Core.ValLemmas
/- Lemmas about what stored values stand for. -/
namespace Zen
variable {h h' : Heap}

mutual
theorem den_frame : ∀ {v : HVal} {x : Val} {F : List Nat}, Den h v x F → (∀ a ∈ F, h'[a]? = h[a]?) → Den h' v x F
  | _, _, _, .null, _ => .null
  | _, _, _, .bool b, _ => .bool b
  | _, _, _, .num b, _ => .num b
  | _, _, _, .str b, _ => .str b
  | _, _, _, .dyn b, _ => .dyn b
  | _, _, _, .arr ha d, hf => .arr (by rw [hf _ (by simp), ha]) (denL_frame d fun a m => hf a (by simp [m]))
  | _, _, _, .obj ha d, hf => .obj (by rw [hf _ (by simp), ha]) (denE_frame d fun a m => hf a (by simp [m]))
theorem denL_frame : ∀ {v : List HVal} {x : List Val} {F : List Nat}, DenL h v x F → (∀ a ∈ F, h'[a]? = h[a]?) → DenL h' v x F
  | _, _, _, .nil, _ => .nil
  | _, _, _, .cons d ds, hf => .cons (den_frame d fun a m => hf a (by simp [m])) (denL_frame ds fun a m => hf a (by simp [m]))
theorem denE_frame : ∀ {v : List (String × HVal)} {x : List (String × Val)} {F : List Nat}, DenE h v x F →
    (∀ a ∈ F, h'[a]? = h[a]?) → DenE h' v x F
  | _, _, _, .nil, _ => .nil
  | _, _, _, .cons d ds, hf => .cons (den_frame d fun a m => hf a (by simp [m])) (denE_frame ds fun a m => hf a (by simp [m]))
end

theorem lt_of_get {a : Nat} {c : Cell} (e : h[a]? = some c) : a < h.length := (List.getElem?_eq_some_iff.1 e).1

mutual
theorem den_lt : ∀ {v : HVal} {x : Val} {F : List Nat}, Den h v x F → ∀ a ∈ F, a < h.length
  | _, _, _, .null, _, m => nomatch m
  | _, _, _, .bool b, _, m => nomatch m
  | _, _, _, .num b, _, m => nomatch m
  | _, _, _, .str b, _, m => nomatch m
  | _, _, _, .dyn b, _, m => nomatch m
  | _, _, _, .arr ha d, b, m => by
    rcases List.mem_cons.1 m with e | m
    · subst e; exact lt_of_get ha
    · exact denL_lt d b m
  | _, _, _, .obj ha d, b, m => by
    rcases List.mem_cons.1 m with e | m
    · subst e; exact lt_of_get ha
    · exact denE_lt d b m
theorem denL_lt : ∀ {v : List HVal} {x : List Val} {F : List Nat}, DenL h v x F → ∀ a ∈ F, a < h.length
  | _, _, _, .nil, _, m => nomatch m
  | _, _, _, .cons d ds, b, m => by
    rcases List.mem_append.1 m with m | m
    · exact den_lt d b m
    · exact denL_lt ds b m
theorem denE_lt : ∀ {v : List (String × HVal)} {x : List (String × Val)} {F : List Nat}, DenE h v x F → ∀ a ∈ F, a < h.length
  | _, _, _, .nil, _, m => nomatch m
  | _, _, _, .cons d ds, b, m => by
    rcases List.mem_append.1 m with m | m
    · exact den_lt d b m
    · exact denE_lt ds b m
end

theorem get_ext (e : h <+: h') {a : Nat} (l : a < h.length) : h'[a]? = h[a]? := by
  obtain ⟨t, rfl⟩ := e
  rw [List.getElem?_append_left l]

theorem den_ext (e : h <+: h') {v x F} (d : Den h v x F) : Den h' v x F :=
  den_frame d fun a m => get_ext e (den_lt d a m)
theorem denE_ext (e : h <+: h') {v x F} (d : DenE h v x F) : DenE h' v x F :=
  denE_frame d fun a m => get_ext e (denE_lt d a m)

mutual
theorem den_fun : ∀ {v : HVal} {x : Val} {F : List Nat} {y : Val} {G : List Nat}, Den h v x F → Den h v y G → x = y ∧ F = G
  | _, _, _, _, _, .null, .null => ⟨rfl, rfl⟩
  | _, _, _, _, _, .bool _, .bool _ => ⟨rfl, rfl⟩
  | _, _, _, _, _, .num _, .num _ => ⟨rfl, rfl⟩
  | _, _, _, _, _, .str _, .str _ => ⟨rfl, rfl⟩
  | _, _, _, _, _, .dyn _, .dyn _ => ⟨rfl, rfl⟩
  | _, _, _, _, _, .arr e d, .arr e' d' => by
    rw [e] at e'; cases e'; obtain ⟨rfl, rfl⟩ := denL_fun d d'; exact ⟨rfl, rfl⟩
  | _, _, _, _, _, .obj e d, .obj e' d' => by
    rw [e] at e'; cases e'; obtain ⟨rfl, rfl⟩ := denE_fun d d'; exact ⟨rfl, rfl⟩
theorem denL_fun : ∀ {v : List HVal} {x : List Val} {F : List Nat} {y : List Val} {G : List Nat},
    DenL h v x F → DenL h v y G → x = y ∧ F = G
  | _, _, _, _, _, .nil, .nil => ⟨rfl, rfl⟩
  | _, _, _, _, _, .cons d ds, .cons d' ds' => by
    obtain ⟨rfl, rfl⟩ := den_fun d d'; obtain ⟨rfl, rfl⟩ := denL_fun ds ds'; exact ⟨rfl, rfl⟩
theorem denE_fun : ∀ {v : List (String × HVal)} {x : List (String × Val)} {F : List Nat} {y : List (String × Val)} {G : List Nat},
    DenE h v x F → DenE h v y G → x = y ∧ F = G
  | _, _, _, _, _, .nil, .nil => ⟨rfl, rfl⟩
  | _, _, _, _, _, .cons d ds, .cons d' ds' => by
    obtain ⟨rfl, rfl⟩ := den_fun d d'; obtain ⟨rfl, rfl⟩ := denE_fun ds ds'; exact ⟨rfl, rfl⟩
end

theorem objAt_of {a : Nat} {m} (e : h[a]? = some (.obj m)) : h.objAt a = some m := by simp [Heap.objAt, e]
theorem of_objAt {a : Nat} {m} (e : h.objAt a = some m) : h[a]? = some (.obj m) := by
  unfold Heap.objAt at e; split at e <;> simp_all

/-! ### reading -/

mutual
theorem den_read : ∀ {v : HVal} {x : Val} {F : List Nat}, Den h v x F → ∃ N, ∀ n, N ≤ n → Heap.read n h v = some x
  | _, _, _, .null => ⟨1, fun n hn => by cases n <;> simp_all [Heap.read]⟩
  | _, _, _, .bool _ => ⟨1, fun n hn => by cases n <;> simp_all [Heap.read]⟩
  | _, _, _, .num _ => ⟨1, fun n hn => by cases n <;> simp_all [Heap.read]⟩
  | _, _, _, .str _ => ⟨1, fun n hn => by cases n <;> simp_all [Heap.read]⟩
  | _, _, _, .dyn _ => ⟨1, fun n hn => by cases n <;> simp_all [Heap.read]⟩
  | _, _, _, .arr e d => by
    obtain ⟨N, hN⟩ := denL_read d
    refine ⟨N + 1, fun n hn => ?_⟩
    cases n with
    | zero => omega
    | succ n => simp [Heap.read, e, hN n (by omega)]
  | _, _, _, .obj e d => by
    obtain ⟨N, hN⟩ := denE_read d
    refine ⟨N + 1, fun n hn => ?_⟩
    cases n with
    | zero => omega
    | succ n => simp [Heap.read, objAt_of e, hN n (by omega)]
theorem denL_read : ∀ {v : List HVal} {x : List Val} {F : List Nat}, DenL h v x F →
    ∃ N, ∀ n, N ≤ n → Heap.readL (Heap.read n h) v = some x
  | _, _, _, .nil => ⟨0, fun _ _ => rfl⟩
  | _, _, _, .cons d ds => by
    obtain ⟨N, hN⟩ := den_read d
    obtain ⟨M, hM⟩ := denL_read ds
    exact ⟨max N M, fun n hn => by simp [Heap.readL, hN n (by omega), hM n (by omega)]⟩
theorem denE_read : ∀ {v : List (String × HVal)} {x : List (String × Val)} {F : List Nat}, DenE h v x F →
    ∃ N, ∀ n, N ≤ n → Heap.readE (Heap.read n h) v = some x
  | _, _, _, .nil => ⟨0, fun _ _ => rfl⟩
  | _, _, _, .cons d ds => by
    obtain ⟨N, hN⟩ := den_read d
    obtain ⟨M, hM⟩ := denE_read ds
    exact ⟨max N M, fun n hn => by simp [Heap.readE, hN n (by omega), hM n (by omega)]⟩
end

theorem readL_den {f : HVal → Option Val} (hf : ∀ v x, f v = some x → ∃ F, Den h v x F) :
    ∀ (xs : List HVal) (vs : List Val), Heap.readL f xs = some vs → ∃ F, DenL h xs vs F
  | [], _, e => by simp only [Heap.readL, Option.some.injEq] at e; subst e; exact ⟨_, .nil⟩
  | x :: xs, vs, e => by
    simp only [Heap.readL] at e
    split at e
    · cases e
    · next v hv =>
      split at e
      · cases e
      · next ws hw =>
        cases e
        obtain ⟨F, d⟩ := hf _ _ hv
        obtain ⟨G, ds⟩ := readL_den hf xs ws hw
        exact ⟨_, .cons d ds⟩

theorem readE_den {f : HVal → Option Val} (hf : ∀ v x, f v = some x → ∃ F, Den h v x F) :
    ∀ (xs : List (String × HVal)) (vs : List (String × Val)), Heap.readE f xs = some vs → ∃ F, DenE h xs vs F
  | [], _, e => by simp only [Heap.readE, Option.some.injEq] at e; subst e; exact ⟨_, .nil⟩
  | (k, x) :: xs, vs, e => by
    simp only [Heap.readE] at e
    split at e
    · cases e
    · next v hv =>
      split at e
      · cases e
      · next ws hw =>
        cases e
        obtain ⟨F, d⟩ := hf _ _ hv
        obtain ⟨G, ds⟩ := readE_den hf xs ws hw
        exact ⟨_, .cons d ds⟩

theorem read_den : ∀ (n : Nat) (v : HVal) (x : Val), Heap.read n h v = some x → ∃ F, Den h v x F
  | 0, _, _, e => by simp [Heap.read] at e
  | n + 1, v, x, e => by
    cases v with
    | null => simp only [Heap.read, Option.some.injEq] at e; subst e; exact ⟨_, .null⟩
    | bool b => simp only [Heap.read, Option.some.injEq] at e; subst e; exact ⟨_, .bool b⟩
    | num b => simp only [Heap.read, Option.some.injEq] at e; subst e; exact ⟨_, .num b⟩
    | str b => simp only [Heap.read, Option.some.injEq] at e; subst e; exact ⟨_, .str b⟩
    | dyn b => simp only [Heap.read, Option.some.injEq] at e; subst e; exact ⟨_, .dyn b⟩
    | arr a =>
      simp only [Heap.read] at e
      split at e
      · next xs hx =>
        cases hr : Heap.readL (Heap.read n h) xs with
        | none => rw [hr] at e; cases e
        | some vs =>
          rw [hr] at e; cases e
          obtain ⟨F, d⟩ := readL_den (read_den n) xs vs hr
          exact ⟨_, .arr hx d⟩
      · cases e
    | obj a =>
      simp only [Heap.read] at e
      split at e
      · next xs hx =>
        cases hr : Heap.readE (Heap.read n h) xs with
        | none => rw [hr] at e; cases e
        | some vs =>
          rw [hr] at e; cases e
          obtain ⟨F, d⟩ := readE_den (read_den n) xs vs hr
          exact ⟨_, .obj (of_objAt hx) d⟩
      · cases e

/-- a holder sees `x` exactly when reading returns it -/
theorem sees_iff_read (h : Heap) (v : HVal) (x : Val) : Sees h v x ↔ ∃ n, Heap.read n h v = some x :=
  ⟨fun ⟨_, d⟩ => let ⟨N, hN⟩ := den_read d; ⟨N, hN N (Nat.le_refl _)⟩, fun ⟨n, e⟩ => read_den n v x e⟩

theorem sees_same {v w : HVal} {x y : Val} {F G} (dv : Den h v x F) (dw : Den h w y G) :
    ∃ N, ∀ n, N ≤ n → Heap.same n h v w = some (x.beq y) := by
  obtain ⟨N, hN⟩ := den_read dv
  obtain ⟨M, hM⟩ := den_read dw
  exact ⟨max N M, fun n hn => by simp [Heap.same, hN n (by omega), hM n (by omega)]⟩

/-! ### maps -/

theorem denE_keys : ∀ {m : List (String × HVal)} {vs : List (String × Val)} {F}, DenE h m vs F → aKeys m = aKeys vs
  | _, _, _, .nil => rfl
  | _, _, _, .cons _ ds => by simp [denE_keys ds]

theorem denE_get_none {m : List (String × HVal)} {vs : List (String × Val)} {F} (d : DenE h m vs F) {k : String}
    (e : aGet m k = none) : aGet vs k = none := by
  rw [aGet_eq_none_iff] at e ⊢; rwa [← denE_keys d]

/-- take one entry out -/
theorem denE_hole : ∀ {m : List (String × HVal)} {vs : List (String × Val)} {F} {k : String} {y : HVal}, DenE h m vs F →
    aGet m k = some y → ∃ x G R, aGet vs k = some x ∧ Den h y x G ∧ DenE h (aErase m k) (aErase vs k) R ∧ F.Perm (G ++ R)
  | _, _, _, k, y, .nil, e => by simp at e
  | _, _, _, k, y, .cons (k := k') (F := F) (G := G) d ds, e => by
    rw [aGet_cons] at e
    by_cases hk : k' = k
    · simp only [hk, if_true, Option.some.injEq] at e
      subst e
      exact ⟨_, _, _, by simp [aGet_cons, hk], d, by simpa [aErase, hk] using ds, List.Perm.refl _⟩
    · simp only [hk, if_false] at e
      obtain ⟨x, G', R, h1, h2, h3, h4⟩ := denE_hole ds e
      refine ⟨x, G', F ++ R, by simp [aGet_cons, hk, h1], h2, by simpa [aErase, hk] using DenE.cons d h3, ?_⟩
      exact (List.Perm.append_left F h4).trans (by
        rw [← List.append_assoc, ← List.append_assoc]
        exact List.Perm.append_right R List.perm_append_comm)

/-- put one entry back -/
theorem denE_fill : ∀ {m : List (String × HVal)} {vs : List (String × Val)} {R} {k : String} {y y' : HVal} {x' : Val} {G'},
    aKeys m = aKeys vs → DenE h (aErase m k) (aErase vs k) R → aGet m k = some y → Den h y' x' G' →
    ∃ F, DenE h (aSet m k y') (aSet vs k x') F ∧ F.Perm (G' ++ R)
  | [], _, _, k, y, _, _, _, _, _, e, _ => by simp at e
  | (k', z) :: m, [], _, k, y, _, _, _, hk, _, _, _ => by simp at hk
  | (k', z) :: m, (k'', w) :: vs, R, k, y, y', x', G', hkeys, dr, e, d => by
    simp only [aKeys_cons, List.cons.injEq] at hkeys
    obtain ⟨rfl, hkeys⟩ := hkeys
    rw [aGet_cons] at e
    by_cases hk : k' = k
    · subst hk
      simp only [aErase, if_true] at dr
      exact ⟨_, by simpa [aSet, aGet_cons, aReplace] using DenE.cons (k := k') d dr, List.Perm.refl _⟩
    · simp only [hk, if_false] at e
      simp only [aErase, hk, if_false] at dr
      cases dr with
      | cons dz dm =>
        rename_i Fz Gm
        obtain ⟨F, h1, h2⟩ := denE_fill hkeys dm e d
        obtain ⟨w', e'⟩ : ∃ w', aGet vs k = some w' := Option.isSome_iff_exists.1 (by
          rw [aGet_isSome_iff, ← hkeys, ← aGet_isSome_iff, e]; rfl)
        refine ⟨Fz ++ F, ?_, ?_⟩
        · have := DenE.cons (k := k') dz h1
          simp only [aSet, e, e'] at this
          simpa [aSet, aGet_cons, hk, e, e', aReplace] using this
        · exact (List.Perm.append_left Fz h2).trans (by
            rw [← List.append_assoc, ← List.append_assoc]
            exact List.Perm.append_right Gm List.perm_append_comm)

theorem denE_append : ∀ {m : List (String × HVal)} {vs : List (String × Val)} {F k y x G}, DenE h m vs F → Den h y x G →
    DenE h (m ++ [(k, y)]) (vs ++ [(k, x)]) (F ++ G)
  | _, _, _, _, _, _, _, .nil, d => by simpa using DenE.cons d DenE.nil
  | _, _, _, _, _, _, _, .cons d ds, d' => by
    rw [List.append_assoc]
    exact DenE.cons d (denE_append ds d')

theorem denE_set_fresh {m : List (String × HVal)} {vs : List (String × Val)} {F k y x G} (d : DenE h m vs F) (e : aGet m k = none)
    (dy : Den h y x G) : DenE h (aSet m k y) (aSet vs k x) (F ++ G) := by
  have e' := denE_get_none d e
  simpa [aSet, e, e'] using denE_append (k := k) d dy

end Zen
