import Verif.Policy.Skeleton
import Verif.Props.C39
namespace Zen.Policy
open Zen

/-! ## Maps -/

theorem entry_aSet {V : Type} {m : List (String × V)} {k : String} {x : V} {e : String × V} (h : e ∈ aSet m k x) : e = (k, x) ∨ e ∈ m := by
  have hr : ∀ m : List (String × V), e ∈ aReplace m k x → e = (k, x) ∨ e ∈ m := by
    intro m
    induction m with
    | nil => intro h; cases h
    | cons y m ih =>
      intro h
      rw [aReplace] at h
      by_cases hy : y.1 = k
      · rw [if_pos hy] at h
        rcases List.mem_cons.1 h with h | h
        · exact .inl (by rw [h, hy])
        · exact .inr (List.mem_cons_of_mem _ h)
      · rw [if_neg hy] at h
        rcases List.mem_cons.1 h with h | h
        · exact .inr (by rw [h]; exact List.mem_cons_self ..)
        · rcases ih h with h | h
          · exact .inl h
          · exact .inr (List.mem_cons_of_mem _ h)
  unfold aSet at h
  split at h
  · exact hr m h
  · rcases List.mem_append.1 h with h | h
    · exact .inr h
    · exact .inl (List.mem_singleton.1 h)

theorem mem_ofEntries {V : Type} {l : List (String × V)} {e : String × V} (h : e ∈ ofEntries l) : e ∈ l := by
  have : ∀ (l acc : List (String × V)), e ∈ l.foldl (fun acc e => aSet acc e.1 e.2) acc → e ∈ acc ∨ e ∈ l := by
    intro l
    induction l with
    | nil => intro acc h; exact .inl h
    | cons y l ih =>
      intro acc h
      rcases ih _ h with h | h
      · rcases entry_aSet h with h | h
        · exact .inr (by rw [h]; exact List.mem_cons_self ..)
        · exact .inl h
      · exact .inr (List.mem_cons_of_mem _ h)
  rcases this l [] h with h | h
  · cases h
  · exact h

theorem aGet_ofEntries {V : Type} {l : List (String × V)} {k : String} {v : V} (h : (k, v) ∈ l) (hd : ∀ e ∈ l, e.1 = k → e.2 = v) :
    aGet (ofEntries l) k = some v := by
  have : ∀ (l acc : List (String × V)), (∀ e ∈ l, e.1 = k → e.2 = v) → (aGet acc k = some v ∨ (k, v) ∈ l) →
      aGet (l.foldl (fun acc e => aSet acc e.1 e.2) acc) k = some v := by
    intro l
    induction l with
    | nil =>
      intro acc _ h
      rcases h with h | h
      · exact h
      · cases h
    | cons y l ih =>
      intro acc hd h
      refine ih _ (fun e he => hd e (List.mem_cons_of_mem _ he)) ?_
      by_cases hy : y.1 = k
      · refine .inl ?_
        rw [aGet_aSet, if_pos hy.symm, hd y (List.mem_cons_self ..) hy]
      · rcases h with h | h
        · refine .inl ?_
          rw [aGet_aSet, if_neg (fun e => hy e.symm), h]
        · rcases List.mem_cons.1 h with h | h
          · exact absurd (by rw [← h]) hy
          · exact .inr h
  exact this l [] hd (.inr h)

theorem defaultFields_eq (o : List (String × VT)) : defaultFields o = o.map fun e => (e.1, defaultFor e.2) := by
  induction o with
  | nil => rfl
  | cons e o ih => obtain ⟨k, t⟩ := e; rw [defaultFields, ih]; rfl

/-! ## Defaults are valid -/

section
variable {S : InSchema} {pools : Pools}

/-- nothing is wrong with the value at a place of this kind: it is null or passes -/
def Fine (check : Val → String → List InErr) (v : Val) : Prop := v.isNull = true ∨ ∀ path, check v path = []

theorem fine_enum {vs : List String} {name : Option String} : Fine (fun v path => validateEnum v vs path) (defaultFor (.enum name vs)) := by
  cases vs with
  | nil => exact .inl rfl
  | cons v vs => exact .inr fun path => by simp [defaultFor, validateEnum]

theorem fine_kind {p : PProp} (hp : ∀ t, p.kind = .reference t → poolContains pools t "" = true) {obj : String → VT}
    {ent : Val → String → String → List InErr} (hobj : ∀ t, Fine (fun v path => ent v t path) (defaultFor (obj t))) (a : p.array = false) :
    Fine (fun v path => validateKind S pools ent v p.kind path) (defaultFor (wireProp S.entities S.dicts obj p)) := by
  unfold wireProp
  rw [a, if_neg Bool.false_ne_true]
  unfold validateKind
  cases hk : p.kind with
  | string => exact .inr fun _ => rfl
  | enum vs => exact fine_enum
  | number => exact .inr fun _ => rfl
  | boolean => exact .inr fun _ => rfl
  | date => exact .inr fun _ => rfl
  | reference t => exact .inr fun path => by simp [defaultFor, validateReference, hp t hk]
  | relationship t =>
    dsimp only
    cases aGet S.entities t with
    | none =>
      cases aGet S.dicts t with
      | none => exact hobj t
      | some vs => exact fine_enum
    | some props => exact hobj t

theorem fine_prop {p : PProp} (hp : ∀ t, p.kind = .reference t → poolContains pools t "" = true) {obj : String → VT}
    {ent : Val → String → String → List InErr} (hobj : ∀ t, Fine (fun v path => ent v t path) (defaultFor (obj t))) :
    Fine (fun v path => validateProp S pools ent v p path) (defaultFor (wireProp S.entities S.dicts obj p)) := by
  cases ha : p.array with
  | false =>
    have := fine_kind (S := S) hp hobj ha
    unfold validateProp
    rw [ha]
    exact this
  | true =>
    have h := fine_kind (S := S) (p := { p with array := false }) hp hobj rfl
    have e : wireProp S.entities S.dicts obj p = .arr (wireProp S.entities S.dicts obj { p with array := false }) := by
      unfold wireProp; rw [ha]; rfl
    refine .inr fun path => ?_
    unfold validateProp
    rw [ha, e, defaultFor]
    simp only [if_true, validateItems, List.append_nil]
    split
    · rfl
    · rename_i hn
      rcases h with h | h
      · exact absurd h hn
      · exact h _

/-- how many entities are not visited -/
def remaining (E : List (String × List PProp)) (V : List String) : Nat := (E.filter fun e => !V.contains e.1).length

theorem remaining_lt {E : List (String × List PProp)} {V : List String} {t : String} {props : List PProp} (h : (t, props) ∈ E) (ht : t ∉ V) :
    remaining E (t :: V) < remaining E V := by
  unfold remaining
  have hle : ∀ E : List (String × List PProp), (E.filter fun e => !(t :: V).contains e.1).length ≤ (E.filter fun e => !V.contains e.1).length := by
    intro E
    induction E with
    | nil => exact Nat.le_refl _
    | cons e E ih =>
      simp only [List.filter_cons]
      by_cases h1 : e.1 ∈ V
      · simp [h1]
        simpa using ih
      · by_cases h2 : e.1 = t
        · subst h2
          simp [h1]
          exact Nat.le_succ_of_le (by simpa using ih)
        · simp [h1, h2]
          simpa using ih
  induction E with
  | nil => cases h
  | cons e E ih =>
    rcases List.mem_cons.1 h with h | h
    · subst h
      have := hle E
      simp only [List.filter_cons]
      simp [ht] at this ⊢
      omega
    · have := ih h
      simp only [List.filter_cons]
      by_cases h1 : e.1 ∈ V
      · simpa [h1] using this
      · by_cases h2 : e.1 = t
        · subst h2
          simp [h1] at this ⊢
          omega
        · simpa [h1, h2] using this

theorem fine_obj (hn : ∀ t props, aGet S.entities t = some props → (props.map PProp.name).Nodup)
    (hp : ∀ t props, aGet S.entities t = some props → ∀ p ∈ props, ∀ u, p.kind = .reference u → poolContains pools u "" = true) :
    ∀ (fuel n : Nat) (V : List String) (t : String), remaining S.entities V < n → remaining S.entities V < fuel →
      Fine (fun v path => validateEntity S pools n v t path) (defaultFor (wireObj S.entities S.dicts fuel V t))
  | 0, _, _, _, _, h => absurd h (Nat.not_lt_zero _)
  | fuel + 1, 0, _, _, h, _ => absurd h (Nat.not_lt_zero _)
  | fuel + 1, n + 1, V, t, h1, h2 => by
    unfold wireObj
    split
    · exact .inl rfl
    · rename_i hv
      have hv : t ∉ V := by simpa using hv
      cases he : aGet S.entities t with
      | none =>
        refine .inr fun path => ?_
        simp only [defaultFor, defaultFields]
        rw [validateEntity, he]
      | some props =>
        refine .inr fun path => ?_
        have hlt := remaining_lt (aGet_mem he) hv
        simp only [defaultFor, defaultFields_eq]
        rw [validateEntity, he]
        dsimp only
        have hall : ∀ e ∈ ofEntries (props.map fun p => (p.name, wireProp S.entities S.dicts (wireObj S.entities S.dicts fuel (t :: V)) p)),
            validateEntry (validateProp S pools (validateEntity S pools n)) props path e.1 (defaultFor e.2) = [] := by
          intro e hm
          obtain ⟨p, hpm, rfl⟩ := List.mem_map.1 (mem_ofEntries hm)
          have hf := fine_prop (S := S) (pools := pools) (p := p) (hp t props he p hpm)
            (obj := wireObj S.entities S.dicts fuel (t :: V)) (ent := validateEntity S pools n)
            (fun u => fine_obj hn hp fuel n (t :: V) u (by omega) (by omega))
          unfold validateEntry
          have hfind : props.find? (fun q => q.name == p.name) = some p := by
            have hnd := hn t props he
            clear hlt he hm hf
            induction props with
            | nil => cases hpm
            | cons q props ih =>
              rw [List.map_cons, List.nodup_cons] at hnd
              rw [List.find?_cons]
              rcases List.mem_cons.1 hpm with rfl | hpm
              · simp
              · have : q.name ≠ p.name := fun e => hnd.1 (by rw [e]; exact List.mem_map_of_mem hpm)
                have hb : (q.name == p.name) = false := by simpa using this
                rw [hb]
                exact ih hpm hnd.2
          rcases hf with hf | hf
          · rw [if_pos hf]
          · split
            · rfl
            · rw [hfind]
              exact hf _
        generalize ofEntries _ = l at hall
        induction l with
        | nil => rfl
        | cons e l ih =>
          rw [List.map_cons, validateEntries, hall e (List.mem_cons_self ..), ih fun e he => hall e (List.mem_cons_of_mem _ he)]
          rfl

end

end Zen.Policy
