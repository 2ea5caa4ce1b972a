import Verif.Workspace.Policies
/-
What the analysis of a graph is, told without caches: `Ana docs φ D F n path a` says that `a` is the analysis of the
graph at `path`, when the documents are `docs` and functions have the types `φ`, that decisions are nested at most
`n` deep, and that nothing was read but the documents at the paths in `D` and the types of functions in `F`.
-/
namespace Zen.Ws
open Zen Zen.Policy

variable {L : Lang}

/-! ## Dictionaries -/

/-- `graph_dictionary_blocks`, without a bound: from a queue, the paths visited and the dictionaries found, the
paths visited in the end and all dictionaries found -/
inductive DictRun (parsed : List (String × L.Parsed)) : List String → List String → List (String × L.Dict) →
    List String → List (String × L.Dict) → Prop
  | nil {v o} : DictRun parsed [] v o v o
  | seen {p q v o v' o'} : p ∈ v → DictRun parsed q v o v' o' → DictRun parsed (p :: q) v o v' o'
  | miss {p q v o v' o'} : p ∉ v → get parsed p = none → DictRun parsed q (p :: v) o v' o' → DictRun parsed (p :: q) v o v' o'
  | found {p q v o v' o' x} : p ∉ v → get parsed p = some x →
    DictRun parsed (q ++ L.imports x) (p :: v) ((L.dicts x).foldl addDict o) v' o' → DictRun parsed (p :: q) v o v' o'

theorem DictRun.det {parsed : List (String × L.Parsed)} {q v o v' o' v'' o''} (h : DictRun parsed q v o v' o')
    (k : DictRun parsed q v o v'' o'') : v' = v'' ∧ o' = o'' := by
  induction h with
  | nil => cases k; exact ⟨rfl, rfl⟩
  | seen h1 _ ih =>
    cases k with
    | seen _ h => exact ih h
    | miss h _ _ => exact absurd h1 h
    | found h _ _ => exact absurd h1 h
  | miss h1 h2 _ ih =>
    cases k with
    | seen h _ => exact absurd h h1
    | miss _ _ h => exact ih h
    | found _ h _ => rw [h2] at h; cases h
  | found h1 h2 _ ih =>
    cases k with
    | seen h _ => exact absurd h h1
    | miss _ h _ => rw [h2] at h; cases h
    | found _ h h' =>
      rw [h2] at h
      injection h with h
      subst h
      exact ih h'

theorem DictRun.sub {parsed : List (String × L.Parsed)} {q v o v' o'} (h : DictRun parsed q v o v' o') :
    (∀ x ∈ v, x ∈ v') ∧ ∀ x ∈ q, x ∈ v' := by
  induction h with
  | nil => exact ⟨fun _ h => h, fun _ h => by cases h⟩
  | seen h1 _ ih =>
    refine ⟨ih.1, fun x hx => ?_⟩
    rcases List.mem_cons.1 hx with rfl | hx
    · exact ih.1 _ h1
    · exact ih.2 x hx
  | miss h1 h2 _ ih =>
    refine ⟨fun x hx => ih.1 x (by simp [hx]), fun x hx => ?_⟩
    rcases List.mem_cons.1 hx with rfl | hx
    · exact ih.1 _ (by simp)
    · exact ih.2 x hx
  | found h1 h2 _ ih =>
    refine ⟨fun x hx => ih.1 x (by simp [hx]), fun x hx => ?_⟩
    rcases List.mem_cons.1 hx with rfl | hx
    · exact ih.1 _ (by simp)
    · exact ih.2 x (by simp [hx])

theorem DictRun.congr {a b : List (String × L.Parsed)} {q v o v' o'} (h : DictRun a q v o v' o')
    (hab : ∀ x ∈ v', get a x = get b x) : DictRun b q v o v' o' := by
  induction h with
  | nil => exact .nil
  | seen h1 _ ih => exact .seen h1 (ih hab)
  | miss h1 h2 h3 ih => exact .miss h1 (by rw [← hab _ (h3.sub.1 _ (by simp))]; exact h2) (ih hab)
  | found h1 h2 h3 ih => exact .found h1 (by rw [← hab _ (h3.sub.1 _ (by simp))]; exact h2) (ih hab)

/-- the imports of what is not visited -/
def dictLeft (parsed : List (String × L.Parsed)) (v : List String) : Nat :=
  (parsed.map fun e => if e.1 ∈ v then 0 else (L.imports e.2).length).sum

theorem dictLeft_mono (p : String) (v : List String) : ∀ (l : List (String × L.Parsed)), dictLeft l (p :: v) ≤ dictLeft l v
  | [] => Nat.le_refl _
  | e :: l => by
    have := dictLeft_mono p v l
    unfold dictLeft at this ⊢
    simp only [List.mem_cons] at this
    simp only [List.map_cons, List.sum_cons, List.mem_cons]
    by_cases h1 : e.1 ∈ v
    · simp only [h1, or_true, if_true]; omega
    · by_cases h2 : e.1 = p
      · simp only [h2, true_or, if_true]; omega
      · simp only [h1, h2, or_self, if_false]; omega

theorem dictLeft_visit {p : String} {v : List String} {x : L.Parsed} (hv : p ∉ v) : ∀ {l : List (String × L.Parsed)}, (p, x) ∈ l →
    dictLeft l (p :: v) + (L.imports x).length ≤ dictLeft l v
  | e :: l, h => by
    have hm := dictLeft_mono p v l
    unfold dictLeft at hm ⊢
    simp only [List.map_cons, List.sum_cons]
    rcases List.mem_cons.1 h with rfl | h
    · simp only [List.mem_cons, true_or, if_true, if_neg hv]
      simp only [List.mem_cons] at hm
      omega
    · have ih := dictLeft_visit hv h
      unfold dictLeft at ih
      by_cases h1 : e.1 ∈ v
      · have h2 : e.1 ∈ p :: v := by simp [h1]
        rw [if_pos h1, if_pos h2]; omega
      · rw [if_neg h1]
        split <;> omega

theorem dictLoop_run (parsed : List (String × L.Parsed)) : ∀ (n : Nat) (q v : List String) (o : List (String × L.Dict)),
    q.length + dictLeft parsed v < n → DictRun parsed q v o (dictLoop parsed n q v o).1 (dictLoop parsed n q v o).2
  | 0, _, _, _, h => by omega
  | n + 1, [], v, o, _ => .nil
  | n + 1, p :: q, v, o, h => by
    rw [List.length_cons] at h
    unfold dictLoop
    by_cases hv : p ∈ v
    · rw [if_pos hv]
      exact .seen hv (dictLoop_run parsed n q v o (by omega))
    · rw [if_neg hv]
      cases hg : get parsed p with
      | none => exact .miss hv hg (dictLoop_run parsed n q (p :: v) o (by have := dictLeft_mono p v parsed; omega))
      | some x =>
        refine .found hv hg (dictLoop_run parsed n _ (p :: v) _ ?_)
        have := dictLeft_visit hv (get_mem hg)
        rw [List.length_append]
        omega

theorem dictLoop_ok (parsed : List (String × L.Parsed)) (imports : List String) :
    DictRun parsed imports [] [] (dictLoop parsed (dictFuel parsed imports) imports [] []).1
      (dictLoop parsed (dictFuel parsed imports) imports [] []).2 := by
  refine dictLoop_run parsed _ _ _ _ ?_
  unfold dictFuel dictLeft
  simp

/-! ## Analyses -/

/-- policy, graph or missing -/
def kindAt (docs : List (String × Ptr (Content L))) (path : String) : Option Bool :=
  (docAt docs path).map fun d => d.pol.isSome

/-- what a program ends with -/
inductive Runs (docs : List (String × Ptr (Content L))) (φ : L.Source → L.Ty → Option L.Fn) (A : String → L.Ana → Prop)
    (D : String → Prop) (F : L.Key → Prop) : Prog L.Sig L.Source L.Ty L.Fn L.Ana → L.Ana → Prop
  | ret {a} : Runs docs φ A D F (.ret a) a
  | graph {key k b a} : D key → (get (graphsOf docs) key).isSome → A key b → Runs docs φ A D F (k (.found (L.anaSig b))) a →
    Runs docs φ A D F (.sig key k) a
  | policy {key k a} : D key → get (graphsOf docs) key = none → (get (parsedSpec docs) key).isSome →
    (∀ m ∈ membersSpec docs key, D m) → Runs docs φ A D F (k (.found (sigSpec docs key))) a → Runs docs φ A D F (.sig key k) a
  | missing {key k a} : D key → get (graphsOf docs) key = none → get (parsedSpec docs) key = none →
    Runs docs φ A D F (k .missing) a → Runs docs φ A D F (.sig key k) a
  | fn {s t k a} : F (L.fkey s t) → Runs docs φ A D F (k (φ s t)) a → Runs docs φ A D F (.fn s t k) a

/-- the analysis of a graph -/
def Ana (docs : List (String × Ptr (Content L))) (φ : L.Source → L.Ty → Option L.Fn) (D : String → Prop) (F : L.Key → Prop) :
    Nat → String → L.Ana → Prop
  | 0, _, _ => False
  | n + 1, path, a => D path ∧ ∃ g, get (graphsOf docs) path = some g ∧ ∃ vs ds, DictRun (parsedSpec docs) (L.gimports g) [] [] vs ds ∧
    (∀ v ∈ vs, D v) ∧
    Runs docs φ (Ana docs φ D F n) D F (L.prog path g ds ((L.gimports g).map fun i => (i, kindAt docs i))) a

theorem Runs.imp {docs : List (String × Ptr (Content L))} {φ : L.Source → L.Ty → Option L.Fn} {A A' : String → L.Ana → Prop}
    {D D' : String → Prop} {F F' : L.Key → Prop} (hA : ∀ p a, A p a → A' p a) (hD : ∀ x, D x → D' x) (hF : ∀ x, F x → F' x)
    {P : Prog L.Sig L.Source L.Ty L.Fn L.Ana} {a : L.Ana} (h : Runs docs φ A D F P a) : Runs docs φ A' D' F' P a := by
  induction h with
  | ret => exact .ret
  | graph h1 h2 h3 _ ih => exact .graph (hD _ h1) h2 (hA _ _ h3) ih
  | policy h1 h2 h3 h4 _ ih => exact .policy (hD _ h1) h2 h3 (fun m hm => hD _ (h4 m hm)) ih
  | missing h1 h2 h3 _ ih => exact .missing (hD _ h1) h2 h3 ih
  | fn h1 _ ih => exact .fn (hF _ h1) ih

theorem Ana.imp {docs : List (String × Ptr (Content L))} {φ : L.Source → L.Ty → Option L.Fn} {D D' : String → Prop}
    {F F' : L.Key → Prop} (hD : ∀ x, D x → D' x) (hF : ∀ x, F x → F' x) : ∀ (n m : Nat), n ≤ m → ∀ (p : String) (a : L.Ana),
    Ana docs φ D F n p a → Ana docs φ D' F' m p a
  | n + 1, m + 1, hnm, p, a, h => by
    obtain ⟨h1, g, h2, vs, ds, h3, h4, h5⟩ := h
    exact ⟨hD _ h1, g, h2, vs, ds, h3, fun v hv => hD _ (h4 v hv),
      h5.imp (fun p a h => Ana.imp hD hF n m (by omega) p a h) hD hF⟩

theorem Ana.mono {docs : List (String × Ptr (Content L))} {φ : L.Source → L.Ty → Option L.Fn} {D D' : String → Prop}
    {F F' : L.Key → Prop} {n m : Nat} {p : String} {a : L.Ana} (h : Ana docs φ D F n p a) (hD : ∀ x, D x → D' x)
    (hF : ∀ x, F x → F' x) (hnm : n ≤ m) : Ana docs φ D' F' m p a := Ana.imp hD hF n m hnm p a h

theorem Runs.det {docs : List (String × Ptr (Content L))} {φ : L.Source → L.Ty → Option L.Fn} {A A' : String → L.Ana → Prop}
    {D D' : String → Prop} {F F' : L.Key → Prop} (hA : ∀ p a a', A p a → A' p a' → a = a')
    {P : Prog L.Sig L.Source L.Ty L.Fn L.Ana} {a a' : L.Ana} (h : Runs docs φ A D F P a) (k : Runs docs φ A' D' F' P a') : a = a' := by
  induction h with
  | ret => cases k; rfl
  | graph h1 h2 h3 _ ih =>
    cases k with
    | graph _ _ k3 k4 => cases hA _ _ _ h3 k3; exact ih k4
    | policy _ k2 _ _ _ => rw [k2] at h2; cases h2
    | missing _ k2 _ _ => rw [k2] at h2; cases h2
  | policy h1 h2 h3 h4 _ ih =>
    cases k with
    | graph _ k2 _ _ => rw [h2] at k2; cases k2
    | policy _ _ _ _ k5 => exact ih k5
    | missing _ _ k3 _ => rw [k3] at h3; cases h3
  | missing h1 h2 h3 _ ih =>
    cases k with
    | graph _ k2 _ _ => rw [h2] at k2; cases k2
    | policy _ _ k3 _ _ => rw [h3] at k3; cases k3
    | missing _ _ _ k4 => exact ih k4
  | fn h1 _ ih =>
    cases k with
    | fn _ k2 => exact ih k2

/-- a graph has one analysis -/
theorem Ana.det {docs : List (String × Ptr (Content L))} {φ : L.Source → L.Ty → Option L.Fn} {D D' : String → Prop}
    {F F' : L.Key → Prop} : ∀ (n m : Nat) (p : String) (a a' : L.Ana), Ana docs φ D F n p a → Ana docs φ D' F' m p a' → a = a'
  | n + 1, m + 1, p, a, a', h, k => by
    obtain ⟨_, g, h2, vs, ds, h3, _, h5⟩ := h
    obtain ⟨_, g', k2, vs', ds', k3, _, k5⟩ := k
    rw [h2] at k2
    injection k2 with k2
    subst k2
    obtain ⟨rfl, rfl⟩ := h3.det k3
    exact h5.det (fun p a a' h h' => Ana.det n m p a a' h h') k5

/-! ## Components -/

theorem mem_membersSpec {docs : List (String × Ptr (Content L))} {p m : String} :
    m ∈ membersSpec docs p ↔ (get (parsedSpec docs) p).isSome ∧ Connected (importsSpec docs) p m := by
  obtain ⟨fuel, hf⟩ := components_some (importsSpec docs)
  have hkeys : (importsSpec docs).map Prod.fst = (parsedSpec docs).map Prod.fst := by
    simp [importsSpec, List.map_map, Function.comp_def]
  unfold membersSpec
  rw [get_eq_aGet, get_isSome, ← hkeys]
  cases hi : aGet (componentIndex (compsSpec docs) 0 []) p with
  | none =>
    dsimp only
    refine ⟨(fun h => by cases h), fun ⟨h1, h2⟩ => ?_⟩
    obtain ⟨c, hc, hp⟩ := ((C45_partition hf).1 p).1 h1
    obtain ⟨j, hj⟩ := List.mem_iff_getElem?.1 hc
    have := (C45_index hf p j).2 ⟨c, hj, hp⟩
    unfold compsSpec at hi
    rw [hi] at this
    cases this
  | some i =>
    dsimp only
    obtain ⟨c, hc, hp⟩ := (C45_index hf p i).1 hi
    have hcm : c ∈ compsSpec docs := List.mem_of_getElem? hc
    have hpm : p ∈ (importsSpec docs).map Prod.fst := ((C45_partition hf).1 p).2 ⟨c, hcm, hp⟩
    have hgd : (compsSpec docs).getD i [] = c := by
      unfold compsSpec
      rw [List.getD_eq_getElem?_getD, hc]; rfl
    rw [hgd, ← C45_connected hf hpm]
    refine ⟨fun h => ⟨hpm, c, hcm, hp, h⟩, ?_⟩
    rintro ⟨_, c', hc', hp', hm'⟩
    obtain ⟨j, hj⟩ := List.mem_iff_getElem?.1 hc'
    have := (C45_index hf p j).2 ⟨c', hj, hp'⟩
    unfold compsSpec at hi
    rw [hi] at this
    injection this with this
    subst this
    rw [hc] at hj
    injection hj with hj
    subst hj
    exact hm'

theorem membersSpec_sorted (docs : List (String × Ptr (Content L))) (p : String) :
    (membersSpec docs p).Pairwise (· ≤ ·) ∧ (membersSpec docs p).Nodup := by
  obtain ⟨fuel, hf⟩ := components_some (importsSpec docs)
  unfold membersSpec
  split
  · rename_i i _
    rw [List.getD_eq_getElem?_getD]
    cases h : (compsSpec docs)[i]? with
    | none => exact ⟨.nil, .nil⟩
    | some c =>
      have hc : c ∈ compsSpec docs := List.mem_of_getElem? h
      exact ⟨((C45_partition hf).2.2 c hc).2, (List.nodup_flatten.1 (C45_partition hf).2.1).1 c hc⟩
  · exact ⟨.nil, .nil⟩

/-- Members are given by being connected. -/
theorem membersSpec_ext {a b : List (String × Ptr (Content L))} {p : String} (h : ∀ m, m ∈ membersSpec a p ↔ m ∈ membersSpec b p) :
    membersSpec a p = membersSpec b p := by
  obtain ⟨a1, a2⟩ := membersSpec_sorted a p
  obtain ⟨b1, b2⟩ := membersSpec_sorted b p
  exact List.Perm.eq_of_pairwise (fun _ _ _ _ => le_antisymm) a1 b1 ((List.perm_ext_iff_of_nodup a2 b2).2 h)

/-- From one state of the documents to a later one: a policy whose whole component is as it was is in the same
component still. -/
def SteadyTo (a b : List (String × Ptr (Content L))) : Prop :=
  ∀ p, (get (parsedSpec a) p).isSome → (∀ m, Connected (importsSpec a) p m → docAt b m = docAt a m) →
    ∀ m, Connected (importsSpec b) p m ↔ Connected (importsSpec a) p m

/-- An analysis holds as long as what it was made from stays. -/
theorem Runs.transfer {a b : List (String × Ptr (Content L))} (ha : Sorted a) (hb : Sorted b) (hs : SteadyTo a b)
    {φ ψ : L.Source → L.Ty → Option L.Fn} {A A' : String → L.Ana → Prop} {D : String → Prop} {F : L.Key → Prop}
    (hA : ∀ p x, A p x → A' p x) (hD : ∀ p, D p → docAt b p = docAt a p) (hF : ∀ s t, F (L.fkey s t) → ψ s t = φ s t)
    {P : Prog L.Sig L.Source L.Ty L.Fn L.Ana} {x : L.Ana} (h : Runs a φ A D F P x) : Runs b ψ A' D F P x := by
  induction h with
  | ret => exact .ret
  | graph h1 h2 h3 _ ih =>
    exact .graph h1 (by rw [get_graphsOf hb, hD _ h1, ← get_graphsOf ha]; exact h2) (hA _ _ h3) ih
  | @policy key k x h1 h2 h3 h4 _ ih =>
    have hp : (get (parsedSpec b) key).isSome := by rw [get_parsedSpec hb, hD _ h1, ← get_parsedSpec ha]; exact h3
    have hc := hs key h3 fun m hm => hD m (h4 m (mem_membersSpec.2 ⟨h3, hm⟩))
    have hm : membersSpec b key = membersSpec a key := by
      refine membersSpec_ext fun m => ?_
      rw [mem_membersSpec, mem_membersSpec, hc m]
      exact ⟨fun h => ⟨h3, h.2⟩, fun h => ⟨hp, h.2⟩⟩
    have hr : restrict (membersSpec a key) (parsedSpec b) = restrict (membersSpec a key) (parsedSpec a) := by
      unfold restrict
      refine List.filterMap_congr fun m hmm => ?_
      rw [get_parsedSpec hb, hD m (h4 m hmm), ← get_parsedSpec ha]
    have hsig : sigSpec b key = sigSpec a key := by
      unfold sigSpec unitSpec enrichSpec
      rw [hm, hr]
    exact .policy h1 (by rw [get_graphsOf hb, hD _ h1, ← get_graphsOf ha]; exact h2) hp (by rw [hm]; exact h4) (by rw [hsig]; exact ih)
  | missing h1 h2 h3 _ ih =>
    exact .missing h1 (by rw [get_graphsOf hb, hD _ h1, ← get_graphsOf ha]; exact h2)
      (by rw [get_parsedSpec hb, hD _ h1, ← get_parsedSpec ha]; exact h3) ih
  | fn h1 _ ih => exact .fn h1 (by rw [hF _ _ h1]; exact ih)

theorem Ana.transfer_ {a b : List (String × Ptr (Content L))} (ha : Sorted a) (hb : Sorted b) (hs : SteadyTo a b)
    {φ ψ : L.Source → L.Ty → Option L.Fn} {D : String → Prop} {F : L.Key → Prop}
    (hD : ∀ p, D p → docAt b p = docAt a p) (hF : ∀ s t, F (L.fkey s t) → ψ s t = φ s t) :
    ∀ (n : Nat) (p : String) (x : L.Ana), Ana a φ D F n p x → Ana b ψ D F n p x
  | n + 1, p, x, h => by
    obtain ⟨h1, g, h2, vs, ds, h3, h4, h5⟩ := h
    refine ⟨h1, g, by rw [get_graphsOf hb, hD _ h1, ← get_graphsOf ha]; exact h2, vs, ds,
      h3.congr fun v hv => by rw [get_parsedSpec hb, hD _ (h4 v hv), ← get_parsedSpec ha], h4, ?_⟩
    have hk : ((L.gimports g).map fun i => (i, kindAt b i)) = (L.gimports g).map fun i => (i, kindAt a i) := by
      refine List.map_congr_left fun i hi => ?_
      unfold kindAt
      rw [hD i (h4 i (h3.sub.2 i hi))]
    rw [hk]
    exact h5.transfer ha hb hs (fun p x h => Ana.transfer_ ha hb hs hD hF n p x h) hD hF

theorem Ana.transfer {a b : List (String × Ptr (Content L))} {φ ψ : L.Source → L.Ty → Option L.Fn} {D : String → Prop}
    {F : L.Key → Prop} {n : Nat} {p : String} {x : L.Ana} (h : Ana a φ D F n p x) (ha : Sorted a) (hb : Sorted b) (hs : SteadyTo a b)
    (hD : ∀ p, D p → docAt b p = docAt a p) (hF : ∀ s t, F (L.fkey s t) → ψ s t = φ s t) : Ana b ψ D F n p x :=
  Ana.transfer_ ha hb hs hD hF n p x h

end Zen.Ws
