import Verif.Workspace.History
import Verif.Workspace.Toy
/-
C56: the dictionaries a graph can use. They are those of the policies it imports, directly or through imports of
imports; when several of these define the same name, one with the fewest steps from the graph counts, and within a
policy the first. Circles among the imports and imports that do not exist do no harm.
-/
namespace Zen.Ws
open Zen Zen.Policy

variable {L : Lang}

/-! ### What it means -/

/-- the policy a history leaves at a path -/
def policyIn (ops : List (Op L)) (path : String) : Option L.Parsed := ((finalDoc ops path).bind Doc.pol).map (L.parse path)

/-- `Steps pol imports k p`: `p` is reached from `imports` by following the imports of `k` policies -/
inductive Steps (pol : String → Option L.Parsed) (imports : List String) : Nat → String → Prop
  | direct {p} : p ∈ imports → Steps pol imports 0 p
  | next {k p q x} : Steps pol imports k p → pol p = some x → q ∈ L.imports x → Steps pol imports (k + 1) q

/-- `p` defines the dictionary `d` under a name: the first block of that name -/
def Defines (pol : String → Option L.Parsed) (p name : String) (d : L.Dict) : Prop :=
  ∃ x, pol p = some x ∧ get (L.dicts x) name = some d

/-! ### Proof -/

theorem get_addDict {V : Type} (out : List (String × V)) (d : String × V) (n : String) :
    get (addDict out d) n = match get out n with
      | some v => some v
      | none => if d.1 = n then some d.2 else none := by
  have happ : ∀ l : List (String × V), get (l ++ [d]) n = match get l n with
      | some v => some v
      | none => if d.1 = n then some d.2 else none := by
    intro l
    induction l with
    | nil => obtain ⟨a, b⟩ := d; rfl
    | cons e l ih =>
      obtain ⟨a, b⟩ := e
      simp only [List.cons_append, get]
      by_cases h : a = n
      · simp [h]
      · simp only [if_neg h, ih]
  unfold addDict
  split
  · rename_i hs
    cases hn : get out n with
    | some v => rfl
    | none =>
      have : ¬ d.1 = n := by
        rintro rfl
        rw [hn] at hs
        cases hs
      simp [this]
  · exact happ out

theorem get_addDicts {V : Type} (n : String) : ∀ (l out : List (String × V)),
    get (l.foldl addDict out) n = match get out n with
      | some v => some v
      | none => get l n
  | [], out => by simp only [List.foldl_nil, get]; cases get out n <;> rfl
  | d :: l, out => by
    rw [List.foldl_cons, get_addDicts n l, get_addDict]
    obtain ⟨a, b⟩ := d
    cases get out n with
    | some v => rfl
    | none =>
      simp only [get]
      by_cases h : a = n <;> simp [h]

/-- The search goes by steps: what is reached in fewer steps than the ones in `A` has been visited. -/
structure Front (parsed : List (String × L.Parsed)) (imports : List String) (k : Nat) (A C v : List String)
    (o : List (String × L.Dict)) : Prop where
  here : ∀ p ∈ A, Steps (get parsed) imports k p
  ahead : ∀ p ∈ C, Steps (get parsed) imports (k + 1) p
  past : ∀ j p, j < k → Steps (get parsed) imports j p → p ∈ v
  now : ∀ p, Steps (get parsed) imports k p → p ∈ v ∨ p ∈ A
  closed : ∀ p ∈ v, ∀ x, get parsed p = some x → ∀ q ∈ L.imports x, q ∈ v ∨ q ∈ A ∨ q ∈ C
  all : ∀ p ∈ v, ∀ n d, Defines (get parsed) p n d → (get o n).isSome = true
  nearest : ∀ n d, get o n = some d → ∃ p j, Steps (get parsed) imports j p ∧ Defines (get parsed) p n d ∧
    ∀ j' p' d', Steps (get parsed) imports j' p' → Defines (get parsed) p' n d' → j ≤ j'

variable {parsed : List (String × L.Parsed)} {imports : List String} {k : Nat} {A C v : List String} {o : List (String × L.Dict)}

theorem Front.turn (h : Front parsed imports k [] C v o) : Front parsed imports (k + 1) C [] v o := by
  refine ⟨h.ahead, by simp, ?_, ?_, ?_, h.all, h.nearest⟩
  · intro j p hj hp
    by_cases hk : j < k
    · exact h.past j p hk hp
    · have : j = k := by omega
      subst this
      exact (h.now p hp).resolve_right (by simp)
  · intro p hp
    cases hp with
    | next hq hx hm =>
      rcases h.closed _ ((h.now _ hq).resolve_right (by simp)) _ hx _ hm with h1 | h1 | h1
      · exact .inl h1
      · cases h1
      · exact .inr h1
  · intro p hp x hx q hq
    rcases h.closed p hp x hx q hq with h1 | h1 | h1
    · exact .inl h1
    · cases h1
    · exact .inr (.inl h1)

theorem Front.seen {p : String} (h : Front parsed imports k (p :: A) C v o) (hv : p ∈ v) : Front parsed imports k A C v o := by
  refine ⟨fun q hq => h.here q (by simp [hq]), h.ahead, h.past, ?_, ?_, h.all, h.nearest⟩
  · intro q hq
    rcases h.now q hq with h1 | h1
    · exact .inl h1
    · rcases List.mem_cons.1 h1 with rfl | h1
      · exact .inl hv
      · exact .inr h1
  · intro q hq x hx y hy
    rcases h.closed q hq x hx y hy with h1 | h1 | h1
    · exact .inl h1
    · rcases List.mem_cons.1 h1 with rfl | h1
      · exact .inl hv
      · exact .inr (.inl h1)
    · exact .inr (.inr h1)

theorem Front.miss {p : String} (h : Front parsed imports k (p :: A) C v o) (hg : get parsed p = none) :
    Front parsed imports k A C (p :: v) o := by
  refine ⟨fun q hq => h.here q (by simp [hq]), h.ahead, fun j q hj hq => by simp [h.past j q hj hq], ?_, ?_, ?_, h.nearest⟩
  · intro q hq
    rcases h.now q hq with h1 | h1
    · exact .inl (by simp [h1])
    · rcases List.mem_cons.1 h1 with rfl | h1
      · exact .inl (by simp)
      · exact .inr h1
  · intro q hq x hx y hy
    rcases List.mem_cons.1 hq with rfl | hq
    · rw [hg] at hx; cases hx
    · rcases h.closed q hq x hx y hy with h1 | h1 | h1
      · exact .inl (by simp [h1])
      · rcases List.mem_cons.1 h1 with rfl | h1
        · exact .inl (by simp)
        · exact .inr (.inl h1)
      · exact .inr (.inr h1)
  · rintro q hq n d ⟨x, hx, hd⟩
    rcases List.mem_cons.1 hq with rfl | hq
    · rw [hg] at hx; cases hx
    · exact h.all q hq n d ⟨x, hx, hd⟩

theorem Front.found {p : String} {x : L.Parsed} (h : Front parsed imports k (p :: A) C v o) (hg : get parsed p = some x) :
    Front parsed imports k A (C ++ L.imports x) (p :: v) ((L.dicts x).foldl addDict o) := by
  have hp := h.here p (by simp)
  refine ⟨fun q hq => h.here q (by simp [hq]), ?_, fun j q hj hq => by simp [h.past j q hj hq], ?_, ?_, ?_, ?_⟩
  · intro q hq
    rcases List.mem_append.1 hq with hq | hq
    · exact h.ahead q hq
    · exact .next hp hg hq
  · intro q hq
    rcases h.now q hq with h1 | h1
    · exact .inl (by simp [h1])
    · rcases List.mem_cons.1 h1 with rfl | h1
      · exact .inl (by simp)
      · exact .inr h1
  · intro q hq y hy z hz
    rcases List.mem_cons.1 hq with rfl | hq
    · rw [hg] at hy
      cases hy
      exact .inr (.inr (by simp [hz]))
    · rcases h.closed q hq y hy z hz with h1 | h1 | h1
      · exact .inl (by simp [h1])
      · rcases List.mem_cons.1 h1 with rfl | h1
        · exact .inl (by simp)
        · exact .inr (.inl h1)
      · exact .inr (.inr (by simp [h1]))
  · intro q hq n d hd
    rw [get_addDicts]
    rcases List.mem_cons.1 hq with rfl | hq
    · obtain ⟨y, hy, hd⟩ := hd
      rw [hg] at hy
      cases hy
      cases get o n with
      | some w => rfl
      | none => dsimp only; rw [hd]; rfl
    · have := h.all q hq n d hd
      cases hn : get o n with
      | some w => rfl
      | none => rw [hn] at this; cases this
  · intro n d hd
    rw [get_addDicts] at hd
    cases hn : get o n with
    | some w =>
      rw [hn] at hd
      cases hd
      exact h.nearest n _ hn
    | none =>
      rw [hn] at hd
      refine ⟨p, k, hp, ⟨x, hg, hd⟩, ?_⟩
      intro j' p' d' hs hdef
      by_cases hj : k ≤ j'
      · exact hj
      · have := h.all p' (h.past j' p' (by omega) hs) n d' hdef
        rw [hn] at this
        cases this

/-- The search finds, for every name, the dictionary of a nearest policy. -/
theorem dictRun_front {q v' : List String} {o' : List (String × L.Dict)} (h : DictRun parsed q v o v' o') :
    ∀ k A C, q = A ++ C → Front parsed imports k A C v o → ∃ k', Front parsed imports k' [] [] v' o' := by
  induction h with
  | nil =>
    intro k A C hq hf
    obtain ⟨rfl, rfl⟩ := List.append_eq_nil_iff.1 hq.symm
    exact ⟨k, hf⟩
  | @seen p q v o v' o' hv _ ih =>
    intro k A C hq hf
    cases A with
    | nil =>
      have hq : C = p :: q := hq.symm
      subst hq
      exact ih (k + 1) q [] (by simp) (hf.turn.seen hv)
    | cons a A =>
      simp only [List.cons_append, List.cons.injEq] at hq
      obtain ⟨rfl, rfl⟩ := hq
      exact ih k A C rfl (hf.seen hv)
  | @miss p q v o v' o' hv hg _ ih =>
    intro k A C hq hf
    cases A with
    | nil =>
      have hq : C = p :: q := hq.symm
      subst hq
      exact ih (k + 1) q [] (by simp) (hf.turn.miss hg)
    | cons a A =>
      simp only [List.cons_append, List.cons.injEq] at hq
      obtain ⟨rfl, rfl⟩ := hq
      exact ih k A C rfl (hf.miss hg)
  | @found p q v o v' o' x hv hg _ ih =>
    intro k A C hq hf
    cases A with
    | nil =>
      have hq : C = p :: q := hq.symm
      subst hq
      exact ih (k + 1) q (L.imports x) rfl (by simpa using hf.turn.found hg)
    | cons a A =>
      simp only [List.cons_append, List.cons.injEq] at hq
      obtain ⟨rfl, rfl⟩ := hq
      exact ih k A (C ++ L.imports x) (by simp) (hf.found hg)

theorem front_start : Front (L := L) parsed imports 0 imports [] [] [] :=
  ⟨fun _ h => .direct h, by simp, fun j _ h => absurd h (by omega), fun p h => by cases h; exact .inr ‹_›, by simp, by simp,
    fun n d h => by cases h⟩

theorem dict_front (hsf : ScopeFree L) {ops : List (Op L)} (h : Coherent ops) (imports : List String) :
    ∃ parsed k v, get parsed = policyIn ops ∧ Front parsed imports k [] [] v (graphDictionaries (run {} ops) imports).1 := by
  obtain ⟨H, hH⟩ := h.polHeap
  have p0 := run_pinv hsf ops (db := {}) ⟨inv_empty H, List.Pairwise.nil⟩ hH
  obtain ⟨⟨G, hi⟩, hk, hs⟩ := snapshot_ok hsf p0.inv
  have hso := hi.snap _ hs
  rw [hk.docs] at hso
  have := dictRun_front (imports := imports) (dictLoop_ok (vals (snapshot (run {} ops)).1.parsed) imports) 0 imports [] (by simp) front_start
  obtain ⟨k, h⟩ := this
  refine ⟨_, k, _, ?_, h⟩
  funext p
  rw [hso.parsed, get_parsedSpec p0.sorted]
  unfold policyIn
  rw [run_docs hsf p ops (db := {}) ⟨inv_empty H, List.Pairwise.nil⟩ hH]
  rfl

/-! ### The claims -/

/-- After any history, a name is a dictionary of a graph exactly if a policy reached through its imports defines it. -/
theorem C56_names (hsf : ScopeFree L) {ops : List (Op L)} (h : Coherent ops) (imports : List String) (n : String) :
    (get (graphDictionaries (run {} ops) imports).1 n).isSome = true ↔
      ∃ k p d, Steps (policyIn ops) imports k p ∧ Defines (policyIn ops) p n d := by
  obtain ⟨parsed, k, v, he, h⟩ := dict_front hsf h imports
  rw [← he]
  constructor
  · intro hs
    obtain ⟨d, hd⟩ := Option.isSome_iff_exists.1 hs
    obtain ⟨p, j, h1, h2, -⟩ := h.nearest n d hd
    exact ⟨j, p, d, h1, h2⟩
  · rintro ⟨j, p, d, h1, h2⟩
    have hv : p ∈ v := by
      clear h2
      induction h1 with
      | direct hm =>
        by_cases hk : 0 < k
        · exact h.past 0 _ hk (.direct hm)
        · have : k = 0 := by omega
          subst this
          exact (h.now _ (.direct hm)).resolve_right (by simp)
      | next _ hx hm ih => exact (h.closed _ ih _ hx _ hm).resolve_right (by simp)
    exact h.all p hv n d h2

/-- The dictionary of a name is that of a policy with the fewest steps. -/
theorem C56_nearest (hsf : ScopeFree L) {ops : List (Op L)} (h : Coherent ops) (imports : List String) (n : String) (d : L.Dict)
    (hd : get (graphDictionaries (run {} ops) imports).1 n = some d) :
    ∃ p k, Steps (policyIn ops) imports k p ∧ Defines (policyIn ops) p n d ∧
      ∀ k' p' d', Steps (policyIn ops) imports k' p' → Defines (policyIn ops) p' n d' → k ≤ k' := by
  obtain ⟨parsed, k, v, he, hf⟩ := dict_front hsf h imports
  rw [← he]
  exact hf.nearest n d hd

open Toy in
/-- `b` imports `a`, `a` imports `b` and one that does not exist; both have a dictionary `d`. -/
example : (graphDictionaries (run (L := lang) {} [.set "a" (pol 1 ["b", "gone"] 1), .set "b" (pol 2 ["a"] 2)]) ["b"]).1 = [("d", (2 : Nat))] := by
  rfl

open Toy in
/-- So it is for the other one of the two. -/
example : (graphDictionaries (run (L := lang) {} [.set "a" (pol 1 ["b", "gone"] 1), .set "b" (pol 2 ["a"] 2)]) ["a"]).1 = [("d", (1 : Nat))] := by
  rfl

end Zen.Ws
