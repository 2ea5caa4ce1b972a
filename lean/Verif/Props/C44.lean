import Verif.Workspace.History
import Verif.Workspace.Toy
import Verif.Workspace.Shallow
/-
C44: what a workspace answers depends only on the documents it holds (and on what is known of functions), not on
the history of edits and questions.

For policies this is proved without conditions on the history. For graphs it fails in five ways, shown below, and is
proved for histories that avoid them.
-/
namespace Zen.Ws
open Zen Zen.Policy

variable {L : Lang}

/-! ## Policies -/

/-- After any two histories — of additions, edits, removals, types of functions, resolvers and questions of any kind
— that leave the same documents, what is parsed, analyzed and reported of policies is the same. -/
theorem C44_policies (hsf : ScopeFree L) {ops ops' : List (Op L)} (h : Coherent ops) (h' : Coherent ops')
    (hd : ∀ p, finalDoc ops p = finalDoc ops' p) {q : Query} (hq : q.aboutPolicies (finalDoc ops)) :
    (answer (run {} ops) q).1 = (answer (run {} ops') q).1 := by
  obtain ⟨H, hH⟩ := h.polHeap
  obtain ⟨H', hH'⟩ := h'.polHeap
  have p0 := run_pinv hsf ops (db := {}) ⟨inv_empty H, List.Pairwise.nil⟩ hH
  have p1 := run_pinv hsf ops' (db := {}) ⟨inv_empty H', List.Pairwise.nil⟩ hH'
  have d0 : docAt (run {} ops).docs = finalDoc ops := funext fun p =>
    run_docs hsf p ops (db := {}) ⟨inv_empty H, List.Pairwise.nil⟩ hH
  have d1 : docAt (run {} ops').docs = finalDoc ops' := funext fun p =>
    run_docs hsf p ops' (db := {}) ⟨inv_empty H', List.Pairwise.nil⟩ hH'
  have a0 := answer_policies hsf p0 (q := q) (by rw [d0]; exact hq)
  have a1 := answer_policies hsf p1 (q := q) (by rw [d1, ← funext hd]; exact hq)
  have hw := world_ext p0.sorted p1.sorted fun p => by rw [d0, d1]; exact hd p
  rw [policyAnswer_congr hw, ← a1] at a0
  exact Option.some.inj a0

/-- In particular the answers are those of a workspace that was only filled. -/
theorem C44_policies_fresh (hsf : ScopeFree L) {ops : List (Op L)} (h : Coherent ops) {docs : List (String × Ptr (Content L))}
    (hc : Coherent (docs.map fun e => Op.set e.1 e.2)) (hd : ∀ p, finalDoc ops p = finalDoc (docs.map fun e => Op.set e.1 e.2) p)
    {q : Query} (hq : q.aboutPolicies (finalDoc ops)) :
    (answer (run {} ops) q).1 = (answer (run {} (docs.map fun e => Op.set e.1 e.2)) q).1 := C44_policies hsf h hc hd hq

/-- The hypothesis `ScopeFree` at the one place where the shallow pass looks at the scope: a match block gives its target
the type `Any` if an arm has a value and `Null` otherwise, whatever the scope says about its conditions. -/
theorem C44_shallow_match (F : FrontEnd) (same : VT → VT → Bool) (m : MatchB) (scope : VT) :
    ((∃ a ∈ m.arms, a.value.isEmpty = false) → shallowMatch F same m scope = .any) ∧
      ((∀ a ∈ m.arms, a.value.isEmpty = true) → shallowMatch F same m scope = .null) := by
  rw [shallowMatch_eq]
  have key : ∀ (l : List Arm) (t : VT), (t = .any ∨ t = .null) →
      ((t = .any ∨ ∃ a ∈ l, a.value.isEmpty = false) →
        (l.map fun a => if a.value.isEmpty then VT.null else VT.any).foldl (VT.merge same) t = .any) ∧
      (t = .null → (∀ a ∈ l, a.value.isEmpty = true) →
        (l.map fun a => if a.value.isEmpty then VT.null else VT.any).foldl (VT.merge same) t = .null) := by
    intro l
    induction l with
    | nil => intro t _; exact ⟨fun h => h.elim id fun ⟨_, h, _⟩ => (nomatch h), fun h _ => h⟩
    | cons a l ih =>
      intro t ht
      rw [List.map_cons, List.foldl_cons]
      have ha : VT.merge same .any .null = .any ∧ VT.merge same .any .any = .any ∧ VT.merge same .null .null = .null ∧
          VT.merge same .null .any = .any := by simp [VT.merge, VT.mg, VT.fin, VT.unwrap]
      cases hv : a.value.isEmpty with
      | true =>
        rw [if_pos rfl]
        rcases ht with rfl | rfl
        · rw [ha.1]
          exact ⟨fun _ => (ih .any (.inl rfl)).1 (.inl rfl), fun h => (nomatch h)⟩
        · rw [ha.2.2.1]
          refine ⟨fun h => (ih .null (.inr rfl)).1 (h.imp_right ?_), fun _ h =>
            (ih .null (.inr rfl)).2 rfl fun b hb => h b (List.mem_cons_of_mem _ hb)⟩
          rintro ⟨b, hb, h'⟩
          rcases List.mem_cons.1 hb with rfl | hb
          · rw [hv] at h'; cases h'
          · exact ⟨b, hb, h'⟩
      | false =>
        rw [if_neg (by simp)]
        have : VT.merge same t .any = .any := by rcases ht with rfl | rfl <;> simp [ha]
        rw [this]
        refine ⟨fun _ => (ih .any (.inl rfl)).1 (.inl rfl), fun _ h => ?_⟩
        rw [h a (List.mem_cons_self ..)] at hv
        cases hv
  have start : ∀ l : List Arm, mergeTypes same (l.map fun a => if a.value.isEmpty then VT.null else VT.any) =
      (l.map fun a => if a.value.isEmpty then VT.null else VT.any).foldl (VT.merge same) .null := by
    intro l
    cases l with
    | nil => rfl
    | cons a l =>
      rw [List.map_cons, List.foldl_cons]
      cases a.value.isEmpty <;> simp [mergeTypes, VT.merge, VT.mg, VT.fin, VT.unwrap]
  rw [start]
  exact ⟨fun h => (key m.arms .null (.inr rfl)).1 (.inr h), (key m.arms .null (.inr rfl)).2 rfl⟩

/-- an arm with a value and one without -/
example (F : FrontEnd) (scope : VT) : shallowMatch F (fun _ _ => false)
    ⟨"x", [⟨"1", "a", "1"⟩, ⟨"2", "b", ""⟩]⟩ scope = .any :=
  (C44_shallow_match F _ _ scope).1 ⟨_, List.mem_cons_self .., by decide⟩

/-! ## Graphs -/

theorem graphAnswer_unique {a b : Db L} (ha : Sorted a.docs) (hb : Sorted b.docs) (hd : ∀ p, docAt a.docs p = docAt b.docs p)
    (hf : fans a = fans b) {p : String} {n m : Nat} {x y : L.Ana} (h : Ana a.docs (fans a) All All n p x)
    (k : Ana b.docs (fans b) All All m p y) : x = y := by
  have hw := world_ext ha hb hd
  have hs : SteadyTo a.docs b.docs := by
    intro p _ _ m
    unfold importsSpec
    rw [(specs_congr hw).1]
  exact (h.transfer ha hb hs (fun p _ => (hd p).symm) (fun s t _ => by rw [hf])).det _ _ _ _ _ k

/-- After any two settled histories that leave the same documents and the same knowledge of functions, every answer is
the same, about graphs too. Missing for the whole property: histories that are not settled, where it is false — see
below. -/
theorem C44_graphs_partial (hL : Laws L) {ops ops' : List (Op L)} {q : Query} (h : Settled (ops ++ [.query q]))
    (h' : Settled (ops' ++ [.query q])) (hd : ∀ p, finalDoc ops p = finalDoc ops' p)
    (hf : ∀ s t, finalFn ops s t = finalFn ops' s t) : (answer (run {} ops) q).1 = (answer (run {} ops') q).1 := by
  by_cases hq : q.aboutPolicies (finalDoc ops)
  · refine C44_policies hL.sf ⟨?_, ?_⟩ ⟨?_, ?_⟩ hd hq
    · exact fun p d p' d' h1 h2 => h.coherent.outer p d p' d' (by simp [h1]) (by simp [h2])
    · exact fun p a x p' a' x' h1 h2 => h.coherent.inner p a x p' a' x' (by simp [h1]) (by simp [h2])
    · exact fun p d p' d' h1 h2 => h'.coherent.outer p d p' d' (by simp [h1]) (by simp [h2])
    · exact fun p a x p' a' x' h1 h2 => h'.coherent.inner p a x p' a' x' (by simp [h1]) (by simp [h2])
  · obtain ⟨g0, f0, s0, d0⟩ := settled_answer hL h
    obtain ⟨g1, f1, s1, d1⟩ := settled_answer hL h'
    have hdd : ∀ p, docAt (run {} ops).docs p = docAt (run {} ops').docs p := fun p => by rw [d0, d1]; exact hd p
    have hff : fans (run {} ops) = fans (run {} ops') := by
      rw [f0, f1]; funext s t; exact hf s t
    have hgr : ∀ p, get (graphsOf (run {} ops).docs) p = get (graphsOf (run {} ops').docs) p := fun p => by
      rw [get_graphsOf s0, get_graphsOf s1, hdd]
    cases q with
    | parsed p => exact absurd trivial hq
    | shallow p => exact absurd trivial hq
    | members p => exact absurd trivial hq
    | unit p => exact absurd trivial hq
    | enriched p => exact absurd trivial hq
    | graph p =>
      simp only [answer, GraphAnswer] at g0 g1 ⊢
      congr 1
      cases hg : get (graphsOf (run {} ops).docs) p with
      | none => rw [g0.2 hg, g1.2 ((hgr p).symm.trans hg)]
      | some g =>
        obtain ⟨n, a, h1, h2⟩ := g0.1 (by rw [hg]; rfl)
        obtain ⟨m, b, k1, k2⟩ := g1.1 (by rw [← hgr, hg]; rfl)
        rw [h2, k2, graphAnswer_unique s0 s1 hdd hff h1 k1]
    | diagnostics p =>
      simp only [answer, GraphAnswer] at g0 g1 ⊢
      have hg : (get (graphsOf (run {} ops).docs) p).isSome := by
        rw [get_graphsOf s0, d0]
        unfold Query.aboutPolicies at hq
        cases hx : (finalDoc ops p).bind Doc.gr with
        | none => exact absurd hx hq
        | some _ => rfl
      obtain ⟨n, a, h1, h2⟩ := g0 hg
      obtain ⟨m, b, k1, k2⟩ := g1 (by rw [← hgr]; exact hg)
      rw [h2, k2, graphAnswer_unique s0 s1 hdd hff h1 k1]

theorem queried_quiet : ∀ (ops : List (Op L)) (docs : List (String × Ptr (Content L))) (q : Query), (∀ q, Op.query q ∉ ops) →
    ∃ w, queried docs (ops ++ [.query q]) = [w]
  | [], docs, q, _ => ⟨docs, rfl⟩
  | op :: ops, docs, q, h => by
    have h' : ∀ q, Op.query q ∉ ops := fun q hm => h q (by simp [hm])
    cases op with
    | set p d => exact queried_quiet ops _ q h'
    | remove p => exact queried_quiet ops _ q h'
    | setFn => exact queried_quiet ops _ q h'
    | setResolver => exact queried_quiet ops _ q h'
    | query q' => exact absurd (by simp) (h q')

/-- A history in which nothing was asked is settled when graphs do not refer to each other in a circle. -/
theorem settled_quiet {ops : List (Op L)} {q : Query} (hq : ∀ q, Op.query q ∉ ops) (hc : Coherent ops)
    (hr : ∀ w ∈ queried [] (ops ++ [.query q]), ∃ rank, Ranked w rank) : Settled (ops ++ [.query q]) := by
  refine ⟨⟨?_, ?_⟩, ⟨ops, [.query q], rfl, hq, by simp⟩, hr, ?_⟩
  · exact fun p d p' d' h1 h2 => hc.outer p d p' d' (by simpa using h1) (by simpa using h2)
  · exact fun p a x p' a' x' h1 h2 => hc.inner p a x p' a' x' (by simpa using h1) (by simpa using h2)
  · obtain ⟨w, hw⟩ := queried_quiet ops [] q hq
    rw [hw]
    exact List.pairwise_singleton _ _

/-- When no question finds other imports than an earlier one did, components are steady. -/
theorem C44_steady {l : List (List (String × Ptr (Content L)))} (h : ∀ a ∈ l, ∀ b ∈ l, importsSpec a = importsSpec b) :
    l.Pairwise SteadyTo :=
  List.pairwise_of_forall_mem_list fun a ha b hb _ _ _ _ => by rw [h a ha b hb]

/-! ## Examples and failures -/

open Zen.Ws.Toy

theorem toy_laws : Laws lang := ⟨fun _ _ _ _ => rfl, fun _ _ _ _ h => ⟨h, rfl⟩, fun _ _ h => h⟩

theorem toy_asks {P : Prog lang.Sig lang.Source lang.Ty lang.Fn lang.Ana} {key : String} (h : Asks P key) :
    ∀ (l : List Step) (acc : List Nat), P = progOf l acc → Step.decision key ∈ l := by
  induction h with
  | @here key k =>
    intro l acc e
    match l, e with
    | .decision k' :: l, e => injection e with e1 _; subst e1; simp
    | .function s :: l, e => cases e
    | [], e => cases e
  | @sig key key' k r _ ih =>
    intro l acc e
    match l, e with
    | .decision k' :: l, e =>
      injection e with _ e2
      exact List.mem_cons_of_mem _ (ih l (acc ++ sigOf r) (by rw [e2]))
    | .function s :: l, e => cases e
    | [], e => cases e
  | @fn key s t k o _ ih =>
    intro l acc e
    match l, e with
    | .decision k' :: l, e => cases e
    | .function s :: l, e =>
      injection e with _ _ e2
      exact List.mem_cons_of_mem _ (ih l (acc ++ fnOf o) (by rw [e2]))
    | [], e => cases e

/-- a history: a policy, a graph that refers to it, a graph that refers to the first; a question; an edit of the
policy; and again a question -/
def sampleHistory : List (Op lang) :=
  [.set "P" (pol 1 [] 5), .set "G" (gr 2 [.decision "P", .function 7]), .set "K" (gr 3 [.decision "G"]), .query (.graph "K"),
    .set "P" (pol 4 [] 6), .query (.diagnostics "G")]

theorem sample_ranked : ∀ w ∈ queried [] (sampleHistory ++ [.query (.graph "K")]), ∃ rank, Ranked w rank := by
  intro w hw
  refine ⟨fun k => if k = "K" then 1 else 0, fun p g hg key hr hk => ?_⟩
  have hgs : graphsOf w = [("G", ([], [.decision "P", .function 7])), ("K", ([], [.decision "G"]))] := by
    have : queried [] (sampleHistory ++ [.query (.graph "K")]) =
      [[("G", gr 2 [.decision "P", .function 7]), ("K", gr 3 [.decision "G"]), ("P", pol 1 [] 5)],
       [("G", gr 2 [.decision "P", .function 7]), ("K", gr 3 [.decision "G"]), ("P", pol 4 [] 6)],
       [("G", gr 2 [.decision "P", .function 7]), ("K", gr 3 [.decision "G"]), ("P", pol 4 [] 6)]] := by rfl
    rw [this] at hw
    simp only [List.mem_cons, List.not_mem_nil, or_false] at hw
    rcases hw with rfl | rfl | rfl <;> rfl
  rw [hgs] at hg hk
  obtain ⟨ds, ks, ha⟩ := hr
  have hm := toy_asks ha _ _ rfl
  simp only [Ws.get] at hg hk
  split at hg
  · injection hg with hg
    subst hg
    simp only [List.mem_cons, Step.decision.injEq, reduceCtorEq, List.not_mem_nil, or_false] at hm
    subst hm
    simp at hk
  · split at hg
    · injection hg with hg
      subst hg
      simp only [List.mem_cons, Step.decision.injEq, List.not_mem_nil, or_false] at hm
      subst hm
      rename_i h
      subst h
      simp
    · cases hg

theorem sample_settled : Settled (sampleHistory ++ [.query (.graph "K")]) := by
  refine ⟨⟨?_, ?_⟩, ⟨[], _, rfl, by simp, by simp⟩, sample_ranked, ?_⟩
  · intro p d p' d' h h' ha
    simp only [sampleHistory, List.cons_append, List.nil_append, List.mem_cons, Op.set.injEq, reduceCtorEq, List.not_mem_nil,
      or_false, false_or] at h h'
    rcases h with ⟨rfl, rfl⟩ | ⟨rfl, rfl⟩ | ⟨rfl, rfl⟩ | ⟨rfl, rfl⟩ <;> rcases h' with ⟨rfl, rfl⟩ | ⟨rfl, rfl⟩ | ⟨rfl, rfl⟩ | ⟨rfl, rfl⟩ <;>
      first | rfl | (simp [pol, gr] at ha)
  · intro p a x p' a' x' h h' ha
    simp only [sampleHistory, pol, gr, List.cons_append, List.nil_append, List.mem_cons, Op.set.injEq, Ptr.mk.injEq,
      Content.policy.injEq, reduceCtorEq, List.not_mem_nil, or_false, and_false, false_or] at h h'
    rcases h with ⟨rfl, rfl, rfl⟩ | ⟨rfl, rfl, rfl⟩ <;> rcases h' with ⟨rfl, rfl, rfl⟩ | ⟨rfl, rfl, rfl⟩ <;>
      first | rfl | (simp at ha)
  · refine C44_steady fun a ha b hb => ?_
    have hi : ∀ w ∈ queried [] (sampleHistory ++ [.query (.graph "K")]), importsSpec w = [("P", [])] := by
      intro w hw
      have : queried [] (sampleHistory ++ [.query (.graph "K")]) =
        [[("G", gr 2 [.decision "P", .function 7]), ("K", gr 3 [.decision "G"]), ("P", pol 1 [] 5)],
         [("G", gr 2 [.decision "P", .function 7]), ("K", gr 3 [.decision "G"]), ("P", pol 4 [] 6)],
         [("G", gr 2 [.decision "P", .function 7]), ("K", gr 3 [.decision "G"]), ("P", pol 4 [] 6)]] := by rfl
      rw [this] at hw
      simp only [List.mem_cons, List.not_mem_nil, or_false] at hw
      rcases hw with rfl | rfl | rfl <;> rfl
    rw [hi a ha, hi b hb]

/-- the edit is seen through both graphs -/
example : ask sampleHistory "K" = some [0, 6, 97] ∧ ask (sampleHistory.take 4) "K" = some [0, 5, 97] := ⟨rfl, rfl⟩

/-- any settled history with these documents and no types of functions has the same answer -/
example (ops : List (Op lang)) (h : Settled (ops ++ [.query (.graph "K")])) (hd : ∀ p, finalDoc ops p = finalDoc sampleHistory p)
    (hf : ∀ s t, finalFn ops s t = none) : ask ops "K" = some [0, 6, 97] := by
  have := C44_graphs_partial toy_laws h sample_settled hd (fun s t => by rw [hf]; rfl)
  unfold ask
  rw [this]
  rfl

/-- and policies are answered alike whatever was done before -/
example (ops : List (Op lang)) (h : Coherent ops) (hd : ∀ p, finalDoc ops p = finalDoc [.set "P" (pol 1 ["Q"] 5), .set "Q" (pol 2 [] 6)] p) :
    (answer (run {} ops) (.unit "P")).1 = .unit [5, 6] := by
  rw [C44_policies toy_laws.sf h (ops' := [.set "P" (pol 1 ["Q"] 5), .set "Q" (pol 2 [] 6)]) ⟨?_, ?_⟩ hd (q := .unit "P") trivial]
  · rfl
  · intro p d p' d' h h' ha
    simp only [List.mem_cons, Op.set.injEq, List.not_mem_nil, or_false] at h h'
    rcases h with ⟨rfl, rfl⟩ | ⟨rfl, rfl⟩ <;> rcases h' with ⟨rfl, rfl⟩ | ⟨rfl, rfl⟩ <;> first | rfl | (simp [pol] at ha)
  · intro p a x p' a' x' h h' ha
    simp only [pol, List.mem_cons, Op.set.injEq, Ptr.mk.injEq, Content.policy.injEq, List.not_mem_nil, or_false] at h h'
    rcases h with ⟨rfl, rfl, rfl⟩ | ⟨rfl, rfl, rfl⟩ <;> rcases h' with ⟨rfl, rfl, rfl⟩ | ⟨rfl, rfl, rfl⟩ <;> first | rfl | (simp at ha)

/-- Two graphs refer to each other. If the first is asked about, the analysis of the second is made on the way, with
the first reported as recursive, and kept: the second is then described differently than by a workspace that is
asked about the second only. The documents are the same. -/
theorem C44_recursion_order_fails :
    let docs : List (Op lang) := [.set "A" (gr 1 [.decision "B"]), .set "B" (gr 2 [.decision "A"])]
    ask (docs ++ [.query (.graph "A")]) "B" = some [99] ∧ ask docs "B" = some [0, 99] := ⟨rfl, rfl⟩

/-- A circle of three graphs is broken by an edit. The analysis of a graph that is not the one edited was made in the
circle without reading the edited one, and is still given out, though no graph is recursive any more. -/
theorem C44_recursion_stays :
    let history : List (Op lang) := [.set "A" (gr 1 [.decision "C"]), .set "B" (gr 2 [.decision "A"]), .set "C" (gr 3 [.decision "B"]),
      .query (.graph "A"), .set "C" (gr 4 [])]
    let fresh : List (Op lang) := [.set "A" (gr 1 [.decision "C"]), .set "B" (gr 2 [.decision "A"]), .set "C" (gr 4 [])]
    (∀ p, finalDoc history p = finalDoc fresh p) ∧ ask history "B" = some [99] ∧ ask fresh "B" = some [0, 0] := by
  refine ⟨fun p => ?_, rfl, rfl⟩
  simp only [finalDoc, List.foldl_cons, List.foldl_nil]
  by_cases h : "C" = p <;> simp [h]

/-- A policy is added that imports a policy a graph refers to. The signature of the latter changes — signatures are of
components — but the analysis of the graph is kept. -/
theorem C44_component_grows_unseen :
    let before : List (Op lang) := [.set "G" (gr 1 [.decision "P"]), .set "P" (pol 2 [] 5)]
    let edit : Op lang := .set "Q" (pol 3 ["P"] 6)
    ask (before ++ [.query (.graph "G"), edit]) "G" = some [5] ∧ ask (before ++ [edit]) "G" = some [5, 6] := ⟨rfl, rfl⟩

/-- A policy a graph refers to imports a policy that is added later. The analysis of the graph is kept. -/
theorem C44_import_appears_unseen :
    let before : List (Op lang) := [.set "G" (gr 1 [.decision "P"]), .set "P" (pol 2 ["R"] 5)]
    let edit : Op lang := .set "R" (pol 3 [] 6)
    ask (before ++ [.query (.graph "G"), edit]) "G" = some [5] ∧ ask (before ++ [edit]) "G" = some [5, 6] := ⟨rfl, rfl⟩

/-- A resolver is set after a graph was analyzed without. The type of the function stays unknown to the graph, though
the database knows it when asked. -/
theorem C44_late_resolver_unseen :
    let before : List (Op lang) := [.set "G" (gr 1 [.function 7])]
    let late : Op lang := .setResolver fun (s : Nat) _ => s.succ
    ask (before ++ [.query (.graph "G"), late]) "G" = some [97] ∧ ask (before ++ [late]) "G" = some [8] ∧
      (functionOutcome (run {} (before ++ [.query (.graph "G"), late])) (7 : Nat) ⟨⟩).1 = some (8 : Nat) := ⟨rfl, rfl, rfl⟩

/-- When the documents are looked at again, exactly those results are kept that are only about documents that are still there. -/
theorem C44_kept (c : Cache L) (docs : List (String × Ptr (Content L))) :
    (∀ e, e ∈ (retain c docs).parsed ↔ e ∈ c.parsed ∧ (get docs e.1).isSome) ∧
    (∀ e, e ∈ (retain c docs).shallow ↔ e ∈ c.shallow ∧ (get docs e.1).isSome) ∧
    (∀ e, e ∈ (retain c docs).units ↔ e ∈ c.units ∧ ∀ p ∈ e.1, (get docs p).isSome) ∧
    (∀ e, e ∈ (retain c docs).graphs ↔ e ∈ c.graphs ∧ (get docs e.1).isSome) := by
  simp [retain]

end Zen.Ws
