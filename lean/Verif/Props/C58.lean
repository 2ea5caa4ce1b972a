import Verif.Props.C57
/-
C58  The result of a policy is a solution of its blocks: what a block wrote is what it gives in the result.
-/
namespace Zen.Policy
open Zen Zen.Val
variable {C : Cfg} {P : List PBlock}

/-! ## Specification

The blocks of the policy are read as equations between parts of the result: `⟨v, []⟩` is the scope in which the parts of the result `v`
are the variables. What an arm of a match block or a column of a table is to give is specified in C43. -/

/-- an arm applies when it has no condition, or its condition gives true; the first one that applies gives the value -/
def MatchIs (F : FrontEnd) (B : Builtins) (s : Scope) (arms : List Arm) (x : Val) : Prop :=
  (∃ pre a post, arms = pre ++ a :: post ∧ (∀ c ∈ pre, ArmFalse F B s c) ∧ ArmTrue F B s a ∧ ArmGives F B s a (.ok x)) ∨
  ((∀ a ∈ arms, ArmFalse F B s a) ∧ x = .null)

/-! ## Proofs -/

/-- what is known of a block that was asked for -/
theorem ran_entry (hS : Sound C P) {m : List (String × Val)} (hm : (aKeys m).Nodup) (h0 : aGet m "$" = none) {goals : List String} {v : Val}
    (h : runPolicy C P goals (.obj m) = some (.ok v)) {b : PBlock} (hb : b ∈ P) {g : String} (hg : g ∈ goals) (hw : g ∈ b.body.writes) :
    ∃ p cx, Seen (Cx.start v) ∧ Bound cx ∧ b.body.pickAt C ⟨v, []⟩ = .ok p ∧ (∃ s1 : Cx, (b.body.select C s1).1 = .ok p) ∧
      (∀ s ∈ b.body.sources ++ b.body.chosen p, freshRun C.F C.B cx.scope s.1 s.2 = freshRun C.F C.B ⟨v, []⟩ s.1 s.2) ∧
      (∀ w ∈ b.body.writes, look cx.store (splitDot w) = look (.obj m) (splitDot w)) ∧
      ∃ cx', b.body.write C p cx = .ok cx' ∧ ∀ w ∈ b.body.writes, look cx'.store (splitDot w) = look v (splitDot w) := by
  obtain ⟨st, hd, rfl⟩ := run_ok h
  have hf := faithful hS
  have hat := blockAt_mem hS.unique hb
  have hr : (sys C P).rule b.ref = true := by simp [sys, hat]
  have hgoal := goal_of_write hS hb hw
  have hran := drive_asked hd hg (goal_served hS hgoal (r := b.ref) ⟨b, hat, g, hw, .inl List.prefix_rfl⟩) hr
  obtain ⟨p, hp⟩ := mem_refs hran
  have hcert := drive_cert hf (start_synced hm) hd
  obtain ⟨s1, s2, o1, o2, e1, e2, t1, t2, t3⟩ := hcert.entry _ _ hp
  have hseen : Seen (Cx.start st.store.store) := by
    obtain ⟨mv, e, a, _, _, _⟩ := (show Synced st.store from hcert.ok)
    have no : ∀ r, ¬ (view C P).touch r ["$"] := by
      rintro r ⟨c, hc, w, hw, hrel⟩
      obtain ⟨ks, hk⟩ := splitDot_topSeg w
      rw [hk] at hrel
      refine (hS.own c (blockAt_some hc).1 w hw).2 ?_
      rcases hrel with hrel | hrel
      · exact (List.cons_prefix_cons.1 hrel).1
      · exact (List.cons_prefix_cons.1 hrel).1.symm
    have := hcert.rest ["$"] (fun r r' _ _ ht => absurd ht (no r)) fun r _ => no r
    have : look st.store.store ["$"] = look (.obj m) ["$"] := this
    rw [a] at this ⊢
    refine ⟨mv, mv, rfl, rfl, ?_, fun _ _ => rfl⟩
    simp only [look, h0] at this
    revert this
    cases aGet mv "$" with
    | none => exact fun _ => rfl
    | some x => exact fun h => by cases h
  simp only [sys, hat] at e1 e2
  refine ⟨p, s2.bind, hseen, o2.bind, ?_, ⟨s1, e1⟩, ?_, ?_, ?_⟩
  · rw [select_pick] at e1
    rw [← e1]
    exact (pick_same hS hb (Synced.bind o1).seen hseen fun q hq => t1 q ⟨b, hat, hq⟩).symm
  · intro s hs
    exact run_same (readable_of hS hb hs).2 (Synced.bind o2).seen hseen (fun q hq => t2 q ⟨b, hat, by
      rcases List.mem_append.1 hs with hs | hs
      · exact .inl (mem_paths hs hq)
      · exact .inr (mem_paths hs hq)⟩) (.inl rfl)
  · intro w hw
    exact (t3 (splitDot w) ⟨b, hat, w, hw, .inl List.prefix_rfl⟩ (excl_write hS hb hw)).1
  · unfold Body.commit at e2
    cases hwr : b.body.write C p s2.bind with
    | error e => rw [hwr] at e2; cases e2
    | ok cx' =>
      refine ⟨cx', rfl, fun w hw => ?_⟩
      have := (t3 (splitDot w) ⟨b, hat, w, hw, .inl List.prefix_rfl⟩ (excl_write hS hb hw)).2
      simp only [view, sys, hat, Body.commit, hwr] at this
      exact this

theorem walkable_iff : ∀ (p : List String) (d : Val), p ≠ [] → (Walkable d p ↔ look d p ≠ .blocked) := by
  intro p
  induction p with
  | nil => intro d h; exact absurd rfl h
  | cons k ks ih =>
    intro d _
    constructor
    · intro h
      have hd : d.isObj = true := h [] (List.nil_prefix ..) (by simp) d rfl
      cases d with
      | obj m =>
        simp only [look]
        cases hg : aGet m k with
        | none => simp
        | some x =>
          dsimp only
          cases ks with
          | nil => simp [look]
          | cons k' ks => exact (ih x (by simp)).1 (walkable_cons hg h)
      | _ => simp [Val.isObj] at hd
    · intro h q hq hne x hx
      cases d with
      | obj m =>
        cases q with
        | nil => cases hx; rfl
        | cons k' q =>
          obtain ⟨rfl, hq'⟩ := List.cons_prefix_cons.1 hq
          simp only [dotP] at hx
          simp only [look] at h
          cases hg : aGet m k' with
          | none => rw [hg] at hx; cases hx
          | some y =>
            rw [hg] at hx h
            cases ks with
            | nil => rw [List.prefix_nil.1 hq'] at hne; exact absurd rfl hne
            | cons k ks => exact (ih y (by simp)).2 h q hq' (fun e => hne (by rw [e])) x hx
      | _ => exact absurd rfl h

theorem walkable_look (p : List String) (d : Val) (h : Walkable d p) (hp : p ≠ []) : look d p ≠ .blocked := (walkable_iff p d hp).1 h

/-- what is written can be read -/
theorem write_found {cx : Cx} {w : String} (v : Val) (h : look cx.store (splitDot w) ≠ .blocked) : look (cx.write w v).store (splitDot w) = .found v := by
  have := look_below (splitDot w) cx.store [] v (splitDot_ne_nil w)
  rw [List.append_nil] at this
  rw [write_store, this]
  cases hl : look cx.store (splitDot w) with
  | blocked => exact absurd hl h
  | found x => rfl
  | missing => rfl

theorem found_dot {v x : Val} {w : String} (h : look v (splitDot w) = .found x) : v.dot w = some x := by
  unfold dot
  rw [look_dot, h]

theorem selectArms_inv {F : FrontEnd} {B : Builtins} {s : Scope} (extras : Bool) : ∀ (as : List Arm) (sel sel' : MSel), sel.matched = none →
    selectArms F B s extras as sel = .ok sel' →
    (∃ pre a post, as = pre ++ a :: post ∧ (∀ c ∈ pre, ArmFalse F B s c) ∧ ArmTrue F B s a ∧ sel'.matched = some a.id) ∨
    ((∀ a ∈ as, ArmFalse F B s a) ∧ sel'.matched = none)
  | [], sel, sel', hn, h => by
    injection h with h; subst h
    exact .inr ⟨fun a ha => (nomatch ha), hn⟩
  | a :: as, sel, sel', hn, h => by
    simp only [selectArms, hn, Option.isSome_none, Bool.false_and, Bool.and_false, Bool.false_eq_true, if_false] at h
    cases ht : armTest F B s false a with
    | error e => rw [ht] at h; cases h
    | ok t =>
      rw [ht] at h
      dsimp only at h
      cases t with
      | true =>
        refine .inl ⟨[], a, as, rfl, fun c hc => (nomatch hc), ?_, ?_⟩
        · unfold armTest at ht
          split at ht
          · rename_i he; exact .inl (by simpa using he)
          · split at ht
            · rename_i x hx
              injection ht with ht
              cases x with
              | bool y => cases y with
                | true => exact .inr hx
                | false => cases ht
              | _ => cases ht
            · cases ht
        · obtain ⟨sel2, h2, hm2⟩ := select_found (F := F) (B := B) (s := s) extras as
            { matched := if (true && sel.matched.isNone) = true then some a.id else sel.matched, arms := sel.arms ++ [(a.id, true)] } a.id (by simp [hn])
          simp only [hn] at h2
          rw [h] at h2
          injection h2 with h2; subst h2
          exact hm2
      | false =>
        have ha : ArmFalse F B s a := by
          unfold armTest at ht
          split at ht
          · cases ht
          · rename_i he
            split at ht
            · rename_i x hx
              refine ⟨by simpa using he, x, hx, ?_⟩
              rintro rfl
              cases ht
            · cases ht
        rcases selectArms_inv extras as _ _ (by simp) h with ⟨pre, c, post, rfl, hp, hc, hid⟩ | ⟨hall, hid⟩
        · exact .inl ⟨a :: pre, c, post, rfl, fun x hx => (List.mem_cons.1 hx).elim (fun e => e ▸ ha) (hp x), hc, hid⟩
        · exact .inr ⟨fun x hx => (List.mem_cons.1 hx).elim (fun e => e ▸ ha) (hall x), hid⟩

theorem find_id : ∀ (pre : List Arm) (a : Arm) (post : List Arm), ((pre ++ a :: post).map Arm.id).Nodup →
    (pre ++ a :: post).find? (fun c => c.id = a.id) = some a
  | [], a, post, _ => by simp
  | c :: pre, a, post, h => by
    rw [List.cons_append, List.map_cons, List.nodup_cons] at h
    have hne : c.id ≠ a.id := fun e => h.1 (List.mem_map.2 ⟨a, by simp, e.symm⟩)
    rw [List.cons_append, List.find?_cons]
    simp only [hne, decide_false]
    exact find_id pre a post h.2

/-! ## Theorems -/

/-- An expression block: the value at its path is the value of its expression in the result. (A path through something in the input that
is not an object cannot be written.) -/
theorem C58_expression (hS : Sound C P) (m : List (String × Val)) (hm : (aKeys m).Nodup) (h0 : aGet m "$" = none) (goals : List String) (v : Val)
    (h : runPolicy C P goals (.obj m) = some (.ok v)) (r : BlockRef) (key value : String) (hb : ⟨r, .expression key value⟩ ∈ P) (hk : key ≠ "")
    (hv : value ≠ "") (hg : key ∈ goals) :
    ∃ x, freshRun C.F C.B ⟨v, []⟩ .standard value = .ok x ∧ (Walkable (.obj m) (splitDot key) → v.dot key = some x) := by
  have he : (key.isEmpty || value.isEmpty) = false := by simp [hk, hv]
  have hw : key ∈ Body.writes (.expression key value) := by simp only [Body.writes, he]; simp
  obtain ⟨p, cx, _, _, _, _, hrun, hlook, cx', hwr, hfin⟩ := ran_entry hS hm h0 h hb hg hw
  have hrun := hrun (.standard, value) (by simp [Body.sources])
  simp only [Body.write, exprCommit, he] at hwr
  dsimp only at hrun
  rw [if_neg (by simp), hrun] at hwr
  cases hx : freshRun C.F C.B ⟨v, []⟩ .standard value with
  | error e => rw [hx] at hwr; cases hwr
  | ok x =>
    rw [hx] at hwr
    injection hwr with hwr
    refine ⟨x, rfl, fun hwalk => found_dot ?_⟩
    rw [← hfin key hw, ← hwr]
    exact write_found x (by rw [hlook key hw]; exact walkable_look _ _ hwalk (splitDot_ne_nil key))

/-- A match block: the value at its path is that of the first arm that applies in the result. -/
theorem C58_match (hS : Sound C P) (m : List (String × Val)) (hm : (aKeys m).Nodup) (h0 : aGet m "$" = none) (goals : List String) (v : Val)
    (h : runPolicy C P goals (.obj m) = some (.ok v)) (r : BlockRef) (mb : MatchB) (hb : ⟨r, .match_ mb⟩ ∈ P) (hk : mb.key ≠ "")
    (hids : (mb.arms.map Arm.id).Nodup) (hg : mb.key ∈ goals) :
    ∃ x, MatchIs C.F C.B ⟨v, []⟩ mb.arms x ∧ (Walkable (.obj m) (splitDot mb.key) → v.dot mb.key = some x) := by
  have he : mb.key.isEmpty = false := by simpa using hk
  have hw : mb.key ∈ Body.writes (.match_ mb) := by simp only [Body.writes, he]; simp
  obtain ⟨p, cx, _, _, hpick, _, hrun, hlook, cx', hwr, hfin⟩ := ran_entry hS hm h0 h hb hg hw
  simp only [Body.pickAt, MatchB.select] at hpick
  cases hsel : selectArms C.F C.B ⟨v, []⟩ C.extras mb.arms { matched := none, arms := [] } with
  | error e => rw [hsel] at hpick; cases hpick
  | ok sel =>
    rw [hsel] at hpick
    injection hpick with hpick
    subst hpick
    simp only [Body.write, MatchB.commit, he] at hwr
    -- the value that was written
    have key : ∀ x, armValue C.F C.B cx (sel.matched.bind fun id => mb.arms.find? fun a => a.id = id) = .ok x →
        (Walkable (.obj m) (splitDot mb.key) → v.dot mb.key = some x) := by
      intro x hx hwalk
      rw [hx] at hwr
      injection hwr with hwr
      simp only [Bool.false_eq_true, if_false] at hwr
      refine found_dot ?_
      rw [← hfin mb.key hw, ← hwr]
      exact write_found x (by rw [hlook mb.key hw]; exact walkable_look _ _ hwalk (splitDot_ne_nil mb.key))
    rcases selectArms_inv C.extras mb.arms _ sel rfl hsel with ⟨pre, a, post, harms, hpre, ha, hid⟩ | ⟨hall, hid⟩
    · have hfind : (sel.matched.bind fun id => mb.arms.find? fun a => a.id = id) = some a := by
        rw [harms] at hids
        rw [hid, harms]
        exact find_id pre a post hids
      rw [hfind] at key hwr
      by_cases hv : a.value = ""
      · exact ⟨.null, .inl ⟨pre, a, post, harms, hpre, ha, .inl ⟨hv, rfl⟩⟩, key _ (by simp [armValue, hv])⟩
      · have hve : a.value.isEmpty = false := by simpa using hv
        have hr := hrun (.standard, a.value) (List.mem_append_right _ (by simp only [Body.chosen, hfind, hve]; simp))
        dsimp only at hr
        simp only [armValue, hve, Bool.false_eq_true, if_false, hr] at key hwr
        cases hx : freshRun C.F C.B ⟨v, []⟩ .standard a.value with
        | error e => rw [hx] at hwr; cases hwr
        | ok x =>
          rw [hx] at key
          exact ⟨x, .inl ⟨pre, a, post, harms, hpre, ha, .inr ⟨hv, .inl ⟨x, hx, rfl⟩⟩⟩, key x rfl⟩
    · rw [hid] at key
      exact ⟨.null, .inr ⟨hall, rfl⟩, key _ rfl⟩

/-- An assertion: what is written is what its conditions give in the result (C59 says what that is). -/
theorem C58_assertion (hS : Sound C P) (m : List (String × Val)) (hm : (aKeys m).Nodup) (h0 : aGet m "$" = none) (goals : List String) (v : Val)
    (h : runPolicy C P goals (.obj m) = some (.ok v)) (r : BlockRef) (a : AssertB) (hb : ⟨r, .assertion a⟩ ∈ P) (hk : a.output ≠ "")
    (hg : a.output ∈ goals) :
    ∃ t, evalConds C.F C.B ⟨v, []⟩ a.conds = .ok t ∧ (Walkable (.obj m) (splitDot a.output) → v.dot a.output = some (.bool t)) := by
  have he : a.output.isEmpty = false := by simpa using hk
  have hw : a.output ∈ Body.writes (.assertion a) := by simp only [Body.writes, he]; simp
  obtain ⟨p, cx, _, _, _, _, hrun, hlook, cx', hwr, hfin⟩ := ran_entry hS hm h0 h hb hg hw
  have hsame : evalConds C.F C.B cx.scope a.conds = evalConds C.F C.B ⟨v, []⟩ a.conds := by
    unfold evalConds
    rw [condLoop_same a.conds {} fun c hc => hrun (.standard, c.expression) (List.mem_append_left _ (List.mem_map.2 ⟨c, hc, rfl⟩))]
  simp only [Body.write, AssertB.commit, hsame, he] at hwr
  cases hx : evalConds C.F C.B ⟨v, []⟩ a.conds with
  | error e => rw [hx] at hwr; cases hwr
  | ok t =>
    rw [hx] at hwr
    injection hwr with hwr
    refine ⟨t, rfl, fun hwalk => found_dot ?_⟩
    simp only [Bool.false_eq_true, if_false] at hwr
    rw [← hfin _ hw, ← hwr]
    exact write_found _ (by rw [hlook _ hw]; exact walkable_look _ _ hwalk (splitDot_ne_nil _))

/-- no expression of a table reads what the table writes -/
theorem later_free (hS : Sound C P) {b : PBlock} (hb : b ∈ P) {s : Kind × String} (hs : ∃ p, s ∈ b.body.chosen p) {q : List String} (hq : q ∈ C.reads s.1 s.2)
    {w : String} (hw : w ∈ b.body.writes) : Independent (splitDot w) q := by
  refine not_rel.1 fun hr => hS.acyclic b.ref (.single ?_)
  obtain ⟨p, hp⟩ := hs
  have hat := blockAt_mem hS.unique hb
  refine .inr ⟨p, dots q, ?_, served hS hb hb (mem_paths (List.mem_append_right _ (chosen_later hp)) hq) hw hr⟩
  simp only [sys, hat]
  refine List.mem_flatMap.2 ⟨s, hp, ?_⟩
  rw [mem_dedup]
  exact List.mem_map.2 ⟨q, hq, rfl⟩

/-- writes of a block leave places apart from them alone -/
theorem writes_kept (hS : Sound C P) {b : PBlock} (hb : b ∈ P) : ∀ (ws : List (String × Val)), (∀ w ∈ ws, w.1 ∈ b.body.writes) → ∀ {cx : Cx}, Bound cx →
    Bound (writes ws cx) ∧ ∀ i, (∀ w ∈ b.body.writes, Independent (splitDot w) i) → look (writes ws cx).store i = look cx.store i
  | [], _, cx, h => ⟨h, fun _ _ => rfl⟩
  | w :: ws, hw, cx, h => by
    have hw1 := hw w (by simp)
    obtain ⟨h1, h2⟩ := writes_kept hS hb ws (fun x hx => hw x (by simp [hx])) (h.write (hS.own b hb w.1 hw1).2 w.2)
    exact ⟨h1, fun i hi => (h2 i hi).trans (by rw [write_store, look_other _ _ _ _ (hi w.1 hw1)])⟩

theorem cell_chosen {t : PTable} {c : OCol} (hc : c ∈ t.active) {rule : Rule} {i : Nat} (hr : t.rules[i]? = some rule) {cell : String} (hcell : cellOf rule c.id = some cell)
    {sel : TSel} (hu : (i, c.id) ∈ sel.used) : ((.standard, cell) : Kind × String) ∈ Body.chosen (.table t) (.rows sel) := by
  refine List.mem_flatMap.2 ⟨(i, c.id), hu, ?_⟩
  simp only [hr]
  exact List.mem_filterMap.2 ⟨c, List.mem_filter.2 ⟨hc, by simp⟩, by simp [hcell]⟩

theorem gathers_same {F : FrontEnd} {B : Builtins} {s s2 s3 : Scope} {t : PTable} {c : OCol} {rules : List Rule} {vs : List Val}
    (h : Gathers F B s s2 t c rules vs) (hr : ∀ rule ∈ rules, RowHolds F B s t.asTable rule → ∀ cell, cellOf rule c.id = some cell →
      freshRun F B s2 .standard cell = freshRun F B s3 .standard cell) : Gathers F B s s3 t c rules vs := by
  induction h with
  | nil => exact .nil
  | other hn _ ih => exact .other hn (ih fun rule hm => hr rule (by simp [hm]))
  | empty hn _ ih => exact .empty hn (ih fun rule hm => hr rule (by simp [hm]))
  | take hh hc hv _ ih => exact .take hh hc (by rw [← hr _ (by simp) hh _ hc]; exact hv) (ih fun rule hm => hr rule (by simp [hm]))

/-- A table: every column has the value it is to have when rows are matched, and cells evaluated, in the result. -/
theorem C58_table (hS : Sound C P) (m : List (String × Val)) (hm : (aKeys m).Nodup) (h0 : aGet m "$" = none) (goals : List String) (v : Val)
    (h : runPolicy C P goals (.obj m) = some (.ok v)) (r : BlockRef) (t : PTable) (hb : ⟨r, .table t⟩ ∈ P) (hix : ∃ indexed, C.index t = ixOf C.F t indexed)
    (ht : Tidy C.F t.asTable) (hids : (t.outputs.map OCol.id).Nodup)
    (hfields : t.active.Pairwise fun a b => Independent (splitDot a.field) (splitDot b.field))
    (hwalk : ∀ c ∈ t.active, Walkable (.obj m) (splitDot c.field)) (hg : ∃ c ∈ t.active, c.field ∈ goals) :
    ∀ c ∈ t.active, ∃ x, ColIs C.F C.B ⟨v, []⟩ ⟨v, []⟩ t c x ∧ v.dot c.field = some x := by
  obtain ⟨c0, hc0, hg⟩ := hg
  have inW : ∀ c ∈ t.active, c.field ∈ Body.writes (.table t) := fun c hc => List.mem_map.2 ⟨c, hc, rfl⟩
  obtain ⟨p, cx, _, hbound, hpick, _, hrun, hlook, cx', hwr, hfin⟩ := ran_entry hS hm h0 h hb hg (inW c0 hc0)
  obtain ⟨indexed, hix⟩ := hix
  simp only [Body.pickAt, hix] at hpick
  cases hsel : PTable.select C.F C.B t C.extras (ixOf C.F t indexed) ⟨v, []⟩ with
  | error e => rw [hsel] at hpick; cases hpick
  | ok sel =>
    rw [hsel] at hpick
    injection hpick with hpick
    subst hpick
    have hspec := C43_table_select ht C.extras indexed sel hsel
    have hout : OutputsOk t cx := ⟨hids, hfields, fun c hc => by
      rw [walkable_iff _ _ (splitDot_ne_nil _), hlook c.field (inW c hc)]
      exact walkable_look _ _ (hwalk c hc) (splitDot_ne_nil _)⟩
    have hfree : OwnFree C.F C.B t cx := by
      intro ws hws c hc rule hrule cell hcell
      obtain ⟨i, hi⟩ := List.getElem?_of_mem hrule
      have hch : ∃ p, ((.standard, cell) : Kind × String) ∈ Body.chosen (.table t) p :=
        ⟨.rows { matched := [i], used := [(i, c.id)], pending := 0, taken := [] }, cell_chosen hc hi hcell (by simp)⟩
      obtain ⟨hbw, hlw⟩ := writes_kept hS hb ws (fun w hw => by obtain ⟨c', hc', e⟩ := hws w hw; exact e ▸ inW c' hc') hbound
      refine run_same (hS.readable _ hb (.standard, cell) (List.mem_append_right _ (chosen_later hch.choose_spec))) hbw.seen hbound.seen
        (fun q hq => hlw q fun w hw => later_free hS hb hch hq hw) (.inl rfl)
    cases hcom : PTable.commit C.F C.B t C.order C.trace sel cx with
    | error e => simp only [Body.write, hcom] at hwr; cases hwr
    | ok q =>
      obtain ⟨cx1, evals⟩ := q
      simp only [Body.write, hcom] at hwr
      injection hwr with hwr
      subst hwr
      have := ((C43_table_commit hspec hout hfree C.order hS.order C.trace).2 cx1 evals hcom).1
      intro c hc
      obtain ⟨x, hx, hdot⟩ := this c hc
      have hcell : ∀ i rule, RowAt C.F C.B ⟨v, []⟩ t i rule → (c.collect = true ∨ ¬ Served C.F C.B ⟨v, []⟩ t i c.id) → ∀ cell, cellOf rule c.id = some cell →
          freshRun C.F C.B cx.scope .standard cell = freshRun C.F C.B ⟨v, []⟩ .standard cell := by
        intro i rule hrow huse cell hcell
        exact hrun (.standard, cell) (List.mem_append_right _ (cell_chosen hc hrow.1 hcell
          ((hspec.used i c.id).2 ⟨c, hc, rfl, rule, hrow, by rw [hcell]; simp, huse⟩)))
      refine ⟨x, ?_, ?_⟩
      · unfold ColIs at hx ⊢
        split at hx
        · rename_i hcol
          rw [if_pos hcol]
          obtain ⟨vs, hvs, rfl⟩ := hx
          refine ⟨vs, gathers_same hvs fun rule hrule hh cell hcl => ?_, rfl⟩
          obtain ⟨i, hi⟩ := List.getElem?_of_mem hrule
          exact hcell i rule ⟨hi, hh⟩ (.inl hcol) cell hcl
        · rename_i hcol
          rw [if_neg hcol]
          rcases hx with ⟨i, rule, cell, hrow, hcl, hv, hmin⟩ | hx
          · refine .inl ⟨i, rule, cell, hrow, hcl, ?_, hmin⟩
            rw [← hcell i rule hrow (.inr ?_) cell hcl]
            · exact hv
            · rintro ⟨j, rule', hj, hrow', hne⟩
              exact hne (hmin j rule' hj hrow')
          · exact .inr hx
      · unfold dot at hdot ⊢
        rw [look_dot] at hdot ⊢
        rw [← hfin c.field (inW c hc)]
        exact hdot

/-! ## Instances -/

theorem free_walk {m : List (String × Val)} {w : String} (h : aGet m (topSeg w) = none) : Walkable (.obj m) (splitDot w) := by
  obtain ⟨ks, hk⟩ := splitDot_topSeg w
  rw [hk]
  exact walkable_missing h

/-- the policy of C57, asked for everything -/
example : ∃ v, runPolicy unitCfg unitPolicy ["r.ok", "d.all", "r.m", "a"] (.obj unitInput) = some (.ok v) ∧ Sound unitCfg unitPolicy ∧
    (aKeys unitInput).Nodup ∧ aGet unitInput "$" = none ∧
    (∀ b ∈ unitPolicy, ∀ w ∈ b.body.writes, Walkable (.obj unitInput) (splitDot w)) ∧
    v.dot "a" = some (.num 3) ∧ v.dot "r.m" = some (.num 2) ∧ v.dot "r.ok" = some (.bool true) ∧ v.dot "d.v" = some (.num 3) := by
  refine ⟨_, rfl, unit_sound, by decide, by decide, fun b hb w hw => free_walk ?_, rfl, rfl, rfl, rfl⟩
  have : ∀ b ∈ unitPolicy, ∀ w ∈ b.body.writes, aGet unitInput (topSeg w) = none := by decide +kernel
  exact this b hb w hw

theorem unitTable_tidy : Tidy unitFront unitTable.asTable := by
  have hin : unitTable.asTable.inputs = [⟨"i", some "a"⟩] := rfl
  have hno : NoDollar unitFront "a" := by
    intro n hn
    have : n = .ident "a" := by
      have e : unitFront .standard "a" = .ok (.ident "a") := rfl
      rw [e] at hn; injection hn with hn; exact hn.symm
    subst this
    exact ⟨trivial, by simp [Avoids]⟩
  refine ⟨fun inp hi f hf => ?_, fun rule hr inp hi hf cell hc => ?_, fun _ _ o ho => by cases ho⟩
  · rw [hin] at hi
    rw [List.mem_singleton.1 hi] at hf
    injection hf with hf
    exact hf ▸ hno
  · rw [hin] at hi
    rw [List.mem_singleton.1 hi] at hf
    cases hf

/-- its table meets the hypotheses of `C58_table` -/
example (v : Val) (h : runPolicy unitCfg unitPolicy ["d.all"] (.obj unitInput) = some (.ok v)) :
    ∀ c ∈ unitTable.active, ∃ x, ColIs unitFront demoB ⟨v, []⟩ ⟨v, []⟩ unitTable c x ∧ v.dot c.field = some x := by
  refine C58_table unit_sound unitInput (by decide) (by decide) ["d.all"] v h ⟨"p", "D"⟩ unitTable (by simp [unitPolicy, blkD])
    ⟨false, rfl⟩ unitTable_tidy (by decide) ?_ ?_ ⟨⟨"q", "d.all", true⟩, by decide, by decide⟩
  · have h : unitTable.active.map (fun c => splitDot c.field) = [["d", "v"], ["d", "all"]] := by decide +kernel
    have : (unitTable.active.map (fun c => splitDot c.field)).Pairwise Independent := by
      rw [h]; unfold Independent; decide
    rwa [List.pairwise_map] at this
  · have : ∀ c ∈ unitTable.active, aGet unitInput (topSeg c.field) = none := by decide +kernel
    exact fun c hc => free_walk (this c hc)

end Zen.Policy
