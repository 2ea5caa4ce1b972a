import Verif.Policy.UnitProof
import Verif.Props.C09
/-
C57  What a policy gives for a goal does not depend on what else it is asked for.
-/
namespace Zen.Policy
open Zen Zen.Val
variable {C : Cfg} {P : List PBlock}

/-! ## Specification

`Sound` (Policy/UnitProof) says that every block of the policy writes places of its own and that what is read is reported; a policy
is run for a list of goals with `runPolicy` (Policy/Unit). -/

/-- each block needs only blocks of a lower rank -/
def Ranked (C : Cfg) (P : List PBlock) (rank : BlockRef → Nat) : Prop :=
  ∀ b ∈ P, ∀ q ∈ C.paths (b.body.sources ++ b.body.later), ∀ c ∈ writersIn C P (dots q), rank c < rank b.ref

/-- a goal that at most one block has to do with, and that the policy does not count as its input -/
structure Goal (C : Cfg) (P : List PBlock) (g : String) : Prop where
  single : ∀ c ∈ P, ∀ c' ∈ P, ∀ w ∈ c.body.writes, ∀ w' ∈ c'.body.writes, Rel (splitDot w) (splitDot g) → Rel (splitDot w') (splitDot g) →
    c.ref = c'.ref
  free : C.model g = false

/-! ## Proofs -/

theorem chosen_paths {b : PBlock} {p : Pick} {r : String} (h : r ∈ (b.body.chosen p).flatMap fun s => dedup ((C.reads s.1 s.2).map dots)) :
    ∃ q ∈ C.paths (b.body.sources ++ b.body.later), dots q = r := by
  obtain ⟨s, hs, hr⟩ := List.mem_flatMap.1 h
  rw [mem_dedup] at hr
  obtain ⟨q, hq, rfl⟩ := List.mem_map.1 hr
  exact ⟨q, mem_paths (List.mem_append_right _ (chosen_later hs)) hq, rfl⟩

/-- a rank rules out cycles -/
theorem acyclic_of_rank {rank : BlockRef → Nat} (h : Ranked C P rank) : ∀ r, ¬ Relation.TransGen (Dep (sys C P)) r r := by
  have step : ∀ b w, Dep (sys C P) b w → rank w < rank b := by
    intro r w hd
    have none_case : blockAt P r = none → False := by
      intro hb
      rcases hd with ⟨x, hx, _⟩ | ⟨p, x, hx, _⟩ <;> · simp only [sys, hb] at hx; cases hx
    cases hb : blockAt P r with
    | none => exact (none_case hb).elim
    | some b =>
      obtain ⟨hbm, rfl⟩ := blockAt_some hb
      rcases hd with ⟨x, hx, hw⟩ | ⟨p, x, hx, hw⟩
      · simp only [sys, hb] at hx
        rw [mem_dedup] at hx
        obtain ⟨q, hq, rfl⟩ := List.mem_map.1 hx
        exact h b hbm q (paths_mono (fun s hs => List.mem_append_left _ hs) hq) w hw
      · simp only [sys, hb] at hx
        obtain ⟨q, hq, rfl⟩ := chosen_paths hx
        exact h b hbm q hq w hw
  have trans : ∀ b w, Relation.TransGen (Dep (sys C P)) b w → rank w < rank b := by
    intro b w ht
    induction ht with
    | single hd => exact step _ _ hd
    | tail _ hd ih => exact lt_trans (step _ _ hd) ih
  exact fun r hr => lt_irrefl _ (trans r r hr)

theorem start_synced {m : List (String × Val)} (hm : (aKeys m).Nodup) : Synced (Cx.start (.obj m)) :=
  ⟨m, m, rfl, rfl, hm, fun _ _ => rfl⟩

theorem run_ok {goals : List String} {input v : Val} (h : runPolicy C P goals input = some (.ok v)) :
    ∃ st, drive (sys C P) (P.length + 1) goals (Cx.start input) = some (.ok (), st) ∧ st.store.store = v := by
  unfold runPolicy at h
  obtain ⟨⟨r, st⟩, hd, hr⟩ := Option.map_eq_some_iff.1 h
  cases r with
  | error e => cases hr
  | ok u => injection hr with hr; exact ⟨st, hd, hr⟩

theorem goal_excl {g : String} (hg : Goal C P g) : Excl (sys C P) (view C P) (splitDot g) := by
  rintro r r' _ _ ⟨c, hc, w, hw, hwr⟩ ⟨c', hc', w', hw', hwr'⟩
  obtain ⟨hcm, rfl⟩ := blockAt_some hc
  obtain ⟨hcm', rfl⟩ := blockAt_some hc'
  exact hg.single c hcm c' hcm' w hw w' hw' hwr hwr'

theorem goal_served (hS : Sound C P) {g : String} (hg : Goal C P g) {r : BlockRef} (h : (view C P).touch r (splitDot g)) : r ∈ (sys C P).writersOf g := by
  obtain ⟨c, hc, w, hw, hr⟩ := h
  obtain ⟨hcm, rfl⟩ := blockAt_some hc
  exact C37_read_served C.model (rulesOf P) hS.apart g hg.free ⟨c.ref, c.body.writes⟩ (List.mem_map.2 ⟨c, hcm, rfl⟩) w hw (hS.own c hcm w hw).1 hr

/-- a path that a block writes is such a goal -/
theorem goal_of_write (hS : Sound C P) {b : PBlock} (hb : b ∈ P) {w : String} (hw : w ∈ b.body.writes) : Goal C P w where
  single c hc c' hc' x hx x' hx' hr hr' :=
    excl_write hS hb hw c.ref c'.ref (by simp [sys, blockAt_mem hS.unique hc]) (by simp [sys, blockAt_mem hS.unique hc'])
      ⟨c, blockAt_mem hS.unique hc, x, hx, hr⟩ ⟨c', blockAt_mem hS.unique hc', x', hx', hr'⟩
  free := (hS.own b hb w hw).1

theorem writersIn_ref {p : String} {r : BlockRef} (h : r ∈ writersIn C P p) : ∃ b ∈ P, r = b.ref := by
  rcases C37_longest_prefix (computeWriters C.model (rulesOf P)) p with ⟨t, _, _, _, _, hiff⟩ | ⟨_, hn⟩
  · obtain ⟨q, hq, _⟩ := (hiff r).1 h
    obtain ⟨w, hw, e, _⟩ := (C37_table C.model (rulesOf P)).2.2 q r hq
    obtain ⟨b, hb, rfl⟩ := List.mem_map.1 hw
    exact ⟨b, hb, e⟩
  · have h : r ∈ writersOfLongestPrefix (collectDemandWriters (computeWriters C.model (rulesOf P))) p := h
    rw [hn] at h; cases h

/-! ## Theorems -/

/-- Two runs on the same input that were both asked for a goal, whatever else they were asked for and in whatever order,
give it the same value. -/
theorem C57_goals (hS : Sound C P) (m : List (String × Val)) (hm : (aKeys m).Nodup) (goals goals' : List String) (v v' : Val)
    (h : runPolicy C P goals (.obj m) = some (.ok v)) (h' : runPolicy C P goals' (.obj m) = some (.ok v')) (g : String) (hg : Goal C P g)
    (hin : g ∈ goals) (hin' : g ∈ goals') : v.dot g = v'.dot g := by
  obtain ⟨st, hd, rfl⟩ := run_ok h
  obtain ⟨st', hd', rfl⟩ := run_ok h'
  have := drive_agree (faithful hS) (start_synced hm) hd hd' (goal_excl hg) hin hin' fun c _ ht => goal_served hS hg ht
  unfold dot
  rw [look_dot, look_dot, show look st.store.store (splitDot g) = look st'.store.store (splitDot g) from this]

/-- every run ends -/
theorem C57_ends (C : Cfg) (P : List PBlock) (goals : List String) (input : Val) : ∃ r, runPolicy C P goals input = some r := by
  obtain ⟨out, h⟩ := C36_terminates (sys C P) (P.map PBlock.ref) (fun p r hr => by
    obtain ⟨b, hb, rfl⟩ := writersIn_ref hr
    exact List.mem_map.2 ⟨b, hb, rfl⟩) goals (Cx.start input)
  rw [List.length_map] at h
  exact ⟨_, by unfold runPolicy; rw [h]; rfl⟩

/-- If a run succeeds, so does one that asks for less, and with the same values. -/
theorem C57_fewer (hS : Sound C P) (m : List (String × Val)) (hm : (aKeys m).Nodup) (many few : List String) (v : Val)
    (h : runPolicy C P many (.obj m) = some (.ok v)) (hsub : ∀ g ∈ few, g ∈ many) :
    ∃ v', runPolicy C P few (.obj m) = some (.ok v') ∧ ∀ g ∈ few, Goal C P g → v'.dot g = v.dot g := by
  obtain ⟨st, hd, rfl⟩ := run_ok h
  have hx : ∃ v', runPolicy C P few (.obj m) = some (.ok v') := by
    obtain ⟨r, hr⟩ := C57_ends C P few (.obj m)
    unfold runPolicy at hr ⊢
    obtain ⟨⟨r1, st1⟩, hd1, hr1⟩ := Option.map_eq_some_iff.1 hr
    have := drive_fewer (faithful hS) (start_synced hm) hd hd1 hsub
    subst this
    exact ⟨_, by rw [hd1]; rfl⟩
  obtain ⟨v', hv'⟩ := hx
  exact ⟨v', hv', fun g hg hG => C57_goals hS m hm few many v' _ hv' h g hG hg (hsub g hg)⟩

/-- The order of the goals, and how often each is named, does not matter: a run succeeds or fails either way, and gives the same values. -/
theorem C57_order (hS : Sound C P) (m : List (String × Val)) (hm : (aKeys m).Nodup) (goals goals' : List String)
    (hsame : ∀ g, g ∈ goals ↔ g ∈ goals') :
    (∃ v v', runPolicy C P goals (.obj m) = some (.ok v) ∧ runPolicy C P goals' (.obj m) = some (.ok v') ∧
      ∀ g ∈ goals, Goal C P g → v.dot g = v'.dot g) ∨
    ∃ e e', runPolicy C P goals (.obj m) = some (.error e) ∧ runPolicy C P goals' (.obj m) = some (.error e') := by
  obtain ⟨r, hr⟩ := C57_ends C P goals (.obj m)
  obtain ⟨r', hr'⟩ := C57_ends C P goals' (.obj m)
  cases r with
  | ok v =>
    obtain ⟨v', h', hs⟩ := C57_fewer hS m hm goals goals' v hr fun g hg => (hsame g).2 hg
    exact .inl ⟨v, v', hr, h', fun g hg hG => (hs g ((hsame g).1 hg) hG).symm⟩
  | error e =>
    cases r' with
    | error e' => exact .inr ⟨e, e', hr, hr'⟩
    | ok v' =>
      obtain ⟨v, h, _⟩ := C57_fewer hS m hm goals' goals v' hr' fun g hg => (hsame g).1 hg
      rw [hr] at h; cases h

/-- What no block writes is as in the input. -/
theorem C57_input (hS : Sound C P) (m : List (String × Val)) (hm : (aKeys m).Nodup) (goals : List String) (v : Val)
    (h : runPolicy C P goals (.obj m) = some (.ok v)) (q : String) (hq : ∀ b ∈ P, ∀ w ∈ b.body.writes, Independent (splitDot w) (splitDot q)) :
    v.dot q = (Val.obj m).dot q := by
  obtain ⟨st, hd, rfl⟩ := run_ok h
  have no : ∀ r, ¬ (view C P).touch r (splitDot q) := by
    rintro r ⟨c, hc, w, hw, hr⟩
    exact not_rel.2 (hq c (blockAt_some hc).1 w hw) hr
  have := (drive_cert (faithful hS) (start_synced hm) hd).rest (splitDot q) (fun r r' _ _ ht => absurd ht (no r)) fun r _ => no r
  unfold dot
  rw [look_dot, look_dot, show look st.store.store (splitDot q) = look (Val.obj m) (splitDot q) from this]

/-! ## Instances -/

/-- the expressions of the policies below -/
def unitFront : FrontEnd := fun _ src =>
  if src = "x" then .ok (.ident "x") else if src = "y" then .ok (.ident "y") else if src = "a" then .ok (.ident "a")
  else if src = "a > y" then .ok (.binary (.cmp .gt) (.ident "a") (.ident "y"))
  else if src = "r.m == y" then .ok (.binary (.cmp .eq) (.member (.ident "r") (.str "m")) (.ident "y"))
  else if src = "$root.a" then .ok (.member .root (.str "a"))
  else if src = "c ? (a = 1; a) : a" then .ok (.cond (.ident "c") (.paren (.assigns [(.str "a", .num 1)] (some (.ident "a")))) (.ident "a"))
  else if src = "r" then .ok (.ident "r")
  else .error (.front "unexpected")

def unitCfg : Cfg where
  F := unitFront
  B := demoB
  model := matchesModel ["x", "y"]
  extras := false
  trace := false
  index := fun _ => none
  order := id
  lost := fun _ _ => []

def blkA : PBlock := ⟨⟨"p", "A"⟩, .expression "a" "x"⟩
/-- `r.m` is `y` when `a > y`, and `a` otherwise -/
def blkM : PBlock := ⟨⟨"p", "M"⟩, .match_ { key := "r.m", arms := [⟨"1", "a > y", "y"⟩, ⟨"2", "", "a"⟩] }⟩
def blkT : PBlock := ⟨⟨"p", "T"⟩, .assertion { output := "r.ok", conds := [⟨"r.m == y", .and, 0⟩, ⟨"a > y", .or, 1⟩] }⟩
def unitTable : PTable where
  inputs := [⟨"i", some "a"⟩]
  outputs := [⟨"o", "d.v", false⟩, ⟨"q", "d.all", true⟩]
  rules := [[("o", "x"), ("q", "a")], [("q", "y")]]
def blkD : PBlock := ⟨⟨"p", "D"⟩, .table unitTable⟩

def unitPolicy : List PBlock := [blkT, blkD, blkM, blkA]

instance (p q : List String) : Decidable (Rel p q) := inferInstanceAs (Decidable (_ ∨ _))

theorem readable_of_check {C : Cfg} {k : Kind} {src : String} (h : (match C.F k src with
    | .ok n => Reads.tame n && decide (Reads.nesting n < 32) &&
        (Reads.planned (isUnary k) n).all fun q => decide (q ∈ C.reads k src) && decide (q.head? ≠ some "$root")
    | .error _ => true) = true) : Readable C k src := by
  intro n hn
  rw [hn] at h
  simp only [Bool.and_eq_true, decide_eq_true_eq, List.all_eq_true] at h
  exact ⟨h.1.1, h.1.2, h.2⟩

theorem unit_sound : Sound unitCfg unitPolicy where
  unique := by decide +kernel
  order l := List.Perm.refl l
  columns := by
    intro b hb t ht c hc c' hc' e
    simp only [unitPolicy, List.mem_cons, List.not_mem_nil, or_false] at hb
    rcases hb with rfl | rfl | rfl | rfl <;> cases ht
    have : ∀ c ∈ [(⟨"o", "d.v", false⟩ : OCol), ⟨"q", "d.all", true⟩], c.field ≠ "" := by decide
    exact List.mem_filter.2 ⟨hc, by simpa using this c hc⟩
  apart := by unfold Apart; decide +kernel
  own := by decide +kernel
  readable := by
    have : ∀ b ∈ unitPolicy, ∀ s ∈ b.body.sources ++ b.body.later, (match unitCfg.F s.1 s.2 with
      | .ok n => Reads.tame n && decide (Reads.nesting n < 32) &&
          (Reads.planned (isUnary s.1) n).all fun q => decide (q ∈ unitCfg.reads s.1 s.2) && decide (q.head? ≠ some "$root")
      | .error _ => true) = true := by decide +kernel
    exact fun b hb s hs => readable_of_check (this b hb s hs)
  single := by decide +kernel
  free := by decide +kernel
  acyclic := acyclic_of_rank (rank := fun r => if r.block = "A" then 0 else if r.block = "T" then 2 else 1) (by unfold Ranked; decide +kernel)

def unitInput : List (String × Val) := [("x", .num 3), ("y", .num 2), ("c", .bool false)]

example : ∃ v, runPolicy unitCfg unitPolicy ["r.ok", "d.all", "r.m"] (.obj unitInput) = some (.ok v) ∧
    v.dot "r.ok" = some (.bool true) ∧ v.dot "d.all" = some (.arr [.num 3, .num 2]) ∧ v.dot "r.m" = some (.num 2) :=
  ⟨_, rfl, rfl, rfl, rfl⟩

theorem unit_goal : ∀ g ∈ ["r.ok", "d.all", "r.m"], Goal unitCfg unitPolicy g := by
  intro g hg
  have : ∀ g ∈ ["r.ok", "d.all", "r.m"], ∃ b ∈ unitPolicy, g ∈ b.body.writes := by decide +kernel
  obtain ⟨b, hb, hw⟩ := this g hg
  exact goal_of_write unit_sound hb hw

/-- asked for one thing, it gives the same -/
example : ∃ v, runPolicy unitCfg unitPolicy ["r.ok"] (.obj unitInput) = some (.ok v) ∧ v.dot "r.ok" = some (.bool true) ∧ v.dot "d.all" = none :=
  ⟨_, rfl, rfl, rfl⟩

/-! ## Findings -/

/-- the two runs succeed and disagree about the goal -/
def Disagree (C : Cfg) (P : List PBlock) (goals goals' : List String) (g : String) (x x' : Val) : Prop :=
  ∃ v v', runPolicy C P goals (.obj unitInput) = some (.ok v) ∧ runPolicy C P goals' (.obj unitInput) = some (.ok v') ∧
    g ∈ goals ∧ g ∈ goals' ∧ v.dot g = some x ∧ v'.dot g = some x'

/-- NEGATIVE: a read below `$root` is reported under that name, so the block that writes it is not asked for; the
value depends on whether it ran before. -/
theorem C57_root : Reads.planned false (.member .root (.str "a")) = [["$root", "a"]] ∧
    Disagree unitCfg [blkA, ⟨⟨"p", "B"⟩, .expression "b" "$root.a"⟩] ["b", "a"] ["a", "b"] "b" .null (.num 3) :=
  ⟨by decide +kernel, _, _, rfl, rfl, by decide, by decide, rfl, rfl⟩

/-- NEGATIVE: the same for a read that an assignment in another branch hides. -/
theorem C57_hidden_read :
    Disagree unitCfg [blkA, ⟨⟨"p", "B"⟩, .expression "b" "c ? (a = 1; a) : a"⟩] ["b", "a"] ["a", "b"] "b" .null (.num 3) :=
  ⟨_, _, rfl, rfl, by decide, by decide, rfl, rfl⟩

/-- NEGATIVE: an object whose fields are written by two blocks lists them in the order in which the blocks ran. -/
theorem C57_field_order :
    Disagree unitCfg [⟨⟨"p", "A"⟩, .expression "r.a" "x"⟩, ⟨⟨"p", "B"⟩, .expression "r.b" "y"⟩, ⟨⟨"p", "K"⟩, .expression "k" "r"⟩]
      ["k", "r.b"] ["r.b", "k"] "k" (.obj [("a", .num 3), ("b", .num 2)]) (.obj [("b", .num 2), ("a", .num 3)]) :=
  ⟨_, _, rfl, rfl, by decide, by decide, rfl, rfl⟩

/-- NEGATIVE: when the data model has something below `r`, a read of `r` does not ask for the block that writes another field of `r`. -/
theorem C57_model_above :
    Disagree { unitCfg with model := matchesModel ["x", "r.z"] } [⟨⟨"p", "A"⟩, .expression "r.a" "x"⟩, ⟨⟨"p", "K"⟩, .expression "k" "r"⟩]
      ["k", "r.a"] ["r.a", "k"] "k" .null (.obj [("a", .num 3)]) :=
  ⟨_, _, rfl, rfl, by decide, by decide, rfl, rfl⟩

/-- NEGATIVE: of two blocks that need each other the one that is asked for first sees what the other wrote, and not the other way round. -/
theorem C57_cycle :
    Disagree unitCfg [⟨⟨"p", "A"⟩, .match_ { key := "a", arms := [⟨"1", "r.m == y", "x"⟩, ⟨"2", "", "y"⟩] }⟩,
        ⟨⟨"p", "M"⟩, .match_ { key := "r.m", arms := [⟨"1", "", "y"⟩, ⟨"2", "a > y", "x"⟩] }⟩]
      ["a", "r.m"] ["r.m", "a"] "a" (.num 3) (.num 2) :=
  ⟨_, _, rfl, rfl, by decide, by decide, rfl, rfl⟩

end Zen.Policy
