import Verif.Props.C36
/-
When the result of a policy does not depend on what else is asked for: a proof for any blocks that see and change the
state only in the places their reads and writes say.
-/
namespace Zen.Policy
variable {S P E ι O : Type}

/-- How blocks see and change the state: `obs` is what there is at a place; a block may change the places it touches,
its tests look at some places, and so do the values it chose. -/
structure View (S P ι O : Type) where
  ok : S → Prop
  obs : S → ι → O
  touch : BlockRef → ι → Prop
  tests : BlockRef → ι → Prop
  uses : BlockRef → P → ι → Prop

/-- at most one block changes a place -/
def Excl (Y : Sys S P E) (V : View S P ι O) (i : ι) : Prop :=
  ∀ b c, Y.rule b = true → Y.rule c = true → V.touch b i → V.touch c i → b = c

/-- The blocks do what the view says, what they look at is changed by at most one block, and they ask for that block. -/
structure Faithful (Y : Sys S P E) (V : View S P ι O) : Prop where
  acyclic : ∀ b, ¬ Relation.TransGen (Dep Y) b b
  selOk : ∀ b s, V.ok s → V.ok (Y.select b s).2
  selObs : ∀ b s i, V.ok s → V.obs (Y.select b s).2 i = V.obs s i
  sel : ∀ b s s', Y.rule b = true → V.ok s → V.ok s' → (∀ i, V.tests b i → V.obs s i = V.obs s' i) →
    (Y.select b s).1 = (Y.select b s').1
  comOk : ∀ b p s, Y.rule b = true → (∃ s1, V.ok s1 ∧ (Y.select b s1).1 = .ok p) → V.ok s → V.ok (Y.commit b p s).2
  comObs : ∀ b p s i, Y.rule b = true → (∃ s1, V.ok s1 ∧ (Y.select b s1).1 = .ok p) → V.ok s → ¬ V.touch b i → V.obs (Y.commit b p s).2 i = V.obs s i
  com : ∀ b p s s', Y.rule b = true → (∃ s1, V.ok s1 ∧ (Y.select b s1).1 = .ok p) → V.ok s → V.ok s' →
    (∀ i, V.uses b p i ∨ (V.touch b i ∧ Excl Y V i) → V.obs s i = V.obs s' i) →
    (Y.commit b p s).1 = (Y.commit b p s').1 ∧
      ∀ i, V.touch b i → Excl Y V i → V.obs (Y.commit b p s).2 i = V.obs (Y.commit b p s').2 i
  testsExcl : ∀ b i, Y.rule b = true → V.tests b i → Excl Y V i
  usesExcl : ∀ b p i, Y.rule b = true → V.uses b p i → Excl Y V i
  testsServed : ∀ b c i, Y.rule b = true → Y.rule c = true → V.tests b i → V.touch c i → c ∈ (Y.uncond b).flatMap Y.writersOf
  usesServed : ∀ b p c i, Y.rule b = true → Y.rule c = true → V.uses b p i → V.touch c i → c ∈ asks Y b p

/-- What is known about a block that ran: it made its choice and wrote while everything it looked at was as it is at the
end, and what only it writes was as it was at the start. -/
def Entry (Y : Sys S P E) (V : View S P ι O) (s0 s : S) (b : BlockRef) (p : P) : Prop :=
  ∃ s1 s2, V.ok s1 ∧ V.ok s2 ∧ (Y.select b s1).1 = .ok p ∧ (Y.commit b p s2).1 = .ok () ∧
    (∀ i, V.tests b i → V.obs s1 i = V.obs s i) ∧ (∀ i, V.uses b p i → V.obs s2 i = V.obs s i) ∧
    (∀ i, V.touch b i → Excl Y V i → V.obs s2 i = V.obs s0 i ∧ V.obs (Y.commit b p s2).2 i = V.obs s i)

/-- what is known about a state that was reached from `s0` -/
structure Cert (Y : Sys S P E) (V : View S P ι O) (s0 : S) (st : St S P) : Prop where
  ok : V.ok st.store
  entry : ∀ b p, (b, p) ∈ st.log → Entry Y V s0 st.store b p
  rest : ∀ i, Excl Y V i → (∀ b ∈ refs st.log, ¬ V.touch b i) → V.obs st.store i = V.obs s0 i
  order : ∀ pre b p post, st.log = pre ++ (b, p) :: post → ∀ w ∈ asks Y b p, Y.rule w = true → w ∈ refs pre

/-- places that only blocks touch that had run before are as before -/
def Frame (V : View S P ι O) (st st' : St S P) : Prop :=
  ∀ i, (∀ b ∈ refs st'.log, V.touch b i → b ∈ refs st.log) → V.obs st'.store i = V.obs st.store i

theorem Cert.store {Y : Sys S P E} {V : View S P ι O} {s0 : S} {st : St S P} (h : Cert Y V s0 st) {s : S} (ho : V.ok s)
    (hs : ∀ i, V.obs s i = V.obs st.store i) : Cert Y V s0 { st with store := s } := by
  refine ⟨ho, fun b p hb => ?_, fun i hi hn => (hs i).trans (h.rest i hi hn), h.order⟩
  obtain ⟨s1, s2, a, b, c, d, e, f, g⟩ := h.entry b p hb
  exact ⟨s1, s2, a, b, c, d, fun i hi => (e i hi).trans (hs i).symm, fun i hi => (f i hi).trans (hs i).symm,
    fun i hi hx => ⟨(g i hi hx).1, (g i hi hx).2.trans (hs i).symm⟩⟩

def Pres (Y : Sys S P E) (V : View S P ι O) (s0 : S) (run : BlockRef → St S P → Option (Except E Unit × St S P)) : Prop :=
  ∀ b st st', Inv Y st → Chain Y st b → Cert Y V s0 st → run b st = some (.ok (), st') → Cert Y V s0 st' ∧ Frame V st st'

theorem mem_refs {l : List (BlockRef × P)} {b : BlockRef} (h : b ∈ refs l) : ∃ p, (b, p) ∈ l := by
  obtain ⟨⟨c, p⟩, hm, rfl⟩ := List.mem_map.1 h
  exact ⟨p, hm⟩

theorem Frame.trans {V : View S P ι O} {st st1 st2 : St S P} (h1 : Frame V st st1) (h2 : Frame V st1 st2)
    (l1 : ∀ b ∈ refs st.log, b ∈ refs st1.log) (l2 : ∀ b ∈ refs st1.log, b ∈ refs st2.log) : Frame V st st2 := by
  intro i hi
  rw [h2 i fun b hb ht => l1 b (hi b hb ht), h1 i fun b hb ht => hi b (l2 b hb) ht]

theorem Step.refsSub {Y : Sys S P E} {r : List BlockRef} {st st' : St S P} {N : List (BlockRef × P)} {ok : Prop}
    (h : Step Y r st st' N ok) : ∀ b ∈ refs st.log, b ∈ refs st'.log := by
  intro b hb
  rw [h.log, refs_append]
  exact List.mem_append_left _ hb

theorem demandAll_pres {Y : Sys S P E} {V : View S P ι O} {s0 : S} {run : BlockRef → St S P → Option (Except E Unit × St S P)}
    (hrun : Runs Y run) (hp : Pres Y V s0 run) : ∀ (bs : List BlockRef) (st st' : St S P), Inv Y st → (∀ b ∈ bs, Chain Y st b) →
      Cert Y V s0 st → demandAll run bs st = some (.ok (), st') → Cert Y V s0 st' ∧ Frame V st st'
  | [], st, st', _, _, hc, h => by
    injection h with h; injection h with _ h; subst h
    exact ⟨hc, fun i _ => rfl⟩
  | b :: bs, st, st', hi, hch, hc, h => by
    unfold demandAll at h
    cases hr : run b st with
    | none => rw [hr] at h; cases h
    | some q =>
      obtain ⟨r1, st1⟩ := q
      rw [hr] at h
      cases r1 with
      | error e => injection h with h; injection h with h _; cases h
      | ok u =>
        obtain ⟨N1, s1⟩ := hrun b st _ st1 hi (hch b (by simp)) hr
        obtain ⟨c1, f1⟩ := hp b st st1 hi (hch b (by simp)) hc hr
        have hch1 : ∀ c ∈ bs, Chain Y st1 c := by
          intro c hcm
          unfold Chain
          rw [s1.busy]
          exact hch c (by simp [hcm])
        obtain ⟨N2, s2⟩ := demandAll_step hrun bs st1 _ st' s1.inv hch1 h
        obtain ⟨c2, f2⟩ := demandAll_pres hrun hp bs st1 st' s1.inv hch1 c1 h
        exact ⟨c2, f1.trans f2 s1.refsSub s2.refsSub⟩

/-- a block that is asked for is not one of those in progress -/
theorem not_busy {Y : Sys S P E} {V : View S P ι O} (hf : Faithful Y V) {st : St S P} {b w : BlockRef} (hc : Chain Y st b)
    (hd : Dep Y b w) : w ∉ b :: st.busy := by
  intro hw
  rcases List.mem_cons.1 hw with rfl | hw
  · exact hf.acyclic w (.single hd)
  · rcases hc w hw with rfl | h
    · exact hf.acyclic w (.single hd)
    · exact hf.acyclic w (h.tail hd)

theorem runBlock_pres {Y : Sys S P E} {V : View S P ι O} (hf : Faithful Y V) (s0 : S) : ∀ n, Pres Y V s0 (runBlock Y n)
  | 0 => by intro b st st' _ _ _ h; cases h
  | n + 1 => by
    have ih := runBlock_pres hf s0 n
    have hruns := runBlock_runs Y n
    intro b st st' hi hch hc h
    unfold runBlock at h
    by_cases hseen : b ∈ st.ran ∨ b ∈ st.busy
    · rw [if_pos hseen] at h
      injection h with h; injection h with _ h; subst h
      exact ⟨hc, fun i _ => rfl⟩
    · rw [if_neg hseen] at h
      have hran : b ∉ st.ran := fun hh => hseen (.inl hh)
      have hi1 : Inv Y { st with busy := b :: st.busy } :=
        ⟨hi.nodup, hi.logged, hi.ran, hi.rules, fun c hcr hcb => by
          rcases List.mem_cons.1 hcb with rfl | hcb
          · exact hran hcr
          · exact hi.apart c hcr hcb⟩
      have hc1 : Cert Y V s0 { st with busy := b :: st.busy } := ⟨hc.ok, hc.entry, hc.rest, hc.order⟩
      unfold runInner at h
      by_cases hrule : Y.rule b = true
      · rw [if_pos hrule] at h
        cases h1 : demandAll (runBlock Y n) ((Y.uncond b).flatMap Y.writersOf) { st with busy := b :: st.busy } with
        | none => rw [h1] at h; cases h
        | some q =>
          obtain ⟨r1, st1⟩ := q
          rw [h1] at h
          cases r1 with
          | error e => injection h with h; injection h with h _; cases h
          | ok u =>
            have hch1 : ∀ w ∈ (Y.uncond b).flatMap Y.writersOf, Chain Y { st with busy := b :: st.busy } w :=
              fun w hw x hx => chain_ask hch (dep_uncond hw) x hx
            obtain ⟨N1, s1⟩ := demandAll_step hruns _ _ _ _ hi1 hch1 h1
            obtain ⟨c1, f1⟩ := demandAll_pres hruns ih _ _ _ hi1 hch1 hc1 h1
            dsimp only at h
            unfold runPhases at h
            cases hsel : Y.select b st1.store with
            | mk rs s =>
              rw [hsel] at h
              cases rs with
              | error e => injection h with h; injection h with h _; cases h
              | ok p =>
                dsimp only at h
                have hs_ok : V.ok s := by have := hf.selOk b st1.store c1.ok; rwa [hsel] at this
                have hs_obs : ∀ i, V.obs s i = V.obs st1.store i := by
                  intro i
                  have := hf.selObs b st1.store i c1.ok
                  rwa [hsel] at this
                have c1s : Cert Y V s0 { st1 with store := s } := c1.store hs_ok hs_obs
                cases h2 : demandAll (runBlock Y n) ((Y.cond b p).flatMap Y.writersOf) { st1 with store := s } with
                | none => rw [h2] at h; cases h
                | some q =>
                  obtain ⟨r2, st2⟩ := q
                  rw [h2] at h
                  cases r2 with
                  | error e => injection h with h; injection h with h _; cases h
                  | ok u =>
                    have hi2 : Inv Y { st1 with store := s } := ⟨s1.inv.nodup, s1.inv.logged, s1.inv.ran, s1.inv.rules, s1.inv.apart⟩
                    have hch2 : ∀ w ∈ (Y.cond b p).flatMap Y.writersOf, Chain Y { st1 with store := s } w := by
                      intro w hw x hx
                      refine chain_ask hch (dep_cond hw) x ?_
                      have hx : x ∈ st1.busy := hx
                      rw [s1.busy] at hx; exact hx
                    obtain ⟨N2, s2⟩ := demandAll_step hruns _ _ _ _ hi2 hch2 h2
                    obtain ⟨c2, f2⟩ := demandAll_pres hruns ih _ _ _ hi2 hch2 c1s h2
                    dsimp only at h
                    cases hcm : Y.commit b p st2.store with
                    | mk rc s' =>
                      rw [hcm] at h
                      cases rc with
                      | error e => injection h with h; injection h with h _; cases h
                      | ok u =>
                        injection h with h; injection h with _ h; subst h
                        have hb2 : b ∉ refs st2.log := fun hh => s2.inv.apart b (s2.inv.logged b hh) (by
                          rw [s2.busy]; show b ∈ st1.busy; rw [s1.busy]; simp)
                        have hcom : (Y.commit b p st2.store).2 = s' := by rw [hcm]
                        have hpick : ∃ s1, V.ok s1 ∧ (Y.select b s1).1 = .ok p := ⟨st1.store, c1.ok, by rw [hsel]⟩
                        have hs'ok : V.ok s' := hcom ▸ hf.comOk b p st2.store hrule hpick c2.ok
                        have hs'obs : ∀ i, ¬ V.touch b i → V.obs s' i = V.obs st2.store i := fun i hi => hcom ▸ hf.comObs b p st2.store i hrule hpick c2.ok hi
                        -- everything asked for has run
                        have asked1 : ∀ w ∈ (Y.uncond b).flatMap Y.writersOf, Y.rule w = true → w ∈ refs st1.log := by
                          intro w hw hr
                          refine s1.inv.ran w ((s1.served rfl w hw).resolve_right ?_) hr
                          exact not_busy hf hch (dep_uncond hw)
                        have asked2 : ∀ w ∈ (Y.cond b p).flatMap Y.writersOf, Y.rule w = true → w ∈ refs st2.log := by
                          intro w hw hr
                          refine s2.inv.ran w ((s2.served rfl w hw).resolve_right ?_) hr
                          show w ∉ st1.busy
                          rw [s1.busy]
                          exact not_busy hf hch (dep_cond hw)
                        have asked : ∀ w ∈ asks Y b p, Y.rule w = true → w ∈ refs st2.log := by
                          intro w hw hr
                          unfold asks at hw
                          rw [List.flatMap_append] at hw
                          rcases List.mem_append.1 hw with hw | hw
                          · exact s2.refsSub w (asked1 w hw hr)
                          · exact asked2 w hw hr
                        -- what earlier blocks looked at or wrote is not changed
                        have entryKeep : ∀ c q, (c, q) ∈ st2.log → Entry Y V s0 s' c q := by
                          intro c q hq
                          obtain ⟨t1, t2, e1, e2, e3, e4, e5, e6, e7⟩ := c2.entry c q hq
                          have hcr : c ∈ refs st2.log := List.mem_map.2 ⟨_, hq, rfl⟩
                          have hrc : Y.rule c = true := s2.inv.rules c hcr
                          obtain ⟨pre, post, hsplit⟩ := List.append_of_mem hq
                          have hpre : ∀ w ∈ asks Y c q, Y.rule w = true → w ∈ refs st2.log := by
                            intro w hw hr
                            have := c2.order pre c q post hsplit w hw hr
                            rw [hsplit, refs_append]
                            exact List.mem_append_left _ this
                          refine ⟨t1, t2, e1, e2, e3, e4, fun i hi => ?_, fun i hi => ?_, fun i hi hx => ⟨(e7 i hi hx).1, ?_⟩⟩
                          · rw [e5 i hi, hs'obs i]
                            intro ht
                            refine hb2 (hpre b ?_ hrule)
                            unfold asks
                            rw [List.flatMap_append]
                            exact List.mem_append_left _ (hf.testsServed c b i hrc hrule hi ht)
                          · rw [e6 i hi, hs'obs i]
                            intro ht
                            exact hb2 (hpre b (hf.usesServed c q b i hrc hrule hi ht) hrule)
                          · rw [(e7 i hi hx).2, hs'obs i]
                            intro ht
                            exact hb2 (hx b c hrule hrc ht hi ▸ hcr)
                        have notSelf : ∀ i, V.uses b p i → ¬ V.touch b i := by
                          intro i hi ht
                          exact hb2 (asked b (hf.usesServed b p b i hrule hrule hi ht) hrule)
                        have own : ∀ i, V.touch b i → Excl Y V i → ∀ c ∈ refs st2.log, ¬ V.touch c i := by
                          intro i ht hx c hcr htc
                          exact hb2 (hx b c hrule (s2.inv.rules c hcr) ht htc ▸ hcr)
                        refine ⟨⟨hs'ok, ?_, ?_, ?_⟩, ?_⟩
                        · intro c q hq
                          rcases List.mem_append.1 hq with hq | hq
                          · exact entryKeep c q hq
                          · injection List.mem_singleton.1 hq with hx hy
                            subst hx; subst hy
                            refine ⟨st1.store, st2.store, c1.ok, c2.ok, by rw [hsel], by rw [hcm], fun i hi => ?_, fun i hi => ?_, fun i hi hx => ⟨?_, ?_⟩⟩
                            · have nt : ∀ d, Y.rule d = true → V.touch d i → d ∈ refs st1.log := fun d hr ht =>
                                asked1 d (hf.testsServed c d i hrule hr hi ht) hr
                              show V.obs st1.store i = V.obs s' i
                              rw [hs'obs i fun ht => hb2 (s2.refsSub c (nt c hrule ht)), f2 i fun d hd ht => nt d (s2.inv.rules d hd) ht]
                              exact (hs_obs i).symm
                            · exact (hs'obs i (notSelf i hi)).symm
                            · exact c2.rest i hx (own i hi hx)
                            · rw [hcom]
                        · intro i hx hn
                          have hn' : ∀ c ∈ refs st2.log ++ [b], ¬ V.touch c i := by
                            intro c hcm'
                            refine hn c ?_
                            show c ∈ refs (st2.log ++ [(b, p)])
                            rw [refs_append]
                            exact hcm'
                          show V.obs s' i = V.obs s0 i
                          rw [hs'obs i (hn' b (by simp))]
                          exact c2.rest i hx fun c hcr => hn' c (by simp [hcr])
                        · intro pre c q post hsplit w hw hr
                          have hsplit : st2.log ++ [(b, p)] = pre ++ (c, q) :: post := hsplit
                          rcases List.append_eq_append_iff.1 hsplit with ⟨a, ha, hb'⟩ | ⟨a, ha, hb'⟩
                          · cases a with
                            | nil =>
                              injection hb' with hx _
                              injection hx with hx1 hx2
                              subst hx1; subst hx2
                              rw [List.append_nil] at ha
                              rw [ha]; exact asked w hw hr
                            | cons x a => injection hb' with _ hb'; cases a <;> cases hb'
                          · cases a with
                            | nil =>
                              simp only [List.nil_append, List.append_nil] at hb' ha
                              injection hb' with hx _
                              injection hx with hx1 hx2
                              subst hx1; subst hx2
                              rw [← ha]; exact asked w hw hr
                            | cons x a =>
                              injection hb' with hx hb'
                              subst hx
                              exact c2.order pre c q a ha w hw hr
                        · intro i hn
                          have hn' : ∀ c ∈ refs st2.log ++ [b], V.touch c i → c ∈ refs st.log := by
                            intro c hcm'
                            refine hn c ?_
                            show c ∈ refs (st2.log ++ [(b, p)])
                            rw [refs_append]
                            exact hcm'
                          have hbt : ¬ V.touch b i := fun ht => hb2 (s2.refsSub b (s1.refsSub b (hn' b (by simp) ht)))
                          show V.obs s' i = V.obs st.store i
                          rw [hs'obs i hbt, f2 i fun d hd ht => s1.refsSub d (hn' d (by simp [hd]) ht)]
                          show V.obs s i = _
                          rw [hs_obs i, f1 i fun d hd ht => hn' d (by simp [s2.refsSub d hd]) ht]
      · rw [if_neg hrule] at h
        injection h with h; injection h with _ h; subst h
        exact ⟨⟨hc.ok, hc.entry, hc.rest, hc.order⟩, fun i _ => rfl⟩

theorem cert_start (Y : Sys S P E) (V : View S P ι O) (s0 : S) (h : V.ok s0) : Cert Y V s0 ({ store := s0 } : St S P) :=
  ⟨h, fun b p hb => (List.not_mem_nil hb).elim, fun i _ _ => rfl, fun pre b p post hs => (by cases pre <;> cases hs)⟩

theorem drive_cert {Y : Sys S P E} {V : View S P ι O} (hf : Faithful Y V) {fuel : Nat} {roots : List String} {s0 : S} {st : St S P}
    (h0 : V.ok s0) (h : drive Y fuel roots s0 = some (.ok (), st)) : Cert Y V s0 st :=
  (demandAll_pres (runBlock_runs Y fuel) (runBlock_pres hf s0 fuel) _ _ _ (inv_start Y s0) (fun b _ x hx => by cases hx)
    (cert_start Y V s0 h0) h).1

/-! ### Two runs from the same start -/

theorem asks_uncond {Y : Sys S P E} {b w : BlockRef} {p : P} (h : w ∈ (Y.uncond b).flatMap Y.writersOf) : w ∈ asks Y b p := by
  unfold asks
  rw [List.flatMap_append]
  exact List.mem_append_left _ h

/-- a block that ran in both made the same choice, and what only it writes is the same -/
theorem agree_pos {Y : Sys S P E} {V : View S P ι O} (hf : Faithful Y V) {s0 : S} {st1 st2 : St S P} (i1 : Inv Y st1) (i2 : Inv Y st2)
    (c1 : Cert Y V s0 st1) (c2 : Cert Y V s0 st2) : ∀ n pre b p post, pre.length = n → st1.log = pre ++ (b, p) :: post →
      ∀ p', (b, p') ∈ st2.log → p = p' ∧ ∀ i, V.touch b i → Excl Y V i → V.obs st1.store i = V.obs st2.store i := by
  intro n
  induction n using Nat.strongRecOn with
  | ind n ih =>
    intro pre b p post hn hlog p' hm
    have hin1 : (b, p) ∈ st1.log := by rw [hlog]; simp
    have hr : Y.rule b = true := i1.rules b (List.mem_map.2 ⟨_, hin1, rfl⟩)
    obtain ⟨pre2, post2, hlog2⟩ := List.append_of_mem hm
    -- a place that a block before this one writes
    have earlier : ∀ i, Excl Y V i → (∀ c, Y.rule c = true → V.touch c i → c ∈ asks Y b p ∧ c ∈ asks Y b p') →
        V.obs st1.store i = V.obs st2.store i := by
      intro i hx hs
      by_cases hc : ∃ c, Y.rule c = true ∧ V.touch c i
      · obtain ⟨c, hrc, htc⟩ := hc
        obtain ⟨q, hq⟩ := mem_refs (c1.order pre b p post hlog c (hs c hrc htc).1 hrc)
        obtain ⟨q', hq'⟩ := mem_refs (c2.order pre2 b p' post2 hlog2 c (hs c hrc htc).2 hrc)
        obtain ⟨a, z, haz⟩ := List.append_of_mem hq
        refine (ih a.length ?_ a c q (z ++ (b, p) :: post) rfl ?_ q' ?_).2 i htc hx
        · rw [← hn, haz]; simp
        · rw [hlog, haz]; simp
        · rw [hlog2]; simp [hq']
      · have hno : ∀ st : St S P, Inv Y st → ∀ c ∈ refs st.log, ¬ V.touch c i := fun st hi c hcr ht => hc ⟨c, hi.rules c hcr, ht⟩
        rw [c1.rest i hx (hno st1 i1), c2.rest i hx (hno st2 i2)]
    obtain ⟨s1, s2, o1, o2, e1, e2, t1, u1, w1⟩ := c1.entry b p hin1
    obtain ⟨s1', s2', o1', o2', e1', e2', t1', u1', w1'⟩ := c2.entry b p' hm
    have hp : p = p' := by
      have := hf.sel b s1 s1' hr o1 o1' fun i hi => by
        rw [t1 i hi, t1' i hi]
        refine earlier i (hf.testsExcl b i hr hi) fun c hrc htc => ?_
        have := hf.testsServed b c i hr hrc hi htc
        exact ⟨asks_uncond this, asks_uncond this⟩
      rw [e1, e1'] at this
      injection this
    subst hp
    refine ⟨rfl, fun i hi hx => ?_⟩
    have := (hf.com b p s2 s2' hr ⟨s1, o1, e1⟩ o2 o2' fun j hj => by
      rcases hj with hj | ⟨hj, hjx⟩
      · rw [u1 j hj, u1' j hj]
        refine earlier j (hf.usesExcl b p j hr hj) fun c hrc htc => ?_
        have := hf.usesServed b p c j hr hrc hj htc
        exact ⟨this, this⟩
      · rw [(w1 j hj hjx).1, (w1' j hj hjx).1]).2 i hi hx
    rw [(w1 i hi hx).2, (w1' i hi hx).2] at this
    exact this

theorem agree_block {Y : Sys S P E} {V : View S P ι O} (hf : Faithful Y V) {s0 : S} {st1 st2 : St S P} (i1 : Inv Y st1) (i2 : Inv Y st2)
    (c1 : Cert Y V s0 st1) (c2 : Cert Y V s0 st2) {b : BlockRef} {p p' : P} (h1 : (b, p) ∈ st1.log) (h2 : (b, p') ∈ st2.log) :
    p = p' ∧ ∀ i, V.touch b i → Excl Y V i → V.obs st1.store i = V.obs st2.store i := by
  obtain ⟨pre, post, h⟩ := List.append_of_mem h1
  exact agree_pos hf i1 i2 c1 c2 pre.length pre b p post rfl h p' h2

/-- a place whose block ran in both is the same -/
theorem agree_place {Y : Sys S P E} {V : View S P ι O} (hf : Faithful Y V) {s0 : S} {st1 st2 : St S P} (i1 : Inv Y st1) (i2 : Inv Y st2)
    (c1 : Cert Y V s0 st1) (c2 : Cert Y V s0 st2) {i : ι} (hx : Excl Y V i)
    (h : ∀ c, Y.rule c = true → V.touch c i → c ∈ refs st1.log ∧ c ∈ refs st2.log) : V.obs st1.store i = V.obs st2.store i := by
  by_cases hc : ∃ c, Y.rule c = true ∧ V.touch c i
  · obtain ⟨c, hrc, htc⟩ := hc
    obtain ⟨q, hq⟩ := mem_refs (h c hrc htc).1
    obtain ⟨q', hq'⟩ := mem_refs (h c hrc htc).2
    exact (agree_block hf i1 i2 c1 c2 hq hq').2 i htc hx
  · rw [c1.rest i hx fun c hcr ht => hc ⟨c, i1.rules c hcr, ht⟩, c2.rest i hx fun c hcr ht => hc ⟨c, i2.rules c hcr, ht⟩]

/-! ### A run that asks for less -/

def Within (Y : Sys S P E) (st2 : St S P) (run : BlockRef → St S P → Option (Except E Unit × St S P)) (V : View S P ι O) (s0 : S) : Prop :=
  ∀ b st r st', Inv Y st → Chain Y st b → Cert Y V s0 st → (Y.rule b = true → b ∈ refs st2.log) → run b st = some (r, st') → r = .ok ()

theorem demandAll_within {Y : Sys S P E} {V : View S P ι O} {s0 : S} {st2 : St S P} {run : BlockRef → St S P → Option (Except E Unit × St S P)}
    (hrun : Runs Y run) (hp : Pres Y V s0 run) (hw : Within Y st2 run V s0) : ∀ (bs : List BlockRef) (st : St S P) (r) (st' : St S P),
      Inv Y st → (∀ b ∈ bs, Chain Y st b) → Cert Y V s0 st → (∀ b ∈ bs, Y.rule b = true → b ∈ refs st2.log) →
      demandAll run bs st = some (r, st') → r = .ok ()
  | [], st, r, st', _, _, _, _, h => by
    injection h with h; injection h with h _; exact h.symm
  | b :: bs, st, r, st', hi, hch, hc, hin, h => by
    unfold demandAll at h
    cases hr : run b st with
    | none => rw [hr] at h; cases h
    | some q =>
      obtain ⟨r1, st1⟩ := q
      rw [hr] at h
      have := hw b st r1 st1 hi (hch b (by simp)) hc (hin b (by simp)) hr
      subst this
      obtain ⟨N1, s1⟩ := hrun b st _ st1 hi (hch b (by simp)) hr
      obtain ⟨c1, _⟩ := hp b st st1 hi (hch b (by simp)) hc hr
      refine demandAll_within hrun hp hw bs st1 r st' s1.inv (fun c hcm => ?_) c1 (fun c hcm => hin c (by simp [hcm])) h
      unfold Chain
      rw [s1.busy]
      exact hch c (by simp [hcm])

theorem runBlock_within {Y : Sys S P E} {V : View S P ι O} (hf : Faithful Y V) {s0 : S} {stB : St S P} (iB : Inv Y stB)
    (cB : Cert Y V s0 stB) : ∀ n, Within Y stB (runBlock Y n) V s0
  | 0 => by intro b st r st' _ _ _ _ h; cases h
  | n + 1 => by
    have ih := runBlock_within hf iB cB n
    have hruns := runBlock_runs Y n
    have hpres := runBlock_pres hf s0 n
    intro b st r st' hi hch hc hin h
    unfold runBlock at h
    by_cases hseen : b ∈ st.ran ∨ b ∈ st.busy
    · rw [if_pos hseen] at h
      injection h with h; injection h with h _; exact h.symm
    · rw [if_neg hseen] at h
      have hran : b ∉ st.ran := fun hh => hseen (.inl hh)
      have hi1 : Inv Y { st with busy := b :: st.busy } :=
        ⟨hi.nodup, hi.logged, hi.ran, hi.rules, fun c hcr hcb => by
          rcases List.mem_cons.1 hcb with rfl | hcb
          · exact hran hcr
          · exact hi.apart c hcr hcb⟩
      have hc1 : Cert Y V s0 { st with busy := b :: st.busy } := ⟨hc.ok, hc.entry, hc.rest, hc.order⟩
      unfold runInner at h
      by_cases hrule : Y.rule b = true
      · rw [if_pos hrule] at h
        obtain ⟨p', hp'⟩ := mem_refs (hin hrule)
        obtain ⟨preB, postB, hlogB⟩ := List.append_of_mem hp'
        have closed : ∀ w ∈ asks Y b p', Y.rule w = true → w ∈ refs stB.log := by
          intro w hw hrw
          have := cB.order preB b p' postB hlogB w hw hrw
          rw [hlogB, refs_append]
          exact List.mem_append_left _ this
        obtain ⟨t1, t2, o1, o2, e1, e2, a1, a2, a3⟩ := cB.entry b p' hp'
        cases h1 : demandAll (runBlock Y n) ((Y.uncond b).flatMap Y.writersOf) { st with busy := b :: st.busy } with
        | none => rw [h1] at h; cases h
        | some q =>
          obtain ⟨r1, st1⟩ := q
          rw [h1] at h
          have hch1 : ∀ w ∈ (Y.uncond b).flatMap Y.writersOf, Chain Y { st with busy := b :: st.busy } w :=
            fun w hw x hx => chain_ask hch (dep_uncond hw) x hx
          have := demandAll_within hruns hpres ih _ _ _ _ hi1 hch1 hc1 (fun w hw hr => closed w (asks_uncond hw) hr) h1
          subst this
          obtain ⟨N1, s1⟩ := demandAll_step hruns _ _ _ _ hi1 hch1 h1
          obtain ⟨c1, _⟩ := demandAll_pres hruns hpres _ _ _ hi1 hch1 hc1 h1
          have asked1 : ∀ w ∈ (Y.uncond b).flatMap Y.writersOf, Y.rule w = true → w ∈ refs st1.log := by
            intro w hw hr
            refine s1.inv.ran w ((s1.served rfl w hw).resolve_right ?_) hr
            exact not_busy hf hch (dep_uncond hw)
          dsimp only at h
          unfold runPhases at h
          cases hsel : Y.select b st1.store with
          | mk rs s =>
            rw [hsel] at h
            have hsame : rs = .ok p' := by
              have := hf.sel b st1.store t1 hrule c1.ok o1 fun i ht => by
                rw [a1 i ht]
                refine agree_place hf s1.inv iB c1 cB (hf.testsExcl b i hrule ht) fun c hrc htc => ?_
                have := hf.testsServed b c i hrule hrc ht htc
                exact ⟨asked1 c this hrc, closed c (asks_uncond this) hrc⟩
              rw [hsel, e1] at this
              exact this
            subst hsame
            dsimp only at h
            have hs_ok : V.ok s := by have := hf.selOk b st1.store c1.ok; rwa [hsel] at this
            have hs_obs : ∀ i, V.obs s i = V.obs st1.store i := by
              intro i
              have := hf.selObs b st1.store i c1.ok
              rwa [hsel] at this
            have c1s : Cert Y V s0 { st1 with store := s } := c1.store hs_ok hs_obs
            cases h2 : demandAll (runBlock Y n) ((Y.cond b p').flatMap Y.writersOf) { st1 with store := s } with
            | none => rw [h2] at h; cases h
            | some q =>
              obtain ⟨r2, st2⟩ := q
              rw [h2] at h
              have hi2 : Inv Y { st1 with store := s } := ⟨s1.inv.nodup, s1.inv.logged, s1.inv.ran, s1.inv.rules, s1.inv.apart⟩
              have hch2 : ∀ w ∈ (Y.cond b p').flatMap Y.writersOf, Chain Y { st1 with store := s } w := by
                intro w hw x hx
                refine chain_ask hch (dep_cond hw) x ?_
                have hx : x ∈ st1.busy := hx
                rw [s1.busy] at hx; exact hx
              have := demandAll_within hruns hpres ih _ _ _ _ hi2 hch2 c1s (fun w hw hr => closed w (by
                unfold asks; rw [List.flatMap_append]; exact List.mem_append_right _ hw) hr) h2
              subst this
              obtain ⟨N2, s2⟩ := demandAll_step hruns _ _ _ _ hi2 hch2 h2
              obtain ⟨c2, _⟩ := demandAll_pres hruns hpres _ _ _ hi2 hch2 c1s h2
              have hb2 : b ∉ refs st2.log := fun hh => s2.inv.apart b (s2.inv.logged b hh) (by
                rw [s2.busy]; show b ∈ st1.busy; rw [s1.busy]; simp)
              have asked : ∀ w ∈ asks Y b p', Y.rule w = true → w ∈ refs st2.log := by
                intro w hw hr
                unfold asks at hw
                rw [List.flatMap_append] at hw
                rcases List.mem_append.1 hw with hw | hw
                · exact s2.refsSub w (asked1 w hw hr)
                · refine s2.inv.ran w ((s2.served rfl w hw).resolve_right ?_) hr
                  show w ∉ st1.busy
                  rw [s1.busy]
                  exact not_busy hf hch (dep_cond hw)
              dsimp only at h
              cases hcm : Y.commit b p' st2.store with
              | mk rc s' =>
                rw [hcm] at h
                have hok : rc = .ok () := by
                  have := (hf.com b p' st2.store t2 hrule ⟨t1, o1, e1⟩ c2.ok o2 fun i ht => by
                    rcases ht with ht | ⟨ht, hx⟩
                    · rw [a2 i ht]
                      refine agree_place hf s2.inv iB c2 cB (hf.usesExcl b p' i hrule ht) fun c hrc htc => ?_
                      have := hf.usesServed b p' c i hrule hrc ht htc
                      exact ⟨asked c this hrc, closed c this hrc⟩
                    · rw [(a3 i ht hx).1]
                      exact c2.rest i hx fun c hcr htc => hb2 (hx b c hrule (s2.inv.rules c hcr) ht htc ▸ hcr)).1
                  rw [hcm, e2] at this
                  exact this
                subst hok
                injection h with h; injection h with h _; exact h.symm
      · rw [if_neg hrule] at h
        injection h with h; injection h with h _; exact h.symm

theorem drive_inv {Y : Sys S P E} {fuel : Nat} {roots : List String} {s0 : S} {r} {st : St S P}
    (h : drive Y fuel roots s0 = some (r, st)) : Inv Y st := by
  obtain ⟨N, hs⟩ := demandAll_step (runBlock_runs Y fuel) _ _ _ _ (inv_start Y s0) (fun b _ x hx => by cases hx) h
  exact hs.inv

theorem drive_asked {Y : Sys S P E} {fuel : Nat} {roots : List String} {s0 : S} {st : St S P}
    (h : drive Y fuel roots s0 = some (.ok (), st)) {g : String} (hg : g ∈ roots) {w : BlockRef} (hw : w ∈ Y.writersOf g)
    (hr : Y.rule w = true) : w ∈ refs st.log := by
  obtain ⟨N, hs⟩ := demandAll_step (runBlock_runs Y fuel) _ _ _ _ (inv_start Y s0) (fun b _ x hx => by cases hx) h
  exact hs.inv.ran w ((hs.served rfl w (List.mem_flatMap.2 ⟨g, hg, hw⟩)).resolve_right (by rintro ⟨⟩)) hr

/-- A run that asks for no more than one that succeeded succeeds. -/
theorem drive_fewer {Y : Sys S P E} {V : View S P ι O} (hf : Faithful Y V) {fuel fuel' : Nat} {few many : List String} {s0 : S} {r}
    {st st' : St S P} (h0 : V.ok s0) (h : drive Y fuel many s0 = some (.ok (), st)) (h' : drive Y fuel' few s0 = some (r, st'))
    (hsub : ∀ g ∈ few, g ∈ many) : r = .ok () := by
  refine demandAll_within (runBlock_runs Y fuel') (runBlock_pres hf s0 fuel') (runBlock_within hf (drive_inv h) (drive_cert hf h0 h) fuel')
    _ _ _ _ (inv_start Y s0) (fun b _ x hx => by cases hx) (cert_start Y V s0 h0) (fun w hw hr => ?_) h'
  obtain ⟨g, hg, hw⟩ := List.mem_flatMap.1 hw
  exact drive_asked h (hsub g hg) hw hr

/-- Two runs from the same start that both asked for a place agree there. -/
theorem drive_agree {Y : Sys S P E} {V : View S P ι O} (hf : Faithful Y V) {fuel fuel' : Nat} {goals goals' : List String} {s0 : S}
    {st st' : St S P} (h0 : V.ok s0) (h : drive Y fuel goals s0 = some (.ok (), st)) (h' : drive Y fuel' goals' s0 = some (.ok (), st'))
    {i : ι} (hx : Excl Y V i) {g : String} (hg : g ∈ goals) (hg' : g ∈ goals') (hs : ∀ c, Y.rule c = true → V.touch c i → c ∈ Y.writersOf g) :
    V.obs st.store i = V.obs st'.store i :=
  agree_place hf (drive_inv h) (drive_inv h') (drive_cert hf h0 h) (drive_cert hf h0 h') hx fun c hr ht =>
    ⟨drive_asked h hg (hs c hr ht) hr, drive_asked h' hg' (hs c hr ht) hr⟩

end Zen.Policy
