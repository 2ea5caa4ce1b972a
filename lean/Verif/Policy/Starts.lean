import Verif.Policy.Confluence
/-
Two runs from different starts: what the blocks of the first run looked at and wrote was the same at both starts. The
proofs follow those of Policy/Confluence, where both runs start in the same state.
-/
namespace Zen.Policy
variable {S P E ι O : Type}

/-- What a block writes depends on the places it uses and on the places it owns, and any other place it may change
depends besides on what was there. -/
structure Sharp (Y : Sys S P E) (V : View S P ι O) (own : BlockRef → ι → Prop) : Prop where
  touch : ∀ b i, own b i → V.touch b i
  excl : ∀ b i, Y.rule b = true → own b i → Excl Y V i
  com : ∀ b p s s', Y.rule b = true → (∃ s1, V.ok s1 ∧ (Y.select b s1).1 = .ok p) → V.ok s → V.ok s' →
    (∀ i, V.uses b p i ∨ own b i → V.obs s i = V.obs s' i) →
    (Y.commit b p s).1 = (Y.commit b p s').1 ∧
      ∀ i, V.obs s i = V.obs s' i → V.obs (Y.commit b p s).2 i = V.obs (Y.commit b p s').2 i

/-- the two starts are the same wherever a block of the log looks or writes -/
def Alike (V : View S P ι O) (own : BlockRef → ι → Prop) (s0 s0' : S) (log : List (BlockRef × P)) : Prop :=
  ∀ b p, (b, p) ∈ log → ∀ i, V.tests b i ∨ V.uses b p i ∨ own b i → V.obs s0 i = V.obs s0' i

/-- a block that ran in both made the same choice, and what only it writes is the same if it was at the start -/
theorem agree_pos2 {Y : Sys S P E} {V : View S P ι O} (hf : Faithful Y V) {own : BlockRef → ι → Prop} (ho : Sharp Y V own) {s0 s0' : S}
    {st1 st2 : St S P} (i1 : Inv Y st1) (i2 : Inv Y st2) (c1 : Cert Y V s0 st1) (c2 : Cert Y V s0' st2) (hA : Alike V own s0 s0' st1.log) :
    ∀ n pre b p post, pre.length = n → st1.log = pre ++ (b, p) :: post →
      ∀ p', (b, p') ∈ st2.log → p = p' ∧ ∀ i, V.touch b i → Excl Y V i → V.obs s0 i = V.obs s0' i → V.obs st1.store i = V.obs st2.store i := by
  intro n
  induction n using Nat.strongRecOn with
  | ind n ih =>
    intro pre b p post hn hlog p' hm
    have hin1 : (b, p) ∈ st1.log := by rw [hlog]; simp
    have hr : Y.rule b = true := i1.rules b (List.mem_map.2 ⟨_, hin1, rfl⟩)
    obtain ⟨pre2, post2, hlog2⟩ := List.append_of_mem hm
    -- a place that a block before this one writes
    have earlier : ∀ i, Excl Y V i → V.obs s0 i = V.obs s0' i → (∀ c, Y.rule c = true → V.touch c i → c ∈ asks Y b p ∧ c ∈ asks Y b p') →
        V.obs st1.store i = V.obs st2.store i := by
      intro i hx h0 hs
      by_cases hc : ∃ c, Y.rule c = true ∧ V.touch c i
      · obtain ⟨c, hrc, htc⟩ := hc
        obtain ⟨q, hq⟩ := mem_refs (c1.order pre b p post hlog c (hs c hrc htc).1 hrc)
        obtain ⟨q', hq'⟩ := mem_refs (c2.order pre2 b p' post2 hlog2 c (hs c hrc htc).2 hrc)
        obtain ⟨a, z, haz⟩ := List.append_of_mem hq
        refine (ih a.length ?_ a c q (z ++ (b, p) :: post) rfl ?_ q' ?_).2 i htc hx h0
        · rw [← hn, haz]; simp
        · rw [hlog, haz]; simp
        · rw [hlog2]; simp [hq']
      · have hno : ∀ st : St S P, Inv Y st → ∀ c ∈ refs st.log, ¬ V.touch c i := fun st hi c hcr ht => hc ⟨c, hi.rules c hcr, ht⟩
        rw [c1.rest i hx (hno st1 i1), c2.rest i hx (hno st2 i2), h0]
    obtain ⟨s1, s2, o1, o2, e1, e2, t1, u1, w1⟩ := c1.entry b p hin1
    obtain ⟨s1', s2', o1', o2', e1', e2', t1', u1', w1'⟩ := c2.entry b p' hm
    have hp : p = p' := by
      have := hf.sel b s1 s1' hr o1 o1' fun i hi => by
        rw [t1 i hi, t1' i hi]
        refine earlier i (hf.testsExcl b i hr hi) (hA b p hin1 i (.inl hi)) fun c hrc htc => ?_
        have := hf.testsServed b c i hr hrc hi htc
        exact ⟨asks_uncond this, asks_uncond this⟩
      rw [e1, e1'] at this
      injection this
    subst hp
    refine ⟨rfl, fun i hi hx h0 => ?_⟩
    have := (ho.com b p s2 s2' hr ⟨s1, o1, e1⟩ o2 o2' fun j hj => by
      rcases hj with hj | hj
      · rw [u1 j hj, u1' j hj]
        refine earlier j (hf.usesExcl b p j hr hj) (hA b p hin1 j (.inr (.inl hj))) fun c hrc htc => ?_
        have := hf.usesServed b p c j hr hrc hj htc
        exact ⟨this, this⟩
      · rw [(w1 j (ho.touch b j hj) (ho.excl b j hr hj)).1, (w1' j (ho.touch b j hj) (ho.excl b j hr hj)).1]
        exact hA b p hin1 j (.inr (.inr hj))).2 i (by rw [(w1 i hi hx).1, (w1' i hi hx).1, h0])
    rw [(w1 i hi hx).2, (w1' i hi hx).2] at this
    exact this

theorem agree_block2 {Y : Sys S P E} {V : View S P ι O} (hf : Faithful Y V) {own : BlockRef → ι → Prop} (ho : Sharp Y V own) {s0 s0' : S}
    {st1 st2 : St S P} (i1 : Inv Y st1) (i2 : Inv Y st2) (c1 : Cert Y V s0 st1) (c2 : Cert Y V s0' st2) (hA : Alike V own s0 s0' st1.log)
    {b : BlockRef} {p p' : P} (h1 : (b, p) ∈ st1.log) (h2 : (b, p') ∈ st2.log) :
    p = p' ∧ ∀ i, V.touch b i → Excl Y V i → V.obs s0 i = V.obs s0' i → V.obs st1.store i = V.obs st2.store i := by
  obtain ⟨pre, post, h⟩ := List.append_of_mem h1
  exact agree_pos2 hf ho i1 i2 c1 c2 hA pre.length pre b p post rfl h p' h2

/-- a place whose block ran in both is the same if it was at the start -/
theorem agree_place2 {Y : Sys S P E} {V : View S P ι O} (hf : Faithful Y V) {own : BlockRef → ι → Prop} (ho : Sharp Y V own) {s0 s0' : S}
    {st1 st2 : St S P} (i1 : Inv Y st1) (i2 : Inv Y st2) (c1 : Cert Y V s0 st1) (c2 : Cert Y V s0' st2) (hA : Alike V own s0 s0' st1.log)
    {i : ι} (hx : Excl Y V i) (h0 : V.obs s0 i = V.obs s0' i)
    (h : ∀ c, Y.rule c = true → V.touch c i → c ∈ refs st1.log ∧ c ∈ refs st2.log) : V.obs st1.store i = V.obs st2.store i := by
  by_cases hc : ∃ c, Y.rule c = true ∧ V.touch c i
  · obtain ⟨c, hrc, htc⟩ := hc
    obtain ⟨q, hq⟩ := mem_refs (h c hrc htc).1
    obtain ⟨q', hq'⟩ := mem_refs (h c hrc htc).2
    exact (agree_block2 hf ho i1 i2 c1 c2 hA hq hq').2 i htc hx h0
  · rw [c1.rest i hx fun c hcr ht => hc ⟨c, i1.rules c hcr, ht⟩, c2.rest i hx fun c hcr ht => hc ⟨c, i2.rules c hcr, ht⟩, h0]

theorem runBlock_within2 {Y : Sys S P E} {V : View S P ι O} (hf : Faithful Y V) {own : BlockRef → ι → Prop} (ho : Sharp Y V own) {sB s0 : S}
    {stB : St S P} (iB : Inv Y stB) (cB : Cert Y V sB stB) (hA : Alike V own sB s0 stB.log) : ∀ n, Within Y stB (runBlock Y n) V s0
  | 0 => by intro b st r st' _ _ _ _ h; cases h
  | n + 1 => by
    have ih := runBlock_within2 hf ho iB cB hA n
    have hruns := runBlock_runs Y n
    have hpres := runBlock_pres hf s0 n
    intro b st r st' hi hch hc hin h
    unfold runBlock at h
    by_cases hseen : b ∈ st.ran ∨ b ∈ st.busy
    · rw [if_pos hseen] at h
      injection h with h; injection h with h _; exact h.symm
    · rw [if_neg hseen] at h
      have hran : b ∉ st.ran := fun hh => hseen (.inl hh)
      have hi1 : Inv Y { st with busy := b :: st.busy } :=
        ⟨hi.nodup, hi.logged, hi.ran, hi.rules, fun c hcr hcb => by
          rcases List.mem_cons.1 hcb with rfl | hcb
          · exact hran hcr
          · exact hi.apart c hcr hcb⟩
      have hc1 : Cert Y V s0 { st with busy := b :: st.busy } := ⟨hc.ok, hc.entry, hc.rest, hc.order⟩
      unfold runInner at h
      by_cases hrule : Y.rule b = true
      · rw [if_pos hrule] at h
        obtain ⟨p', hp'⟩ := mem_refs (hin hrule)
        obtain ⟨preB, postB, hlogB⟩ := List.append_of_mem hp'
        have closed : ∀ w ∈ asks Y b p', Y.rule w = true → w ∈ refs stB.log := by
          intro w hw hrw
          have := cB.order preB b p' postB hlogB w hw hrw
          rw [hlogB, refs_append]
          exact List.mem_append_left _ this
        obtain ⟨t1, t2, o1, o2, e1, e2, a1, a2, a3⟩ := cB.entry b p' hp'
        cases h1 : demandAll (runBlock Y n) ((Y.uncond b).flatMap Y.writersOf) { st with busy := b :: st.busy } with
        | none => rw [h1] at h; cases h
        | some q =>
          obtain ⟨r1, st1⟩ := q
          rw [h1] at h
          have hch1 : ∀ w ∈ (Y.uncond b).flatMap Y.writersOf, Chain Y { st with busy := b :: st.busy } w :=
            fun w hw x hx => chain_ask hch (dep_uncond hw) x hx
          have := demandAll_within hruns hpres ih _ _ _ _ hi1 hch1 hc1 (fun w hw hr => closed w (asks_uncond hw) hr) h1
          subst this
          obtain ⟨N1, s1⟩ := demandAll_step hruns _ _ _ _ hi1 hch1 h1
          obtain ⟨c1, _⟩ := demandAll_pres hruns hpres _ _ _ hi1 hch1 hc1 h1
          have asked1 : ∀ w ∈ (Y.uncond b).flatMap Y.writersOf, Y.rule w = true → w ∈ refs st1.log := by
            intro w hw hr
            refine s1.inv.ran w ((s1.served rfl w hw).resolve_right ?_) hr
            exact not_busy hf hch (dep_uncond hw)
          dsimp only at h
          unfold runPhases at h
          cases hsel : Y.select b st1.store with
          | mk rs s =>
            rw [hsel] at h
            have hsame : rs = .ok p' := by
              have := hf.sel b st1.store t1 hrule c1.ok o1 fun i ht => by
                rw [a1 i ht]
                refine (agree_place2 hf ho iB s1.inv cB c1 hA (hf.testsExcl b i hrule ht) (hA b p' hp' i (.inl ht)) fun c hrc htc => ?_).symm
                have := hf.testsServed b c i hrule hrc ht htc
                exact ⟨closed c (asks_uncond this) hrc, asked1 c this hrc⟩
              rw [hsel, e1] at this
              exact this
            subst hsame
            dsimp only at h
            have hs_ok : V.ok s := by have := hf.selOk b st1.store c1.ok; rwa [hsel] at this
            have hs_obs : ∀ i, V.obs s i = V.obs st1.store i := by
              intro i
              have := hf.selObs b st1.store i c1.ok
              rwa [hsel] at this
            have c1s : Cert Y V s0 { st1 with store := s } := c1.store hs_ok hs_obs
            cases h2 : demandAll (runBlock Y n) ((Y.cond b p').flatMap Y.writersOf) { st1 with store := s } with
            | none => rw [h2] at h; cases h
            | some q =>
              obtain ⟨r2, st2⟩ := q
              rw [h2] at h
              have hi2 : Inv Y { st1 with store := s } := ⟨s1.inv.nodup, s1.inv.logged, s1.inv.ran, s1.inv.rules, s1.inv.apart⟩
              have hch2 : ∀ w ∈ (Y.cond b p').flatMap Y.writersOf, Chain Y { st1 with store := s } w := by
                intro w hw x hx
                refine chain_ask hch (dep_cond hw) x ?_
                have hx : x ∈ st1.busy := hx
                rw [s1.busy] at hx; exact hx
              have := demandAll_within hruns hpres ih _ _ _ _ hi2 hch2 c1s (fun w hw hr => closed w (by
                unfold asks; rw [List.flatMap_append]; exact List.mem_append_right _ hw) hr) h2
              subst this
              obtain ⟨N2, s2⟩ := demandAll_step hruns _ _ _ _ hi2 hch2 h2
              obtain ⟨c2, _⟩ := demandAll_pres hruns hpres _ _ _ hi2 hch2 c1s h2
              have hb2 : b ∉ refs st2.log := fun hh => s2.inv.apart b (s2.inv.logged b hh) (by
                rw [s2.busy]; show b ∈ st1.busy; rw [s1.busy]; simp)
              have asked : ∀ w ∈ asks Y b p', Y.rule w = true → w ∈ refs st2.log := by
                intro w hw hr
                unfold asks at hw
                rw [List.flatMap_append] at hw
                rcases List.mem_append.1 hw with hw | hw
                · exact s2.refsSub w (asked1 w hw hr)
                · refine s2.inv.ran w ((s2.served rfl w hw).resolve_right ?_) hr
                  show w ∉ st1.busy
                  rw [s1.busy]
                  exact not_busy hf hch (dep_cond hw)
              dsimp only at h
              cases hcm : Y.commit b p' st2.store with
              | mk rc s' =>
                rw [hcm] at h
                have hok : rc = .ok () := by
                  have := (ho.com b p' st2.store t2 hrule ⟨t1, o1, e1⟩ c2.ok o2 fun i ht => by
                    rcases ht with ht | ht
                    · rw [a2 i ht]
                      refine (agree_place2 hf ho iB s2.inv cB c2 hA (hf.usesExcl b p' i hrule ht) (hA b p' hp' i (.inr (.inl ht))) fun c hrc htc => ?_).symm
                      have := hf.usesServed b p' c i hrule hrc ht htc
                      exact ⟨closed c this hrc, asked c this hrc⟩
                    · have hx := ho.excl b i hrule ht
                      have htt := ho.touch b i ht
                      rw [(a3 i htt hx).1, hA b p' hp' i (.inr (.inr ht))]
                      exact c2.rest i hx fun c hcr htc => hb2 (hx b c hrule (s2.inv.rules c hcr) htt htc ▸ hcr)).1
                  rw [hcm, e2] at this
                  exact this
                subst hok
                injection h with h; injection h with h _; exact h.symm
      · rw [if_neg hrule] at h
        injection h with h; injection h with h _; exact h.symm

/-- A run from a start like that of one that succeeded succeeds, when it asks for no more. -/
theorem drive_like {Y : Sys S P E} {V : View S P ι O} (hf : Faithful Y V) {own : BlockRef → ι → Prop} (ho : Sharp Y V own)
    {fuel fuel' : Nat} {few many : List String} {s0 s0' : S} {r} {st st' : St S P} (h0 : V.ok s0) (h0' : V.ok s0')
    (h : drive Y fuel many s0 = some (.ok (), st)) (h' : drive Y fuel' few s0' = some (r, st')) (hA : Alike V own s0 s0' st.log)
    (hsub : ∀ g ∈ few, g ∈ many) : r = .ok () := by
  refine demandAll_within (runBlock_runs Y fuel') (runBlock_pres hf s0' fuel')
    (runBlock_within2 hf ho (drive_inv h) (drive_cert hf h0 h) hA fuel')
    _ _ _ _ (inv_start Y s0') (fun b _ x hx => by cases hx) (cert_start Y V s0' h0') (fun w hw hr => ?_) h'
  obtain ⟨g, hg, hw⟩ := List.mem_flatMap.1 hw
  exact drive_asked h (hsub g hg) hw hr

/-- Both give the same at a place they asked for. -/
theorem drive_agree2 {Y : Sys S P E} {V : View S P ι O} (hf : Faithful Y V) {own : BlockRef → ι → Prop} (ho : Sharp Y V own)
    {fuel fuel' : Nat} {goals goals' : List String} {s0 s0' : S} {st st' : St S P} (h0 : V.ok s0) (h0' : V.ok s0')
    (h : drive Y fuel goals s0 = some (.ok (), st)) (h' : drive Y fuel' goals' s0' = some (.ok (), st')) (hA : Alike V own s0 s0' st.log)
    {i : ι} (hx : Excl Y V i) (hi : V.obs s0 i = V.obs s0' i) {g : String} (hg : g ∈ goals) (hg' : g ∈ goals')
    (hs : ∀ c, Y.rule c = true → V.touch c i → c ∈ Y.writersOf g) : V.obs st.store i = V.obs st'.store i :=
  agree_place2 hf ho (drive_inv h) (drive_inv h') (drive_cert hf h0 h) (drive_cert hf h0' h') hA hx hi fun c hr ht =>
    ⟨drive_asked h hg (hs c hr ht) hr, drive_asked h' hg' (hs c hr ht) hr⟩

end Zen.Policy
