import Verif.Policy.Driver
import Mathlib.Logic.Relation
/-
C36  Goal-driven execution of policy blocks.
-/
namespace Zen.Policy
variable {S P E : Type}

/-! ## Specification -/

/-- the blocks a block asks for, when it makes the choice `p` -/
def asks (Y : Sys S P E) (b : BlockRef) (p : P) : List BlockRef := (Y.uncond b ++ Y.cond b p).flatMap Y.writersOf

/-- `b` may ask for `w` -/
def Dep (Y : Sys S P E) (b w : BlockRef) : Prop :=
  (∃ r ∈ Y.uncond b, w ∈ Y.writersOf r) ∨ ∃ p, ∃ r ∈ Y.cond b p, w ∈ Y.writersOf r

/-- needed for the roots, given the choices the blocks made -/
inductive Needed (Y : Sys S P E) (log : List (BlockRef × P)) (roots : List BlockRef) : BlockRef → Prop where
  | root {b} : b ∈ roots → Needed Y log roots b
  | read {b p w} : Needed Y log roots b → (b, p) ∈ log → w ∈ asks Y b p → Needed Y log roots w

def refs (log : List (BlockRef × P)) : List BlockRef := log.map Prod.fst

/-! ## Invariant -/

structure Inv (Y : Sys S P E) (st : St S P) : Prop where
  nodup : (refs st.log).Nodup
  logged : ∀ b ∈ refs st.log, b ∈ st.ran
  ran : ∀ b ∈ st.ran, Y.rule b = true → b ∈ refs st.log
  rules : ∀ b ∈ refs st.log, Y.rule b = true
  apart : ∀ b ∈ st.ran, b ∉ st.busy

/-- what a call did: `N` are the blocks it ran -/
structure Step (Y : Sys S P E) (roots : List BlockRef) (st st' : St S P) (N : List (BlockRef × P)) (ok : Prop) : Prop where
  busy : st'.busy = st.busy
  log : st'.log = st.log ++ N
  sub : ∀ b ∈ st.ran, b ∈ st'.ran
  inv : Inv Y st'
  order : ∀ pre b p post, N = pre ++ (b, p) :: post → ∀ w ∈ asks Y b p, Y.rule w = true →
    w ∈ refs (st.log ++ pre) ∨ w = b ∨ Relation.TransGen (Dep Y) w b
  served : ok → ∀ b ∈ roots, b ∈ st'.ran ∨ b ∈ st.busy
  closed : ok → ∀ e ∈ N, ∀ w ∈ asks Y e.1 e.2, w ∈ st'.ran ∨ w ∈ st.busy
  needed : ok → ∀ e ∈ N, Needed Y N roots e.1

theorem Needed.mono {Y : Sys S P E} {l l' : List (BlockRef × P)} {r r' : List BlockRef} (hl : ∀ e ∈ l, e ∈ l')
    (hr : ∀ b ∈ r, Needed Y l' r' b) {b : BlockRef} (h : Needed Y l r b) : Needed Y l' r' b := by
  induction h with
  | root h => exact hr _ h
  | read _ hm hw ih => exact .read ih (hl _ hm) hw

theorem refs_append (a b : List (BlockRef × P)) : refs (a ++ b) = refs a ++ refs b := List.map_append ..

def IsOk (r : Except E Unit) : Prop := r = .ok ()

theorem Step.refl {Y : Sys S P E} {st : St S P} (hi : Inv Y st) : Step Y [] st st [] True := by
  refine ⟨rfl, by simp, fun b h => h, hi, ?_, ?_, ?_, ?_⟩
  · intro pre b p post h; cases pre <;> cases h
  · intro _ b h; cases h
  · intro _ e h; cases h
  · intro _ e h; cases h

/-- one call after the other -/
theorem Step.trans {Y : Sys S P E} {r1 r2 : List BlockRef} {st st1 st2 : St S P} {N1 N2 : List (BlockRef × P)} {ok : Prop}
    (h1 : Step Y r1 st st1 N1 True) (h2 : Step Y r2 st1 st2 N2 ok) : Step Y (r1 ++ r2) st st2 (N1 ++ N2) ok := by
  refine ⟨h2.busy.trans h1.busy, by rw [h2.log, h1.log, List.append_assoc], fun b hb => h2.sub b (h1.sub b hb), h2.inv, ?_, ?_, ?_, ?_⟩
  · intro pre b p post he w hw hr
    rcases List.append_eq_append_iff.1 he with ⟨a, ha, hb⟩ | ⟨a, ha, hb⟩
    · -- the entry is in the second part
      have := h2.order a b p post hb w hw hr
      rw [h1.log, List.append_assoc, ← ha] at this
      exact this
    · cases a with
      | nil =>
        simp only [List.nil_append, List.append_nil] at hb ha
        have := h2.order [] b p post hb.symm w hw hr
        rw [h1.log, List.append_nil] at this
        rw [← ha]
        exact this
      | cons x a =>
        injection hb with hx hb
        subst hx
        exact h1.order pre b p a ha w hw hr
  · intro hok b hb
    rcases List.mem_append.1 hb with h | h
    · exact (h1.served trivial b h).imp (h2.sub b) id
    · exact (h2.served hok b h).imp id (fun h => h1.busy ▸ h)
  · intro hok e he w hw
    rcases List.mem_append.1 he with h | h
    · exact (h1.closed trivial e h w hw).imp (h2.sub w) id
    · exact (h2.closed hok e h w hw).imp id (fun h => h1.busy ▸ h)
  · intro hok e he
    rcases List.mem_append.1 he with h | h
    · exact (h1.needed trivial e h).mono (fun e he => by simp [he]) fun b hb => .root (by simp [hb])
    · exact (h2.needed hok e h).mono (fun e he => by simp [he]) fun b hb => .root (by simp [hb])

theorem Step.store {Y : Sys S P E} {r : List BlockRef} {st st' : St S P} {N : List (BlockRef × P)} {ok : Prop} (s : S)
    (h : Step Y r st st' N ok) : Step Y r { st with store := s } st' N ok :=
  ⟨h.busy, h.log, h.sub, h.inv, h.order, h.served, h.closed, h.needed⟩

/-- the chain of blocks in progress leads to what is asked for -/
def Chain (Y : Sys S P E) (st : St S P) (b : BlockRef) : Prop := ∀ x ∈ st.busy, x = b ∨ Relation.TransGen (Dep Y) x b

/-- what a call guarantees -/
def Runs (Y : Sys S P E) (run : BlockRef → St S P → Option (Except E Unit × St S P)) : Prop :=
  ∀ b st r st', Inv Y st → Chain Y st b → run b st = some (r, st') → ∃ N, Step Y [b] st st' N (IsOk r)

theorem demandAll_step {Y : Sys S P E} {run : BlockRef → St S P → Option (Except E Unit × St S P)} (hrun : Runs Y run) :
    ∀ (bs : List BlockRef) (st : St S P) r st', Inv Y st → (∀ b ∈ bs, Chain Y st b) → demandAll run bs st = some (r, st') →
      ∃ N, Step Y bs st st' N (IsOk r)
  | [], st, r, st', hi, _, h => by
    injection h with h; injection h with h1 h2; subst h1; subst h2
    exact ⟨[], by
      have := Step.refl hi
      exact ⟨this.busy, this.log, this.sub, this.inv, this.order, fun _ => this.served trivial, fun _ => this.closed trivial, fun _ => this.needed trivial⟩⟩
  | b :: bs, st, r, st', hi, hc, h => by
    unfold demandAll at h
    cases hr : run b st with
    | none => rw [hr] at h; cases h
    | some q =>
      obtain ⟨r1, st1⟩ := q
      rw [hr] at h
      obtain ⟨N1, h1⟩ := hrun b st r1 st1 hi (hc b (by simp)) hr
      cases r1 with
      | error e =>
        injection h with h; injection h with ha hb; subst ha; subst hb
        refine ⟨N1, h1.busy, h1.log, h1.sub, h1.inv, h1.order, ?_, ?_, ?_⟩ <;> intro hok <;> cases hok
      | ok u =>
        have h1' : Step Y [b] st st1 N1 True :=
          ⟨h1.busy, h1.log, h1.sub, h1.inv, h1.order, fun _ => h1.served rfl, fun _ => h1.closed rfl, fun _ => h1.needed rfl⟩
        obtain ⟨N2, h2⟩ := demandAll_step hrun bs st1 r st' h1.inv (by
          intro c hcm
          unfold Chain
          rw [h1.busy]
          exact hc c (by simp [hcm])) h
        exact ⟨N1 ++ N2, h1'.trans h2⟩

theorem dep_uncond {Y : Sys S P E} {b w : BlockRef} (h : w ∈ (Y.uncond b).flatMap Y.writersOf) : Dep Y b w := by
  obtain ⟨r, hr, hw⟩ := List.mem_flatMap.1 h
  exact .inl ⟨r, hr, hw⟩

theorem dep_cond {Y : Sys S P E} {b w : BlockRef} {p : P} (h : w ∈ (Y.cond b p).flatMap Y.writersOf) : Dep Y b w := by
  obtain ⟨r, hr, hw⟩ := List.mem_flatMap.1 h
  exact .inr ⟨p, r, hr, hw⟩

theorem chain_ask {Y : Sys S P E} {st : St S P} {b w : BlockRef} (hc : Chain Y st b) (hd : Dep Y b w) :
    ∀ x ∈ b :: st.busy, x = w ∨ Relation.TransGen (Dep Y) x w := by
  intro x hx
  rcases List.mem_cons.1 hx with rfl | hx
  · exact .inr (.single hd)
  · rcases hc x hx with rfl | h
    · exact .inr (.single hd)
    · exact .inr (h.tail hd)

/-- an outcome that is not a success keeps the first half -/
theorem Step.weaken {Y : Sys S P E} {r r' : List BlockRef} {st st' : St S P} {N : List (BlockRef × P)} {ok ok' : Prop}
    (h : Step Y r st st' N ok) (hf : ¬ ok') : Step Y r' st st' N ok' :=
  ⟨h.busy, h.log, h.sub, h.inv, h.order, fun ho => absurd ho hf, fun ho => absurd ho hf, fun ho => absurd ho hf⟩

theorem runBlock_runs (Y : Sys S P E) : ∀ n, Runs Y (runBlock Y n)
  | 0 => by intro b st r st' _ _ h; cases h
  | n + 1 => by
    have ih := runBlock_runs Y n
    intro b st r st' hi hc h
    unfold runBlock at h
    by_cases hseen : b ∈ st.ran ∨ b ∈ st.busy
    · rw [if_pos hseen] at h
      injection h with h; injection h with h1 h2; subst h1; subst h2
      refine ⟨[], rfl, by simp, fun _ h => h, hi, ?_, ?_, ?_, ?_⟩
      · intro pre c p post h; cases pre <;> cases h
      · intro _ c hcm; rw [List.mem_singleton.1 hcm]; exact hseen
      · intro _ e h; cases h
      · intro _ e h; cases h
    · rw [if_neg hseen] at h
      have hran : b ∉ st.ran := fun hh => hseen (.inl hh)
      have hbusy : b ∉ st.busy := fun hh => hseen (.inr hh)
      have hchain : ∀ x ∈ st.busy, Relation.TransGen (Dep Y) x b := fun x hx => (hc x hx).resolve_left fun he => hbusy (he ▸ hx)
      have hi1 : Inv Y { st with busy := b :: st.busy } :=
        ⟨hi.nodup, hi.logged, hi.ran, hi.rules, fun c hcr hcb => by
          rcases List.mem_cons.1 hcb with rfl | hcb
          · exact hran hcr
          · exact hi.apart c hcr hcb⟩
      -- back to the caller after a failure
      have fail : ∀ (st2 : St S P) (N : List (BlockRef × P)) (rs : List BlockRef) (e : E),
          Step Y rs { st with busy := b :: st.busy } st2 N False →
          ∃ N, Step Y [b] st { st2 with busy := st2.busy.erase b } N (IsOk (.error e : Except E Unit)) := by
        intro st2 N rs e h
        refine ⟨N, ?_, h.log, h.sub, ⟨h.inv.nodup, h.inv.logged, h.inv.ran, h.inv.rules, fun c hcr hcb => ?_⟩, h.order, ?_, ?_, ?_⟩
        · show st2.busy.erase b = st.busy
          rw [h.busy]; simp
        · exact h.inv.apart c hcr (List.mem_of_mem_erase hcb)
        all_goals intro hok; cases hok
      unfold runInner at h
      by_cases hrule : Y.rule b = true
      · rw [if_pos hrule] at h
        cases h1 : demandAll (runBlock Y n) ((Y.uncond b).flatMap Y.writersOf) { st with busy := b :: st.busy } with
        | none => rw [h1] at h; cases h
        | some q =>
          obtain ⟨r1, st1⟩ := q
          rw [h1] at h
          obtain ⟨N1, s1⟩ := demandAll_step ih _ _ _ _ hi1 (fun w hw x hx => chain_ask hc (dep_uncond hw) x hx) h1
          cases r1 with
          | error e =>
            injection h with h; injection h with ha hb; subst ha; subst hb
            exact fail st1 N1 _ e (s1.weaken (r' := []) id)
          | ok u =>
            have s1' : Step Y ((Y.uncond b).flatMap Y.writersOf) { st with busy := b :: st.busy } st1 N1 True :=
              ⟨s1.busy, s1.log, s1.sub, s1.inv, s1.order, fun _ => s1.served rfl, fun _ => s1.closed rfl, fun _ => s1.needed rfl⟩
            dsimp only at h
            unfold runPhases at h
            cases hsel : Y.select b st1.store with
            | mk rs s =>
              rw [hsel] at h
              cases rs with
              | error e =>
                injection h with h; injection h with ha hb; subst ha; subst hb
                have : Step Y [] { st with busy := b :: st.busy } { st1 with store := s } N1 False :=
                  ⟨s1.busy, s1.log, s1.sub, ⟨s1.inv.nodup, s1.inv.logged, s1.inv.ran, s1.inv.rules, s1.inv.apart⟩, s1.order, False.elim, False.elim, False.elim⟩
                exact fail _ N1 _ e this
              | ok p =>
                dsimp only at h
                cases h2 : demandAll (runBlock Y n) ((Y.cond b p).flatMap Y.writersOf) { st1 with store := s } with
                | none => rw [h2] at h; cases h
                | some q =>
                  obtain ⟨r2, st2⟩ := q
                  rw [h2] at h
                  obtain ⟨N2, s2⟩ := demandAll_step ih _ _ _ _
                    (⟨s1.inv.nodup, s1.inv.logged, s1.inv.ran, s1.inv.rules, s1.inv.apart⟩ : Inv Y { st1 with store := s })
                    (fun w hw x hx => chain_ask hc (dep_cond hw) x (by
                      have hx : x ∈ st1.busy := hx
                      rw [s1.busy] at hx; exact hx)) h2
                  have s2s : Step Y ((Y.cond b p).flatMap Y.writersOf) st1 st2 N2 (IsOk r2) := s2.store st1.store
                  have s12 := s1'.trans s2s
                  cases r2 with
                  | error e =>
                    injection h with h; injection h with ha hb; subst ha; subst hb
                    exact fail st2 _ _ e (s12.weaken (r' := []) id)
                  | ok u =>
                    dsimp only at h
                    cases hcm : Y.commit b p st2.store with
                    | mk rc s' =>
                      rw [hcm] at h
                      cases rc with
                      | error e =>
                        injection h with h; injection h with ha hb; subst ha; subst hb
                        have : Step Y [] { st with busy := b :: st.busy } { st2 with store := s' } (N1 ++ N2) False :=
                          ⟨s12.busy, s12.log, s12.sub, ⟨s12.inv.nodup, s12.inv.logged, s12.inv.ran, s12.inv.rules, s12.inv.apart⟩, s12.order, False.elim, False.elim, False.elim⟩
                        exact fail _ _ _ e this
                      | ok u =>
                        injection h with h; injection h with ha hb; subst ha; subst hb
                        have hasks : asks Y b p = (Y.uncond b).flatMap Y.writersOf ++ (Y.cond b p).flatMap Y.writersOf := by
                          unfold asks; rw [List.flatMap_append]
                        have hbl : b ∉ refs st2.log := fun hh =>
                          s12.inv.apart b (s12.inv.logged b hh) (by rw [s12.busy]; simp)
                        refine ⟨N1 ++ N2 ++ [(b, p)], ?_, ?_, ?_, ?_, ?_, ?_, ?_, ?_⟩
                        · show st2.busy.erase b = st.busy
                          rw [s12.busy]; simp
                        · show st2.log ++ [(b, p)] = _
                          rw [s12.log]; simp
                        · intro c hcr
                          exact List.mem_cons_of_mem _ (s12.sub c hcr)
                        · refine ⟨?_, ?_, ?_, ?_, ?_⟩
                          · show (refs (st2.log ++ [(b, p)])).Nodup
                            rw [refs_append, List.nodup_append]
                            refine ⟨s12.inv.nodup, by simp [refs], ?_⟩
                            intro x hx y hy
                            rw [show y = b by simpa [refs] using hy]
                            rintro rfl
                            exact hbl hx
                          · intro c hcl
                            have : c ∈ refs st2.log ∨ c = b := by
                              have : c ∈ refs (st2.log ++ [(b, p)]) := hcl
                              rw [refs_append] at this
                              simpa [refs] using this
                            rcases this with h | rfl
                            · exact List.mem_cons_of_mem _ (s12.inv.logged c h)
                            · exact List.mem_cons_self
                          · intro c hcr hrc
                            show c ∈ refs (st2.log ++ [(b, p)])
                            rw [refs_append]
                            rcases List.mem_cons.1 hcr with rfl | hcr
                            · simp [refs]
                            · exact List.mem_append_left _ (s12.inv.ran c hcr hrc)
                          · intro c hcl
                            have : c ∈ refs st2.log ∨ c = b := by
                              have : c ∈ refs (st2.log ++ [(b, p)]) := hcl
                              rw [refs_append] at this
                              simpa [refs] using this
                            rcases this with h | rfl
                            · exact s12.inv.rules c h
                            · exact hrule
                          · intro c hcr hcb
                            have hcb' : c ∈ st.busy := by
                              have : c ∈ st2.busy.erase b := hcb
                              rw [s12.busy] at this; simpa using this
                            rcases List.mem_cons.1 hcr with rfl | hcr
                            · exact hbusy hcb'
                            · exact s12.inv.apart c hcr (by rw [s12.busy]; exact List.mem_cons_of_mem _ hcb')
                        · intro pre c q post he w hw hr
                          rcases List.append_eq_append_iff.1 he with ⟨a, ha, hb'⟩ | ⟨a, ha, hb'⟩
                          · cases a with
                            | nil =>
                              injection hb' with hx _
                              injection hx with hx1 hx2
                              subst hx1; subst hx2
                              rw [hasks] at hw
                              rw [List.append_nil] at ha
                              rcases s12.served rfl w hw with h | h
                              · refine .inl ?_
                                have := s12.inv.ran w h hr
                                rw [s12.log] at this
                                rw [ha]; exact this
                              · rcases List.mem_cons.1 h with rfl | h
                                · exact .inr (.inl rfl)
                                · exact .inr (.inr (hchain w h))
                            | cons x a => injection hb' with _ hb'; cases a <;> cases hb'
                          · cases a with
                            | nil =>
                              simp only [List.nil_append, List.append_nil] at hb' ha
                              injection hb' with hx _
                              injection hx with hx1 hx2
                              subst hx1; subst hx2
                              rw [hasks] at hw
                              rcases s12.served rfl w hw with h | h
                              · refine .inl ?_
                                have := s12.inv.ran w h hr
                                rw [s12.log] at this
                                rw [← ha]; exact this
                              · rcases List.mem_cons.1 h with rfl | h
                                · exact .inr (.inl rfl)
                                · exact .inr (.inr (hchain w h))
                            | cons x a =>
                              injection hb' with hx hb'
                              subst hx
                              exact s12.order pre c q a ha w hw hr
                        · intro _ c hcm'
                          rw [List.mem_singleton.1 hcm']
                          exact .inl List.mem_cons_self
                        · intro _ e he w hw
                          rcases List.mem_append.1 he with he | he
                          · rcases s12.closed rfl e he w hw with h | h
                            · exact .inl (List.mem_cons_of_mem _ h)
                            · rcases List.mem_cons.1 h with rfl | h
                              · exact .inl List.mem_cons_self
                              · exact .inr h
                          · rw [List.mem_singleton.1 he] at hw
                            rw [hasks] at hw
                            rcases s12.served rfl w hw with h | h
                            · exact .inl (List.mem_cons_of_mem _ h)
                            · rcases List.mem_cons.1 h with rfl | h
                              · exact .inl List.mem_cons_self
                              · exact .inr h
                        · intro _ e he
                          have hb0 : Needed Y (N1 ++ N2 ++ [(b, p)]) [b] b := .root (by simp)
                          rcases List.mem_append.1 he with he | he
                          · refine (s12.needed rfl e he).mono (fun x hx => List.mem_append_left _ hx) fun w hw => ?_
                            rw [← hasks] at hw
                            exact .read hb0 (by simp) hw
                          · rw [List.mem_singleton.1 he]; exact hb0
      · rw [if_neg hrule] at h
        injection h with h; injection h with ha hb; subst ha; subst hb
        refine ⟨[], ?_, by simp, fun c hcr => List.mem_cons_of_mem _ hcr, ⟨hi.nodup, ?_, ?_, hi.rules, ?_⟩, ?_, ?_, ?_, ?_⟩
        · show (b :: st.busy).erase b = st.busy
          simp
        · intro c hcl; exact List.mem_cons_of_mem _ (hi.logged c hcl)
        · intro c hcr hrc
          rcases List.mem_cons.1 hcr with rfl | hcr
          · exact absurd hrc hrule
          · exact hi.ran c hcr hrc
        · intro c hcr hcb
          have hcb' : c ∈ st.busy := by
            have : c ∈ (b :: st.busy).erase b := hcb
            simpa using this
          rcases List.mem_cons.1 hcr with rfl | hcr
          · exact hbusy hcb'
          · exact hi.apart c hcr hcb'
        · intro pre c p post h; cases pre <;> cases h
        · intro _ c hcm'
          rw [List.mem_singleton.1 hcm']
          exact .inl List.mem_cons_self
        · intro _ e h; cases h
        · intro _ e h; cases h

/-! ## Termination -/

/-- blocks of the policy that are not in progress -/
def free (U : List BlockRef) (st : St S P) : Nat := (U.filter fun b => decide (b ∉ st.busy)).length

theorem free_cons {U : List BlockRef} {st : St S P} {b : BlockRef} (hb : b ∈ U) (hn : b ∉ st.busy) :
    free U { st with busy := b :: st.busy } < free U st := by
  unfold free
  have : (U.filter fun c => decide (c ∉ b :: st.busy)) = (U.filter fun c => decide (c ∉ st.busy)).filter fun c => decide (c ≠ b) := by
    rw [List.filter_filter]
    apply List.filter_congr
    intro c _
    by_cases h : c = b <;> simp [h]
  show (U.filter fun c => decide (c ∉ b :: st.busy)).length < _
  rw [this]
  refine Nat.lt_of_le_of_ne (List.length_filter_le _ _) fun he => ?_
  have := List.length_filter_eq_length_iff.1 he b (List.mem_filter.2 ⟨hb, by simpa using hn⟩)
  simp at this

theorem demandAll_total {Y : Sys S P E} {run : BlockRef → St S P → Option (Except E Unit × St S P)} (hrun : Runs Y run) {U : List BlockRef} :
    ∀ (bs : List BlockRef) (st : St S P), Inv Y st → (∀ b ∈ bs, Chain Y st b) →
      (∀ b ∈ bs, ∀ st1 : St S P, Inv Y st1 → Chain Y st1 b → st1.busy = st.busy → run b st1 ≠ none) → demandAll run bs st ≠ none
  | [], st, _, _, _ => by intro h; cases h
  | b :: bs, st, hi, hc, ht => by
    unfold demandAll
    cases hr : run b st with
    | none => exact absurd hr (ht b (by simp) st hi (hc b (by simp)) rfl)
    | some q =>
      obtain ⟨r1, st1⟩ := q
      cases r1 with
      | error e => intro h; cases h
      | ok u =>
        obtain ⟨N1, h1⟩ := hrun b st (.ok u) st1 hi (hc b (by simp)) hr
        exact demandAll_total hrun (U := U) bs st1 h1.inv
          (by intro c hcm; unfold Chain; rw [h1.busy]; exact hc c (by simp [hcm]))
          (fun c hcm st2 i2 c2 e2 => ht c (by simp [hcm]) st2 i2 c2 (e2.trans h1.busy))

theorem runBlock_total (Y : Sys S P E) (U : List BlockRef) (hU : ∀ r, ∀ b ∈ Y.writersOf r, b ∈ U) : ∀ n b (st : St S P),
    b ∈ U → Inv Y st → Chain Y st b → free U st < n → runBlock Y n b st ≠ none
  | 0, _, _, _, _, _, h => absurd h (Nat.not_lt_zero _)
  | n + 1, b, st, hb, hi, hc, hf => by
    unfold runBlock
    by_cases hseen : b ∈ st.ran ∨ b ∈ st.busy
    · rw [if_pos hseen]; intro h; cases h
    · rw [if_neg hseen]
      have hran : b ∉ st.ran := fun hh => hseen (.inl hh)
      have hbusy : b ∉ st.busy := fun hh => hseen (.inr hh)
      have hi1 : Inv Y { st with busy := b :: st.busy } :=
        ⟨hi.nodup, hi.logged, hi.ran, hi.rules, fun c hcr hcb => by
          rcases List.mem_cons.1 hcb with rfl | hcb
          · exact hran hcr
          · exact hi.apart c hcr hcb⟩
      have hlt := free_cons (U := U) hb hbusy
      have sub : ∀ (bs : List BlockRef) (st1 : St S P), (∀ w ∈ bs, Dep Y b w ∧ w ∈ U) → Inv Y st1 → st1.busy = b :: st.busy →
          demandAll (runBlock Y n) bs st1 ≠ none := by
        intro bs st1 hbs i1 hbz
        refine demandAll_total (U := U) (runBlock_runs Y n) bs st1 i1 (fun w hw x hx => chain_ask hc (hbs w hw).1 x (hbz ▸ hx)) ?_
        intro w hw st2 i2 c2 e2
        refine runBlock_total Y U hU n w st2 (hbs w hw).2 i2 c2 ?_
        have : free U st2 = free U { st with busy := b :: st.busy } := by
          unfold free; rw [e2, hbz]
        omega
      have inner : runInner Y (runBlock Y n) b { st with busy := b :: st.busy } ≠ none := by
        unfold runInner
        by_cases hrule : Y.rule b = true
        · rw [if_pos hrule]
          have dU : ∀ w ∈ (Y.uncond b).flatMap Y.writersOf, Dep Y b w ∧ w ∈ U := fun w hw =>
            ⟨dep_uncond hw, by obtain ⟨r, _, h⟩ := List.mem_flatMap.1 hw; exact hU r w h⟩
          cases h1 : demandAll (runBlock Y n) ((Y.uncond b).flatMap Y.writersOf) { st with busy := b :: st.busy } with
          | none => exact absurd h1 (sub _ _ dU hi1 rfl)
          | some q =>
            obtain ⟨r1, st1⟩ := q
            obtain ⟨N1, s1⟩ := demandAll_step (runBlock_runs Y n) _ _ _ _ hi1 (fun w hw x hx => chain_ask hc (dep_uncond hw) x hx) h1
            cases r1 with
            | error e => intro h; cases h
            | ok u =>
              dsimp only
              unfold runPhases
              cases hsel : Y.select b st1.store with
              | mk rs s => cases rs with
                | error e => intro h; cases h
                | ok p =>
                  dsimp only
                  have dC : ∀ w ∈ (Y.cond b p).flatMap Y.writersOf, Dep Y b w ∧ w ∈ U := fun w hw =>
                    ⟨dep_cond hw, by obtain ⟨r, _, h⟩ := List.mem_flatMap.1 hw; exact hU r w h⟩
                  cases h2 : demandAll (runBlock Y n) ((Y.cond b p).flatMap Y.writersOf) { st1 with store := s } with
                  | none => exact absurd h2 (sub _ _ dC ⟨s1.inv.nodup, s1.inv.logged, s1.inv.ran, s1.inv.rules, s1.inv.apart⟩ s1.busy)
                  | some q =>
                    obtain ⟨r2, st2⟩ := q
                    cases r2 with
                    | error e => intro h; cases h
                    | ok u =>
                      dsimp only
                      cases Y.commit b p st2.store with
                      | mk rc s' => cases rc <;> intro h <;> cases h
        · rw [if_neg hrule]; intro h; cases h
      cases hin : runInner Y (runBlock Y n) b { st with busy := b :: st.busy } with
      | none => exact absurd hin inner
      | some q =>
        obtain ⟨r, st1⟩ := q
        cases r <;> intro h <;> cases h

/-! ## Theorems -/

theorem inv_start (Y : Sys S P E) (s : S) : Inv Y ({ store := s } : St S P) :=
  ⟨by simp [refs], by simp [refs], by simp, by simp [refs], by simp⟩

theorem drive_step {Y : Sys S P E} {fuel : Nat} {roots : List String} {s : S} {r : Except E Unit} {st : St S P}
    (h : drive Y fuel roots s = some (r, st)) : ∃ N, Step Y (roots.flatMap Y.writersOf) { store := s } st N (IsOk r) ∧ N = st.log := by
  obtain ⟨N, hN⟩ := demandAll_step (runBlock_runs Y fuel) _ _ _ _ (inv_start Y s) (fun b _ x hx => by cases hx) h
  exact ⟨N, hN, by have := hN.log; simpa using this.symm⟩

/-- Evaluation ends, whatever the reads and writes of the blocks, also when they are cyclic: the recursion is
never deeper than the number of blocks. -/
theorem C36_terminates (Y : Sys S P E) (blocks : List BlockRef) (hU : ∀ r, ∀ b ∈ Y.writersOf r, b ∈ blocks) (roots : List String) (s : S) :
    ∃ out, drive Y (blocks.length + 1) roots s = some out := by
  have : drive Y (blocks.length + 1) roots s ≠ none := by
    refine demandAll_total (U := blocks) (runBlock_runs Y _) _ _ (inv_start Y s) (fun b _ x hx => by cases hx) ?_
    intro b hb st1 i1 c1 e1
    obtain ⟨r, _, h⟩ := List.mem_flatMap.1 hb
    refine runBlock_total Y blocks hU _ b st1 (hU r b h) i1 c1 ?_
    have := List.length_filter_le (fun b => decide (b ∉ st1.busy)) blocks
    unfold free
    omega
  cases h : drive Y (blocks.length + 1) roots s with
  | none => exact absurd h this
  | some out => exact ⟨out, rfl⟩

/-- No block writes twice, whether the evaluation succeeds or fails. -/
theorem C36_once {Y : Sys S P E} {fuel : Nat} {roots : List String} {s : S} {r : Except E Unit} {st : St S P}
    (h : drive Y fuel roots s = some (r, st)) : (refs st.log).Nodup := by
  obtain ⟨N, hN, _⟩ := drive_step h
  exact hN.inv.nodup

/-- Before a block writes, every block it asks for (for its tests, and for the values it chose) has written,
unless that block depends on it in turn. -/
theorem C36_order {Y : Sys S P E} {fuel : Nat} {roots : List String} {s : S} {r : Except E Unit} {st : St S P}
    (h : drive Y fuel roots s = some (r, st)) {pre post : List (BlockRef × P)} {b : BlockRef} {p : P} (hl : st.log = pre ++ (b, p) :: post)
    {w : BlockRef} (hw : w ∈ asks Y b p) (hr : Y.rule w = true) (hne : w ≠ b) (hacyclic : ¬ Relation.TransGen (Dep Y) w b) :
    w ∈ refs pre := by
  obtain ⟨N, hN, rfl⟩ := drive_step h
  rcases hN.order pre b p post hl w hw hr with h | h | h
  · simpa using h
  · exact absurd h hne
  · exact absurd h hacyclic

/-- A successful evaluation runs exactly the blocks needed for the goals: those that write them, and those that
write what needed blocks read for their tests and for the values they chose. -/
theorem C36_exactly_needed {Y : Sys S P E} {fuel : Nat} {roots : List String} {s : S} {st : St S P}
    (h : drive Y fuel roots s = some (.ok (), st)) (b : BlockRef) :
    b ∈ refs st.log ↔ Y.rule b = true ∧ Needed Y st.log (roots.flatMap Y.writersOf) b := by
  obtain ⟨N, hN, rfl⟩ := drive_step h
  constructor
  · intro hb
    obtain ⟨e, he, rfl⟩ := List.mem_map.1 hb
    exact ⟨hN.inv.rules _ (List.mem_map_of_mem he), hN.needed rfl e he⟩
  · rintro ⟨hr, hn⟩
    have : ∀ b, Needed Y st.log (roots.flatMap Y.writersOf) b → b ∈ st.ran := by
      intro b hn
      induction hn with
      | root h => exact (hN.served rfl _ h).resolve_right (by simp)
      | read _ hm hw _ => exact (hN.closed rfl _ hm _ hw).resolve_right (by simp)
    exact hN.inv.ran b (this b hn) hr

/-- The blocks the goals may depend on -/
def Relevant (Y : Sys S P E) (roots : List String) (b : BlockRef) : Prop :=
  ∃ g ∈ roots, ∃ a ∈ Y.writersOf g, Relation.ReflTransGen (Dep Y) a b

theorem demandAll_congr {f g : BlockRef → St S P → Option (Except E Unit × St S P)} : ∀ (bs : List BlockRef) (st : St S P),
    (∀ b ∈ bs, ∀ st, f b st = g b st) → demandAll f bs st = demandAll g bs st
  | [], _, _ => rfl
  | b :: bs, st, h => by
    unfold demandAll
    rw [h b (by simp) st]
    cases g b st with
    | none => rfl
    | some q =>
      obtain ⟨r, st1⟩ := q
      cases r with
      | error e => rfl
      | ok u => exact demandAll_congr bs st1 fun c hc => h c (by simp [hc])

/-- A block that the goals cannot depend on has no influence, on success or failure: it may do anything, be
replaced or be removed. -/
theorem C36_irrelevant (Y Y' : Sys S P E) (roots : List String) (hw : Y'.writersOf = Y.writersOf)
    (hsame : ∀ b, Relevant Y roots b → Y'.rule b = Y.rule b ∧ Y'.uncond b = Y.uncond b ∧ Y'.select b = Y.select b ∧
      Y'.cond b = Y.cond b ∧ Y'.commit b = Y.commit b) (fuel : Nat) (s : S) :
    drive Y' fuel roots s = drive Y fuel roots s := by
  have main : ∀ n b, Relevant Y roots b → ∀ st, runBlock Y' n b st = runBlock Y n b st := by
    intro n
    induction n with
    | zero => intro b _ st; rfl
    | succ n ih =>
      intro b hb st
      obtain ⟨e1, e2, e3, e4, e5⟩ := hsame b hb
      have next : ∀ w, Dep Y b w → Relevant Y roots w := by
        intro w hd
        obtain ⟨g, hg, a, ha, hr⟩ := hb
        exact ⟨g, hg, a, ha, hr.tail hd⟩
      unfold runBlock
      by_cases hseen : b ∈ st.ran ∨ b ∈ st.busy
      · rw [if_pos hseen, if_pos hseen]
      · rw [if_neg hseen, if_neg hseen]
        have : runInner Y' (runBlock Y' n) b { st with busy := b :: st.busy } = runInner Y (runBlock Y n) b { st with busy := b :: st.busy } := by
          unfold runInner
          rw [e1, e2, hw, demandAll_congr (g := runBlock Y n) _ _ fun c hc st => ih c (next c (dep_uncond hc)) st]
          cases demandAll (runBlock Y n) ((Y.uncond b).flatMap Y.writersOf) { st with busy := b :: st.busy } with
          | none => rfl
          | some q =>
            obtain ⟨r, st1⟩ := q
            cases r with
            | error e => rfl
            | ok u =>
              dsimp only
              unfold runPhases
              rw [e3]
              cases Y.select b st1.store with
              | mk rs s1 => cases rs with
                | error e => rfl
                | ok p =>
                  dsimp only
                  rw [e4, hw, demandAll_congr (g := runBlock Y n) _ _ fun c hc st => ih c (next c (dep_cond hc)) st, e5]
        rw [this]
  unfold drive
  rw [hw]
  refine demandAll_congr _ _ fun b hb st => main _ b ?_ st
  obtain ⟨g, hg, ha⟩ := List.mem_flatMap.1 hb
  exact ⟨g, hg, b, ha, .refl⟩

/-! ## Instances -/

def blk (n : String) : BlockRef := ⟨"p", n⟩

/-- A policy of four blocks: `m` reads `x` for its test and, depending on the arm, `y` or `z`; the state is the
list of blocks that have written. -/
def demo : Sys (List String) Bool String where
  rule _ := true
  writersOf r := if r ∈ ["x", "y", "z", "m"] then [blk r] else []
  uncond b := if b.block = "m" then ["x"] else []
  select b s := (.ok (decide ("x" ∈ s) && decide (b.block = "m")), s)
  cond b p := if b.block = "m" then (if p then ["y"] else ["z"]) else []
  commit b _ s := (.ok (), s ++ [b.block])

/-- the test sees `x`, chooses `y`, and `z` does not run -/
example : (drive demo 5 ["m", "y"] []).map (fun r => (r.2.store, refs r.2.log)) = some (["x", "y", "m"], [blk "x", blk "y", blk "m"]) := by
  decide +kernel

/-- `a` and `b` read each other: the evaluation ends, each runs once, and `b` runs without the value of `a` -/
def loop : Sys (List String) Unit String where
  rule _ := true
  writersOf r := if r ∈ ["a", "b"] then [blk r] else []
  uncond b := if b.block = "a" then ["b"] else ["a"]
  select _ s := (.ok (), s)
  cond _ _ := []
  commit b _ s := (.ok (), s ++ [b.block])

example : (drive loop 3 ["a"] []).map (fun r => refs r.2.log) = some [blk "b", blk "a"] := by decide +kernel

/-- NEGATIVE: without the absence of cycles the order claim fails. `b` asks for `a`, which has not run before it. -/
theorem C36_cycle_order : ∃ st, drive loop 3 ["a"] [] = some (.ok (), st) ∧ ∃ post, st.log = (blk "b", ()) :: post ∧
    blk "a" ∈ asks loop (blk "b") () := by
  refine ⟨_, rfl, _, rfl, ?_⟩
  decide +kernel

/-- a failing write: the evaluation stops, what was asked for before has run -/
example : (drive { demo with commit := fun b _ s => if b.block = "m" then (.error "boom", s) else (.ok (), s ++ [b.block]) } 5 ["m"] []).map
    (fun r => (match r.1 with | .error e => e | .ok () => "", refs r.2.log)) = some ("boom", [blk "x", blk "y"]) := by decide +kernel

end Zen.Policy
