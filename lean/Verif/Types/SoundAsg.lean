import Verif.Types.SoundEval
/-
Assignments and methods in the soundness of the type checker (helper of Props/C60).
-/
namespace Zen
namespace Ty
open VT

theorem inhFields_aSet {fs : List (String × Val)} {o : List (String × VT)} (h : InhFields fs o) (k : String)
    {t : VT} {v : Val} (hv : Inh t v) (nd : (aKeys o).Nodup) : InhFields (aSet fs k v) (aSet o k t) := by
  refine (inhFields_iff _ _).2 fun k' t' hm => ?_
  have hg := aGet_of_mem (aKeys_aSet_nodup _ _ nd) hm
  rw [aGet_aSet] at hg ⊢
  split at hg
  · rename_i e
    cases hg
    rw [if_pos e]
    exact hv
  · rename_i e
    rw [if_neg e]
    exact (inhFields_iff _ _).1 h k' t' (aGet_mem hg)

theorem inh_detach {fs : List (String × Val)} {o : List (String × VT)} (h : InhFields fs o) (k : String) :
    Inh (detachChild (aGet o k)) (Val.detachChild (aGet fs k)) := by
  have any : Inh (.obj []) (Val.detachChild (aGet fs k)) := by
    simp only [Inh]
    cases e : aGet fs k with
    | none => exact ⟨[], rfl, trivial⟩
    | some v => cases v <;> exact ⟨_, rfl, trivial⟩
  cases e : aGet o k with
  | none => exact any
  | some t =>
    cases t <;> try exact any
    rename_i o'
    have := (inhFields_iff _ _).1 h k _ (aGet_mem e)
    simp only [Inh] at this
    obtain ⟨m, hm, hf⟩ := this
    cases e' : aGet fs k with
    | none => rw [e'] at hm; cases hm
    | some v =>
      rw [e'] at hm
      simp only [Option.getD_some] at hm
      subst hm
      simp only [detachChild, Val.detachChild, Inh]
      exact ⟨m, rfl, hf⟩

/-- inserting a value of a type below a path follows the insertion of the type -/
theorem inh_dotInsert (ks : List String) : ∀ {T : VT} {d : Val} {t : VT} {v : Val}, ks ≠ [] → VT.WF T →
    (∃ o, T = .obj o) → Inh T d → Inh t v → ∃ T' d', dotInsertP T ks t = some T' ∧
      Val.dotInsertDetachedP d ks v = some d' ∧ Inh T' d' ∧ (∃ o, T' = .obj o) := by
  induction ks with
  | nil => intro _ _ _ _ h; exact absurd rfl h
  | cons k ks ih =>
    rintro _ d t v _ hw ⟨o, rfl⟩ hd hv
    simp only [Inh] at hd
    obtain ⟨fs, rfl, hf⟩ := hd
    cases ks with
    | nil =>
      refine ⟨_, _, rfl, rfl, ?_, _, rfl⟩
      simp only [Inh]
      exact ⟨_, rfl, inhFields_aSet hf k hv hw.nodup⟩
    | cons k' ks =>
      have hc : ∃ o', detachChild (aGet o k) = .obj o' := by
        cases aGet o k with
        | none => exact ⟨_, rfl⟩
        | some t => cases t <;> exact ⟨_, rfl⟩
      obtain ⟨T', d', h1, h2, h3, _⟩ := ih (by simp) (wf_detach hw k) hc (inh_detach hf k) hv
      refine ⟨.obj (aSet o k T'), .obj (aSet fs k d'), by simp only [dotInsertP, h1], by simp only [Val.dotInsertDetachedP, h2], ?_, _, rfl⟩
      simp only [Inh]
      exact ⟨_, rfl, inhFields_aSet hf k h3 hw.nodup⟩

/-- an assignment keeps the scope in line with its type -/
theorem fits_assign {sc : TScope} {env env' : Scope} {c : String} {t : VT} {v acc acc' : Val} (hw : sc.WF)
    (hf : Fits sc env) (hv : Inh t v) (h : opAssignStep (.str c) v env (some acc) = .ok (env', acc')) :
    Fits { sc with root := (dotInsertP sc.root (splitDot c) t).getD sc.root } env' := by
  obtain ⟨o, ho, hi⟩ := hf.root
  obtain ⟨T', d', h1, h2, h3, h4⟩ := inh_dotInsert (splitDot c) (Reads.splitDot_ne c) hw.root ⟨o, ho⟩ hi hv
  have hb : ∃ m, env.base = .obj m := by
    cases e : env.base with
    | obj m => exact ⟨m, rfl⟩
    | _ => simp only [opAssignStep, e] at h; cases h
  obtain ⟨m, hb⟩ := hb
  simp only [opAssignStep, hb] at h
  rw [h1]
  simp only [Option.getD_some]
  split at h
  · simp only [Val.dotInsertDetached, h2] at h
    cases h
    exact ⟨by simp [aKeys], by obtain ⟨o', e⟩ := h4; exact ⟨o', e, h3⟩⟩
  · rename_i hdot
    cases h
    refine ⟨aKeys_aSet_nodup _ _ hf.locals, ?_⟩
    obtain ⟨o', e⟩ := h4
    refine ⟨o', e, ?_⟩
    obtain ⟨m1, hm1, hg1⟩ := Reads.materialize_obj hb hf.locals
    obtain ⟨m2, hm2, hg2⟩ := Reads.materialize_obj (e := env.setLocal c v) (m := m) hb (aKeys_aSet_nodup _ _ hf.locals)
    rw [Reads.splitDot_plain hdot, hm1] at h2
    simp only [Val.dotInsertDetachedP, Option.some.injEq] at h2
    subst h2 e
    rw [hm2]
    simp only [Inh] at h3 ⊢
    obtain ⟨fs, hfs, h3⟩ := h3
    cases hfs
    refine ⟨_, rfl, (inhFields_iff _ _).2 fun k t ht => ?_⟩
    have := (inhFields_iff _ _).1 h3 k t ht
    rw [aGet_aSet, hg1] at this
    rw [hg2, Reads.get_setLocal]
    exact this

section
variable {L : Fn.Lib} {D : Dec.Rounding} {checks : Bool} {DL : Fn.DLib} {num : NumOps}
  {mArity : String → Option (Nat × Nat)} {method : String → List Val → Except BErr Val} {same : VT → VT → Bool}

local notation "B" => Fn.builtins L D checks DL num mArity method

theorem asg_keeps_key (list : List (Node × Node)) : ∀ (sc : TScope) (acc : List (String × VT)) (k : String),
    k ∈ aKeys acc → k ∈ aKeys (detAsg true same sc acc list).2.1 := by
  induction list with
  | nil => exact fun _ _ _ h => h
  | cons kv r ih =>
    obtain ⟨kn, vn⟩ := kv
    intro sc acc k h
    simp only [detAsg]
    split
    · exact ih _ _ k h
    · refine ih _ _ k ?_
      rw [← aGet_isSome_iff, aGet_aSet]
      split
      · rfl
      · exact (aGet_isSome_iff _ _).2 h

theorem sound_asg (hm : MethodsTyped method) (hs : ∀ a b, same a b = true → a = b) (hc : ∀ a b, same a b = same b a)
    (list : List (Node × Node)) : ∀ {sc : TScope} {fr : Frames} {root env env' : Scope} {acc : List (String × VT)}
      {a a' : Val}, sc.WF → Fits sc env → FrFits sc fr → SureAsg same sc list →
      (detAsg true same sc acc list).2.2 = false → evalAsg B root fr env a list = .ok (a', env') →
      (detAsg true same sc acc list).1.WF ∧ Fits (detAsg true same sc acc list).1 env' ∧
        FrFits (detAsg true same sc acc list).1 fr ∧
        ((∀ k ∈ aKeys (detAsg true same sc acc list).2.1, '.' ∉ k.toList) → VT.WF (.obj acc) → Inh (.obj acc) a →
          Inh (.obj (detAsg true same sc acc list).2.1) a') := by
  induction list with
  | nil =>
    intro sc fr root env env' acc a a' hw hf hfr _ _ h
    simp only [evalAsg] at h
    cases h
    exact ⟨hw, hf, hfr, fun _ _ h => h⟩
  | cons kv r ih =>
    obtain ⟨k, v⟩ := kv
    intro sc fr root env env' acc a a' hw hf hfr hsu hb h
    simp only [SureAsg] at hsu
    obtain ⟨⟨nk, ak, sk⟩, ⟨nv, av, sv⟩, c, hck, hr⟩ := hsu
    simp only [detAsg, hck, constStr, Bool.or_eq_false_iff] at hb ⊢
    simp only [evalAsg] at h
    split at h
    · cases h
    rename_i kv env1 h1
    have e1 := keep nk h1
    subst e1
    split at h
    · cases h
    rename_i x env2 h2
    have e2 := keep nv h2
    subst e2
    split at h
    · cases h
    rename_i env3 a3 h3
    have hk := (sound hm hs hc k sc fr root _ hw hf hfr nk (.inr ak) hb.1.1 sk).1 _ _ h1
    rw [hck] at hk
    simp only [Inh] at hk
    subst hk
    have hx := (sound hm hs hc v sc fr root _ hw hf hfr nv (.inr av) hb.1.2 sv).1 _ _ h2
    have wv := determine_wf true same v sc hw
    have hw' : TScope.WF { sc with root := (dotInsertP sc.root (splitDot c) (determine true same sc v).kind).getD sc.root } := by
      refine ⟨?_, hw.pointer, hw.aliases⟩
      cases e : dotInsertP sc.root (splitDot c) (determine true same sc v).kind with
      | none => exact hw.root
      | some T => exact wf_dotInsert _ hw.root wv e
    have hrest := ih (acc := aSet acc c (determine true same sc v).kind) hw' (fits_assign hw hf hx h3)
      ⟨hfr.pointer, hfr.some_, hfr.none_⟩ hr hb.2 h
    refine ⟨hrest.1, hrest.2.1, hrest.2.2.1, fun hdots wacc ha => hrest.2.2.2 hdots (wf_aSet wacc c wv) ?_⟩
    have hdot : '.' ∉ c.toList := by
      refine hdots c ?_
      exact asg_keeps_key r _ _ c (by rw [← aGet_isSome_iff, aGet_aSet, if_pos rfl]; rfl)
    have e3 : a3 = (a.dotInsert c x).1 := by
      simp only [opAssignStep] at h3
      split at h3
      · rw [if_neg hdot] at h3; cases h3; rfl
      · cases h3
    subst e3
    simp only [Inh] at ha ⊢
    obtain ⟨fs, rfl, hfs⟩ := ha
    simp only [Val.dotInsert, Reads.splitDot_plain hdot, Val.dotInsertP]
    exact ⟨_, rfl, inhFields_aSet hfs c hx wacc.nodup⟩

/-- the value of a whole expression has the inferred type -/
theorem sound_top (hm : MethodsTyped method) (hs : ∀ a b, same a b = true → a = b) (hc : ∀ a b, same a b = same b a)
    {n : Node} {sc : TScope} {env env' : Scope} {v : Val} (hw : sc.WF) (hf : Fits sc env) (hfr : FrFits sc [])
    (hb : (determine true same sc n).bad = false) (hsu : SureTop same sc n) (h : eval B env [] env n = .ok (v, env')) :
    Inh (determine true same sc n).kind v := by
  unfold SureTop at hsu
  have hroot : { sc with root := asgRoot sc.root } = sc := by
    obtain ⟨o, ho, _⟩ := hf.root
    rw [ho]
    simp only [asgRoot]
    rw [← ho]
  split at hsu
  · rename_i list
    rw [hroot] at hsu
    simp only [determine, detOut, hroot] at hb ⊢
    simp only [eval] at h
    split at h
    · cases h
    rename_i h1
    simp only [evalOpt] at h
    cases h
    exact (sound_asg hm hs hc list hw hf hfr hsu.1 hb h1).2.2.2 hsu.2 wf_empty (by simp [Inh, InhFields])
  · rename_i list n
    rw [hroot] at hsu
    simp only [determine, detOut, hroot, Bool.or_eq_false_iff] at hb ⊢
    simp only [eval] at h
    split at h
    · cases h
    rename_i h1
    simp only [evalOpt] at h
    have := sound_asg hm hs hc list hw hf hfr hsu.1 hb.1 h1
    exact (sound hm hs hc n _ _ _ _ this.1 this.2.1 this.2.2.1 hsu.2.1 (.inr hsu.2.2.1) hb.2 hsu.2.2.2).1 _ _ h
  · exact (sound hm hs hc n sc [] env env hw hf hfr hsu.1 (.inl rfl) hb hsu.2).1 v env' h

end

/-! ### Methods -/

/-- the method table built from the implementations of the methods: arguments are passed as dates or plain values,
results come back as values -/
def methodOf (DL : Fn.DLib) (b : Dur.Build) (toArg : Val → Fn.Arg) (ofDate : Option Fn.ZDate → Option Int)
    (m : String) (args : List Val) : Except BErr Val :=
  match aGet methodNames m with
  | none => .error (.err "Method not found")
  | some n => match Fn.mCall DL b n (args.map toArg) with
    | .error e => .error e
    | .ok (.date d) => .ok (.dyn (.date (ofDate d)))
    | .ok (.val v) => .ok v

/-- the declared result of a method -/
def methodRet : Fn.MName → VT
  | .diff => .number
  | .compare _ => .bool
  | .format => .string
  | .get g => getterType g
  | _ => .date

theorem methodKind_ret (n : Fn.MName) (ts : List VT) (h : ((methodDef n).check ts).bad = false) :
    ((methodDef n).check ts).kind = methodRet n := by
  have two : ∀ {s1 s2 : Sig} {r : VT}, s1.ret = r → s2.ret = r → (FDef.check (.composite [s1, s2]) ts).bad = false →
      (FDef.check (.composite [s1, s2]) ts).kind = r := by
    intro s1 s2 r e1 e2
    simp only [FDef.check]
    split
    · rename_i s hs
      have hm := List.mem_of_find?_eq_some hs
      simp only [List.mem_cons, List.not_mem_nil, or_false] at hm
      intro _
      rcases hm with rfl | rfl <;> assumption
    · intro h; cases h
  cases n with
  | get g => rfl
  | _ => first | rfl | exact two rfl rfl h

theorem methodOf_typed (DL : Fn.DLib) (b : Dur.Build) (toArg : Val → Fn.Arg) (ofDate : Option Fn.ZDate → Option Int) :
    MethodsTyped (methodOf DL b toArg ofDate) := by
  intro m n args v hmn hsure h ts hb
  simp only [methodKind, hmn] at hb ⊢
  rw [methodKind_ret n ts hb]
  simp only [methodOf, hmn] at h
  have key : ∀ r, Fn.mCall DL b n (args.map toArg) = .ok r →
      (∃ d, r = .date d ∧ methodRet n = .date) ∨ ∃ w, r = .val w ∧ Inh (methodRet n) w := by
    intro r hr
    generalize args.map toArg = as at hr
    cases n with
    | diff => exact absurd hsure id
    | get g =>
      simp only [SureMethod] at hsure
      subst hsure
      simp only [Fn.mCall, Fn.mGet] at hr
      obtain ⟨a, _, hr⟩ := bind_ok hr
      cases hr
      exact .inr ⟨_, rfl, by simp [methodRet, getterType, Inh]⟩
    | compare o =>
      simp only [Fn.mCall, Fn.mCompare] at hr
      obtain ⟨a, _, hr⟩ := bind_ok hr
      obtain ⟨a, _, hr⟩ := bind_ok hr
      obtain ⟨a, _, hr⟩ := bind_ok hr
      cases hr
      exact .inr ⟨_, rfl, by simp [methodRet, Inh]⟩
    | format =>
      simp only [Fn.mCall, Fn.mFormat] at hr
      obtain ⟨a, _, hr⟩ := bind_ok hr
      obtain ⟨a, _, hr⟩ := bind_ok hr
      right
      split at hr
      · cases hr; exact ⟨_, rfl, by simp [methodRet, Inh]⟩
      · cases hr; exact ⟨_, rfl, by simp [methodRet, Inh]⟩
      · split at hr <;> cases hr
        exact ⟨_, rfl, by simp [methodRet, Inh]⟩
    | add =>
      simp only [Fn.mCall, Fn.mAdd] at hr
      obtain ⟨a, _, hr⟩ := bind_ok hr
      obtain ⟨a, _, hr⟩ := bind_ok hr
      cases hr
      exact .inl ⟨_, rfl, rfl⟩
    | sub =>
      simp only [Fn.mCall, Fn.mSub] at hr
      obtain ⟨a, _, hr⟩ := bind_ok hr
      obtain ⟨a, _, hr⟩ := bind_ok hr
      left
      split at hr
      · cases hr; exact ⟨_, rfl, rfl⟩
      · split at hr <;> cases hr
        exact ⟨_, rfl, rfl⟩
    | set =>
      simp only [Fn.mCall, Fn.mSet] at hr
      obtain ⟨a, _, hr⟩ := bind_ok hr
      obtain ⟨a, _, hr⟩ := bind_ok hr
      left
      split at hr
      · split at hr <;> cases hr
        exact ⟨_, rfl, rfl⟩
      · cases hr
    | startOf =>
      simp only [Fn.mCall, Fn.mEdge] at hr
      obtain ⟨a, _, hr⟩ := bind_ok hr
      obtain ⟨a, _, hr⟩ := bind_ok hr
      cases hr
      exact .inl ⟨_, rfl, rfl⟩
    | endOf =>
      simp only [Fn.mCall, Fn.mEdge] at hr
      obtain ⟨a, _, hr⟩ := bind_ok hr
      obtain ⟨a, _, hr⟩ := bind_ok hr
      cases hr
      exact .inl ⟨_, rfl, rfl⟩
    | tz =>
      simp only [Fn.mCall, Fn.mTz] at hr
      obtain ⟨a, _, hr⟩ := bind_ok hr
      obtain ⟨a, _, hr⟩ := bind_ok hr
      split at hr <;> cases hr
      exact .inl ⟨_, rfl, rfl⟩
  split at h
  · cases h
  · rename_i d hd
    cases h
    rcases key _ hd with ⟨d', h1, h2⟩ | ⟨w, h1, _⟩
    · rw [h2]; simp [Inh]
    · cases h1
  · rename_i w hw
    cases h
    rcases key _ hw with ⟨d', h1, h2⟩ | ⟨w, h1, h2⟩
    · cases h1
    · cases h1; exact h2

end Ty
end Zen
