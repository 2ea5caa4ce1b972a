import Verif.Types.SoundCall
import Verif.Expr.EvalLemmas
/-
The value of an accepted expression has the inferred type (helper of Props/C60).
-/
namespace Zen
namespace Ty
open VT

theorem inh_ident {sc : TScope} {env : Scope} (h : Fits sc env) (k : String) :
    Inh (sc.root.get k) ((env.get k).getD .null) ∧ opFetchEnv env k = .ok ((env.get k).getD .null) := by
  obtain ⟨o, ho, hi⟩ := h.root
  rw [ho] at hi ⊢
  simp only [Inh] at hi
  obtain ⟨fs, hm, hf⟩ := hi
  have hb : ∃ m, env.base = .obj m := by
    unfold Scope.materialize at hm
    split at hm
    · exact ⟨_, hm⟩
    · cases hb : env.base with
      | obj m => exact ⟨m, rfl⟩
      | _ => rw [hb] at hm; simp at hm
  obtain ⟨m, hb⟩ := hb
  obtain ⟨m', h1, h2⟩ := Reads.materialize_obj hb h.locals
  rw [hm] at h1
  cases h1
  constructor
  · rw [← h2]
    simp only [VT.get]
    cases e : aGet o k with
    | none => simp [Inh]
    | some t => exact (inhFields_iff _ _).1 hf k t (aGet_mem e)
  · unfold opFetchEnv Scope.get
    rw [hb]
    cases env.local_ k <;> rfl

theorem FrFits.enter {sc : TScope} {fr : Frames} (h : FrFits sc fr) (al : Option String) {t : VT} {x : Val}
    (hx : Inh (t.iterator.getD .any) x) : FrFits (sc.enter al t) ((al, x) :: fr) := by
  refine ⟨?_, ?_, ?_⟩
  · intro h e; cases e; exact hx
  · intro k v e
    cases al with
    | none => exact h.some_ k v e
    | some a =>
      simp only [aliasOf] at e
      simp only [TScope.enter, aGet_aSet]
      split at e
      · rename_i e1
        cases e
        rw [if_pos e1.symm]
        exact ⟨_, rfl, hx⟩
      · rename_i e1
        rw [if_neg (fun h => e1 h.symm)]
        exact h.some_ k v e
  · intro k e
    cases al with
    | none => exact h.none_ k e
    | some a =>
      simp only [aliasOf] at e
      simp only [TScope.enter, aGet_aSet]
      split at e
      · cases e
      · rename_i e1
        rw [if_neg (fun h => e1 h.symm)]
        exact h.none_ k e

theorem Fits.enter {sc : TScope} {env : Scope} (h : Fits sc env) (al : Option String) (t : VT) :
    Fits (sc.enter al t) env := ⟨h.locals, h.root⟩

section
variable (L : Fn.Lib) (D : Dec.Rounding) (checks : Bool) (DL : Fn.DLib) (num : NumOps)
  (mArity : String → Option (Nat × Nat)) (method : String → List Val → Except BErr Val) (same : VT → VT → Bool)

local notation "B" => Fn.builtins L D checks DL num mArity method

/-- what the checker promises about one expression -/
def Sound (n : Node) : Prop := ∀ (sc : TScope) (fr : Frames) (root env : Scope), sc.WF → Fits sc env → FrFits sc fr →
  NoAssign n → (root = env ∨ Avoids [] n) → (determine true same sc n).bad = false → Sure same sc n →
  (∀ v env', eval B root fr env n = .ok (v, env') → Inh (determine true same sc n).kind v) ∧
  (∀ b, lenient root env fr n = some b → Inh (determine true same sc n).kind b)

variable {L D checks DL num mArity method same}

theorem keep {n : Node} {root : Scope} {fr : Frames} {env env' : Scope} {v : Val} (hn : NoAssign n)
    (h : eval B root fr env n = .ok (v, env')) : env' = env := eval_keeps n hn fr env _ h

theorem keepL {ns : List Node} {root : Scope} {fr : Frames} {env env' : Scope} {v : List Val} (hn : NoAssignL ns)
    (h : evalList B root fr env ns = .ok (v, env')) : env' = env :=
  keepsList ns (fun n _ => eval_keeps n) hn fr env _ h

theorem sound_list {ns : List Node} (ih : ∀ n ∈ ns, Sound L D checks DL num mArity method same n)
    {sc : TScope} {fr : Frames} {root : Scope} (hw : sc.WF) (hfr : FrFits sc fr) :
    ∀ {env env' : Scope} {vs : List Val}, Fits sc env → NoAssignL ns → (root = env ∨ AvoidsL [] ns) →
      (detList true same sc ns).2 = false → SureL same sc ns → evalList B root fr env ns = .ok (vs, env') →
      List.Forall₂ Inh (detList true same sc ns).1 vs := by
  induction ns with
  | nil => intro env env' vs _ _ _ _ _ h; simp only [evalList] at h; cases h; exact .nil
  | cons n ns ihl =>
    intro env env' vs hf hn ha hb hs h
    simp only [evalList] at h
    split at h
    · cases h
    · rename_i v env1 h1
      have e1 := keep hn.1 h1
      subst e1
      split at h
      · cases h
      · rename_i vs' env2 h2
        cases h
        simp only [detList, Bool.or_eq_false_iff] at hb ⊢
        refine .cons ?_ ?_
        · exact (ih n List.mem_cons_self sc fr root _ hw hf hfr hn.1 (ha.imp_right And.left) hb.1 hs.1).1 _ _ h1
        · exact ihl (fun m hm => ih m (List.mem_cons_of_mem _ hm)) hf hn.2 (ha.imp_right And.right) hb.2 hs.2 h2

theorem inh_foldl_merge (hs : ∀ a b, same a b = true → a = b) (hc : ∀ a b, same a b = same b a) (ts : List VT) :
    ∀ {acc : VT}, VT.WF acc → (∀ t ∈ ts, VT.WF t) → MergeableAll same acc ts →
      ∀ v, (Inh acc v ∨ ∃ t ∈ ts, Inh t v) → Inh (ts.foldl (VT.merge same) acc) v := by
  induction ts with
  | nil =>
    intro acc _ _ _ v h
    rcases h with h | ⟨t, ht, _⟩
    · exact h
    · cases ht
  | cons t ts ih =>
    intro acc wa wt hm v h
    rw [List.foldl_cons]
    have wt0 := wt t List.mem_cons_self
    have hmv := C08_merge_values same hs hc hm.1 wa wt0 v
    refine ih (C08_merge_wf same acc t wa wt0) (fun u hu => wt u (List.mem_cons_of_mem _ hu)) hm.2 v ?_
    rcases h with h | ⟨u, hu, h⟩
    · exact .inl (hmv (.inl h))
    · rcases List.mem_cons.1 hu with rfl | hu
      · exact .inl (hmv (.inr h))
      · exact .inr ⟨u, hu, h⟩

theorem forall2_mem {α β : Type} {R : α → β → Prop} : ∀ {l : List α} {m : List β}, List.Forall₂ R l m →
    ∀ b ∈ m, ∃ a ∈ l, R a b
  | _, _, .nil, _, h => nomatch h
  | _, _, .cons h r, b, hb => by
    rcases List.mem_cons.1 hb with rfl | hb
    · exact ⟨_, List.mem_cons_self, h⟩
    · obtain ⟨a, ha, h⟩ := forall2_mem r b hb
      exact ⟨a, List.mem_cons_of_mem _ ha, h⟩

theorem strOf_str {s : String} : strOf B (.str s) = .ok (.str s) := by
  have e : Fn.Name.ofText "string" = some .string := by decide +kernel
  simp only [strOf, Fn.builtins, e, Fn.call]
  rfl

theorem aGet_objLiteral (kvs : List (String × Val)) (k : String) : aGet (objLiteral kvs) k = aGet kvs k := by
  induction kvs with
  | nil => rfl
  | cons kv r ih =>
    obtain ⟨a, v⟩ := kv
    show aGet (aSet (objLiteral r) a v) k = _
    rw [aGet_aSet, aGet_cons, ih]
    by_cases h : a = k
    · simp [h]
    · simp [h, Ne.symm h]

theorem sound_obj {kvs : List (Node × Node)} {sc : TScope} {fr : Frames} {root : Scope}
    (ih : ∀ p ∈ kvs, Sound L D checks DL num mArity method same p.1 ∧ Sound L D checks DL num mArity method same p.2)
    (hw : sc.WF) (hfr : FrFits sc fr) : ∀ {env env' : Scope} {es : List (String × Val)} {cs : List String}
      {acc : List (String × VT)}, Fits sc env → NoAssignP kvs → (root = env ∨ AvoidsP [] kvs) →
      (detObj true same sc acc kvs).2 = false → SureP same sc kvs → cs.Nodup →
      kvs.map (fun kv => (determine true same sc kv.1).kind) = cs.map VT.const →
      evalObj B root fr env kvs = .ok (es, env') →
      ∀ k, (k ∉ cs → aGet es k = none ∧ aGet (detObj true same sc acc kvs).1 k = aGet acc k) ∧
        (k ∈ cs → ∃ t v, aGet es k = some v ∧ aGet (detObj true same sc acc kvs).1 k = some t ∧ Inh t v) := by
  induction kvs with
  | nil =>
    intro env env' es cs acc _ _ _ _ _ _ hcs h k
    simp only [evalObj] at h
    cases h
    cases cs with
    | nil => exact ⟨fun _ => ⟨rfl, rfl⟩, fun h => nomatch h⟩
    | cons _ _ => cases hcs
  | cons kv r ihl =>
    obtain ⟨kn, vn⟩ := kv
    intro env env' es cs acc hf hn ha hb hs hnd hcs h k
    cases cs with
    | nil => cases hcs
    | cons c cs =>
    simp only [List.map_cons, List.cons.injEq] at hcs
    obtain ⟨hck, hcs⟩ := hcs
    have hnd := List.nodup_cons.1 hnd
    simp only [detObj, hck, constStr, Bool.or_eq_false_iff] at hb ⊢
    simp only [evalObj] at h
    split at h
    · cases h
    rename_i kv env1 h1
    have e1 := keep hn.1 h1
    subst e1
    have ihk := (ih (kn, vn) List.mem_cons_self).1 sc fr root _ hw hf hfr hn.1 (ha.imp_right And.left) hb.1.1 hs.1
    have hkv := ihk.1 _ _ h1
    rw [hck] at hkv
    simp only [Inh] at hkv
    subst hkv
    rw [strOf_str] at h
    dsimp only at h
    split at h
    · cases h
    rename_i x env2 h2
    have e2 := keep hn.2.1 h2
    subst e2
    have hx := ((ih (kn, vn) List.mem_cons_self).2 sc fr root _ hw hf hfr hn.2.1 (ha.imp_right fun h => h.2.1) hb.1.2 hs.2.1).1 _ _ h2
    split at h
    · cases h
    rename_i es' env3 h3
    cases h
    have hr := ihl (fun p hp => ih p (List.mem_cons_of_mem _ hp)) hf hn.2.2 (ha.imp_right fun h => h.2.2) hb.2 hs.2.2 hnd.2 hcs h3 k
    simp only [List.mem_cons, not_or, aGet_cons]
    by_cases hk : k = c
    · subst hk
      refine ⟨fun h => absurd rfl h.1, fun _ => ?_⟩
      have hr := hr.1 hnd.1
      refine ⟨_, _, by simp, ?_, hx⟩
      rw [hr.2, aGet_aSet, if_pos rfl]
    · refine ⟨fun h => ?_, fun h => ?_⟩
      · have hr := hr.1 h.2
        rw [hr.1, hr.2, aGet_aSet, if_neg hk, if_neg (fun h => hk h.symm)]
        exact ⟨rfl, rfl⟩
      · have hr := hr.2 (h.resolve_left hk)
        obtain ⟨t, v, h1, h2, h3⟩ := hr
        exact ⟨t, v, by rw [if_neg (fun h => hk h.symm)]; exact h1, h2, h3⟩

theorem loopFilter_mem {f : Val → Scope → Res} (xs : List Val) :
    ∀ {env : Scope} {r}, loopFilter f xs env = .ok r → ∀ x ∈ r.1, x ∈ xs := by
  induction xs with
  | nil => intro env r h; cases h; exact fun _ h => h
  | cons x xs ih =>
    intro env r h
    simp only [loopFilter] at h
    split at h
    · cases h
    · rename_i h1
      split at h
      · cases h
      · rename_i h2
        cases h
        intro y hy
        rcases List.mem_cons.1 hy with rfl | hy
        · exact List.mem_cons_self
        · exact List.mem_cons_of_mem _ (ih h2 y hy)
    · exact fun y hy => List.mem_cons_of_mem _ (ih h y hy)
    · cases h

theorem loopMap_mem {f : Val → Scope → Res} (hf : ∀ x env r, f x env = .ok r → r.2 = env) (xs : List Val) :
    ∀ {env : Scope} {r}, loopMap f xs env = .ok r → ∀ y ∈ r.1, ∃ x ∈ xs, ∃ env', f x env = .ok (y, env') := by
  induction xs with
  | nil => intro env r h; cases h; exact fun _ h => nomatch h
  | cons x xs ih =>
    intro env r h
    simp only [loopMap] at h
    split at h
    · cases h
    · rename_i v env1 h1
      have e1 : env1 = env := hf _ _ _ h1
      subst e1
      split at h
      · cases h
      · rename_i h2
        cases h
        intro y hy
        rcases List.mem_cons.1 hy with rfl | hy
        · exact ⟨x, List.mem_cons_self, _, h1⟩
        · obtain ⟨z, hz, env', h⟩ := ih h2 y hy
          exact ⟨z, List.mem_cons_of_mem _ hz, env', h⟩

theorem inh_of_arr {t : VT} {zs : List Val} : t.iterator = none → Inh t (.arr zs) → ∀ y, Inh t y := by
  induction t using VT.ind with
  | nullable t ih =>
    intro h1 h2 y
    simp only [Inh] at h2 ⊢
    exact .inr (ih h1 (h2.resolve_left (by simp)) y)
  | any => intro _ _ y; simp [Inh]
  | _ => intro h1 h2; simp [VT.iterator, Inh] at h1 h2

/-- The value of an accepted expression has the inferred type. -/
theorem sound (hm : MethodsTyped method) (hs : ∀ a b, same a b = true → a = b) (hc : ∀ a b, same a b = same b a)
    (n : Node) : Sound L D checks DL num mArity method same n := by
  refine Node.ind (P := Sound L D checks DL num mArity method same)
    ?null ?bool ?num ?str ?tmpl ?pointer ?arr ?obj ?assigns ?ident ?paren ?root ?member ?slice
    ?interval ?cond ?unary ?binary ?call ?closure ?method ?error n
  case null => intro sc fr root env _ _ _ _ _ _ _; simp [eval, lenient, determine, Inh]
  case bool => intro b sc fr root env _ _ _ _ _ _ _; simp [eval, lenient, determine, Inh]
  case num => intro b sc fr root env _ _ _ _ _ _ _; simp [eval, lenient, determine, Inh]
  case str => intro b sc fr root env _ _ _ _ _ _ _; simp [eval, lenient, determine, Inh]
  case tmpl =>
    intro ps _ sc fr root env _ _ _ _ _ _ _
    refine ⟨fun v env' h => ?_, fun b h => by simp [lenient] at h⟩
    simp only [eval] at h
    split at h
    · cases h
    · split at h
      · cases h
      · rename_i h2
        cases h
        simp only [opJoin] at h2
        split at h2
        · split at h2 <;> cases h2
          simp [determine, Inh]
        · cases h2; simp [determine, Inh]
        · cases h2
  case pointer =>
    intro sc fr root env _ _ hfr _ _ _ _
    refine ⟨fun v env' h => ?_, fun b h => by simp [lenient] at h⟩
    simp only [eval] at h
    split at h
    · cases h
      exact hfr.pointer _ rfl
    · cases h
  case root =>
    intro sc fr root env _ hf _ _ ha _ _
    obtain ⟨o, ho, hi⟩ := hf.root
    refine ⟨fun v env' h => ?_, fun b h => ?_⟩
    · simp only [eval] at h
      cases h
      exact hi
    · simp only [lenient, Option.some.injEq] at h
      subst h
      rcases ha with rfl | ha
      · exact hi
      · simp [Avoids] at ha
  case arr =>
    intro ps ih sc fr root env hw hf hfr hn ha hb hsu
    refine ⟨fun v env' h => ?_, fun b h => by simp [lenient] at h⟩
    simp only [eval] at h
    split at h
    · cases h
    rename_i vs env1 h1
    cases h
    simp only [determine] at hb ⊢
    simp only [Sure] at hsu
    have h2 := sound_list ih hw hfr hf hn ha hb hsu.1 h1
    have wl := wf_detList true same ps (fun n _ => determine_wf true same n) sc hw
    have hsu2 := hsu.2
    simp only [Inh]
    refine ⟨_, rfl, fun x hx => ?_⟩
    obtain ⟨t, ht, hx⟩ := forall2_mem h2 x hx
    generalize (detList true same sc ps).1 = ts at *
    cases ts with
    | nil => cases ht
    | cons t0 ts =>
      simp only [unionOf, Option.getD_some]
      refine inh_foldl_merge hs hc ts (wl t0 List.mem_cons_self) (fun u hu => wl u (List.mem_cons_of_mem _ hu)) hsu2 x ?_
      rcases List.mem_cons.1 ht with rfl | ht
      · exact .inl hx
      · exact .inr ⟨t, ht, hx⟩
  case obj =>
    intro kvs ih sc fr root env hw hf hfr hn ha hb hsu
    refine ⟨fun v env' h => ?_, fun b h => by simp [lenient] at h⟩
    simp only [eval] at h
    split at h
    · cases h
    rename_i es env1 h1
    cases h
    simp only [determine] at hb ⊢
    simp only [Sure] at hsu
    rcases hsu with hsu | ⟨hsu, cs, hnd, hcs⟩
    · have : ∀ (kvs : List (Node × Node)), (∀ kv ∈ kvs, constStr (determine true same sc kv.1).kind = none) →
          (detObj true same sc [] kvs).1 = [] := by
        intro kvs
        induction kvs with
        | nil => intro _; rfl
        | cons kv r ih =>
          obtain ⟨k, v⟩ := kv
          intro h
          simp only [detObj, h (k, v) List.mem_cons_self]
          exact ih fun kv hkv => h kv (List.mem_cons_of_mem _ hkv)
      rw [this kvs hsu]
      simp [Inh, InhFields]
    · have key := sound_obj ih hw hfr hf hn ha hb hsu hnd hcs h1
      have wo : VT.WF (.obj (detObj true same sc [] kvs).1) := by
        simpa only [determine] using determine_wf true same (.obj kvs) sc hw
      simp only [Inh]
      refine ⟨_, rfl, (inhFields_iff _ _).2 fun k t ht => ?_⟩
      have hg := aGet_of_mem wo.nodup ht
      rw [aGet_objLiteral]
      by_cases hk : k ∈ cs
      · obtain ⟨t', v', h1, h2, h3⟩ := (key k).2 hk
        rw [hg] at h2
        cases h2
        rw [h1]
        exact h3
      · have := ((key k).1 hk).2
        rw [hg] at this
        cases this
  case assigns => intro kvs o _ _ sc fr root env _ _ _ hn; simp [NoAssign] at hn
  case ident =>
    intro s sc fr root env _ hf hfr _ _ _ _
    have hi := inh_ident hf s
    simp only [determine]
    cases ea : aliasOf fr s with
    | some x =>
      obtain ⟨t, h1, h2⟩ := hfr.some_ s x ea
      refine ⟨fun v env' h => ?_, fun b h => ?_⟩
      · simp only [eval, ea] at h
        cases h
        rw [h1]
        exact h2
      · simp only [lenient, ea] at h
        cases h
    | none =>
      rw [hfr.none_ s ea]
      refine ⟨fun v env' h => ?_, fun b h => ?_⟩
      · simp only [eval, ea, hi.2] at h
        cases h
        exact hi.1
      · simp only [lenient, ea] at h
        cases h
        exact hi.1
  case paren =>
    intro n ih sc fr root env hw hf hfr hn ha hb hsu
    refine ⟨fun v env' h => ?_, fun b h => by simp [lenient] at h⟩
    exact (ih sc fr root env hw hf hfr hn ha hb hsu).1 v env' h
  case member =>
    intro n p ihn ihp sc fr root env hw hf hfr hn ha hb hsu
    simp only [determine, Bool.or_eq_false_iff] at hb ⊢
    have in_ := ihn sc fr root env hw hf hfr hn.1 (ha.imp_right And.left) hb.1.1 hsu.1
    have ip := ihp sc fr root env hw hf hfr hn.2 (ha.imp_right And.right) hb.1.2 hsu.2
    have len : ∀ b, lenient root env fr (.member n p) = some b →
        Inh (memberKind true (determine true same sc n).kind (determine true same sc p).kind).kind b := by
      intro b h
      simp only [lenient] at h
      split at h
      · cases h
      rename_i b0 h0
      have hb0 := in_.2 b0 h0
      split at h
      · rename_i k
        cases h
        exact inh_fetch hb.2 hb0 (by simp [determine, Inh]) (fastProp_fetch k b0)
      · rename_i x
        split at h
        · rename_i i hi
          cases h
          exact inh_fetch hb.2 hb0 (b := .num x) (by simp [determine, Inh]) (fastIdx_fetch hi b0)
        · cases h
      · cases h
    refine ⟨fun v env' h => ?_, len⟩
    simp only [eval] at h
    split at h
    · rename_i b hl
      cases h
      exact len _ hl
    split at h
    · cases h
    rename_i a env1 h1
    have e1 := keep hn.1 h1
    subst e1
    split at h
    · cases h
    rename_i b env2 h2
    split at h
    · cases h
    rename_i r h3
    cases h
    exact inh_fetch hb.2 (in_.1 _ _ h1) (ip.1 _ _ h2) h3
  case slice =>
    intro n f t ihn _ _ sc fr root env hw hf hfr hn ha hb hsu
    refine ⟨fun v env' h => ?_, fun b h => by simp [lenient] at h⟩
    simp only [determine, Bool.or_eq_false_iff] at hb ⊢
    simp only [eval] at h
    split at h
    · cases h
    rename_i c env1 h1
    split at h
    · cases h
    split at h
    · cases h
    split at h
    · cases h
    rename_i h4
    cases h
    exact inh_slice ((ihn sc fr root env hw hf hfr hn.1 (ha.imp_right And.left) hb.1.1.1 hsu).1 _ _ h1) hb.2 h4
  case interval =>
    intro l r lb rb _ _ sc fr root env _ _ _ _ _ _ _
    refine ⟨fun v env' h => ?_, fun b h => by simp [lenient] at h⟩
    simp only [eval] at h
    split at h
    · cases h
    split at h
    · cases h
    split at h
    · cases h
    rename_i h4
    cases h
    simp only [determine, Inh]
    unfold opInterval at h4
    split at h4 <;> cases h4 <;> exact ⟨_, _, _, _, rfl⟩
  case cond =>
    intro c t f _ iht ihf sc fr root env hw hf hfr hn ha hb hsu
    refine ⟨fun v env' h => ?_, fun b h => by simp [lenient] at h⟩
    simp only [determine, Bool.or_eq_false_iff] at hb ⊢
    simp only [Sure] at hsu
    have mv := C08_merge_values same hs hc hsu.2.2 (determine_wf true same t sc hw) (determine_wf true same f sc hw) v
    simp only [eval] at h
    split at h
    · cases h
    · rename_i env1 h1
      have e1 := keep hn.1 h1
      subst e1
      exact mv (.inl ((iht sc fr root _ hw hf hfr hn.2.1 (ha.imp_right fun h => h.2.1) hb.1.1.2 hsu.1).1 _ _ h))
    · rename_i env1 h1
      have e1 := keep hn.1 h1
      subst e1
      exact mv (.inr ((ihf sc fr root _ hw hf hfr hn.2.2 (ha.imp_right fun h => h.2.2) hb.1.2 hsu.2.1).1 _ _ h))
    · cases h
  case unary =>
    intro op n ih sc fr root env hw hf hfr hn ha hb hsu
    refine ⟨fun v env' h => ?_, fun b h => by simp [lenient] at h⟩
    simp only [determine, Bool.or_eq_false_iff] at hb ⊢
    simp only [Sure] at hsu
    simp only [eval] at h
    split at h
    · cases h
    rename_i x env1 h1
    split at h
    · cases h
      have hs1 := hsu rfl
      have := (ih sc fr root env hw hf hfr hn ha hb.1 hs1.1).1 _ _ h1
      rw [hs1.2] at this
      exact this
    · split at h
      · cases h
      rename_i h2
      cases h
      cases x <;> simp only [opNegate] at h2 <;> cases h2
      simp [unKind, Inh]
    · split at h
      · cases h
      rename_i h2
      cases h
      cases x <;> simp only [opNot] at h2 <;> cases h2
      simp [unKind, Inh]
    · cases h
  case binary =>
    intro op l r ihl ihr sc fr root env hw hf hfr hn ha hb hsu
    refine ⟨fun v env' h => ?_, fun b h => by simp [lenient] at h⟩
    simp only [determine, Bool.or_eq_false_iff] at hb ⊢
    simp only [eval] at h
    have bool : ∀ {o : LOp}, op = .logic o → o ≠ .coalesce → (∃ x, v = .bool x) →
        Inh (binKind same op (determine true same sc l).kind (determine true same sc r).kind).kind v := by
      rintro o rfl ho ⟨x, rfl⟩
      have hb2 := hb.2
      have : (binKind same (.logic o) (determine true same sc l).kind (determine true same sc r).kind).kind = .bool := by
        revert hb2
        cases o <;> first | exact absurd rfl ho | (simp only [binKind]; split <;> simp)
      rw [this]
      simp [Inh]
    split at h
    · split at h
      · cases h
      · cases h; exact bool rfl (by simp) ⟨_, rfl⟩
      · rename_i env1 h1
        have e1 := keep hn.1 h1
        subst e1
        simp only [Sure] at hsu
        have := (ihr sc fr root _ hw hf hfr hn.2 (ha.imp_right And.right) hb.1.2 hsu.1).1 _ _ h
        rw [hsu.2] at this
        exact bool rfl (by simp) (by simpa [Inh] using this)
      · cases h
    · split at h
      · cases h
      · cases h; exact bool rfl (by simp) ⟨_, rfl⟩
      · rename_i env1 h1
        have e1 := keep hn.1 h1
        subst e1
        simp only [Sure] at hsu
        have := (ihr sc fr root _ hw hf hfr hn.2 (ha.imp_right And.right) hb.1.2 hsu.1).1 _ _ h
        rw [hsu.2] at this
        exact bool rfl (by simp) (by simpa [Inh] using this)
      · cases h
    · simp only [Sure] at hsu
      have wl := determine_wf true same l sc hw
      have wr := determine_wf true same r sc hw
      have il := ihl sc fr root env hw hf hfr hn.1 (ha.imp_right And.left) hb.1.1 hsu.1
      have ir := ihr sc fr root env hw hf hfr hn.2 (ha.imp_right And.right) hb.1.2 hsu.2.1
      simp only [binKind]
      have hmg := hsu.2.2
      split at h
      · cases h
      · rename_i env1 h1
        have e1 := keep hn.1 h1
        subst e1
        have h2 := il.1 _ _ h1
        have h3 := ir.1 _ _ h
        generalize (determine true same sc l).kind = tl at *
        generalize (determine true same sc r).kind = tr at *
        cases tl <;> simp only [coalesceKind] <;> first
          | exact h3
          | (simp only [Inh]; done)
          | skip
        case nullable t =>
          have wt : VT.WF t := by cases wl; assumption
          exact C08_merge_values same hs hc (hmg t rfl) wt wr v (.inr h3)
        all_goals simp [Inh] at h2
      · rename_i x env1 hne h1
        cases h
        have h2 := il.1 _ _ h1
        have hnn : v ≠ .null := hne
        generalize (determine true same sc l).kind = tl at *
        generalize (determine true same sc r).kind = tr at *
        cases tl <;> simp only [coalesceKind] <;> first
          | exact h2
          | skip
        case null => simp only [Inh] at h2; exact absurd h2 hnn
        case nullable t =>
          have wt : VT.WF t := by cases wl; assumption
          simp only [Inh] at h2
          exact C08_merge_values same hs hc (hmg t rfl) wt wr v (.inl (h2.resolve_left hnn))
    · rename_i hor hand hco
      split at h
      · cases h
      rename_i f hfm
      split at h
      · cases h
      rename_i a env1 h1
      have e1 := keep hn.1 h1
      subst e1
      split at h
      · cases h
      rename_i b env2 h2
      split at h
      · cases h
      rename_i x h3
      cases h
      by_cases hadd : op = .arith .add
      · subst hadd
        simp only [binMeaning, Fn.builtins, Option.some.injEq] at hfm
        subst hfm
        simp only [Sure] at hsu
        exact inh_add ((ihl sc fr root _ hw hf hfr hn.1 (ha.imp_right And.left) hb.1.1 hsu.1).1 _ _ h1)
          ((ihr sc fr root _ hw hf hfr hn.2 (ha.imp_right And.right) hb.1.2 hsu.2).1 _ _ h2) h3
      · refine inh_strict hfm hadd ?_ ?_ hb.2 h3
        · rintro rfl; simp [Sure] at hsu
        · rintro rfl; simp [Sure] at hsu
  case call =>
    intro f as ih sc fr root env hw hf hfr hn ha hb hsu
    refine ⟨fun v env' h => ?_, fun b h => by simp [lenient] at h⟩
    simp only [determine, Bool.or_eq_false_iff] at hb ⊢
    simp only [eval] at h
    split at h
    · cases h
    rename_i vs env1 h1
    split at h
    · cases h
    rename_i r h2
    cases h
    simp only [Fn.builtins] at h2
    split at h2
    · rename_i nm hnm
      simp only [Sure] at hsu
      have hsn := hsu nm hnm
      refine inh_call hs hc hnm (wf_detList true same as (fun n _ => determine_wf true same n) sc hw) h2 hb.2 ?_ hsn.2
      intro ho
      exact sound_list ih hw hfr hf hn ha hb.1 (hsn.1 ho) h1
    · split at h2
      · rename_i hnone _ nm hnm
        unfold callKind
        rw [hnone]
        dsimp only
        rw [hnm]
        exact depCall_fixed h2 _
      · cases h2
  case closure =>
    intro k o al b iho ihb sc fr root env hw hf hfr hn ha hb hsu
    refine ⟨fun v env' h => ?_, fun b h => by simp [lenient] at h⟩
    simp only [determine, Bool.or_eq_false_iff] at hb ⊢
    simp only [eval] at h
    split at h
    · cases h
    rename_i x env1 h1
    have e1 := keep hn.1 h1
    subst e1
    split at h
    · cases h
    rename_i xs h2
    have hkeep : ∀ x env r, eval B root ((al, x) :: fr) env b = .ok r → r.2 = env :=
      fun x env r h => eval_keeps b hn.2 _ _ _ h
    have hit : iterable (determine true same sc o).kind = true ∧ isNullable (determine true same sc o).kind = false := by
      have := hb.2
      cases k <;> simp only [closureKind, Bool.or_eq_false_iff, Bool.true_and, Bool.not_eq_false'] at this <;>
        exact ⟨this.1.1, this.1.2⟩
    have elems : Sure same sc o → ∀ x ∈ xs, Inh ((determine true same sc o).kind.iterator.getD .any) x :=
      fun hso => inh_begin ((iho sc fr root _ hw hf hfr hn.1 (ha.imp_right And.left) hb.1.1 hso).1 _ _ h1) hit.1 hit.2 h2
    have body : Sure same sc o → Sure same (sc.enter al (determine true same sc o).kind) b →
        ∀ y ys, loopMap (fun x env => eval B root ((al, x) :: fr) env b) xs env1 = .ok ys → y ∈ ys.1 →
          Inh (determine true same (sc.enter al (determine true same sc o).kind) b).kind y := by
      intro hso hsb y ys hl hy
      obtain ⟨x, hx, env', he⟩ := loopMap_mem hkeep xs hl y hy
      exact (ihb _ _ root _ (hw.enter al (determine_wf true same o sc hw)) (hf.enter al _)
        (hfr.enter al (elems hso x hx)) hn.2 (ha.imp_right And.right) hb.1.2 hsb).1 _ _ he
    cases k <;> simp only [loopMeaning] at h <;> obtain ⟨r, hr, he⟩ := exceptMap_ok h <;> cases he <;>
      first | (simp [closureKind, Inh]; done) | skip
    case h_2.filter.refl =>
      simp only [Sure] at hsu
      have hel := elems hsu.1
      have hmem := loopFilter_mem xs hr
      simp only [closureKind]
      have hne := hsu.2
      generalize (determine true same sc o).kind = t at *
      cases t <;> simp [iterable, isNullable] at hit
      · simp [Inh]
      · exact absurd rfl hne
      · simp only [Inh]
        exact ⟨_, rfl, fun y hy => hel y (hmem y hy)⟩
    case h_2.map.refl =>
      simp only [Sure] at hsu
      simp only [closureKind, Inh]
      exact ⟨_, rfl, fun y hy => body hsu.1 hsu.2 y _ hr hy⟩
    case h_2.flatMap.refl =>
      simp only [Sure] at hsu
      simp only [closureKind, Inh]
      refine ⟨_, rfl, fun y hy => ?_⟩
      obtain ⟨z, hz, hy⟩ := flattenV_mem hy
      have hz := body hsu.1 hsu.2.1 z _ hr hz
      rcases hsu.2.2 with hit | ⟨t, ht⟩
      · rw [hit, Option.getD_none]
        generalize (determine true same (sc.enter al (determine true same sc o).kind) b).kind = t at *
        by_cases hz' : ∃ zs, z = .arr zs
        · obtain ⟨zs, rfl⟩ := hz'
          exact inh_of_arr hit hz y
        · have : flattenV [z] = [z] := by cases z <;> simp [flattenV] at hz' ⊢
          rw [this, List.mem_singleton] at hy
          rw [hy]
          exact hz
      · rw [ht] at hz ⊢
        simp only [VT.iterator, Option.getD_some]
        simp only [Inh] at hz
        obtain ⟨zs, rfl, hzs⟩ := hz
        simp only [flattenV, List.append_nil] at hy
        exact hzs y hy
  case method =>
    intro m t as _ _ sc fr root env hw hf hfr hn ha hb hsu
    refine ⟨fun v env' h => ?_, fun b h => by simp [lenient] at h⟩
    simp only [determine, Bool.or_eq_false_iff] at hb ⊢
    simp only [eval] at h
    split at h
    · cases h
    split at h
    · cases h
    split at h
    · cases h
    rename_i h3
    cases h
    cases e : aGet methodNames m with
    | none => simp [methodKind, e, Inh]
    | some n => exact hm m n _ _ e (hsu n e) h3 _ hb.2
  case error => intro sc fr root env _ _ _ _ _ hb; simp [determine] at hb

end

end Ty
end Zen
