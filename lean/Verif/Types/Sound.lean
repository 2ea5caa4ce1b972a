import Verif.Types.Sure
import Verif.Analysis.ReadsSim
/-
Proof that the inferred type covers the value.
-/
namespace Zen
namespace Ty
open VT

/-! ### Inferred types list no key twice -/

theorem wf_iterator {t u : VT} (h : VT.WF t) (e : t.iterator = some u) : VT.WF u := by
  induction h with
  | arr h => cases e; exact h
  | interval => cases e; exact .number
  | nullable _ ih => exact ih e
  | _ => cases e

theorem wf_iterator_getD {t : VT} (h : VT.WF t) : VT.WF (t.iterator.getD .any) := by
  cases e : t.iterator with
  | none => exact .any
  | some u => exact wf_iterator h e

theorem wf_get {t : VT} (h : VT.WF t) (k : String) : VT.WF (t.get k) := by
  induction h with
  | @obj o h1 h2 =>
    rw [VT.get]
    cases e : aGet o k with
    | none => exact .any
    | some u => exact h2 k u (aGet_mem e)
  | nullable _ ih => exact ih
  | _ => exact .null

theorem wf_aSet {o : List (String × VT)} (h : VT.WF (.obj o)) (k : String) {t : VT} (ht : VT.WF t) :
    VT.WF (.obj (aSet o k t)) := by
  have nd := aKeys_aSet_nodup k t h.nodup
  refine .obj nd fun k' u hm => ?_
  have e := aGet_of_mem nd hm
  rw [aGet_aSet] at e
  split at e
  · cases e; exact ht
  · exact h.get e

theorem wf_detach {o : List (String × VT)} (h : VT.WF (.obj o)) (k : String) : VT.WF (detachChild (aGet o k)) := by
  have he : VT.WF (.obj []) := .obj (by simp) (fun _ _ h => nomatch h)
  cases e : aGet o k with
  | none => exact he
  | some u =>
    have := h.get e
    cases u <;> first | exact he | exact this

theorem wf_dotInsert (ks : List String) : ∀ {t : VT} {u r : VT}, VT.WF t → VT.WF u →
    dotInsertP t ks u = some r → VT.WF r := by
  induction ks with
  | nil => intro t u r _ _ h; cases t <;> simp [dotInsertP] at h
  | cons k ks ih =>
    intro t u r ht hu h
    cases t <;> try (simp [dotInsertP] at h)
    rename_i o
    cases ks with
    | nil => simp only [dotInsertP, Option.some.injEq] at h; subst h; exact wf_aSet ht k hu
    | cons k' ks =>
      simp only [dotInsertP] at h
      split at h
      · rename_i x hx
        cases h
        exact wf_aSet ht k (ih (wf_detach ht k) hu hx)
      · cases h

theorem wf_check (d : FDef) (args : List VT)
    (h : match d with | .static s => VT.WF s.ret | .composite ss => ∀ s ∈ ss, VT.WF s.ret) :
    VT.WF (d.check args).kind := by
  cases d with
  | static s => exact h
  | composite ss =>
    simp only [FDef.check]
    split
    · rename_i s hs; exact h s (List.mem_of_find?_eq_some hs)
    · exact .null

theorem wf_memberKind (strict : Bool) {n p : VT} (hn : VT.WF n) : VT.WF (memberKind strict n p).kind := by
  have hu := hn.unwrap
  unfold memberKind
  split
  case h_1 => exact .any
  case h_2 => exact .null
  case h_3 t e => rw [e] at hu; cases hu; exact wf_fin (by assumption) _
  case h_4 => exact wf_fin .string _
  case h_5 => exact wf_fin .string _
  case h_6 => exact wf_fin .string _
  case h_7 o e =>
    rw [e] at hu
    dsimp only
    split
    · exact wf_fin .any _
    · split
      · rename_i h; exact wf_fin (hu.get h) _
      · exact wf_fin .any _
  case h_8 => exact .any

theorem wf_addKind (l r : VT) : VT.WF (addKind l r).kind := by
  unfold addKind; split <;> constructor

theorem wf_inKind (l r : VT) : VT.WF (inKind l r).kind := by
  unfold inKind; split <;> constructor

theorem wf_binKind (same : VT → VT → Bool) (op : Oper) {l r : VT} (hl : VT.WF l) (hr : VT.WF r) :
    VT.WF (binKind same op l r).kind := by
  unfold binKind
  split
  · exact wf_addKind l r
  · split <;> constructor
  · cases hl <;> first | exact hr | (simp only [coalesceKind]; first | (constructor <;> assumption) | exact C08_merge_wf same _ _ (by assumption) hr)
  · split <;> constructor
  · constructor
  · constructor
  · exact wf_inKind l r
  · exact wf_inKind l r
  · split <;> constructor
  · constructor

theorem wf_sliceKind {t : VT} (h : VT.WF t) : VT.WF (sliceKind t).kind := by
  unfold sliceKind
  cases h <;> simp only [widen] <;> constructor <;> assumption

theorem wf_empty : VT.WF (.obj []) := .obj (by simp) (fun _ _ h => nomatch h)

theorem wf_mergeKind {args : List VT} (h : ∀ t ∈ args, VT.WF t) : VT.WF (mergeKind args).kind := by
  unfold mergeKind
  split
  · rename_i a
    split
    · exact .any
    · rename_i t e
      have ht := wf_iterator (h a List.mem_cons_self) e
      unfold mergeKindOf
      split
      · rename_i o eo; have := ht.unwrap; rw [eo] at this; exact this
      · exact .arr (wf_iterator_getD ht)
      all_goals exact .any
  · exact .any

theorem wf_mergeDeepKind {args : List VT} (h : ∀ t ∈ args, VT.WF t) : VT.WF (mergeDeepKind args).kind := by
  unfold mergeDeepKind
  split
  · rename_i a
    split
    · exact .any
    · rename_i t e
      have ht := wf_iterator (h a List.mem_cons_self) e
      split
      · rename_i o eo; have := ht.unwrap; rw [eo] at this; exact this
      · exact wf_empty
      · exact wf_empty
      · exact .any
  · exact .any

theorem wf_flatElem (same : VT → VT → Bool) {t : VT} (h : VT.WF t) : VT.WF (flatElem same t) := by
  induction h with
  | nullable _ ih => exact C08_merge_wf same _ _ .null ih
  | arr h => exact h
  | interval => exact .number
  | obj h1 h2 => exact .obj h1 h2
  | _ => simp only [flatElem]; constructor

theorem wf_unionOf (same : VT → VT → Bool) {ts : List VT} (h : ∀ t ∈ ts, VT.WF t) :
    VT.WF ((unionOf same ts).getD .any) := by
  cases ts with
  | nil => exact .any
  | cons t ts =>
    show VT.WF (ts.foldl (merge same) t)
    have ht := h t List.mem_cons_self
    have hts := fun u hu => h u (List.mem_cons_of_mem _ hu)
    clear h
    induction ts generalizing t with
    | nil => exact ht
    | cons u us ih =>
      exact ih _ (C08_merge_wf same _ _ ht (hts u List.mem_cons_self)) fun x hx => hts x (List.mem_cons_of_mem _ hx)

theorem wf_callKind (strict : Bool) (same : VT → VT → Bool) (f : String) {args : List VT} (h : ∀ t ∈ args, VT.WF t) :
    VT.WF (callKind strict same f args).kind := by
  unfold callKind
  split
  · exact wf_mergeKind h
  · exact wf_mergeDeepKind h
  · unfold flattenKind
    split
    · rename_i a
      split
      · exact .any
      · rename_i t e
        exact .arr (wf_flatElem same (wf_iterator (h a List.mem_cons_self) e))
    · exact .any
  · unfold valuesKind
    split
    · rename_i a
      split
      · rename_i o eo
        have := (h a List.mem_cons_self).unwrap
        rw [eo] at this
        refine .arr (wf_unionOf same fun t ht => ?_)
        obtain ⟨kv, hm, rfl⟩ := List.mem_map.1 ht
        exact this.get (aGet_of_mem this.nodup hm)
      · exact .arr .any
      · exact .arr .any
    · exact .any
  · rename_i n _ _ _ _ _
    refine wf_check _ _ ?_
    have := wf_empty
    cases n <;> simp only [fnDef, Sig.single] <;> first
      | (constructor; done)
      | exact .arr .string
      | exact .arr .any
      | exact wf_empty
      | (intro s hs; simp only [List.mem_cons, List.not_mem_nil, or_false] at hs
         rcases hs with rfl | rfl | rfl <;> first | exact .arr .string | exact .arr .number | exact .arr .any | exact wf_empty | constructor)
      | (intro s hs; simp only [List.mem_cons, List.not_mem_nil, or_false] at hs
         rcases hs with rfl | rfl <;> first | exact .arr .string | exact .arr .number | exact .arr .any | exact wf_empty | constructor)
  · split
    · rename_i n _
      refine wf_check _ _ ?_
      cases n <;> simp only [depDef, Sig.single] <;> constructor
    · exact .any

theorem wf_methodDef (n : Fn.MName) (args : List VT) : VT.WF ((methodDef n).check args).kind := by
  refine wf_check _ _ ?_
  cases n <;> simp only [methodDef, opSigs] <;> first
    | (constructor; done)
    | (intro s hs; simp only [List.mem_cons, List.not_mem_nil, or_false] at hs
       rcases hs with rfl | rfl <;> constructor)
    | (rename_i g; cases g <;> constructor)

theorem wf_methodKind (m : String) (args : List VT) : VT.WF (methodKind m args).kind := by
  unfold methodKind
  split
  · exact wf_methodDef _ _
  · exact .any

theorem wf_closureKind (strict : Bool) (k : Clo) {over body : VT} (ho : VT.WF over) (hb : VT.WF body) :
    VT.WF (closureKind strict k over body).kind := by
  cases k <;> simp only [closureKind] <;> first | exact ho | exact .number | exact .bool | exact .arr hb | skip
  refine .arr ?_
  cases e : body.iterator with
  | none => exact hb
  | some u => exact wf_iterator hb e

theorem TScope.WF.enter {sc : TScope} (h : sc.WF) (al : Option String) {over : VT} (ho : VT.WF over) :
    (sc.enter al over).WF := by
  refine ⟨h.root, wf_iterator_getD ho, ?_⟩
  intro k t e
  cases al with
  | none => exact h.aliases k t e
  | some a =>
    simp only [TScope.enter, aGet_aSet] at e
    split at e
    · cases e; exact wf_iterator_getD ho
    · exact h.aliases k t e

section
variable (strict : Bool) (same : VT → VT → Bool)

theorem wf_detList (ns : List Node) (ih : ∀ n ∈ ns, ∀ sc : TScope, sc.WF → VT.WF (determine strict same sc n).kind)
    (sc : TScope) (h : sc.WF) : ∀ t ∈ (detList strict same sc ns).1, VT.WF t := by
  induction ns with
  | nil => intro t ht; simp [detList] at ht
  | cons n ns ihl =>
    intro t ht
    simp only [detList, List.mem_cons] at ht
    rcases ht with rfl | ht
    · exact ih n List.mem_cons_self sc h
    · exact ihl (fun m hm => ih m (List.mem_cons_of_mem _ hm)) t ht

theorem wf_detObj (kvs : List (Node × Node))
    (ih : ∀ p ∈ kvs, (∀ sc : TScope, sc.WF → VT.WF (determine strict same sc p.1).kind) ∧
      ∀ sc : TScope, sc.WF → VT.WF (determine strict same sc p.2).kind)
    (sc : TScope) (h : sc.WF) : ∀ acc, VT.WF (.obj acc) → VT.WF (.obj (detObj strict same sc acc kvs).1) := by
  induction kvs with
  | nil => intro acc ha; simpa [detObj] using ha
  | cons kv kvs ihl =>
    intro acc ha
    obtain ⟨k, v⟩ := kv
    have ihl := ihl fun m hm => ih m (List.mem_cons_of_mem _ hm)
    simp only [detObj]
    split
    · exact ihl acc ha
    · exact ihl _ (wf_aSet ha _ ((ih _ List.mem_cons_self).2 sc h))

theorem wf_detAsg (kvs : List (Node × Node))
    (ih : ∀ p ∈ kvs, (∀ sc : TScope, sc.WF → VT.WF (determine strict same sc p.1).kind) ∧
      ∀ sc : TScope, sc.WF → VT.WF (determine strict same sc p.2).kind) :
    ∀ (sc : TScope) acc, sc.WF → VT.WF (.obj acc) → (detAsg strict same sc acc kvs).1.WF ∧
      VT.WF (.obj (detAsg strict same sc acc kvs).2.1) := by
  induction kvs with
  | nil => intro sc acc h ha; exact ⟨h, ha⟩
  | cons kv kvs ihl =>
    intro sc acc h ha
    obtain ⟨k, v⟩ := kv
    have ihl := ihl fun m hm => ih m (List.mem_cons_of_mem _ hm)
    simp only [detAsg]
    split
    · exact ihl sc acc h ha
    · rename_i c _
      have hv := (ih _ List.mem_cons_self).2 sc h
      refine ihl _ _ ⟨?_, h.pointer, h.aliases⟩ (wf_aSet ha _ hv)
      cases e : dotInsertP sc.root (splitDot c) (determine strict same sc v).kind with
      | none => exact h.root
      | some r => exact wf_dotInsert _ h.root hv e

theorem wf_asgRoot {t : VT} (h : VT.WF t) : VT.WF (asgRoot t) := by
  cases h <;> first | exact wf_empty | (simp only [asgRoot]; constructor <;> assumption)

/-- The inferred types of a well-formed scope are well formed. -/
theorem determine_wf (n : Node) : ∀ sc : TScope, sc.WF → VT.WF (determine strict same sc n).kind := by
  refine Node.ind (P := fun n => ∀ sc : TScope, sc.WF → VT.WF (determine strict same sc n).kind)
    ?null ?bool ?num ?str ?tmpl ?pointer ?arr ?obj ?assigns ?ident ?paren ?root ?member ?slice
    ?interval ?cond ?unary ?binary ?call ?closure ?method ?error n
  case null => intro sc h; simp only [determine]; constructor
  case bool => intro _ sc h; simp only [determine]; constructor
  case num => intro _ sc h; simp only [determine]; constructor
  case str => intro _ sc h; simp only [determine]; constructor
  case tmpl => intro _ _ sc h; simp only [determine]; constructor
  case interval => intro _ _ _ _ _ _ sc h; simp only [determine]; constructor
  case error => intro sc h; simp only [determine]; constructor
  case pointer => intro sc h; simp only [determine]; exact h.pointer
  case root => intro sc h; simp only [determine]; exact h.root
  case arr =>
    intro ps ih sc h
    simp only [determine]
    exact .arr (wf_unionOf same (wf_detList strict same ps ih sc h))
  case obj =>
    intro ps ih sc h
    simp only [determine]
    exact wf_detObj strict same ps ih sc h [] wf_empty
  case assigns =>
    intro kvs o ih iho sc h
    simp only [determine]
    have := wf_detAsg strict same kvs ih { sc with root := asgRoot sc.root } [] ⟨wf_asgRoot h.root, h.pointer, h.aliases⟩
      wf_empty
    cases o with
    | none => simp only [detOut]; exact this.2
    | some m => simp only [detOut]; exact iho m rfl _ this.1
  case ident =>
    intro i sc h
    simp only [determine]
    split
    · rename_i t e; exact h.aliases i t e
    · exact wf_get h.root i
  case paren => intro n ih sc h; simp only [determine]; exact ih sc h
  case member => intro n p ihn _ sc h; simp only [determine]; exact wf_memberKind strict (ihn sc h)
  case slice => intro n f t ihn _ _ sc h; simp only [determine]; exact wf_sliceKind (ihn sc h)
  case cond => intro c t f _ iht ihf sc h; simp only [determine]; exact C08_merge_wf same _ _ (iht sc h) (ihf sc h)
  case unary =>
    intro op n ih sc h
    simp only [determine, unKind]
    split <;> constructor
  case binary => intro op l r ihl ihr sc h; simp only [determine]; exact wf_binKind same op (ihl sc h) (ihr sc h)
  case call =>
    intro f as ih sc h
    simp only [determine]
    exact wf_callKind strict same f (wf_detList strict same as ih sc h)
  case closure =>
    intro k o al b iho ihb sc h
    simp only [determine]
    exact wf_closureKind strict k (iho sc h) (ihb _ (h.enter al (iho sc h)))
  case method => intro m t as _ _ sc h; simp only [determine]; exact wf_methodKind m _

end

/-! ### Values of single nodes -/

theorem fin_true_null (t : VT) : Inh (fin true t) .null := by
  cases t <;> simp [fin, loose, Inh]

theorem inh_unwrap {n : VT} {a : Val} (h : Inh n a) : a = .null ∨ Inh n.unwrap.1 a := by
  cases n <;> first | exact .inr h | skip
  simpa [Inh, unwrap] using h

theorem inh_not_nullable {n : VT} {a : Val} (h : Inh n a) (hn : isNullable n = false) : Inh n.unwrap.1 a := by
  cases n <;> first | exact h | cases hn

theorem constStr_of_sat {p : VT} {k : String} (h : sat p .string = true) (e : constStr p = some k) : p = .const k := by
  cases p <;> simp_all [constStr, sat]

theorem fetch_null (b : Val) : opFetch .null b = .ok .null := by simp [opFetch]

theorem inh_fetch {n p : VT} {a b v : Val} (hbad : (memberKind true n p).bad = false) (ha : Inh n a) (hp : Inh p b)
    (h : opFetch a b = .ok v) : Inh (memberKind true n p).kind v := by
  have hv : a = .null → v = .null := by rintro rfl; rw [fetch_null] at h; cases h; rfl
  have strcase : (∃ s, a = .str s) → Inh (fin true .string) v := by
    rintro ⟨s, rfl⟩
    cases b <;> simp only [opFetch] at h <;> try (cases h; exact fin_true_null _)
    split at h
    · cases h
    · cases h
      split
      · simp [fin, loose, Inh]
      · exact fin_true_null _
  unfold memberKind at hbad ⊢
  split
  case h_1 => simp [Inh]
  case h_2 e =>
    rcases inh_unwrap ha with rfl | ha
    · rw [fetch_null] at h; cases h; simp [Inh]
    · rw [e] at ha; simp only [Inh] at ha; simp [Inh, hv ha]
  case h_3 t e =>
    rcases inh_unwrap ha with rfl | ha
    · rw [hv rfl]; exact fin_true_null t
    · rw [e] at ha
      simp only [Inh] at ha
      obtain ⟨xs, rfl, hxs⟩ := ha
      cases b <;> simp only [opFetch] at h <;> try (cases h; exact fin_true_null t)
      split at h
      · cases h
      · rename_i i _
        cases h
        cases ex : xs[i]? with
        | none => exact fin_true_null t
        | some x => exact inh_nullable_fin _ (hxs x (List.mem_of_getElem? ex))
  case h_4 e =>
    rcases inh_unwrap ha with rfl | ha
    · rw [hv rfl]; exact fin_true_null .string
    · rw [e] at ha; exact strcase ha
  case h_5 e =>
    rcases inh_unwrap ha with rfl | ha
    · rw [hv rfl]; exact fin_true_null .string
    · rw [e] at ha; exact strcase ⟨_, ha⟩
  case h_6 e =>
    rcases inh_unwrap ha with rfl | ha
    · rw [hv rfl]; exact fin_true_null .string
    · rw [e] at ha; simp only [Inh] at ha; obtain ⟨s, _, ha⟩ := ha; exact strcase ⟨s, ha⟩
  case h_7 o e =>
    rw [e] at hbad
    dsimp only at hbad ⊢
    cases hc : constStr p with
    | none => dsimp only; exact inh_nullable_fin _ (by simp [Inh])
    | some k =>
      rw [hc] at hbad
      dsimp only at hbad ⊢
      cases hg : aGet o k with
      | none => dsimp only; exact inh_nullable_fin _ (by simp [Inh])
      | some t =>
        rw [hg] at hbad
        dsimp only at hbad ⊢
        have hp' := constStr_of_sat (by simpa using hbad) hc
        subst hp'
        simp only [Inh] at hp
        subst hp
        by_cases hn : isNullable n = true
        · rcases inh_unwrap ha with rfl | ha
          · rw [hv rfl, hn]; exact fin_true_null t
          · rw [e] at ha
            simp only [Inh] at ha
            obtain ⟨fs, rfl, hfs⟩ := ha
            simp only [opFetch] at h
            cases h
            exact inh_nullable_fin _ ((inhFields_iff _ _).1 hfs k t (aGet_mem hg))
        · have ha := inh_not_nullable ha (by simpa using hn)
          rw [e] at ha
          simp only [Inh] at ha
          obtain ⟨fs, rfl, hfs⟩ := ha
          simp only [opFetch] at h
          cases h
          exact inh_nullable_fin _ ((inhFields_iff _ _).1 hfs k t (aGet_mem hg))
  case h_8 => simp [Inh]

theorem fastProp_fetch (k : String) (a : Val) : opFetch a (.str k) = .ok (fastProp k a) := by
  cases a <;> simp [opFetch, fastProp]

theorem toUsize_of_toU32 {x : Rat} {i : Nat} (h : toU32 x = some i) : toUsize x = some i := by
  unfold toU32 at h
  unfold toUsize
  split at h
  · cases h
  · rename_i hx
    rw [if_neg hx]
    split at h
    · rename_i h2
      cases h
      rw [if_pos (by omega)]
    · cases h

theorem fastIdx_fetch {x : Rat} {i : Nat} (h : toU32 x = some i) (a : Val) : opFetch a (.num x) = .ok (fastIdx i a) := by
  cases a <;> simp [opFetch, fastIdx, toUsize_of_toU32 h]

theorem inh_add {N : NumOps} {l r : VT} {a b v : Val} (hl : Inh l a) (hr : Inh r b)
    (h : opAdd N a b = .ok v) : Inh (addKind l r).kind v := by
  have wid : ∀ (t : VT) (x : Val), Inh t x → t.widen = .string → ∃ s, x = .str s := by
    intro t x ht e
    cases t <;> simp [widen] at e <;> simp only [Inh] at ht
    · exact ht
    · exact ⟨_, ht⟩
    · obtain ⟨s, _, h⟩ := ht; exact ⟨s, h⟩
  have widn : ∀ (t : VT) (x : Val), Inh t x → t.widen = .number → ∃ n, x = .num n := by
    intro t x ht e
    cases t <;> simp [widen] at e
    simpa [Inh] using ht
  unfold addKind
  split <;> try (simp only [Inh]; done)
  · rename_i e1 e2
    obtain ⟨x, rfl⟩ := widn l a hl e1
    obtain ⟨y, rfl⟩ := widn r b hr e2
    simp only [opAdd] at h
    split at h <;> cases h
    simp [Inh]
  · rename_i e1 e2
    obtain ⟨x, rfl⟩ := wid l a hl e1
    obtain ⟨y, rfl⟩ := wid r b hr e2
    simp only [opAdd] at h
    cases h
    simp [Inh]

theorem opIn_bool {a b v : Val} (h : opIn a b = .ok v) : ∃ x, v = .bool x := by
  have inc : ∀ lb rb l r x, opIncludes lb rb l r x = .ok v → ∃ y, v = .bool y := by
    intro lb rb l r x h
    unfold opIncludes at h
    split at h <;> cases h
    exact ⟨_, rfl⟩
  unfold opIn at h
  split at h <;> first | (cases h; exact ⟨_, rfl⟩) | exact inc _ _ _ _ _ h | (cases h; done)

theorem opCompare_bool {c : Cmp} {a b v : Val} (h : opCompare c a b = .ok v) : ∃ x, v = .bool x := by
  unfold opCompare at h
  split at h <;> first | (cases h; exact ⟨_, rfl⟩) | cases h

theorem opNot_bool {a v : Val} (h : opNot a = .ok v) : ∃ x, v = .bool x := by
  cases a <;> simp only [opNot] at h <;> cases h
  exact ⟨_, rfl⟩

theorem opEqual_bool (a b : Val) : ∃ x, opEqual a b = .bool x := by
  unfold opEqual; split <;> exact ⟨_, rfl⟩

theorem inKind_bool {l r : VT} (h : (inKind l r).bad = false) : (inKind l r).kind = .bool := by
  revert h
  unfold inKind
  split <;> simp

/-- the strict operators other than addition, division and remainder -/
theorem inh_strict {N : NumOps} {same : VT → VT → Bool} {op : Oper} {l r : VT} {a b v : Val}
    {f : Val → Val → Except VErr Val} (hf : binMeaning N op = some f) (h1 : op ≠ .arith .add) (h2 : op ≠ .arith .div)
    (h3 : op ≠ .arith .mod) (hbad : (binKind same op l r).bad = false) (h : f a b = .ok v) :
    Inh (binKind same op l r).kind v := by
  have num : ∀ {x : Val}, (binKind same op l r).kind = .number → (∃ n, x = .num n) → Inh (binKind same op l r).kind x := by
    rintro x e ⟨n, rfl⟩; rw [e]; simp [Inh]
  have bool : ∀ {x : Val}, (binKind same op l r).kind = .bool → (∃ n, x = .bool n) → Inh (binKind same op l r).kind x := by
    rintro x e ⟨n, rfl⟩; rw [e]; simp [Inh]
  cases op with
  | arith o =>
    have e : (binKind same (.arith o) l r).kind = .number := by
      cases o <;> first | exact absurd rfl h1 | (revert hbad; simp only [binKind]; split <;> simp)
    refine num e ?_
    cases o <;> first | exact absurd rfl h1 | exact absurd rfl h2 | exact absurd rfl h3 | skip
    all_goals
      simp only [binMeaning, Option.some.injEq] at hf
      subst hf
      cases a <;> cases b <;> simp only [opSub, opMul, opPow] at h <;> try (cases h; done)
      split at h <;> cases h
      exact ⟨_, rfl⟩
  | cmp o =>
    have e : (binKind same (.cmp o) l r).kind = .bool := by
      cases o <;> first | rfl | exact inKind_bool hbad | (revert hbad; simp only [binKind]; split <;> simp)
    refine bool e ?_
    cases o <;> simp only [binMeaning, Option.some.injEq] at hf <;> subst hf <;> first
      | (cases h; exact opEqual_bool _ _)
      | exact opNot_bool h
      | exact opIn_bool h
      | exact opCompare_bool h
      | skip
    dsimp only at h
    split at h
    · exact opNot_bool h
    · cases h
  | logic o => cases hf
  | _ => cases hf

theorem inh_slice {t : VT} {c a b v : Val} (ht : Inh t c) (hbad : (sliceKind t).bad = false)
    (h : opSlice c a b = .ok v) : Inh (sliceKind t).kind v := by
  have res : (∃ xs ys, c = .arr xs ∧ v = .arr ys ∧ ∀ y ∈ ys, y ∈ xs) ∨ (∃ s s', c = .str s ∧ v = .str s') := by
    unfold opSlice at h
    split at h
    · split at h
      · cases h
      · split at h
        · cases h
        · split at h
          · rename_i xs
            split at h
            · cases h
              exact .inl ⟨xs, _, rfl, rfl, fun y hy => List.mem_of_mem_drop (List.mem_of_mem_take hy)⟩
            · cases h
          · split at h <;> cases h
            exact .inr ⟨_, _, rfl, rfl⟩
          · cases h
    · cases h
  revert hbad
  unfold sliceKind
  split
  case h_1 => intro _; simp [Inh]
  case h_2 u e =>
    intro _
    cases t <;> simp [widen] at e
    subst e
    simp only [Inh] at ht ⊢
    obtain ⟨xs, rfl, hxs⟩ := ht
    rcases res with ⟨xs', ys, h1, h2, h3⟩ | ⟨s, s', h1, _⟩
    · cases h1; exact ⟨ys, h2, fun y hy => hxs y (h3 y hy)⟩
    · cases h1
  case h_3 e =>
    intro _
    have : ∃ s, c = .str s := by
      cases t <;> simp [widen] at e <;> simp only [Inh] at ht
      · exact ht
      · exact ⟨_, ht⟩
      · obtain ⟨s, _, h⟩ := ht; exact ⟨s, h⟩
    obtain ⟨s, rfl⟩ := this
    rcases res with ⟨xs', ys, h1, _, _⟩ | ⟨s, s', _, h2⟩
    · cases h1
    · simp [Inh, h2]
  case h_4 => intro h; cases h

theorem inh_coalesce_never {t : VT} (h1 : t ≠ .any) (h2 : t ≠ .null) (h3 : isNullable t = false) {v : Val}
    (h : Inh t v) : v ≠ .null := by
  rintro rfl
  cases t <;> simp_all [Inh, isNullable]

/-- the elements a closure visits have the element type -/
theorem inh_begin {t : VT} {checks : Bool} {v : Val} {xs : List Val} (ht : Inh t v) (hit : iterable t = true)
    (hn : isNullable t = false) (h : opBegin checks v = .ok xs) : ∀ x ∈ xs, Inh (t.iterator.getD .any) x := by
  cases t <;> simp [iterable, isNullable] at hit hn
  · intro x _; simp [VT.iterator, Inh]
  · simp only [Inh] at ht
    obtain ⟨lb, rb, l, r, rfl⟩ := ht
    simp only [opBegin] at h
    split at h
    · cases h
    · rename_i ys e
      cases h
      intro x hx
      unfold intervalToArray at e
      split at e
      · split at e
        · cases e
        · cases e
        · split at e
          · cases e
          · cases e
          · cases e
            obtain ⟨i, _, rfl⟩ := List.mem_map.1 hx
            simp [VT.iterator, Inh]
      · cases e
    · cases h
  · simp only [Inh] at ht
    obtain ⟨ys, rfl, hys⟩ := ht
    simp only [opBegin] at h
    cases h
    exact hys

end Ty
end Zen
