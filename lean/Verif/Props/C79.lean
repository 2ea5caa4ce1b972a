import Verif.Types.TsType
import Verif.Types.Sure
import Verif.Policy.SkeletonLemmas
/-
C79: the types of function nodes. A value of the type that is written in TypeScript has the type it is converted to.
-/
namespace Zen.Ts
open Zen VT Zen.Ty

set_option linter.unusedSectionVars false

variable {same : VT → VT → Bool}

/-! ## What the types mean, for JSON values -/

def HasKw : Kw → Val → Prop
  | .number, v | .bigint, v => ∃ q, v = .num q
  | .string, v => ∃ s, v = .str s
  | .boolean, v => ∃ b, v = .bool b
  | .null, v | .undefined, v | .void, v => v = .null
  | .never, _ => False
  | .other, _ => True

def HasLit : TLit → Val → Prop
  | .str s, v => v = .str s
  | .num q, v => v = .num q
  | .bool b, v => v = .bool b
  | .bigint, v => ∃ q, v = .num q
  | .tpl, v => ∃ s, v = .str s

def IsArrayName (s : String) : Prop := s = "Array" ∨ s = "ReadonlyArray"
def IsWrapper (s : String) : Prop := s = "Promise" ∨ s = "Awaited" ∨ s = "Readonly"

/-- a named type, by what its first parameter means; a date is written as a text -/
def HasRef (name : Option String) (first : Val → Prop) (v : Val) : Prop :=
  (∀ s, name = some s → IsArrayName s → ∃ xs, v = .arr xs ∧ ∀ x ∈ xs, first x) ∧
  (∀ s, name = some s → IsWrapper s → first v) ∧ (name = some "Date" → ∃ s, v = .str s)

def Ty.isRest : Ty → Bool
  | .rest _ => true
  | _ => false

def Ty.isOpt : Ty → Bool
  | .opt _ => true
  | _ => false

mutual
/-- the value is of the type; `undefined` is null, and so is a property that is missing -/
def Has : Ty → Val → Prop
  | .kw k, v => HasKw k v
  | .lit l, v => HasLit l v
  | .arr t, v => ∃ xs, v = .arr xs ∧ ∀ x ∈ xs, Has t x
  | .tuple ts, v => ∃ xs, v = .arr xs ∧ HasTuple ts xs
  | .obj ms, v => ∃ fs, v = .obj fs ∧ HasMembers fs ms
  | .union ts, v => HasSome ts v
  | .inter ts, v => HasEvery ts v
  | .paren t, v => Has t v
  | .opt t, v => v = .null ∨ Has t v
  | .rest t, v => Has t v
  | .oper op t, v => match op with
    | .readonly => Has t v
    | .keyof => ∃ k, v = .str k ∧ ∀ ms, t = .obj ms → some k ∈ ms.map fun m => m.1
    | .unique => False
  | .ref name ps, v => HasRef name (HasFirst ps) v
  | .other, _ => True
def HasSome : List Ty → Val → Prop
  | [], _ => False
  | t :: ts, v => Has t v ∨ HasSome ts v
def HasEvery : List Ty → Val → Prop
  | [], _ => True
  | t :: ts, v => Has t v ∧ HasEvery ts v
def HasFirst : List Ty → Val → Prop
  | [], _ => True
  | t :: _, v => Has t v
/-- one element after the other; optional ones may be missing at the end, and the rest takes any number -/
def HasTuple : List Ty → List Val → Prop
  | [], xs => xs = []
  | t :: ts, xs =>
    if t.isRest then ∃ ys zs, xs = ys ++ zs ∧ Has t (.arr ys) ∧ HasTuple ts zs
    else (xs = [] ∧ t.isOpt = true ∧ HasTuple ts []) ∨ ∃ x zs, xs = x :: zs ∧ Has t x ∧ HasTuple ts zs
def HasMembers (fs : List (String × Val)) : List (Option String × Ty × Bool) → Prop
  | [] => True
  | (name, t, optional) :: ms =>
    (∀ k, name = some k → (optional = true ∧ (aGet fs k).getD .null = .null) ∨ Has t ((aGet fs k).getD .null)) ∧ HasMembers fs ms
end

/-! ## Which types are converted to one that covers them -/

/-- the types can be merged to one that covers them (C08) -/
def MergeOk (same : VT → VT → Bool) : List VT → Prop
  | [] => True
  | t :: ts => MergeableAll same t ts

mutual
/-- no `keyof`, no rest in a tuple, and only unions and tuples of types that can be merged -/
def Fair (same : VT → VT → Bool) : Ty → Prop
  | .kw _ | .lit _ | .other => True
  | .arr t => Fair same t
  | .tuple ts => FairAll same ts ∧ (∀ t ∈ ts, t.isRest = false) ∧ MergeOk same (convertAll same ts)
  | .obj ms => FairMembers same ms
  | .union ts => FairAll same ts ∧ MergeOk same (convertAll same ts)
  | .inter ts => FairAll same ts
  | .paren t => Fair same t
  | .opt t => Fair same t
  | .rest t => Fair same t
  | .oper op t => op ≠ .keyof ∧ Fair same t
  | .ref _ ps => FairAll same ps
def FairAll (same : VT → VT → Bool) : List Ty → Prop
  | [] => True
  | t :: ts => Fair same t ∧ FairAll same ts
def FairMembers (same : VT → VT → Bool) : List (Option String × Ty × Bool) → Prop
  | [] => True
  | (_, t, _) :: ms => Fair same t ∧ FairMembers same ms
end

/-! ## Merging -/

/-- What has both types has the merged type, whatever the types are. -/
theorem inh_merge_both (same : VT → VT → Bool) : ∀ (n : Nat) (a b : VT), sizeOf a < n → WF a → WF b → ∀ v, Inh a v → Inh b v →
    Inh (merge same a b) v := by
  intro n
  induction n with
  | zero => intro a b h; exact absurd h (Nat.not_lt_zero _)
  | succ n ih =>
    intro a b hsz ha hb v hva hvb
    rw [merge_eq]
    have hsu : sizeOf a.unwrap.1 ≤ sizeOf a := by cases a <;> simp [unwrap]
    have hmain : Inh a.unwrap.1 v → Inh b.unwrap.1 v → Inh (fin (a.unwrap.2 || b.unwrap.2) (core same a.unwrap.1 b.unwrap.1)) v := by
      intro h1 h2
      refine inh_nullable_fin _ ?_
      have hx := ha.unwrap
      have hy := hb.unwrap
      generalize a.unwrap.1 = x at *
      generalize b.unwrap.1 = y at *
      have hsx : sizeOf x < n + 1 := Nat.lt_of_le_of_lt hsu hsz
      cases x <;> cases y <;> first
        | exact h1
        | (simp only [core, Inh]; done)
        | (simp only [core, Inh] at h1 ⊢; exact .inr h1)
        | (simp only [core, Inh] at h1 ⊢; exact .inl h1)
        | skip
      case arr.arr c d =>
        have wc : WF c := by cases hx; assumption
        have wd : WF d := by cases hy; assumption
        by_cases hne : same c d = true
        · have : core same (.arr c) (.arr d) = .arr c := by
            show (if same c d then _ else _) = _
            rw [if_pos hne]
          rw [this]
          exact h1
        · by_cases hc : c = .any
          · subst hc
            have : core same (.arr .any) (.arr d) = .arr d := by
              show (if same .any d then _ else _) = _
              rw [if_neg hne]
            rw [this]
            exact h2
          · by_cases hd : d = .any
            · subst hd
              have : core same (.arr c) (.arr .any) = .arr c := by
                show (if same c .any then _ else _) = _
                rw [if_neg hne]
                cases c <;> rfl
              rw [this]
              exact h1
            · rw [core_arr same hc hd hne]
              simp only [Inh] at h1 h2 ⊢
              obtain ⟨xs, rfl, h1⟩ := h1
              obtain ⟨ys, e, h2⟩ := h2
              injection e with e
              subst e
              refine ⟨xs, rfl, fun x hx => ih c d ?_ wc wd x (h1 x hx) (h2 x hx)⟩
              simp at hsx; omega
      case obj.obj o o' =>
        simp only [core, Inh] at h1 h2 ⊢
        obtain ⟨fs, rfl, h1⟩ := h1
        obtain ⟨fs', e, h2⟩ := h2
        injection e with e
        subst e
        refine ⟨fs, rfl, (inhFields_iff _ _).2 fun k t hm => ?_⟩
        have hall := (inhFields_iff _ _).1 h1
        have hall' := (inhFields_iff _ _).1 h2
        have h := aGet_of_mem (mgFields_nodup same o' o hx.nodup) hm
        rw [mgFields_get same o' o hy.nodup] at h
        cases e1 : aGet o k with
        | none =>
          rw [e1] at h
          exact hall' k t (aGet_mem h)
        | some u =>
          have hu := hall k u (aGet_mem e1)
          cases e2 : aGet o' k with
          | none => rw [e1, e2] at h; cases h; exact hu
          | some u' =>
            rw [e1, e2] at h; cases h
            refine ih u u' ?_ (hx.get e1) (hy.get e2) _ hu (hall' k u' (aGet_mem e2))
            have := List.sizeOf_lt_of_mem (aGet_mem e1)
            simp at this hsx
            omega
      case const.string => simp only [core, Inh] at h1 ⊢; exact ⟨_, h1⟩
      case enum.string => simp only [core, Inh] at h1 ⊢; obtain ⟨s, _, h⟩ := h1; exact ⟨s, h⟩
      case const.const c d =>
        show Inh (if c = d then _ else _) v
        split
        · exact h1
        · simp only [Inh] at h1 ⊢; exact ⟨c, by simp, h1⟩
      case const.enum c n vs =>
        simp only [core, Inh] at h1 ⊢
        refine ⟨c, ?_, h1⟩
        split
        next h => simpa using h
        next h => simp
      case enum.const n vs c =>
        simp only [core, Inh] at h1 ⊢
        obtain ⟨s, hs, h⟩ := h1
        refine ⟨s, ?_, h⟩
        split
        · exact hs
        · simp [hs]
      case enum.enum n vs n' vs' =>
        simp only [core, Inh] at h1 ⊢
        obtain ⟨s, hs, h⟩ := h1
        exact ⟨s, (pushNew_mem vs' vs s).2 (.inl hs), h⟩
    have hnull : ∀ t : VT, Inh t v → t.unwrap.2 = true ∧ v = .null ∨ Inh t.unwrap.1 v := by
      intro t h
      cases t with
      | nullable t => simp only [Inh] at h; exact h.imp (fun e => ⟨rfl, e⟩) id
      | _ => exact .inr h
    rcases hnull a hva with ⟨e, rfl⟩ | h1
    · exact core_null_fin same _ _ _ (by rw [e]; rfl) (core_kinds same _ _)
    · rcases hnull b hvb with ⟨e, rfl⟩ | h2
      · exact core_null_fin same _ _ _ (by rw [e, Bool.or_true]) (core_kinds same _ _)
      · exact hmain h1 h2

theorem mergeAll_wf (same : VT → VT → Bool) {ts : List VT} (h : ∀ t ∈ ts, WF t) : WF (mergeAll same ts) := by
  have : ∀ (ts : List VT) (a : VT), WF a → (∀ t ∈ ts, WF t) → WF (ts.foldl (VT.merge same) a) := by
    intro ts
    induction ts with
    | nil => intro a h _; exact h
    | cons t ts ih => intro a ha h; exact ih _ (C08_merge_wf same a t ha (h t (List.mem_cons_self ..))) fun u hu => h u (List.mem_cons_of_mem _ hu)
  cases ts with
  | nil => exact .any
  | cons t ts => exact this ts t (h t (List.mem_cons_self ..)) fun u hu => h u (List.mem_cons_of_mem _ hu)

theorem mergeAll_some (hs : ∀ a b, same a b = true → a = b) (hc : ∀ a b, same a b = same b a) {ts : List VT} (hw : ∀ t ∈ ts, WF t)
    (hm : MergeOk same ts) {v : Val} (h : ∃ t ∈ ts, Inh t v) : Inh (mergeAll same ts) v := by
  have step : ∀ (ts : List VT) (a : VT), WF a → (∀ t ∈ ts, WF t) → MergeableAll same a ts → (Inh a v ∨ ∃ t ∈ ts, Inh t v) →
      Inh (ts.foldl (VT.merge same) a) v := by
    intro ts
    induction ts with
    | nil =>
      intro a _ _ _ h
      rcases h with h | ⟨t, ht, _⟩
      · exact h
      · cases ht
    | cons t ts ih =>
      intro a ha hw hm h
      have wt := hw t (List.mem_cons_self ..)
      refine ih _ (C08_merge_wf same a t ha wt) (fun u hu => hw u (List.mem_cons_of_mem _ hu)) hm.2 ?_
      have hv := C08_merge_values same hs hc hm.1 ha wt v
      rcases h with h | ⟨u, hu, h⟩
      · exact .inl (hv (.inl h))
      · rcases List.mem_cons.1 hu with rfl | hu
        · exact .inl (hv (.inr h))
        · exact .inr ⟨u, hu, h⟩
  obtain ⟨t, ht, h⟩ := h
  cases ts with
  | nil => cases ht
  | cons u ts =>
    refine step ts u (hw u (List.mem_cons_self ..)) (fun x hx => hw x (List.mem_cons_of_mem _ hx)) hm ?_
    rcases List.mem_cons.1 ht with rfl | ht
    · exact .inl h
    · exact .inr ⟨t, ht, h⟩

theorem mergeAll_every (same : VT → VT → Bool) {ts : List VT} (hw : ∀ t ∈ ts, WF t) {v : Val} (h : ∀ t ∈ ts, Inh t v) : Inh (mergeAll same ts) v := by
  have step : ∀ (ts : List VT) (a : VT), WF a → (∀ t ∈ ts, WF t) → Inh a v → (∀ t ∈ ts, Inh t v) → Inh (ts.foldl (VT.merge same) a) v := by
    intro ts
    induction ts with
    | nil => intro a _ _ h _; exact h
    | cons t ts ih =>
      intro a ha hw h hts
      have wt := hw t (List.mem_cons_self ..)
      exact ih _ (C08_merge_wf same a t ha wt) (fun u hu => hw u (List.mem_cons_of_mem _ hu))
        (inh_merge_both same _ a t (Nat.lt_succ_self _) ha wt v h (hts t (List.mem_cons_self ..))) fun u hu => hts u (List.mem_cons_of_mem _ hu)
  cases ts with
  | nil => trivial
  | cons u ts =>
    exact step ts u (hw u (List.mem_cons_self ..)) (fun x hx => hw x (List.mem_cons_of_mem _ hx)) (h u (List.mem_cons_self ..))
      (fun x hx => h x (List.mem_cons_of_mem _ hx))

/-! ## The conversion -/

theorem wf_wrap {t : VT} (h : WF t) : WF (wrapOptional t) := by
  cases t <;> first | exact h | exact .nullable h

theorem wf_refType {name : Option String} {t : VT} (h : WF t) : WF (refType name t) := by
  unfold refType
  split
  · exact .arr h
  · exact .arr h
  · exact h
  · exact h
  · exact h
  · exact .date
  · exact .any

mutual
theorem convert_wf (same : VT → VT → Bool) : ∀ t : Ty, WF (convert same t)
  | .kw k => by cases k <;> simp only [convert, keyword] <;> constructor
  | .lit l => by cases l <;> simp only [convert, literal] <;> constructor
  | .arr t => by rw [convert]; exact .arr (convert_wf same t)
  | .tuple ts => by rw [convert]; exact .arr (mergeAll_wf same (convertAll_wf same ts))
  | .obj ms => by
    rw [convert]
    split
    · rename_i fields h
      have := convertMembers_wf same ms [] fields (by simp [aKeys]) (fun _ h => nomatch h) h
      exact .obj this.1 fun k t hm => this.2 (k, t) hm
    · exact .any
  | .union ts => by rw [convert]; exact mergeAll_wf same (convertAll_wf same ts)
  | .inter ts => by rw [convert]; exact mergeAll_wf same (convertAll_wf same ts)
  | .paren t => by rw [convert]; exact convert_wf same t
  | .opt t => by rw [convert]; exact .nullable (convert_wf same t)
  | .rest t => by rw [convert]; exact convert_wf same t
  | .oper _ t => by rw [convert]; exact convert_wf same t
  | .ref name ps => by
    rw [convert]
    refine wf_refType ?_
    have := convertAll_wf same ps
    cases h : convertAll same ps with
    | nil => exact .any
    | cons t ts => exact this t (by rw [h]; exact List.mem_cons_self ..)
  | .other => by rw [convert]; exact .any
theorem convertAll_wf (same : VT → VT → Bool) : ∀ ts : List Ty, ∀ T ∈ convertAll same ts, WF T
  | [], _, h => by rw [convertAll] at h; cases h
  | t :: ts, T, h => by
    rw [convertAll] at h
    rcases List.mem_cons.1 h with rfl | h
    · exact convert_wf same t
    · exact convertAll_wf same ts T h
theorem convertMembers_wf (same : VT → VT → Bool) : ∀ (ms : List (Option String × Ty × Bool)) (fields fields' : List (String × VT)),
    (aKeys fields).Nodup → (∀ e ∈ fields, WF e.2) → convertMembers same fields ms = some fields' → (aKeys fields').Nodup ∧ ∀ e ∈ fields', WF e.2
  | [], fields, fields', hn, h, e => by
    rw [convertMembers] at e
    cases e
    exact ⟨hn, h⟩
  | (none, _, _) :: ms, _, _, _, _, e => by rw [convertMembers] at e; cases e
  | (some k, t, o) :: ms, fields, fields', hn, h, e => by
    rw [convertMembers] at e
    refine convertMembers_wf same ms _ fields' (aKeys_aSet_nodup _ _ hn) (fun x hx => ?_) e
    rcases Policy.entry_aSet hx with rfl | hx
    · dsimp only
      split
      · exact wf_wrap (convert_wf same t)
      · exact convert_wf same t
    · exact h x hx
end

theorem inh_wrap {t : VT} {v : Val} (h : v = .null ∨ Inh t v) : Inh (wrapOptional t) v := by
  rcases h with rfl | h
  · cases t <;> simp [wrapOptional, Inh]
  · cases t <;> first | exact h | exact .inr h

section
variable (hs : ∀ a b, same a b = true → a = b) (hc : ∀ a b, same a b = same b a)
include hs hc

mutual
theorem sound : ∀ (t : Ty) (v : Val), Fair same t → Has t v → Inh (convert same t) v
  | .kw k, v, _, h => by
    rw [Has] at h
    rw [convert]
    cases k <;> simp only [HasKw, keyword, Inh] at h ⊢ <;> exact h
  | .lit l, v, _, h => by
    rw [Has] at h
    rw [convert]
    cases l <;> simp only [HasLit, literal, Inh] at h ⊢ <;> first | exact h | exact ⟨_, h⟩
  | .arr t, v, hf, h => by
    rw [Has] at h
    rw [Fair] at hf
    obtain ⟨xs, rfl, h⟩ := h
    rw [convert, Inh]
    exact ⟨xs, rfl, fun x hx => sound t x hf (h x hx)⟩
  | .tuple ts, v, hf, h => by
    rw [Has] at h
    rw [Fair] at hf
    obtain ⟨xs, rfl, h⟩ := h
    rw [convert, Inh]
    exact ⟨xs, rfl, fun x hx => mergeAll_some hs hc (convertAll_wf same ts) hf.2.2 (soundTuple ts xs hf.1 hf.2.1 h x hx)⟩
  | .obj ms, v, hf, h => by
    rw [Has] at h
    rw [Fair] at hf
    obtain ⟨fs, rfl, h⟩ := h
    rw [convert]
    split
    · rename_i fields e
      rw [Inh]
      exact ⟨fs, rfl, (inhFields_iff ..).2 fun k t hm => soundMembers ms fs [] fields hf h (fun _ h => nomatch h) e (k, t) hm⟩
    · trivial
  | .union ts, v, hf, h => by
    rw [Has] at h
    rw [Fair] at hf
    rw [convert]
    exact mergeAll_some hs hc (convertAll_wf same ts) hf.2 (soundSome ts v hf.1 h)
  | .inter ts, v, hf, h => by
    rw [Has] at h
    rw [Fair] at hf
    rw [convert]
    exact mergeAll_every same (convertAll_wf same ts) (soundEvery ts v hf h)
  | .paren t, v, hf, h => by
    rw [Has] at h
    rw [Fair] at hf
    rw [convert]
    exact sound t v hf h
  | .opt t, v, hf, h => by
    rw [Has] at h
    rw [Fair] at hf
    rw [convert, Inh]
    exact h.imp id (sound t v hf)
  | .rest t, v, hf, h => by
    rw [Has] at h
    rw [Fair] at hf
    rw [convert]
    exact sound t v hf h
  | .oper op t, v, hf, h => by
    rw [Fair] at hf
    rw [convert]
    cases op with
    | keyof => exact absurd rfl hf.1
    | unique => simp only [Has] at h
    | readonly => simp only [Has] at h; exact sound t v hf.2 h
  | .ref name ps, v, hf, h => by
    rw [Has] at h
    rw [Fair] at hf
    rw [convert]
    obtain ⟨h1, h2, h3⟩ := h
    unfold refType
    split
    · obtain ⟨xs, rfl, h⟩ := h1 _ rfl (.inl rfl)
      rw [Inh]
      exact ⟨xs, rfl, fun x hx => soundFirst ps x hf (h x hx)⟩
    · obtain ⟨xs, rfl, h⟩ := h1 _ rfl (.inr rfl)
      rw [Inh]
      exact ⟨xs, rfl, fun x hx => soundFirst ps x hf (h x hx)⟩
    · exact soundFirst ps v hf (h2 _ rfl (.inl rfl))
    · exact soundFirst ps v hf (h2 _ rfl (.inr (.inl rfl)))
    · exact soundFirst ps v hf (h2 _ rfl (.inr (.inr rfl)))
    · exact .inl (h3 rfl)
    · trivial
  | .other, v, _, _ => by rw [convert]; trivial
theorem soundSome : ∀ (ts : List Ty) (v : Val), FairAll same ts → HasSome ts v → ∃ T ∈ convertAll same ts, Inh T v
  | [], _, _, h => by rw [HasSome] at h; exact h.elim
  | t :: ts, v, hf, h => by
    rw [HasSome] at h
    rw [FairAll] at hf
    rw [convertAll]
    rcases h with h | h
    · exact ⟨_, List.mem_cons_self .., sound t v hf.1 h⟩
    · obtain ⟨T, hT, h⟩ := soundSome ts v hf.2 h
      exact ⟨T, List.mem_cons_of_mem _ hT, h⟩
theorem soundEvery : ∀ (ts : List Ty) (v : Val), FairAll same ts → HasEvery ts v → ∀ T ∈ convertAll same ts, Inh T v
  | [], _, _, _, T, hT => by rw [convertAll] at hT; cases hT
  | t :: ts, v, hf, h, T, hT => by
    rw [HasEvery] at h
    rw [FairAll] at hf
    rw [convertAll] at hT
    rcases List.mem_cons.1 hT with rfl | hT
    · exact sound t v hf.1 h.1
    · exact soundEvery ts v hf.2 h.2 T hT
theorem soundFirst : ∀ (ts : List Ty) (v : Val), FairAll same ts → HasFirst ts v → Inh ((convertAll same ts).head?.getD .any) v
  | [], _, _, _ => by rw [convertAll]; trivial
  | t :: ts, v, hf, h => by
    rw [HasFirst] at h
    rw [FairAll] at hf
    rw [convertAll]
    exact sound t v hf.1 h
theorem soundTuple : ∀ (ts : List Ty) (xs : List Val), FairAll same ts → (∀ t ∈ ts, t.isRest = false) → HasTuple ts xs →
    ∀ x ∈ xs, ∃ T ∈ convertAll same ts, Inh T x
  | [], _, _, _, h, x, hx => by rw [HasTuple] at h; subst h; cases hx
  | t :: ts, xs, hf, hr, h, x, hx => by
    rw [HasTuple, if_neg (by rw [hr t (List.mem_cons_self ..)]; simp)] at h
    rw [FairAll] at hf
    rw [convertAll]
    rcases h with ⟨rfl, _⟩ | ⟨y, zs, rfl, hy, hz⟩
    · cases hx
    · rcases List.mem_cons.1 hx with rfl | hx
      · exact ⟨_, List.mem_cons_self .., sound t x hf.1 hy⟩
      · obtain ⟨T, hT, h⟩ := soundTuple ts zs hf.2 (fun u hu => hr u (List.mem_cons_of_mem _ hu)) hz x hx
        exact ⟨T, List.mem_cons_of_mem _ hT, h⟩
theorem soundMembers : ∀ (ms : List (Option String × Ty × Bool)) (fs : List (String × Val)) (fields fields' : List (String × VT)),
    FairMembers same ms → HasMembers fs ms → (∀ e ∈ fields, Inh e.2 ((aGet fs e.1).getD .null)) → convertMembers same fields ms = some fields' →
    ∀ e ∈ fields', Inh e.2 ((aGet fs e.1).getD .null)
  | [], _, fields, fields', _, _, h, e => by
    rw [convertMembers] at e
    cases e
    exact h
  | (none, _, _) :: ms, _, _, _, _, _, _, e => by rw [convertMembers] at e; cases e
  | (some k, t, o) :: ms, fs, fields, fields', hf, hm, h, e => by
    rw [HasMembers] at hm
    rw [FairMembers] at hf
    rw [convertMembers] at e
    refine soundMembers ms fs _ fields' hf.2 hm.2 (fun x hx => ?_) e
    rcases Policy.entry_aSet hx with rfl | hx
    · dsimp only
      rcases hm.1 k rfl with ⟨ho, hn⟩ | hv
      · rw [if_pos ho]
        exact inh_wrap (.inl hn)
      · split
        · exact inh_wrap (.inr (sound t _ hf.1 hv))
        · exact sound t _ hf.1 hv
    · exact h x hx
end
end

/-- A value of the written type has the type it is converted to, for all types without `keyof` and rest elements in which unions and
tuples are of types that can be merged. Intersections may be of any types. -/
theorem C79_sound (hs : ∀ a b, same a b = true → a = b) (hc : ∀ a b, same a b = same b a) (t : Ty) (hf : Fair same t) (v : Val) (h : Has t v) :
    Inh (convert same t) v := sound hs hc t v hf h

/-! ## Nothing is lost -/

mutual
/-- keywords besides `never`, literals besides numbers and booleans, arrays, objects with named properties, and these in parentheses,
optional, read only, or in `Promise` and the like -/
def Exact : Ty → Prop
  | .kw k => k ≠ .never
  | .lit l => ∀ q b, l ≠ .num q ∧ l ≠ .bool b
  | .arr t => Exact t
  | .obj ms => (∀ m ∈ ms, m.1 ≠ none) ∧ (ms.map fun m => m.1).Nodup ∧ ExactMembers ms
  | .paren t => Exact t
  | .opt t => Exact t
  | .oper op t => op = .readonly ∧ Exact t
  | .ref name ps => name ≠ some "Date" ∧ ExactAll ps
  | .other => True
  | .tuple _ | .union _ | .inter _ | .rest _ => False
def ExactAll : List Ty → Prop
  | [] => True
  | t :: ts => Exact t ∧ ExactAll ts
def ExactMembers : List (Option String × Ty × Bool) → Prop
  | [] => True
  | (_, t, _) :: ms => Exact t ∧ ExactMembers ms
end

mutual
theorem exact_fair : ∀ t, Exact t → Fair same t
  | .kw _, _ | .lit _, _ | .other, _ => by rw [Fair]; trivial
  | .arr t, h => by rw [Exact] at h; rw [Fair]; exact exact_fair t h
  | .obj ms, h => by rw [Exact] at h; rw [Fair]; exact exact_fairMembers ms h.2.2
  | .paren t, h => by rw [Exact] at h; rw [Fair]; exact exact_fair t h
  | .opt t, h => by rw [Exact] at h; rw [Fair]; exact exact_fair t h
  | .oper op t, h => by rw [Exact] at h; rw [Fair]; exact ⟨by rw [h.1]; decide, exact_fair t h.2⟩
  | .ref name ps, h => by rw [Exact] at h; rw [Fair]; exact exact_fairAll ps h.2
  | .tuple _, h | .union _, h | .inter _, h | .rest _, h => by rw [Exact] at h; exact h.elim
theorem exact_fairAll : ∀ ts, ExactAll ts → FairAll same ts
  | [], _ => by rw [FairAll]; trivial
  | t :: ts, h => by rw [ExactAll] at h; rw [FairAll]; exact ⟨exact_fair t h.1, exact_fairAll ts h.2⟩
theorem exact_fairMembers : ∀ ms, ExactMembers ms → FairMembers same ms
  | [], _ => by rw [FairMembers]; trivial
  | (_, t, _) :: ms, h => by rw [ExactMembers] at h; rw [FairMembers]; exact ⟨exact_fair t h.1, exact_fairMembers ms h.2⟩
end

theorem members_named : ∀ (ms : List (Option String × Ty × Bool)) (fields : List (String × VT)), (∀ m ∈ ms, m.1 ≠ none) →
    ∃ fields', convertMembers same fields ms = some fields' ∧ ∀ k T, aGet fields k = some T → some k ∉ ms.map (fun m => m.1) → aGet fields' k = some T
  | [], fields, _ => ⟨fields, by rw [convertMembers], fun _ _ h _ => h⟩
  | (none, _, _) :: ms, _, h => absurd rfl (h _ (List.mem_cons_self ..))
  | (some k, t, o) :: ms, fields, h => by
    obtain ⟨f, e, hk⟩ := members_named ms (aSet fields k (if o then wrapOptional (convert same t) else convert same t))
      fun m hm => h m (List.mem_cons_of_mem _ hm)
    refine ⟨f, by rw [convertMembers, e], fun k' T hg hn => hk k' T ?_ ?_⟩
    · rw [aGet_aSet, if_neg, hg]
      rintro rfl
      exact hn (by simp)
    · intro hm
      exact hn (List.mem_cons_of_mem _ hm)

theorem inh_unwrap {t : VT} {v : Val} (h : Inh (wrapOptional t) v) : v = .null ∨ Inh t v := by
  cases t <;> first | exact .inr h | exact h

mutual
theorem tight : ∀ (t : Ty) (v : Val), Exact t → Inh (convert same t) v → Has t v
  | .kw k, v, he, h => by
    rw [Exact] at he
    rw [convert] at h
    rw [Has]
    cases k <;> simp only [HasKw, keyword, Inh] at h ⊢ <;> first | exact h | exact absurd rfl he
  | .lit l, v, he, h => by
    rw [Exact] at he
    rw [convert] at h
    rw [Has]
    cases l with
    | num q => exact absurd rfl (he q true).1
    | bool b => exact absurd rfl (he 0 b).2
    | _ => simpa only [HasLit, literal, Inh] using h
  | .arr t, v, he, h => by
    rw [Exact] at he
    rw [convert, Inh] at h
    obtain ⟨xs, rfl, h⟩ := h
    rw [Has]
    exact ⟨xs, rfl, fun x hx => tight t x he (h x hx)⟩
  | .obj ms, v, he, h => by
    rw [Exact] at he
    obtain ⟨fields, e, _⟩ := members_named (same := same) ms [] he.1
    rw [convert, e] at h
    simp only [Inh] at h
    obtain ⟨fs, rfl, h⟩ := h
    rw [Has]
    exact ⟨fs, rfl, tightMembers ms fs [] fields he.2.2 he.1 he.2.1 e fun x hx => (inhFields_iff ..).1 h x.1 x.2 hx⟩
  | .paren t, v, he, h => by
    rw [Exact] at he
    rw [convert] at h
    rw [Has]
    exact tight t v he h
  | .opt t, v, he, h => by
    rw [Exact] at he
    rw [convert, Inh] at h
    rw [Has]
    exact h.imp id (tight t v he)
  | .oper op t, v, he, h => by
    rw [Exact] at he
    rw [convert] at h
    obtain ⟨rfl, he⟩ := he
    simp only [Has]
    exact tight t v he h
  | .ref name ps, v, he, h => by
    rw [Exact] at he
    rw [convert] at h
    rw [Has]
    refine ⟨?_, ?_, fun hd => absurd hd he.1⟩
    · rintro s rfl (rfl | rfl) <;>
      · simp only [refType, Inh] at h
        obtain ⟨xs, rfl, h⟩ := h
        exact ⟨xs, rfl, fun x hx => tightFirst ps x he.2 (h x hx)⟩
    · rintro s rfl (rfl | rfl | rfl) <;> exact tightFirst ps v he.2 h
  | .other, _, _, _ => by rw [Has]; trivial
  | .tuple _, _, h, _ | .union _, _, h, _ | .inter _, _, h, _ | .rest _, _, h, _ => by rw [Exact] at h; exact h.elim
theorem tightFirst : ∀ (ts : List Ty) (v : Val), ExactAll ts → Inh ((convertAll same ts).head?.getD .any) v → HasFirst ts v
  | [], _, _, _ => by rw [HasFirst]; trivial
  | t :: ts, v, he, h => by
    rw [ExactAll] at he
    rw [convertAll] at h
    rw [HasFirst]
    exact tight t v he.1 h
theorem tightMembers : ∀ (ms : List (Option String × Ty × Bool)) (fs : List (String × Val)) (fields fields' : List (String × VT)),
    ExactMembers ms → (∀ m ∈ ms, m.1 ≠ none) → (ms.map fun m => m.1).Nodup → convertMembers same fields ms = some fields' →
    (∀ e ∈ fields', Inh e.2 ((aGet fs e.1).getD .null)) → HasMembers fs ms
  | [], _, _, _, _, _, _, _, _ => by rw [HasMembers]; trivial
  | (none, _, _) :: ms, _, _, _, _, hn, _, _, _ => absurd rfl (hn _ (List.mem_cons_self ..))
  | (some k, t, o) :: ms, fs, fields, fields', he, hn, hd, e, h => by
    rw [ExactMembers] at he
    rw [convertMembers] at e
    rw [HasMembers]
    have hd' := List.nodup_cons.1 hd
    refine ⟨fun k' hk => ?_, tightMembers ms fs _ fields' he.2 (fun m hm => hn m (List.mem_cons_of_mem _ hm)) hd'.2 e h⟩
    injection hk with hk
    subst hk
    obtain ⟨f, ef, hkeep⟩ := members_named (same := same) ms (aSet fields k (if o then wrapOptional (convert same t) else convert same t))
      fun m hm => hn m (List.mem_cons_of_mem _ hm)
    rw [ef] at e
    injection e with e
    subst e
    have := h _ (aGet_mem (hkeep k _ (by rw [aGet_aSet, if_pos rfl]) hd'.1))
    dsimp only at this
    cases o with
    | false => exact .inr (tight t _ he.1 this)
    | true => exact (inh_unwrap this).imp (fun e => ⟨rfl, e⟩) (tight t _ he.1)
end

/-- For types without unions, intersections, tuples and dates, the values of the written type are exactly those of the type it is
converted to. -/
theorem C79_exact (hs : ∀ a b, same a b = true → a = b) (hc : ∀ a b, same a b = same b a) {t : Ty} (he : Exact t) (v : Val) :
    Inh (convert same t) v ↔ Has t v := ⟨tight t v he, sound hs hc t v (exact_fair t he)⟩

/-- The values of an intersection have the type it is converted to, if the values of its parts do: `merge` is right for it. -/
theorem C79_intersection (hs : ∀ a b, same a b = true → a = b) (hc : ∀ a b, same a b = same b a) (ts : List Ty) (hf : FairAll same ts) (v : Val)
    (h : HasEvery ts v) : Inh (convert same (.inter ts)) v :=
  C79_sound hs hc _ (by rw [Fair]; exact hf) v (by rw [Has]; exact h)

/-- Texts in a union: what is written is what is checked. -/
theorem C79_texts (same : VT → VT → Bool) (c : String) (cs : List String) (v : Val) :
    Inh (convert same (.union ((c :: cs).map fun s => .lit (.str s)))) v ↔ ∃ s ∈ c :: cs, v = .str s := by
  have step : ∀ (cs : List String) (acc : VT), (∃ c, acc = .const c) ∨ (∃ n vs, acc = .enum n vs) →
      (Inh ((cs.map VT.const).foldl (VT.merge same) acc) v ↔ Inh acc v ∨ ∃ s ∈ cs, v = .str s) := by
    intro cs
    induction cs with
    | nil => intro acc _; simp
    | cons d cs ih =>
      intro acc hacc
      rw [List.map_cons, List.foldl_cons]
      have hm : (∃ c, merge same acc (.const d) = .const c) ∨ ∃ n vs, merge same acc (.const d) = .enum n vs := by
        rcases hacc with ⟨c, rfl⟩ | ⟨n, vs, rfl⟩
        · rw [merge_eq]
          by_cases h : c = d <;> simp [unwrap, core, fin, h]
        · rw [merge_eq]
          simp [unwrap, core, fin]
      rw [ih _ hm]
      have hv : Inh (merge same acc (.const d)) v ↔ Inh acc v ∨ v = .str d := by
        rcases hacc with ⟨c, rfl⟩ | ⟨n, vs, rfl⟩
        · rw [merge_eq]
          by_cases h : c = d
          · subst h; simp [unwrap, core, fin, Inh]
          · simp [unwrap, core, fin, h, Inh]
        · rw [merge_eq]
          simp only [unwrap, core, fin, Bool.or_false, Bool.false_and, Bool.false_eq_true, if_false, Inh]
          by_cases h : d ∈ vs
          · simp only [List.contains_eq_mem, h, decide_true, if_true]
            exact ⟨.inl, fun x => x.elim id fun e => ⟨d, h, e⟩⟩
          · simp only [List.contains_eq_mem, h, decide_false, Bool.false_eq_true, if_false, List.mem_append, List.mem_singleton]
            constructor
            · rintro ⟨s, hs | rfl, e⟩
              · exact .inl ⟨s, hs, e⟩
              · exact .inr e
            · rintro (⟨s, hs, e⟩ | e)
              · exact ⟨s, .inl hs, e⟩
              · exact ⟨d, .inr rfl, e⟩
      rw [hv]
      constructor
      · rintro ((h | h) | ⟨s, hs, h⟩)
        · exact .inl h
        · exact .inr ⟨d, List.mem_cons_self .., h⟩
        · exact .inr ⟨s, List.mem_cons_of_mem _ hs, h⟩
      · rintro (h | ⟨s, hs, h⟩)
        · exact .inl (.inl h)
        · rcases List.mem_cons.1 hs with rfl | hs
          · exact .inl (.inr h)
          · exact .inr ⟨s, hs, h⟩
  have hall : ∀ cs : List String, convertAll same (cs.map fun s => Ty.lit (.str s)) = cs.map VT.const := by
    intro cs
    induction cs with
    | nil => rw [List.map_nil, convertAll]; rfl
    | cons d cs ih => rw [List.map_cons, convertAll, ih, convert]; rfl
  rw [convert, hall, List.map_cons, mergeAll, step cs _ (.inl ⟨c, rfl⟩)]
  simp [Inh]

/-! ## Findings -/

/-- `keyof` is skipped: it is converted to the type of the object, which none of its values, the names, has. -/
theorem C79_keyof {ms : List (Option String × Ty × Bool)} (hn : ∀ m ∈ ms, m.1 ≠ none) {v : Val} (h : Has (.oper .keyof (.obj ms)) v) :
    ¬ Inh (convert same (.oper .keyof (.obj ms))) v := by
  simp only [Has] at h
  obtain ⟨k, rfl, _⟩ := h
  obtain ⟨fields, e, _⟩ := members_named (same := same) ms [] hn
  rw [convert, convert, e]
  simp [Inh]

/-- The rest of a tuple is taken for one element: in `[...string[]]` the elements should be lists of texts. -/
theorem C79_rest : Has (.tuple [.rest (.arr (.kw .string))]) (.arr [.str "a"]) ∧
    ¬ Inh (convert same (.tuple [.rest (.arr (.kw .string))])) (.arr [.str "a"]) := by
  constructor
  · simp only [Has, HasTuple, Ty.isRest, if_true]
    exact ⟨_, rfl, [.str "a"], [], rfl, ⟨_, rfl, by simp [HasKw]⟩, rfl⟩
  · simp [convert, convertAll, mergeAll, keyword, Inh]

/-- A union of object types has the properties of all of them: `{ a: string } | { b: number }` becomes `{ a: string, b: number }`,
which a value with only `b` does not have. -/
theorem C79_union : Has (.union [.obj [(some "a", .kw .string, false)], .obj [(some "b", .kw .number, false)]]) (.obj [("b", .num 1)]) ∧
    convert same (.union [.obj [(some "a", .kw .string, false)], .obj [(some "b", .kw .number, false)]]) =
      convert same (.inter [.obj [(some "a", .kw .string, false)], .obj [(some "b", .kw .number, false)]]) ∧
    ¬ Inh (convert same (.union [.obj [(some "a", .kw .string, false)], .obj [(some "b", .kw .number, false)]])) (.obj [("b", .num 1)]) := by
  refine ⟨?_, by rw [convert, convert], ?_⟩
  · simp [HasSome, Has, HasMembers, HasKw, aGet]
  · simp [convert, convertAll, convertMembers, mergeAll, keyword, merge_eq, unwrap, core, fin, mgFields, Inh, InhFields, aGet, aSet]

/-- The length of a tuple is not part of the type: any number of elements is of the type of a tuple with one. -/
theorem C79_tuple_length (t : Ty) (x : Val) (h : Inh (convert same t) x) (n : Nat) :
    Inh (convert same (.tuple [t])) (.arr (List.replicate n x)) := by
  rw [convert, Inh]
  refine ⟨_, rfl, fun y hy => ?_⟩
  rw [(List.mem_replicate.1 hy).2]
  simpa [convertAll, mergeAll] using h

/-! ## Examples -/

/-- `{ total: number; note?: string; tier: "gold" | "basic" | null }` -/
def order : Ty := .obj [(some "total", .kw .number, false), (some "note", .kw .string, true),
  (some "tier", .union [.lit (.str "gold"), .lit (.str "basic"), .kw .null], false)]

theorem order_fair : Fair (fun _ _ => false) order := by
  simp only [order, Fair, FairMembers, FairAll, true_and, and_true, convertAll, convert, literal, keyword, MergeOk, MergeableAll, Mergeable]
  exact ⟨scalar_alike _ _ _ _ trivial (by simp [unwrap]) (by simp [unwrap]),
    scalar_alike _ _ _ _ trivial (by simp [merge_eq, unwrap, core, fin]) (by simp [merge_eq, unwrap, core, fin])⟩

example : Inh (convert (fun _ _ => false) order) (.obj [("total", .num 3), ("tier", .str "basic")]) :=
  C79_sound (by simp) (by simp) order order_fair _ (by simp [order, Has, HasMembers, HasSome, HasKw, HasLit, aGet])

example : convert (fun _ _ => false) order = .obj [("total", .number), ("note", .nullable .string), ("tier", .nullable (.enum none ["gold", "basic"]))] := by
  simp [order, convert, convertMembers, convertAll, keyword, literal, mergeAll, wrapOptional, merge_eq, unwrap, core, fin, aSet, aGet, loose]

/-- `Promise<{ id: string, tags?: string[] }>` -/
example : Exact (.ref (some "Promise") [.obj [(some "id", .kw .string, false), (some "tags", .arr (.kw .string), true)]]) := by
  simp [Exact, ExactAll, ExactMembers]

example : ¬ Inh (convert (fun _ _ => false) (.oper .keyof (.obj [(some "a", .kw .number, false)]))) (.str "a") :=
  C79_keyof (by simp) (by simp [Has])

/-- **A type is made optional once**: it stays as it is exactly when it has `null` already, and then no type is optional twice. -/
theorem C79_optional (t : VT) : (wrapOptional t = t ↔ Inh t .null) ∧ wrapOptional (wrapOptional t) = wrapOptional t := by
  constructor
  · cases t <;> simp [wrapOptional, Inh]
  · cases t <;> rfl

example : wrapOptional (.nullable .number) = .nullable .number ∧ wrapOptional .number = .nullable .number := ⟨rfl, rfl⟩

end Zen.Ts
