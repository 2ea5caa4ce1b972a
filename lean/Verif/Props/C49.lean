import Verif.Engine.Engine
import Verif.Engine.TableDemo
import Verif.Core.MapLemmas
import Verif.Heap.Lemmas
/-
C49: what an expression node computes.
-/
namespace Zen

/-- Specification: the items that count -/
def activeItems (items : List ExprItem) : List ExprItem := items.filter fun it => it.key ≠ "" ∧ it.value ≠ ""

/-- Specification: an object into which values have been written in turn, each at its dotted key -/
def written (ws : List (String × Val)) : Val := ws.foldl (fun acc w => (acc.dotInsert w.1 w.2).1) (.obj [])

/-- Specification: what an expression sees after some values were written: the input as environment,
`$nodes` when offered, and under `$` the values written so far, once there are any -/
def itemScope (input : Val) (nodes : Option Val) (ws : List (String × Val)) : Scope :=
  { base := input
    locals := (match nodes with | some v => [("$nodes", v)] | none => []) ++
      (if ws = [] then [] else [("$", written ws)]) }

/-- Specification: the active items with these values -/
def writes (items : List ExprItem) (vs : List Val) : List (String × Val) := (items.map ExprItem.key).zip vs

/-- Specification: the first `vs.length` items have the values `vs`, each evaluated from scratch after the
ones before it -/
def ItemsYield (F : FrontEnd) (B : Builtins) (input : Val) (nodes : Option Val) (items : List ExprItem) (vs : List Val) : Prop :=
  vs.length ≤ items.length ∧ ∀ (i : Nat) (it : ExprItem) (v : Val), items[i]? = some it → vs[i]? = some v →
    freshRun F B (itemScope input nodes ((writes items vs).take i)) .standard it.value = .ok v

theorem zip_take {α β : Type} : ∀ (k : Nat) (l : List α) (m : List β), (l.zip m).take k = l.zip (m.take k)
  | 0, _, _ => by simp
  | _ + 1, [], _ => by simp
  | _ + 1, _ :: _, [] => by simp
  | k + 1, _ :: l, _ :: m => by simp [zip_take k l m]

theorem dotInsert_obj (m : List (String × Val)) (k : String) (v : Val) : ∃ m', ((Val.obj m).dotInsert k v).1 = .obj m' := by
  unfold Val.dotInsert
  cases hs : splitDot k with
  | nil => exact ⟨m, by simp [Val.dotInsertP]⟩
  | cons a l => cases l with
    | nil => exact ⟨_, by simp [Val.dotInsertP]; rfl⟩
    | cons b l => exact ⟨_, by simp [Val.dotInsertP]; rfl⟩

theorem written_obj (ws : List (String × Val)) : ∃ m, written ws = .obj m := by
  unfold written
  suffices H : ∀ (m : List (String × Val)), ∃ m', ws.foldl (fun (acc : Val) w => (acc.dotInsert w.1 w.2).1) (Val.obj m) = Val.obj m' from H []
  induction ws with
  | nil => intro m; exact ⟨m, rfl⟩
  | cons w ws ih =>
    intro m
    obtain ⟨m', h⟩ := dotInsert_obj m w.1 w.2
    rw [List.foldl_cons, h]
    exact ih m'

theorem written_snoc (ws : List (String × Val)) (w : String × Val) : written (ws ++ [w]) = ((written ws).dotInsert w.1 w.2).1 := by
  unfold written; rw [List.foldl_append]; rfl

/-- `insert_dollar` moves from the scope after `ws` to the scope after one more -/
theorem insertDollar_scope (F : FrontEnd) (B : Builtins) (input : Val) (nodes : Option Val) (ws : List (String × Val)) (k : String)
    (v : Val) : (({ scope := itemScope input nodes ws } : Ev).apply F B (.insertDollar k v)).2
      = { scope := itemScope input nodes (ws ++ [(k, v)]) } := by
  have hne : ws ++ [(k, v)] ≠ [] := by simp
  obtain ⟨m, hm⟩ := written_obj ws
  by_cases hw : ws = []
  · subst hw
    cases nodes with
    | none => rfl
    | some n =>
      simp [Ev.apply, Ev.setLocal, Scope.setLocal, Scope.local_, itemScope, aGet, aSet, written]
  · have hs := written_snoc ws (k, v)
    cases nodes with
    | none =>
      simp [Ev.apply, Ev.setLocal, Scope.setLocal, Scope.local_, itemScope, aGet, aSet, hw, hm, aReplace] at hs ⊢
      exact hs.symm
    | some n =>
      simp [Ev.apply, Ev.setLocal, Scope.setLocal, Scope.local_, itemScope, aGet, aSet, hw, hm, aReplace] at hs ⊢
      exact hs.symm

/-- one run of the loop, from the point where `ws` was written -/
theorem runItems_spec (F : FrontEnd) (B : Builtins) (input : Val) (nodes : Option Val) :
    ∀ (items : List ExprItem) (ws : List (String × Val)),
      (∃ vs, vs.length = (activeItems items).length ∧
        (∀ (i : Nat) (it : ExprItem) (v : Val), (activeItems items)[i]? = some it → vs[i]? = some v →
          freshRun F B (itemScope input nodes (ws ++ (writes (activeItems items) vs).take i)) .standard it.value = .ok v) ∧
        runItems F B items { scope := itemScope input nodes ws } (written ws) = .ok (written (ws ++ writes (activeItems items) vs))) ∨
      (∃ vs it e, (activeItems items)[vs.length]? = some it ∧
        (∀ (i : Nat) (it : ExprItem) (v : Val), (activeItems items)[i]? = some it → vs[i]? = some v →
          freshRun F B (itemScope input nodes (ws ++ (writes (activeItems items) vs).take i)) .standard it.value = .ok v) ∧
        freshRun F B (itemScope input nodes (ws ++ writes (activeItems items) vs)) .standard it.value = .error e ∧
        runItems F B items { scope := itemScope input nodes ws } (written ws)
          = .error ("Failed to evaluate expression: \"" ++ it.value ++ "\""))
  | [], ws => .inl ⟨[], rfl, by simp [activeItems], by simp [runItems, writes, activeItems]⟩
  | it :: items, ws => by
    rw [runItems]
    by_cases hskip : it.key = "" ∨ it.value = ""
    · have : activeItems (it :: items) = activeItems items := by
        unfold activeItems
        rw [List.filter_cons, if_neg]
        rcases hskip with h | h <;> simp [h]
      rw [if_pos hskip, this]
      exact runItems_spec F B input nodes items ws
    · have hact : activeItems (it :: items) = it :: activeItems items := by
        unfold activeItems
        rw [List.filter_cons, if_pos]
        simpa [not_or] using hskip
      rw [if_neg hskip, hact]
      have hrun : ({ scope := itemScope input nodes ws } : Ev).run F B it.value
        = freshRun F B (itemScope input nodes ws) .standard it.value := rfl
      rw [hrun]
      cases hv : freshRun F B (itemScope input nodes ws) .standard it.value with
      | error e =>
        refine .inr ⟨[], it, e, rfl, by simp, ?_, rfl⟩
        simpa [writes] using hv
      | ok v =>
        dsimp only
        rw [insertDollar_scope]
        have hacc : ((written ws).dotInsert it.key v).1 = written (ws ++ [(it.key, v)]) := by rw [written_snoc]
        rw [hacc]
        have shift : ∀ vs : List Val, ∀ i, (ws ++ [(it.key, v)]) ++ (writes (activeItems items) vs).take i
            = ws ++ (writes (it :: activeItems items) (v :: vs)).take (i + 1) := by
          intro vs i; simp [writes]
        have each : ∀ vs : List Val, (∀ (i : Nat) (it' : ExprItem) (v' : Val), (activeItems items)[i]? = some it' → vs[i]? = some v' →
            freshRun F B (itemScope input nodes ((ws ++ [(it.key, v)]) ++ (writes (activeItems items) vs).take i)) .standard it'.value = .ok v') →
            ∀ (i : Nat) (it' : ExprItem) (v' : Val), (it :: activeItems items)[i]? = some it' → (v :: vs)[i]? = some v' →
            freshRun F B (itemScope input nodes (ws ++ (writes (it :: activeItems items) (v :: vs)).take i)) .standard it'.value = .ok v' := by
          intro vs h i it' v' h1 h2
          cases i with
          | zero =>
            simp at h1 h2; subst h1; subst h2
            simpa using hv
          | succ i =>
            rw [← shift]
            exact h i it' v' (by simpa using h1) (by simpa using h2)
        rcases runItems_spec F B input nodes items (ws ++ [(it.key, v)]) with ⟨vs, h1, h2, h3⟩ | ⟨vs, it', e, h1, h2, h3, h4⟩
        · refine .inl ⟨v :: vs, by simp [h1], each vs h2, ?_⟩
          rw [h3]
          congr 2
          simp [writes]
        · refine .inr ⟨v :: vs, it', e, by simpa using h1, each vs h2, ?_, h4⟩
          have : ws ++ writes (it :: activeItems items) (v :: vs) = (ws ++ [(it.key, v)]) ++ writes (activeItems items) vs := by
            simp [writes]
          rw [this]; exact h3

/-- the handler of an expression node, without transform attributes -/
abbrev exprNode (E : Env) (items : List ExprItem) (input : Val) (nodes : Option Val) : Except String Val :=
  handleNode E (fun _ _ _ => .error "") ⟨"id", "name", .expression items {}⟩ input nodes

theorem exprNode_eq (E : Env) (sub : String → Val → Option Val → Except String Val) (id name : String) (items : List ExprItem) (input : Val)
    (nodes : Option Val) : handleNode E sub ⟨id, name, .expression items {}⟩ input nodes
      = runItems E.F E.B items { scope := itemScope input nodes [] } (written []) := by
  have h : itemScope input nodes [] = nodeScope input nodes := by
    unfold itemScope nodeScope; cases nodes <;> rfl
  rw [h]
  unfold handleNode
  simp only [runWith, selectInput, plain, shapeOutput]
  have : written [] = .obj [] := rfl
  rw [this]
  cases runItems E.F E.B items { scope := nodeScope input nodes } (.obj []) <;> rfl

/-- The node succeeds exactly when every active item, in order, has a value; its output holds these values
at their keys. Items without key or value have no effect. -/
theorem C49_success (E : Env) (sub : String → Val → Option Val → Except String Val) (id name : String) (items : List ExprItem) (input : Val)
    (nodes : Option Val) (out : Val) :
    handleNode E sub ⟨id, name, .expression items {}⟩ input nodes = .ok out ↔
      ∃ vs, vs.length = (activeItems items).length ∧ ItemsYield E.F E.B input nodes (activeItems items) vs ∧
        out = written (writes (activeItems items) vs) := by
  rw [exprNode_eq]
  constructor
  · intro h
    rcases runItems_spec E.F E.B input nodes items [] with ⟨vs, h1, h2, h3⟩ | ⟨vs, it, e, h1, h2, h3, h4⟩
    · rw [h3] at h; injection h with h
      exact ⟨vs, h1, ⟨by omega, by simpa using h2⟩, by rw [← h]; simp⟩
    · rw [h4] at h; cases h
  · rintro ⟨vs, h1, ⟨_, h2⟩, rfl⟩
    have uniq : ∀ (us : List Val), (∀ (i : Nat) (it : ExprItem) (v : Val), (activeItems items)[i]? = some it → us[i]? = some v →
          freshRun E.F E.B (itemScope input nodes ((writes (activeItems items) us).take i)) .standard it.value = .ok v) →
        us.length ≤ vs.length → us = vs.take us.length := by
      intro us hu hle
      have : ∀ k ≤ us.length, us.take k = vs.take k := by
        intro k
        induction k with
        | zero => intro _; simp
        | succ k ih =>
          intro hk
          have hk' := ih (by omega)
          have ha : k < (activeItems items).length := by omega
          have e1 := hu k _ _ (List.getElem?_eq_getElem ha) (List.getElem?_eq_getElem (show k < us.length by omega))
          have e2 := h2 k _ _ (List.getElem?_eq_getElem ha) (List.getElem?_eq_getElem (show k < vs.length by omega))
          have ht : (writes (activeItems items) us).take k = (writes (activeItems items) vs).take k := by
            unfold writes
            rw [zip_take, zip_take, hk']
          rw [ht, e2] at e1
          injection e1 with e1
          rw [← List.take_append_getElem (show k < us.length by omega), ← List.take_append_getElem (show k < vs.length by omega), hk', e1]
      have := this us.length (Nat.le_refl _)
      simpa using this
    rcases runItems_spec E.F E.B input nodes items [] with ⟨us, u1, u2, u3⟩ | ⟨us, it, e, u1, u2, u3, u4⟩
    · have := uniq us (by simpa using u2) (by omega)
      rw [u3, this, List.take_of_length_le (by omega)]
      simp
    · exfalso
      have hlt : us.length < (activeItems items).length := (List.getElem?_eq_some_iff.1 u1).1
      have he := uniq us (by simpa using u2) (by omega)
      have e2 := h2 us.length it _ u1 (List.getElem?_eq_getElem (show us.length < vs.length by omega))
      have ht : (writes (activeItems items) vs).take us.length = writes (activeItems items) us := by
        unfold writes
        rw [zip_take, ← he]
      rw [ht] at e2
      simp only [List.nil_append] at u3
      rw [e2] at u3; cases u3

/-- The node fails exactly when some active item fails after all before it had values; the message names
that item. -/
theorem C49_failure (E : Env) (sub : String → Val → Option Val → Except String Val) (id name : String) (items : List ExprItem) (input : Val)
    (nodes : Option Val) (msg : String) (h : handleNode E sub ⟨id, name, .expression items {}⟩ input nodes = .error msg) :
    ∃ vs it e, (activeItems items)[vs.length]? = some it ∧ ItemsYield E.F E.B input nodes (activeItems items) vs ∧
      freshRun E.F E.B (itemScope input nodes (writes (activeItems items) vs)) .standard it.value = .error e ∧
      msg = "Failed to evaluate expression: \"" ++ it.value ++ "\"" := by
  rw [exprNode_eq] at h
  rcases runItems_spec E.F E.B input nodes items [] with ⟨vs, h1, h2, h3⟩ | ⟨vs, it, e, h1, h2, h3, h4⟩
  · rw [h3] at h; cases h
  · rw [h4] at h; injection h with h
    have := (List.getElem?_eq_some_iff.1 h1).1
    exact ⟨vs, it, e, h1, ⟨by omega, by simpa using h2⟩, by simpa using h3, h.symm⟩

/-- Specification: the last value written for a key -/
def lastFor (k : String) (ws : List (String × Val)) : Option Val := (ws.reverse.find? (·.1 = k)).map Prod.snd

theorem splitDotC_plain : ∀ (cs : List Char), '.' ∉ cs → splitDotC cs = [cs]
  | [], _ => rfl
  | c :: cs, h => by
    have hc : c ≠ '.' := fun hh => h (by simp [hh])
    rw [splitDotC, if_neg hc, splitDotC_plain cs fun hh => h (by simp [hh])]

theorem written_plain (ws : List (String × Val)) (hp : ∀ w ∈ ws, '.' ∉ w.1.toList) :
    ∃ m, written ws = .obj m ∧ ∀ k, aGet m k = lastFor k ws := by
  suffices H : ∀ n, ∀ ws : List (String × Val), ws.length = n → (∀ w ∈ ws, '.' ∉ w.1.toList) →
      ∃ m, written ws = .obj m ∧ ∀ k, aGet m k = lastFor k ws from H _ ws rfl hp
  intro n
  induction n with
  | zero =>
    intro ws hl _
    have : ws = [] := List.length_eq_zero_iff.1 hl
    subst this
    exact ⟨[], rfl, fun k => rfl⟩
  | succ n ih =>
    intro ws hl hp
    obtain ⟨us, w, rfl⟩ : ∃ us w, ws = us ++ [w] := by
      have hne : ws ≠ [] := by intro hh; rw [hh] at hl; cases hl
      exact ⟨ws.dropLast, ws.getLast hne, (List.dropLast_concat_getLast hne).symm⟩
    obtain ⟨m, hm, hk⟩ := ih us (by simp at hl; omega) fun w hw => hp w (by simp [hw])
    rw [written_snoc, hm]
    have hs : splitDot w.1 = [w.1] := by
      unfold splitDot
      rw [splitDotC_plain _ (hp w (by simp))]
      simp
    refine ⟨aSet m w.1 w.2, by simp [Val.dotInsert, hs, Val.dotInsertP], fun k => ?_⟩
    rw [aGet_aSet, hk]
    unfold lastFor
    rw [List.reverse_append]
    simp only [List.reverse_singleton, List.singleton_append, List.find?_cons]
    by_cases hkw : w.1 = k
    · simp [hkw]
    · simp [hkw, Ne.symm hkw]

/-- With plain keys, without dots: every key of the output has the value of the last active item with that
key, and there are no others. -/
theorem C49_plain_keys (E : Env) (sub : String → Val → Option Val → Except String Val) (id name : String) (items : List ExprItem) (input : Val)
    (nodes : Option Val) (out : Val) (h : handleNode E sub ⟨id, name, .expression items {}⟩ input nodes = .ok out)
    (hp : ∀ it ∈ items, '.' ∉ it.key.toList) :
    ∃ vs m, ItemsYield E.F E.B input nodes (activeItems items) vs ∧ vs.length = (activeItems items).length ∧ out = .obj m ∧
      ∀ k, aGet m k = lastFor k (writes (activeItems items) vs) := by
  obtain ⟨vs, h1, h2, rfl⟩ := (C49_success E sub id name items input nodes out).1 h
  obtain ⟨m, hm, hk⟩ := written_plain (writes (activeItems items) vs) (by
    intro w hw
    have := (List.of_mem_zip hw).1
    obtain ⟨it, hit, he⟩ := List.mem_map.1 this
    rw [← he]
    exact hp it (List.mem_filter.1 hit).1)
  exact ⟨vs, m, h2, h1, hm, hk⟩

/-! ## Instances -/

def itemFront : FrontEnd := fun _ s => if s = "$.x" then .ok (.member (.ident "$") (.str "x")) else .ok (.ident s)

def itemEnv : Env where
  F := itemFront
  B := demoB
  schema := fun _ _ => .ok ()
  loader := fun _ => .error ""
  foreign := fun _ v _ => .ok v
  nodesInContext := true
  ord := id
  compiled := true
  trace := false

/-- `x := a; (no key) := b; y := $.x; x := b` on `{ a: 1, b: 2 }` -/
example : handleNode itemEnv (fun _ _ _ => .error "") ⟨"e", "e", .expression [⟨"x", "a"⟩, ⟨"", "b"⟩, ⟨"y", "$.x"⟩, ⟨"x", "b"⟩] {}⟩
    (.obj [("a", .num 1), ("b", .num 2)]) none = .ok (.obj [("x", .num 2), ("y", .num 1)]) := by rfl

/-! ## Findings -/

/-- NEGATIVE: values are written in place. After an item `x := a` that passes on an object of the input, an
item with the dotted key `x.y` writes into the object of the input. Cell 0 is the object `a` of the input
`{ a: {} }` (cell 1), cell 2 the output of the node, empty at first. -/
theorem C49_input_changed : ∃ (h : Heap) (input out a : HVal),
    Sees h input (.obj [("a", .obj [])]) ∧ Sees h out (.obj []) ∧
    (let h1 := (Heap.dotInsert h out ["x"] a).1
     let h2 := (Heap.dotInsert h1 out ["x", "y"] (.num 1)).1
     Sees h2 input (.obj [("a", .obj [("y", .num 1)])])) :=
  ⟨[.obj [], .obj [("a", .obj 0)], .obj []], .obj 1, .obj 2, .obj 0,
    ⟨_, .obj rfl (.cons (.obj rfl .nil) .nil)⟩, ⟨_, .obj rfl .nil⟩, ⟨_, .obj rfl (.cons (.obj rfl (.cons (.num 1) .nil)) .nil)⟩⟩

end Zen
