import Verif.Policy.ParseBlocks
import Verif.Props.C81
/-
C84: what is made of the documents of expressions, matches, assertions and decision tables: which targets, conditions
and types of columns are kept, and that nothing is lost without a diagnostic.
-/
namespace Zen.PB.C84
open Zen Zen.Doc Zen.Doc.C81

/-! ### Paths -/

/-- a name in a path: not empty, without dots and white space -/
def Seg (s : Str) : Prop := s ≠ [] ∧ ∀ c ∈ s, c ≠ '.' ∧ isWs c = false

/-- names with a dot between every two of them -/
inductive Path : Str → Prop
  | one {s} : Seg s → Path s
  | cons {s p} : Seg s → Path p → Path (s ++ '.' :: p)

theorem split_plain (cs : Str) (h : '.' ∉ cs) : splitDotC cs = [cs] := by
  induction cs with
  | nil => rfl
  | cons c r ih =>
    rw [List.mem_cons, not_or] at h
    have hc : ¬ c = '.' := fun e => h.1 e.symm
    rw [splitDotC, if_neg hc, ih h.2]

theorem split_join (cs rest : Str) (h : '.' ∉ cs) : splitDotC (cs ++ '.' :: rest) = cs :: splitDotC rest := by
  induction cs with
  | nil => simp [splitDotC]
  | cons c r ih =>
    rw [List.mem_cons, not_or] at h
    have hc : ¬ c = '.' := fun e => h.1 e.symm
    rw [List.cons_append, splitDotC, if_neg hc, ih h.2]

theorem first_dot (s : Str) : '.' ∉ s ∨ ∃ a b, s = a ++ '.' :: b ∧ '.' ∉ a := by
  induction s with
  | nil => exact .inl (by simp)
  | cons c r ih =>
    by_cases hc : c = '.'
    · exact .inr ⟨[], r, by simp [hc], by simp⟩
    · rcases ih with h | ⟨a, b, rfl, h⟩
      · exact .inl (by simp [h, Ne.symm hc])
      · exact .inr ⟨c :: a, b, rfl, by simp [h, Ne.symm hc]⟩

theorem seg_iff (s : Str) (h : '.' ∉ s) : (!s.isEmpty && !s.any isWs) = true ↔ Seg s := by
  simp only [Seg, Bool.and_eq_true, Bool.not_eq_true', List.isEmpty_eq_false_iff, List.any_eq_false]
  refine and_congr_right fun _ => ?_
  constructor
  · intro h1 c hc
    exact ⟨fun e => h (e ▸ hc), by simpa using h1 c hc⟩
  · intro h1 c hc
    simp [(h1 c hc).2]

theorem all_iff : ∀ (n : Nat) (p : Str), p.length ≤ n →
    (((splitDotC p).all fun segment => !segment.isEmpty && !segment.any isWs) = true ↔ Path p) := by
  intro n
  induction n with
  | zero =>
    intro p hp
    have : p = [] := List.length_eq_zero_iff.1 (by omega)
    subst this
    constructor
    · intro h; simp [splitDotC] at h
    · intro h
      generalize hq : ([] : Str) = q at h
      cases h with
      | one h => exact absurd hq.symm h.1
      | cons _ _ => simp at hq
  | succ n ih =>
    intro p hp
    rcases first_dot p with h | ⟨a, b, rfl, h⟩
    · rw [split_plain p h]
      simp only [List.all_cons, List.all_nil, Bool.and_true]
      rw [seg_iff p h]
      constructor
      · exact .one
      · intro hp
        cases hp with
        | one h => exact h
        | cons _ _ => exact absurd (by simp) h
    · rw [split_join a b h, List.all_cons, Bool.and_eq_true, seg_iff a h,
        ih b (by simp only [List.length_append, List.length_cons] at hp; omega)]
      constructor
      · rintro ⟨h1, h2⟩
        exact .cons h1 h2
      · intro hp
        generalize hq : a ++ '.' :: b = q at hp
        cases hp with
        | one h1 => exact absurd rfl (h1.2 '.' (by rw [← hq]; simp)).1
        | @cons s p h1 h2 =>
          have hs : '.' ∉ s := fun hm => absurd rfl (h1.2 _ hm).1
          have e : splitDotC (a ++ '.' :: b) = splitDotC (s ++ '.' :: p) := by rw [hq]
          rw [split_join a b h, split_join s p hs] at e
          have e1 : a = s := (List.cons.inj e).1
          subst e1
          have e2 : b = p := by simpa using hq
          subst e2
          exact ⟨h1, h2⟩

theorem path_ne {p : Str} (h : Path p) : p ≠ [] := by
  cases h with
  | one h => exact h.1
  | cons _ _ => simp

/-- **Which paths can be written.** -/
theorem C84_path (p : Str) : validPath p = true ↔ Path p := by
  unfold validPath
  split
  · rename_i h
    constructor
    · intro h; simp at h
    · intro hp; exact absurd h (path_ne hp)
  · exact all_iff p.length p (Nat.le_refl _)

theorem path_trim {p : Str} (h : Path p) : ∀ c ∈ p, isWs c = false := by
  induction h with
  | one h => exact fun c hc => (h.2 c hc).2
  | cons h _ ih =>
    intro c hc
    simp only [List.mem_append, List.mem_cons] at hc
    rcases hc with hc | rfl | hc
    · exact (h.2 c hc).2
    · decide
    · exact ih c hc

/-- what is kept of a target: the text without white space around it when it is a path, else nothing -/
def Target (doc out : Str) : Prop := (Path (trimC doc) ∧ out = trimC doc) ∨ (¬ Path (trimC doc) ∧ out = [])

theorem key_spec (pl : Place) (doc : Str) :
    Target doc (parseKey pl doc).1 ∧ ((parseKey pl doc).2 = [] ↔ Path (trimC doc)) ∧
      ((∃ d ∈ (parseKey pl doc).2, d.error = true) ↔ trimC doc ≠ [] ∧ ¬ Path (trimC doc)) := by
  unfold parseKey
  simp only
  split
  · rename_i h
    have hn : ¬ Path (trimC doc) := fun hp => path_ne hp h
    exact ⟨.inr ⟨hn, h⟩, by simp [hn], by simp [h]⟩
  · rename_i h
    split
    · rename_i hv
      have hp := (C84_path _).1 hv
      exact ⟨.inl ⟨hp, rfl⟩, by simp [hp], by simp [hp]⟩
    · rename_i hv
      have hn : ¬ Path (trimC doc) := fun hp => hv ((C84_path _).2 hp)
      exact ⟨.inr ⟨hn, rfl⟩, by simp [hn], by simp [h, hn]⟩

/-- **Expressions.** The target is kept when it is a path and the value always, both without white space around
them; there is no diagnostic exactly when there are a proper target and a value, and an error exactly when the target
is neither blank nor a path. -/
theorem C84_expression (doc : Expression) :
    Target doc.key (parseExpression doc).1.key ∧ (parseExpression doc).1.value = trimC doc.value ∧
      ((parseExpression doc).2 = [] ↔ Path (trimC doc.key) ∧ trimC doc.value ≠ []) ∧
      ((∃ d ∈ (parseExpression doc).2, d.error = true) ↔ trimC doc.key ≠ [] ∧ ¬ Path (trimC doc.key)) := by
  obtain ⟨h1, h2, h3⟩ := key_spec .key doc.key
  refine ⟨h1, rfl, ?_, ?_⟩
  · simp only [parseExpression, List.append_eq_nil_iff, h2]
    by_cases h : trimC doc.value = [] <;> simp [h]
  · rw [← h3]
    simp only [parseExpression, List.mem_append]
    constructor
    · rintro ⟨d, hd | hd, he⟩
      · exact ⟨d, hd, he⟩
      · split at hd
        · rw [List.mem_singleton] at hd
          subst hd
          simp at he
        · exact (nomatch hd)
    · rintro ⟨d, hd, he⟩
      exact ⟨d, .inl hd, he⟩

theorem arms_fold (l : List Arm) (as : List Arm) (ds : List Diag) :
    l.foldl armStep (as, ds) =
      (as ++ l.map (fun a => ⟨a.id, trimC a.condition, trimC a.value⟩),
        ds ++ (l.filter fun a => decide (trimC a.value = [])).map (fun a => ⟨false, .emptyBlock, .expr a.id⟩)) := by
  induction l generalizing as ds with
  | nil => simp
  | cons a r ih =>
    rw [List.foldl_cons, armStep]
    simp only
    rw [ih, List.filter_cons]
    by_cases h : trimC a.value = [] <;> simp [h]

/-- **Matches.** All arms are kept in order, without white space around their parts; there is no diagnostic exactly
when the target is proper, there is an arm and every arm has a value; every arm without value is told. -/
theorem C84_match (doc : Match) :
    Target doc.key (parseMatch doc).1.key ∧
      (parseMatch doc).1.arms = doc.arms.map (fun a => ⟨a.id, trimC a.condition, trimC a.value⟩) ∧
      ((parseMatch doc).2 = [] ↔ Path (trimC doc.key) ∧ doc.arms ≠ [] ∧ ∀ a ∈ doc.arms, trimC a.value ≠ []) ∧
      (∀ a ∈ doc.arms, trimC a.value = [] → ⟨false, .emptyBlock, .expr a.id⟩ ∈ (parseMatch doc).2) ∧
      ((∃ d ∈ (parseMatch doc).2, d.error = true) ↔ trimC doc.key ≠ [] ∧ ¬ Path (trimC doc.key)) := by
  obtain ⟨h1, h2, h3⟩ := key_spec .key doc.key
  have e : parseMatch doc =
      (⟨(parseKey .key doc.key).1, doc.arms.map (fun a => ⟨a.id, trimC a.condition, trimC a.value⟩)⟩,
        ((parseKey .key doc.key).2 ++ if doc.arms = [] then [⟨false, .emptyBlock, .block⟩] else []) ++
          (doc.arms.filter fun a => decide (trimC a.value = [])).map (fun a => ⟨false, .emptyBlock, .expr a.id⟩)) := by
    simp [parseMatch, arms_fold]
  rw [e]
  refine ⟨h1, rfl, ?_, ?_, ?_⟩
  · simp only [List.append_eq_nil_iff, h2, List.map_eq_nil_iff, List.filter_eq_nil_iff, decide_eq_true_eq, and_assoc]
    refine and_congr_right fun _ => and_congr_left fun _ => ?_
    by_cases h : doc.arms = [] <;> simp [h]
  · intro a ha hv
    simp only [List.mem_append, List.mem_map, List.mem_filter, decide_eq_true_eq]
    exact .inr ⟨a, ⟨ha, hv⟩, rfl⟩
  · rw [← h3]
    simp only [List.mem_append, List.mem_map]
    constructor
    · rintro ⟨d, (hd | hd) | ⟨a, -, rfl⟩, he⟩
      · exact ⟨d, hd, he⟩
      · split at hd
        · rw [List.mem_singleton] at hd
          subst hd
          simp at he
        · exact (nomatch hd)
      · simp at he
    · rintro ⟨d, hd, he⟩
      exact ⟨d, .inl (.inl hd), he⟩

/-- a condition that is kept: it has a text and is not nested too deeply -/
def Kept (c : Condition) : Prop := trimC c.expression ≠ [] ∧ c.depth < 32

instance (c : Condition) : Decidable (Kept c) := inferInstanceAs (Decidable (_ ∧ _))

/-- the diagnostic of a condition that is not kept -/
def lost (c : Condition) : Diag :=
  if trimC c.expression = [] then ⟨false, .emptyBlock, .expr c.id⟩ else ⟨true, .maxDepth, .expr c.id⟩

theorem conds_fold (l : List Condition) (cs : List Condition) (ds : List Diag) :
    l.foldl condStep (cs, ds) =
      (cs ++ (l.filter fun c => decide (Kept c)).map (fun c => { c with expression := trimC c.expression }),
        ds ++ (l.filter fun c => decide (¬ Kept c)).map lost) := by
  induction l generalizing cs ds with
  | nil => simp
  | cons c r ih =>
    rw [List.foldl_cons, condStep]
    simp only
    by_cases h : trimC c.expression = []
    · have hk : ¬ Kept c := fun hk => hk.1 h
      rw [if_pos h, ih, List.filter_cons, List.filter_cons]
      simp [hk, lost, h]
    · by_cases hd : maxDepth ≤ c.depth
      · have hk : ¬ Kept c := fun hk => by have := hk.2; simp only [maxDepth] at hd; omega
        rw [if_neg h, if_pos hd, ih, List.filter_cons, List.filter_cons]
        simp [hk, lost, h]
      · have hk : Kept c := ⟨h, by simp only [maxDepth] at hd; omega⟩
        rw [if_neg h, if_neg hd, ih, List.filter_cons, List.filter_cons]
        simp [hk]

/-- **Assertions.** Kept are, in order, exactly the conditions that have a text and are not nested 32 deep or more;
for every other there is a diagnostic with its id, an error when it is nested too deeply; there is no diagnostic
exactly when the target is proper, there is a condition and all are kept. -/
theorem C84_assertion (doc : Assertion) :
    Target doc.output (parseAssertion doc).1.output ∧
      (parseAssertion doc).1.conditions =
        (doc.conditions.filter fun c => decide (Kept c)).map (fun c => { c with expression := trimC c.expression }) ∧
      (∀ c ∈ doc.conditions, ¬ Kept c → lost c ∈ (parseAssertion doc).2) ∧
      ((parseAssertion doc).2 = [] ↔
        Path (trimC doc.output) ∧ doc.conditions ≠ [] ∧ ∀ c ∈ doc.conditions, Kept c) := by
  obtain ⟨h1, h2, h3⟩ := key_spec .block doc.output
  have e : parseAssertion doc =
      (⟨(parseKey .block doc.output).1,
        (doc.conditions.filter fun c => decide (Kept c)).map (fun c => { c with expression := trimC c.expression })⟩,
        ((parseKey .block doc.output).2 ++ if doc.conditions = [] then [⟨true, .emptyBlock, .block⟩] else []) ++
          (doc.conditions.filter fun c => decide (¬ Kept c)).map lost) := by
    simp [parseAssertion, conds_fold]
  rw [e]
  refine ⟨h1, rfl, ?_, ?_⟩
  · intro c hc hk
    simp only [List.mem_append, List.mem_map, List.mem_filter, decide_eq_true_eq]
    exact .inr ⟨c, ⟨hc, hk⟩, rfl⟩
  · simp only [List.append_eq_nil_iff, h2, List.map_eq_nil_iff, List.filter_eq_nil_iff, decide_eq_true_eq, and_assoc,
      Decidable.not_not]
    refine and_congr_right fun _ => and_congr_left fun _ => ?_
    by_cases h : doc.conditions = [] <;> simp [h]

/-! ### Types of columns -/

theorem strip_iff (s a : Str) : stripList s = some a ↔ s = a ++ ['[', ']'] := by
  unfold stripList
  constructor
  · intro h
    split at h
    · rename_i hs
      obtain ⟨t, rfl⟩ := List.isSuffixOf_iff_suffix.1 hs
      have : a = t := by
        have := Option.some.inj h
        simpa using this.symm
      rw [this]
    · exact (nomatch h)
  · rintro rfl
    rw [if_pos (List.isSuffixOf_iff_suffix.2 ⟨a, rfl⟩)]
    simp

theorem strip_none (s : Str) (h : ∀ a, s ≠ a ++ ['[', ']']) : stripList s = none := by
  cases e : stripList s with
  | none => rfl
  | some a => exact absurd ((strip_iff s a).1 e) (h a)

/-- the name of a type in a document: one of four words, or a proper name of a dictionary other than these -/
inductive Named : Str → Base → Prop
  | string : Named "string".toList .string
  | number : Named "number".toList .number
  | boolean : Named "boolean".toList .bool
  | date : Named "date".toList .date
  | dictionary {n} : Ident n → n ∉ ["string".toList, "number".toList, "boolean".toList, "date".toList] →
      Named n (.dictionary n)

theorem base_iff (raw : Str) (b : Base) : parseBase raw = some b ↔ Named raw b := by
  unfold parseBase
  constructor
  · intro h
    split at h
    · rename_i e; cases h; rw [e]; exact .string
    · split at h
      · rename_i e; cases h; rw [e]; exact .number
      · split at h
        · rename_i e; cases h; rw [e]; exact .boolean
        · split at h
          · rename_i e; cases h; rw [e]; exact .date
          · split at h
            · exact (nomatch h)
            · rename_i h1 h2 h3 h4 h5
              cases h
              refine .dictionary ((C81_identifier raw).1 (by simpa using h5)) ?_
              simp only [List.mem_cons, List.not_mem_nil, or_false, not_or]
              exact ⟨h1, h2, h3, h4⟩
  · intro h
    cases h with
    | string => rfl
    | number => rfl
    | boolean => rfl
    | date => rfl
    | dictionary h1 h2 =>
      simp only [List.mem_cons, List.not_mem_nil, or_false, not_or] at h2
      rw [if_neg h2.1, if_neg h2.2.1, if_neg h2.2.2.1, if_neg h2.2.2.2, (C81_identifier raw).2 h1]
      rfl

theorem named_ident {n : Str} {b : Base} (h : Named n b) : Ident n := by
  cases h with
  | dictionary h _ => exact h
  | _ => exact (C81_identifier _).1 (by decide)

theorem trimEnd_ws (s ws : Str) (h : ∀ c ∈ ws, isWs c = true) (hs : ∀ c, s.getLast? = some c → isWs c = false) :
    trimEndC (s ++ ws) = s := by
  rw [trimEndC, List.reverse_append, List.dropWhile_append_of_pos (fun x hx => h x (List.mem_reverse.1 hx)),
    dropWhile_eq (fun c hc => hs c (by rwa [List.head?_reverse] at hc)), List.reverse_reverse]

theorem trimEnd_split (s : Str) : ∃ ws, s = trimEndC s ++ ws ∧ ∀ c ∈ ws, isWs c = true := by
  refine ⟨(s.reverse.takeWhile isWs).reverse, ?_, ?_⟩
  · rw [trimEndC, ← List.reverse_append, List.takeWhile_append_dropWhile, List.reverse_reverse]
  · intro x hx
    have hx := List.mem_reverse.1 hx
    generalize s.reverse = l at hx
    induction l with
    | nil => exact (nomatch hx)
    | cons d r ih =>
      rw [List.takeWhile_cons] at hx
      split at hx
      · rename_i h
        rcases List.mem_cons.1 hx with rfl | hx
        · exact h
        · exact ih hx
      · exact (nomatch hx)

/-- **The type of a column.** It is not given exactly when the text is blank; otherwise it is read exactly from the
name of a type or dictionary, for lists followed by `[]` with or without white space between, and everything else is
refused. -/
theorem C84_type (text : Str) :
    (parseType text = some none ↔ trimC text = []) ∧
      ∀ d, parseType text = some (some d) ↔
        ∃ n, Named n d.base ∧
          ((d.array = false ∧ trimC text = n) ∨
            (d.array = true ∧ ∃ ws, (∀ c ∈ ws, isWs c = true) ∧ trimC text = n ++ ws ++ ['[', ']'])) := by
  constructor
  · unfold parseType
    simp only
    split
    · rename_i h; simp [h]
    · rename_i h
      split <;> simp [h]
  · intro d
    unfold parseType
    simp only
    constructor
    · intro h
      split at h
      · simp at h
      · split at h
        · rename_i base hs
          simp only [Option.map_eq_some_iff, Option.some.injEq] at h
          obtain ⟨b, hb, rfl⟩ := h
          obtain ⟨ws, e, hw⟩ := trimEnd_split base
          refine ⟨trimEndC base, (base_iff _ _).1 hb, .inr ⟨rfl, ws, hw, ?_⟩⟩
          rw [(strip_iff _ _).1 hs, ← e]
        · simp only [Option.map_eq_some_iff, Option.some.injEq] at h
          obtain ⟨b, hb, rfl⟩ := h
          exact ⟨_, (base_iff _ _).1 hb, .inl ⟨rfl, rfl⟩⟩
    · rintro ⟨n, hn, h⟩
      have hi := named_ident hn
      rcases h with ⟨ha, ht⟩ | ⟨ha, ws, hw, ht⟩
      · rw [ht, if_neg hi.1, strip_none n (by
          rintro a rfl
          exact (hi.2.2 ']' (by simp)).2.2.1 rfl), (base_iff _ _).2 hn]
        cases d
        simp_all
      · rw [ht, if_neg (by simp), (strip_iff _ (n ++ ws)).2 rfl]
        simp only
        rw [trimEnd_ws n ws hw (fun c hc => (hi.2.2 c (List.mem_of_getLast? hc)).2.2.2), (base_iff _ _).2 hn]
        cases d
        simp_all

theorem show_named {n : Str} {d : Declared} (h : Named n d.base) :
    d.show = n ++ if d.array then ['[', ']'] else [] := by
  obtain ⟨b, a⟩ := d
  simp only at h
  cases h <;> rfl

/-- **A type that is shown is read as itself.** -/
theorem C84_shown {text : Str} {d : Declared} (h : parseType text = some (some d)) :
    parseType d.show = some (some d) := by
  obtain ⟨n, hn, -⟩ := ((C84_type text).2 d).1 h
  have hi := named_ident hn
  refine ((C84_type _).2 d).2 ⟨n, hn, ?_⟩
  rw [show_named hn]
  cases ha : d.array with
  | false =>
    refine .inl ⟨rfl, ?_⟩
    simpa using ident_trim hi
  | true =>
    refine .inr ⟨rfl, [], by simp, ?_⟩
    simp only [if_true, List.append_nil]
    refine trim_fix ?_ ?_
    · intro c hc
      obtain ⟨e, r, rfl⟩ := List.exists_cons_of_ne_nil hi.1
      simp only [List.cons_append, List.head?_cons, Option.some.injEq] at hc
      subst hc
      exact (hi.2.2 _ (by simp)).2.2.2
    · intro c hc
      rw [show n ++ ['[', ']'] = (n ++ ['[']) ++ [']'] by simp, List.getLast?_concat] at hc
      cases hc
      decide

/-- **A dictionary with the name of a type cannot be the type of a column (NEGATIVE)**, though its name is proper: the
name always means the type. -/
theorem C84_shadowed (text n : Str) (a : Bool)
    (hn : n ∈ ["string".toList, "number".toList, "boolean".toList, "date".toList]) :
    validateIdentifier n = none ∧ parseType text ≠ some (some ⟨.dictionary n, a⟩) := by
  constructor
  · simp only [List.mem_cons, List.not_mem_nil, or_false] at hn
    rcases hn with rfl | rfl | rfl | rfl <;> decide
  · intro h
    obtain ⟨m, hm, -⟩ := ((C84_type text).2 _).1 h
    generalize hb : Declared.base ⟨.dictionary n, a⟩ = b at hm
    cases hm with
    | dictionary _ h2 => cases hb; exact h2 hn
    | _ => exact (nomatch hb)

/-- **A type is found** unless it names a dictionary that is not there; a list is a list of what it would be without
`[]`. -/
theorem C84_resolve (d : Declared) (ds : Str → Option VT) :
    (d.resolve ds = none ↔ ∃ n, d.base = .dictionary n ∧ ds n = none) ∧
      (⟨d.base, true⟩ : Declared).resolve ds = ((⟨d.base, false⟩ : Declared).resolve ds).map .arr ∧
      ∀ n, d.base = .dictionary n → d.array = false → d.resolve ds = ds n := by
  obtain ⟨b, a⟩ := d
  refine ⟨?_, ?_, ?_⟩
  · cases b <;> simp [Declared.resolve]
  · cases b <;> simp [Declared.resolve]
  · rintro n h1 h2
    simp only at h1 h2
    subst h1
    subst h2
    simp [Declared.resolve]

/-! ### Columns and tables -/

theorem hasList_iff (s : Str) : hasList s = true ↔ ∃ a b, s = a ++ '[' :: ']' :: b := by
  induction s with
  | nil => simp [hasList]
  | cons c r ih =>
    rw [hasList, Bool.or_eq_true, ih]
    constructor
    · rintro (h | ⟨a, b, rfl⟩)
      · obtain ⟨t, ht⟩ := List.isPrefixOf_iff_prefix.1 h
        exact ⟨[], t, by rw [← ht]; rfl⟩
      · exact ⟨c :: a, b, rfl⟩
    · rintro ⟨a, b, h⟩
      cases a with
      | nil => exact .inl (List.isPrefixOf_iff_prefix.2 ⟨b, by rw [h]; rfl⟩)
      | cons d a =>
        rw [List.cons_append, List.cons.injEq] at h
        exact .inr ⟨a, b, h.2⟩

/-- a path for an output: a path without `[]` -/
def Out (p : Str) : Prop := Path p ∧ ∀ a b, p ≠ a ++ '[' :: ']' :: b

/-- the path of an output field and whether `[]` is behind it -/
def Reads (t p : Str) (marked : Bool) : Prop :=
  (marked = true ∧ ∃ ws, (∀ c ∈ ws, isWs c = true) ∧ (∀ c, p.getLast? = some c → isWs c = false) ∧
    t = p ++ ws ++ ['[', ']']) ∨
  (marked = false ∧ t = p ∧ ∀ a, t ≠ a ++ ['[', ']'])

theorem field_spec (t : Str) (all : Bool) :
    ∃ p marked, Reads t p marked ∧ splitField t all = (p, marked || all) := by
  unfold splitField
  cases e : stripList t with
  | none =>
    refine ⟨t, false, .inr ⟨rfl, rfl, ?_⟩, by simp⟩
    rintro a ha
    rw [(strip_iff t a).2 ha] at e
    exact (nomatch e)
  | some s =>
    obtain ⟨ws, h1, h2⟩ := trimEnd_split s
    exact ⟨trimEndC s, true, .inl ⟨rfl, ws, h2, fun c => trimEnd_last, by rw [(strip_iff t s).1 e, ← h1]⟩, by simp⟩

/-- **Output columns.** The path is what stands in front of `[]`, or all of the field; it is kept exactly when it is a
path without another `[]`, and exactly otherwise there is a diagnostic about it, an error unless the field is blank.
Values are collected when `[]` is there or the table collects. The type is that of `C84_type`, and there is an error
at the head of the column exactly when it is refused. -/
theorem C84_column (all : Bool) (col : OutDoc) :
    ∃ p marked, Reads (trimC col.field) p marked ∧
      (parseColumn all col).1.id = col.id ∧
      (parseColumn all col).1.rawField = trimC col.field ∧
      (parseColumn all col).1.collect = (marked || all) ∧
      ((Out p ∧ (parseColumn all col).1.field = p ∧ ∀ d ∈ (parseColumn all col).2, d.code ≠ .writePath) ∨
        (¬ Out p ∧ (parseColumn all col).1.field = [] ∧
          ⟨decide (trimC col.field ≠ []), .writePath, .expr col.id⟩ ∈ (parseColumn all col).2)) ∧
      (parseColumn all col).1.declared = (parseType (col.type.getD [])).join ∧
      (⟨true, .typeMismatch, .head col.id⟩ ∈ (parseColumn all col).2 ↔ parseType (col.type.getD []) = none) := by
  obtain ⟨p, marked, hr, hs⟩ := field_spec (trimC col.field) all
  refine ⟨p, marked, hr, ?_⟩
  have ho : Out p ↔ hasList p = false ∧ validPath p = true := by
    rw [Out, C84_path, and_comm]
    refine and_congr_left fun _ => ?_
    cases hl : hasList p with
    | true =>
      obtain ⟨a, b, h⟩ := (hasList_iff p).1 hl
      exact ⟨fun h2 => absurd h (h2 a b), fun h2 => (nomatch h2)⟩
    | false =>
      refine ⟨fun _ => rfl, fun _ a b h => ?_⟩
      rw [(hasList_iff p).2 ⟨a, b, h⟩] at hl
      exact (nomatch hl)
  have hempty : trimC col.field = [] → ¬ Out p := by
    intro h h2
    rcases hr with ⟨-, ws, -, -, e⟩ | ⟨-, e, -⟩
    · rw [h] at e; simp at e
    · exact path_ne h2.1 (by rw [← e, h])
  unfold parseColumn
  simp only [hs]
  refine ⟨trivial, trivial, trivial, ?_, ?_, ?_⟩
  · by_cases h0 : trimC col.field = []
    · exact .inr ⟨hempty h0, by simp [h0], by simp [h0]⟩
    · simp only [h0, if_false]
      by_cases h1 : p = []
      · have : ¬ Out p := fun h => path_ne h.1 h1
        exact .inr ⟨this, by simp [h1], by simp [h0, h1]⟩
      · simp only [h1, if_false]
        cases h2 : hasList p with
        | true =>
          have : ¬ Out p := fun h => by rw [(ho.1 h).1] at h2; exact (nomatch h2)
          exact .inr ⟨this, by simp, by simp [h0]⟩
        | false =>
          cases h3 : validPath p with
          | true =>
            refine .inl ⟨ho.2 ⟨h2, h3⟩, by simp, ?_⟩
            intro d hd
            cases hp : parseType (col.type.getD []) with
            | some e =>
              rw [hp] at hd
              simp at hd
            | none =>
              rw [hp] at hd
              simp only [Bool.false_eq_true, if_false, if_true, List.nil_append, List.mem_singleton] at hd
              subst hd
              simp
          | false =>
            have : ¬ Out p := fun h => by rw [(ho.1 h).2] at h3; exact (nomatch h3)
            exact .inr ⟨this, by simp, by simp [h0]⟩
  · cases parseType (col.type.getD []) <;> rfl
  · cases parseType (col.type.getD []) with
    | some e =>
      simp only [List.append_nil, reduceCtorEq, iff_false]
      intro h
      repeat' split at h
      all_goals simp at h
    | none => simp

theorem table_fold (all : Bool) (l : List OutDoc) (cs : List OutCol) (ds : List Diag) :
    l.foldl (fun st c => let r := parseColumn all c; (st.1 ++ [r.1], st.2 ++ r.2)) (cs, ds) =
      (cs ++ l.map (fun c => (parseColumn all c).1), ds ++ l.flatMap (fun c => (parseColumn all c).2)) := by
  induction l generalizing cs ds with
  | nil => simp
  | cons c r ih => rw [List.foldl_cons]; simp [ih]

/-- **Tables.** No column and no rule is lost and their order is kept, rules as they are; there is no diagnostic
exactly when there is a rule and no column has one. -/
theorem C84_table {R : Type} (all : Bool) (ins : List InCol) (outs : List OutDoc) (rules : List R) :
    (parseTable all ins outs rules).1 =
        (ins.map (fun c => ⟨c.id, trimC c.name, c.field.map trimC⟩), outs.map (fun c => (parseColumn all c).1), rules) ∧
      ((parseTable all ins outs rules).2 = [] ↔ rules ≠ [] ∧ ∀ c ∈ outs, (parseColumn all c).2 = []) := by
  have e := table_fold all outs [] (if rules.isEmpty then [⟨false, .emptyBlock, .block⟩] else [])
  constructor
  · simp only [parseTable, e]
    simp
  · simp only [parseTable, e]
    rw [List.append_eq_nil_iff, List.flatMap_eq_nil_iff]
    refine and_congr_left fun _ => ?_
    cases rules <;> simp

/-! ### Written again -/

theorem key_again (pl : Place) (doc : Str) :
    (parseKey pl (parseKey pl doc).1).1 = (parseKey pl doc).1 := by
  obtain ⟨h, -, -⟩ := key_spec pl doc
  generalize (parseKey pl doc).1 = out at h
  obtain ⟨h2, -, -⟩ := key_spec pl out
  generalize (parseKey pl out).1 = out2 at h2
  rcases h with ⟨h, rfl⟩ | ⟨h, rfl⟩
  · rw [Target, trim_trim] at h2
    rcases h2 with ⟨-, e⟩ | ⟨n, -⟩
    · exact e
    · exact absurd h n
  · rcases h2 with ⟨-, e⟩ | ⟨-, e⟩
    · rw [e]; rfl
    · exact e

/-- **What was kept is kept**: the document made of what was kept of an expression, a match, an assertion or an output
column is read as the same. -/
theorem C84_again (e : Expression) (m : Match) (a : Assertion) (all : Bool) (col : OutDoc) :
    (parseExpression (parseExpression e).1).1 = (parseExpression e).1 ∧
      (parseMatch (parseMatch m).1).1 = (parseMatch m).1 ∧
      (parseAssertion (parseAssertion a).1).1 = (parseAssertion a).1 ∧
      (parseColumn all ⟨col.id, (parseColumn all col).1.rawField, (parseColumn all col).1.declared.map Declared.show⟩).1 =
        (parseColumn all col).1 := by
  refine ⟨?_, ?_, ?_, ?_⟩
  · simp only [parseExpression, trim_trim, key_again]
  · have h := fun m => (C84_match m).2.1
    have hk : ∀ m, (parseMatch m).1.key = (parseKey .key m.key).1 := fun m => rfl
    have : ∀ x y : Match, x.key = y.key → x.arms = y.arms → x = y := by
      rintro ⟨_, _⟩ ⟨_, _⟩ rfl rfl; rfl
    refine this _ _ ?_ ?_
    · rw [hk, hk, key_again]
    · rw [h, h, List.map_map]
      refine List.map_congr_left fun x _ => ?_
      simp [trim_trim]
  · have h := fun m => (C84_assertion m).2.1
    have hk : ∀ m, (parseAssertion m).1.output = (parseKey .block m.output).1 := fun m => rfl
    have : ∀ x y : Assertion, x.output = y.output → x.conditions = y.conditions → x = y := by
      rintro ⟨_, _⟩ ⟨_, _⟩ rfl rfl; rfl
    refine this _ _ ?_ ?_
    · rw [hk, hk, key_again]
    · rw [h, h, List.filter_eq_self.2]
      · rw [List.map_map]
        refine List.map_congr_left fun x _ => ?_
        simp [trim_trim]
      · intro x hx
        obtain ⟨y, hy, rfl⟩ := List.mem_map.1 hx
        have := (List.mem_filter.1 hy).2
        simp only [decide_eq_true_eq] at this ⊢
        exact ⟨by simpa [trim_trim] using this.1, this.2⟩
  · have ht : (parseType (((parseColumn all col).1.declared.map Declared.show).getD [])).join =
        (parseColumn all col).1.declared := by
      have hd : (parseColumn all col).1.declared = (parseType (col.type.getD [])).join := by
        obtain ⟨_, _, -, -, -, -, -, h, -⟩ := C84_column all col
        exact h
      rw [hd]
      cases hp : parseType (col.type.getD []) with
      | none => rfl
      | some o =>
        cases o with
        | none => rfl
        | some d =>
          show (parseType d.show).join = some d
          rw [C84_shown hp]
          rfl
    have key : ∀ c : OutDoc, ∀ f ty, trimC f = trimC c.field →
        (parseType (ty.getD [])).join = (parseColumn all c).1.declared →
        (parseColumn all ⟨c.id, f, ty⟩).1 = (parseColumn all c).1 := by
      intro c f ty h1 h2
      obtain ⟨_, _, -, -, -, -, -, h, -⟩ := C84_column all ⟨c.id, f, ty⟩
      have e : (parseColumn all ⟨c.id, f, ty⟩).1.declared = (parseColumn all c).1.declared := by rw [h]; exact h2
      have eta : ∀ x y : OutCol, x.id = y.id → x.field = y.field → x.rawField = y.rawField → x.collect = y.collect →
          x.declared = y.declared → x = y := by
        rintro ⟨_, _, _, _, _⟩ ⟨_, _, _, _, _⟩ rfl rfl rfl rfl rfl; rfl
      refine eta _ _ rfl ?_ ?_ ?_ e
      · simp only [parseColumn, h1]
        repeat' split
        all_goals rfl
      · simp only [parseColumn, h1]
      · simp only [parseColumn, h1]
    exact key col _ _ (by
      show trimC (trimC col.field) = _
      exact trim_trim _) ht

/-! ### Concrete cases -/

example : parseExpression ⟨" a.b ".toList, " 1 + 2".toList⟩ = (⟨"a.b".toList, "1 + 2".toList⟩, []) := by decide
example : parseExpression ⟨"a. b".toList, [' ']⟩ = (⟨[], []⟩, [⟨true, .writePath, .key⟩, ⟨false, .emptyBlock, .block⟩]) := by
  decide
example : (parseMatch ⟨"a".toList, [⟨['1'], [' '], ['x']⟩, ⟨['2'], ['c'], [' ']⟩]⟩) =
    (⟨"a".toList, [⟨['1'], [], ['x']⟩, ⟨['2'], ['c'], []⟩]⟩, [⟨false, .emptyBlock, .expr ['2']⟩]) := by decide
example : parseAssertion ⟨"ok".toList, [⟨['1'], ['x'], true, 0⟩, ⟨['2'], [], true, 1⟩, ⟨['3'], ['y'], false, 32⟩]⟩ =
    (⟨"ok".toList, [⟨['1'], ['x'], true, 0⟩]⟩, [⟨false, .emptyBlock, .expr ['2']⟩, ⟨true, .maxDepth, .expr ['3']⟩]) := by
  decide
example : parseType " Color [] ".toList = some (some ⟨.dictionary "Color".toList, true⟩) := by decide
example : parseType "string[][]".toList = none := by decide
example : (parseColumn false ⟨['1'], "a.b []".toList, some "number".toList⟩) =
    (⟨['1'], "a.b".toList, "a.b []".toList, true, some ⟨.number, false⟩⟩, []) := by decide
example : (parseColumn true ⟨['1'], "a[].b".toList, some "a.b".toList⟩) =
    (⟨['1'], [], "a[].b".toList, true, none⟩, [⟨true, .writePath, .expr ['1']⟩, ⟨true, .typeMismatch, .head ['1']⟩]) := by
  decide

end Zen.PB.C84
