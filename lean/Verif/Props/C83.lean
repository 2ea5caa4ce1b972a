import Verif.Analysis.Complete
/-
C83: what an editor is offered at a position of an expression, and what it is shown there.
-/
namespace Zen.Comp.C83
open Zen.Bytes

/-- the facts about Unicode that are used: a dot and white space are not alphanumeric -/
structure Good (u : Uni) : Prop where
  dot : u.alnum '.' = false
  space : ∀ c, isWs c = true → u.alnum c = false

/-! ### searching from the end -/

theorem charIndices_append (k : Nat) (a b : List Char) :
    Bytes.charIndices k (a ++ b) = Bytes.charIndices k a ++ Bytes.charIndices (k + Bytes.byteLen a) b := by
  induction a generalizing k with
  | nil => simp [Bytes.charIndices, Bytes.byteLen]
  | cons c r ih => simp [Bytes.charIndices, Bytes.byteLen, ih, Nat.add_assoc]

theorem indices_char (k : Nat) (s : List Char) : ∀ x ∈ Bytes.charIndices k s, x.2 ∈ s := by
  induction s generalizing k with
  | nil => intro x h; simp [Bytes.charIndices] at h
  | cons c r ih =>
    intro x h
    simp only [Bytes.charIndices, List.mem_cons] at h
    rcases h with rfl | h
    · simp
    · exact List.mem_cons_of_mem _ (ih _ x h)

theorem rfind_none {p : Char → Bool} {s : List Char} (h : ∀ x ∈ s, p x = false) : rfind p s = none := by
  unfold rfind
  rw [List.filter_eq_nil_iff.2 (fun x hx => by simp [h _ (indices_char 0 s x hx)])]
  rfl

theorem rfind_some {p : Char → Bool} {a b : List Char} {c : Char} (hc : p c = true)
    (hb : ∀ x ∈ b, p x = false) : rfind p (a ++ c :: b) = some (Bytes.byteLen a, c) := by
  unfold rfind
  have e : (Bytes.charIndices (Bytes.byteLen a + c.utf8Size) b).filter (fun x => p x.2) = [] :=
    List.filter_eq_nil_iff.2 (fun x hx => by simp [hb _ (indices_char _ b x hx)])
  rw [charIndices_append, List.filter_append, Nat.zero_add]
  simp [Bytes.charIndices, hc, e]

theorem last_split (p : Char → Bool) (s : List Char) :
    (∀ x ∈ s, p x = false) ∨ ∃ a c b, s = a ++ c :: b ∧ p c = true ∧ ∀ x ∈ b, p x = false := by
  induction s with
  | nil => exact .inl (by simp)
  | cons d r ih =>
    rcases ih with h | ⟨a, c, b, rfl, hc, hb⟩
    · cases hd : p d with
      | true => exact .inr ⟨[], d, r, rfl, hd, h⟩
      | false =>
        refine .inl (fun x hx => ?_)
        rcases List.mem_cons.1 hx with rfl | hx
        · exact hd
        · exact h x hx
    · exact .inr ⟨d :: a, c, b, rfl, hc, hb⟩

theorem drop_one (a b : List Char) (c : Char) :
    Bytes.dropBytes (a ++ c :: b) (Bytes.byteLen a + 1) = if c.utf8Size = 1 then some b else none := by
  induction a with
  | nil =>
    have := utf8Size_pos' c
    simp only [List.nil_append, Bytes.byteLen, Nat.zero_add]
    unfold Bytes.dropBytes
    by_cases h : c.utf8Size = 1
    · simp [h, Bytes.dropBytes]
    · rw [if_neg (by simp only [Nat.zero_add]; omega), if_neg h]
  | cons d r ih =>
    have := utf8Size_pos' d
    simp only [List.cons_append, Bytes.byteLen]
    unfold Bytes.dropBytes
    rw [if_pos (by omega)]
    have : d.utf8Size + Bytes.byteLen r + 1 - d.utf8Size = Bytes.byteLen r + 1 := by omega
    rw [this, ih]

theorem drop_zero (s : List Char) : Bytes.dropBytes s 0 = some s := by
  cases s <;> rfl

/-! ### the prefix -/

/-- C83: the prefix is the word that ends at the cursor, when the character in front of it takes one byte. -/
theorem C83_prefix (u : Uni) (a w : List Char) (c : Char) (hc : word u c = false) (h1 : c.utf8Size = 1)
    (hw : ∀ x ∈ w, word u x = true) : extractPrefix u (a ++ c :: w) = some w := by
  unfold extractPrefix
  rw [rfind_some (by simp [hc]) (fun x hx => by simp [hw x hx])]
  simp only [drop_one, h1, if_true]

/-- C83: when all the text is one word, it is the prefix. -/
theorem C83_prefix_all (u : Uni) (w : List Char) (hw : ∀ x ∈ w, word u x = true) :
    extractPrefix u w = some w := by
  unfold extractPrefix
  rw [rfind_none (fun x hx => by simp [hw x hx])]
  exact drop_zero w

/-- C83 (NEGATIVE, exact): asking for completions panics exactly when the last character before the cursor that
is not of a word takes more than one byte, such as a dash or a currency sign inside of a string. -/
theorem C83_panics (u : Uni) (source : List Char) (pos : Nat) (data : VT) (tokens : List Tok) :
    completions u source pos data (some tokens) = none ↔
      ∃ a c w, (Bytes.takeBytes source pos).getD source = a ++ c :: w ∧ word u c = false ∧
        (∀ x ∈ w, word u x = true) ∧ 1 < c.utf8Size := by
  have e : completions u source pos data (some tokens) = none ↔
      extractPrefix u ((Bytes.takeBytes source pos).getD source) = none := by
    simp only [completions, build]
    split <;> simp_all
  rw [e]
  generalize (Bytes.takeBytes source pos).getD source = s
  constructor
  · intro h
    rcases last_split (fun c => !word u c) s with hs | ⟨a, c, b, rfl, hc, hb⟩
    · rw [C83_prefix_all u s (fun x hx => by simpa using hs x hx)] at h
      exact (nomatch h)
    · refine ⟨a, c, b, rfl, by simpa using hc, fun x hx => by simpa using hb x hx, ?_⟩
      have := utf8Size_pos' c
      by_cases h1 : c.utf8Size = 1
      · rw [C83_prefix u a b c (by simpa using hc) h1 (fun x hx => by simpa using hb x hx)] at h
        exact (nomatch h)
      · omega
  · rintro ⟨a, c, w, rfl, hc, hw, h1⟩
    unfold extractPrefix
    rw [rfind_some (by simp [hc]) (fun x hx => by simp [hw x hx])]
    simp only [drop_one]
    rw [if_neg (by omega)]

/-! ### the dot -/

theorem nil_or_snoc (l : List Char) : l = [] ∨ ∃ r c, l = r ++ [c] := by
  rcases List.eq_nil_or_concat l with h | ⟨r, c, h⟩
  · exact .inl h
  · exact .inr ⟨r, c, by rw [h, List.concat_eq_append]⟩

theorem takeWhile_all (p : Char → Bool) (l : List Char) : ∀ x ∈ l.takeWhile p, p x = true := by
  induction l with
  | nil => simp
  | cons d r ih =>
    intro x hx
    rw [List.takeWhile_cons] at hx
    split at hx
    · rename_i h
      rcases List.mem_cons.1 hx with rfl | hx
      · exact h
      · exact ih x hx
    · exact (nomatch hx)

theorem trimEnd_ws (s ws : List Char) (h : ∀ x ∈ ws, isWs x = true) : trimEnd (s ++ ws) = trimEnd s := by
  unfold trimEnd
  rw [List.reverse_append, List.dropWhile_append_of_pos (fun x hx => h x (List.mem_reverse.1 hx))]

theorem trimEnd_snoc (s : List Char) (c : Char) (h : isWs c = false) : trimEnd (s ++ [c]) = s ++ [c] := by
  unfold trimEnd
  simp [h]

theorem trimEnd_split (s : List Char) :
    ∃ ws, s = trimEnd s ++ ws ∧ ∀ x ∈ ws, isWs x = true := by
  refine ⟨(s.reverse.takeWhile isWs).reverse, ?_, ?_⟩
  · unfold trimEnd
    rw [← List.reverse_append, List.takeWhile_append_dropWhile, List.reverse_reverse]
  · intro x hx
    have hx := List.mem_reverse.1 hx
    exact takeWhile_all isWs _ x hx

theorem prop_not_ws {u : Uni} (g : Good u) {c : Char} (h : propChar u c = true) : isWs c = false := by
  cases hw : isWs c with
  | false => rfl
  | true =>
    have hn := g.space c hw
    simp only [propChar, hn, Bool.false_or, Bool.or_eq_true, beq_iff_eq] at h
    rcases h with rfl | rfl <;> exact absurd hw (by decide)

theorem dot_not_prop {u : Uni} (g : Good u) : propChar u '.' = false := by
  simp [propChar, g.dot]

theorem trim_prop {u : Uni} (g : Good u) (a w ws : List Char) (hw : ∀ x ∈ w, propChar u x = true)
    (hs : ∀ x ∈ ws, isWs x = true) : trimEnd (a ++ '.' :: (w ++ ws)) = a ++ '.' :: w := by
  rw [show a ++ '.' :: (w ++ ws) = (a ++ '.' :: w) ++ ws by simp, trimEnd_ws _ _ hs]
  rcases nil_or_snoc w with rfl | ⟨w', c, rfl⟩
  · exact trimEnd_snoc a '.' (by decide)
  · have := prop_not_ws g (hw c (by simp))
    rw [show a ++ '.' :: (w' ++ [c]) = (a ++ '.' :: w') ++ [c] by simp]
    exact trimEnd_snoc _ c this

/-- C83: properties are offered exactly when the text before the cursor ends with a dot, then characters of a
property, then white space; the dot is where it is. -/
theorem C83_dot (u : Uni) (g : Good u) (before : List Char) (d : Nat) :
    findDot u before = some d ↔
      ∃ a w ws, before = a ++ '.' :: (w ++ ws) ∧ (∀ x ∈ w, propChar u x = true) ∧
        (∀ x ∈ ws, isWs x = true) ∧ d = Bytes.byteLen a := by
  constructor
  · intro h
    obtain ⟨ws, hb, hs⟩ := trimEnd_split before
    unfold findDot at h
    simp only at h
    split at h
    · rename_i hl
      obtain ⟨a, ha⟩ := List.getLast?_eq_some_iff.1 hl
      refine ⟨a, [], ws, by rw [hb, ha]; simp, by simp, hs, ?_⟩
      have h := Option.some.inj h
      rw [← h, ha, byteLen_append]
      have : Bytes.byteLen ['.'] = 1 := by decide
      omega
    · rcases last_split (fun c => !propChar u c) (trimEnd before) with hn | ⟨a, c, b, he, hc, hbb⟩
      · rw [rfind_none hn] at h
        exact (nomatch h)
      · rw [he, rfind_some hc hbb] at h
        simp only at h
        split at h
        · rename_i hd
          subst hd
          exact ⟨a, b, ws, by rw [hb, he]; simp, fun x hx => by simpa using hbb x hx, hs,
            (Option.some.inj h).symm⟩
        · exact (nomatch h)
  · rintro ⟨a, w, ws, rfl, hw, hs, rfl⟩
    unfold findDot
    simp only [trim_prop g a w ws hw hs]
    split
    · rename_i hl
      rcases nil_or_snoc w with rfl | ⟨w', c, rfl⟩
      · rw [byteLen_append]
        have : Bytes.byteLen ['.'] = 1 := by decide
        simp [this]
      · exfalso
        have hc := hw c (by simp)
        rw [show a ++ '.' :: (w' ++ [c]) = (a ++ '.' :: w') ++ [c] by simp, List.getLast?_concat] at hl
        cases hl
        rw [dot_not_prop g] at hc
        exact (nomatch hc)
    · rw [rfind_some (by simp [dot_not_prop g]) (fun x hx => by simp [hw x hx])]
      simp

/-- C83 (NEGATIVE): with white space between the dot and the word that is being typed, which the language
allows, the names of the scope are offered and not the properties. -/
theorem C83_space_lost (u : Uni) (g : Good u) (a w ws : List Char) (hw : ∀ x ∈ w, propChar u x = true)
    (hs : ∀ x ∈ ws, isWs x = true) (w0 : w ≠ []) (s0 : ws ≠ []) :
    findDot u (a ++ '.' :: (ws ++ w)) = none := by
  obtain ⟨w', c, rfl⟩ := (nil_or_snoc w).resolve_left w0
  obtain ⟨v', s, rfl⟩ := (nil_or_snoc ws).resolve_left s0
  have hsw : isWs s = true := hs s (by simp)
  have hsp : propChar u s = false := by
    cases h : propChar u s with
    | false => rfl
    | true => rw [prop_not_ws g h] at hsw; exact (nomatch hsw)
  have hc := hw c (by simp)
  have ht : trimEnd (a ++ '.' :: ((v' ++ [s]) ++ (w' ++ [c]))) = (a ++ '.' :: v') ++ s :: (w' ++ [c]) := by
    rw [show a ++ '.' :: ((v' ++ [s]) ++ (w' ++ [c])) = ((a ++ '.' :: v') ++ s :: w') ++ [c] by simp,
      trimEnd_snoc _ c (prop_not_ws g hc)]
    simp
  have hl : ((a ++ '.' :: v') ++ s :: (w' ++ [c])).getLast? = some c := by
    rw [show (a ++ '.' :: v') ++ s :: (w' ++ [c]) = ((a ++ '.' :: v') ++ s :: w') ++ [c] by simp,
      List.getLast?_concat]
  unfold findDot
  simp only [ht, hl]
  rw [if_neg (by
    intro h
    cases h
    rw [dot_not_prop g] at hc
    exact (nomatch hc)), rfind_some (by simp [hsp]) (fun x hx => by simp [hw x hx])]
  simp only
  rw [if_neg (by rintro rfl; exact absurd hsw (by decide))]

/-! ### the token in front of the dot -/

theorem keepLast_some (l : List Tok) (b : Tok) : ∃ t, l.foldl keepLast (some b) = some t ∧
    ((t = b ∧ ∀ x ∈ l, notAfter b x = false) ∨
      ∃ l1 l2, l = l1 ++ t :: l2 ∧ notAfter b t = true ∧ (∀ x ∈ l1, notAfter x t = true) ∧
        ∀ x ∈ l2, notAfter t x = false) := by
  have trans : ∀ x y z : Tok, notAfter x y = true → notAfter y z = true → notAfter x z = true := by
    intro x y z h1 h2
    simp only [notAfter, Bool.or_eq_true, Bool.and_eq_true, decide_eq_true_eq] at *
    omega
  have total : ∀ x y : Tok, notAfter x y = false → notAfter y x = true := by
    intro x y h1
    simp only [notAfter, Bool.or_eq_true, Bool.and_eq_true, decide_eq_true_eq, Bool.or_eq_false_iff,
      Bool.and_eq_false_iff, decide_eq_false_iff_not] at *
    omega
  induction l generalizing b with
  | nil => exact ⟨b, rfl, .inl ⟨rfl, by simp⟩⟩
  | cons d r ih =>
    rw [List.foldl_cons]
    cases hd : notAfter b d with
    | true =>
      rw [show keepLast (some b) d = some d by simp [keepLast, hd]]
      obtain ⟨t, ht, h⟩ := ih d
      refine ⟨t, ht, .inr ?_⟩
      rcases h with ⟨rfl, h⟩ | ⟨l1, l2, rfl, h1, h2, h3⟩
      · exact ⟨[], r, rfl, hd, by simp, h⟩
      · refine ⟨d :: l1, l2, rfl, trans _ _ _ hd h1, ?_, h3⟩
        intro x hx
        rcases List.mem_cons.1 hx with rfl | hx
        · exact h1
        · exact h2 x hx
    | false =>
      rw [show keepLast (some b) d = some b by simp [keepLast, hd]]
      obtain ⟨t, ht, h⟩ := ih b
      refine ⟨t, ht, ?_⟩
      rcases h with ⟨rfl, h⟩ | ⟨l1, l2, rfl, h1, h2, h3⟩
      · refine .inl ⟨rfl, ?_⟩
        intro x hx
        rcases List.mem_cons.1 hx with rfl | hx
        · exact hd
        · exact h x hx
      · refine .inr ⟨d :: l1, l2, rfl, h1, ?_, h3⟩
        intro x hx
        rcases List.mem_cons.1 hx with rfl | hx
        · exact trans _ _ _ (total _ _ hd) h1
        · exact h2 x hx

/-- a token that ends not after the dot, and not at the very start -/
def Ends (dot : Nat) (t : Tok) : Prop := t.hi ≤ dot ∧ 0 < t.hi

/-- C83: the type in front of the dot is that of the token that ends last before the dot, of these the longest,
of these the last of the list; without such a token nothing is known of the type. -/
theorem C83_target (tokens : List Tok) (dot : Nat) :
    (target tokens dot = .any ∧ ∀ t ∈ tokens, ¬ Ends dot t) ∨
      ∃ t ∈ tokens, Ends dot t ∧ target tokens dot = t.kind ∧
        (∀ x ∈ tokens, Ends dot x → x.hi < t.hi ∨ (x.hi = t.hi ∧ x.hi - x.lo ≤ t.hi - t.lo)) ∧
        ∃ l1 l2, tokens = l1 ++ t :: l2 ∧
          ∀ x ∈ l2, Ends dot x → x.hi < t.hi ∨ (x.hi = t.hi ∧ x.hi - x.lo < t.hi - t.lo) := by
  have hm : ∀ x, x ∈ tokens.filter (fun t => decide (t.hi ≤ dot) && decide (0 < t.hi)) ↔
      x ∈ tokens ∧ Ends dot x := by
    intro x
    simp [Ends]
  unfold target
  cases hf : tokens.filter (fun t => decide (t.hi ≤ dot) && decide (0 < t.hi)) with
  | nil =>
    refine .inl ⟨rfl, fun t ht he => ?_⟩
    have := (hm t).2 ⟨ht, he⟩
    rw [hf] at this
    exact (nomatch this)
  | cons b r =>
    right
    rw [List.foldl_cons, show keepLast none b = some b from rfl]
    obtain ⟨t, ht, h⟩ := keepLast_some r b
    have key : ∃ l1 l2, b :: r = l1 ++ t :: l2 ∧ (∀ x ∈ l1, notAfter x t = true) ∧
        ∀ x ∈ l2, notAfter t x = false := by
      rcases h with ⟨rfl, h⟩ | ⟨l1, l2, rfl, h1, h2, h3⟩
      · exact ⟨[], r, rfl, by simp, h⟩
      · refine ⟨b :: l1, l2, rfl, ?_, h3⟩
        intro x hx
        rcases List.mem_cons.1 hx with rfl | hx
        · exact h1
        · exact h2 x hx
    obtain ⟨l1, l2, he, h1, h2⟩ := key
    have le : ∀ x, notAfter x t = true ↔ x.hi < t.hi ∨ (x.hi = t.hi ∧ x.hi - x.lo ≤ t.hi - t.lo) := by
      intro x
      simp [notAfter]
    have lt : ∀ x, notAfter t x = false → x.hi < t.hi ∨ (x.hi = t.hi ∧ x.hi - x.lo < t.hi - t.lo) := by
      intro x h
      simp only [notAfter, Bool.or_eq_false_iff, Bool.and_eq_false_iff, decide_eq_false_iff_not] at h
      omega
    have hall : ∀ x ∈ tokens, Ends dot x → x.hi < t.hi ∨ (x.hi = t.hi ∧ x.hi - x.lo ≤ t.hi - t.lo) := by
      intro x hx hex
      have := (hm x).2 ⟨hx, hex⟩
      rw [hf, he, List.mem_append, List.mem_cons] at this
      rcases this with h | rfl | h
      · exact (le x).1 (h1 x h)
      · exact .inr ⟨rfl, Nat.le_refl _⟩
      · rcases lt x (h2 x h) with h | h
        · exact .inl h
        · exact .inr ⟨h.1, Nat.le_of_lt h.2⟩
    have ht2 : t ∈ tokens ∧ Ends dot t := (hm t).1 (by rw [hf, he]; simp)
    obtain ⟨m1, m2, e, g1, g2⟩ := List.filter_eq_append_iff.1 (hf.trans he)
    obtain ⟨n1, n2, e2, f1, f2, f3⟩ := List.filter_eq_cons_iff.1 g2
    refine ⟨t, ht2.1, ht2.2, by rw [ht], hall, m1 ++ n1, n2, by rw [e, e2]; simp, ?_⟩
    intro x hx hex
    refine lt x (h2 x ?_)
    rw [← f3, List.mem_filter]
    exact ⟨hx, by simpa [Ends] using hex⟩

/-! ### what is offered -/

/-- C83: the properties offered are the fields of the type in front of the dot, in their order, also when the
value may be missing. -/
theorem C83_fields (t : VT) (o : List (String × VT)) (h : t = .obj o ∨ t = .nullable (.obj o)) :
    (buildProperty t).filter (fun i => decide (i.kind = .property)) =
        o.map (fun f => ⟨f.1, .property, some 10, none⟩) ∧
      (buildScope t).filter (fun i => decide (i.kind = .variable)) =
        o.map (fun f => ⟨f.1, .variable, some 20, none⟩) ++ [⟨"$root", .variable, some (-10), none⟩] := by
  have e : ∀ k b, fields k b t = o.map (fun f => ⟨f.1, k, some b, none⟩) := by
    intro k b
    rcases h with rfl | rfl <;> rfl
  have hs : ∀ k b, (o.map (fun f => (⟨f.1, k, some b, none⟩ : Item))).filter
      (fun i => decide (i.kind = k)) = o.map (fun f => ⟨f.1, k, some b, none⟩) := by
    intro k b
    rw [List.filter_eq_self]
    intro x hx
    obtain ⟨f, _, rfl⟩ := List.mem_map.1 hx
    simp
  refine ⟨?_, ?_⟩
  · unfold buildProperty
    rw [List.filter_append, e, hs, List.filter_eq_nil_iff.2, List.append_nil]
    intro x hx
    obtain ⟨m, _, hm⟩ := List.mem_flatMap.1 hx
    have hm : x = method m := by
      revert hm
      generalize (t.sat .date || (match t with | .any => true | _ => false)) = q
      cases q <;> simp
    subst hm
    simp [method]
  · unfold buildScope
    rw [List.filter_append, e, hs, List.filter_cons, if_pos (by simp), List.filter_append]
    rw [List.filter_eq_nil_iff.2, List.filter_eq_nil_iff.2, List.append_nil]
    · intro x hx
      obtain ⟨f, _, rfl⟩ := List.mem_map.1 hx
      simp
    · intro x hx
      obtain ⟨f, _, rfl⟩ := List.mem_map.1 hx
      simp

/-- C83: behind a dot the methods are all offered or none, and all exactly for a type that may be read as a
date: one that is not known, a date, a number or a text. -/
theorem C83_methods (t : VT) :
    (buildProperty t).filter (fun i => decide (i.kind = .method)) =
      (match t with
        | .any | .date | .number | .string | .const _ | .enum _ _ => Fn.MName.all.map method
        | _ => []) := by
  have hf : ∀ b, (fields .property b t).filter (fun i => decide (i.kind = .method)) = [] := by
    intro b
    rw [List.filter_eq_nil_iff]
    intro x hx
    unfold fields at hx
    split at hx
    · obtain ⟨f, _, rfl⟩ := List.mem_map.1 hx
      simp
    · exact (nomatch hx)
  have h1 : (Fn.MName.all.flatMap fun m => [method m]) = Fn.MName.all.map method := by
    rfl
  have h2 : (Fn.MName.all.map method).filter (fun i => decide (i.kind = .method)) =
      Fn.MName.all.map method := by
    rw [List.filter_eq_self]
    intro x hx
    obtain ⟨f, _, rfl⟩ := List.mem_map.1 hx
    simp [method]
  unfold buildProperty
  rw [List.filter_append, hf, List.nil_append]
  cases t <;> first
    | exact h2
    | (simp only [VT.sat, Bool.or_self, Bool.false_eq_true, if_false]; rfl)

/-- C83 (NEGATIVE): for a date that may be missing nothing at all is offered, though the fields of an object
that may be missing are. -/
theorem C83_nullable_date : buildProperty (.nullable .date) = [] := by
  simp [buildProperty, fields, VT.unwrap, VT.sat]

/-- C83: where a word starts every function and every closure is offered once and no other, so none of those that
are deprecated. -/
theorem C83_functions (data : VT) :
    ((buildScope data).filter fun i => decide (i.kind = .function)).map (·.label) =
      Fn.Name.all.map Fn.Name.text ++ ["all", "none", "some", "one", "filter", "map", "flatMap", "count"] := by
  have hf : ∀ b, (fields .variable b data).filter (fun i => decide (i.kind = .function)) = [] := by
    intro b
    rw [List.filter_eq_nil_iff]
    intro x hx
    unfold fields at hx
    split at hx
    · obtain ⟨f, _, rfl⟩ := List.mem_map.1 hx
      simp
    · exact (nomatch hx)
  unfold buildScope
  rw [List.filter_append, hf, List.nil_append]
  rfl

/-- C83: of the candidates those are offered whose label starts with the prefix, in lower case, and in the order
of the candidates; a candidate is never made up. -/
theorem C83_filter (u : Uni) (items : List Item) (pre : List Char) (hp : pre ≠ []) :
    (keep u items pre).Sublist items ∧
      ∀ i, i ∈ keep u items pre ↔ i ∈ items ∧ ∃ r, u.lower i.label.toList = u.lower pre ++ r := by
  unfold keep
  rw [if_neg hp]
  refine ⟨List.filter_sublist, ?_⟩
  intro i
  rw [List.mem_filter, List.isPrefixOf_iff_prefix]
  constructor
  · rintro ⟨h, r, e⟩
    exact ⟨h, r, e.symm⟩
  · rintro ⟨h, r, e⟩
    exact ⟨h, r, e.symm⟩

/-- C83: behind `x.` and the start of a name, the fields of the type in front of the dot that start with it are
offered, whatever follows the cursor. -/
theorem C83_property (u : Uni) (g : Good u) (a w rest : List Char) (data : VT) (tokens : List Tok)
    (hw : ∀ x ∈ w, propChar u x = true) :
    completions u (a ++ '.' :: w ++ rest) (Bytes.byteLen (a ++ '.' :: w)) data (some tokens) =
      some (keep u (buildProperty (target tokens (Bytes.byteLen a))) w) := by
  have hd : word u '.' = false := by simp [word, g.dot]
  have hw2 : ∀ x ∈ w, word u x = true := by
    intro x hx
    have := hw x hx
    simp only [propChar, Bool.or_eq_true] at this
    simp only [word, Bool.or_eq_true]
    rcases this with (h | h) | h
    · exact .inl (.inl (.inl h))
    · exact .inl (.inl (.inr h))
    · exact .inr h
  have h3 : findDot u (a ++ '.' :: w) = some (Bytes.byteLen a) :=
    (C83_dot u g _ _).2 ⟨a, w, [], by simp, hw, by simp, rfl⟩
  simp only [completions, build]
  rw [takeBytes_append, Option.getD_some, C83_prefix u a w '.' hd (by decide) hw2, h3]

/-- C83: behind a word that is not behind a dot, the names of the scope that start with it are offered. -/
theorem C83_word (u : Uni) (a w rest : List Char) (c : Char) (data : VT) (tokens : List Tok)
    (hc : word u c = false) (h1 : c.utf8Size = 1) (hp : propChar u c = false) (hd : c ≠ '.')
    (g : Good u) (w0 : w ≠ []) (hw : ∀ x ∈ w, propChar u x = true) :
    completions u (a ++ c :: w ++ rest) (Bytes.byteLen (a ++ c :: w)) data (some tokens) =
      some (keep u (buildScope data) w) := by
  have hw2 : ∀ x ∈ w, word u x = true := by
    intro x hx
    have := hw x hx
    simp only [propChar, Bool.or_eq_true] at this
    simp only [word, Bool.or_eq_true]
    rcases this with (h | h) | h
    · exact .inl (.inl (.inl h))
    · exact .inl (.inl (.inr h))
    · exact .inr h
  have h3 : findDot u (a ++ c :: w) = none := by
    cases h : findDot u (a ++ c :: w) with
    | none => rfl
    | some d =>
      exfalso
      obtain ⟨w', e, rfl⟩ := (nil_or_snoc w).resolve_left w0
      have he := hw e (by simp)
      have ht : trimEnd (a ++ c :: (w' ++ [e])) = a ++ c :: (w' ++ [e]) := by
        rw [show a ++ c :: (w' ++ [e]) = (a ++ c :: w') ++ [e] by simp]
        exact trimEnd_snoc _ e (prop_not_ws g he)
      have hl : (a ++ c :: (w' ++ [e])).getLast? = some e := by
        rw [show a ++ c :: (w' ++ [e]) = (a ++ c :: w') ++ [e] by simp, List.getLast?_concat]
      unfold findDot at h
      simp only [ht, hl] at h
      rw [if_neg (by
        intro h
        cases h
        rw [dot_not_prop g] at he
        exact (nomatch he)), rfind_some (by simp [hp]) (fun x hx => by simp [hw x hx])] at h
      simp only at h
      rw [if_neg hd] at h
      exact (nomatch h)
  simp only [completions, build]
  rw [takeBytes_append, Option.getD_some, C83_prefix u a w c hc h1 hw2, h3]

/-- C83: the signature that is shown has all names of the table and no other, so none is `var` for want of a
name; those that may be left out come last and are as many as the definition says. -/
theorem C83_signature (f : Fn.Name) (m : Fn.MName) :
    (functionParams f).map (·.1) = paramNames f ∧
      (functionParams f).map (·.2) =
        List.replicate f.arity.1 false ++ List.replicate (f.arity.2 - f.arity.1) true ∧
      (methodParams m).map (·.1) = methodNames m ∧
      (methodParams m).map (·.2) =
        List.replicate (m.arity.1 - 1) false ++ List.replicate (m.arity.2 - m.arity.1) true := by
  refine ⟨?_, ?_, ?_, ?_⟩
  · cases f <;> rfl
  · cases f <;> rfl
  · cases m <;> rfl
  · cases m <;> rfl

/-- C83: when the source cannot be read there is no panic, and all that can start an expression is offered, whatever
stands before the cursor: the fields of the data, `$root`, functions and closures. -/
theorem C83_unread (u : Uni) (source : List Char) (pos : Nat) (data : VT) (o : List (String × VT))
    (h : data = .obj o ∨ data = .nullable (.obj o)) :
    (completions u source pos data none).map (fun l => l.map (·.label)) =
      some (o.map (·.1) ++ "$root" :: (Fn.Name.all.map Fn.Name.text ++
        ["all", "none", "some", "one", "filter", "map", "flatMap", "count"])) := by
  have e : fields .variable 20 data = o.map (fun f => ⟨f.1, .variable, some 20, none⟩) := by
    rcases h with rfl | rfl <;> rfl
  simp only [completions, buildScope, e, Option.map_some, List.map_append, List.map_cons, List.map_map]
  rfl

/-! ### concrete cases -/

/-- ASCII letters and digits, and lower case of ASCII letters -/
def ascii : Uni := ⟨Char.isAlphanum, List.map Char.toLower⟩

theorem ascii_good : Good ascii := by
  refine ⟨by decide, ?_⟩
  intro c h
  cases hc : ascii.alnum c with
  | false => rfl
  | true =>
    exfalso
    have h2 : c.isAlphanum = true := hc
    simp only [Char.isAlphanum, Char.isAlpha, Char.isUpper, Char.isLower, Char.isDigit, Bool.or_eq_true,
      Bool.and_eq_true, decide_eq_true_eq] at h2
    have e : c.toNat = c.val.toNat := rfl
    simp only [isWs, Bool.or_eq_true, Bool.and_eq_true, decide_eq_true_eq, beq_iff_eq] at h
    simp only [ge_iff_le, UInt32.le_iff_toNat_le] at h2
    have h3 : 'A'.val.toNat = 65 ∧ 'Z'.val.toNat = 90 ∧ 'a'.val.toNat = 97 ∧ 'z'.val.toNat = 122 ∧
        '0'.val.toNat = 48 ∧ '9'.val.toNat = 57 := by decide
    omega

/-- the text of a string with a dash, and the cursor behind the dash: a panic -/
example : completions ascii "'–'".toList 4 .any (some []) = none :=
  (C83_panics ascii _ 4 .any []).2 ⟨['\''], '–', [], by decide, by decide, by simp, by decide⟩

/-- `user.na` offers `name` of `user` -/
example : completions ascii "user.na".toList 7 .any
    (some [⟨0, 7, .any⟩, ⟨0, 4, .obj [("name", .string), ("age", .number)]⟩, ⟨5, 7, .string⟩]) =
      some [⟨"name", .property, some 10, none⟩] := by
  rfl

/-- the same with a space behind the dot offers no property -/
example : findDot ascii "user. na".toList = none :=
  C83_space_lost ascii ascii_good "user".toList "na".toList " ".toList (by decide) (by decide) (by decide) (by decide)

example : findDot ascii "user.na ".toList = some 4 :=
  (C83_dot ascii ascii_good _ _).2 ⟨"user".toList, "na".toList, " ".toList, by decide, by decide, by decide, by decide⟩

/-- of two tokens with the same end the longer one is the target -/
example : target [⟨2, 4, .string⟩, ⟨0, 4, .number⟩, ⟨0, 1, .bool⟩, ⟨0, 9, .any⟩] 4 = .number := by
  rfl

example : (inspectAt "user.na".toList 5 [⟨0, 7, .any⟩, ⟨0, 4, .null⟩, ⟨5, 7, .string⟩]).map (·.label) =
    some "na".toList := by
  decide

example : (keep ascii (buildScope (.obj [("LENGTH", .number), ("b", .bool)])) "le".toList).map (·.label) =
    ["LENGTH", "len"] := by
  decide

/-! ### what is shown -/

theorem keepFirst_some (l : List Tok) (b : Tok) : ∃ t, l.foldl keepFirst (some b) = some t ∧
    ((t = b ∧ ∀ x ∈ l, b.hi - b.lo ≤ x.hi - x.lo) ∨
      ∃ l1 l2, l = l1 ++ t :: l2 ∧ t.hi - t.lo < b.hi - b.lo ∧ (∀ x ∈ l1, t.hi - t.lo < x.hi - x.lo) ∧
        ∀ x ∈ l2, t.hi - t.lo ≤ x.hi - x.lo) := by
  induction l generalizing b with
  | nil => exact ⟨b, rfl, .inl ⟨rfl, by simp⟩⟩
  | cons d r ih =>
    rw [List.foldl_cons]
    by_cases hd : d.hi - d.lo < b.hi - b.lo
    · rw [show keepFirst (some b) d = some d by simp [keepFirst, hd]]
      obtain ⟨t, ht, h⟩ := ih d
      refine ⟨t, ht, .inr ?_⟩
      rcases h with ⟨rfl, h⟩ | ⟨l1, l2, rfl, h1, h2, h3⟩
      · exact ⟨[], r, rfl, hd, by simp, h⟩
      · refine ⟨d :: l1, l2, rfl, by omega, ?_, h3⟩
        intro x hx
        rcases List.mem_cons.1 hx with rfl | hx
        · exact h1
        · exact h2 x hx
    · rw [show keepFirst (some b) d = some b by simp [keepFirst, hd]]
      obtain ⟨t, ht, h⟩ := ih b
      refine ⟨t, ht, ?_⟩
      rcases h with ⟨rfl, h⟩ | ⟨l1, l2, rfl, h1, h2, h3⟩
      · refine .inl ⟨rfl, ?_⟩
        intro x hx
        rcases List.mem_cons.1 hx with rfl | hx
        · omega
        · exact h x hx
      · refine .inr ⟨d :: l1, l2, rfl, h1, ?_, h3⟩
        intro x hx
        rcases List.mem_cons.1 hx with rfl | hx
        · omega
        · exact h2 x hx

/-- a token with text that reaches from not after the position to not before it -/
def Covers (pos : Nat) (t : Tok) : Prop := t.lo ≤ pos ∧ pos ≤ t.hi ∧ t.lo < t.hi

/-- C83: shown is the shortest token at the position, the first of these, with its type and its text; nothing
exactly when there is no token at the position. -/
theorem C83_inspect (source : List Char) (pos : Nat) (tokens : List Tok) :
    (inspectAt source pos tokens = none ∧ ∀ t ∈ tokens, ¬ Covers pos t) ∨
      ∃ t l1 l2, tokens = l1 ++ t :: l2 ∧ Covers pos t ∧
        inspectAt source pos tokens = some ⟨t.lo, t.hi, t.kind, (Bytes.slice source t.lo t.hi).getD []⟩ ∧
        (∀ x ∈ l1, Covers pos x → t.hi - t.lo < x.hi - x.lo) ∧
        ∀ x ∈ l2, Covers pos x → t.hi - t.lo ≤ x.hi - x.lo := by
  have hm : ∀ x, (decide (x.lo ≤ pos) && decide (pos ≤ x.hi) && decide (x.lo < x.hi)) = true ↔
      Covers pos x := by
    intro x
    simp [Covers, and_assoc]
  unfold inspectAt
  cases hf : tokens.filter
      (fun t => decide (t.lo ≤ pos) && decide (pos ≤ t.hi) && decide (t.lo < t.hi)) with
  | nil =>
    refine .inl ⟨rfl, fun t ht he => ?_⟩
    exact List.filter_eq_nil_iff.1 hf t ht ((hm t).2 he)
  | cons b r =>
    right
    rw [List.foldl_cons, show keepFirst none b = some b from rfl]
    obtain ⟨t, ht, h⟩ := keepFirst_some r b
    have key : ∃ l1 l2, b :: r = l1 ++ t :: l2 ∧ (∀ x ∈ l1, t.hi - t.lo < x.hi - x.lo) ∧
        ∀ x ∈ l2, t.hi - t.lo ≤ x.hi - x.lo := by
      rcases h with ⟨rfl, h⟩ | ⟨l1, l2, rfl, h1, h2, h3⟩
      · exact ⟨[], r, rfl, by simp, h⟩
      · refine ⟨b :: l1, l2, rfl, ?_, h3⟩
        intro x hx
        rcases List.mem_cons.1 hx with rfl | hx
        · exact h1
        · exact h2 x hx
    obtain ⟨l1, l2, he, h1, h2⟩ := key
    obtain ⟨m1, m2, e, g1, g2⟩ := List.filter_eq_append_iff.1 (hf.trans he)
    obtain ⟨n1, n2, e2, f1, f2, f3⟩ := List.filter_eq_cons_iff.1 g2
    refine ⟨t, m1 ++ n1, n2, by rw [e, e2]; simp, (hm t).1 f2, by rw [ht], ?_, ?_⟩
    · intro x hx hc
      rcases List.mem_append.1 hx with hx | hx
      · exact h1 x (by rw [← g1, List.mem_filter]; exact ⟨hx, (hm x).2 hc⟩)
      · exact absurd ((hm x).2 hc) (f1 x hx)
    · intro x hx hc
      exact h2 x (by rw [← f3, List.mem_filter]; exact ⟨hx, (hm x).2 hc⟩)

end Zen.Comp.C83
