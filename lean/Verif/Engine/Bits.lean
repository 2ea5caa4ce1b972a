/-
`fixedbitset::FixedBitSet` as used by the row index of decision tables: 64-bit words.
The crate is a dependency, its operations are part of the trusted base; the word-wise
intersection is code of the repository (nodes/decision_table/mod.rs:209-216).
-/
namespace Zen

/-- `FixedBitSet`: number of bits and words -/
structure Bits where
  len : Nat
  words : List Nat

namespace Bits

/-- `FixedBitSet::with_capacity` -/
def withCapacity (n : Nat) : Bits := ⟨n, List.replicate ((n + 63) / 64) 0⟩

/-- `contains` -/
def contains (b : Bits) (i : Nat) : Bool := decide (i < b.len) && (b.words.getD (i / 64) 0).testBit (i % 64)

/-- set one bit of one word -/
def setBit : List Nat → Nat → Nat → List Nat
  | [], _, _ => []
  | w :: r, 0, j => (w ||| 2 ^ j) :: r
  | w :: r, k + 1, j => w :: setBit r k j

/-- `insert`; the crate panics when `i ≥ len`, which never happens here: `i` is a row number -/
def insert (b : Bits) (i : Nat) : Bits := { b with words := setBit b.words (i / 64) (i % 64) }

/-- word-wise or, the longer list wins -/
def orWords : List Nat → List Nat → List Nat
  | [], ys => ys
  | xs, [] => xs
  | x :: xs, y :: ys => (x ||| y) :: orWords xs ys

/-- `union_with` (grows to the larger length) -/
def unionWith (a b : Bits) : Bits := ⟨max a.len b.len, orWords a.words b.words⟩

/-- `count_ones(..) > 0` -/
def anySet (b : Bits) : Bool := b.words.any fun w => decide (w ≠ 0)

/-- `as_slice().get(i).copied().unwrap_or(0)` and the loop over the words of the accumulator
(mod.rs:209-216): each word becomes `word & (fallback | hit)`. `k` is the index of the first word. -/
def maskWords (fallback hit : List Nat) : Nat → List Nat → List Nat
  | _, [] => []
  | k, w :: r => (w &&& (fallback.getD k 0 ||| hit.getD k 0)) :: maskWords fallback hit (k + 1) r

def mask (acc fallback : Bits) (hit : List Nat) : Bits :=
  { acc with words := maskWords fallback.words hit 0 acc.words }

/-- word-wise and, missing words are zero -/
def andWords : List Nat → List Nat → List Nat
  | x :: xs, y :: ys => (x &&& y) :: andWords xs ys
  | _ :: xs, [] => 0 :: andWords xs []
  | [], _ => []

/-- `intersect_with` (words of `self` beyond the end of the other set become zero) -/
def intersectWith (a b : Bits) : Bits := { a with words := andWords a.words b.words }

/-! ### Facts -/

/-- the words cover the length -/
def Wf (b : Bits) : Prop := b.words.length = (b.len + 63) / 64

theorem wf_withCapacity (n : Nat) : (withCapacity n).Wf := by simp [Wf, withCapacity]

theorem contains_withCapacity (n i : Nat) : (withCapacity n).contains i = false := by
  have : (List.replicate ((n + 63) / 64) 0).getD (i / 64) 0 = 0 := by
    simp [List.getD_eq_getElem?_getD, List.getElem?_replicate]; split <;> rfl
  simp only [contains, withCapacity, this, Nat.zero_testBit, Bool.and_false]

theorem setBit_length (l : List Nat) : ∀ (k j : Nat), (setBit l k j).length = l.length := by
  induction l with
  | nil => intro k j; rfl
  | cons w r ih => intro k j; cases k <;> simp [setBit, ih]

theorem setBit_getD (l : List Nat) : ∀ (k j i b : Nat), k < l.length →
    (((setBit l k j).getD i 0).testBit b = ((l.getD i 0).testBit b || (decide (i = k) && decide (b = j)))) := by
  induction l with
  | nil => intro k j i b h; simp at h
  | cons w r ih =>
    intro k j i b h
    cases k with
    | zero =>
      cases i with
      | zero => simp [setBit, Nat.testBit_two_pow, eq_comm]
      | succ i => simp [setBit]
    | succ k =>
      cases i with
      | zero => simp [setBit]
      | succ i =>
        have := ih k j i b (by simpa using h)
        simpa [setBit] using this

theorem wf_insert {b : Bits} (h : b.Wf) (i : Nat) : (b.insert i).Wf := by
  simpa [Wf, insert, setBit_length] using h

theorem len_insert (b : Bits) (i : Nat) : (b.insert i).len = b.len := rfl

theorem contains_insert {b : Bits} (h : b.Wf) {i : Nat} (hi : i < b.len) (j : Nat) :
    (b.insert i).contains j = (b.contains j || decide (j = i)) := by
  have hk : i / 64 < b.words.length := by rw [h]; omega
  simp only [contains, insert, setBit_getD _ _ _ _ _ hk]
  by_cases e : j = i
  · subst e; simp [hi]
  · have : ¬ (j / 64 = i / 64 ∧ j % 64 = i % 64) := by omega
    have h2 : (decide (j / 64 = i / 64) && decide (j % 64 = i % 64)) = false := by
      rw [Bool.eq_false_iff]; simpa using this
    rw [h2, Bool.or_false, decide_eq_false e, Bool.or_false]; rfl

theorem orWords_getD (a : List Nat) : ∀ (b : List Nat) (i : Nat),
    (orWords a b).getD i 0 = (a.getD i 0 ||| b.getD i 0) := by
  induction a with
  | nil => intro b i; simp [orWords]
  | cons x xs ih =>
    intro b i
    cases b with
    | nil => simp [orWords]
    | cons y ys =>
      cases i with
      | zero => simp [orWords]
      | succ i => simpa [orWords] using ih ys i

theorem orWords_length (a : List Nat) : ∀ (b : List Nat),
    (orWords a b).length = max a.length b.length := by
  induction a with
  | nil => intro b; simp [orWords]
  | cons x xs ih =>
    intro b
    cases b with
    | nil => simp [orWords]
    | cons y ys => simp [orWords, ih]

theorem contains_unionWith {a b : Bits} (h : a.len = b.len) (i : Nat) :
    (a.unionWith b).contains i = (a.contains i || b.contains i) := by
  simp only [contains, unionWith, orWords_getD, Nat.testBit_or, h, Nat.max_self]
  cases decide (i < b.len) <;> simp

theorem wf_unionWith {a b : Bits} (ha : a.Wf) (hb : b.Wf) : (a.unionWith b).Wf := by
  simp only [Wf, unionWith, orWords_length] at ha hb ⊢
  omega

theorem andWords_getD (a : List Nat) : ∀ (b : List Nat) (i : Nat),
    (andWords a b).getD i 0 = (a.getD i 0 &&& b.getD i 0) := by
  induction a with
  | nil => intro b i; simp [andWords]
  | cons x xs ih =>
    intro b i
    cases b with
    | nil =>
      cases i with
      | zero => simp [andWords]
      | succ i => simpa [andWords] using ih [] i
    | cons y ys =>
      cases i with
      | zero => simp [andWords]
      | succ i => simpa [andWords] using ih ys i

theorem contains_intersectWith {a b : Bits} (h : a.len = b.len) (i : Nat) :
    (a.intersectWith b).contains i = (a.contains i && b.contains i) := by
  simp only [contains, intersectWith, andWords_getD, Nat.testBit_and, h]
  cases decide (i < b.len) <;> simp

theorem maskWords_length (f h : List Nat) (l : List Nat) : ∀ k, (maskWords f h k l).length = l.length := by
  induction l with
  | nil => intro k; rfl
  | cons w r ih => intro k; simp [maskWords, ih]

theorem maskWords_getD (f h : List Nat) (l : List Nat) : ∀ (k i : Nat),
    (maskWords f h k l).getD i 0 = (l.getD i 0 &&& (f.getD (k + i) 0 ||| h.getD (k + i) 0)) := by
  induction l with
  | nil => intro k i; simp [maskWords]
  | cons w r ih =>
    intro k i
    cases i with
    | zero => simp [maskWords]
    | succ i =>
      have := ih (k + 1) i
      rw [show k + 1 + i = k + (i + 1) by omega] at this
      simpa [maskWords] using this

theorem wf_mask {acc : Bits} (h : acc.Wf) (f : Bits) (l : List Nat) : (acc.mask f l).Wf := by
  simpa [Wf, mask, maskWords_length] using h

theorem contains_mask {acc f : Bits} (hf : acc.len = f.len) (l : Bits) (hl : l.len = f.len) (i : Nat) :
    (acc.mask f l.words).contains i = (acc.contains i && (f.contains i || l.contains i)) := by
  simp only [contains, mask, maskWords_getD, Nat.testBit_and, Nat.testBit_or, Nat.zero_add, hf, hl]
  cases decide (i < f.len) <;> simp

theorem contains_mask_nil {acc f : Bits} (hf : acc.len = f.len) (i : Nat) :
    (acc.mask f []).contains i = (acc.contains i && f.contains i) := by
  simp only [contains, mask, maskWords_getD, Nat.testBit_and, Nat.testBit_or, Nat.zero_add, hf]
  cases decide (i < f.len) <;> simp

theorem any_of_contains {b : Bits} {i : Nat} (h : b.contains i = true) : b.anySet = true := by
  simp only [contains, Bool.and_eq_true] at h
  have h := h.2
  unfold anySet
  rw [List.any_eq_true]
  rw [List.getD_eq_getElem?_getD] at h
  cases hg : b.words[i / 64]? with
  | none => rw [hg] at h; simp at h
  | some w =>
    rw [hg] at h
    refine ⟨w, List.mem_of_getElem? hg, ?_⟩
    simp only [Option.getD_some] at h
    simp only [decide_eq_true_eq]
    rintro rfl
    simp at h

end Bits
end Zen
