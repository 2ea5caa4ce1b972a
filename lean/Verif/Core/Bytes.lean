/-
Strings as lists of characters, with byte offsets as in Rust: slicing a string at an offset that is not a
character boundary is a panic (`none`).
-/
namespace Zen.Bytes

/-- `char::is_whitespace` of the Rust standard library: the characters with the Unicode property
`White_Space`. -/
def isWs (c : Char) : Bool :=
  (9 ≤ c.toNat && c.toNat ≤ 13) || c.toNat == 0x20 || c.toNat == 0x85 || c.toNat == 0xA0 ||
  c.toNat == 0x1680 || (0x2000 ≤ c.toNat && c.toNat ≤ 0x200A) || c.toNat == 0x2028 ||
  c.toNat == 0x2029 || c.toNat == 0x202F || c.toNat == 0x205F || c.toNat == 0x3000

/-- the length of a string in bytes (`str::len`) -/
def byteLen : List Char → Nat
  | [] => 0
  | c :: r => c.utf8Size + byteLen r

/-- `str::char_indices`: the characters with their byte offsets -/
def charIndices : Nat → List Char → List (Nat × Char)
  | _, [] => []
  | i, c :: r => (i, c) :: charIndices (i + c.utf8Size) r

/-- the string without its first `n` bytes; `none` if that is not a character boundary -/
def dropBytes : List Char → Nat → Option (List Char)
  | s, 0 => some s
  | [], _ + 1 => none
  | c :: r, n + 1 => if c.utf8Size ≤ n + 1 then dropBytes r (n + 1 - c.utf8Size) else none

/-- the first `n` bytes of a string; `none` if that is not a character boundary -/
def takeBytes : List Char → Nat → Option (List Char)
  | _, 0 => some []
  | [], _ + 1 => none
  | c :: r, n + 1 =>
    if c.utf8Size ≤ n + 1 then (takeBytes r (n + 1 - c.utf8Size)).map (c :: ·) else none

/-- `&source[start..index]`; `none` is a panic -/
def slice (s : List Char) (start index : Nat) : Option (List Char) :=
  if start ≤ index then (dropBytes s start).bind (takeBytes · (index - start)) else none

theorem utf8Size_pos' (c : Char) : 0 < c.utf8Size := Char.utf8Size_pos c

theorem byteLen_append (a b : List Char) : byteLen (a ++ b) = byteLen a + byteLen b := by
  induction a with
  | nil => simp [byteLen]
  | cons c r ih => simp [byteLen, ih]; omega

theorem dropBytes_append (a b : List Char) : dropBytes (a ++ b) (byteLen a) = some b := by
  induction a with
  | nil => cases b <;> rfl
  | cons c r ih =>
    have hp := utf8Size_pos' c
    obtain ⟨n, hn⟩ : ∃ n, byteLen (c :: r) = n + 1 := ⟨byteLen (c :: r) - 1, by simp [byteLen]; omega⟩
    have h2 : n + 1 - c.utf8Size = byteLen r := by rw [← hn]; simp [byteLen]
    have h3 : c.utf8Size ≤ n + 1 := by rw [← hn]; simp [byteLen]
    rw [hn, List.cons_append]
    unfold dropBytes
    simp only [h3, if_true, h2, ih]

theorem takeBytes_append (a b : List Char) : takeBytes (a ++ b) (byteLen a) = some a := by
  induction a with
  | nil => cases b <;> rfl
  | cons c r ih =>
    have hp := utf8Size_pos' c
    obtain ⟨n, hn⟩ : ∃ n, byteLen (c :: r) = n + 1 := ⟨byteLen (c :: r) - 1, by simp [byteLen]; omega⟩
    have h2 : n + 1 - c.utf8Size = byteLen r := by rw [← hn]; simp [byteLen]
    have h3 : c.utf8Size ≤ n + 1 := by rw [← hn]; simp [byteLen]
    rw [hn, List.cons_append]
    unfold takeBytes
    simp only [h3, if_true, h2, ih, Option.map_some]

theorem slice_mid (pre acc rest : List Char) :
    slice (pre ++ acc ++ rest) (byteLen pre) (byteLen (pre ++ acc)) = some acc := by
  unfold slice
  have h : byteLen pre ≤ byteLen (pre ++ acc) := by rw [byteLen_append]; omega
  have h2 : byteLen (pre ++ acc) - byteLen pre = byteLen acc := by rw [byteLen_append]; omega
  rw [if_pos h, h2, List.append_assoc, dropBytes_append]
  exact takeBytes_append acc rest

end Zen.Bytes
