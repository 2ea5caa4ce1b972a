import Verif.Core.Val
/-
`Variable::merge` / `merge_clone` on data (core/types/src/variable/mod.rs:286-297, 363-448).
Simplification: the `RcCell::ptr_eq` early exit (mod.rs:381-383) is a property of sharing and is
modelled in Verif/Heap; here document and patch are distinct objects.
-/
namespace Zen
namespace Val

mutual
/-- `merge_variables` with `top_level = false`, `MergeStrategy::InPlace` (mod.rs:363-448). -/
def mergeV (doc : Val) : Val → Val
  | .obj pe =>
    match doc with
    | .obj de => .obj (mergeE de pe)                              -- mod.rs:377-397
    | d => if beq d (.obj pe) then d else .obj pe                  -- mod.rs:438-447
  | .arr ps => if beq doc (.arr ps) then doc else .arr ps
  | .null => if beq doc .null then doc else .null
  | .bool b => if beq doc (.bool b) then doc else .bool b
  | .num n => if beq doc (.num n) then doc else .num n
  | .str s => if beq doc (.str s) then doc else .str s
  | .dyn d => if beq doc (.dyn d) then doc else .dyn d
/-- the loop over the patch's entries (mod.rs:388-395) -/
def mergeE (de : List (String × Val)) : List (String × Val) → List (String × Val)
  | [] => de
  | (k, v) :: r =>
    if v.isNull then mergeE (aErase de k) r
    else mergeE (aSet de k (mergeV ((aGet de k).getD .null) v)) r
end

/-- `merge` (mod.rs:286-290): `merge_variables` with `top_level = true`. -/
def merge (doc patch : Val) : Val :=
  match patch with
  | .arr ps => .arr ps                    -- mod.rs:369-372
  | .obj pe => mergeV doc (.obj pe)
  | _ => doc                              -- mod.rs:374-376

mutual
/-- `merge_variables` with `MergeStrategy::CloneOnWrite` (mod.rs:399-437): new value and the
`changed` flag. -/
def mergeC (doc : Val) : Val → Val × Bool
  | .obj pe =>
    match doc with
    | .obj de =>
      let r := mergeCE de pe false
      if r.2 then (.obj r.1, true) else (.obj de, false)
    | d => if beq d (.obj pe) then (d, false) else (.obj pe, true)
  | .arr ps => if beq doc (.arr ps) then (doc, false) else (.arr ps, true)
  | .null => if beq doc .null then (doc, false) else (.null, true)
  | .bool b => if beq doc (.bool b) then (doc, false) else (.bool b, true)
  | .num n => if beq doc (.num n) then (doc, false) else (.num n, true)
  | .str s => if beq doc (.str s) then (doc, false) else (.str s, true)
  | .dyn d => if beq doc (.dyn d) then (doc, false) else (.dyn d, true)
/-- the loop over the patch with the cloned map (mod.rs:403-424) -/
def mergeCE (map : List (String × Val)) : List (String × Val) → Bool → List (String × Val) × Bool
  | [], ch => (map, ch)
  | (k, v) :: r, ch =>
    if v.isNull then mergeCE (aErase map k) r (ch || (aGet map k).isSome)
    else
      let e := mergeC ((aGet map k).getD .null) v
      mergeCE (aSet map k e.1) r (ch || e.2)
end

/-- `merge_clone` (mod.rs:292-297) -/
def mergeClone (doc patch : Val) : Val :=
  match patch with
  | .arr ps => .arr ps
  | .obj pe => (mergeC doc (.obj pe)).1
  | _ => doc

end Val
end Zen
