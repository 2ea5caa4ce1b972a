import Verif.Heap.Model
/-
What a stored value stands for. `Den h v x F`: in the heap `h` the value `v` holds the data `x`, and
`F` are the addresses of the cells that are read to see it, with repetition. A value for which there
is such an `x` is acyclic. A value is unshared inside when `F` has no repetition.
-/
namespace Zen

mutual
inductive Den (h : Heap) : HVal → Val → List Nat → Prop
  | null : Den h .null .null []
  | bool (b : Bool) : Den h (.bool b) (.bool b) []
  | num (n : Rat) : Den h (.num n) (.num n) []
  | str (s : String) : Den h (.str s) (.str s) []
  | dyn (d : Dyn) : Den h (.dyn d) (.dyn d) []
  | arr {a : Nat} {xs : List HVal} {vs : List Val} {F : List Nat} : h[a]? = some (.arr xs) →
      DenL h xs vs F → Den h (.arr a) (.arr vs) (a :: F)
  | obj {a : Nat} {m : List (String × HVal)} {vs : List (String × Val)} {F : List Nat} :
      h[a]? = some (.obj m) → DenE h m vs F → Den h (.obj a) (.obj vs) (a :: F)
inductive DenL (h : Heap) : List HVal → List Val → List Nat → Prop
  | nil : DenL h [] [] []
  | cons {x : HVal} {v : Val} {F : List Nat} {xs : List HVal} {vs : List Val} {G : List Nat} :
      Den h x v F → DenL h xs vs G → DenL h (x :: xs) (v :: vs) (F ++ G)
inductive DenE (h : Heap) : List (String × HVal) → List (String × Val) → List Nat → Prop
  | nil : DenE h [] [] []
  | cons {k : String} {x : HVal} {v : Val} {F : List Nat} {m : List (String × HVal)} {vs : List (String × Val)}
      {G : List Nat} : Den h x v F → DenE h m vs G → DenE h ((k, x) :: m) ((k, v) :: vs) (F ++ G)
end

/-- a holder of `v` sees the data `x` -/
def Sees (h : Heap) (v : HVal) (x : Val) : Prop := ∃ F, Den h v x F

end Zen
