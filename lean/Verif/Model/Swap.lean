import Verif.Model.Program
/-
`std::swap` and what the standard library builds from it. The library overloads neither `swap` nor
`iter_swap`, so the general template is used: `T tmp = std::move(a); a = std::move(b); b = std::move(tmp);`
with the move members of bn_type_impl.h:109-114 and 396-403.
-/
namespace BN

/-- `x = std::move(x)`, bn_type_impl.h:396-403 with `num` the object itself: the descriptor is read, set
to `BN_POS` and the vector is moved into itself, which leaves it valid but unspecified (`junk`). -/
def Bignum.selfMove (_x : Bignum) (junk : List Nat) : Bignum := ⟨.pos, junk⟩

/-- `x_i = std::move(x_j)`, bn_type_impl.h:396-403, also for `i = j`. -/
def Store.moveTo (junk : List Nat) (s : Store) (i j : Nat) : Store :=
  if i = j then s.set i ((s i).selfMove junk)
  else (s.set i (Bignum.moveAssign (s j)).1).set j (Bignum.moveAssign (s j)).2

/-- `std::swap(x_i, x_j)`: move construction (109-114) and two move assignments (396-403). -/
def Store.swap (junk : List Nat) (s : Store) (i j : Nat) : Store :=
  let (tmp, rest) := Bignum.moveCtor (s i)
  let s := s.set i rest
  let s := s.moveTo junk i j
  s.set j (Bignum.moveAssign tmp).1

/-- A sequence of `std::swap`; every self-move may leave something else behind. -/
def Store.swaps : (Nat → List Nat) → Store → List (Nat × Nat) → Store
  | _, s, [] => s
  | junk, s, (i, j) :: l => Store.swaps (fun k => junk (k + 1)) (s.swap (junk 0) i j) l

/-- `std::reverse(x_i, x_j)` on the objects `x_i, ..., x_(j-1)`:
`while (first != last && first != --last) std::iter_swap(first++, last);` -/
def Store.reverse (s : Store) (i : Nat) : Nat → Store
  | 0 => s
  | j + 1 => if i < j then Store.reverse (s.swap [] i j) (i + 1) j else s

/-- `std::rotate(x_i, x_m, x_j)` as the three reversals. -/
def Store.rotate (s : Store) (i m j : Nat) : Store := ((s.reverse i m).reverse m j).reverse i j

end BN
