import Verif.Model.Program
/-
`std::vector<Bignum>`. The move constructor (bn_type.h:135, bn_type_impl.h:109-114) is not declared `noexcept` and there
is a copy constructor, so `std::move_if_noexcept` makes the standard library COPY the numbers (bn_type_impl.h:100-103) into
the longer storage whenever a vector of numbers grows. The order of events is that of libstdc++: storage, new element,
elements before it, elements after it; whatever was made is destroyed if one of them throws.
-/
namespace BN
open Bignum

/-- A vector of numbers: its elements and the number of elements its storage has room for. -/
structure Numbers where
  items : List Bignum
  cap : Nat

/-- What surrounds one call: whether storage for `n` numbers can be had, the surroundings of the copy of the new
element and those of the copy of the `i`-th old element. -/
structure Around where
  slots : Nat → Bool
  fresh : Env
  old : Nat → Env

/-- `std::uninitialized_copy` with the copy constructor, bn_type_impl.h:100-103, element after element. -/
def copyItems (E : Nat → Env) : List Bignum → Res (List Bignum)
  | [] => .ok []
  | x :: l => do
    let y ← x.copy (E 0)
    let m ← copyItems (fun k => E (k + 1)) l
    .ok (y :: m)

/-- The longer storage; `grow n` is the capacity chosen for a full vector of `n` elements. -/
def newRoom (S : Around) (n : Nat) : Res Unit := if S.slots n then .ok () else .error (.exn .badAlloc)

/-- A result of a member function that leaves the vector alone if it throws (the new storage is given up). -/
def Numbers.commit (v : Numbers) : Res Numbers → Numbers × Res Unit
  | .ok w => (w, .ok ())
  | .error e => (v, .error e)

/-- `v.push_back(x)` with an lvalue `x`. -/
def Numbers.pushCopy (grow : Nat → Nat) (S : Around) (v : Numbers) (x : Bignum) : Numbers × Res Unit :=
  v.commit (do
    if v.items.length < v.cap then
      let y ← x.copy S.fresh
      .ok ⟨v.items ++ [y], v.cap⟩
    else
      newRoom S (grow v.items.length)
      let y ← x.copy S.fresh
      let m ← copyItems S.old v.items
      .ok ⟨m ++ [y], grow v.items.length⟩)

/-- `v.push_back(std::move(x))`: the vector, what is left of `x`, and how the call ended. The new element takes over the
digits of `x` (109-114) before the old elements are copied. -/
def Numbers.pushMove (grow : Nat → Nat) (S : Around) (v : Numbers) (x : Bignum) : Numbers × Bignum × Res Unit :=
  if v.items.length < v.cap then (⟨v.items ++ [(moveCtor x).1], v.cap⟩, (moveCtor x).2, .ok ())
  else
    match newRoom S (grow v.items.length) with
    | .error e => (v, x, .error e)
    | .ok _ =>
      match copyItems S.old v.items with
      | .error e => (v, (moveCtor x).2, .error e)
      | .ok m => (⟨m ++ [(moveCtor x).1], grow v.items.length⟩, (moveCtor x).2, .ok ())

/-- `*to = std::move(*from)` for two different elements, bn_type_impl.h:396-403. -/
def moveItem (l : List Bignum) (dst src : Nat) : List Bignum :=
  match l[src]? with
  | some x => (l.set dst (moveAssign x).1).set src (moveAssign x).2
  | none => l

/-- `std::move(pos + 1, end, pos)`: `n` elements after `pos` come one place forward. -/
def moveDown (l : List Bignum) (pos : Nat) : Nat → List Bignum
  | 0 => l
  | n + 1 => moveDown (moveItem l pos (pos + 1)) (pos + 1) n

/-- `v.erase(v.begin() + pos)`; `pos` has to be a place of the vector. -/
def Numbers.erase (v : Numbers) (pos : Nat) : Numbers × Res Unit :=
  if pos < v.items.length then
    (⟨(moveDown v.items pos (v.items.length - (pos + 1))).dropLast, v.cap⟩, .ok ())
  else (v, .error (.ub .outOfBounds))

/-- `std::move_backward(pos, pos + n, pos + n + 1)`: `n` elements from `pos` go one place back, the last one first. -/
def moveUp (l : List Bignum) (pos : Nat) : Nat → List Bignum
  | 0 => l
  | n + 1 => moveUp (moveItem l (pos + n + 1) (pos + n)) pos n

/-- `v.insert(v.begin() + pos, x)` with an lvalue `x`. With room left: a temporary copy of `x`, the last element moved (109-114)
behind the end, the others moved up (396-403), the temporary moved into its place. -/
def Numbers.insert (grow : Nat → Nat) (S : Around) (v : Numbers) (pos : Nat) (x : Bignum) : Numbers × Res Unit :=
  if v.items.length < pos then (v, .error (.ub .outOfBounds))
  else v.commit (do
    if v.items.length < v.cap then
      let y ← x.copy S.fresh
      match v.items.getLast? with
      | none => .ok ⟨[y], v.cap⟩
      | some z =>
        if pos = v.items.length then .ok ⟨v.items ++ [y], v.cap⟩
        else
          let l := v.items.set (v.items.length - 1) (moveCtor z).2 ++ [(moveCtor z).1]
          let l := moveUp l pos (v.items.length - 1 - pos)
          .ok ⟨l.set pos (moveAssign y).1, v.cap⟩
    else
      newRoom S (grow v.items.length)
      let y ← x.copy S.fresh
      let m ← copyItems S.old (v.items.take pos)
      let m' ← copyItems (fun k => S.old (pos + k)) (v.items.drop pos)
      .ok ⟨m ++ y :: m', grow v.items.length⟩)

/-- `v.reserve(n)`. -/
def Numbers.reserve (S : Around) (v : Numbers) (n : Nat) : Numbers × Res Unit :=
  v.commit (do
    if n ≤ v.cap then .ok v
    else
      newRoom S n
      let m ← copyItems S.old v.items
      .ok ⟨m, n⟩)

/-- `v.pop_back()`. -/
def Numbers.popBack (v : Numbers) : Numbers × Res Unit :=
  if v.items = [] then (v, .error (.ub .emptyPop)) else (⟨v.items.dropLast, v.cap⟩, .ok ())

/-- Calls on one vector. -/
inductive Call where
  | pushCopy (x : Bignum)
  | pushMove (x : Bignum)
  | pushOwn (i : Nat)            -- `v.push_back(v[i])`
  | insert (pos : Nat) (x : Bignum)
  | erase (pos : Nat)
  | reserve (n : Nat)
  | popBack

def Call.run (grow : Nat → Nat) (S : Around) (v : Numbers) : Call → Numbers × Res Unit
  | .pushCopy x => v.pushCopy grow S x
  | .pushMove x => let (w, _, r) := v.pushMove grow S x; (w, r)
  | .pushOwn i =>
    match v.items[i]? with
    | some x => v.pushCopy grow S x     -- the element is copied before the old storage is given up
    | none => (v, .error (.ub .outOfBounds))
  | .insert pos x => v.insert grow S pos x
  | .erase pos => v.erase pos
  | .reserve n => v.reserve S n
  | .popBack => v.popBack

/-- A sequence of calls with surroundings of their own; calls that throw are caught. The results of the calls are kept. -/
def Call.runAll (grow : Nat → Nat) : (Nat → Around) → Numbers → List Call → Numbers × List (Res Unit)
  | _, v, [] => (v, [])
  | S, v, c :: l =>
    let (w, r) := c.run grow (S 0) v
    let (u, rs) := Call.runAll grow (fun k => S (k + 1)) w l
    (u, r :: rs)

/-- The number of numbers copied by `v.push_back(x)` for the numbers `x` of a list, one after the other: each new element, and
the old ones whenever the vector is full. -/
def copiesMade (grow : Nat → Nat) : (Nat → Around) → Numbers → List Bignum → Nat
  | _, _, [] => 0
  | S, v, x :: l =>
    (if v.items.length < v.cap then 1 else 1 + v.items.length) +
      copiesMade grow (fun k => S (k + 1)) (v.pushCopy grow (S 0) x).1 l

end BN
