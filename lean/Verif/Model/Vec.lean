import Verif.Model.Limits
/-
The operations of `std::vector<bn_single>` that the library uses.
-/
namespace BN
namespace Vec

/-- `v[i]` (read). -/
def rd (v : List Nat) (i : Nat) : Res Nat :=
  match v[i]? with
  | some d => .ok d
  | none => .error (.ub .outOfBounds)

/-- `v[i] = d`. -/
def wr (v : List Nat) (i : Nat) (d : Nat) : Res (List Nat) :=
  if i < v.length then .ok (v.set i d) else .error (.ub .outOfBounds)

/-- `v.push_back(d)`; throws when the larger container cannot be obtained. -/
def pushBack (env : Env) (v : List Nat) (d : Nat) : Res (List Nat) :=
  if env.alloc (v.length + 1) then .ok (v ++ [d]) else .error (.exn .badAlloc)

/-- `v.pop_back()`. -/
def popBack (v : List Nat) : Res (List Nat) :=
  if v = [] then .error (.ub .emptyPop) else .ok v.dropLast

/-- `v.insert(v.begin()+pos, d)`. -/
def insert (env : Env) (v : List Nat) (pos : Nat) (d : Nat) : Res (List Nat) :=
  if v.length < pos then .error (.ub .outOfBounds)
  else if env.alloc (v.length + 1) then .ok (v.take pos ++ d :: v.drop pos)
  else .error (.exn .badAlloc)

/-- `v.erase(v.begin()+pos)`. -/
def erase (v : List Nat) (pos : Nat) : Res (List Nat) :=
  if pos < v.length then .ok (v.eraseIdx pos) else .error (.ub .outOfBounds)

/-- `v.resize(n, d)`. -/
def resize (env : Env) (v : List Nat) (n : Nat) (d : Nat) : Res (List Nat) :=
  if n ≤ v.length then .ok (v.take n)
  else if env.alloc n then .ok (v ++ List.replicate (n - v.length) d)
  else .error (.exn .badAlloc)

/-- Copying a container (copy constructor / copy assignment). An empty source needs no storage. -/
def copy (env : Env) (v : List Nat) : Res (List Nat) :=
  if v = [] then .ok [] else if env.alloc v.length then .ok v else .error (.exn .badAlloc)

end Vec
end BN
