import Verif.Model.Type
/-
Client code: sequences of calls on named objects.
-/
namespace BN

/-- The four arithmetic operators. -/
inductive Arith where
  | add | sub | mul | div
  deriving DecidableEq, Repr

/-- `x op= num`, bn_type_impl.h:454-702 -/
def Arith.assign {F : Type} (o : FloatOps F) (L : Limits) (env : Env) (fuel : Nat) : Arith → Bignum → Rhs → Out
  | .add => Bignum.addAssign L env fuel
  | .sub => Bignum.subAssign L env fuel
  | .mul => Bignum.mulAssign o L env fuel
  | .div => Bignum.divAssign L env fuel

/-- `x op num`, bn_type_impl.h:410-447 -/
def Arith.binary {F : Type} (o : FloatOps F) (L : Limits) (env : Env) (fuel : Nat) (k : Arith) : Bignum → Bignum → Res Bignum :=
  Bignum.viaCopy env (k.assign o L env fuel)

namespace Bignum

/-- Copy assignment, bn_type_impl.h:385-389. The descriptor is copied before the digits, so when the
digits cannot be copied the object keeps its digits (the vector assignment allocates before it
destroys) under the descriptor of `num`. Assigning an object to itself changes nothing. -/
def copyAssign (env : Env) (this num : Bignum) : Out :=
  match Vec.copy env num.digits with
  | .ok d => .ok ⟨num.desc, d⟩
  | .error (.exn e) => .threw e ⟨num.desc, this.digits⟩
  | .error (.ub k) => .ub k
  | .error .timeout => .timeout

/-- A member function that changes nothing when it throws (strong guarantee of the vector operations
and of `BN_ASSERT` in `operator[]`). -/
def strong (this : Bignum) (r : Res Bignum) : Out :=
  match r with
  | .ok b => .ok b
  | .error (.exn e) => .threw e this
  | .error (.ub k) => .ub k
  | .error .timeout => .timeout

end Bignum

/-- The objects of a program. -/
abbrev Store := Nat → Bignum

def Store.set (s : Store) (i : Nat) (b : Bignum) : Store := fun j => if j = i then b else s j

/-- One statement of a client program. Objects are named by numbers; digits are numbers. -/
inductive Op where
  /-- `x_i = Bignum(d, {l...})` -/
  | make (i : Nat) (d : Desc) (l : List Nat)
  /-- `x_i = x_j` -/
  | copy (i j : Nat)
  /-- `x_i = std::move(x_j)` -/
  | move (i j : Nat)
  | setDescriptor (i : Nat) (d : Desc)
  | resize (i n digit : Nat)
  | pushFront (i digit : Nat)
  | popFront (i : Nat)
  | pushBack (i digit : Nat)
  | popBack (i : Nat)
  | push (i digit pos : Nat)
  | pop (i pos : Nat)
  /-- `x_i[k] = digit` -/
  | setAt (i k digit : Nat)
  | clear (i : Nat)
  /-- `x_i op= x_j` -/
  | arith (k : Arith) (i j : Nat)
  /-- `x_i = x_j op x_l` -/
  | binary (k : Arith) (i j l : Nat)

/-- What the store is after a member function of object `i`: the program catches exceptions around
every statement and goes on; undefined behaviour and endless loops leave no store. -/
def Out.store (s : Store) (i : Nat) : Out → Option Store
  | .ok b => some (s.set i b)
  | .threw _ b => some (s.set i b)
  | .ub _ => none
  | .timeout => none

/-- The right operand `x_j` of a member function of `x_i`. -/
def rhsOf (s : Store) (i j : Nat) : Rhs := if j = i then .self else .other (s j)

/-- Execution of one statement. Moving an object into itself leaves its vector in an unspecified
state and is not given a meaning. -/
def Op.step {F : Type} (o : FloatOps F) (L : Limits) (env : Env) (fuel : Nat) (s : Store) : Op → Option Store
  | .make i d l => (Bignum.strong (s i) (Bignum.ofList env d l)).store s i
  | .copy i j => if i = j then some s else (Bignum.copyAssign env (s i) (s j)).store s i
  | .move i j =>
    if i = j then none
    else some ((s.set i (Bignum.moveAssign (s j)).1).set j (Bignum.moveAssign (s j)).2)
  | .setDescriptor i d => some (s.set i ((s i).setDescriptor d))
  | .resize i n digit => (Bignum.strong (s i) ((s i).resize env n digit)).store s i
  | .pushFront i digit => (Bignum.strong (s i) ((s i).pushFront env digit)).store s i
  | .popFront i => (Bignum.strong (s i) (s i).popFront).store s i
  | .pushBack i digit => (Bignum.strong (s i) ((s i).pushBack env digit)).store s i
  | .popBack i => (Bignum.strong (s i) (s i).popBack).store s i
  | .push i digit pos => (Bignum.strong (s i) ((s i).push env digit pos)).store s i
  | .pop i pos => (Bignum.strong (s i) ((s i).pop pos)).store s i
  | .setAt i k digit => (Bignum.strong (s i) ((s i).setAt k digit)).store s i
  | .clear i => some (s.set i (s i).clear)
  | .arith k i j => (k.assign o L env fuel (s i) (rhsOf s i j)).store s i
  | .binary k i j l => (Bignum.strong (s i) (k.binary o L env fuel (s j) (s l))).store s i

/-- Execution of a sequence of statements. The allocator may answer differently for each statement:
`env k` is the environment of the `k`-th one. -/
def run {F : Type} (o : FloatOps F) (L : Limits) (fuel : Nat) : (Nat → Env) → Store → List Op → Option Store
  | _, s, [] => some s
  | env, s, op :: ops => (op.step o L (env 0) fuel s).bind fun s' => run o L fuel (fun k => env (k + 1)) s' ops

end BN
