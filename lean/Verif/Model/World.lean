import Verif.Model.Heap
/-
Client programs as in Model/Program, on a machine with so many bytes: the numbers of the program hold their storage from one statement
to the next.
-/
namespace BN
open Bignum

/-- Sizes and growth as before, and the capacity that `resize` asks for when a vector of length `len` is to get `n` elements. -/
structure Computer extends Plant where
  fit : Nat → Nat → Nat
  fit_ge : ∀ len n, n ≤ fit len n

/-- The objects of a program, the capacity of each, and the free bytes. -/
structure World where
  store : Store
  cap : Nat → Nat
  free : Nat

/-- The memory that a member function of `x_i` finds. -/
def World.mem (w : World) (i : Nat) : Mem := ⟨w.free, fun v => if v = .this then w.cap i else 0⟩

/-- `x_i` becomes `b`, and has the storage `.this` of `h`. -/
def World.put (w : World) (i : Nat) (b : Bignum) (h : Mem) : World :=
  ⟨w.store.set i b, fun j => if j = i then h.cap .this else w.cap j, h.free⟩

/-- The world after a member function of `x_i`; the program catches exceptions around every statement and goes on. -/
def World.after (w : World) (i : Nat) (r : Out × Mem) : Option World :=
  match r.1 with
  | .ok b => some (w.put i b r.2)
  | .threw _ b => some (w.put i b r.2)
  | .ub _ => none
  | .timeout => none

/-- A member function that changes no digit when it throws. -/
def strongV (this : Bignum) (m : HeapM Bignum) (h : Mem) : Out × Mem := (strong this (m h).1, (m h).2)

section
variable (c : Computer)

/-- A function that makes one digit more in place (`push_front`, `push_back`, `push`, bn_type_impl.h:207-243): `r` is the number with it. -/
def oneMore (r : Res Bignum) (len : Nat) : HeapM Bignum := do
  let b ← HeapM.lift r
  growBy1 c.toPlant .this len
  pure b

/-- `resize` of the vector `v` of length `len` to `n` elements. -/
def fitTo (v : Var) (len n : Nat) : HeapM Unit := fun h => if n ≤ h.cap v then (.ok (), h) else takeFor c.toPlant v (c.fit len n) h

/-- `resize`, bn_type_impl.h:188-192 -/
def resizeV (this : Bignum) (n digit : Nat) : HeapM Bignum := do
  let b ← HeapM.lift (this.resize (freely false) n digit)
  fitTo c .this this.digits.length n
  pure b

/-- `x = Bignum(d, {l...})`, bn_type_impl.h:59-94 and 396-403: a new vector, whose storage is moved. -/
def makeV (d : Desc) (l : List Nat) : HeapM Bignum :=
  scope c.toPlant .result do
    let b ← HeapM.lift (ofList (freely false) d l)
    fitTo c .result 0 b.digits.length
    steal c.toPlant .this .result
    pure b

/-- `x = num`, bn_type_impl.h:385-389 -/
def copyAssignV (this num : Bignum) (h : Mem) : Out × Mem :=
  match takeFor c.toPlant .this num.digits.length h with
  | (.ok _, h') => (.ok num, h')
  | (.error (.exn e), h') => (.threw e ⟨num.desc, this.digits⟩, h')
  | (.error (.ub k), h') => (.ub k, h')
  | (.error .timeout, h') => (.timeout, h')

/-- `x_i = std::move(x_j)`, bn_type_impl.h:396-403 -/
def World.move (w : World) (i j : Nat) : World :=
  ⟨(w.store.set i (moveAssign (w.store j)).1).set j (moveAssign (w.store j)).2,
    fun k => if k = i then w.cap j else if k = j then 0 else w.cap k, w.free + c.digit * w.cap i⟩

/-- `x_i = x_j op x_l`: the operator makes a new number, whose storage is moved. -/
def binaryAssignV {F : Type} (o : FloatOps F) (L : Limits) (debug : Bool) (fuel : Nat) (k : Arith) (w : World) (i j l : Nat) : Option World :=
  let r := k.binaryV c.toPlant o L debug fuel (w.store j) (w.store l) ⟨w.free, fun _ => 0⟩
  match r.1 with
  | .ok b => some (w.put i b ⟨r.2.free + c.digit * w.cap i, r.2.cap⟩)
  | .error (.exn _) => some { w with free := r.2.free }
  | .error (.ub _) => none
  | .error .timeout => none

/-- Execution of one statement, as `Op.step`. -/
def Op.stepV {F : Type} (o : FloatOps F) (L : Limits) (debug : Bool) (fuel : Nat) (w : World) : Op → Option World
  | .make i d l => w.after i (strongV (w.store i) (makeV c d l) (w.mem i))
  | .copy i j => if i = j then some w else w.after i (copyAssignV c (w.store i) (w.store j) (w.mem i))
  | .move i j => if i = j then none else some (w.move c i j)
  | .setDescriptor i d => some { w with store := w.store.set i ((w.store i).setDescriptor d) }
  | .resize i n digit => w.after i (strongV (w.store i) (resizeV c (w.store i) n digit) (w.mem i))
  | .pushFront i digit =>
    w.after i (strongV (w.store i) (oneMore c ((w.store i).pushFront (freely false) digit) (w.store i).digits.length) (w.mem i))
  | .popFront i => w.after i (strong (w.store i) (w.store i).popFront, w.mem i)
  | .pushBack i digit =>
    w.after i (strongV (w.store i) (oneMore c ((w.store i).pushBack (freely false) digit) (w.store i).digits.length) (w.mem i))
  | .popBack i => w.after i (strong (w.store i) (w.store i).popBack, w.mem i)
  | .push i digit pos =>
    w.after i (strongV (w.store i) (oneMore c ((w.store i).push (freely false) digit pos) (w.store i).digits.length) (w.mem i))
  | .pop i pos => w.after i (strong (w.store i) ((w.store i).pop pos), w.mem i)
  | .setAt i k digit => w.after i (strong (w.store i) ((w.store i).setAt k digit), w.mem i)
  | .clear i => some { w with store := w.store.set i (w.store i).clear }
  | .arith k i j => w.after i (k.assignV c.toPlant o L debug fuel (w.store i) (rhsOf w.store i j) (w.mem i))
  | .binary k i j l => binaryAssignV c o L debug fuel k w i j l

/-- Execution of a sequence of statements. -/
def runV {F : Type} (o : FloatOps F) (L : Limits) (debug : Bool) (fuel : Nat) : World → List Op → Option World
  | w, [] => some w
  | w, op :: ops => (op.stepV c o L debug fuel w).bind fun w' => runV o L debug fuel w' ops

end
end BN
