import Verif.Model.Div
import Verif.Model.MulNaive
import Verif.Model.MulStrassen
/-
class `Bignum` (bn_type.h, impl/bn_type_impl.h)
-/
namespace BN

/-- `bn_desc_t`, bn_type.h:30-36 -/
inductive Desc where
  | pos | neg | nan | posInf | negInf
  deriving DecidableEq, Repr

/-- Data members, bn_type.h:103-104. `digits` = `numData`, least significant first. -/
structure Bignum where
  desc : Desc
  digits : List Nat
  deriving DecidableEq, Repr

/-- Result of a mutating member function: the object afterwards, an exception together with the object
the caller is left with, undefined behaviour, or no result within the budget. -/
inductive Out where
  | ok (self : Bignum)
  | threw (e : Exn) (self : Bignum)
  | ub (k : UB)
  | timeout
  deriving DecidableEq, Repr

/-- Right operand of a compound operator: another object or `*this` itself. -/
inductive Rhs where
  | other (b : Bignum)
  | self

def Rhs.get (r : Rhs) (this : Bignum) : Bignum :=
  match r with
  | .other b => b
  | .self => this

def Rhs.src : Rhs → Src
  | .other b => .other b.digits
  | .self => .self

namespace Bignum

/-- `Bignum()`, bn_type_impl.h:51 with the member initialisers bn_type.h:103-104 -/
def default : Bignum := ⟨.pos, []⟩

/-- Count of leading zeroes of the initializer list, bn_type_impl.h:69-79 -/
def countLeading : List Nat → Nat
  | [] => 0
  | v :: vs => if v ≠ 0 then 0 else countLeading vs + 1

/-- The copy loop bn_type_impl.h:84-93: state `leadingZeroes`, `outIter`, `numData`. -/
def ctorLoop : List Nat → Nat → Nat → List Nat → Res (List Nat)
  | [], _, _, data => .ok data
  | v :: vs, leadingZeroes, outIter, data =>
    match leadingZeroes with
    | lz + 1 => ctorLoop vs lz outIter data
    | 0 =>
      match outIter with
      | 0 => .error (.ub .outOfBounds)            -- --outIter would wrap
      | k + 1 => do
        let data ← Vec.wr data k v
        ctorLoop vs 0 k data

/-- `Bignum(desc, {most significant, ..., least significant})`, bn_type_impl.h:58-94 -/
def ofList (env : Env) (desc : Desc) (numList : List Nat) : Res Bignum := do
  if numList.length = 0 then .ok ⟨desc, []⟩
  else
    let lz := countLeading numList
    let data ← Vec.resize env [] (numList.length - lz) 0
    let data ← ctorLoop numList lz data.length data
    .ok ⟨desc, data⟩

/-- Copy constructor / copy assignment, bn_type_impl.h:100-103, 385-389 -/
def copy (env : Env) (num : Bignum) : Res Bignum := do
  let d ← Vec.copy env num.digits
  .ok ⟨num.desc, d⟩

/-- Move constructor, bn_type_impl.h:109-114: the new object and what is left of the source (a moved-from
vector is empty; the source keeps its descriptor). -/
def moveCtor (num : Bignum) : Bignum × Bignum := (⟨num.desc, num.digits⟩, ⟨num.desc, []⟩)

/-- Move assignment from a different object, bn_type_impl.h:396-403: new `*this` and the source. -/
def moveAssign (num : Bignum) : Bignum × Bignum := (⟨num.desc, num.digits⟩, ⟨.pos, []⟩)

/-- `getData`, `getDescriptor`, `size`, bn_type_impl.h:121-131, 199-201 -/
def getData (b : Bignum) : List Nat := b.digits
def getDescriptor (b : Bignum) : Desc := b.desc
def size (b : Bignum) : Nat := b.digits.length

/-- `setDescriptor`, bn_type_impl.h:137-150 -/
def setDescriptor (b : Bignum) (desc : Desc) : Bignum :=
  match desc with
  | .nan => ⟨desc, []⟩
  | .posInf => ⟨desc, []⟩
  | .negInf => ⟨desc, []⟩
  | _ => ⟨desc, b.digits⟩

/-- bn_type_impl.h:156-182 -/
def isPositive (b : Bignum) : Bool := b.desc == .pos || b.desc == .posInf
def isNegative (b : Bignum) : Bool := b.desc == .neg || b.desc == .negInf
def isInfinite (b : Bignum) : Bool := b.desc == .posInf || b.desc == .negInf
def isNan (b : Bignum) : Bool := b.desc == .nan

/-- `isComputable`, bn_type_impl.h:708-719 -/
def isComputable (d : Desc) : Bool :=
  match d with
  | .nan => false
  | .posInf => false
  | .negInf => false
  | _ => true

/-- `resize`, bn_type_impl.h:188-192 -/
def resize (env : Env) (b : Bignum) (n : Nat) (digit : Nat) : Res Bignum := do
  let d ← Vec.resize env b.digits n digit
  .ok ⟨b.desc, d⟩

/-- `push_front`, bn_type_impl.h:207-209 -/
def pushFront (env : Env) (b : Bignum) (digit : Nat) : Res Bignum := do
  let d ← Vec.insert env b.digits 0 digit
  .ok ⟨b.desc, d⟩

/-- `pop_front`, bn_type_impl.h:215-217 -/
def popFront (b : Bignum) : Res Bignum := do
  let d ← Vec.erase b.digits 0
  .ok ⟨b.desc, d⟩

/-- `push_back`, bn_type_impl.h:223-225 -/
def pushBack (env : Env) (b : Bignum) (digit : Nat) : Res Bignum := do
  let d ← Vec.pushBack env b.digits digit
  .ok ⟨b.desc, d⟩

/-- `pop_back`, bn_type_impl.h:231-233 -/
def popBack (b : Bignum) : Res Bignum := do
  let d ← Vec.popBack b.digits
  .ok ⟨b.desc, d⟩

/-- `push`, bn_type_impl.h:239-243 -/
def push (env : Env) (b : Bignum) (digit pos : Nat) : Res Bignum := do
  let d ← Vec.insert env b.digits pos digit
  .ok ⟨b.desc, d⟩

/-- `pop`, bn_type_impl.h:249-251 -/
def pop (b : Bignum) (pos : Nat) : Res Bignum := do
  let d ← Vec.erase b.digits pos
  .ok ⟨b.desc, d⟩

/-- `clear`, bn_type_impl.h:257-260 -/
def clear (_ : Bignum) : Bignum := ⟨.pos, []⟩

/-- `operator[]` (both overloads, reading), bn_type_impl.h:266-280; `BN_ASSERT` throws `BN_ERROR`. -/
def at_ (b : Bignum) (i : Nat) : Res Nat :=
  if i < b.digits.length then Vec.rd b.digits i else .error (.exn .bnError)

/-- `b[i] = d` through the non-const `operator[]`, bn_type_impl.h:266-270 -/
def setAt (b : Bignum) (i d : Nat) : Res Bignum :=
  if i < b.digits.length then do
    let v ← Vec.wr b.digits i d
    .ok ⟨b.desc, v⟩
  else .error (.exn .bnError)

/-- `operator==`, bn_type_impl.h:286-291 -/
def eq (a b : Bignum) : Res Bool :=
  if a.desc ≠ b.desc then .ok false else absEq a.digits b.digits

/-- `operator!=`, bn_type_impl.h:297-302 -/
def ne (a b : Bignum) : Res Bool :=
  if a.desc ≠ b.desc then .ok true
  else do
    let r ← absEq a.digits b.digits
    .ok (!r)

/-- `operator>`, bn_type_impl.h:308-321 -/
def gt (a b : Bignum) : Res Bool :=
  if a.desc = .pos ∧ b.desc = .neg then .ok true
  else if a.desc = .neg ∧ b.desc = .pos then .ok false
  else if a.desc = .neg ∧ b.desc = .neg then absLe a.digits b.digits
  else absGt a.digits b.digits

/-- `operator>=`, bn_type_impl.h:327-340 -/
def ge (a b : Bignum) : Res Bool :=
  if a.desc = .pos ∧ b.desc = .neg then .ok true
  else if a.desc = .neg ∧ b.desc = .pos then .ok false
  else if a.desc = .neg ∧ b.desc = .neg then absLt a.digits b.digits
  else absGe a.digits b.digits

/-- `operator<`, bn_type_impl.h:346-359 -/
def lt (a b : Bignum) : Res Bool :=
  if a.desc = .pos ∧ b.desc = .neg then .ok false
  else if a.desc = .neg ∧ b.desc = .pos then .ok true
  else if a.desc = .neg ∧ b.desc = .neg then absGt a.digits b.digits
  else absLt a.digits b.digits

/-- `operator<=`, bn_type_impl.h:365-378 -/
def le (a b : Bignum) : Res Bool :=
  if a.desc = .pos ∧ b.desc = .neg then .ok false
  else if a.desc = .neg ∧ b.desc = .pos then .ok true
  else if a.desc = .neg ∧ b.desc = .neg then absGt a.digits b.digits
  else absLe a.digits b.digits

/-- The handlers `catch(const std::exception& e) { descriptor = ...; numData.clear(); throw e; }`,
bn_type_impl.h:506-513, 575-582, 622-629, 692-699. `throw e` copies the static type, so whatever class
derived from `std::exception` was caught, a plain `std::exception` leaves. `BN_ERROR` is not derived from
`std::exception` and is not caught. `d` is `num.descriptor` and `this` the object when it is evaluated. -/
def handle (this : Bignum) (d : Desc) (r : Res Bignum) : Out :=
  match r with
  | .ok b => .ok b
  | .error (.exn .bnError) => .threw .bnError this
  | .error (.exn _) => .threw .stdException ⟨if d = .pos then .posInf else .negInf, []⟩
  | .error (.ub k) => .ub k
  | .error .timeout => .timeout

/-- `try` block of `operator+=`, bn_type_impl.h:464-505 -/
def addTry (L : Limits) (env : Env) (fuel : Nat) (this : Bignum) (r : Rhs) : Res Bignum := do
  let num := r.get this
  if this.desc = .pos ∧ num.desc = .pos then
    let d ← absAdd L env fuel this.digits r.src
    .ok ⟨this.desc, d⟩
  else if this.desc = .pos ∧ num.desc = .neg then
    if ← absGe this.digits num.digits then
      let d ← absSub L env fuel this.digits r.src
      .ok ⟨this.desc, d⟩
    else
      let tempNum ← num.copy env
      let d ← absSub L env fuel tempNum.digits (.other this.digits)
      .ok ⟨.neg, d⟩
  else if this.desc = .neg ∧ num.desc = .pos then
    if ← absGe this.digits num.digits then
      let d ← absSub L env fuel this.digits r.src
      .ok ⟨this.desc, d⟩
    else
      let tempNum ← num.copy env
      let d ← absSub L env fuel tempNum.digits (.other this.digits)
      .ok ⟨.pos, d⟩
  else
    let d ← absAdd L env fuel this.digits r.src
    .ok ⟨this.desc, d⟩

/-- The guard `if (!isComputable(descriptor)) { numData.clear(); descriptor = num.descriptor; return; }`
common to the four compound operators, bn_type_impl.h:457-461, 526-530, 595-599, 642-646. -/
def notComputable (this : Bignum) (r : Rhs) : Bignum :=
  let this' : Bignum := ⟨this.desc, []⟩
  ⟨(r.get this').desc, []⟩

/-- `operator+=`, bn_type_impl.h:454-516 -/
def addAssign (L : Limits) (env : Env) (fuel : Nat) (this : Bignum) (r : Rhs) : Out :=
  if !isComputable this.desc then .ok (notComputable this r)
  else handle this (r.get this).desc (addTry L env fuel this r)

/-- `try` block of `operator-=`, bn_type_impl.h:533-574 -/
def subTry (L : Limits) (env : Env) (fuel : Nat) (this : Bignum) (r : Rhs) : Res Bignum := do
  let num := r.get this
  if this.desc = .pos ∧ num.desc = .pos then
    if ← absGe this.digits num.digits then
      let d ← absSub L env fuel this.digits r.src
      .ok ⟨this.desc, d⟩
    else
      let tempNum ← num.copy env
      let d ← absSub L env fuel tempNum.digits (.other this.digits)
      .ok ⟨.neg, d⟩
  else if this.desc = .pos ∧ num.desc = .neg then                                -- lines 549-553
    let g ← absGt this.digits num.digits
    let temp ← Vec.copy env (if g then this.digits else num.digits)
    let temp ← absSub L env fuel temp (.other num.digits)
    .ok ⟨this.desc, temp⟩
  else if this.desc = .neg ∧ num.desc = .pos then                                -- lines 555-559
    let g ← absGt this.digits num.digits
    let temp ← Vec.copy env (if g then this.digits else num.digits)
    let temp ← absSub L env fuel temp (.other num.digits)
    .ok ⟨this.desc, temp⟩
  else
    if ← absGe this.digits num.digits then
      let d ← absSub L env fuel this.digits r.src
      .ok ⟨this.desc, d⟩
    else
      let tempNum ← num.copy env
      let d ← absSub L env fuel tempNum.digits (.other this.digits)
      .ok ⟨.pos, d⟩

/-- `operator-=`, bn_type_impl.h:523-585 -/
def subAssign (L : Limits) (env : Env) (fuel : Nat) (this : Bignum) (r : Rhs) : Out :=
  if !isComputable this.desc then .ok (notComputable this r)
  else handle this (r.get this).desc (subTry L env fuel this r)

/-- The sign decision of `*=` and `/=`, bn_type_impl.h:604-615 and 651-662 -/
def mulSign (a b : Desc) : Desc :=
  if a = .pos ∧ b = .neg then .neg
  else if a = .neg ∧ b = .neg then .pos
  else if a = .neg ∧ b = .pos then .neg
  else .pos

/-- `operator*=`, bn_type_impl.h:592-632 -/
def mulAssign {F : Type} (o : FloatOps F) (L : Limits) (env : Env) (fuel : Nat) (this : Bignum) (r : Rhs) : Out :=
  if !isComputable this.desc then .ok (notComputable this r)
  else
    let num := r.get this
    handle this num.desc (do
      let d ← mulStrassen o L env fuel this.digits num.digits
      .ok ⟨mulSign this.desc num.desc, d⟩)

/-- `try` block of `operator/=`, bn_type_impl.h:682-691 (`this` already carries the new sign).
`numData = {bn_single{0}}` reuses the non-empty storage. If `num` is `*this` the first branch is not
taken (no digit exceeds itself), so passing the divisor by value is faithful. -/
def divTry (L : Limits) (env : Env) (fuel : Nat) (this : Bignum) (divisor : List Nat) : Res Bignum := do
  if ← absGt this.digits divisor then
    let d ← absDiv L env fuel this.digits divisor
    .ok ⟨this.desc, d⟩
  else
    .ok ⟨this.desc, [L.store (L.toSingle 0)]⟩

/-- `x.size() == 1 && x[0] == SINGLE_BASE_MIN`, bn_type_impl.h:664, 676 -/
def isOneDigit (x : List Nat) (v : Nat) : Bool := x.length == 1 && x.getD 0 0 == v

/-- `operator/=`, bn_type_impl.h:639-702 -/
def divAssign (L : Limits) (env : Env) (fuel : Nat) (this : Bignum) (r : Rhs) : Out :=
  if !isComputable this.desc then .ok (notComputable this r)
  else
    let this : Bignum := ⟨mulSign this.desc (r.get this).desc, this.digits⟩      -- lines 651-662
    let num := r.get this
    if isOneDigit num.digits 0 then                                              -- lines 664-669
      .ok ⟨if this.desc = .neg then .negInf else .posInf, []⟩
    else if isOneDigit num.digits 1 then .ok this                                -- lines 671-674
    else if this.digits = [] ∨ isOneDigit this.digits 0 then .ok this            -- lines 676-679
    else handle this num.desc (divTry L env fuel this num.digits)

/-- The binary operators copy `*this` and apply the compound operator to the copy,
bn_type_impl.h:410-447; the copy is destroyed when an exception leaves. -/
def viaCopy (env : Env) (f : Bignum → Rhs → Out) (this num : Bignum) : Res Bignum := do
  let ret ← this.copy env
  match f ret (.other num) with
  | .ok b => .ok b
  | .threw e _ => .error (.exn e)
  | .ub k => .error (.ub k)
  | .timeout => .error .timeout

/-- `operator+`, bn_type_impl.h:410-414 -/
def add (L : Limits) (env : Env) (fuel : Nat) (a b : Bignum) : Res Bignum :=
  viaCopy env (addAssign L env fuel) a b
/-- `operator-`, bn_type_impl.h:421-425 -/
def sub (L : Limits) (env : Env) (fuel : Nat) (a b : Bignum) : Res Bignum :=
  viaCopy env (subAssign L env fuel) a b
/-- `operator*`, bn_type_impl.h:432-436 -/
def mul {F : Type} (o : FloatOps F) (L : Limits) (env : Env) (fuel : Nat) (a b : Bignum) : Res Bignum :=
  viaCopy env (mulAssign o L env fuel) a b
/-- `operator/`, bn_type_impl.h:443-447 -/
def div (L : Limits) (env : Env) (fuel : Nat) (a b : Bignum) : Res Bignum :=
  viaCopy env (divAssign L env fuel) a b

/-- What `ostr << digit` writes for one digit: 8-bit types are written as a character, wider ones as a
decimal numeral (for `BNIntType`, bn_int_type_impl.h:237-239 streams the stored integer). -/
def showDigit (L : Limits) (d : Nat) : List Char :=
  if L.single.raw.bits = 8 then [Char.ofNat d] else Nat.toDigits 10 d

/-- The output loop bn_type_impl.h:39-42 (most significant digit first). -/
def showDigits (L : Limits) (ds : List Nat) : List Char := (ds.reverse.map (showDigit L)).flatten

/-- `operator<<`, bn_type_impl.h:18-45 -/
def toStream (L : Limits) (b : Bignum) : List Char :=
  let sign := if b.desc = .neg then ['-'] else []
  match b.desc with
  | .posInf => ['+', 'I', 'N', 'F']
  | .negInf => ['-', 'I', 'N', 'F']
  | .nan => ['N', 'a', 'N']
  | _ => if b.digits.length = 0 then sign ++ ['0'] else sign ++ showDigits L b.digits

end Bignum
end BN
