import Verif.Model.Basic
/-
The part of the C++11 integer semantics that the library's arithmetic relies on.
Not taken from /repo: it is the language definition ([conv.prom], [expr] 5/9, [expr.mul], [expr.add],
[expr.shift], [conv.integral]) for a platform with 32-bit `int` and 64-bit `size_t`.
-/
namespace BN

/-- A C++ integer type. -/
structure CTy where
  bits : Nat
  signed : Bool
  deriving DecidableEq, Repr

def cInt : CTy := ⟨32, true⟩          -- int
def cU (w : Nat) : CTy := ⟨w, false⟩   -- uint8_t, uint16_t, uint32_t (= unsigned), uint64_t (= size_t)

/-- A value of C++ integer type. -/
structure CVal where
  ty : CTy
  val : Int
  deriving DecidableEq, Repr

/-- Integral conversion of a mathematical integer to type `t` [conv.integral]
(modulo 2^bits; the signed out-of-range case is implementation-defined, modelled as two's complement). -/
def CTy.wrap (t : CTy) (z : Int) : Int :=
  if t.signed then Int.bmod z (2 ^ t.bits) else z % (2 ^ t.bits)

def CVal.cast (t : CTy) (v : CVal) : CVal := ⟨t, t.wrap v.val⟩

/-- Integral promotion [conv.prom]: types narrower than `int` become `int`. -/
def CTy.promote (t : CTy) : CTy := if t.bits < 32 then cInt else t

/-- Usual arithmetic conversions [expr] p9, for already promoted types. -/
def CTy.common (s t : CTy) : CTy :=
  if s.bits = t.bits then ⟨s.bits, s.signed && t.signed⟩
  else if s.bits < t.bits then t else s

/-- The representable range of a type. -/
def CTy.fits (t : CTy) (z : Int) : Bool :=
  if t.signed then decide (-(2 ^ (t.bits - 1)) ≤ z ∧ z < 2 ^ (t.bits - 1))
  else decide (0 ≤ z ∧ z < 2 ^ t.bits)

/-- Result of an arithmetic operation whose mathematical value is `z`, computed in type `t`:
unsigned arithmetic wraps, signed overflow is undefined. -/
def CTy.result (t : CTy) (z : Int) : Res CVal :=
  if t.signed then
    if t.fits z then .ok ⟨t, z⟩ else .error (.ub .signedOverflow)
  else .ok ⟨t, z % (2 ^ t.bits)⟩

/-- The two's complement bit pattern of a value, as a natural number. -/
def CTy.pattern (t : CTy) (z : Int) : Nat := (z % (2 ^ t.bits)).toNat

inductive BinOp where
  | add | sub | mul | div | mod | and | or | xor | shr | shl
  deriving DecidableEq, Repr

/-- A built-in binary operator on two integer values. -/
def CVal.bin (op : BinOp) (x y : CVal) : Res CVal :=
  let px := x.ty.promote
  let t := px.common y.ty.promote
  let a := t.wrap x.val
  let b := t.wrap y.val
  match op with
  | .add => t.result (a + b)
  | .sub => t.result (a - b)
  | .mul => t.result (a * b)
  | .div => if b = 0 then .error (.ub .divByZero) else t.result (Int.tdiv a b)
  | .mod => if b = 0 then .error (.ub .divByZero) else t.result (Int.tmod a b)
  | .and => .ok ⟨t, t.wrap (t.pattern a &&& t.pattern b)⟩
  | .or  => .ok ⟨t, t.wrap (t.pattern a ||| t.pattern b)⟩
  | .xor => .ok ⟨t, t.wrap (t.pattern a ^^^ t.pattern b)⟩
  | .shr =>
    -- the result has the promoted left type; right operand only gives the amount
    if y.val < 0 ∨ (px.bits : Int) ≤ y.val then .error (.ub .badShift)
    else .ok ⟨px, px.wrap (x.val / (2 ^ y.val.toNat))⟩
  | .shl =>
    if y.val < 0 ∨ (px.bits : Int) ≤ y.val then .error (.ub .badShift)
    else if px.signed then
      -- C++11 + CWG1457: E1·2^E2 must be representable in the corresponding unsigned type
      if x.val < 0 ∨ 2 ^ px.bits ≤ x.val * 2 ^ y.val.toNat then .error (.ub .badShift)
      else .ok ⟨px, px.wrap (x.val * 2 ^ y.val.toNat)⟩
    else .ok ⟨px, px.wrap (x.val * 2 ^ y.val.toNat)⟩

inductive CmpOp where
  | eq | ne | gt | ge | lt | le
  deriving DecidableEq, Repr

def CmpOp.eval (op : CmpOp) (a b : Int) : Bool :=
  match op with
  | .eq => decide (a = b)
  | .ne => decide (a ≠ b)
  | .gt => decide (b < a)
  | .ge => decide (b ≤ a)
  | .lt => decide (a < b)
  | .le => decide (a ≤ b)

/-- A built-in comparison. -/
def CVal.cmp (op : CmpOp) (x y : CVal) : Bool :=
  let t := x.ty.promote.common y.ty.promote
  op.eval (t.wrap x.val) (t.wrap y.val)

/-- Built-in unary operators `!`, `+`, `-`, `~`. -/
inductive UnOp where
  | lnot | plus | neg | bnot
  deriving DecidableEq, Repr

def CVal.un (op : UnOp) (x : CVal) : Res CVal :=
  let t := x.ty.promote
  match op with
  | .lnot => .ok ⟨cInt, if x.val = 0 then 1 else 0⟩   -- bool, used as an integer
  | .plus => .ok ⟨t, x.val⟩
  | .neg  => t.result (- x.val)
  | .bnot => .ok ⟨t, t.wrap (- x.val - 1)⟩

end BN
