import Verif.Model.CInt
/-
`BNIntType<numType, intId>` with `numType = uint<w>_t` (impl/bn_int_type_impl.h).
The object's only member is `num` (bn_int_type.h:26); a value is modelled by the natural number stored
in it.  `intId` only distinguishes types and has no influence on behaviour.
-/
namespace BN
namespace BNInt

/-- `num op bni.num` / `num op n` followed by the cast `(numType)(...)` and construction of the result.
bn_int_type_impl.h:126-135, instantiated for the ten operators at 151-160. -/
def bin (w : Nat) (op : BinOp) (a b : Nat) : Res Nat := do
  let r ← CVal.bin op ⟨cU w, a⟩ ⟨cU w, b⟩
  .ok ((cU w).wrap r.val).toNat

/-- `num op##= bni.num` / `num op##= n`: compound assignment, which converts the result back to
`numType`; returns the new value of `num`.  bn_int_type_impl.h:137-147. -/
def assignOp (w : Nat) (op : BinOp) (a b : Nat) : Res Nat := do
  let r ← CVal.bin op ⟨cU w, a⟩ ⟨cU w, b⟩
  .ok ((cU w).wrap r.val).toNat

/-- `n op bni.num` returned as `numType` (left operand a plain integer). bn_int_type_impl.h:190-194. -/
def binR (w : Nat) (op : BinOp) (n b : Nat) : Res Nat := do
  let r ← CVal.bin op ⟨cU w, n⟩ ⟨cU w, b⟩
  .ok ((cU w).wrap r.val).toNat

/-- `num op bni.num` / `num op n` for the six comparisons. bn_int_type_impl.h:167-183. -/
def cmp (w : Nat) (op : CmpOp) (a b : Nat) : Bool := CVal.cmp op ⟨cU w, a⟩ ⟨cU w, b⟩

/-- `n op bni.num`, plain integer on the left. bn_int_type_impl.h:218-229. -/
def cmpR (w : Nat) (op : CmpOp) (n b : Nat) : Bool := CVal.cmp op ⟨cU w, n⟩ ⟨cU w, b⟩

/-- Unary `!`, `+`, `-`, `~` with the cast to `numType`. bn_int_type_impl.h:103-121. -/
def un (w : Nat) (op : UnOp) (a : Nat) : Res Nat := do
  let r ← CVal.un op ⟨cU w, a⟩
  .ok ((cU w).wrap r.val).toNat

/-- `++num` on the stored integer: `num = num + 1` converted to `numType` ([expr.pre.incr]). -/
def incNum (w : Nat) (a : Nat) : Res Nat := do
  let r ← CVal.bin .add ⟨cU w, a⟩ ⟨cInt, 1⟩
  .ok ((cU w).wrap r.val).toNat

/-- `--num` on the stored integer. -/
def decNum (w : Nat) (a : Nat) : Res Nat := do
  let r ← CVal.bin .sub ⟨cU w, a⟩ ⟨cInt, 1⟩
  .ok ((cU w).wrap r.val).toNat

/-- A step operator: new object value and returned value. -/
structure Step where
  self : Nat
  ret : Nat
  deriving DecidableEq, Repr

/-- `operator++(int)` bn_int_type_impl.h:75-79. -/
def postInc (w a : Nat) : Res Step := do
  let ret := a
  let n ← incNum w a
  .ok ⟨n, ret⟩

/-- `operator--(int)` bn_int_type_impl.h:82-86. -/
def postDec (w a : Nat) : Res Step := do
  let ret := a
  let n ← decNum w a
  .ok ⟨n, ret⟩

/-- `operator++()` bn_int_type_impl.h:89-92. -/
def preInc (w a : Nat) : Res Step := do
  let n ← incNum w a
  .ok ⟨n, n⟩

/-- `operator--()` bn_int_type_impl.h:95-98. -/
def preDec (w a : Nat) : Res Step := do
  let n ← decNum w a
  .ok ⟨n, n⟩

end BNInt
end BN
