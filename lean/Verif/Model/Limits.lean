import Verif.Model.IntType
/-
Digit types and limits: bn_limits.h, impl/bn_limits_impl.h, bn_int_type.h:139-153.
-/
namespace BN

/-- Type of an expression over digits: a built-in integer, or `BNIntType<uint<w>_t, id>`. -/
inductive Ty where
  | prim (t : CTy)
  | bni (w : Nat)
  deriving DecidableEq, Repr

/-- A digit expression value. -/
structure Val where
  ty : Ty
  val : Int
  deriving DecidableEq, Repr

/-- The built-in integer type underlying a digit type (for `BNIntType`: the type its conversion
operator yields, bn_int_type_impl.h:67-69). -/
def Ty.raw : Ty → CTy
  | .prim t => t
  | .bni w => cU w

/-- View as a built-in integer (implicit `operator numType()` for `BNIntType`). -/
def Val.raw (v : Val) : CVal := ⟨v.ty.raw, v.val⟩

/-- Conversion to a digit type: integral conversion, for `BNIntType` through the
`BNIntType(const numType&)`/`BNIntType(numType&&)` constructors (bn_int_type_impl.h:27-34). -/
def Val.conv (t : Ty) (v : Val) : Val := ⟨t, t.raw.wrap v.val⟩

/-- Binary operators as overload resolution selects them:
* two built-in integers: the built-in operator;
* `BNIntType op BNIntType` and `BNIntType op numType`: the member operator (`BNInt.bin`), a built-in
  right operand being converted to `numType` first;
* built-in `op` `BNIntType`: `n op bni.num` (bn_int_type_impl.h:190-194) or, if the types do not match,
  the built-in operator after the implicit conversion — the same computation. -/
def Val.bin (op : BinOp) (x y : Val) : Res Val :=
  match x.ty, y.ty with
  | .bni w, _ => do
    let r ← BNInt.bin w op x.val.toNat ((cU w).wrap y.val).toNat
    .ok ⟨.bni w, r⟩
  | .prim _, _ => do
    let r ← CVal.bin op x.raw y.raw
    .ok ⟨.prim r.ty, r.val⟩

/-- Comparison operators (`BNIntType` comparisons compare `num`, bn_int_type_impl.h:167-183, 218-229). -/
def Val.cmp (op : CmpOp) (x y : Val) : Bool := CVal.cmp op x.raw y.raw

/-- Contextual conversion to bool (`!remainder`, `if (carry)`, `if (ret[i])`). -/
def Val.truthy (v : Val) : Bool := v.val ≠ 0

/-- `BNLimitsType<base_single_t, base_double_t>` (bn_limits.h:138-182) together with
`bn_max_limit<base_single_t>()`. `bn_min_limit` is 0 for every digit type (bn_limits_impl.h:9-82). -/
structure Limits where
  single : Ty
  double : Ty
  maxLimit : Nat
  deriving DecidableEq, Repr

namespace Limits

/-- The numerical base: `SINGLE_BASE_MAX + 1`. -/
def base (L : Limits) : Nat := L.maxLimit + 1

/-- `bn_min_limit<T>()`, 0 for all types. bn_limits_impl.h:9-13, 35-82. -/
def minLimit (_ : Limits) : Nat := 0

/-- `bn_limits_lowp`  bn_limits.h:189 -/
def lowp : Limits := ⟨.prim (cU 8), .prim (cU 16), 2 ^ 8 - 1⟩
/-- `bn_limits_medp`  bn_limits.h:190 -/
def medp : Limits := ⟨.prim (cU 16), .prim (cU 32), 2 ^ 16 - 1⟩
/-- `bn_limits_highp` bn_limits.h:191; the default `bignum`, bignum.h:44 -/
def highp : Limits := ⟨.prim (cU 32), .prim (cU 64), 2 ^ 32 - 1⟩
/-- `BNLimitsType<uint<w>_t, uint<w2>_t>`: the template accepts any pair of built-in unsigned types
(bn_limits.h:138-182, bn_limits_impl.h:9-32). -/
def pair (w w2 : Nat) : Limits := ⟨.prim (cU w), .prim (cU w2), 2 ^ w - 1⟩
/-- A custom base `max+1` stored in `BNIntType<uint<w>_t, id>`; as in the presets bn_limits.h:193-196 the
double type is the same class as the single type. -/
def custom (w max : Nat) : Limits := ⟨.bni w, .bni w, max⟩
/-- `bn_limits_base2`  bn_limits.h:193, bn_int_type.h:143, bn_limits_impl.h:35-38 -/
def base2 : Limits := custom 8 1
/-- `bn_limits_base8`  bn_limits.h:194, bn_int_type.h:146, bn_limits_impl.h:48-51 -/
def base8 : Limits := custom 16 7
/-- `bn_limits_base10` bn_limits.h:195, bn_int_type.h:149, bn_limits_impl.h:61-64 -/
def base10 : Limits := custom 32 9
/-- `bn_limits_base16` bn_limits.h:196, bn_int_type.h:152, bn_limits_impl.h:74-77 -/
def base16 : Limits := custom 32 15
/-- `bn_limits_base256` tests/compress_test.cpp:34-50 -/
def base256 : Limits := custom 16 255

/-- A digit read from a container, as an expression of type `bn_single`. -/
def digit (L : Limits) (d : Nat) : Val := ⟨L.single, d⟩
/-- A constant converted to `bn_single`, `(bn_single)n`. -/
def toSingle (L : Limits) (n : Int) : Val := ⟨L.single, L.single.raw.wrap n⟩
/-- A constant converted to `bn_double`, `(bn_double)n`. -/
def toDouble (L : Limits) (n : Int) : Val := ⟨L.double, L.double.raw.wrap n⟩

/-- Storing a value into a container cell of type `bn_single`. -/
def store (L : Limits) (v : Val) : Nat := (v.conv L.single).val.toNat

end Limits
end BN
