import Verif.Model.Fourier
import Mathlib.Data.Int.Log
import Mathlib.Data.Rat.Floor
/-
The type `double` of the code (bn_multiplication_impl.h:18) as IEEE 754-2008 binary64 with rounding to nearest, ties to
even: finite numbers, signed zeros, subnormal numbers, infinities and NaN. Not part of /repo; it says what the operations
of `FloatOps` are on the usual platforms. NaN payloads, signalling NaNs and status flags are left out.
-/
namespace BN

/-- A binary64 datum. `num s k e` is (-1)^s · k · 2^e. -/
inductive B64 where
  | nan
  | inf (neg : Bool)
  | num (neg : Bool) (k : Nat) (e : Int)
  deriving DecidableEq, Repr

namespace B64

/-- The finite data of the format (IEEE 754-2008, 3.4): 53 bits, exponents of the last place from -1074 to 971. -/
def Finite : B64 → Prop
  | num _ k e => k < 2 ^ 53 ∧ -1074 ≤ e ∧ e ≤ 971
  | _ => False

/-- The number a finite datum stands for. -/
def toRat : B64 → ℚ
  | num s k e => (if s then -1 else 1) * (k * 2 ^ e)
  | _ => 0

/-- The integer nearest to q, the even one of two. -/
def nearestEven (q : ℚ) : ℤ :=
  if q - ⌊q⌋ < 1 / 2 then ⌊q⌋
  else if 1 / 2 < q - ⌊q⌋ then ⌊q⌋ + 1
  else if ⌊q⌋ % 2 = 0 then ⌊q⌋ else ⌊q⌋ + 1

/-- Exponent of the last place that x ≠ 0 is rounded to. -/
def lastPlace (x : ℚ) : ℤ := max (Int.log 2 |x| - 52) (-1074)

/-- Rounding (IEEE 754-2008, 4.3.1); `z` is the sign if x is zero. -/
def roundQ (z : Bool) (x : ℚ) : B64 :=
  if x = 0 then num z 0 (-1074)
  else
    let e := lastPlace x
    let k := (nearestEven (|x| / 2 ^ e)).toNat
    if k = 2 ^ 53 then if e + 1 ≤ 971 then num (decide (x < 0)) (2 ^ 52) (e + 1) else inf (decide (x < 0))
    else if e ≤ 971 then num (decide (x < 0)) k e else inf (decide (x < 0))

def neg : B64 → B64
  | nan => nan
  | inf s => inf !s
  | num s k e => num (!s) k e

/-- An exact sum that is zero is +0 unless both operands are negative (6.3). -/
def add : B64 → B64 → B64
  | nan, _ => nan
  | _, nan => nan
  | inf s, inf t => if s = t then inf s else nan
  | inf s, num _ _ _ => inf s
  | num _ _ _, inf t => inf t
  | num s k e, num t l f => roundQ (s && t) (toRat (num s k e) + toRat (num t l f))

def sub (x y : B64) : B64 := add x (neg y)

def mul : B64 → B64 → B64
  | nan, _ => nan
  | _, nan => nan
  | inf s, inf t => inf (s != t)
  | inf s, num t l _ => if l = 0 then nan else inf (s != t)
  | num s k _, inf t => if k = 0 then nan else inf (s != t)
  | num s k e, num t l f => roundQ (s != t) (toRat (num s k e) * toRat (num t l f))

def div : B64 → B64 → B64
  | nan, _ => nan
  | _, nan => nan
  | inf _, inf _ => nan
  | inf s, num t _ _ => inf (s != t)
  | num s _ _, inf t => num (s != t) 0 (-1074)
  | num s k e, num t l f =>
    if l = 0 then if k = 0 then nan else inf (s != t)
    else roundQ (s != t) (toRat (num s k e) / toRat (num t l f))

/-- x · y + z rounded once (`fusedMultiplyAdd`, 5.4.1). -/
def fma (x y z : B64) : B64 :=
  match x, y, z with
  | num s k e, num t l f, num u m g =>
    roundQ ((s != t) && u) (toRat (num s k e) * toRat (num t l f) + toRat (num u m g))
  | num _ _ _, num _ _ _, z => z
  | x, y, z => add (mul x y) z

/-- `std::floor` -/
def floor : B64 → B64
  | num s k e => roundQ s ⌊toRat (num s k e)⌋
  | x => x

/-- The fraction is discarded [conv.fpint]. For an infinity or NaN the conversion is undefined, as it is for a number
that no integer type holds. -/
def trunc : B64 → Int
  | num s k e => if 0 ≤ toRat (num s k e) then ⌊toRat (num s k e)⌋ else ⌈toRat (num s k e)⌉
  | _ => 2 ^ 200

end B64

/-- The mathematical library. -/
structure MathLib where
  cos : B64 → B64
  sin : B64 → B64

/-- What a compiler may do with a sum of two products (`FP_CONTRACT`, `-ffp-contract`): round both products, or keep the first
or the second unrounded. -/
inductive Contraction where
  | separate
  | first
  | second
  deriving DecidableEq, Repr

/-- The choices of a compiler. They may differ from operand to operand, and so from one place of the code to another. -/
abbrev Fusing := B64 → B64 → B64 → B64 → Contraction

/-- `double` with a mathematical library and a compiler. -/
def binary64 (lib : MathLib) (fuse : Fusing) : FloatOps B64 where
  ofNat n := B64.roundQ false n
  add := B64.add
  sub := B64.sub
  mul := B64.mul
  mulSub x y z w := match fuse x y z w with
    | .separate => B64.sub (B64.mul x y) (B64.mul z w)
    | .first => B64.fma x y (B64.neg (B64.mul z w))
    | .second => B64.fma (B64.neg z) w (B64.mul x y)
  mulAdd x y z w := match fuse x y z w with
    | .separate => B64.add (B64.mul x y) (B64.mul z w)
    | .first => B64.fma x y (B64.mul z w)
    | .second => B64.fma z w (B64.mul x y)
  div := B64.div
  neg := B64.neg
  cos := lib.cos
  sin := lib.sin
  floor := B64.floor
  trunc := B64.trunc
  pi := B64.roundQ false (31415926535897932384626433832795 / 10 ^ 31)            -- fourier_impl.h:42
  negTwo := B64.roundQ false (-2)
  half := B64.roundQ false (1 / 2)
  quarter := B64.roundQ false (1 / 4)

end BN
