import Verif.Model.Binary64
/-
`fft_complex<float>` and its companions (fourier_impl.h:40-170 with `flt_t` = `float`) on a platform whose `float` is IEEE 754-2008 binary32
and whose `double` is binary64. Not part of /repo, as `Model/Binary64`. Every datum of binary32 is one of binary64, so the data are those
of `B64`; the rounding is that of binary32.
-/
namespace BN

namespace B32
open B64

/-- The finite data of the format (IEEE 754-2008, 3.4): 24 bits, exponents of the last place from -149 to 104. -/
def Finite : B64 → Prop
  | num _ k e => k < 2 ^ 24 ∧ -149 ≤ e ∧ e ≤ 104
  | _ => False

/-- Exponent of the last place that x ≠ 0 is rounded to. -/
def lastPlace (x : ℚ) : ℤ := max (Int.log 2 |x| - 23) (-149)

/-- Rounding (IEEE 754-2008, 4.3.1); `z` is the sign if x is zero. -/
def roundQ (z : Bool) (x : ℚ) : B64 :=
  if x = 0 then num z 0 (-149)
  else
    let e := lastPlace x
    let k := (nearestEven (|x| / 2 ^ e)).toNat
    if k = 2 ^ 24 then if e + 1 ≤ 104 then num (decide (x < 0)) (2 ^ 23) (e + 1) else inf (decide (x < 0))
    else if e ≤ 104 then num (decide (x < 0)) k e else inf (decide (x < 0))

def add : B64 → B64 → B64
  | nan, _ => nan
  | _, nan => nan
  | inf s, inf t => if s = t then inf s else nan
  | inf s, num _ _ _ => inf s
  | num _ _ _, inf t => inf t
  | num s k e, num t l f => roundQ (s && t) (toRat (num s k e) + toRat (num t l f))

def sub (x y : B64) : B64 := add x (neg y)

def mul : B64 → B64 → B64
  | nan, _ => nan
  | _, nan => nan
  | inf s, inf t => inf (s != t)
  | inf s, num t l _ => if l = 0 then nan else inf (s != t)
  | num s k _, inf t => if k = 0 then nan else inf (s != t)
  | num s k e, num t l f => roundQ (s != t) (toRat (num s k e) * toRat (num t l f))

def div : B64 → B64 → B64
  | nan, _ => nan
  | _, nan => nan
  | inf _, inf _ => nan
  | inf s, num t _ _ => inf (s != t)
  | num s _ _, inf t => num (s != t) 0 (-149)
  | num s k e, num t l f =>
    if l = 0 then if k = 0 then nan else inf (s != t)
    else roundQ (s != t) (toRat (num s k e) / toRat (num t l f))

/-- x · y + z rounded once. -/
def fma (x y z : B64) : B64 :=
  match x, y, z with
  | num s k e, num t l f, num u m g =>
    roundQ ((s != t) && u) (toRat (num s k e) * toRat (num t l f) + toRat (num u m g))
  | num _ _ _, num _ _ _, z => z
  | x, y, z => add (mul x y) z

/-- `std::floor(float)` -/
def floor : B64 → B64
  | num s k e => roundQ s ⌊toRat (num s k e)⌋
  | x => x

/-- Conversion of a `double` to `float` [conv.double]. -/
def ofDouble : B64 → B64
  | num s k e => roundQ s (toRat (num s k e))
  | x => x

end B32

/-- An expression of type `double` or `float`. -/
structure FVal where
  dbl : Bool
  v : B64
  deriving DecidableEq, Repr

namespace FVal

/-- An operator applied to two operands: in `double` if one of them is a `double` [expr.arith.conv]. -/
def op (f g : B64 → B64 → B64) (x y : FVal) : FVal :=
  let d := x.dbl || y.dbl
  ⟨d, if d then f x.v y.v else g x.v y.v⟩

/-- x · y + z rounded once, likewise. -/
def fma (x y z : FVal) : FVal :=
  let d := x.dbl || y.dbl || z.dbl
  ⟨d, if d then B64.fma x.v y.v z.v else B32.fma x.v y.v z.v⟩

def neg (x : FVal) : FVal := ⟨x.dbl, B64.neg x.v⟩

/-- Conversion to `float`, as the initialisation of `const flt_t w` does. -/
def toFloat (x : FVal) : B64 := if x.dbl then B32.ofDouble x.v else x.v

def add : FVal → FVal → FVal := op B64.add B32.add
def sub : FVal → FVal → FVal := op B64.sub B32.sub
def mul : FVal → FVal → FVal := op B64.mul B32.mul
def div : FVal → FVal → FVal := op B64.div B32.div

end FVal

/-- The operations with the types the language gives them: the literals `-2.0` and `0.5` are `double`s, so the angle is computed in `double` and
becomes a `float` when it is stored in `w` (fourier_impl.h:80); everything else is done in `float`. `lib` are `std::cos(float)` and
`std::sin(float)`. -/
def binary32 (lib : MathLib) (fuse : FVal → FVal → FVal → FVal → Contraction) : FloatOps FVal where
  ofNat n := ⟨false, B32.roundQ false n⟩
  add := FVal.add
  sub := FVal.sub
  mul := FVal.mul
  mulSub x y z w := match fuse x y z w with
    | .separate => (x.mul y).sub (z.mul w)
    | .first => x.fma y (z.mul w).neg
    | .second => z.neg.fma w (x.mul y)
  mulAdd x y z w := match fuse x y z w with
    | .separate => (x.mul y).add (z.mul w)
    | .first => x.fma y (z.mul w)
    | .second => z.fma w (x.mul y)
  div := FVal.div
  neg := FVal.neg
  cos x := ⟨false, lib.cos x.toFloat⟩
  sin x := ⟨false, lib.sin x.toFloat⟩
  floor x := ⟨x.dbl, if x.dbl then B64.floor x.v else B32.floor x.v⟩
  trunc x := B64.trunc x.v
  pi := ⟨false, B32.roundQ false (31415926535897932384626433832795 / 10 ^ 31)⟩   -- fourier_impl.h:42
  negTwo := ⟨true, B64.roundQ false (-2)⟩
  half := ⟨true, B64.roundQ false (1 / 2)⟩
  quarter := ⟨false, B32.roundQ false (1 / 4)⟩

end BN
