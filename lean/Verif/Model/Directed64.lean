import Verif.Model.Binary64
/-
binary64 as in Model/Binary64.lean, with the rounding mode of the processor (`fesetround`, <cfenv>) chosen anew for every operation.
Not part of /repo. The mode, and how sums of products are contracted, may depend on the whole computation that led to the operands;
one computation has one result, so a computation that the program repeats is rounded alike both times.
-/
namespace BN

/-- The rounding modes of IEEE 754. -/
inductive Mode
  | nearest | up | down | zero
  deriving DecidableEq

namespace B64

/-- What becomes of the magnitude q of a number, `neg` saying that the number is negative (IEEE 754-2008, 4.3.1 and 4.3.2). -/
def integerIn (neg : Bool) (q : ℚ) : Mode → ℤ
  | .nearest => nearestEven q
  | .up => if neg then ⌊q⌋ else ⌈q⌉
  | .down => if neg then ⌈q⌉ else ⌊q⌋
  | .zero => ⌊q⌋

/-- The greatest finite datum of the sign. -/
def most (neg : Bool) : B64 := num neg (2 ^ 53 - 1) 971

/-- The result of an overflow (7.4). -/
def overflowIn (neg : Bool) : Mode → B64
  | .nearest => inf neg
  | .up => if neg then most neg else inf neg
  | .down => if neg then inf neg else most neg
  | .zero => most neg

/-- Rounding; `z` is the sign if x is zero. -/
def roundIn (m : Mode) (z : Bool) (x : ℚ) : B64 :=
  if x = 0 then num z 0 (-1074)
  else
    let e := lastPlace x
    let k := (integerIn (decide (x < 0)) (|x| / 2 ^ e) m).toNat
    if k = 2 ^ 53 then if e + 1 ≤ 971 then num (decide (x < 0)) (2 ^ 52) (e + 1) else overflowIn (decide (x < 0)) m
    else if e ≤ 971 then num (decide (x < 0)) k e else overflowIn (decide (x < 0)) m

/-- The sign of an exact sum that is zero (6.3): the sign of both terms; else + except when rounding down. -/
def zeroSign (m : Mode) (s t : Bool) : Bool := if s = t then s else decide (m = .down)

def addIn (m : Mode) : B64 → B64 → B64
  | num s k e, num t l f => roundIn m (zeroSign m s t) (toRat (num s k e) + toRat (num t l f))
  | x, y => add x y

def mulIn (m : Mode) : B64 → B64 → B64
  | num s k e, num t l f => roundIn m (s != t) (toRat (num s k e) * toRat (num t l f))
  | x, y => mul x y

def divIn (m : Mode) : B64 → B64 → B64
  | num s k e, num t l f =>
    if l = 0 then div (num s k e) (num t l f) else roundIn m (s != t) (toRat (num s k e) / toRat (num t l f))
  | x, y => div x y

def fmaIn (m : Mode) : B64 → B64 → B64 → B64
  | num s k e, num t l f, num u n g =>
    roundIn m (zeroSign m (s != t) u) (toRat (num s k e) * toRat (num t l f) + toRat (num u n g))
  | x, y, z => fma x y z

end B64

/-- A computation: the operations of `FloatOps` that led to a number. -/
inductive Work
  | given (x : B64) | nat (n : ℕ)
  | add (x y : Work) | sub (x y : Work) | mul (x y : Work) | div (x y : Work) | fma (x y z : Work) | neg (x : Work)
  | cos (x : Work) | sin (x : Work) | floor (x : Work)
  | pi | negTwo | half | quarter
  deriving DecidableEq

/-- The result of a computation when its last operation is done in the mode `pick` says. The mathematical library may give different
results in different modes. Constants are rounded to nearest by the compiler; `std::floor` and a change of sign are exact in every
mode. -/
def Work.result (pick : Work → Mode) (lib : Mode → MathLib) : Work → B64
  | .given x => x
  | .nat n => B64.roundIn (pick (.nat n)) false n
  | .add x y => B64.addIn (pick (.add x y)) (x.result pick lib) (y.result pick lib)
  | .sub x y => B64.addIn (pick (.sub x y)) (x.result pick lib) (B64.neg (y.result pick lib))
  | .mul x y => B64.mulIn (pick (.mul x y)) (x.result pick lib) (y.result pick lib)
  | .div x y => B64.divIn (pick (.div x y)) (x.result pick lib) (y.result pick lib)
  | .fma x y z => B64.fmaIn (pick (.fma x y z)) (x.result pick lib) (y.result pick lib) (z.result pick lib)
  | .neg x => B64.neg (x.result pick lib)
  | .cos x => (lib (pick (.cos x))).cos (x.result pick lib)
  | .sin x => (lib (pick (.sin x))).sin (x.result pick lib)
  | .floor x => B64.floor (x.result pick lib)
  | .pi => B64.roundQ false (31415926535897932384626433832795 / 10 ^ 31)            -- fourier_impl.h:42
  | .negTwo => B64.roundQ false (-2)
  | .half => B64.roundQ false (1 / 2)
  | .quarter => B64.roundQ false (1 / 4)

/-- `double` with a rounding mode for every operation, a mathematical library and a compiler. -/
def directed64 (pick : Work → Mode) (lib : Mode → MathLib) (fuse : Work → Work → Work → Work → Contraction) : FloatOps Work where
  ofNat := .nat
  add := .add
  sub := .sub
  mul := .mul
  mulSub x y z w := match fuse x y z w with
    | .separate => .sub (.mul x y) (.mul z w)
    | .first => .fma x y (.neg (.mul z w))
    | .second => .fma (.neg z) w (.mul x y)
  mulAdd x y z w := match fuse x y z w with
    | .separate => .add (.mul x y) (.mul z w)
    | .first => .fma x y (.mul z w)
    | .second => .fma z w (.mul x y)
  div := .div
  neg := .neg
  cos := .cos
  sin := .sin
  floor := .floor
  trunc x := B64.trunc (x.result pick lib)
  pi := .pi
  negTwo := .negTwo
  half := .half
  quarter := .quarter

end BN
