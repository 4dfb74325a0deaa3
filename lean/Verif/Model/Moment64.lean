import Verif.Model.Clock
import Verif.Model.Directed64
/-
binary64 at one moment: the rounding modes in force, the contraction the compiler chose and the mathematical library. With the clock of
Model/Clock.lean every operation has its own. Not part of /repo.
-/
namespace BN

/-- How one operation is done. -/
structure Moment where
  /-- the rounding mode of the operation -/
  mode : Mode
  /-- the rounding modes of the two products of a sum of products -/
  first : Mode
  second : Mode
  /-- which of the two is not rounded -/
  fuse : Contraction
  lib : MathLib

/-- The operations of that moment. -/
def moment64 (m : Moment) : FloatOps B64 where
  ofNat n := B64.roundIn m.mode false n
  add := B64.addIn m.mode
  sub x y := B64.addIn m.mode x (B64.neg y)
  mul := B64.mulIn m.mode
  mulSub x y z w := match m.fuse with
    | .separate => B64.addIn m.mode (B64.mulIn m.first x y) (B64.neg (B64.mulIn m.second z w))
    | .first => B64.fmaIn m.mode x y (B64.neg (B64.mulIn m.second z w))
    | .second => B64.fmaIn m.mode (B64.neg z) w (B64.mulIn m.first x y)
  mulAdd x y z w := match m.fuse with
    | .separate => B64.addIn m.mode (B64.mulIn m.first x y) (B64.mulIn m.second z w)
    | .first => B64.fmaIn m.mode x y (B64.mulIn m.second z w)
    | .second => B64.fmaIn m.mode z w (B64.mulIn m.first x y)
  div := B64.divIn m.mode
  neg := B64.neg
  cos := m.lib.cos
  sin := m.lib.sin
  floor := B64.floor
  trunc := B64.trunc
  pi := B64.roundQ false (31415926535897932384626433832795 / 10 ^ 31)            -- fourier_impl.h:42
  negTwo := B64.roundQ false (-2)
  half := B64.roundQ false (1 / 2)
  quarter := B64.roundQ false (1 / 4)

end BN
