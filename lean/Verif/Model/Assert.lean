import Verif.Model.Basic
/-
src/bn_except.cpp:15-29
-/
namespace BN

/-- `bn_error_t`, bn_except.h:24-28 -/
inductive ErrType where
  | alert | warning | error
  deriving DecidableEq, Repr

/-- Integer values of the enumerators, bn_except.h:25-27 -/
def ErrType.toNat : ErrType → Nat
  | .alert => 0
  | .warning => 1
  | .error => 2

/-- Text written to the two standard streams, and whether `BN_ERROR` was thrown. -/
structure AssertEffect where
  out : List String
  err : List String
  thrown : Option ErrType
  deriving DecidableEq, Repr

/-- `bn_runtime_assert(condition, type, msg)`, bn_except.cpp:15-29 -/
def runtimeAssert (condition : Bool) (type : ErrType) (msg : String) : AssertEffect :=
  if condition then ⟨[], [], none⟩
  else
    let errorString := ["ALERT: ", "WARNING: ", "ERROR: "].getD type.toNat ""
    let line := errorString ++ msg ++ "\n"
    let e : AssertEffect := if type.toNat > ErrType.alert.toNat then ⟨[], [line], none⟩ else ⟨[line], [], none⟩
    if type = .error then { e with thrown := some .error } else e

end BN
