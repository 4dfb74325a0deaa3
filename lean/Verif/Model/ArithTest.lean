import Verif.Model.Type
/-
tests/arithmetic_test.cpp:18-66: the macro CREATE_BN_TEST, the values computed between the `<<`.
Not modelled: the banner and the texts around the values (the printed numbers themselves are `Bignum.toStream`).
-/
namespace BN
open Bignum

/-- What one half of the macro computes from its two numbers, in the order of the lines. -/
structure Half where
  gt : Bool
  ge : Bool
  lt : Bool
  le : Bool
  add : Bignum
  sub : Bignum
  mul : Bignum
  div : Bignum
  add' : Bignum
  sub' : Bignum
  mul' : Bignum
  div' : Bignum
  deriving DecidableEq, Repr

/-- arithmetic_test.cpp:28-42, and again 47-61 -/
def half {F : Type} (o : FloatOps F) (L : Limits) (env : Env) (n : Nat) (a b : Bignum) : Res Half := do
  let gt ← a.gt b
  let ge ← a.ge b
  let lt ← a.lt b
  let le ← a.le b
  let add ← a.add L env n b
  let sub ← a.sub L env n b
  let mul ← a.mul o L env n b
  let div ← a.div L env n b
  let add' ← b.add L env n a
  let sub' ← b.sub L env n a
  let mul' ← b.mul o L env n a
  let div' ← b.div L env n a
  .ok ⟨gt, ge, lt, le, add, sub, mul, div, add', sub', mul', div'⟩

/-- CREATE_BN_TEST, arithmetic_test.cpp:25-61 -/
def testMacro {F : Type} (o : FloatOps F) (L : Limits) (env : Env) (n : Nat) : Res (Half × Half) := do
  let testNum1 ← ofList env .neg [1, L.maxLimit, L.maxLimit]                     -- line 25
  let testNum2 ← ofList env .pos [L.minLimit, 1, L.minLimit]                     -- line 26
  let first ← half o L env n testNum1 testNum2
  let testNum1 := testNum1.setDescriptor .pos                                    -- line 44
  let testNum2 := testNum2.setDescriptor .neg                                    -- line 45
  let second ← half o L env n testNum1 testNum2
  .ok (first, second)

end BN
