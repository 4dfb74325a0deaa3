import Verif.Model.Sub
/-
impl/bn_division_impl.h
-/
namespace BN

/-- `SINGLE_BASE_LIMIT = bn_max_limit<bn_single>() + (bn_double)1`, of type `bn_double`,
bn_division_impl.h:16. The sum is computed with a 64-bit left operand. -/
def divBaseLimit (L : Limits) : Res Val := do
  let s ← Val.bin .add ⟨.prim (cU 64), L.maxLimit⟩ (L.toDouble 1)
  .ok (s.conv L.double)

/-- Body of the loop in the lambda `shift_left_1`, bn_division_impl.h:32-36, for one digit:
new digit and new carry. All arithmetic is done in `bn_single`. -/
def shlDigit (L : Limits) (d : Nat) (carry : Val) : Res (Nat × Val) := do
  let limit ← divBaseLimit L
  let t1 ← Val.bin .mul (L.digit d) (L.toSingle 2)                               -- line 32
  let t2 ← Val.bin .add t1 carry
  let temp := t2.conv L.single
  let carry' := if Val.cmp .gt temp ((L.toDouble L.maxLimit).conv L.single)       -- line 34
    then L.toSingle 1 else L.toSingle 0
  let r ← Val.bin .mod temp (limit.conv L.single)                                -- line 35
  .ok (L.store r, carry')

/-- `while (curr < container.size()) {...}`, bn_division_impl.h:30-37. The container is traversed from
index 0 and only the current cell is read and written, so the loop is a left-to-right recursion. -/
def shlLoop (L : Limits) : List Nat → Val → Res (List Nat × Val)
  | [], carry => .ok ([], carry)
  | d :: ds, carry => do
    let (d', carry') ← shlDigit L d carry
    let (ds', c) ← shlLoop L ds carry'
    .ok (d' :: ds', c)

/-- The lambda `shift_left_1`, bn_division_impl.h:20-43. -/
def shiftLeft1 (L : Limits) (env : Env) (c : List Nat) : Res (List Nat) := do
  if c = [] then .ok []                                                          -- lines 22-25
  else
    let (c', carry) ← shlLoop L c (L.toSingle 0)
    if carry.truthy then                                                         -- lines 39-42
      let one ← Val.bin .add ((L.toDouble L.minLimit).conv L.single) (L.toSingle 1)
      Vec.pushBack env c' (L.store one)
    else .ok c'

/-- Variables of the inner search loop, bn_division_impl.h:49-51. -/
structure SearchSt where
  bsrch0 : List Nat
  bsrch1 : List Nat
  q : List Nat
  deriving DecidableEq, Repr

/-- Body of `while (abs_val_is_ge(dividend, bsrch1))`, bn_division_impl.h:57-60. -/
def searchBody (L : Limits) (env : Env) (s : SearchSt) : Res SearchSt := do
  let b0 ← Vec.copy env s.bsrch1
  let b1 ← shiftLeft1 L env s.bsrch1
  let q ← shiftLeft1 L env s.q
  .ok ⟨b0, b1, q⟩

/-- Variables of the outer loop: `dividend` and `res`. -/
structure DivSt where
  dividend : List Nat
  res : List Nat
  deriving DecidableEq, Repr

/-- Body of `while (abs_val_is_ge(dividend, divisor))`, bn_division_impl.h:49-73. -/
def divBody (L : Limits) (env : Env) (fuel : Nat) (divisor : List Nat) (s : DivSt) : Res DivSt := do
  let bsrch0 ← Vec.copy env divisor
  let bsrch1 ← Vec.copy env divisor
  let q ← Vec.copy env [L.store (L.toSingle 1)]
  let bsrch1 ← shiftLeft1 L env bsrch1                                           -- line 53
  let t ← loopWhile (fun t => absGe s.dividend t.bsrch1) (searchBody L env) fuel
    ⟨bsrch0, bsrch1, q⟩                                                          -- lines 55-61
  let dividend ← absSub L env fuel s.dividend (.other t.bsrch0)                  -- line 63
  if t.q.length ≤ s.res.length then                                              -- line 65
    let res ← absAdd L env fuel s.res (.other t.q)
    .ok ⟨dividend, res⟩
  else
    let q ← absAdd L env fuel t.q (.other s.res)
    .ok ⟨dividend, q⟩

/-- `abs_val_div(dividend, divisor)`, bn_division_impl.h:7-78; returns the final `dividend`
(the quotient). The same fuel bounds each of the nested loops. -/
def absDiv (L : Limits) (env : Env) (fuel : Nat) (dividend divisor : List Nat) : Res (List Nat) := do
  let res ← Vec.copy env [L.store (L.toSingle 0)]                                -- line 45
  let s ← loopWhile (fun s => absGe s.dividend divisor) (divBody L env fuel divisor) fuel ⟨dividend, res⟩
  .ok s.res                                                                      -- line 76

end BN
