import Verif.Model.Compare
import Verif.Model.Add
/-
impl/bn_subtraction_impl.h
-/
namespace BN

/-- Local variables of `abs_val_sub`, bn_subtraction_impl.h:29-36. -/
structure SubSt where
  larger : List Nat
  outIter : Nat
  inIter : Nat
  numBorrowed : Val
  deriving DecidableEq, Repr

/-- The digit computation of one iteration, bn_subtraction_impl.h:41-50: new digit, new borrow. -/
def subDigit (L : Limits) (o : Nat) (inDigit numBorrowed : Val) : Res (Nat × Val) := do
  let SINGLE_BASE_MAX := L.toDouble L.maxLimit                                   -- line 33
  let t1 ← Val.bin .sub (L.digit o) numBorrowed                                  -- line 41
  let t2 ← Val.bin .sub t1 inDigit
  let outDigit := t2.conv L.double
  if Val.cmp .lt SINGLE_BASE_MAX outDigit then                                   -- line 43
    let u1 ← Val.bin .add outDigit SINGLE_BASE_MAX                               -- line 44
    let u2 ← Val.bin .add u1 (L.toDouble 1)
    .ok (L.store u2, L.toDouble 1)
  else
    .ok (L.store outDigit, L.toDouble 0)                                         -- lines 48-49

/-- One iteration of the `while (true)` loop, bn_subtraction_impl.h:38-60. -/
def subBody (L : Limits) (src : Src) (s : SubSt) : Res (SubSt × Bool) := do
  let inDigit ← digitOrZero L (src.get s.larger) s.inIter                        -- line 40
  let o ← Vec.rd s.larger s.outIter
  let (d, borrow) ← subDigit L o inDigit s.numBorrowed
  let larger ← Vec.wr s.larger s.outIter d
  let outIter := s.outIter + 1                                                   -- lines 53-54
  let inIter := s.inIter + 1
  let brk := decide (outIter = larger.length) && decide ((src.get larger).length ≤ inIter)  -- line 57
  .ok (⟨larger, outIter, inIter, borrow⟩, brk)

/-- `iter = size(); while (iter--) { if (0 == larger[iter]) pop_back(); else break; }`,
bn_subtraction_impl.h:63-71; the argument is the current `iter`. -/
def popZeros (v : List Nat) : Nat → Res (List Nat)
  | 0 => .ok v
  | iter + 1 => do
    let d ← Vec.rd v iter
    if d = 0 then
      let v' ← Vec.popBack v
      popZeros v' iter
    else .ok v

/-- The `BN_DEBUG` precondition check, bn_subtraction_impl.h:18-24. -/
def subDebugCheck (env : Env) (larger smaller : List Nat) : Res Unit := do
  if env.debug then
    if larger.length < smaller.length then .error (.exn .bnUnderflow)
    else if ← absLt larger smaller then .error (.exn .bnUnderflow)
    else .ok ()
  else .ok ()

/-- `abs_val_sub(largerNum, smallerNum)`, bn_subtraction_impl.h:13-72; returns the final `largerNum`. -/
def absSub (L : Limits) (env : Env) (fuel : Nat) (larger : List Nat) (src : Src) : Res (List Nat) := do
  subDebugCheck env larger (src.get larger)
  let s ← loopForever (subBody L src) fuel ⟨larger, 0, 0, L.toDouble 0⟩
  popZeros s.larger s.larger.length

end BN
