import Verif.Model.Vec
/-
impl/bn_addition_impl.h
-/
namespace BN

/-- A read-only container argument that may be the same object as the one being modified. -/
inductive Src where
  | other (l : List Nat)
  | self

/-- Contents of the argument while the modified container currently holds `out`. -/
def Src.get (s : Src) (out : List Nat) : List Nat :=
  match s with
  | .other l => l
  | .self => out

/-- Local variables of `abs_val_add`, bn_addition_impl.h:15-22. -/
structure AddSt where
  out : List Nat
  outIter : Nat
  inIter : Nat
  remainder : Val
  deriving DecidableEq, Repr

/-- The digit computation of one iteration, bn_addition_impl.h:30-43: new digit and new remainder. -/
def addDigit (L : Limits) (o : Nat) (inDigit remainder : Val) : Res (Nat × Val) := do
  let SINGLE_BASE_MAX := L.toDouble L.maxLimit                                   -- line 19
  let s1 ← Val.bin .add (L.digit o) inDigit                                      -- line 32
  let s2 ← Val.bin .add s1 remainder
  let outDigit := s2.conv L.double
  if Val.cmp .lt SINGLE_BASE_MAX outDigit then                                   -- line 35
    let m ← Val.bin .add SINGLE_BASE_MAX (L.toDouble 1)                          -- line 36
    let r ← Val.bin .mod outDigit m
    let overflow := r.conv L.single
    .ok (L.store overflow, L.toSingle 1)                                         -- lines 37-38
  else
    .ok (L.store outDigit, L.toSingle 0)                                         -- lines 41-42

/-- `i < v.size() ? v[i] : (bn_double)0`, bn_addition_impl.h:31 and bn_subtraction_impl.h:40. -/
def digitOrZero (L : Limits) (v : List Nat) (i : Nat) : Res Val :=
  if i < v.length then do
    let d ← Vec.rd v i
    .ok ((L.digit d).conv L.double)
  else .ok (L.toDouble 0)

/-- `if (outIter == outNum.size()) outNum.push_back(0)`, bn_addition_impl.h:26-28. -/
def growTo (env : Env) (out : List Nat) (i : Nat) : Res (List Nat) :=
  if i = out.length then Vec.pushBack env out 0 else .ok out

/-- One iteration of the `while (true)` loop, bn_addition_impl.h:25-52. -/
def addBody (L : Limits) (env : Env) (src : Src) (s : AddSt) : Res (AddSt × Bool) := do
  let out ← growTo env s.out s.outIter                                           -- lines 26-28
  let inDigit ← digitOrZero L (src.get out) s.inIter                             -- line 31
  let o ← Vec.rd out s.outIter
  let (d, rem) ← addDigit L o inDigit s.remainder
  let out ← Vec.wr out s.outIter d
  let outIter := s.outIter + 1                                                   -- lines 46-47
  let inIter := s.inIter + 1
  let brk := decide (outIter = out.length) && decide ((src.get out).length ≤ inIter) && !rem.truthy  -- line 50
  .ok (⟨out, outIter, inIter, rem⟩, brk)

/-- `abs_val_add(outNum, inNum)`, bn_addition_impl.h:7-54; returns the final `outNum`. -/
def absAdd (L : Limits) (env : Env) (fuel : Nat) (out : List Nat) (src : Src) : Res (List Nat) := do
  let s ← loopForever (addBody L env src) fuel ⟨out, 0, 0, L.toSingle 0⟩
  .ok s.out

end BN
