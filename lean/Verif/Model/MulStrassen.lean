import Verif.Model.Vec
import Verif.Model.Fourier
/-
impl/bn_multiplication_impl.h:15-61 (`mul_strassen`).
-/
namespace BN
variable {F : Type} (o : FloatOps F)

/-- Conversion of a floating-point value to `bn_double`: out of range is undefined [conv.fpint]. For
`BNIntType` the conversion is to its `numType`. -/
def floatToDouble (L : Limits) (x : F) : Res Val :=
  let z := o.trunc x
  if L.double.raw.fits z then .ok ⟨L.double, z⟩ else .error (.ub .floatToInt)

/-- One iteration of the carry loop, bn_multiplication_impl.h:35-44: digit to append and new carry
(`c` is a `size_t`). -/
def carryStep (L : Limits) (c : Nat) (x : F) : Res (Nat × Nat) := do
  let NUM_BASE := L.toDouble (L.maxLimit + 1)                                    -- line 21
  let ci ← floatToDouble o L (o.add (o.ofNat c) (o.floor (o.add x o.half)))      -- line 39
  let m ← Val.bin .mod ci NUM_BASE                                               -- line 41
  let q ← Val.bin .div ci NUM_BASE                                               -- line 44
  .ok (L.store m, (q.conv (.prim (cU 64))).val.toNat)

/-- The carry loop bn_multiplication_impl.h:34-45. The final carry is discarded. -/
def carryLoop (L : Limits) : Nat → List F → Res (List Nat)
  | _, [] => .ok []
  | c, x :: xs => do
    let (d, c') ← carryStep o L c x
    let ds ← carryLoop L c' xs
    .ok (d :: ds)

/-- Number of trailing (most significant) zero digits, bn_multiplication_impl.h:48-56. -/
def countTopZeros (ret : List Nat) : Nat → Nat → Res Nat
  | 0, n => .ok n
  | i + 1, n => do
    let d ← Vec.rd ret i
    if d ≠ 0 then .ok n else countTopZeros ret i (n + 1)

/-- `mul_strassen(a, b)`, bn_multiplication_impl.h:15-61. The complex temporaries are covered by the same
allocation predicate as the result. -/
def mulStrassen (L : Limits) (env : Env) (fuel : Nat) (a b : List Nat) : Res (List Nat) := do
  if ¬ env.alloc (fftTableSize a.length b.length) then .error (.exn .badAlloc)   -- lines 24, 32
  else
    let table ← createFftTable o a b
    let table ← convoluteFft o fuel table
    let inverses ← ifftComplex o fuel table
    let ret ← carryLoop o L 0 (inverses.map Cx.re)
    let z ← countTopZeros ret ret.length 0
    Vec.resize env ret (ret.length - z) 0                                        -- line 58

end BN
