import Verif.Model.Vec
/-
impl/bn_multiplication_impl.h:68-98 (`mul_naive`). The loop counters are `unsigned`, i.e. 32 bits wide.
-/
namespace BN

/-- `NUM_BASE`, bn_multiplication_impl.h:72. -/
def naiveBase (L : Limits) : Res Val := do
  let s ← Val.bin .add (L.toDouble L.maxLimit) (L.toDouble 1)
  .ok (s.conv L.double)

/-- The digit computation bn_multiplication_impl.h:89-91 for the cell value `r = ret[index]`, the local
`unsigned remainder`, and the digits `a[j]`, `b[i]`: new cell value and new remainder. -/
def naiveDigit (L : Limits) (r remainder aj bi : Nat) : Res (Nat × Nat) := do
  let nb ← naiveBase L
  let p ← Val.bin .mul (L.digit aj) (L.digit bi)                                 -- line 89
  let s ← Val.bin .add ⟨.prim (cU 32), remainder⟩ p
  let t ← Val.bin .add (L.digit r) s
  let r1 := L.store t
  let q ← Val.bin .div (L.digit r1) nb                                           -- line 90
  let rem' := (q.conv (.prim (cU 32))).val.toNat
  let m ← Val.bin .mod (L.digit r1) nb                                           -- line 91
  .ok (L.store m, rem')

/-- Variables of the inner loop, bn_multiplication_impl.h:85-87. `j` and `remainder` are `unsigned`. -/
structure NaiveSt where
  j : Nat
  ret : List Nat
  remainder : Nat
  deriving DecidableEq, Repr

/-- Body of the inner loop, bn_multiplication_impl.h:88-91. `i + j` is computed in `unsigned`, and so is `++j`. -/
def naiveBody (L : Limits) (a b : List Nat) (i : Nat) (s : NaiveSt) : Res NaiveSt := do
  let index := (i + s.j) % 2 ^ 32                                                -- line 88
  let r ← Vec.rd s.ret index
  let aj ← Vec.rd a s.j
  let bi ← Vec.rd b i
  let (d, rem') ← naiveDigit L r s.remainder aj bi
  let ret ← Vec.wr s.ret index d
  .ok ⟨(s.j + 1) % 2 ^ 32, ret, rem'⟩

/-- `for (unsigned j = 0; j < a.size(); ++j)`, bn_multiplication_impl.h:85-92: the container and the final remainder. -/
def naiveInner (L : Limits) (fuel : Nat) (a b : List Nat) (i : Nat) (ret : List Nat) : Res (List Nat × Nat) := do
  let s ← loopWhile (fun s => .ok (decide (s.j < a.length))) (naiveBody L a b i) fuel ⟨0, ret, 0⟩
  .ok (s.ret, s.remainder)

/-- Body of the outer loop, bn_multiplication_impl.h:85-94, for the state `i`, `ret`. `i + a.size()` is computed in `size_t`,
`++i` in `unsigned`. -/
def naiveRow (L : Limits) (fuel : Nat) (a b : List Nat) (s : Nat × List Nat) : Res (Nat × List Nat) := do
  let (ret, remainder) ← naiveInner L fuel a b s.1 s.2
  let r ← Vec.rd ret (s.1 + a.length)                                            -- line 94
  let t ← Val.bin .add (L.digit r) ⟨.prim (cU 32), remainder⟩
  let ret ← Vec.wr ret (s.1 + a.length) (L.store t)
  .ok ((s.1 + 1) % 2 ^ 32, ret)

/-- `mul_naive(a, b)`, bn_multiplication_impl.h:68-98. -/
def mulNaive (L : Limits) (env : Env) (fuel : Nat) (a b : List Nat) : Res (List Nat) := do
  let totalLen := a.length + b.length
  if totalLen = 0 then .ok []                                                    -- lines 78-80
  else
    let ret ← Vec.resize env [] totalLen 0                                       -- line 82
    let s ← loopWhile (fun s => .ok (decide (s.1 < b.length))) (naiveRow L fuel a b) fuel (0, ret)  -- lines 84-95
    .ok s.2

end BN
