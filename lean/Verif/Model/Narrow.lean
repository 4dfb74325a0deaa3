import Verif.Model.Type
/-
The product on a platform whose `size_t` has `w` bits (wasm32, ARMv7, ...: 32). `size_t` is more than an index in
five places only: the length of the table (fourier_impl.h:119-123), `nextPow2` (23-36), `-i % fftSize` (158) and the carry
(bn_multiplication_impl.h:34, 44). Everywhere else it counts elements of a container.
-/
namespace BN

/-- `nextPow2`, fourier_impl.h:23-36. -/
def nextPow2W (w n : Nat) : Nat :=
  if n = 0 then 0
  else
    let n := n - 1
    let n := n ||| (n >>> 1)
    let n := n ||| (n >>> 2)
    let n := n ||| (n >>> 4)
    let n := n ||| (n >>> 8)
    let n := n ||| (n >>> 16)
    (n + 1) % 2 ^ w

/-- Size of the table, fourier_impl.h:119-123. -/
def fftTableSizeW (w aLen bLen : Nat) : Nat :=
  let size := (aLen + bLen) % 2 ^ w
  if !isPow2 size then nextPow2W w size else size

/-- `-i % fftSize`, fourier_impl.h:158. -/
def negIdxW (w i n : Nat) : Nat := ((2 ^ w - i % 2 ^ w) % 2 ^ w) % n

section
variable {F : Type} (o : FloatOps F)

/-- `create_fft_table`, fourier_impl.h:108-142. -/
def createFftTableW (w : Nat) (a b : List Nat) : Res (List (Cx F)) :=
  (List.range (fftTableSizeW w a.length b.length)).mapM fun i => do
    let aVal ← cellOrZero a i
    let bVal ← cellOrZero b i
    .ok ⟨o.ofNat aVal, o.ofNat bVal⟩

/-- Body of the pointwise loop, fourier_impl.h:157-168. -/
def convolutePointW (w : Nat) (transforms : List (Cx F)) (fftSize i : Nat) : Res (Cx F) := do
  let ti ← rdAt transforms i
  let tn ← rdAt transforms (negIdxW w i fftSize)
  let tc := Cx.conj o tn
  let x1 := Cx.add o ti tc
  let x2 := Cx.sub o ti tc
  let x3 := Cx.mul o x1 x2
  .ok (Cx.scale o ⟨x3.im, o.neg x3.re⟩ o.quarter)

/-- `convolute_fft`, fourier_impl.h:147-170. -/
def convoluteFftW (w : Nat) (fuel : Nat) (table : List (Cx F)) : Res (List (Cx F)) := do
  let fftSize := table.length
  let transforms ← fftComplex o fuel table
  (List.range fftSize).mapM (convolutePointW o w transforms fftSize)

/-- One iteration of the carry loop, bn_multiplication_impl.h:35-44; the carry is a `size_t`. -/
def carryStepW (w : Nat) (L : Limits) (c : Nat) (x : F) : Res (Nat × Nat) := do
  let NUM_BASE := L.toDouble (L.maxLimit + 1)
  let ci ← floatToDouble o L (o.add (o.ofNat c) (o.floor (o.add x o.half)))
  let m ← Val.bin .mod ci NUM_BASE
  let q ← Val.bin .div ci NUM_BASE
  .ok (L.store m, (q.conv (.prim (cU w))).val.toNat)

/-- The carry loop, bn_multiplication_impl.h:34-45. -/
def carryLoopW (w : Nat) (L : Limits) : Nat → List F → Res (List Nat)
  | _, [] => .ok []
  | c, x :: xs => do
    let (d, c') ← carryStepW o w L c x
    let ds ← carryLoopW w L c' xs
    .ok (d :: ds)

/-- `mul_strassen(a, b)`, bn_multiplication_impl.h:15-61. -/
def mulStrassenW (w : Nat) (L : Limits) (env : Env) (fuel : Nat) (a b : List Nat) : Res (List Nat) := do
  if ¬ env.alloc (fftTableSizeW w a.length b.length) then .error (.exn .badAlloc)
  else
    let table ← createFftTableW o w a b
    let table ← convoluteFftW o w fuel table
    let inverses ← ifftComplex o fuel table
    let ret ← carryLoopW o w L 0 (inverses.map Cx.re)
    let z ← countTopZeros ret ret.length 0
    Vec.resize env ret (ret.length - z) 0

/-- `operator*=`, bn_type_impl.h:592-632. -/
def Bignum.mulAssignW (w : Nat) (L : Limits) (env : Env) (fuel : Nat) (this : Bignum) (r : Rhs) : Out :=
  if !isComputable this.desc then .ok (notComputable this r)
  else
    let num := r.get this
    handle this num.desc (do
      let d ← mulStrassenW o w L env fuel this.digits num.digits
      .ok ⟨mulSign this.desc num.desc, d⟩)

end
end BN
