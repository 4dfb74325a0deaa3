import Verif.Model.Program
/-
The operators once more, with an allocator that may answer differently at every moment. The functions of the other
modules give one answer per size to a whole operation (`Env.alloc`); here every request of an operation has surroundings
of its own. A family `E : Moments` names the surroundings of each request by its place in the execution: the number of the
call or iteration in each function on the way to it. Since an execution makes each request at one place only, every
behaviour of an allocator (exhausted by earlier requests, failing now and then, granting spare capacity so that some
requests never reach it) is given by some family.
-/
namespace BN
open Bignum

/-- The surroundings of every request, by its place in the execution. -/
abbrev Moments := List Nat → Env

/-- The requests of the `i`-th call or iteration. -/
def Moments.at (E : Moments) (i : Nat) : Moments := fun p => E (i :: p)

/-- `reserve(n)` or the allocation of `n` elements. -/
def reserve (env : Env) (n : Nat) : Res Unit := if env.alloc n then .ok () else .error (.exn .badAlloc)

/-- `abs_val_add`, bn_addition_impl.h:7-54: iteration `i` may ask for a longer vector. -/
def absAddM (L : Limits) (E : Moments) (fuel : Nat) (out : List Nat) (src : Src) : Res (List Nat) := do
  let s ← loopForever (fun s => addBody L (E [s.outIter]) src s) fuel ⟨out, 0, 0, L.toSingle 0⟩
  .ok s.out

/-- Body of the search loop, bn_division_impl.h:57-60: a copy and two shifts. -/
def searchBodyM (L : Limits) (E : Moments) (s : SearchSt) : Res SearchSt := do
  let b0 ← Vec.copy (E [0]) s.bsrch1
  let b1 ← shiftLeft1 L (E [1]) s.bsrch1
  let q ← shiftLeft1 L (E [2]) s.q
  .ok ⟨b0, b1, q⟩

/-- Body of the outer loop, bn_division_impl.h:49-73; the search loop counts its iterations. -/
def divBodyM (L : Limits) (E : Moments) (fuel : Nat) (divisor : List Nat) (s : DivSt) : Res DivSt := do
  let bsrch0 ← Vec.copy (E [0]) divisor
  let bsrch1 ← Vec.copy (E [1]) divisor
  let q ← Vec.copy (E [2]) [L.store (L.toSingle 1)]
  let bsrch1 ← shiftLeft1 L (E [3]) bsrch1
  let t ← loopWhile (fun t => absGe s.dividend t.1.bsrch1)
    (fun t => do let t' ← searchBodyM L ((E.at 4).at t.2) t.1; .ok (t', t.2 + 1)) fuel (⟨bsrch0, bsrch1, q⟩, 0)
  let dividend ← absSub L (E [5]) fuel s.dividend (.other t.1.bsrch0)
  if t.1.q.length ≤ s.res.length then
    let res ← absAddM L (E.at 6) fuel s.res (.other t.1.q)
    .ok ⟨dividend, res⟩
  else
    let q ← absAddM L (E.at 6) fuel t.1.q (.other s.res)
    .ok ⟨dividend, q⟩

/-- `abs_val_div`, bn_division_impl.h:7-78 -/
def absDivM (L : Limits) (E : Moments) (fuel : Nat) (dividend divisor : List Nat) : Res (List Nat) := do
  let res ← Vec.copy (E [0]) [L.store (L.toSingle 0)]
  let s ← loopWhile (fun s => absGe s.1.dividend divisor)
    (fun s => do let s' ← divBodyM L ((E.at 1).at s.2) fuel divisor s.1; .ok (s', s.2 + 1)) fuel (⟨dividend, res⟩, 0)
  .ok s.1.res

section
variable {F : Type} (o : FloatOps F)

/-- `fft_complex`, fourier_impl.h:41-86: line 49 makes a list of one element, lines 56-57 reserve the two halves. -/
def fftComplexM : Moments → Nat → List (Cx F) → Res (List (Cx F))
  | _, 0, _ => .error .timeout
  | E, fuel + 1, x => do
    let len := x.length
    if len = 1 then
      reserve (E [0]) 1
      .ok x
    else
      let halfLen := len / 2
      reserve (E [0]) halfLen
      reserve (E [1]) halfLen
      let (evens, odds) ← fftPartition x halfLen halfLen
      let evens ← fftComplexM (E.at 2) fuel evens
      let odds ← fftComplexM (E.at 3) fuel odds
      fftCombine o len halfLen evens odds halfLen x

/-- `ifft_complex`, fourier_impl.h:91-103 -/
def ifftComplexM (E : Moments) (fuel : Nat) (x : List (Cx F)) : Res (List (Cx F)) := do
  let x := x.map (Cx.conj o)
  let x ← fftComplexM o E fuel x
  let len := o.ofNat x.length
  .ok (x.map (fun e => Cx.divBy o (Cx.conj o e) len))

/-- `convolute_fft`, fourier_impl.h:147-170; line 151 copies the table. -/
def convoluteFftM (E : Moments) (fuel : Nat) (table : List (Cx F)) : Res (List (Cx F)) := do
  let fftSize := table.length
  reserve (E [0]) fftSize
  let transforms ← fftComplexM o (E.at 1) fuel table
  (List.range fftSize).mapM (convolutePoint o transforms fftSize)

/-- `mul_strassen`, bn_multiplication_impl.h:15-61; the result is reserved in line 32, so that neither `push_back` nor
the final `resize`, which shortens, asks for memory. -/
def mulStrassenM (L : Limits) (E : Moments) (fuel : Nat) (a b : List Nat) : Res (List Nat) := do
  reserve (E [0]) (fftTableSize a.length b.length)                               -- fourier_impl.h:126
  let table ← createFftTable o a b
  let table ← convoluteFftM o (E.at 1) fuel table
  let inverses ← ifftComplexM o (E.at 2) fuel table
  reserve (E [3]) inverses.length                                                -- line 32
  let ret ← carryLoop o L 0 (inverses.map Cx.re)
  let z ← countTopZeros ret ret.length 0
  .ok (ret.take (ret.length - z))                                                -- line 58

end

/-- `try` block of `operator+=`, bn_type_impl.h:464-505 -/
def addTryM (L : Limits) (E : Moments) (fuel : Nat) (this : Bignum) (r : Rhs) : Res Bignum := do
  let num := r.get this
  if this.desc = .pos ∧ num.desc = .pos then
    let d ← absAddM L (E.at 0) fuel this.digits r.src
    .ok ⟨this.desc, d⟩
  else if this.desc = .pos ∧ num.desc = .neg then
    if ← absGe this.digits num.digits then
      let d ← absSub L (E [0]) fuel this.digits r.src
      .ok ⟨this.desc, d⟩
    else
      let tempNum ← num.copy (E [1])
      let d ← absSub L (E [0]) fuel tempNum.digits (.other this.digits)
      .ok ⟨.neg, d⟩
  else if this.desc = .neg ∧ num.desc = .pos then
    if ← absGe this.digits num.digits then
      let d ← absSub L (E [0]) fuel this.digits r.src
      .ok ⟨this.desc, d⟩
    else
      let tempNum ← num.copy (E [1])
      let d ← absSub L (E [0]) fuel tempNum.digits (.other this.digits)
      .ok ⟨.pos, d⟩
  else
    let d ← absAddM L (E.at 0) fuel this.digits r.src
    .ok ⟨this.desc, d⟩

/-- `x op= num`, bn_type_impl.h:454-702. Subtraction asks for memory once (the copy of an operand), and in division only
`abs_val_div` does: `numData = {bn_single{0}}` reuses the non-empty storage. -/
def Arith.assignM {F : Type} (o : FloatOps F) (L : Limits) (E : Moments) (fuel : Nat) (k : Arith) (this : Bignum) (r : Rhs) : Out :=
  if !isComputable this.desc then .ok (notComputable this r)
  else match k with
  | .add => handle this (r.get this).desc (addTryM L E fuel this r)
  | .sub => handle this (r.get this).desc (subTry L (E [0]) fuel this r)
  | .mul =>
    let num := r.get this
    handle this num.desc (do
      let d ← mulStrassenM o L E fuel this.digits num.digits
      .ok ⟨mulSign this.desc num.desc, d⟩)
  | .div =>
    let this : Bignum := ⟨mulSign this.desc (r.get this).desc, this.digits⟩
    let num := r.get this
    if isOneDigit num.digits 0 then .ok ⟨if this.desc = .neg then .negInf else .posInf, []⟩
    else if isOneDigit num.digits 1 then .ok this
    else if this.digits = [] ∨ isOneDigit this.digits 0 then .ok this
    else handle this num.desc (do
      if ← absGt this.digits num.digits then
        let d ← absDivM L E fuel this.digits num.digits
        .ok ⟨this.desc, d⟩
      else
        .ok ⟨this.desc, [L.store (L.toSingle 0)]⟩)

/-- `x op num`, bn_type_impl.h:410-447: the copy is the first request. -/
def Arith.binaryM {F : Type} (o : FloatOps F) (L : Limits) (E : Moments) (fuel : Nat) (k : Arith) : Bignum → Bignum → Res Bignum :=
  viaCopy (E [0]) (k.assignM o L (E.at 1) fuel)

/-- Execution of one statement (`Op.step`); statements other than arithmetic ask for memory at most once. -/
def Op.stepM {F : Type} (o : FloatOps F) (L : Limits) (E : Moments) (fuel : Nat) (s : Store) : Op → Option Store
  | .arith k i j => (k.assignM o L E fuel (s i) (rhsOf s i j)).store s i
  | .binary k i j l => (Bignum.strong (s i) (k.binaryM o L E fuel (s j) (s l))).store s i
  | op => op.step o L (E [0]) fuel s

/-- Execution of a program; each statement has its own family. -/
def runM {F : Type} (o : FloatOps F) (L : Limits) (fuel : Nat) : (Nat → Moments) → Store → List Op → Option Store
  | _, s, [] => some s
  | E, s, op :: ops => (op.stepM o L (E 0) fuel s).bind fun s' => runM o L fuel (fun k => E (k + 1)) s' ops

end BN
