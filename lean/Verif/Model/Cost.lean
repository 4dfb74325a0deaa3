import Verif.Model.Program
/-
The operators once more, counting the work they do. A step is one execution of the body of a loop over digits or over
entries of a Fourier table, one element copied with a container, or one element appended. Growing a vector is counted as
the one appended element (the standard promises amortised constant time). Steps are counted up to the point where an
operation ends, whichever way it ends.
-/
namespace BN
open Bignum

/-- A computation and the number of steps it takes. -/
structure Counted (α : Type) where
  res : Res α
  steps : Nat

namespace Counted

instance : Monad Counted where
  pure a := ⟨.ok a, 0⟩
  bind x f := match x.res with
    | .ok a => ⟨(f a).res, x.steps + (f a).steps⟩
    | .error e => ⟨.error e, x.steps⟩

end Counted

/-- A part of the code that takes `n` steps. -/
def charge {α : Type} (n : Nat) (r : Res α) : Counted α := ⟨r, n⟩

/-- What a step costs: a digit, a subtraction and a doubling of a whole number. With `⟨1, 0, 0⟩` digits are counted, with
`⟨0, 1, 0⟩` subtractions, with `⟨0, 0, 1⟩` doublings. -/
structure Weights where
  digit : Nat
  sub : Nat
  double : Nat

/-- `while (true) { body; if (brk) break; }` -/
def loopForeverC {σ : Type} (body : σ → Counted (σ × Bool)) : Nat → σ → Counted σ
  | 0, _ => charge 0 (.error .timeout)
  | n + 1, s => do
    let (s', brk) ← body s
    if brk then pure s' else loopForeverC body n s'

/-- `while (cond) { body; }` -/
def loopWhileC {σ : Type} (cond : σ → Counted Bool) (body : σ → Counted σ) : Nat → σ → Counted σ
  | 0, _ => charge 0 (.error .timeout)
  | n + 1, s => do
    if ← cond s then
      let s' ← body s
      loopWhileC cond body n s'
    else pure s

section
variable (w : Weights)

/-- The loops of bn_compare_impl.h, from the most significant digit down. `f` is the decision taken at a pair of digits, if
any, `d` the result at the end. -/
def scanC (f : Nat → Nat → Option Bool) (d : Bool) (a b : List Nat) : Nat → Counted Bool
  | 0 => pure d
  | i + 1 => do
    let x ← charge w.digit (Vec.rd a i)
    let y ← charge 0 (Vec.rd b i)
    match f x y with
    | some r => pure r
    | none => scanC f d a b i

/-- bn_compare_impl.h:19-25 -/
def absEqC (a b : List Nat) : Counted Bool :=
  if a.length ≠ b.length then pure false
  else scanC w (fun x y => if x ≠ y then some false else none) true a b a.length
/-- bn_compare_impl.h:31-53 -/
def absGtC (a b : List Nat) : Counted Bool :=
  if a.length > b.length then pure true
  else if a.length < b.length then pure false
  else scanC w (fun x y => if x > y then some true else none) false a b a.length
/-- bn_compare_impl.h:58-83 -/
def absGeC (a b : List Nat) : Counted Bool :=
  if a.length > b.length then pure true
  else if a.length < b.length then pure false
  else scanC w (fun x y => if x > y then some true else if x < y then some false else none) true a b a.length
/-- bn_compare_impl.h:88-110 -/
def absLtC (a b : List Nat) : Counted Bool :=
  if a.length < b.length then pure true
  else if a.length > b.length then pure false
  else scanC w (fun x y => if x < y then some true else none) false a b a.length
/-- bn_compare_impl.h:115-140 -/
def absLeC (a b : List Nat) : Counted Bool :=
  if a.length < b.length then pure true
  else if a.length > b.length then pure false
  else scanC w (fun x y => if x < y then some true else if x > y then some false else none) true a b a.length

/-- Copying a container. -/
def copyC (env : Env) (v : List Nat) : Counted (List Nat) := charge (w.digit * v.length) (Vec.copy env v)

/-- `abs_val_add`, bn_addition_impl.h:7-54 -/
def absAddC (L : Limits) (env : Env) (fuel : Nat) (out : List Nat) (src : Src) : Counted (List Nat) := do
  let s ← loopForeverC (fun s => charge w.digit (addBody L env src s)) fuel ⟨out, 0, 0, L.toSingle 0⟩
  pure s.out

/-- bn_subtraction_impl.h:63-71 -/
def popZerosC (v : List Nat) : Nat → Counted (List Nat)
  | 0 => pure v
  | iter + 1 => do
    let d ← charge w.digit (Vec.rd v iter)
    if d = 0 then
      let v' ← charge 0 (Vec.popBack v)
      popZerosC v' iter
    else pure v

/-- bn_subtraction_impl.h:18-24 -/
def subDebugCheckC (env : Env) (larger smaller : List Nat) : Counted Unit := do
  if env.debug then
    if larger.length < smaller.length then charge 0 (.error (.exn .bnUnderflow))
    else if ← absLtC w larger smaller then charge 0 (.error (.exn .bnUnderflow))
    else pure ()
  else pure ()

/-- `abs_val_sub`, bn_subtraction_impl.h:13-72 -/
def absSubC (L : Limits) (env : Env) (fuel : Nat) (larger : List Nat) (src : Src) : Counted (List Nat) := do
  charge w.sub (.ok ())
  subDebugCheckC w env larger (src.get larger)
  let s ← loopForeverC (fun s => charge w.digit (subBody L src s)) fuel ⟨larger, 0, 0, L.toDouble 0⟩
  popZerosC w s.larger s.larger.length

/-- The lambda `shift_left_1`, bn_division_impl.h:20-43: one step per digit and one for the digit appended. -/
def shiftLeft1C (L : Limits) (env : Env) (c : List Nat) : Counted (List Nat) :=
  charge (w.double + w.digit * (c.length + 1)) (shiftLeft1 L env c)

/-- bn_division_impl.h:57-60 -/
def searchBodyC (L : Limits) (env : Env) (s : SearchSt) : Counted SearchSt := do
  let b0 ← copyC w env s.bsrch1
  let b1 ← shiftLeft1C w L env s.bsrch1
  let q ← shiftLeft1C ⟨w.digit, w.sub, 0⟩ L env s.q
  pure ⟨b0, b1, q⟩

/-- bn_division_impl.h:49-73 -/
def divBodyC (L : Limits) (env : Env) (fuel : Nat) (divisor : List Nat) (s : DivSt) : Counted DivSt := do
  let bsrch0 ← copyC w env divisor
  let bsrch1 ← copyC w env divisor
  let q ← copyC w env [L.store (L.toSingle 1)]
  let bsrch1 ← shiftLeft1C w L env bsrch1
  let t ← loopWhileC (fun t => absGeC w s.dividend t.bsrch1) (searchBodyC w L env) fuel ⟨bsrch0, bsrch1, q⟩
  let dividend ← absSubC w L env fuel s.dividend (.other t.bsrch0)
  if t.q.length ≤ s.res.length then
    let res ← absAddC w L env fuel s.res (.other t.q)
    pure ⟨dividend, res⟩
  else
    let q ← absAddC w L env fuel t.q (.other s.res)
    pure ⟨dividend, q⟩

/-- `abs_val_div`, bn_division_impl.h:7-78 -/
def absDivC (L : Limits) (env : Env) (fuel : Nat) (dividend divisor : List Nat) : Counted (List Nat) := do
  let res ← copyC w env [L.store (L.toSingle 0)]
  let s ← loopWhileC (fun s => absGeC w s.dividend divisor) (divBodyC w L env fuel divisor) fuel ⟨dividend, res⟩
  pure s.res

variable {F : Type} (o : FloatOps F)

/-- `fft_complex`, fourier_impl.h:41-86: the loops over the halves, and the list of one element of line 49. -/
def fftComplexC : Nat → List (Cx F) → Counted (List (Cx F))
  | 0, _ => charge 0 (.error .timeout)
  | fuel + 1, x =>
    let len := x.length
    if len = 1 then charge w.digit (.ok x)
    else do
      let halfLen := len / 2
      let p ← charge (w.digit * halfLen) (fftPartition x halfLen halfLen)
      let evens ← fftComplexC fuel p.1
      let odds ← fftComplexC fuel p.2
      charge (w.digit * halfLen) (fftCombine o len halfLen evens odds halfLen x)

/-- `ifft_complex`, fourier_impl.h:91-103 -/
def ifftComplexC (fuel : Nat) (x : List (Cx F)) : Counted (List (Cx F)) := do
  let x ← charge (w.digit * x.length) (.ok (x.map (Cx.conj o)))
  let x ← fftComplexC w o fuel x
  let len := o.ofNat x.length
  charge (w.digit * x.length) (.ok (x.map (fun e => Cx.divBy o (Cx.conj o e) len)))

/-- `convolute_fft`, fourier_impl.h:147-170: a copy, a transform and the pointwise products. -/
def convoluteFftC (fuel : Nat) (table : List (Cx F)) : Counted (List (Cx F)) := do
  let fftSize := table.length
  let copy ← charge (w.digit * fftSize) (.ok table)
  let transforms ← fftComplexC w o fuel copy
  charge (w.digit * fftSize) ((List.range fftSize).mapM (convolutePoint o transforms fftSize))

/-- bn_multiplication_impl.h:48-56 -/
def countTopZerosC (ret : List Nat) : Nat → Nat → Counted Nat
  | 0, n => pure n
  | i + 1, n => do
    let d ← charge w.digit (Vec.rd ret i)
    if d ≠ 0 then pure n else countTopZerosC ret i (n + 1)

/-- `mul_strassen`, bn_multiplication_impl.h:15-61 -/
def mulStrassenC (L : Limits) (env : Env) (fuel : Nat) (a b : List Nat) : Counted (List Nat) := do
  if ¬ env.alloc (fftTableSize a.length b.length) then charge 0 (.error (.exn .badAlloc))
  else
    let table ← charge (w.digit * fftTableSize a.length b.length) (createFftTable o a b)
    let table ← convoluteFftC w o fuel table
    let inverses ← ifftComplexC w o fuel table
    let ret ← charge (w.digit * inverses.length) (carryLoop o L 0 (inverses.map Cx.re))
    let z ← countTopZerosC w ret ret.length 0
    charge 0 (Vec.resize env ret (ret.length - z) 0)

/-- bn_type_impl.h:100-103 -/
def Bignum.copyC (env : Env) (num : Bignum) : Counted Bignum := do
  let d ← BN.copyC w env num.digits
  pure ⟨num.desc, d⟩

/-- The difference of magnitudes as bn_type_impl.h:471-481 and its like compute it: in place if the left one is not the
smaller, otherwise through a copy of the right one, with the sign `d`. -/
def diffC (L : Limits) (env : Env) (fuel : Nat) (this : Bignum) (r : Rhs) (d : Desc) : Counted Bignum := do
  let num := r.get this
  if ← absGeC w this.digits num.digits then
    let ds ← absSubC w L env fuel this.digits r.src
    pure ⟨this.desc, ds⟩
  else
    let tempNum ← Bignum.copyC w env num
    let ds ← absSubC w L env fuel tempNum.digits (.other this.digits)
    pure ⟨d, ds⟩

/-- bn_type_impl.h:464-505 -/
def addTryC (L : Limits) (env : Env) (fuel : Nat) (this : Bignum) (r : Rhs) : Counted Bignum := do
  let num := r.get this
  if this.desc = .pos ∧ num.desc = .pos then
    let d ← absAddC w L env fuel this.digits r.src
    pure ⟨this.desc, d⟩
  else if this.desc = .pos ∧ num.desc = .neg then diffC w L env fuel this r .neg
  else if this.desc = .neg ∧ num.desc = .pos then diffC w L env fuel this r .pos
  else
    let d ← absAddC w L env fuel this.digits r.src
    pure ⟨this.desc, d⟩

/-- bn_type_impl.h:549-553 and 555-559 -/
def tempDiffC (L : Limits) (env : Env) (fuel : Nat) (this num : Bignum) : Counted Bignum := do
  let g ← absGtC w this.digits num.digits
  let temp ← BN.copyC w env (if g then this.digits else num.digits)
  let temp ← absSubC w L env fuel temp (.other num.digits)
  pure ⟨this.desc, temp⟩

/-- bn_type_impl.h:533-574 -/
def subTryC (L : Limits) (env : Env) (fuel : Nat) (this : Bignum) (r : Rhs) : Counted Bignum :=
  let num := r.get this
  if this.desc = .pos ∧ num.desc = .pos then diffC w L env fuel this r .neg
  else if this.desc = .pos ∧ num.desc = .neg then tempDiffC w L env fuel this num
  else if this.desc = .neg ∧ num.desc = .pos then tempDiffC w L env fuel this num
  else diffC w L env fuel this r .pos

/-- bn_type_impl.h:682-691 -/
def divTryC (L : Limits) (env : Env) (fuel : Nat) (this : Bignum) (divisor : List Nat) : Counted Bignum := do
  if ← absGtC w this.digits divisor then
    let d ← absDivC w L env fuel this.digits divisor
    pure ⟨this.desc, d⟩
  else
    pure ⟨this.desc, [L.store (L.toSingle 0)]⟩

/-- The work of the `try` blocks of the four operators; nothing outside them depends on the number of digits. -/
def Arith.work (L : Limits) (env : Env) (fuel : Nat) (k : Arith) (this : Bignum) (r : Rhs) : Counted Bignum :=
  match k with
  | .add => addTryC w L env fuel this r
  | .sub => subTryC w L env fuel this r
  | .mul => do
    let d ← mulStrassenC w o L env fuel this.digits (r.get this).digits
    pure ⟨mulSign this.desc (r.get this).desc, d⟩
  | .div => divTryC w L env fuel this (r.get this).digits

/-- `x op= num`, bn_type_impl.h:454-702: how it ends and the steps it takes. -/
def Arith.assignC (L : Limits) (env : Env) (fuel : Nat) (k : Arith) (this : Bignum) (r : Rhs) : Out × Nat :=
  if !isComputable this.desc then (.ok (notComputable this r), 0)
  else match k with
  | .div =>
    let this : Bignum := ⟨mulSign this.desc (r.get this).desc, this.digits⟩
    let num := r.get this
    if isOneDigit num.digits 0 then (.ok ⟨if this.desc = .neg then .negInf else .posInf, []⟩, 0)
    else if isOneDigit num.digits 1 then (.ok this, 0)
    else if this.digits = [] ∨ isOneDigit this.digits 0 then (.ok this, 0)
    else (handle this num.desc (Arith.work w o L env fuel .div this r).res, (Arith.work w o L env fuel .div this r).steps)
  | k => (handle this (r.get this).desc (k.work w o L env fuel this r).res, (k.work w o L env fuel this r).steps)

/-- `a op num`, bn_type_impl.h:410-447: the copy and the compound operator. -/
def Arith.binaryC (L : Limits) (env : Env) (fuel : Nat) (k : Arith) (this num : Bignum) : Counted Bignum := do
  let ret ← Bignum.copyC w env this
  let r := k.assignC w o L env fuel ret (.other num)
  charge r.2 (match r.1 with
    | .ok b => .ok b
    | .threw e _ => .error (.exn e)
    | .ub u => .error (.ub u)
    | .timeout => .error .timeout)

end

/-- The comparison operators, bn_type_impl.h:286-378. -/
inductive Cmp where
  | eq | ne | gt | ge | lt | le
  deriving DecidableEq, Repr

def Cmp.run : Cmp → Bignum → Bignum → Res Bool
  | .eq => Bignum.eq
  | .ne => Bignum.ne
  | .gt => Bignum.gt
  | .ge => Bignum.ge
  | .lt => Bignum.lt
  | .le => Bignum.le

def Cmp.runC (w : Weights) : Cmp → Bignum → Bignum → Counted Bool
  | .eq, a, b => if a.desc ≠ b.desc then pure false else absEqC w a.digits b.digits
  | .ne, a, b =>
    if a.desc ≠ b.desc then pure true
    else do
      let r ← absEqC w a.digits b.digits
      pure !r
  | .gt, a, b =>
    if a.desc = .pos ∧ b.desc = .neg then pure true
    else if a.desc = .neg ∧ b.desc = .pos then pure false
    else if a.desc = .neg ∧ b.desc = .neg then absLeC w a.digits b.digits
    else absGtC w a.digits b.digits
  | .ge, a, b =>
    if a.desc = .pos ∧ b.desc = .neg then pure true
    else if a.desc = .neg ∧ b.desc = .pos then pure false
    else if a.desc = .neg ∧ b.desc = .neg then absLtC w a.digits b.digits
    else absGeC w a.digits b.digits
  | .lt, a, b =>
    if a.desc = .pos ∧ b.desc = .neg then pure false
    else if a.desc = .neg ∧ b.desc = .pos then pure true
    else if a.desc = .neg ∧ b.desc = .neg then absGtC w a.digits b.digits
    else absLtC w a.digits b.digits
  | .le, a, b =>
    if a.desc = .pos ∧ b.desc = .neg then pure false
    else if a.desc = .neg ∧ b.desc = .pos then pure true
    else if a.desc = .neg ∧ b.desc = .neg then absGtC w a.digits b.digits
    else absLeC w a.digits b.digits

end BN
