import Verif.Model.Program
/-
The operators once more, with the memory they hold: there is a number of free bytes, a vector that needs more storage takes the new
storage before it returns the old one, and vectors return their storage when their scope ends, also when an exception leaves it.
-/
namespace BN
open Bignum

/-- Sizes in bytes of a digit and of a `std::complex<double>`, and the capacity that `push_back` asks for in a full vector of the given
length (twice the length in common libraries). -/
structure Plant where
  digit : Nat
  cell : Nat
  grow : Nat → Nat
  grow_gt : ∀ n, n < grow n

/-- The vectors of digits that an operator has alive: `numData` of the left operand; the result or temporary copy (`res`, `ret`,
`tempNum`, `temp`); the variables of a division. -/
inductive Var where
  | this | result | bsrch0 | bsrch1 | q
  deriving DecidableEq, Repr

/-- Free bytes, and the capacity of each vector. -/
structure Mem where
  free : Nat
  cap : Var → Nat

/-- A computation that takes and returns memory; an exception leaves the memory in some state, too. -/
def HeapM (α : Type) := Mem → Res α × Mem

instance : Monad HeapM where
  pure x := fun h => (.ok x, h)
  bind m f := fun h => match m h with
    | (.ok x, h') => f x h'
    | (.error e, h') => (.error e, h')

/-- A computation that leaves the memory alone. -/
def HeapM.lift {α : Type} (r : Res α) : HeapM α := fun h => (r, h)

/-- A vector of `n` bytes that lives as long as the block. -/
def during {α : Type} (n : Nat) (block : HeapM α) : HeapM α := fun h =>
  if n ≤ h.free then
    let r := block { h with free := h.free - n }
    (r.1, { r.2 with free := r.2.free + n })
  else (.error (.exn .badAlloc), h)

def Mem.setCap (h : Mem) (v : Var) (n : Nat) : Var → Nat := fun w => if w = v then n else h.cap w

/-- The storage of `v` is returned. -/
def Mem.release (c : Plant) (h : Mem) (v : Var) : Mem := ⟨h.free + c.digit * h.cap v, h.setCap v 0⟩

/-- Room for `n` digits in `v`: nothing if there is; else the new storage is taken, and then the old one returned. -/
def takeFor (c : Plant) (v : Var) (n : Nat) : HeapM Unit := fun h =>
  if n ≤ h.cap v then (.ok (), h)
  else if c.digit * n ≤ h.free then (.ok (), ⟨h.free - c.digit * n + c.digit * h.cap v, h.setCap v n⟩)
  else (.error (.exn .badAlloc), h)

/-- Room for one more digit in `v`, which has `len` (`push_back`). -/
def growBy1 (c : Plant) (v : Var) (len : Nat) : HeapM Unit := fun h =>
  if len + 1 ≤ h.cap v then (.ok (), h) else takeFor c v (c.grow len) h

/-- The same under a condition. -/
def growIf (c : Plant) (v : Var) (len : Nat) (b : Bool) : HeapM Unit := if b then growBy1 c v len else pure ()

/-- `v = std::move(w)`: `v` returns its storage and takes that of `w`. -/
def steal (c : Plant) (v w : Var) : HeapM Unit := fun h =>
  (.ok (), ⟨h.free + c.digit * h.cap v, fun u => if u = v then h.cap w else if u = w then 0 else h.cap u⟩)

/-- The local vector `v` is destroyed at the end of the block, however it ends. -/
def scope {α : Type} (c : Plant) (v : Var) (block : HeapM α) : HeapM α := fun h =>
  let r := block h
  (r.1, r.2.release c v)

/-- `while (true) { body; if (brk) break; }` -/
def loopForeverH {σ : Type} (body : σ → HeapM (σ × Bool)) : Nat → σ → HeapM σ
  | 0, _ => .lift (.error .timeout)
  | n + 1, s => do
    let (s', brk) ← body s
    if brk then pure s' else loopForeverH body n s'

/-- `while (cond) { body; }` -/
def loopWhileH {σ : Type} (cond : σ → Res Bool) (body : σ → HeapM σ) : Nat → σ → HeapM σ
  | 0, _ => .lift (.error .timeout)
  | n + 1, s => do
    let b ← HeapM.lift (cond s)
    if b then do
      let s' ← body s
      loopWhileH cond body n s'
    else pure s

/-- A build without another limit to memory. -/
def freely (debug : Bool) : Env := ⟨fun _ => true, debug⟩

section
variable (c : Plant)

/-- One iteration of `abs_val_add` on the vector `v`, bn_addition_impl.h:25-52 -/
def addBodyV (L : Limits) (debug : Bool) (v : Var) (src : Src) (s : AddSt) : HeapM (AddSt × Bool) := do
  growIf c v s.out.length (s.outIter = s.out.length)
  HeapM.lift (addBody L (freely debug) src s)

/-- `abs_val_add`, bn_addition_impl.h:7-54 -/
def absAddV (L : Limits) (debug : Bool) (fuel : Nat) (v : Var) (out : List Nat) (src : Src) : HeapM (List Nat) := do
  let s ← loopForeverH (addBodyV c L debug v src) fuel ⟨out, 0, 0, L.toSingle 0⟩
  pure s.out

/-- The lambda `shift_left_1` on the vector `v`, bn_division_impl.h:20-43; if there is a carry it comes last. -/
def shiftLeft1V (L : Limits) (debug : Bool) (v : Var) (x : List Nat) : HeapM (List Nat) := do
  let y ← HeapM.lift (shiftLeft1 L (freely debug) x)
  growIf c v x.length (x.length < y.length)
  pure y

/-- Body of the search loop, bn_division_impl.h:57-60; `bsrch0 = bsrch1` reuses the storage if it suffices. -/
def searchBodyV (L : Limits) (debug : Bool) (s : SearchSt) : HeapM SearchSt := do
  takeFor c .bsrch0 s.bsrch1.length
  let b1 ← shiftLeft1V c L debug .bsrch1 s.bsrch1
  let q ← shiftLeft1V c L debug .q s.q
  pure ⟨s.bsrch1, b1, q⟩

/-- Body of the outer loop, bn_division_impl.h:49-73 -/
def divBodyV (L : Limits) (debug : Bool) (fuel : Nat) (divisor : List Nat) (s : DivSt) : HeapM DivSt :=
  scope c .bsrch0 <| scope c .bsrch1 <| scope c .q <| do
    takeFor c .bsrch0 divisor.length
    takeFor c .bsrch1 divisor.length
    takeFor c .q 1
    let bsrch1 ← shiftLeft1V c L debug .bsrch1 divisor
    let t ← loopWhileH (fun t => absGe s.dividend t.bsrch1) (searchBodyV c L debug) fuel ⟨divisor, bsrch1, [L.store (L.toSingle 1)]⟩
    let dividend ← HeapM.lift (absSub L (freely debug) fuel s.dividend (.other t.bsrch0))
    if t.q.length ≤ s.res.length then do
      let res ← absAddV c L debug fuel .result s.res (.other t.q)
      pure ⟨dividend, res⟩
    else do
      let q ← absAddV c L debug fuel .q t.q (.other s.res)
      steal c .result .q
      pure ⟨dividend, q⟩

/-- `abs_val_div`, bn_division_impl.h:7-78 -/
def absDivV (L : Limits) (debug : Bool) (fuel : Nat) (dividend divisor : List Nat) : HeapM (List Nat) :=
  scope c .result do
    takeFor c .result 1
    let s ← loopWhileH (fun s => absGe s.dividend divisor) (divBodyV c L debug fuel divisor) fuel
      ⟨dividend, [L.store (L.toSingle 0)]⟩
    steal c .this .result
    pure s.res

section
variable {F : Type} (o : FloatOps F)

/-- `fft_complex`, fourier_impl.h:41-86: line 49 makes a vector of one element, which replaces the old one; lines 56-57 reserve the two
halves. -/
def fftComplexV : Nat → List (Cx F) → HeapM (List (Cx F))
  | 0, _ => .lift (.error .timeout)
  | fuel + 1, x =>
    let len := x.length
    if len = 1 then during c.cell (pure x)
    else
      let halfLen := len / 2
      during (c.cell * halfLen) <| during (c.cell * halfLen) do
        let p ← HeapM.lift (fftPartition x halfLen halfLen)
        let evens ← fftComplexV fuel p.1
        let odds ← fftComplexV fuel p.2
        HeapM.lift (fftCombine o len halfLen evens odds halfLen x)

/-- `ifft_complex`, fourier_impl.h:91-103 -/
def ifftComplexV (fuel : Nat) (x : List (Cx F)) : HeapM (List (Cx F)) := do
  let x ← fftComplexV c o fuel (x.map (Cx.conj o))
  let len := o.ofNat x.length
  pure (x.map (fun e => Cx.divBy o (Cx.conj o e) len))

/-- `convolute_fft`, fourier_impl.h:147-170; line 151 copies the table. -/
def convoluteFftV (fuel : Nat) (table : List (Cx F)) : HeapM (List (Cx F)) :=
  during (c.cell * table.length) do
    let transforms ← fftComplexV c o fuel table
    HeapM.lift ((List.range table.length).mapM (convolutePoint o transforms table.length))

/-- `mul_strassen`, bn_multiplication_impl.h:15-61: the table lives to the end of the function, the digits (`ret`) longer. -/
def mulStrassenV (L : Limits) (fuel : Nat) (a b : List Nat) : HeapM (List Nat) :=
  during (c.cell * fftTableSize a.length b.length) do
    let table ← HeapM.lift (createFftTable o a b)
    let table ← convoluteFftV c o fuel table
    let inverses ← ifftComplexV c o fuel table
    takeFor c .result inverses.length
    let ret ← HeapM.lift (carryLoop o L 0 (inverses.map Cx.re))
    let z ← HeapM.lift (countTopZeros ret ret.length 0)
    pure (ret.take (ret.length - z))

end

/-- `Bignum tempNum = num; abs_val_sub(tempNum.numData, numData); ...; *this = std::move(tempNum);`, bn_type_impl.h:478-483, 494-499,
542-547, 568-573 -/
def subCopyV (L : Limits) (debug : Bool) (fuel : Nat) (this num : List Nat) (sign : Desc) : HeapM Bignum :=
  scope c .result do
    takeFor c .result num.length
    let d ← HeapM.lift (absSub L (freely debug) fuel num (.other this))
    steal c .this .result
    pure ⟨sign, d⟩

/-- `abs_val_sub` in place. -/
def subInPlaceV (L : Limits) (debug : Bool) (fuel : Nat) (this : Bignum) (r : Rhs) : HeapM Bignum := do
  let d ← HeapM.lift (absSub L (freely debug) fuel this.digits r.src)
  pure ⟨this.desc, d⟩

/-- `try` block of `operator+=`, bn_type_impl.h:464-505 -/
def addTryV (L : Limits) (debug : Bool) (fuel : Nat) (this : Bignum) (r : Rhs) : HeapM Bignum := do
  let num := r.get this
  if this.desc = .pos ∧ num.desc = .pos then do
    let d ← absAddV c L debug fuel .this this.digits r.src
    pure ⟨this.desc, d⟩
  else if this.desc = .pos ∧ num.desc = .neg then do
    let ge ← HeapM.lift (absGe this.digits num.digits)
    if ge then subInPlaceV L debug fuel this r else subCopyV c L debug fuel this.digits num.digits .neg
  else if this.desc = .neg ∧ num.desc = .pos then do
    let ge ← HeapM.lift (absGe this.digits num.digits)
    if ge then subInPlaceV L debug fuel this r else subCopyV c L debug fuel this.digits num.digits .pos
  else do
    let d ← absAddV c L debug fuel .this this.digits r.src
    pure ⟨this.desc, d⟩

/-- `container_t temp = ...; abs_val_sub(temp, num.numData); numData = std::move(temp);`, bn_type_impl.h:549-559 -/
def subMixedV (L : Limits) (debug : Bool) (fuel : Nat) (this num : Bignum) : HeapM Bignum :=
  scope c .result do
    let g ← HeapM.lift (absGt this.digits num.digits)
    let temp := if g then this.digits else num.digits
    takeFor c .result temp.length
    let d ← HeapM.lift (absSub L (freely debug) fuel temp (.other num.digits))
    steal c .this .result
    pure ⟨this.desc, d⟩

/-- `try` block of `operator-=`, bn_type_impl.h:533-574 -/
def subTryV (L : Limits) (debug : Bool) (fuel : Nat) (this : Bignum) (r : Rhs) : HeapM Bignum := do
  let num := r.get this
  if this.desc = .pos ∧ num.desc = .pos then do
    let ge ← HeapM.lift (absGe this.digits num.digits)
    if ge then subInPlaceV L debug fuel this r else subCopyV c L debug fuel this.digits num.digits .neg
  else if this.desc = .pos ∧ num.desc = .neg then subMixedV c L debug fuel this num
  else if this.desc = .neg ∧ num.desc = .pos then subMixedV c L debug fuel this num
  else do
    let ge ← HeapM.lift (absGe this.digits num.digits)
    if ge then subInPlaceV L debug fuel this r else subCopyV c L debug fuel this.digits num.digits .pos

/-- The handlers, bn_type_impl.h:507-514 and others: `clear()` keeps the storage. -/
def handleV (this : Bignum) (d : Desc) (m : HeapM Bignum) (h : Mem) : Out × Mem := (handle this d (m h).1, (m h).2)

/-- `x op= num`, bn_type_impl.h:454-702, where `x` has the storage `.this`. -/
def Arith.assignV {F : Type} (o : FloatOps F) (L : Limits) (debug : Bool) (fuel : Nat) (k : Arith) (this : Bignum) (r : Rhs) (h : Mem) : Out × Mem :=
  if !isComputable this.desc then (.ok (notComputable this r), h)
  else match k with
  | .add => handleV this (r.get this).desc (addTryV c L debug fuel this r) h
  | .sub => handleV this (r.get this).desc (subTryV c L debug fuel this r) h
  | .mul =>
    let num := r.get this
    handleV this num.desc (scope c .result do
      let d ← mulStrassenV c o L fuel this.digits num.digits
      steal c .this .result
      pure ⟨mulSign this.desc num.desc, d⟩) h
  | .div =>
    let this : Bignum := ⟨mulSign this.desc (r.get this).desc, this.digits⟩
    let num := r.get this
    if isOneDigit num.digits 0 then (.ok ⟨if this.desc = .neg then .negInf else .posInf, []⟩, h)
    else if isOneDigit num.digits 1 then (.ok this, h)
    else if this.digits = [] ∨ isOneDigit this.digits 0 then (.ok this, h)
    else handleV this num.desc (do
      let g ← HeapM.lift (absGt this.digits num.digits)
      if g then do
        let d ← absDivV c L debug fuel this.digits num.digits
        pure ⟨this.desc, d⟩
      else do
        takeFor c .this 1
        pure ⟨this.desc, [L.store (L.toSingle 0)]⟩) h

/-- `x op num`, bn_type_impl.h:410-447: a copy of `x`, which is destroyed when an exception leaves. -/
def Arith.binaryV {F : Type} (o : FloatOps F) (L : Limits) (debug : Bool) (fuel : Nat) (k : Arith) (x num : Bignum) : HeapM Bignum := fun h =>
  match takeFor c .this x.digits.length h with
  | (.error e, h') => (.error e, h')
  | (.ok _, h') =>
    match k.assignV c o L debug fuel x (.other num) h' with
    | (.ok b, h'') => (.ok b, h'')
    | (.threw e _, h'') => (.error (.exn e), h''.release c .this)
    | (.ub k, h'') => (.error (.ub k), h'')
    | (.timeout, h'') => (.error .timeout, h'')

end
end BN
