import Verif.Model.Program
/-
The floating-point code of impl/fourier_impl.h and impl/bn_multiplication_impl.h with a clock: every operation takes one tick, and the
arithmetic may be another one at every tick. So a computation that is done twice may come out differently: somebody may set the
rounding mode in between, one of the two may be contracted to fused operations and the other not, or kept in a wider register. The
models of Model/Fourier.lean and Model/MulStrassen.lean are those of an arithmetic that never changes.
-/
namespace BN

/-- Code that reads the clock. -/
abbrev Timed (α : Type) := StateT Nat (Except Fault) α

section
variable {F : Type} (O : Nat → FloatOps F)

/-- One operation of the arithmetic of the moment. -/
def tick {α : Type} (f : FloatOps F → α) : Timed α := fun t => .ok (f (O t), t + 1)

/-- Code without floating-point operations takes no time. -/
def still {α : Type} (r : Res α) : Timed α := fun t => match r with
  | .ok a => .ok (a, t)
  | .error e => .error e

namespace Cx
/-- `operator+(complex, complex)` -/
def addT (x y : Cx F) : Timed (Cx F) := do
  let re ← tick O fun o => o.add x.re y.re
  let im ← tick O fun o => o.add x.im y.im
  pure ⟨re, im⟩
/-- `operator-(complex, complex)` -/
def subT (x y : Cx F) : Timed (Cx F) := do
  let re ← tick O fun o => o.sub x.re y.re
  let im ← tick O fun o => o.sub x.im y.im
  pure ⟨re, im⟩
/-- `operator*(complex, complex)` (finite values) -/
def mulT (x y : Cx F) : Timed (Cx F) := do
  let re ← tick O fun o => o.mulSub x.re y.re x.im y.im
  let im ← tick O fun o => o.mulAdd x.re y.im x.im y.re
  pure ⟨re, im⟩
/-- `operator*(complex, flt_t)` with the constant of fourier_impl.h:165 -/
def quarterT (x : Cx F) : Timed (Cx F) := do
  let re ← tick O fun o => o.mul x.re o.quarter
  let im ← tick O fun o => o.mul x.im o.quarter
  pure ⟨re, im⟩
/-- `operator/(complex, flt_t)` -/
def divByT (x : Cx F) (s : F) : Timed (Cx F) := do
  let re ← tick O fun o => o.div x.re s
  let im ← tick O fun o => o.div x.im s
  pure ⟨re, im⟩
/-- `std::conj` -/
def conjT (x : Cx F) : Timed (Cx F) := do
  let im ← tick O fun o => o.neg x.im
  pure ⟨x.re, im⟩
end Cx

/-- Twiddle factor, fourier_impl.h:76-81; the length is converted anew for every quotient. -/
def twiddleT (len k : Nat) : Timed (Cx F) := do
  let kf ← tick O fun o => o.ofNat k
  let a ← tick O fun o => o.mul o.negTwo kf
  let b ← tick O fun o => o.mul a o.pi
  let nf ← tick O fun o => o.ofNat len
  let w ← tick O fun o => o.div b nf
  let c ← tick O fun o => o.cos w
  let s ← tick O fun o => o.sin w
  pure ⟨c, s⟩

/-- The combination loop fourier_impl.h:78-85. The product is written twice, and may be computed twice. -/
def fftCombineT (len halfLen : Nat) (evens odds : List (Cx F)) : Nat → List (Cx F) → Timed (List (Cx F))
  | 0, x => pure x
  | k + 1, x => do
    let x ← fftCombineT len halfLen evens odds k x
    let wk ← twiddleT O len k
    let e ← still (rdAt evens k)
    let d ← still (rdAt odds k)
    if k < x.length ∧ k + halfLen < x.length then
      let p ← Cx.mulT O wk d
      let lo ← Cx.addT O e p
      let q ← Cx.mulT O wk d
      let hi ← Cx.subT O e q
      pure ((x.set k lo).set (k + halfLen) hi)
    else still (.error (.ub .outOfBounds))

/-- `fft_complex`, fourier_impl.h:41-86. `fuel` bounds the recursion depth. -/
def fftComplexT : Nat → List (Cx F) → Timed (List (Cx F))
  | 0, _ => still (.error .timeout)
  | fuel + 1, x => do
    let len := x.length
    if len = 1 then pure x
    else
      let halfLen := len / 2
      let (evens, odds) ← still (fftPartition x halfLen halfLen)
      let evens ← fftComplexT fuel evens
      let odds ← fftComplexT fuel odds
      fftCombineT O len halfLen evens odds halfLen x

/-- A loop that treats the entries of a list one after the other. -/
def eachT {α β : Type} (f : α → Timed β) : List α → Timed (List β)
  | [] => pure []
  | x :: xs => do
    let y ← f x
    let ys ← eachT f xs
    pure (y :: ys)

/-- `ifft_complex`, fourier_impl.h:91-103. -/
def ifftComplexT (fuel : Nat) (x : List (Cx F)) : Timed (List (Cx F)) := do
  let x ← eachT (Cx.conjT O) x
  let x ← fftComplexT O fuel x
  let len ← tick O fun o => o.ofNat x.length
  eachT (fun e => do let c ← Cx.conjT O e; Cx.divByT O c len) x

/-- `create_fft_table`, fourier_impl.h:125-141. -/
def createFftTableT (a b : List Nat) : Timed (List (Cx F)) :=
  eachT (fun i => do
    let aVal ← still (cellOrZero a i)
    let bVal ← still (cellOrZero b i)
    let re ← tick O fun o => o.ofNat aVal
    let im ← tick O fun o => o.ofNat bVal
    pure ⟨re, im⟩) (List.range (fftTableSize a.length b.length))

/-- Body of the pointwise loop, fourier_impl.h:157-168. -/
def convolutePointT (transforms : List (Cx F)) (fftSize i : Nat) : Timed (Cx F) := do
  let ti ← still (rdAt transforms i)
  let tn ← still (rdAt transforms (negIdx i fftSize))
  let tc ← Cx.conjT O tn
  let x1 ← Cx.addT O ti tc
  let x2 ← Cx.subT O ti tc
  let x3 ← Cx.mulT O x1 x2
  let m ← tick O fun o => o.neg x3.re
  Cx.quarterT O ⟨x3.im, m⟩

/-- `convolute_fft`, fourier_impl.h:147-170. -/
def convoluteFftT (fuel : Nat) (table : List (Cx F)) : Timed (List (Cx F)) := do
  let fftSize := table.length
  let transforms ← fftComplexT O fuel table
  eachT (convolutePointT O transforms fftSize) (List.range fftSize)

/-- One iteration of the carry loop, bn_multiplication_impl.h:35-44. -/
def carryStepT (L : Limits) (c : Nat) (x : F) : Timed (Nat × Nat) := do
  let NUM_BASE := L.toDouble (L.maxLimit + 1)
  let y ← tick O fun o => o.add x o.half
  let y ← tick O fun o => o.floor y
  let cf ← tick O fun o => o.ofNat c
  let y ← tick O fun o => o.add cf y
  let ci ← tick O fun o => floatToDouble o L y
  still (do
    let ci ← ci
    let m ← Val.bin .mod ci NUM_BASE
    let q ← Val.bin .div ci NUM_BASE
    .ok (L.store m, (q.conv (.prim (cU 64))).val.toNat))

/-- The carry loop bn_multiplication_impl.h:34-45. -/
def carryLoopT (L : Limits) : Nat → List F → Timed (List Nat)
  | _, [] => pure []
  | c, x :: xs => do
    let (d, c') ← carryStepT O L c x
    let ds ← carryLoopT L c' xs
    pure (d :: ds)

/-- `mul_strassen(a, b)`, bn_multiplication_impl.h:15-61. -/
def mulStrassenT (L : Limits) (env : Env) (fuel : Nat) (a b : List Nat) : Timed (List Nat) := do
  if ¬ env.alloc (fftTableSize a.length b.length) then still (.error (.exn .badAlloc))
  else
    let table ← createFftTableT O a b
    let table ← convoluteFftT O fuel table
    let inverses ← ifftComplexT O fuel table
    let ret ← carryLoopT O L 0 (inverses.map Cx.re)
    still (do
      let z ← countTopZeros ret ret.length 0
      Vec.resize env ret (ret.length - z) 0)

end

/-- The outcome of code started at time 0. -/
def Timed.outcome {α : Type} (m : Timed α) : Res α := match m 0 with
  | .ok (a, _) => .ok a
  | .error e => .error e

namespace Bignum
variable {F : Type}

/-- `operator*=`, bn_type_impl.h:592-632 -/
def mulAssignT (O : Nat → FloatOps F) (L : Limits) (env : Env) (fuel : Nat) (this : Bignum) (r : Rhs) : Out :=
  if !isComputable this.desc then .ok (notComputable this r)
  else
    let num := r.get this
    handle this num.desc (do
      let d ← (mulStrassenT O L env fuel this.digits num.digits).outcome
      .ok ⟨mulSign this.desc num.desc, d⟩)

/-- `operator*`, bn_type_impl.h:432-436 -/
def mulT (O : Nat → FloatOps F) (L : Limits) (env : Env) (fuel : Nat) (a b : Bignum) : Res Bignum :=
  viaCopy env (mulAssignT O L env fuel) a b

end Bignum

/-- Execution of one statement (`Op.step`) when its arithmetic goes by the clock `O`. Only products use floating point. -/
def Op.stepT {F : Type} (O : Nat → FloatOps F) (L : Limits) (env : Env) (fuel : Nat) (s : Store) : Op → Option Store
  | .arith .mul i j => (Bignum.mulAssignT O L env fuel (s i) (rhsOf s i j)).store s i
  | .binary .mul i j l => (Bignum.strong (s i) (Bignum.mulT O L env fuel (s j) (s l))).store s i
  | op => op.step (O 0) L env fuel s

/-- Execution of a program; `O k` is the clock of the k-th statement. -/
def runT {F : Type} (L : Limits) (fuel : Nat) : (Nat → Nat → FloatOps F) → (Nat → Env) → Store → List Op → Option Store
  | _, _, s, [] => some s
  | O, env, s, op :: ops =>
    (op.stepT (O 0) L (env 0) fuel s).bind fun s' => runT L fuel (fun k => O (k + 1)) (fun k => env (k + 1)) s' ops

end BN
