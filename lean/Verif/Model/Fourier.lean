import Verif.Model.Basic
/-
impl/fourier_impl.h, written over an abstract record of floating-point operations.
-/
namespace BN

/-- The operations of `flt_t` (= `double`, bn_multiplication_impl.h:18) that the code uses. -/
structure FloatOps (F : Type) where
  ofNat : Nat → F          -- integer → floating conversion
  add : F → F → F
  sub : F → F → F
  mul : F → F → F
  mulSub : F → F → F → F → F  -- x * y - z * w, as the compiler evaluates it (it may keep a product unrounded)
  mulAdd : F → F → F → F → F  -- x * y + z * w, likewise
  div : F → F → F
  neg : F → F
  cos : F → F              -- std::cos
  sin : F → F              -- std::sin
  floor : F → F            -- std::floor
  trunc : F → Int          -- floating → integer conversion, discarding the fraction
  pi : F                   -- the constant of fourier_impl.h:42
  negTwo : F               -- -2.0
  half : F                 -- 0.5
  quarter : F              -- 0.25

/-- `std::complex<flt_t>` -/
structure Cx (F : Type) where
  re : F
  im : F
  deriving DecidableEq, Repr

namespace Cx
variable {F : Type} (o : FloatOps F)
/-- `operator+(complex, complex)` -/
def add (x y : Cx F) : Cx F := ⟨o.add x.re y.re, o.add x.im y.im⟩
/-- `operator-(complex, complex)` -/
def sub (x y : Cx F) : Cx F := ⟨o.sub x.re y.re, o.sub x.im y.im⟩
/-- `operator*(complex, complex)` (finite values): the only place where the code adds products, so the only one where a compiler
may use fused operations (GCC does by default where the processor has them). -/
def mul (x y : Cx F) : Cx F :=
  ⟨o.mulSub x.re y.re x.im y.im, o.mulAdd x.re y.im x.im y.re⟩
/-- `operator*(complex, flt_t)` -/
def scale (x : Cx F) (s : F) : Cx F := ⟨o.mul x.re s, o.mul x.im s⟩
/-- `operator/(complex, flt_t)` -/
def divBy (x : Cx F) (s : F) : Cx F := ⟨o.div x.re s, o.div x.im s⟩
/-- `std::conj` -/
def conj (x : Cx F) : Cx F := ⟨x.re, o.neg x.im⟩
end Cx

/-- Checked subscript of a vector of complex numbers. -/
def rdAt {α : Type} (v : List α) (i : Nat) : Res α :=
  match v[i]? with
  | some d => .ok d
  | none => .error (.ub .outOfBounds)

/-- `isPow2`, fourier_impl.h:13-16 (for `size_t`). -/
def isPow2 (n : Nat) : Bool := n ≠ 0 && (n &&& (n - 1)) == 0

/-- `nextPow2`, fourier_impl.h:23-36, for a 64-bit unsigned `num_t`. -/
def nextPow2 (n : Nat) : Nat :=
  if n = 0 then 0
  else
    let n := n - 1
    let n := n ||| (n >>> 1)
    let n := n ||| (n >>> 2)
    let n := n ||| (n >>> 4)
    let n := n ||| (n >>> 8)
    let n := n ||| (n >>> 16)
    (n + 1) % 2 ^ 64

section
variable {F : Type} (o : FloatOps F)

/-- The partition loop fourier_impl.h:59-69. For `i < halfLen` the test `i < x.size()` always holds; its
`else` branch would write past the end of the (merely reserved) partitions. -/
def fftPartition (x : List (Cx F)) (halfLen : Nat) : Nat → Res (List (Cx F) × List (Cx F))
  | 0 => .ok ([], [])
  | i + 1 => do
    let (evens, odds) ← fftPartition x halfLen i
    if i < x.length then
      let e ← rdAt x (2 * i)
      let d ← rdAt x (2 * i + 1)
      .ok (evens ++ [e], odds ++ [d])
    else .error (.ub .outOfBounds)

/-- Twiddle factor, fourier_impl.h:76-81. -/
def twiddle (len k : Nat) : Cx F :=
  let nf := o.ofNat len
  let kf := o.ofNat k
  let w := o.div (o.mul (o.mul o.negTwo kf) o.pi) nf
  ⟨o.cos w, o.sin w⟩

/-- The combination loop fourier_impl.h:78-85; `x[k]` and `x[k+halfLen]` are overwritten, the other
cells are left alone. -/
def fftCombine (len halfLen : Nat) (evens odds : List (Cx F)) : Nat → List (Cx F) → Res (List (Cx F))
  | 0, x => .ok x
  | k + 1, x => do
    let x ← fftCombine len halfLen evens odds k x
    let wk := twiddle o len k
    let e ← rdAt evens k
    let d ← rdAt odds k
    if k < x.length ∧ k + halfLen < x.length then
      .ok ((x.set k (Cx.add o e (Cx.mul o wk d))).set (k + halfLen) (Cx.sub o e (Cx.mul o wk d)))
    else .error (.ub .outOfBounds)

/-- `fft_complex`, fourier_impl.h:41-86. `fuel` bounds the recursion depth. -/
def fftComplex : Nat → List (Cx F) → Res (List (Cx F))
  | 0, _ => .error .timeout
  | fuel + 1, x => do
    let len := x.length
    if len = 1 then .ok x                                                        -- lines 48-51
    else
      let halfLen := len / 2
      let (evens, odds) ← fftPartition x halfLen halfLen
      let evens ← fftComplex fuel evens
      let odds ← fftComplex fuel odds
      fftCombine o len halfLen evens odds halfLen x

/-- `ifft_complex`, fourier_impl.h:91-103. -/
def ifftComplex (fuel : Nat) (x : List (Cx F)) : Res (List (Cx F)) := do
  let x := x.map (Cx.conj o)
  let x ← fftComplex o fuel x
  let len := o.ofNat x.length
  .ok (x.map (fun e => Cx.divBy o (Cx.conj o e) len))

/-- `create_fft_table`, fourier_impl.h:108-142: size of the table (lines 114-123). -/
def fftTableSize (aLen bLen : Nat) : Nat :=
  let size := aLen + bLen
  if !isPow2 size then nextPow2 size else size

/-- `big_value_type aVal = 0; if (i < aLen) { aVal = a[i]; }`, fourier_impl.h:130-136. -/
def cellOrZero (v : List Nat) (i : Nat) : Res Nat :=
  if i < v.length then rdAt v i else .ok 0

/-- `create_fft_table`, fourier_impl.h:125-141: packs `a` into the real and `b` into the imaginary parts.
The digits are converted to `flt_t`. -/
def createFftTable (a b : List Nat) : Res (List (Cx F)) :=
  (List.range (fftTableSize a.length b.length)).mapM fun i => do
    let aVal ← cellOrZero a i
    let bVal ← cellOrZero b i
    .ok ⟨o.ofNat aVal, o.ofNat bVal⟩

/-- `-i % fftSize` in 64-bit unsigned arithmetic, fourier_impl.h:158. -/
def negIdx (i n : Nat) : Nat := ((2 ^ 64 - i % 2 ^ 64) % 2 ^ 64) % n

/-- Body of the pointwise loop, fourier_impl.h:157-168. -/
def convolutePoint (transforms : List (Cx F)) (fftSize i : Nat) : Res (Cx F) := do
  let ti ← rdAt transforms i
  let tn ← rdAt transforms (negIdx i fftSize)
  let tc := Cx.conj o tn
  let x1 := Cx.add o ti tc
  let x2 := Cx.sub o ti tc
  let x3 := Cx.mul o x1 x2
  .ok (Cx.scale o ⟨x3.im, o.neg x3.re⟩ o.quarter)

/-- `convolute_fft`, fourier_impl.h:147-170. Each cell of `fftTable` is overwritten from `transforms`
only, so the loop is a map over the indices. -/
def convoluteFft (fuel : Nat) (table : List (Cx F)) : Res (List (Cx F)) := do
  let fftSize := table.length
  let transforms ← fftComplex o fuel table
  (List.range fftSize).mapM (convolutePoint o transforms fftSize)

end
end BN
