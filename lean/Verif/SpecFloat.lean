import Verif.Model.Fourier
import Mathlib.Analysis.SpecialFunctions.Trigonometric.Basic
/-
What is assumed of `double` arithmetic: the rounding-error laws of IEEE-754 binary64 with any faithful-to-half-ulp
rounding, and a bound on the error of the mathematical library's `sin` and `cos`.
-/
namespace BN

/-- Bound on the relative error of an operation: the unit roundoff 2^-53 of binary64, and a little more for processors that round to 64 bits first
(x87) and keep or round again to 53 bits. -/
noncomputable def uro : ℝ := (1 + 1 / 2 ^ 10) / 2 ^ 53
/-- Bound on the absolute error of an operation that underflows (binary64: 2^-1075; a weaker bound suffices). -/
noncomputable def eta : ℝ := 1 / 2 ^ 200
/-- Results up to this magnitude do not overflow (binary64: just below 2^1024; less suffices). -/
noncomputable def big : ℝ := 2 ^ 200

/-- The laws. `fin x`: x is a finite number; `val x`: its value. Nothing is said about infinities and NaNs. -/
structure Ieee {F : Type} (o : FloatOps F) where
  val : F → ℝ
  fin : F → Prop
  /-- integers up to 2^53 are represented exactly -/
  ofNat_ok : ∀ n : ℕ, n ≤ 2 ^ 53 → fin (o.ofNat n) ∧ val (o.ofNat n) = n
  add_ok : ∀ x y, fin x → fin y → |val x + val y| ≤ big →
    fin (o.add x y) ∧ |val (o.add x y) - (val x + val y)| ≤ uro * |val x + val y|
  sub_ok : ∀ x y, fin x → fin y → |val x - val y| ≤ big →
    fin (o.sub x y) ∧ |val (o.sub x y) - (val x - val y)| ≤ uro * |val x - val y|
  mul_ok : ∀ x y, fin x → fin y → |val x * val y| ≤ big →
    fin (o.mul x y) ∧ |val (o.mul x y) - val x * val y| ≤ uro * |val x * val y| + eta
  /-- a difference of products: both are rounded before the subtraction, or the second, or the first -/
  mulSub_ok : ∀ x y z w, fin x → fin y → fin z → fin w → |val x * val y| ≤ big / 2 → |val z * val w| ≤ big / 2 →
    o.mulSub x y z w = o.sub (o.mul x y) (o.mul z w) ∨
    (|val x * val y - val (o.mul z w)| ≤ big → fin (o.mulSub x y z w) ∧
      |val (o.mulSub x y z w) - (val x * val y - val (o.mul z w))| ≤ uro * |val x * val y - val (o.mul z w)| + eta) ∨
    (|val (o.mul x y) - val z * val w| ≤ big → fin (o.mulSub x y z w) ∧
      |val (o.mulSub x y z w) - (val (o.mul x y) - val z * val w)| ≤ uro * |val (o.mul x y) - val z * val w| + eta)
  /-- a sum of products, likewise -/
  mulAdd_ok : ∀ x y z w, fin x → fin y → fin z → fin w → |val x * val y| ≤ big / 2 → |val z * val w| ≤ big / 2 →
    o.mulAdd x y z w = o.add (o.mul x y) (o.mul z w) ∨
    (|val x * val y + val (o.mul z w)| ≤ big → fin (o.mulAdd x y z w) ∧
      |val (o.mulAdd x y z w) - (val x * val y + val (o.mul z w))| ≤ uro * |val x * val y + val (o.mul z w)| + eta) ∨
    (|val (o.mul x y) + val z * val w| ≤ big → fin (o.mulAdd x y z w) ∧
      |val (o.mulAdd x y z w) - (val (o.mul x y) + val z * val w)| ≤ uro * |val (o.mul x y) + val z * val w| + eta)
  div_ok : ∀ x y, fin x → fin y → val y ≠ 0 → |val x / val y| ≤ big →
    fin (o.div x y) ∧ |val (o.div x y) - val x / val y| ≤ uro * |val x / val y| + eta
  neg_ok : ∀ x, fin x → fin (o.neg x) ∧ val (o.neg x) = - val x
  /-- within two units in the last place near 1, for the arguments the transforms use -/
  cos_ok : ∀ x, fin x → |val x| ≤ 4 → fin (o.cos x) ∧ |val (o.cos x) - Real.cos (val x)| ≤ 4 * uro
  sin_ok : ∀ x, fin x → |val x| ≤ 4 → fin (o.sin x) ∧ |val (o.sin x) - Real.sin (val x)| ≤ 4 * uro
  floor_ok : ∀ x, fin x → fin (o.floor x) ∧ val (o.floor x) = (⌊val x⌋ : ℤ)
  trunc_ok : ∀ x, fin x → o.trunc x = if 0 ≤ val x then ⌊val x⌋ else ⌈val x⌉
  pi_ok : fin o.pi ∧ |val o.pi - Real.pi| ≤ 2 * uro
  negTwo_ok : fin o.negTwo ∧ val o.negTwo = -2
  half_ok : fin o.half ∧ val o.half = 1 / 2
  quarter_ok : fin o.quarter ∧ val o.quarter = 1 / 4
  /-- a sum of integers that is representable is computed exactly -/
  addInt_ok : ∀ x y (m n : ℤ), fin x → fin y → val x = m → val y = n → |m + n| ≤ 2 ^ 53 →
    fin (o.add x y) ∧ val (o.add x y) = ((m + n : ℤ) : ℝ)

/-- No value is kept with more than the 53 bits of binary64: from 2^53 on only even integers are representable. -/
def Ieee.NoExcess {F : Type} {o : FloatOps F} (M : Ieee o) : Prop :=
  ∀ x, M.fin x → 2 ^ 53 ≤ |M.val x| → ∃ m : ℤ, M.val x = ((2 * m : ℤ) : ℝ)

end BN
