import Verif.SpecFormat
/-
Assumptions on an arithmetic that changes with time: at every moment it obeys the laws of the format, for one meaning of the numbers.
-/
namespace BN

/-- The laws of the format (`Laws`) at one moment; `val` is the number that a datum stands for, and `fin` says which data are finite. The
roundings within a sum of products need not be those of the operation `mul` of the moment. -/
structure LawfulAt (f : Format) {F : Type} (val : F → ℝ) (fin : F → Prop) (o : FloatOps F) : Prop where
  ofNat_ok : ∀ n : ℕ, n ≤ f.N → fin (o.ofNat n) ∧ val (o.ofNat n) = n
  add_ok : ∀ x y, fin x → fin y → |val x + val y| ≤ f.big →
    fin (o.add x y) ∧ |val (o.add x y) - (val x + val y)| ≤ f.u * |val x + val y|
  sub_ok : ∀ x y, fin x → fin y → |val x - val y| ≤ f.big →
    fin (o.sub x y) ∧ |val (o.sub x y) - (val x - val y)| ≤ f.u * |val x - val y|
  mul_ok : ∀ x y, fin x → fin y → |val x * val y| ≤ f.big →
    fin (o.mul x y) ∧ |val (o.mul x y) - val x * val y| ≤ f.u * |val x * val y| + f.eta
  /-- a difference of products: both are rounded before the subtraction, or the second, or the first -/
  mulSub_ok : ∀ x y z w, fin x → fin y → fin z → fin w → |val x * val y| ≤ f.big / 2 → |val z * val w| ≤ f.big / 2 →
    ∃ p q : ℝ, |p - val x * val y| ≤ f.u * |val x * val y| + f.eta ∧ |q - val z * val w| ≤ f.u * |val z * val w| + f.eta ∧
      ((|p - q| ≤ f.big → fin (o.mulSub x y z w) ∧ |val (o.mulSub x y z w) - (p - q)| ≤ f.u * |p - q|) ∨
      (|val x * val y - q| ≤ f.big → fin (o.mulSub x y z w) ∧
        |val (o.mulSub x y z w) - (val x * val y - q)| ≤ f.u * |val x * val y - q| + f.eta) ∨
      (|p - val z * val w| ≤ f.big → fin (o.mulSub x y z w) ∧
        |val (o.mulSub x y z w) - (p - val z * val w)| ≤ f.u * |p - val z * val w| + f.eta))
  /-- a sum of products, likewise -/
  mulAdd_ok : ∀ x y z w, fin x → fin y → fin z → fin w → |val x * val y| ≤ f.big / 2 → |val z * val w| ≤ f.big / 2 →
    ∃ p q : ℝ, |p - val x * val y| ≤ f.u * |val x * val y| + f.eta ∧ |q - val z * val w| ≤ f.u * |val z * val w| + f.eta ∧
      ((|p + q| ≤ f.big → fin (o.mulAdd x y z w) ∧ |val (o.mulAdd x y z w) - (p + q)| ≤ f.u * |p + q|) ∨
      (|val x * val y + q| ≤ f.big → fin (o.mulAdd x y z w) ∧
        |val (o.mulAdd x y z w) - (val x * val y + q)| ≤ f.u * |val x * val y + q| + f.eta) ∨
      (|p + val z * val w| ≤ f.big → fin (o.mulAdd x y z w) ∧
        |val (o.mulAdd x y z w) - (p + val z * val w)| ≤ f.u * |p + val z * val w| + f.eta))
  div_ok : ∀ x y, fin x → fin y → val y ≠ 0 → |val x / val y| ≤ f.big →
    fin (o.div x y) ∧ |val (o.div x y) - val x / val y| ≤ f.u * |val x / val y| + f.eta
  neg_ok : ∀ x, fin x → fin (o.neg x) ∧ val (o.neg x) = - val x
  cos_ok : ∀ x, fin x → |val x| ≤ 4 → fin (o.cos x) ∧ |val (o.cos x) - Real.cos (val x)| ≤ 4 * f.u
  sin_ok : ∀ x, fin x → |val x| ≤ 4 → fin (o.sin x) ∧ |val (o.sin x) - Real.sin (val x)| ≤ 4 * f.u
  floor_ok : ∀ x, fin x → fin (o.floor x) ∧ val (o.floor x) = (⌊val x⌋ : ℤ)
  trunc_ok : ∀ x, fin x → o.trunc x = if 0 ≤ val x then ⌊val x⌋ else ⌈val x⌉
  pi_ok : fin o.pi ∧ |val o.pi - Real.pi| ≤ 2 * f.u
  negTwo_ok : fin o.negTwo ∧ val o.negTwo = -2
  half_ok : fin o.half ∧ val o.half = 1 / 2
  quarter_ok : fin o.quarter ∧ val o.quarter = 1 / 4
  addInt_ok : ∀ x y (m n : ℤ), fin x → fin y → val x = m → val y = n → |m + n| ≤ f.N →
    fin (o.add x y) ∧ val (o.add x y) = ((m + n : ℤ) : ℝ)

end BN
