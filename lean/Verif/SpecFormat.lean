import Verif.SpecFloat
/-
The same laws for other floating-point formats: `float`, and `double` again.
-/
namespace BN

/-- What is known of a format: `u` bounds the relative error of an operation, `eta` the absolute error of one that underflows, results up
to `big` do not overflow, and integers up to `N` are represented exactly. -/
structure Format where
  u : ℝ
  eta : ℝ
  big : ℝ
  N : ℕ

/-- binary64, as in `Ieee`. -/
noncomputable def Format.double : Format := ⟨BN.uro, BN.eta, BN.big, 2 ^ 53⟩
/-- binary32: unit roundoff 2^-24 and a little more for excess precision, underflow errors up to 2^-150, overflow near 2^128. -/
noncomputable def Format.single : Format := ⟨(1 + 1 / 2 ^ 10) / 2 ^ 24, 1 / 2 ^ 149, 2 ^ 127, 2 ^ 24⟩

/-- binary64 with results rounded up or down instead of to the nearest number: twice the unit roundoff. -/
noncomputable def Format.anyMode : Format := ⟨(1 + 1 / 2 ^ 10) / 2 ^ 52, BN.eta, BN.big, 2 ^ 53⟩

/-- The laws of `Ieee` with the constants of the format. -/
structure Laws (f : Format) {F : Type} (o : FloatOps F) where
  val : F → ℝ
  fin : F → Prop
  /-- integers up to 2^53 are represented exactly -/
  ofNat_ok : ∀ n : ℕ, n ≤ f.N → fin (o.ofNat n) ∧ val (o.ofNat n) = n
  add_ok : ∀ x y, fin x → fin y → |val x + val y| ≤ f.big →
    fin (o.add x y) ∧ |val (o.add x y) - (val x + val y)| ≤ f.u * |val x + val y|
  sub_ok : ∀ x y, fin x → fin y → |val x - val y| ≤ f.big →
    fin (o.sub x y) ∧ |val (o.sub x y) - (val x - val y)| ≤ f.u * |val x - val y|
  mul_ok : ∀ x y, fin x → fin y → |val x * val y| ≤ f.big →
    fin (o.mul x y) ∧ |val (o.mul x y) - val x * val y| ≤ f.u * |val x * val y| + f.eta
  /-- a difference of products: both are rounded before the subtraction, or the second, or the first -/
  mulSub_ok : ∀ x y z w, fin x → fin y → fin z → fin w → |val x * val y| ≤ f.big / 2 → |val z * val w| ≤ f.big / 2 →
    o.mulSub x y z w = o.sub (o.mul x y) (o.mul z w) ∨
    (|val x * val y - val (o.mul z w)| ≤ f.big → fin (o.mulSub x y z w) ∧
      |val (o.mulSub x y z w) - (val x * val y - val (o.mul z w))| ≤ f.u * |val x * val y - val (o.mul z w)| + f.eta) ∨
    (|val (o.mul x y) - val z * val w| ≤ f.big → fin (o.mulSub x y z w) ∧
      |val (o.mulSub x y z w) - (val (o.mul x y) - val z * val w)| ≤ f.u * |val (o.mul x y) - val z * val w| + f.eta)
  /-- a sum of products, likewise -/
  mulAdd_ok : ∀ x y z w, fin x → fin y → fin z → fin w → |val x * val y| ≤ f.big / 2 → |val z * val w| ≤ f.big / 2 →
    o.mulAdd x y z w = o.add (o.mul x y) (o.mul z w) ∨
    (|val x * val y + val (o.mul z w)| ≤ f.big → fin (o.mulAdd x y z w) ∧
      |val (o.mulAdd x y z w) - (val x * val y + val (o.mul z w))| ≤ f.u * |val x * val y + val (o.mul z w)| + f.eta) ∨
    (|val (o.mul x y) + val z * val w| ≤ f.big → fin (o.mulAdd x y z w) ∧
      |val (o.mulAdd x y z w) - (val (o.mul x y) + val z * val w)| ≤ f.u * |val (o.mul x y) + val z * val w| + f.eta)
  div_ok : ∀ x y, fin x → fin y → val y ≠ 0 → |val x / val y| ≤ f.big →
    fin (o.div x y) ∧ |val (o.div x y) - val x / val y| ≤ f.u * |val x / val y| + f.eta
  neg_ok : ∀ x, fin x → fin (o.neg x) ∧ val (o.neg x) = - val x
  /-- within two units in the last place near 1, for the arguments the transforms use -/
  cos_ok : ∀ x, fin x → |val x| ≤ 4 → fin (o.cos x) ∧ |val (o.cos x) - Real.cos (val x)| ≤ 4 * f.u
  sin_ok : ∀ x, fin x → |val x| ≤ 4 → fin (o.sin x) ∧ |val (o.sin x) - Real.sin (val x)| ≤ 4 * f.u
  floor_ok : ∀ x, fin x → fin (o.floor x) ∧ val (o.floor x) = (⌊val x⌋ : ℤ)
  trunc_ok : ∀ x, fin x → o.trunc x = if 0 ≤ val x then ⌊val x⌋ else ⌈val x⌉
  pi_ok : fin o.pi ∧ |val o.pi - Real.pi| ≤ 2 * f.u
  negTwo_ok : fin o.negTwo ∧ val o.negTwo = -2
  half_ok : fin o.half ∧ val o.half = 1 / 2
  quarter_ok : fin o.quarter ∧ val o.quarter = 1 / 4
  /-- a sum of integers that is representable is computed exactly -/
  addInt_ok : ∀ x y (m n : ℤ), fin x → fin y → val x = m → val y = n → |m + n| ≤ f.N →
    fin (o.add x y) ∧ val (o.add x y) = ((m + n : ℤ) : ℝ)

/-- The laws assumed of `double` are the laws of the format `double`. -/
def Ieee.laws {F : Type} {o : FloatOps F} (M : Ieee o) : Laws .double o :=
  { val := M.val, fin := M.fin, ofNat_ok := M.ofNat_ok, add_ok := M.add_ok, sub_ok := M.sub_ok, mul_ok := M.mul_ok, mulSub_ok := M.mulSub_ok, mulAdd_ok := M.mulAdd_ok, div_ok := M.div_ok, neg_ok := M.neg_ok, cos_ok := M.cos_ok, sin_ok := M.sin_ok, floor_ok := M.floor_ok, trunc_ok := M.trunc_ok, pi_ok := M.pi_ok, negTwo_ok := M.negTwo_ok, half_ok := M.half_ok, quarter_ok := M.quarter_ok, addInt_ok := M.addInt_ok }

/-- Value of a pair. -/
def Laws.c {f : Format} {F : Type} {o : FloatOps F} (M : Laws f o) (x : Cx F) : ℂ := ⟨M.val x.re, M.val x.im⟩
/-- Both parts are finite. -/
def Laws.finC {f : Format} {F : Type} {o : FloatOps F} (M : Laws f o) (x : Cx F) : Prop := M.fin x.re ∧ M.fin x.im

end BN
