import Verif.Lemmas.Samples
import Verif.Lemmas.FftNum
import Verif.Lemmas.RoundOps
import Verif.Props.Division
/-
Multiplication through the Fourier transform: C22-C26, C30.
-/
namespace BN
open Bignum

/-! ### C22 -/

/-- In exact arithmetic entry `i` of the inverse transform is column `i` of the long multiplication. -/
theorem C22_convolution {a b : List Nat} (h1 : 1 ≤ a.length + b.length) (h2 : a.length + b.length ≤ 2 ^ 32) {fuel : Nat}
    (hf : 32 < fuel) :
    ∃ inv table, (do let table ← createFftTable exactOps a b
                     let table ← convoluteFft exactOps fuel table
                     ifftComplex exactOps fuel table) = .ok inv ∧ createFftTable exactOps a b = .ok table ∧ inv.length = table.length ∧
      a.length + b.length ≤ inv.length ∧ ∀ i z, inv[i]? = some z → z.re = ((colSum a b i : ℕ) : ℝ) ∧ z.im = 0 := by
  obtain ⟨k, hk, hs, hl, -⟩ := fftTableSize_eq h1 h2
  refine ⟨_, _, pipeline_eq exactOps hk hs hf, createFftTable_eq exactOps a b, by simp [hs], by simpa using hl, ?_⟩
  intro i z hz
  have hi : i < 2 ^ k := by
    by_contra hc
    rw [List.getElem?_eq_none (by simpa using hc)] at hz; cases hz
  have hz' : ifftF exactOps k (pointF exactOps (2 ^ k) (fftF exactOps k (packF exactOps a b))) i = z := by
    unfold tab at hz
    rw [List.getElem?_map, List.getElem?_range hi] at hz
    exact Option.some.inj hz
  have h := exact_pipeline hl hi
  rw [hz'] at h
  exact ⟨by simpa [toC] using congrArg Complex.re h, by simpa [toC] using congrArg Complex.im h⟩

example : 1 ≤ [1, 2, 3].length + [4, 5].length := by decide

/-- The columns determine the product: this is what makes C22 the right thing to ask for. -/
theorem C22_columns_are_product (B : Nat) (a b : List Nat) {n : Nat} (hn : a.length + b.length ≤ n) :
    ∑ i ∈ Finset.range n, colSum a b i * B ^ i = natOf B a * natOf B b := sum_colSum B a b n hn

example := C22_columns_are_product 10 [9, 9, 1] [3, 2] (n := 5) (by decide)

/-- The sign of a product, value and well-formedness from what is known about its digits. -/
theorem mulAssign_of_digits {F : Type} {o : FloatOps F} {L : Limits} {env : Env} {fuel : Nat} {x : Bignum} {r : Rhs}
    (hx : Signed x.desc) (hy : Signed (r.get x).desc) {c : List Nat}
    (h : mulStrassen o L env fuel x.digits (r.get x).digits = .ok c) (h1 : InRange L.base c) (h2 : NoLeadingZero c)
    (h3 : natOf L.base c = natOf L.base x.digits * natOf L.base (r.get x).digits) :
    mulAssign o L env fuel x r = .ok ⟨signRule x.desc (r.get x).desc, c⟩ ∧
      WF L ⟨signRule x.desc (r.get x).desc, c⟩ ∧
      Bignum.toInt L ⟨signRule x.desc (r.get x).desc, c⟩ = x.toInt L * (r.get x).toInt L := by
  have hms := mulSign_signed hx hy
  have hsig : Signed (signRule x.desc (r.get x).desc) := hms ▸ mulSign_mem _ _
  refine ⟨?_, ⟨hsig, h1, .inl h2⟩, ?_⟩
  · unfold mulAssign
    have hc : isComputable x.desc = true := by rcases hx with e | e <;> rw [e] <;> rfl
    rw [hc]
    simp only [Bool.not_true, Bool.false_eq_true, if_false]
    rw [h, ok_bind, hms]; rfl
  · unfold Bignum.toInt Bignum.mag signRule
    simp only
    rw [h3]
    rcases hx with e1 | e1 <;> rcases hy with e2 | e2 <;> simp [e1, e2]

/-- The same for every budget. -/
theorem mulAssign_exact {F : Type} {o : FloatOps F} {L : Limits} {env : Env} {x : Bignum} {r : Rhs} (hx : Signed x.desc)
    (hy : Signed (r.get x).desc)
    (key : ∀ n, 32 < n → ∃ c, mulStrassen o L env n x.digits (r.get x).digits = .ok c ∧ InRange L.base c ∧ NoLeadingZero c ∧
      natOf L.base c = natOf L.base x.digits * natOf L.base (r.get x).digits) :
    ∃ z, (∀ n, 32 < n → mulAssign o L env n x r = .ok z) ∧ WF L z ∧ NoLeadingZero z.digits ∧
      z.desc = signRule x.desc (r.get x).desc ∧ z.toInt L = x.toInt L * (r.get x).toInt L := by
  obtain ⟨c, e0, i0, l0, v0⟩ := key 33 (by omega)
  obtain ⟨-, hw, hv⟩ := mulAssign_of_digits hx hy e0 i0 l0 v0
  refine ⟨_, fun n hn => ?_, hw, l0, rfl, hv⟩
  obtain ⟨c', e1, i1, l1, v1⟩ := key n hn
  have : c' = c := natOf_unique (Nat.succ_pos _) i1 i0 l1 l0 (v1.trans v0.symm)
  subst this
  exact (mulAssign_of_digits hx hy e1 i1 l1 v1).1

/-- With exact arithmetic the product is exact for every digit type, as long as the double-width type has room for a column
and its carry. -/
theorem C22_exact_product {L : Limits} (h : Supported L) {env : Env} (hm : env.Ample) {x : Bignum} {r : Rhs} (hx : WF L x)
    (hy : WF L (r.get x)) (h1 : 1 ≤ x.digits.length + (r.get x).digits.length)
    (h2 : x.digits.length + (r.get x).digits.length ≤ 2 ^ 32)
    (hfit : L.double.raw.fits ((min x.digits.length (r.get x).digits.length * ((L.base - 1) * L.base) - 1 : Nat) : Int) = true) :
    ∃ z, (∀ n, 32 < n → mulAssign exactOps L env n x r = .ok z) ∧ WF L z ∧ NoLeadingZero z.digits ∧
      z.desc = signRule x.desc (r.get x).desc ∧ z.toInt L = x.toInt L * (r.get x).toInt L := by
  obtain ⟨k, hk, hs, hl, -⟩ := fftTableSize_eq h1 h2
  have hB := h.base_ge
  refine mulAssign_exact hx.1 hy.1 fun n hn => mulStrassen_eq exactOps h (D := L.base - 1) hn hk hs hl (hm _) (by omega)
    (by rw [show L.base - 1 + 1 = L.base by omega]; exact hx.2.1) (by rw [show L.base - 1 + 1 = L.base by omega]; exact hy.2.1)
    (by rw [show L.base - 1 + 1 = L.base by omega]; exact hfit) ?_
  intro i hi c _
  have e : coefF exactOps k x.digits (r.get x).digits i = ((colSum x.digits (r.get x).digits i : ℕ) : ℝ) :=
    congrArg Complex.re (exact_pipeline hl hi)
  rw [e]
  have e2 : ⌊((colSum x.digits (r.get x).digits i : ℕ) : ℝ) + 1 / 2⌋ = (colSum x.digits (r.get x).digits i : ℤ) := by
    rw [Int.floor_eq_iff]; push_cast; constructor <;> linarith
  simp only [exactOps]
  rw [e2]
  have e3 : ((c : ℕ) : ℝ) + ((colSum x.digits (r.get x).digits i : ℤ) : ℝ) = ((c + colSum x.digits (r.get x).digits i : ℕ) : ℝ) := by
    push_cast; rfl
  rw [e3, if_pos (Nat.cast_nonneg _), Int.floor_natCast]

example : Supported .base10 ∧ WF .base10 ⟨.neg, [3, 2, 1]⟩ ∧ Limits.base10.double.raw.fits ((min 3 2 * ((10 - 1) * 10) - 1 : Nat) : Int) = true := by
  refine ⟨.inr ⟨32, 9, by norm_num, by norm_num, by norm_num, rfl⟩, ⟨.inr rfl, ?_, .inl ?_⟩, by decide⟩
  · simp [InRange, Limits.base, Limits.base10, Limits.custom]
  · simp [NoLeadingZero]

/-! ### C23 -/

/-- If every computed coefficient is close enough to the exact column — closer than one half by the rounding error of the
addition of 0.5 — and a column with its carry fits the double-width type and 2^53, the product is exact. -/
theorem C23_exact_if_near {F : Type} {o : FloatOps F} (M : Ieee o) {L : Limits} (h : Supported L) {env : Env} (hm : env.Ample)
    {x : Bignum} {r : Rhs} (hx : WF L x) (hy : WF L (r.get x)) (h1 : 1 ≤ x.digits.length + (r.get x).digits.length)
    (h2 : x.digits.length + (r.get x).digits.length ≤ 2 ^ 32)
    (hfit : L.double.raw.fits ((min x.digits.length (r.get x).digits.length * ((L.base - 1) * L.base) - 1 : Nat) : Int) = true)
    (h53 : min x.digits.length (r.get x).digits.length * ((L.base - 1) * L.base) ≤ 2 ^ 53)
    (hnear : ∀ inv, (do let table ← createFftTable o x.digits (r.get x).digits
                        let table ← convoluteFft o 33 table
                        ifftComplex o 33 table) = .ok inv →
      ∀ i z, inv[i]? = some z → M.fin z.re ∧
        |M.val z.re - colSum x.digits (r.get x).digits i| + uro * (colSum x.digits (r.get x).digits i + 1) < 1 / 2) :
    ∃ z, (∀ n, 32 < n → mulAssign o L env n x r = .ok z) ∧ WF L z ∧ NoLeadingZero z.digits ∧
      z.desc = signRule x.desc (r.get x).desc ∧ z.toInt L = x.toInt L * (r.get x).toInt L := by
  obtain ⟨k, hk, hs, hl, -⟩ := fftTableSize_eq h1 h2
  have hB := h.base_ge
  have eB : L.base - 1 + 1 = L.base := by omega
  refine mulAssign_exact hx.1 hy.1 fun n hn => mulStrassen_eq o h (D := L.base - 1) hn hk hs hl (hm _) (by omega)
    (by rw [eB]; exact hx.2.1) (by rw [eB]; exact hy.2.1) (by rw [eB]; exact hfit) ?_
  intro i hi
  obtain ⟨f1, e1⟩ := hnear _ (pipeline_eq o hk hs (by omega)) i
    (ifftF o k (pointF o (2 ^ k) (fftF o k (packF o x.digits (r.get x).digits))) i)
    (by unfold tab; rw [List.getElem?_map, List.getElem?_range hi]; rfl)
  refine roundsTo_of_near M f1 e1 ?_
  have hcol := colSum_le hx.2.1 hy.2.1 i
  have hsum : min x.digits.length (r.get x).digits.length * (L.base - 1) +
      min x.digits.length (r.get x).digits.length * ((L.base - 1) * (L.base - 1)) =
      min x.digits.length (r.get x).digits.length * ((L.base - 1) * L.base) := by
    conv_rhs => rw [← eB]
    rw [eB]
    conv_rhs => rw [show (L.base - 1) * L.base = (L.base - 1) * (L.base - 1 + 1) by rw [eB]]
    ring
  omega

/-! ### C24 -/

/-- `C24_exact_general` below, which needs no condition on leading zeros of the operands. -/
theorem mulAssign_digits {F : Type} {o : FloatOps F} (M : Ieee o) {L : Limits} (h : Supported L) {env : Env} (hm : env.Ample)
    {x : Bignum} {r : Rhs} (hx : Signed x.desc) (hy : Signed (r.get x).desc) {K D N : Nat} (hK : K ≤ 32)
    (h1 : 1 ≤ x.digits.length + (r.get x).digits.length) (h2 : x.digits.length + (r.get x).digits.length ≤ 2 ^ K)
    (hD : D < L.base) (hxd : InRange (D + 1) x.digits) (hyd : InRange (D + 1) (r.get x).digits)
    (hN : min x.digits.length (r.get x).digits.length ≤ N)
    (hfit : L.double.raw.fits ((N * (D * (D + 1)) - 1 : Nat) : Int) = true)
    (h53 : D < 2 ^ 53) (hm53 : N * (D * (D + 1)) ≤ 2 ^ 53) {c2 : ℝ} (hc0 : 0 ≤ c2)
    (hc2 : ((D ^ 4 * (min x.digits.length (r.get x).digits.length * (x.digits.length * (r.get x).digits.length)) : ℕ) : ℝ) ≤ c2 ^ 2)
    (hsz : ((2 : ℝ) ^ K * ((D ^ 2 + 1) * 2 ^ K)) ≤ 2 ^ 72) (hE : errBound K D N c2 < 1 / 2) :
    ∃ z, (∀ n, 32 < n → mulAssign o L env n x r = .ok z) ∧ WF L z ∧ NoLeadingZero z.digits ∧
      z.desc = signRule x.desc (r.get x).desc ∧ z.toInt L = x.toInt L * (r.get x).toInt L :=
  mulAssign_exact hx hy fun _ hn => mulStrassen_ieee M h hn hK h1 h2 (hm _) hD hxd hyd
    (fits_mono h (Nat.sub_le_sub_right (Nat.mul_le_mul_right _ hN) 1) hfit) h53 (Nat.le_trans (Nat.mul_le_mul_right _ hN) hm53) hc0 hc2 hsz
    (lt_of_le_of_lt (errBound_mono hN c2) hE)

/-- The general statement: digits up to `D`, a table of up to 2^K entries. The bound `errBound` on the accumulated rounding
error is explicit. -/
theorem C24_exact_general {F : Type} {o : FloatOps F} (M : Ieee o) {L : Limits} (h : Supported L) {env : Env} (hm : env.Ample)
    {x : Bignum} {r : Rhs} (hx : WF L x) (hy : WF L (r.get x)) {K D N : Nat} (hK : K ≤ 32)
    (h1 : 1 ≤ x.digits.length + (r.get x).digits.length) (h2 : x.digits.length + (r.get x).digits.length ≤ 2 ^ K)
    (hD : D < L.base) (hxd : InRange (D + 1) x.digits) (hyd : InRange (D + 1) (r.get x).digits)
    (hN : min x.digits.length (r.get x).digits.length ≤ N)
    (hfit : L.double.raw.fits ((N * (D * (D + 1)) - 1 : Nat) : Int) = true)
    (h53 : D < 2 ^ 53) (hm53 : N * (D * (D + 1)) ≤ 2 ^ 53) {c2 : ℝ} (hc0 : 0 ≤ c2)
    (hc2 : ((D ^ 4 * (min x.digits.length (r.get x).digits.length * (x.digits.length * (r.get x).digits.length)) : ℕ) : ℝ) ≤ c2 ^ 2)
    (hsz : ((2 : ℝ) ^ K * ((D ^ 2 + 1) * 2 ^ K)) ≤ 2 ^ 72) (hE : errBound K D N c2 < 1 / 2) :
    ∃ z, (∀ n, 32 < n → mulAssign o L env n x r = .ok z) ∧ WF L z ∧ NoLeadingZero z.digits ∧
      z.desc = signRule x.desc (r.get x).desc ∧ z.toInt L = x.toInt L * (r.get x).toInt L :=
  mulAssign_digits M h hm hx.1 hy.1 hK h1 h2 hD hxd hyd hN hfit h53 hm53 hc0 hc2 hsz hE

example {F : Type} {o : FloatOps F} (M : Ieee o) := C24_exact_general M (L := .base10) (.inr Sample.base10) Sample.ample (x := ⟨.neg, [9, 9]⟩)
  (r := .other ⟨.neg, [9]⟩) (by sample) (by sample) (K := 2) (D := 9) (N := 1) (by decide) (by decide) (by decide) (by decide)
  (by sample) (by sample) (by decide) (by decide) (by decide) (by decide) (c2 := 128) (by norm_num)
  (by norm_num [Rhs.get]) (by norm_num) (by norm_num [errBound, uro, eta])

/-- The product of two lengths with a bounded sum. -/
theorem len_mul_le {p q n : Nat} (h : p + q ≤ 2 * n) : min p q * (p * q) ≤ n * (n * n) := by
  have h1 : min p q ≤ n := by omega
  have h2 : p * q ≤ n * n := by nlinarith [sq_nonneg ((p : Int) - q)]
  exact Nat.mul_le_mul h1 h2

/-- Base 10, without any condition on leading zeros. -/
theorem mulAssign_base10 {F : Type} {o : FloatOps F} (M : Ieee o) {env : Env} (hm : env.Ample) {x : Bignum} {r : Rhs}
    (hsx : Signed x.desc) (hsy : Signed (r.get x).desc)
    (hx : InRange 10 x.digits) (hy : InRange 10 (r.get x).digits) (h1 : 1 ≤ x.digits.length + (r.get x).digits.length)
    (h2 : x.digits.length + (r.get x).digits.length ≤ 2 ^ 25) :
    ∃ z, (∀ n, 32 < n → mulAssign o .base10 env n x r = .ok z) ∧ WF .base10 z ∧ NoLeadingZero z.digits ∧
      z.desc = signRule x.desc (r.get x).desc ∧ z.toInt .base10 = x.toInt .base10 * (r.get x).toInt .base10 := by
  refine mulAssign_digits M (.inr ⟨32, 9, by norm_num, by norm_num, by norm_num, rfl⟩) hm hsx hsy (K := 25) (D := 9)
    (N := 2 ^ 24) (c2 := 81 * 2 ^ 36) (by norm_num) h1 h2 (by decide) hx hy (by omega) (by decide) (by norm_num)
    (by norm_num) (by norm_num) ?_ (by norm_num) ?_
  · have := len_mul_le (n := 2 ^ 24) (by omega : _ ≤ 2 * 2 ^ 24)
    have h3 := Nat.mul_le_mul_left (9 ^ 4) this
    have h4 : (9 ^ 4 * (2 ^ 24 * (2 ^ 24 * 2 ^ 24)) : ℕ) = (81 * 2 ^ 36) ^ 2 := by norm_num
    rw [h4] at h3
    exact_mod_cast h3
  · norm_num [errBound, uro, eta]

/-- Base 10: exact for every pair of operands with up to 2^25 = 33 554 432 digits together. -/
theorem C24_base10 {F : Type} {o : FloatOps F} (M : Ieee o) {env : Env} (hm : env.Ample) {x : Bignum} {r : Rhs}
    (hx : WF .base10 x) (hy : WF .base10 (r.get x)) (h1 : 1 ≤ x.digits.length + (r.get x).digits.length)
    (h2 : x.digits.length + (r.get x).digits.length ≤ 2 ^ 25) :
    ∃ z, (∀ n, 32 < n → mulAssign o .base10 env n x r = .ok z) ∧ WF .base10 z ∧ NoLeadingZero z.digits ∧
      z.desc = signRule x.desc (r.get x).desc ∧ z.toInt .base10 = x.toInt .base10 * (r.get x).toInt .base10 :=
  mulAssign_base10 M hm hx.1 hy.1 hx.2.1 hy.2.1 h1 h2

example {F : Type} {o : FloatOps F} (M : Ieee o) := C24_base10 M Sample.ample (x := Sample.n199) (r := .other Sample.m23) (by sample)
  (by sample) (by decide) (by decide)

theorem len_mul_le' {p q m n : Nat} (h : p + q ≤ n) (hm : min p q ≤ m) : min p q * (p * q) ≤ m * (m * n) := by
  have h2 : p * q ≤ m * n := by
    rcases Nat.le_total p q with h3 | h3
    · exact Nat.mul_le_mul (by omega) (by omega)
    · rw [Nat.mul_comm]; exact Nat.mul_le_mul (by omega) (by omega)
  exact Nat.mul_le_mul hm h2

/-- Base 16: up to 2^24 digits together. -/
theorem C24_base16 {F : Type} {o : FloatOps F} (M : Ieee o) {env : Env} (hm : env.Ample) {x : Bignum} {r : Rhs}
    (hx : WF .base16 x) (hy : WF .base16 (r.get x)) (h1 : 1 ≤ x.digits.length + (r.get x).digits.length)
    (h2 : x.digits.length + (r.get x).digits.length ≤ 2 ^ 24) :
    ∃ z, (∀ n, 32 < n → mulAssign o .base16 env n x r = .ok z) ∧ WF .base16 z ∧ NoLeadingZero z.digits ∧
      z.desc = signRule x.desc (r.get x).desc ∧ z.toInt .base16 = x.toInt .base16 * (r.get x).toInt .base16 := by
  refine C24_exact_general M (.inr ⟨32, 15, by norm_num, by norm_num, by norm_num, rfl⟩) hm hx hy (K := 24) (D := 15)
    (N := 2 ^ 23) (c2 := (225 * 24296004000 : ℕ)) (by norm_num) h1 h2 (by decide) hx.2.1 hy.2.1 (by omega) (by decide) (by norm_num)
    (by norm_num) (Nat.cast_nonneg _) ?_ (by norm_num) ?_
  · have h3 := Nat.mul_le_mul_left (15 ^ 4) (len_mul_le (n := 2 ^ 23) (by omega : _ ≤ 2 * 2 ^ 23))
    have h4 : (15 ^ 4 * (2 ^ 23 * (2 ^ 23 * 2 ^ 23)) : ℕ) ≤ (225 * 24296004000) ^ 2 := by norm_num
    exact_mod_cast Nat.le_trans h3 h4
  · norm_num [errBound, uro, eta]

example {F : Type} {o : FloatOps F} (M : Ieee o) := C24_base16 M Sample.ample (x := ⟨.neg, [15, 15]⟩) (r := .self) (by sample)
  (by sample) (by decide) (by decide)

/-- Base 8: any lengths the table can hold, as long as the shorter operand has at most 1170 digits (the 16-bit digit type has
no room for more). -/
theorem C24_base8 {F : Type} {o : FloatOps F} (M : Ieee o) {env : Env} (hm : env.Ample) {x : Bignum} {r : Rhs}
    (hx : WF .base8 x) (hy : WF .base8 (r.get x)) (h1 : 1 ≤ x.digits.length + (r.get x).digits.length)
    (h2 : x.digits.length + (r.get x).digits.length ≤ 2 ^ 32) (h3 : min x.digits.length (r.get x).digits.length ≤ 1170) :
    ∃ z, (∀ n, 32 < n → mulAssign o .base8 env n x r = .ok z) ∧ WF .base8 z ∧ NoLeadingZero z.digits ∧
      z.desc = signRule x.desc (r.get x).desc ∧ z.toInt .base8 = x.toInt .base8 * (r.get x).toInt .base8 := by
  refine C24_exact_general M (.inr ⟨16, 7, by norm_num, by norm_num, by norm_num, rfl⟩) hm hx hy (K := 32) (D := 7)
    (N := 1170) (c2 := (49 * 1170 * 2 ^ 16 : ℕ)) (by norm_num) h1 h2 (by decide) hx.2.1 hy.2.1 h3 (by decide) (by norm_num)
    (by norm_num) (Nat.cast_nonneg _) ?_ (by norm_num) ?_
  · have h3 := Nat.mul_le_mul_left (7 ^ 4) (len_mul_le' h2 h3)
    have h4 : (7 ^ 4 * (1170 * (1170 * 2 ^ 32)) : ℕ) ≤ (49 * 1170 * 2 ^ 16) ^ 2 := by norm_num
    exact_mod_cast Nat.le_trans h3 h4
  · norm_num [errBound, uro, eta]

example {F : Type} {o : FloatOps F} (M : Ieee o) := C24_base8 M Sample.ample (x := ⟨.neg, [7, 7]⟩) (r := .self) (by sample)
  (by sample) (by decide) (by decide) (by decide)

/-- Base 2: any lengths the table can hold, as long as the shorter operand has at most 128 digits. -/
theorem C24_base2 {F : Type} {o : FloatOps F} (M : Ieee o) {env : Env} (hm : env.Ample) {x : Bignum} {r : Rhs}
    (hx : WF .base2 x) (hy : WF .base2 (r.get x)) (h1 : 1 ≤ x.digits.length + (r.get x).digits.length)
    (h2 : x.digits.length + (r.get x).digits.length ≤ 2 ^ 32) (h3 : min x.digits.length (r.get x).digits.length ≤ 128) :
    ∃ z, (∀ n, 32 < n → mulAssign o .base2 env n x r = .ok z) ∧ WF .base2 z ∧ NoLeadingZero z.digits ∧
      z.desc = signRule x.desc (r.get x).desc ∧ z.toInt .base2 = x.toInt .base2 * (r.get x).toInt .base2 := by
  refine C24_exact_general M (.inr ⟨8, 1, by norm_num, by norm_num, by norm_num, rfl⟩) hm hx hy (K := 32) (D := 1)
    (N := 128) (c2 := (128 * 2 ^ 16 : ℕ)) (by norm_num) h1 h2 (by decide) hx.2.1 hy.2.1 h3 (by decide) (by norm_num)
    (by norm_num) (Nat.cast_nonneg _) ?_ (by norm_num) ?_
  · have h3 := Nat.mul_le_mul_left (1 ^ 4) (len_mul_le' h2 h3)
    have h4 : (1 ^ 4 * (128 * (128 * 2 ^ 32)) : ℕ) ≤ (128 * 2 ^ 16) ^ 2 := by norm_num
    exact_mod_cast Nat.le_trans h3 h4
  · norm_num [errBound, uro, eta]

/-- The hypothesis of `C23_exact_if_near` is met by every base-10 product of up to 2^25 digits. -/
example {F : Type} {o : FloatOps F} (M : Ieee o) {a b : List Nat} (ha : InRange 10 a) (hb : InRange 10 b)
    (h1 : 1 ≤ a.length + b.length) (h2 : a.length + b.length ≤ 2 ^ 25) :
    ∀ inv, (do let table ← createFftTable o a b
               let table ← convoluteFft o 33 table
               ifftComplex o 33 table) = .ok inv →
      ∀ i z, inv[i]? = some z → M.fin z.re ∧ |M.val z.re - colSum a b i| + uro * (colSum a b i + 1) < 1 / 2 := by
  intro inv hinv i z hz
  obtain ⟨k, hk, hs, hl, hu⟩ := fftTableSize_eq h1 (by omega)
  rw [pipeline_eq o hk hs (by omega)] at hinv
  cases hinv
  have hi : i < 2 ^ k := by
    by_contra hc
    rw [List.getElem?_eq_none (by simpa using hc)] at hz; cases hz
  have hkK : k ≤ 25 := by
    by_contra hc
    have : 2 ^ (25 + 1) ≤ 2 ^ k := Nat.pow_le_pow_right (by omega) (by omega)
    omega
  unfold tab at hz
  rw [List.getElem?_map, List.getElem?_range hi] at hz
  obtain rfl := Option.some.inj hz
  refine near_ieee M (K := 25) (D := 9) (c2 := 81 * 2 ^ 36) (by norm_num) hkK hl ha hb (by norm_num) (by omega) (by norm_num) ?_
    (by norm_num) (lt_of_le_of_lt (errBound_mono (n' := 2 ^ 24) (by omega) _) ?_) i hi
  · have := len_mul_le (n := 2 ^ 24) (by omega : a.length + b.length ≤ 2 * 2 ^ 24)
    have h3 := Nat.mul_le_mul_left (9 ^ 4) this
    have h4 : (9 ^ 4 * (2 ^ 24 * (2 ^ 24 * 2 ^ 24)) : ℕ) = (81 * 2 ^ 36) ^ 2 := by norm_num
    rw [h4] at h3
    exact_mod_cast h3
  · norm_num [errBound, uro, eta]

/-- The laws assumed of the arithmetic are satisfiable. -/
example : Nonempty (Ieee roundOps) := ⟨roundIeee⟩

/-! ### C25 -/

/-- Two-digit operands: the second column decides. -/
theorem second_column_ub {F : Type} {o : FloatOps F} {L : Limits} (h : Supported L) {env : Env} (hm : env.Ample) {a b : List Nat}
    {C m0 m1 : Nat} (hs : fftTableSize a.length b.length = 2 ^ 2)
    (h0 : RoundsTo o C (coefF o 2 a b 0) m0) (h1 : RoundsTo o C (coefF o 2 a b 1) m1) (hc : m0 / L.base ≤ C)
    (hf0 : L.double.raw.fits (m0 : Int) = true) (hf1 : L.double.raw.fits ((m0 / L.base + m1 : Nat) : Int) = false) {fuel : Nat}
    (hfuel : 32 < fuel) : mulStrassen o L env fuel a b = .error (.ub .floatToInt) := by
  rw [pipeline_split o L env fuel (hm _), pipeline_eq o (by norm_num) hs hfuel, ok_bind, tab_map]
  have e : (tab (2 ^ 2) fun i => (ifftF o 2 (pointF o (2 ^ 2) (fftF o 2 (packF o a b))) i).re) =
      [coefF o 2 a b 0, coefF o 2 a b 1, coefF o 2 a b 2, coefF o 2 a b 3] := rfl
  rw [e, carryLoop, carryStep_eq o h h0 (Nat.zero_le _) (by rw [Nat.zero_add]; exact hf0), ok_bind]
  simp only [Nat.zero_add]
  rw [carryLoop]
  have e2 : carryStep o L (m0 / L.base) (coefF o 2 a b 1) = .error (.ub .floatToInt) := by
    unfold carryStep floatToDouble
    simp only
    rw [h1 _ hc, if_neg (by rw [hf1]; simp)]; rfl
  rw [e2]; rfl

/-- 8-bit digits: 65535·65535, two digits each, converts a value that the 16-bit type cannot hold. -/
theorem C25_lowp_ub {F : Type} {o : FloatOps F} (M : Ieee o) {env : Env} (hm : env.Ample) {fuel : Nat} (hf : 32 < fuel)
    (d : Desc) (hd : Signed d) : mulAssign o .lowp env fuel ⟨d, [255, 255]⟩ .self = .ub .floatToInt := by
  have hr := rounds_ieee M (a := [255, 255]) (b := [255, 255]) (k := 2) (K := 2) (D := 255) (c2 := 65025 * 3) (by norm_num)
    (by norm_num) (by norm_num) (by simp [InRange]) (by simp [InRange]) (by norm_num) (by norm_num) (by norm_num) (by norm_num)
    (by norm_num) (by norm_num [errBound, uro, eta])
  have hu : mulStrassen o .lowp env fuel [255, 255] [255, 255] = .error (.ub .floatToInt) :=
    second_column_ub (.inl .lowp) hm (m0 := 65025) (m1 := 130050) (by decide) (hr 0 (by norm_num)) (hr 1 (by norm_num)) (by decide)
      (by decide) (by decide) hf
  unfold mulAssign
  have hc : isComputable d = true := by rcases hd with e | e <;> rw [e] <;> rfl
  rw [hc]
  simp only [Bool.not_true, Bool.false_eq_true, if_false]
  show handle _ _ ((mulStrassen o .lowp env fuel [255, 255] [255, 255]) >>= _) = _
  rw [hu]; rfl

example {F : Type} {o : FloatOps F} (M : Ieee o) := C25_lowp_ub M Sample.ample (fuel := 33) (by decide) .neg (.inr rfl)

/-- 16-bit digits: the same for two digits 65535 each. -/
theorem C25_medp_ub {F : Type} {o : FloatOps F} (M : Ieee o) {env : Env} (hm : env.Ample) {fuel : Nat} (hf : 32 < fuel)
    (d : Desc) (hd : Signed d) : mulAssign o .medp env fuel ⟨d, [65535, 65535]⟩ .self = .ub .floatToInt := by
  have hr := rounds_ieee M (a := [65535, 65535]) (b := [65535, 65535]) (k := 2) (K := 2) (D := 65535) (c2 := 4294836225 * 3) (by norm_num)
    (by norm_num) (by norm_num) (by simp [InRange]) (by simp [InRange]) (by norm_num) (by norm_num) (by norm_num) (by norm_num)
    (by norm_num) (by norm_num [errBound, uro, eta])
  have hu : mulStrassen o .medp env fuel [65535, 65535] [65535, 65535] = .error (.ub .floatToInt) :=
    second_column_ub (.inl .medp) hm (m0 := 4294836225) (m1 := 8589672450) (by decide) (hr 0 (by norm_num)) (hr 1 (by norm_num)) (by decide)
      (by decide) (by decide) hf
  unfold mulAssign
  have hc : isComputable d = true := by rcases hd with e | e <;> rw [e] <;> rfl
  rw [hc]
  simp only [Bool.not_true, Bool.false_eq_true, if_false]
  show handle _ _ ((mulStrassen o .medp env fuel [65535, 65535] [65535, 65535]) >>= _) = _
  rw [hu]; rfl

example {F : Type} {o : FloatOps F} (M : Ieee o) := C25_medp_ub M Sample.ample (fuel := 33) (by decide) .neg (.inr rfl)

end BN
