import Verif.Lemmas.Conv
import Mathlib.RingTheory.RootsOfUnity.Complex
import Mathlib.Algebra.Field.GeomSum
import Mathlib.Tactic.LinearCombination
/-
The discrete Fourier transform of 2^k complex numbers: butterfly, inversion, product.
-/
namespace BN
open Complex Finset

/-- The root of unity exp(-2πi / 2^k). -/
noncomputable def rt (k : ℕ) : ℂ := exp (-(2 * Real.pi * I / (2 ^ k : ℕ)))

theorem rt_eq_inv (k : ℕ) : rt k = (exp (2 * Real.pi * I / (2 ^ k : ℕ)))⁻¹ := by
  unfold rt; rw [exp_neg]

theorem rt_prim (k : ℕ) : IsPrimitiveRoot (rt k) (2 ^ k) := by
  rw [rt_eq_inv]
  exact (isPrimitiveRoot_exp (2 ^ k) (by positivity)).inv

theorem rt_pow (k : ℕ) : rt k ^ 2 ^ k = 1 := (rt_prim k).pow_eq_one

theorem rt_sq (k : ℕ) : rt (k + 1) ^ 2 = rt k := by
  unfold rt
  rw [← exp_nat_mul]
  congr 1
  push_cast
  have : (2 : ℂ) ^ k ≠ 0 := pow_ne_zero _ two_ne_zero
  rw [pow_succ]
  field_simp

theorem rt_half (k : ℕ) : rt (k + 1) ^ 2 ^ k = -1 := by
  have h1 : (rt (k + 1) ^ 2 ^ k) ^ 2 = 1 := by
    rw [← pow_mul, ← pow_succ, rt_pow]
  have h2 : rt (k + 1) ^ 2 ^ k ≠ 1 := by
    apply (rt_prim (k + 1)).pow_ne_one_of_pos_of_lt (by positivity)
    exact Nat.pow_lt_pow_right (by omega) (by omega)
  rcases sq_eq_one_iff.1 h1 with h | h
  · exact absurd h h2
  · exact h

theorem rt_norm (k : ℕ) : ‖rt k‖ = 1 := (rt_prim k).norm'_eq_one (by positivity)

theorem rt_ne_zero (k : ℕ) : rt k ≠ 0 := by
  intro h; have := rt_norm k; rw [h] at this; simp at this

theorem rt_conj (k : ℕ) : (starRingEnd ℂ) (rt k) = (rt k)⁻¹ := by
  rw [inv_def, normSq_eq_norm_sq, rt_norm]; simp

/-- The transform. -/
noncomputable def dft (k : ℕ) (f : ℕ → ℂ) (j : ℕ) : ℂ := ∑ t ∈ range (2 ^ k), f t * rt k ^ (j * t)

theorem sum_range_two_mul {M : Type*} [AddCommMonoid M] (g : ℕ → M) (n : ℕ) :
    ∑ t ∈ range (2 * n), g t = (∑ t ∈ range n, g (2 * t)) + ∑ t ∈ range n, g (2 * t + 1) := by
  induction n with
  | zero => simp
  | succ n ih =>
    rw [show 2 * (n + 1) = 2 * n + 1 + 1 by ring, sum_range_succ, sum_range_succ, ih, sum_range_succ, sum_range_succ]
    abel

/-- Butterfly. -/
theorem dft_succ (k : ℕ) (f : ℕ → ℂ) (j : ℕ) :
    dft (k + 1) f j = dft k (fun t => f (2 * t)) j + rt (k + 1) ^ j * dft k (fun t => f (2 * t + 1)) j := by
  unfold dft
  rw [pow_succ, Nat.mul_comm, sum_range_two_mul, mul_sum]
  congr 1
  · apply sum_congr rfl
    intro t _
    rw [← rt_sq k, ← pow_mul]; congr 2; ring
  · apply sum_congr rfl
    intro t _
    rw [← rt_sq k, ← pow_mul, show j * (2 * t + 1) = 2 * (j * t) + j by ring, pow_add]; ring

theorem dft_periodic (k : ℕ) (f : ℕ → ℂ) (j : ℕ) : dft k f (j + 2 ^ k) = dft k f j := by
  unfold dft
  apply sum_congr rfl
  intro t _
  rw [Nat.add_mul, pow_add, pow_mul _ (2 ^ k), rt_pow, one_pow, mul_one]

theorem dft_succ_hi (k : ℕ) (f : ℕ → ℂ) (j : ℕ) :
    dft (k + 1) f (j + 2 ^ k) =
      dft k (fun t => f (2 * t)) j - rt (k + 1) ^ j * dft k (fun t => f (2 * t + 1)) j := by
  rw [dft_succ, dft_periodic, dft_periodic, pow_add, rt_half]; ring

theorem dft_zero (f : ℕ → ℂ) (j : ℕ) : dft 0 f j = f 0 := by
  simp [dft, rt, exp_neg]

/-- Butterfly over the two halves of the output, as one formula. -/
theorem dft_rec (k : ℕ) (f : ℕ → ℂ) (j : ℕ) : dft (k + 1) f j =
    if j < 2 ^ k then dft k (fun t => f (2 * t)) j + rt (k + 1) ^ j * dft k (fun t => f (2 * t + 1)) j
    else dft k (fun t => f (2 * t)) (j - 2 ^ k) - rt (k + 1) ^ (j - 2 ^ k) * dft k (fun t => f (2 * t + 1)) (j - 2 ^ k) := by
  split
  · exact dft_succ k f j
  · rename_i h
    conv_lhs => rw [show j = (j - 2 ^ k) + 2 ^ k by omega]
    exact dft_succ_hi k f _

/-- The inverse transform. -/
noncomputable def idft (k : ℕ) (f : ℕ → ℂ) (i : ℕ) : ℂ :=
  (∑ j ∈ range (2 ^ k), f j * ((rt k)⁻¹) ^ (i * j)) / (2 ^ k : ℕ)

theorem idft_dft (k : ℕ) (f : ℕ → ℂ) {i : ℕ} (hi : i < 2 ^ k) : idft k (dft k f) i = f i := by
  have hN : ((2 ^ k : ℕ) : ℂ) ≠ 0 := Nat.cast_ne_zero.2 (by positivity)
  unfold idft dft
  rw [div_eq_iff hN]
  simp only [sum_mul]
  rw [sum_comm]
  have key : ∀ t ∈ range (2 ^ k), ∑ j ∈ range (2 ^ k), f t * rt k ^ (j * t) * (rt k)⁻¹ ^ (i * j) =
      if t = i then f i * (2 ^ k : ℕ) else 0 := by
    intro t ht
    have ht' := mem_range.1 ht
    have e : ∀ j ∈ range (2 ^ k), f t * rt k ^ (j * t) * (rt k)⁻¹ ^ (i * j) = f t * (rt k ^ t * (rt k)⁻¹ ^ i) ^ j := by
      intro j _
      rw [mul_pow, ← pow_mul, ← pow_mul, Nat.mul_comm j t]; ring
    rw [sum_congr rfl e, ← mul_sum]
    split
    · rename_i h
      subst h
      rw [inv_pow, mul_inv_cancel₀ (pow_ne_zero _ (rt_ne_zero k))]
      simp
    · rename_i h
      have hz : rt k ^ t * (rt k)⁻¹ ^ i ≠ 1 := by
        rw [inv_pow, ← div_eq_mul_inv, ne_eq, div_eq_one_iff_eq (pow_ne_zero _ (rt_ne_zero k))]
        intro heq
        exact h ((rt_prim k).pow_inj ht' hi heq)
      have hp : (rt k ^ t * (rt k)⁻¹ ^ i) ^ 2 ^ k = 1 := by
        rw [mul_pow, ← pow_mul, ← pow_mul, Nat.mul_comm t, Nat.mul_comm i, pow_mul, pow_mul, rt_pow, inv_pow, rt_pow]
        simp
      rw [geom_sum_eq hz, hp]; simp
  rw [sum_congr rfl key, sum_ite_eq' (range (2 ^ k)) i, if_pos (mem_range.2 hi)]

/-- The inverse transform through conjugation and a forward transform. -/
theorem idft_conj (k : ℕ) (f : ℕ → ℂ) (i : ℕ) :
    (starRingEnd ℂ) (dft k (fun t => (starRingEnd ℂ) (f t)) i) / (2 ^ k : ℕ) = idft k f i := by
  unfold dft idft
  congr 1
  rw [map_sum]
  apply sum_congr rfl
  intro t _
  rw [map_mul, map_pow, rt_conj]; simp

theorem inv_rt_norm (k : ℕ) : ‖(rt k)⁻¹‖ = 1 := by rw [norm_inv, rt_norm, inv_one]

/-- The conjugate of the mirrored transform is the transform of the conjugates. -/
theorem dft_mirror (k : ℕ) (f : ℕ → ℂ) {j : ℕ} (hj : j < 2 ^ k) :
    (starRingEnd ℂ) (dft k f ((2 ^ k - j) % 2 ^ k)) = dft k (fun t => (starRingEnd ℂ) (f t)) j := by
  have hmod : dft k f ((2 ^ k - j) % 2 ^ k) = dft k f (2 ^ k - j) := by
    rcases Nat.eq_zero_or_pos j with h | h
    · subst h
      have := dft_periodic k f 0
      simp only [Nat.zero_add] at this
      simp [this]
    · rw [Nat.mod_eq_of_lt (by omega)]
  rw [hmod]
  unfold dft
  rw [map_sum]
  apply sum_congr rfl
  intro t _
  rw [map_mul, map_pow, rt_conj]
  congr 1
  have h1 : rt k ^ (j * t) * rt k ^ ((2 ^ k - j) * t) = 1 := by
    rw [← pow_add, ← Nat.add_mul, show j + (2 ^ k - j) = 2 ^ k by omega, pow_mul, rt_pow, one_pow]
  rw [inv_pow]
  exact (eq_inv_of_mul_eq_one_left h1).symm

/-! ### Product of digit lists -/

/-- The columns of a product, evaluated at any point of a commutative ring. -/
theorem sum_colSum_ring {R : Type*} [CommRing R] (x : R) : ∀ (a b : List ℕ) (n : ℕ), a.length + b.length ≤ n →
    ∑ k ∈ range n, (colSum a b k : R) * x ^ k =
      (∑ k ∈ range n, (a.getD k 0 : R) * x ^ k) * ∑ k ∈ range n, (b.getD k 0 : R) * x ^ k
  | [], b, n, _ => by simp [colSum_nil_left]
  | y :: a, b, 0, h => by simp at h
  | y :: a, b, n + 1, h => by
    have hl : a.length + b.length ≤ n := by simp at h; omega
    have ih := sum_colSum_ring x a b n hl
    have hb : ∑ k ∈ range (n + 1), (b.getD k 0 : R) * x ^ k = ∑ k ∈ range n, (b.getD k 0 : R) * x ^ k := by
      rw [sum_range_succ, List.getD_eq_default b _ (by omega)]; simp
    have ha : ∑ k ∈ range (n + 1), ((y :: a).getD k 0 : R) * x ^ k = (∑ k ∈ range n, (a.getD k 0 : R) * x ^ k) * x + y := by
      rw [sum_range_succ', sum_mul]
      simp [pow_succ, mul_assoc]
    rw [sum_range_succ']
    have h1 : ∀ k ∈ range n, (colSum (y :: a) b (k + 1) : R) * x ^ (k + 1) =
        y * ((b.getD (k + 1) 0 : R) * x ^ (k + 1)) + (colSum a b k * x ^ k) * x := by
      intro k _
      rw [colSum_cons_succ, pow_succ]; push_cast; ring
    rw [sum_congr rfl h1, sum_add_distrib, ← mul_sum, ← sum_mul, ih, colSum_cons_zero, ha]
    have hb' : ∑ k ∈ range n, (b.getD k 0 : R) * x ^ k =
        (∑ k ∈ range n, (b.getD (k + 1) 0 : R) * x ^ (k + 1)) + b.getD 0 0 := by
      rw [← hb, sum_range_succ']; simp
    rw [hb]
    push_cast
    rw [pow_zero, mul_one]
    linear_combination (-(y : R)) * hb'

/-- The signal of a digit list. -/
def sig (a : List ℕ) (t : ℕ) : ℂ := (a.getD t 0 : ℕ)

/-- Transform of the columns = product of the transforms. -/
theorem dft_colSum {k : ℕ} {a b : List ℕ} (h : a.length + b.length ≤ 2 ^ k) (j : ℕ) :
    dft k (fun t => (colSum a b t : ℂ)) j = dft k (sig a) j * dft k (sig b) j := by
  have := sum_colSum_ring (rt k ^ j) a b (2 ^ k) h
  unfold dft sig
  simpa [pow_mul] using this

theorem dft_lin (k : ℕ) (f g : ℕ → ℂ) (c : ℂ) (j : ℕ) :
    dft k (fun t => f t + c * g t) j = dft k f j + c * dft k g j := by
  unfold dft
  rw [mul_sum, ← sum_add_distrib]
  apply sum_congr rfl
  intro t _; ring

/-- The conjugate-index trick separates the two packed signals. -/
theorem unpack {k : ℕ} (a b : List ℕ) {j : ℕ} (hj : j < 2 ^ k) :
    dft k (fun t => sig a t + I * sig b t) j +
        (starRingEnd ℂ) (dft k (fun t => sig a t + I * sig b t) ((2 ^ k - j) % 2 ^ k)) = 2 * dft k (sig a) j ∧
    dft k (fun t => sig a t + I * sig b t) j -
        (starRingEnd ℂ) (dft k (fun t => sig a t + I * sig b t) ((2 ^ k - j) % 2 ^ k)) = 2 * I * dft k (sig b) j := by
  rw [dft_mirror k _ hj]
  have e : (fun t => (starRingEnd ℂ) (sig a t + I * sig b t)) = fun t => sig a t + (-I) * sig b t := by
    funext t
    simp [sig]
  rw [e, dft_lin, dft_lin]
  constructor <;> ring

theorem para (a b : ℂ) : ‖a + b‖ ^ 2 + ‖a - b‖ ^ 2 = 2 * (‖a‖ ^ 2 + ‖b‖ ^ 2) := by
  simp only [Complex.sq_norm, normSq_apply, add_re, add_im, sub_re, sub_im]; ring

/-- Energy is scaled by the number of points. -/
theorem dft_energy : ∀ (k : ℕ) (f : ℕ → ℂ),
    ∑ j ∈ range (2 ^ k), ‖dft k f j‖ ^ 2 = 2 ^ k * ∑ t ∈ range (2 ^ k), ‖f t‖ ^ 2
  | 0, f => by simp [dft_zero]
  | k + 1, f => by
    have e2 : 2 ^ (k + 1) = 2 ^ k + 2 ^ k := by rw [pow_succ]; ring
    have ih1 := dft_energy k (fun t => f (2 * t))
    have ih2 := dft_energy k (fun t => f (2 * t + 1))
    have hs : ∑ t ∈ range (2 ^ (k + 1)), ‖f t‖ ^ 2 =
        (∑ t ∈ range (2 ^ k), ‖f (2 * t)‖ ^ 2) + ∑ t ∈ range (2 ^ k), ‖f (2 * t + 1)‖ ^ 2 := by
      rw [pow_succ, Nat.mul_comm]; exact sum_range_two_mul (fun t => ‖f t‖ ^ 2) (2 ^ k)
    have hp : (2 : ℝ) ^ (k + 1) = 2 * 2 ^ k := by rw [pow_succ]; ring
    rw [hs, hp, mul_add, mul_assoc, mul_assoc, ← ih1, ← ih2, e2, sum_range_add, ← sum_add_distrib,
      ← mul_add, ← sum_add_distrib, mul_sum]
    apply sum_congr rfl
    intro j hj
    rw [dft_succ, Nat.add_comm (2 ^ k) j, dft_succ_hi]
    have hw : ‖rt (k + 1) ^ j * dft k (fun t => f (2 * t + 1)) j‖ = ‖dft k (fun t => f (2 * t + 1)) j‖ := by
      rw [norm_mul, norm_pow, rt_norm, one_pow, one_mul]
    rw [← hw]
    exact para _ _

end BN
